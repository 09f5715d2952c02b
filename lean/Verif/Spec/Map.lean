import Verif.Model.Map
import Verif.Spec.Graph
import Mathlib.Data.List.Forall2
/-
What a map file means, apart from the code: lines `NAME:NUMBER`, `NAME[INDEX]:NUMBER`, `NAME[LOW..HIGH]:NUMBER`.
-/
namespace R2U2
namespace Map

/-- A letter or underscore, then letters, digits and underscores. -/
def Ident (a : List Char) : Prop := ∃ c cs, a = c :: cs ∧ isLetter c = true ∧ ∀ x ∈ cs, isWordC x = true

/-- The value of a text of digits. -/
def value (ds : List Char) : Nat := ds.foldl (fun n d => n * 10 + (d.toNat - 48)) 0

/-- `ds` is a number and `n` its value. -/
def Number (ds : List Char) (n : Nat) : Prop := ds ≠ [] ∧ (∀ d ∈ ds, isDig d = true) ∧ n = value ds

/-- A well-formed line and what it maps.  With `short` an index has one or two digits and the first index of a range
one. -/
inductive LineMeans (short : Bool) : List Char → List (List Char × Nat) → Prop
  | name {a ds n} : Ident a → Number ds n → LineMeans short (a ++ ':' :: ds) [(a, n)]
  | element {a ix ds i n} : Ident a → Number ix i → (short = true → ix.length ≤ 2) → Number ds n →
      LineMeans short (a ++ '[' :: (ix ++ ']' :: ':' :: ds)) [(a ++ '[' :: (ix ++ [']']), n)]
  | range {a lo hi ds l h n} : Ident a → Number lo l → (short = true → lo.length = 1) → Number hi h → Number ds n →
      LineMeans short (a ++ '[' :: (lo ++ '.' :: '.' :: (hi ++ ']' :: ':' :: ds)))
        ((List.range (h + 1 - l)).map fun k => (a ++ '[' :: (natStr (l + k) ++ [']']), n + k))

/-- The number lines give a name: that of the last one with the name. -/
def final (ess : List (List (List Char × Nat))) (n : List Char) : Option Nat := ess.flatten.reverse.lookup n

/-- The definitions and specification sets of the program reach node `x`, a signal called `n`. -/
def St.Has (s : St) (x : Nat) (n : List Char) : Prop :=
  (∃ r ∈ s.defs ++ s.specs, s.heap.Reachable [r] x) ∧ s.heap.lab x = some n

end Map
end R2U2
