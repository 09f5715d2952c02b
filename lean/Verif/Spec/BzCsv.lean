import Verif.Model.BzCsv
import Verif.Spec.Csv
/-
What the values in a trace file stand for, when they are numbers.
-/
namespace R2U2
namespace Cli

/-- An integer in decimal. -/
def intText (i : Int) : List Char := if i < 0 then '-' :: natStr i.natAbs else natStr i.natAbs

/-- The text of a value: an integer in decimal (0 or 1 for a Boolean signal), or a float, written with a decimal point, that the C library
reads as `v`. -/
inductive Stands {F : Type} (readF : List Char → Option F) : List Char → Cell F → Prop
  | int (i : Int) : -(2 ^ 31) ≤ i → i < 2 ^ 31 → Stands readF (intText i) (.int i)
  | flt (f : List Char) (v : F) : '.' ∈ f → readF f = some v → Stands readF f (.flt v)

/-- The rows give the values `σ` of the signals below `w`; the others stay zero. -/
structure Gives {F : Type} (readF : List Char → Option F) (w : Nat) (rows : List (List (List Char))) (σ : Nat → Nat → Cell F) : Prop where
  value : ∀ t r, rows[t]? = some r → ∀ i f, r[i]? = some f → Stands readF f (σ t i)
  zero : ∀ t, t < rows.length → ∀ i, w ≤ i → σ t i = .int 0

end Cli
end R2U2
