import Verif.Model.Names
import Verif.Spec.Printable
import Verif.Spec.FrontEnd
/-
What a monitor that knows the names of specifications should print: docs/Examples/agc.md:11-15 for contracts.
-/
namespace R2U2
namespace Aux

/-- The line for a verdict of the specification with the number `x.1`: its label (or its number, if there is no such specification), the time,
`T` or `F`. -/
def nameLine (specs : List (String × Nat)) (x : Nat × Verdict) : List Char :=
  (match specs.find? fun s => s.2 = x.1 with
    | some s => s.1.toList
    | none => natStr x.1) ++ (":".toList ++ natStr x.2.time ++ (if x.2.truth then ",T\n" else ",F\n").toList)

/-- The line about the status of a contract. -/
def statusLine (label : String) (status : String) (time : Nat) : List Char :=
  "Contract ".toList ++ label.toList ++ " ".toList ++ status.toList ++ " at ".toList ++ natStr time ++ "\n".toList

/-- The status a verdict of formula number `x.1` decides of a contract with the formulas `n₀` (the assumption), `n₁` (it implies the
guarantee) and `n₂` (both). -/
def statusOf (c : String × Nat × Nat × Nat) (x : Nat × Verdict) : Option String :=
  if x.1 = c.2.1 ∧ x.2.truth = false then some "inactive"
  else if x.1 = c.2.2.1 ∧ x.2.truth = false then some "invalid"
  else if x.1 = c.2.2.2 ∧ x.2.truth = true then some "verified"
  else none

/-- The lines about contracts for a verdict. -/
def statusLines (contracts : List (String × Nat × Nat × Nat)) (x : Nat × Verdict) : List Char :=
  contracts.flatMap fun c =>
    match statusOf c x with
    | some s => statusLine c.1 s x.2.time
    | none => []

/-- The status of a contract whose assumption is `a` and whose guarantee is `g`: "true if both the left and right sides are true,
false if the left side is true and right side is false, and inactive otherwise". -/
def status (a g : Bool) : String := if a then if g then "verified" else "invalid" else "inactive"

/-- Names for specifications the auxiliary section can carry: identifiers of at most 50 characters; numbers that fit. -/
structure Labels (specs : List (String × Nat)) (contracts : List (String × Nat × Nat × Nat)) : Prop where
  idents : ∀ s ∈ specs, IsIdent s.1 ∧ s.1.length ≤ 50 ∧ s.2 < 2 ^ 32
  contracts : ∀ c ∈ contracts, IsIdent c.1 ∧ c.2.1 < 2 ^ 32 ∧ c.2.2.1 < 2 ^ 32 ∧ c.2.2.2 < 2 ^ 32

/-- Bytes needed for the names: each ends with a zero. -/
def room (specs : List (String × Nat)) (contracts : List (String × Nat × Nat × Nat)) : Nat :=
  (specs.map fun s => s.1.length + 1).sum + (contracts.map fun c => c.1.length + 1).sum

/-- What is printed of the contract `c`, whose assumption is `A` and whose guarantee is `G`, is right and complete up to (not including) time `T`: a
line with time `u` gives the status at `u`, and for every time before `T` there is a line with that time or a later one whose status is the status
at that time and at all times up to the time in the line. -/
structure Tells (A G : Nat → Bool) (c : String × Nat × Nat × Nat) (out : List (Nat × Verdict)) (T : Nat) : Prop where
  right : ∀ x ∈ out, ∀ s, statusOf c x = some s → s = status (A x.2.time) (G x.2.time)
  complete : ∀ t < T, ∃ x ∈ out, t ≤ x.2.time ∧ ∀ i, t ≤ i → i ≤ x.2.time → statusOf c x = some (status (A i) (G i))

end Aux

/-- The specifications of a program, in the order of its text. -/
def allSpecs (secs : List Sec) : List Spec :=
  secs.flatMap fun
    | .spec _ ss => ss
    | _ => []

/-- No PTSPEC section before an FTSPEC section. -/
def FutureFirst (secs : List Sec) : Prop :=
  secs.Pairwise fun a b => ∀ ss ss', a = .spec false ss → b ≠ .spec true ss'

end R2U2
