import Verif.Spec.RustStamps
import Verif.Spec.BzCsv
/-
C78.  Traces for the command line tool of the Rust monitor some of whose records have times.
-/
namespace R2U2
namespace Rs
namespace Tool

/-- The record of a row with, perhaps, a time. -/
def recordOf (x : Option Nat × List (List Char)) : List (List Char) :=
  match x.1 with
  | none => x.2
  | some T => withStamp T x.2

/-- The rows, the first of which cannot be earlier than `e`, have `w` fields, all integers in decimal, and stand for the times and truth values `seen`: a row
without a time is one step after the row before, times increase, and a signal is true where its field is not 0. -/
def Timed (w : Nat) : Nat → List (Option Nat × List (List Char)) → List (Nat × (Nat → Bool)) → Prop
  | _, [], [] => True
  | e, (t, r) :: rows, (T, a) :: seen =>
      T = t.getD e ∧ e ≤ T ∧ r.length = w ∧
      (∀ i f, r[i]? = some f → ∃ v : Int, -(2 ^ 31) ≤ v ∧ v < 2 ^ 31 ∧ f = Cli.intText v ∧ (a i = true ↔ v ≠ 0)) ∧
      (∀ i, w ≤ i → a i = false) ∧ Timed w (T + 1) rows seen
  | _, _, _ => False

end Tool
end Rs
end R2U2
