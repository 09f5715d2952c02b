import Verif.Model.RustCli
import Verif.Spec.RustValue
import Verif.Spec.BzCsv
/-
What the records of a trace stand for, for the command line tool of the Rust monitor.
-/
namespace R2U2
namespace Rs
namespace Tool
variable {F : Type}

/-- The text of a value: an integer in decimal (0 or 1 for a Boolean signal), or a float that the Rust library reads as `v`. -/
inductive Stands (readF : List Char → Option F) : List Char → Cell F → Prop
  | int (i : Int) : -(2 ^ 31) ≤ i → i < 2 ^ 31 → Stands readF (Cli.intText i) (.int i)
  | flt (f : List Char) (v : F) : readF f = some v → Stands readF f (.flt v)

/-- The records have `w` fields, no time stamps, and give the values `σ` of the signals below `w`; the others stay zero. -/
structure Gives (ops : Ops F) (readF : List Char → Option F) (w : Nat) (rows : List (List (List Char))) (σ : Nat → Nat → Cell F) : Prop where
  some : 0 < w
  width : ∀ r ∈ rows, r.length = w
  plain : ∀ r ∈ rows, ∀ f, r.head? = Option.some f → f.head? ≠ Option.some '@'
  value : ∀ t r, rows[t]? = Option.some r → ∀ i f, r[i]? = Option.some f → Stands readF f (σ t i)
  zero : ∀ t, t < rows.length → ∀ i, w ≤ i → σ t i = .int 0 ∨ σ t i = .flt ops.zero

/-- The records have `w` fields, all integers in decimal; signal `i` is true at record `t` if its field there is not 0, and signals
from `w` on are false. -/
structure Truths (w : Nat) (rows : List (List (List Char))) (β : Nat → Nat → Bool) : Prop where
  some : 0 < w
  width : ∀ r ∈ rows, r.length = w
  value : ∀ t r, rows[t]? = Option.some r → ∀ i f, r[i]? = Option.some f →
    ∃ v : Int, -(2 ^ 31) ≤ v ∧ v < 2 ^ 31 ∧ f = Cli.intText v ∧ (β t i = true ↔ v ≠ 0)
  zero : ∀ t, t < rows.length → ∀ i, w ≤ i → β t i = false

/-- A verdict as a line of text: number of the specification, colon, time, comma, `T` or `F`. -/
def printed (x : Nat × Verdict) : List Char :=
  natStr x.1 ++ ":".toList ++ natStr x.2.time ++ (if x.2.truth then ",T\n" else ",F\n").toList

/-- The binary has an instruction for the booleanizer to run in every step. -/
def UsesBz (bytes : List Nat) : Prop := ∀ n es stop, loadBinary n bytes = some (es, stop) → R2U2.BzMon.table es ≠ []

end Tool
end Rs
end R2U2
