import Verif.Spec.Monitor
import Verif.Spec.EndToEnd
import Verif.Spec.Csv
/-
What event rows say (docs/References/formats/signal_trace_files.md:22-41): "`@T` is the signal
at `T` and since the last `@` symbol".
-/
namespace R2U2

/-- The trace `tr` has, from time `e` on, the values the rows give: those of a row at its
time and at all times since the row before. -/
def RowsSay (tr : Nat → Nat → Bool) : Nat → List (Nat × (Nat → Bool)) → Prop
  | _, [] => True
  | e, (T, a) :: rows => e ≤ T ∧ (∀ s, e ≤ s → s ≤ T → tr s = a) ∧ RowsSay tr (T + 1) rows

/-- The first time the rows say nothing about. -/
def rowsEnd : Nat → List (Nat × (Nat → Bool)) → Nat
  | e, [] => e
  | _, (T, _) :: rows => rowsEnd (T + 1) rows

/-- Programs that follow event rows: no past-time operators, no until or release but
`F` and `G` (whose first operand is a constant), and queues with room for all changes
between the earliest and the latest time of a verdict, of any operand of the reader. -/
structure Setup.Eventful (S : Setup) : Prop where
  ok : S.Ok
  future : ∀ (i : Nat) (r : TlRec), S.prog[i]? = some r → S.own i → r.Future i
  single : ∀ (i : Nat) (r : TlRec), S.prog[i]? = some r → S.own i → r.temporal = true →
    ∃ b, r.arg false = some (.const b)
  room : ∀ (i : Nat) (r : TlRec), S.prog[i]? = some r → S.own i → ∀ k c, r.arg k = some (.sub c) →
    Setup.alone r c ∨ S.opW r + 1 ≤ S.C c + S.len c
  /-- changes come from changes of the operands -/
  load : ∀ (i : Nat) (r : TlRec), S.prog[i]? = some r → S.own i → r.opcode = some .load → S.C i ≤ 0
  calm : ∀ (i : Nat) (r : TlRec), S.prog[i]? = some r → S.own i → ∀ k c, r.arg k = some (.sub c) →
    S.C i ≤ S.C c + (if r.temporal then S.lb i else 0)

namespace BProg

/-- Compiled programs that follow event rows, with `k` extra slots per queue: no past-time operators; temporal operators have
a constant as first operand, as `F` and `G` do; and a queue that is not the only operand of its reader has slots for all times between the
earliest time a change of its value is known (`turn`) and the latest time a value of an operand is (`lag`). -/
structure EventReady (P : BProg) (turn lag : Nat → Int) (k : Int) : Prop where
  future : ∀ x, P.Live x → ¬ P.Past x
  single : ∀ x o lb ub c cs, P.Live x → P.heap.lab x = .temp o lb ub → P.heap.kids x = c :: cs → (P.heap.lab c).isBoolConst = true
  room : ∀ x c, P.Live x → P.engine x = .tl → c ∈ P.operands x →
    (∀ d ∈ P.operands x, d = c) ∨ ∀ d ∈ P.heap.kids x, max (lag d) 0 ≤ turn c + P.slots k c
  leaf : ∀ x, P.atomicId x ≠ none → turn x ≤ 0
  /-- changes come from changes of the operands -/
  calm : ∀ x c, P.Live x → P.engine x = .tl → (P.heap.lab x).isFormula = false → c ∈ P.operands x → turn x ≤ turn c + P.soonBy x

end BProg

namespace Cli

/-- The fields of a row with, perhaps, a time: `@T ` stands before the first value. -/
def stamp : Option Nat → List (List Char) → List (List Char)
  | none, r => r
  | some T, r => ('@' :: natStr T ++ ' ' :: r.headD []) :: r.tail

/-- The text of a trace file some of whose rows have times. -/
def eventFile (header : Option (List Char)) (rows : List (Option Nat × List (List Char))) : List Char :=
  csv header (rows.map fun x => stamp x.1 x.2)

/-- The time of each row; a row without a time is one step after the row before. -/
def times : Nat → List (Option Nat × List (List Char)) → List (Nat × List (List Char))
  | _, [] => []
  | e, (t, r) :: rows => (t.getD e, r) :: times (t.getD e + 1) rows

/-- The value of signal `i` at time `s` according to rows with times: that of the first row at or after `s`. -/
def heldSignal (rows : List (Nat × List (List Char))) (s i : Nat) : Bool :=
  match rows.find? fun x => s ≤ x.1 with
  | some x => signal [x.2] 0 i
  | none => false

/-- How many times the rows say something about: all up to the time of the last row. -/
def extent (rows : List (Nat × List (List Char))) : Nat :=
  match rows.getLast? with
  | some x => x.1 + 1
  | none => 0

/-- Rows with `width` values, shorter than the buffer of the reader, and with increasing times.  In a row with a time the first value has no spaces; in
the others it does not begin with `#` or `@`. -/
structure Events (size width : Nat) (rows : List (Option Nat × List (List Char))) : Prop where
  width : ∀ x ∈ rows, x.2.length = width
  fields : ∀ x ∈ rows, ∀ f ∈ x.2, Field f
  plain : ∀ x ∈ rows, x.1 = none → ∀ f, x.2.head? = some f → f.head? ≠ some '#' ∧ f.head? ≠ some '@'
  timed : ∀ x ∈ rows, x.1 ≠ none → ∃ f, x.2.head? = some f ∧ ' ' ∉ f
  fits : ∀ x ∈ rows, (row (stamp x.1 x.2)).length < size
  order : ((times 0 rows).map (·.1)).Pairwise (· < ·)

end Cli

end R2U2
