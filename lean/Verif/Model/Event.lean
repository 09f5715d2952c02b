import Verif.Model.Monitor
import Verif.Model.Arena
/-
Event rows of a trace: a row `@T values` moves the clock to `T` before the values are used.
-/
namespace R2U2

/-- `r2u2_main` on event rows (r2u2.c:82-118): for each row, `monitor.time_stamp` is set
to the time of the row, the atomics are set, and one step is executed.  Here at the level
of queues.  The time is set by the reader of trace files, which `Cli.loadRow` (Model/Csv.lean) models. -/
def Mon.runRows (prog : List TlRec) (fuel : Nat) : List (Nat × (Nat → Bool)) → Mon → Option Mon
  | [], m => some m
  | (T, a) :: rows, m => (Mon.loop prog fuel { m with time := T, atoms := a }).bind (Mon.runRows prog fuel rows)

/-- The same on the C memory. -/
def Flat.runRows (prog : List TlRec) (fuel : Nat) : List (Nat × (Nat → Bool)) → Flat → Option Flat
  | [], F => some F
  | (T, a) :: rows, F => (Flat.loop prog fuel { F with time := T, atoms := a }).bind (Flat.runRows prog fuel rows)

end R2U2
