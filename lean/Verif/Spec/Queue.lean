import Verif.Model.Monitor
/-
Schedules of writes to and reads from one shared connection queue.
-/
namespace R2U2

/-- What happens to a queue with one reader. -/
inductive QEv where
  | write (v : Verdict)
  | read
  | want (n : Nat)       -- the reader's desired time becomes `n`

/-- The results of the reads of a schedule, executed on a control block with read pointer
`r` and desired time `n`; `none` if a read does not end. -/
def queueRun : List QEv → Ctrl → Nat → Nat → Option (List (Option Verdict))
  | [], _, _, _ => some []
  | .write v :: es, c, r, n => queueRun es (c.push v) r n
  | .want n :: es, c, r, _ => queueRun es c r n
  | .read :: es, c, r, n =>
      (c.read r n).bind fun x => (queueRun es c x.1 n).map (x.2 :: ·)

/-- The position in `ws` of the verdict a reader asking for time `n` is given: the first
one not older than `n`, or else the last one. -/
def heldAt (ws : List Verdict) (n : Nat) : Nat :=
  min (ws.findIdx (fun w => decide (n ≤ w.time))) (ws.length - 1)

/-- A schedule a queue of `len` slots must support, if `ws` was written so far, `n` is
the desired time and `b` the position of the verdict the reader was given last: times
written increase, the desired time does not decrease, and at each write either
everything before is older than the desired time or fewer than `len` verdicts were written
since (and including) the one the reader was given last. -/
def Supported (len : Nat) : List QEv → List Verdict → Nat → Nat → Prop
  | [], _, _, _ => True
  | .write v :: es, ws, n, b => (∀ w ∈ ws, w.time < v.time) ∧
      ((∀ w ∈ ws, w.time < n) ∨ ws.length - b < len) ∧ Supported len es (ws ++ [v]) n b
  | .want n' :: es, ws, n, b => n ≤ n' ∧ Supported len es ws n' b
  | .read :: es, ws, n, _ => Supported len es ws n (heldAt ws n)

/-- What was written, and what was asked for, at each read. -/
def askedFor : List QEv → List Verdict → Nat → List (List Verdict × Nat)
  | [], _, _ => []
  | .write v :: es, ws, n => askedFor es (ws ++ [v]) n
  | .want n' :: es, ws, _ => askedFor es ws n'
  | .read :: es, ws, n => (ws, n) :: askedFor es ws n

/-- The truth value written for time `s`: that of the first verdict reaching `s`. -/
def writtenFor (ws : List Verdict) (s : Nat) : Option Bool :=
  (ws.find? fun w => decide (s ≤ w.time)).map (·.truth)

/-- `res` is a right answer to a reader asking for time `n` on: nothing, if nothing that
recent was written; otherwise a verdict that gives the truth value written for
every time from `n` up to its own. -/
def RightAnswer (ws : List Verdict) (n : Nat) : Option Verdict → Prop
  | none => ∀ w ∈ ws, w.time < n
  | some u => n ≤ u.time ∧ ∀ s, n ≤ s → s ≤ u.time → writtenFor ws s = some u.truth

end R2U2
