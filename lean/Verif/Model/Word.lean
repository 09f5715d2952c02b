import Verif.Model.Monitor
/-
Model of verdict-timestamp words (monitors/c/src/internals/types.h:33-83): one 32-bit word
for a truth value and a time.
-/
namespace R2U2

/-- `r2u2_infinity` (types.h:38-42). -/
def infWord : Nat := 2 ^ 32 - 1

/-- `get_verdict_truth` (types.h:59-61); `R2U2_TNT_TRUE` is `2 ^ 31`. -/
def getTruth (w : Nat) : Bool := decide (w &&& 2 ^ 31 ≠ 0)

/-- `get_verdict_time` (types.h:66-68); `R2U2_TNT_TIME` is `2 ^ 31 - 1`. -/
def getTime (w : Nat) : Nat := w &&& (2 ^ 31 - 1)

/-- `set_verdict_true` (types.h:73-75). -/
def setTrue (w : Nat) : Nat := w ||| 2 ^ 31

/-- `set_verdict_false` (types.h:80-82). -/
def setFalse (w : Nat) : Nat := w &&& (2 ^ 31 - 1)

/-- The word for a verdict: a time with its truth bit set or cleared, as in mltl.c:50 and
every `push_result` of mltl.c.  (Where the code leaves a false result's bit alone it is
clear already, the result being a sum or difference of times below `2 ^ 31`.) -/
def Verdict.word (v : Verdict) : Nat := if v.truth then setTrue v.time else setFalse v.time

/-- The verdict in a word. -/
def unpack (w : Nat) : Verdict := ⟨getTruth w, getTime w⟩

/-- A word as a queue slot. -/
def toSlot (w : Nat) : Slot := if w = infWord then none else some (unpack w)

end R2U2
