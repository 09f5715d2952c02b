import Verif.Model.Assembly
import Verif.Model.Arena
/-
Model of the bounds file (compiler/c2po/assemble.py:1142-1222) and of the arrays the monitor
allocates by it (monitors/c/src/memory/monitor.h:57-102).
-/
namespace R2U2

/-- The bounds of `compute_bounds` that size an array of the C monitor, apart from the
auxiliary-output arena. -/
structure Bounds where
  maxSignals : Nat
  maxAtomics : Nat
  maxBz : Nat
  maxTl : Nat
  maxTemporal : Nat
  maxQueueSlots : Int
  deriving DecidableEq, Repr

/-- `len(set(values))` -/
def countDistinct : List Nat → Nat
  | [] => 0
  | a :: l => if a ∈ l then countDistinct l else countDistinct l + 1

/-- `compute_bounds` (assemble.py:1147-1160, 1192-1216): `bz` is `context.enable_booleanizer`, `signals`
is `len(context.signals)`, `ids` the values of `context.atomic_id_map`. -/
def computeBounds (bz : Bool) (signals : Nat) (ids : List Nat) (A : BProg.Assembly) : Bounds where
  maxSignals := if bz then signals else 0                                        -- 1192-1196
  maxAtomics := countDistinct ids                                                -- 1156, 1197-1201
  maxBz := A.bz.length                                                           -- 1148, 1202-1206
  maxTl := (A.ft ++ A.pt).length                                                 -- 1149, 1207-1211
  maxTemporal := (A.cg.filter fun c => c.temp).length                            -- 1150, 1212-1216
  maxQueueSlots := ((A.cg.filter fun c => !c.temp).map fun c => c.instr.v1).sum  -- 1157-1160, 1217-1221

/-- The arrays of the temporal engine (monitor.h:79-82, 97-101): a temporal block is four
words long (shared_connection_queue.h:12-17, monitor.h:59). -/
def Bounds.limits (b : Bounds) : Limits where
  slots := b.maxQueueSlots.toNat + b.maxTemporal * 4
  blocks := b.maxTl
  atomics := b.maxAtomics

end R2U2
