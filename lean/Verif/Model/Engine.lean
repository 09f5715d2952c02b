import Verif.Model.Booleanizer
import Verif.Model.Arena
import Verif.Model.Bounds
/-
The two engines together.
-/
namespace R2U2

/-- The arrays of the booleanizer (monitor.h:79-82, 97-101; bounds.h). -/
def Bounds.bzLimits (b : Bounds) : BzLimits where
  cells := b.maxBz
  atomics := b.maxAtomics
  signals := b.maxSignals

/-- `n` calls of `r2u2_step` with the signals `σ t` loaded before step `t`: one pass of the booleanizer
instructions, then the loop over the temporal ones, which reads the atomics just stored (engines.c:5-60).  `time_stamp` is held twice here, once for each
engine. -/
def engineRun {F : Type} (ops : FloatOps F) (lim : BzLimits) (bprog : List BzRec) (tprog : List TlRec) (fuel : Nat)
    (σ : Nat → Nat → Cell F) : Nat → BzMon F × Flat → Option (BzMon F × Flat)
  | 0, s => some s
  | n + 1, s => (engineRun ops lim bprog tprog fuel σ n s).bind fun s' =>
      (BzMon.pass ops lim (σ n) bprog s'.1).bind fun m =>
        (Flat.loop tprog fuel { s'.2 with atoms := m.atoms }).map fun F' => ({ m with time := m.time + 1 }, F')

end R2U2
