import Verif.Model.Bounds
import Verif.Model.Rust
/-
The bounds written for the Rust monitor (compiler/c2po/assemble.py:1142-1222) and the arrays sized by them
(monitors/rust/r2u2_core/src/internals/bounds.rs:1-60, memory/monitor.rs:24-47).
-/
namespace R2U2

/-- The bounds the Rust monitor uses, of a program with `formulas` formulas (assemble.py:1167-1222): room for twice as
many verdicts in a time step as there are formulas (1167-1172, "TODO: This is currently just an estimate"). -/
def Bounds.rust (b : Bounds) (formulas : Nat) : Rs.Limits where
  tl := b.maxTl
  slots := b.maxQueueSlots.toNat
  atomics := b.maxAtomics
  bz := b.maxBz
  outputs := 2 * formulas

end R2U2
