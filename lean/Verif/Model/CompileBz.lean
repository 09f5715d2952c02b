import Verif.Model.Compile
import Verif.Model.Engine
/-
The command line tool from the desugared program to the binary, with the booleanizer.
-/
namespace R2U2

/-- `assemble` as registered (assemble.py:1131-1140) with the option `--booleanizer` (c2po.py:110-116, main.py:289-290): `compute_atomics`
(atomics.py:4-74) puts `Atomic` nodes over the expressions the booleanizer computes, then `compute_scq_sizes`, `unsafe_assemble` (1017-1076) and
`write_bounds_c` (1226-1280). -/
def assembleBzG (b : BackEnd) (fuel ft pt : Nat) (s : Heap Lab × Nat) : Option (List Nat × Bounds) :=
  (computeAtomics fuel true (s.1.relabel (toBNode b.ty b.sid b.bits)) ft pt s.2).bind fun ha =>
    let P : BProg := ⟨ha.1, b.bpd, b.wpd, ft, pt, true, fun x => ha.2.ids.lookup x⟩
    (P.computeScq fuel b.slack).bind fun sz =>
      (BProg.genAssembly fuel P sz.scq).bind fun A =>
        (assembleBytes A.instrs b.aux).map fun bytes => (bytes, computeBounds true b.signals (ha.2.ids.map (·.2)) A)

/-- The command line tool from `desugar` on (main.py:317-352), with booleanizer, without equality saturation. -/
def compileBinaryBz (o : GraphPass.CliOpts) (b : BackEnd) (fuel ft pt : Nat) (s : Heap Lab × Nat) : Option (List Nat × Bounds) :=
  (GraphPass.compileG o fuel ft pt s).bind (assembleBzG b fuel ft pt)

end R2U2
