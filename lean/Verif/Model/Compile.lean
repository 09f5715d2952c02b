import Verif.Model.Pipeline
import Verif.Model.Binary
import Verif.Model.Bounds
/-
The command line tool from the desugared program to the binary.
-/
namespace R2U2
namespace Heap

/-- The same graph with other labels. -/
def relabel {L M : Type} (g : Nat → L → M) (h : Heap L) : Heap M := ⟨fun x => g x (h.lab x), h.kids, h.pars⟩

end Heap

/-- What the back end looks at in a node of cpt.py.  `ty x` says whether node `x` has an integer type
(type_check.py:60-415), `sid` is `context.signal_mapping` with `-1` for signals that are not mapped (type_check.py:67-80),
`bits` reads floating point literals.  Nodes that `desugar` (main.py:317) removes are given `tau`; so is no node
of a desugared program, since `TAU` itself is not among the names this model gives to signals. -/
def toBNode (ty : Nat → Bool) (sid : String → Int) (bits : String → Nat) (x : Nat) : Lab → BNode
  | .lit (.bool b) => .bool b                -- cpt.py:148-166
  | .lit (.int i) => .int i
  | .lit (.float s) => .float (bits s)
  | .name s => .signal (ty x) (sid s)        -- cpt.py:211-216
  | .op o => .op o (ty x)                    -- cpt.py:513-756
  | .tmp o lb ub => .temp o lb ub            -- cpt.py:770-855
  | .atomic => .atomic                       -- cpt.py:758-768
  | .formula _ k => .formula k               -- cpt.py:1053-1071
  | .specSet => .specSet                     -- cpt.py:1108-1122
  | _ => .tau

/-- What the back end is given beside the graph: the types of the nodes, the delays recorded in them, the
signal mapping, the number of signals, the option `--scq-constant`, and the packed aliases. -/
structure BackEnd where
  ty : Nat → Bool
  bpd : Nat → Int
  wpd : Nat → Int
  sid : String → Int
  bits : String → Nat
  signals : Nat
  slack : Nat
  aux : List Nat

/-- `assemble` as registered (assemble.py:1131-1140): `compute_atomics`, `compute_scq_sizes`, then
`unsafe_assemble` (1017-1076), without booleanizer; with what `write_bounds_c` (1226-1280) computes from the result. -/
def assembleG (b : BackEnd) (fuel ft pt : Nat) (s : Heap Lab × Nat) : Option (List Nat × Bounds) :=
  (computeAtomics fuel false (s.1.relabel (toBNode b.ty b.sid b.bits)) ft pt s.2).bind fun ha =>
    let P : BProg := ⟨ha.1, b.bpd, b.wpd, ft, pt, false, fun x => ha.2.ids.lookup x⟩
    (P.computeScq fuel b.slack).bind fun sz =>
      (BProg.genAssembly fuel P sz.scq).bind fun A =>
        (assembleBytes A.instrs b.aux).map fun bytes => (bytes, computeBounds false b.signals (ha.2.ids.map (·.2)) A)

/-- The command line tool from `desugar` on (main.py:317-352), without booleanizer and equality saturation. -/
def compileBinary (o : GraphPass.CliOpts) (b : BackEnd) (fuel ft pt : Nat) (s : Heap Lab × Nat) : Option (List Nat × Bounds) :=
  (GraphPass.compileG o fuel ft pt s).bind (assembleG b fuel ft pt)

end R2U2
