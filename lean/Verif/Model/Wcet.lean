import Verif.Model.Assembly
/-
Model of the execution-time estimates, wcet.py.
-/
namespace R2U2
namespace Wcet

/-- The keys of the latency tables: members of `BZOperator`, `FTOperator` and `PTOperator` (wcet.py:5-11). -/
inductive Key where
  | bz (o : BzOp) | ft (o : TlOp) | pt (o : TlOp)
  deriving DecidableEq, Repr

/-- `assemble.Instruction` (assemble.py:314-400); the operators of the two temporal sets are different classes. -/
inductive Item where
  | bz (i : BzInstr) | ft (i : TlInstr) | pt (i : TlInstr) | cg (c : CgInstr) | alias

/-- `instr.operator`; CG and alias instructions are skipped (wcet.py:25-26, 66-67). -/
def Item.key : Item → Option Key
  | .bz i => some (.bz i.op)
  | .ft i => some (.ft i.op)
  | .pt i => some (.pt i.op)
  | .cg _ | .alias => none

/-- The list `gen_assembly` returns (assemble.py:827-832). -/
def items (A : BProg.Assembly) : List Item :=
  A.bz.map .bz ++ A.ft.map .ft ++ A.pt.map .pt ++ A.cg.map .cg

/-- The loop of `compute_cpu_wcet` (wcet.py:24-41).  `int(a / b)` is the truncated quotient (true of Python's floats for
operands below 2^53).  An enumeration member is never falsy (wcet.py:29). -/
def cpuLoop (table : Key → Option Nat) (clk : Nat) (total : Nat) : List Item → Nat
  | [] => total
  | i :: is =>
      match i.key with
      | none => cpuLoop table clk total is
      | some k =>
          match table k with
          | none => 0                                             -- 32-34
          | some l => cpuLoop table clk (total + l / clk) is       -- 36-40

/-- `compute_cpu_wcet` (wcet.py:13-43), for a clock other than 0 (a division by zero otherwise). -/
def cpu (A : List Item) (table : Key → Option Nat) (clk : Nat) : Nat := cpuLoop table clk 0 A

/-- `child_ids` (wcet.py:81-85). -/
def childIds (i : TlInstr) : List Int :=
  (if i.t1 = .subformula then [i.v1] else []) ++ (if i.t2 = .subformula then [i.v2] else [])

/-- `sum_children_scq_size` (wcet.py:79, 87-90): the first queue record that matches ends the loop. -/
def childSizes (scqs : List CgInstr) (ids : List Int) : Int :=
  match scqs.find? (fun c => decide (c.instr.v1 ∈ ids)) with
  | none => 1
  | some c => 1 + c.instr.v2

/-- The time of one instruction (wcet.py:76-94). -/
def fpgaTime (scqs : List CgInstr) (init exec : Int) : Item → Int
  | .ft i => init + exec * childSizes scqs (childIds i)
  | _ => init + exec

/-- The loop of `compute_fpga_wcet` (wcet.py:65-98). -/
def fpgaLoop (scqs : List CgInstr) (table : Key → Option (Int × Int)) (total : Int) : List Item → Int
  | [] => total
  | i :: is =>
      match i.key with
      | none => fpgaLoop scqs table total is
      | some k =>
          match table k with
          | none => 0
          | some (init, exec) => fpgaLoop scqs table (total + fpgaTime scqs init exec i) is

/-- `compute_fpga_wcet` (wcet.py:54-100).  Times are multiples of some unit: sums and products of floats are exact.  The
clock is a parameter that nothing uses. -/
def fpga (A : List Item) (table : Key → Option (Int × Int)) (_clk : Int) : Int :=
  fpgaLoop (A.filterMap fun | .cg c => if c.temp then none else some c | _ => none) table 0 A

end Wcet
end R2U2
