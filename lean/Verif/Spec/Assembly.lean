import Verif.Model.Assembly
import Verif.Spec.Graph
/-
Vocabulary for statements about generated assembly.
-/
namespace R2U2

/-- The cells of the value buffer an instruction reads, by opcode
(monitors/c/src/engines/booleanizer.c). -/
def BzInstr.reads (i : BzInstr) : List Int :=
  let a := match i.a with
    | .int v => v
    | .float _ => -1
  match i.op with
  | .none | .iload | .fload | .iconst | .fconst | .ts => []
  | .store | .bwneg | .ineg | .fneg | .isqrt | .fsqrt | .iabs | .fabs => [a]
  | _ => [a, i.b]

/-- The queues an instruction reads. -/
def TlInstr.reads (i : TlInstr) : List Int :=
  (if i.t1 = .subformula then [i.v1] else []) ++ (if i.t2 = .subformula then [i.v2] else [])

/-- Opcodes with an interval. -/
def TlOp.isTemporal : TlOp → Bool
  | .eventually | .global | .until | .release | .once | .hist | .since | .trigger => true
  | _ => false

/-- How many operands an operator of the booleanizer may have. -/
def OpK.bzArity : OpK → List Nat
  | .bitNeg | .sqrt | .abs => [1]
  | .sub => [1, 2]
  | _ => [2]

namespace BProg

/-- What `assemble` is given: an acyclic graph under two specification sets, operators
with the number of operands their instruction has, and identifiers for `Atomic`
nodes (for signals, if there is no booleanizer). -/
structure Ready (P : BProg) : Prop where
  acyclic : P.heap.Acyclic
  ftSet : P.heap.lab P.ft = .specSet
  ptSet : P.heap.lab P.pt = .specSet
  arity : ∀ x, (P.heap.Reachable [P.ft] x ∨ P.heap.Reachable [P.pt] x) → ∀ o t, P.heap.lab x = .op o t →
    o.isLogical = false → (P.heap.kids x).length ∈ o.bzArity
  atomsBz : P.bz = true → ∀ x, P.atomicId x ≠ none → P.heap.lab x = .atomic
  atomsNo : P.bz = false → ∀ x, P.atomicId x ≠ none → ∃ t s, P.heap.lab x = .signal t s

/-- Operands of temporal and logical nodes of the program are boolean constants, nodes with an atomic
identifier, or again nodes of the temporal engine: what `compute_atomics` is for. -/
def Covered (P : BProg) : Prop :=
  ∀ p c, (P.heap.Reachable [P.ft] p ∨ P.heap.Reachable [P.pt] p) → P.engine p = .tl →
    c ∈ P.heap.kids p →
    (P.heap.lab c).isBoolConst = true ∨ P.atomicId c ≠ none ∨ P.engine c = .tl

/-- Nodes that need a booleanizer instruction: constants with only temporal parents
are embedded in the instructions of those. -/
def NeedsCell (P : BProg) (x : Nat) : Prop :=
  (P.heap.Reachable [P.ft] x ∨ P.heap.Reachable [P.pt] x) ∧ P.engine x = .bz ∧
    ¬ ((P.heap.lab x).isConst = true ∧ ∀ p ∈ P.heap.pars x, P.engine p = .tl)

/-- Nodes under specification set `r` that need a temporal instruction. -/
def NeedsTl (P : BProg) (r x : Nat) : Prop :=
  P.heap.Reachable [r] x ∧
    (P.atomicId x ≠ none ∨ (P.engine x = .tl ∧ (P.heap.lab x).isBoolConst = false))

/-- The future-time and past-time specifications share only boolean constants. -/
def Separate (P : BProg) : Prop :=
  ∀ x, P.heap.Reachable [P.ft] x → P.heap.Reachable [P.pt] x → (P.heap.lab x).isBoolConst = true

/-- Instruction `i` computes the booleanizer node `x`, if `cell y` is the cell of
node `y`. -/
def BzMeans (P : BProg) (cell : Nat → Nat) (x : Nat) (i : BzInstr) : Prop :=
  match P.heap.lab x, P.heap.kids x with
  | .signal true s, _ => i = ⟨cell x, .iload, .int s, 0⟩
  | .signal false s, _ => i = ⟨cell x, .fload, .int s, 0⟩
  | .int v, _ => i = ⟨cell x, .iconst, .int v, 0⟩
  | .float v, _ => i = ⟨cell x, .fconst, .float v, 0⟩
  | .tau, _ => i = ⟨cell x, .ts, .int 0, 0⟩
  | .atomic, c :: _ => i = ⟨cell x, .store, .int (cell c), (P.atomicId x).getD 0⟩
  | .op .sub true, [c] => i = ⟨cell x, .ineg, .int (cell c), 0⟩
  | .op .sub false, [c] => i = ⟨cell x, .fneg, .int (cell c), 0⟩
  | .op o t, [c] => ∃ k, bzOperator o t = some k ∧ i = ⟨cell x, k, .int (cell c), 0⟩
  | .op o t, [c, c'] => ∃ k, bzOperator o t = some k ∧ i = ⟨cell x, k, .int (cell c), cell c'⟩
  | _, _ => False

/-- The operand by which a temporal instruction refers to node `c`. -/
def operandFor (P : BProg) (queue : Nat → Nat) (c : Nat) : OperandT × Int :=
  match P.heap.lab c with
  | .bool b => (.direct, if b then 1 else 0)
  | _ => (.subformula, queue c)

/-- Instruction `i` computes node `x` for the temporal engine, if `queue y` is the
queue of node `y`. -/
def TlMeans (P : BProg) (past : Bool) (queue : Nat → Nat) (x : Nat) (i : TlInstr) : Prop :=
  match P.atomicId x, P.heap.lab x, P.heap.kids x with
  | some a, _, _ => i = ⟨queue x, .load, .atomic, a, .none, 0⟩
  | none, .formula n, c :: _ => i = ⟨queue x, .ret, .subformula, queue c, .direct, n⟩
  | none, l, [] => ∃ o, tlOperator past l = some o ∧ i = ⟨queue x, o, .none, 0, .none, 0⟩
  | none, l, [c] => ∃ o, tlOperator past l = some o ∧
      i = ⟨queue x, o, (P.operandFor queue c).1, (P.operandFor queue c).2, .none, 0⟩
  | none, l, [c, c'] => ∃ o, tlOperator past l = some o ∧
      i = ⟨queue x, o, (P.operandFor queue c).1, (P.operandFor queue c).2,
        (P.operandFor queue c').1, (P.operandFor queue c').2⟩
  | _, _, _ => False

end BProg
end R2U2
