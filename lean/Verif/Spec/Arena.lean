import Verif.Model.Arena
/-
What it takes for a program and its configuration to stay inside the monitor's arrays.
-/
namespace R2U2

/-- Operand `k` of an instruction (`false`: the first) is the queue of instruction `c`. -/
def TlRec.Reads (r : TlRec) (k : Bool) (c : Nat) : Prop :=
  (if k then r.t2 else r.t1) = some .subformula ∧ (if k then r.v2 else r.v1) = c

/-- Operand `k` of an instruction is atomic `a`. -/
def TlRec.ReadsAtom (r : TlRec) (k : Bool) (a : Nat) : Prop :=
  (if k then r.t2 else r.t1) = some .atomic ∧ (if k then r.v2 else r.v1) = a

/-- The indices in an instruction table are inside the arrays: instruction `i` has queue `i`,
operands are instructions of the table, atomics are inside the atomic buffer, and there is a control
block for each instruction. -/
structure InTable (prog : List TlRec) (lim : Limits) : Prop where
  mem : ∀ (i : Nat) (r : TlRec), prog[i]? = some r → r.mem = i
  sub : ∀ (i : Nat) (r : TlRec) k c, prog[i]? = some r → r.Reads k c → c < prog.length
  atom : ∀ (i : Nat) (r : TlRec) k a, prog[i]? = some r → r.ReadsAtom k a → a < lim.atomics
  blocks : prog.length ≤ lim.blocks

/-- The words instruction `r` with a queue of `len` slots uses. -/
def TlRec.words (r : TlRec) (len : Nat) : Nat := len + if Flat.isTemporal r.opcode then 4 else 0

/-- The queues of a program are inside the array and do not overlap. -/
structure Placed (prog : List TlRec) (lim : Limits) (blocks : Nat → Block) : Prop where
  pos : ∀ i, i < prog.length → 0 < (blocks i).len
  fit : ∀ (i : Nat) (r : TlRec), prog[i]? = some r → (blocks i).off + r.words (blocks i).len ≤ lim.slots
  apart : ∀ (i j : Nat) (r : TlRec), prog[i]? = some r → i < j → j < prog.length →
    (blocks i).off + r.words (blocks i).len ≤ (blocks j).off

/-- The states a monitor can get into from `F0`, and more: instructions of the table are executed in
any order and any number, and time, progress flag and atomics are set to anything. -/
inductive Flat.Reached (prog : List TlRec) (F0 : Flat) : Flat → Prop
  | start : Reached prog F0 F0
  | exec {F F' r} : Reached prog F0 F → r ∈ prog → F.update r = some F' → Reached prog F0 F'
  | set {F} (t : Nat) (p : Progress) (atoms : Nat → Bool) : Reached prog F0 F →
      Reached prog F0 { F with time := t, progress := p, atoms := atoms }

end R2U2
