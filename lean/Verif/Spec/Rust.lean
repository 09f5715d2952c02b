import Verif.Model.RustBounds
import Verif.Spec.Monitor
import Verif.Spec.Arena
/-
What it takes for a program and its configuration to stay inside the arrays of the Rust monitor.
-/
namespace R2U2
namespace Rs

/-- The indices in an instruction table are inside the arrays: instruction `i` has queue `i`,
operands are instructions of the table, atomics are inside the atomic buffer, and there is a control
block for each instruction. -/
structure InTable (prog : List TlRec) (lim : Limits) : Prop where
  mem : ∀ (i : Nat) (r : TlRec), prog[i]? = some r → r.mem = i
  sub : ∀ (i : Nat) (r : TlRec) k c, prog[i]? = some r → r.Reads k c → c < prog.length
  atom : ∀ (i : Nat) (r : TlRec) k a, prog[i]? = some r → r.ReadsAtom k a → a < lim.atomics
  blocks : prog.length ≤ lim.tl

/-- The queues of a program are inside the array and do not overlap. -/
structure Placed (n : Nat) (lim : Limits) (blocks : Nat → Block) : Prop where
  pos : ∀ i, i < n → 0 < (blocks i).len
  fit : ∀ i, i < n → (blocks i).ref + (blocks i).len ≤ lim.slots
  apart : ∀ i j, i < j → j < n → (blocks i).ref + (blocks i).len ≤ (blocks j).ref

end Rs

/-- How many verdicts instruction `i` can have in one time step: those that come as late as they can, up to those that come as
soon as they can. -/
def Setup.burst (S : Setup) (i : Nat) : Nat := (S.W i - S.B i + 1).toNat

/-- How many verdicts can be reported in one time step. -/
def Setup.reportsPerStep (S : Setup) : Nat → Nat
  | 0 => 0
  | n + 1 => S.reportsPerStep n + if S.prog[n]?.bind TlRec.opcode = some .ret then S.burst n else 0

/-- A monitor of the Rust implementation that has loaded the program and configuration of `S`, before its first
time step (`process_binary_file`, internals/process_binary.rs:17-94, on `Monitor::default()`, memory/monitor.rs:49-75). -/
structure Rs.Loaded (S : Setup) (M : Rs.Monitor) : Prop where
  time : M.time = 0
  progress : M.progress = .first
  prog : M.program = S.prog
  mem : ∀ a, M.mem a = Rs.dflt
  block : ∀ i r, S.prog[i]? = some r → (M.blocks i).len = S.len i ∧ (M.blocks i).write = 0 ∧ (M.blocks i).read1 = 0 ∧
    (M.blocks i).read2 = 0 ∧ (M.blocks i).edge = ⟨false, 0⟩ ∧ (M.blocks i).prev = ⟨false, 0⟩ ∧
    (M.blocks i).next = (if r.temporal then S.lb i else 0)
  interval : ∀ i r, S.prog[i]? = some r → r.temporal = true ∨ r.past = true → (M.blocks i).lb = S.lb i ∧ (M.blocks i).ub = S.ub i

/-- The verdicts for formula number `f` among those read from the output buffer. -/
def Rs.reports (out : List (Nat × Verdict)) (f : Nat) : List Verdict := (out.filter fun x => x.1 = f).map (·.2)

/-- The arrays of the Rust monitor are at least as large as the bounds written by the compiler say; indices have 32 bits. -/
structure Rs.Covers (lim : Rs.Limits) (b : Bounds) : Prop where
  tl : b.maxTl ≤ lim.tl
  atomics : b.maxAtomics ≤ lim.atomics
  slots : b.maxQueueSlots ≤ lim.slots
  small : lim.slots ≤ 2 ^ 32

end R2U2
