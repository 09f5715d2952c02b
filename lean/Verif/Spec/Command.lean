import Verif.Model.Command
/-
Vocabulary for statements about guarded commands.
-/
namespace R2U2

/-- A condition a command with guards `gs` needs: one of the guards, or a condition another needed one depends on. -/
inductive Needed (gs : List Guard) : Guard → Prop
  | guard {g} : g ∈ gs → Needed gs g
  | dependency {g d} : Needed gs g → d ∈ g.deps → Needed gs d

/-- A node is ready to be assembled in state `s`: no sugar or contract is left, it has at most two operands, queues of the temporal
engine's nodes and of atomics have a size, signals have the index the mapping says, and atomics (without the booleanizer,
signals) have an atomic index, which for signals is their signal index. -/
structure GNode.Assemblable (s : GState) (n : GNode) : Prop where
  sugar : n.cls ≠ .sugar ∧ n.cls ≠ .contract
  binary : n.cls ≠ .specSet → n.arity ≤ 2
  queue : n.tl = true → 0 ≤ n.scq
  atomicQueue : ∀ i, s.atomicIds.lookup n.id = some i → 0 ≤ n.scq
  mapped : ∀ x i, n.cls = .signal x i → s.mapping.lookup x = some i
  atomic : n.cls = .atomic → ∃ i, s.atomicIds.lookup n.id = some i
  signal : ∀ x i, n.cls = .signal x i → s.bz = false → s.atomicIds.lookup n.id = some i

/-- A node of a program that is pure MLTL. -/
def GNode.Pure (n : GNode) : Prop :=
  (∃ x i, n.cls = .signal x i) ∨ (∃ e, n.cls = .logical e) ∨ (∃ e, n.cls = .temporal e) ∨ n.cls = .const true ∨
    n.cls = .formula ∨ n.cls = .specSet

/-- Running `cs` one after the other, each with its guards met and successfully, leads from `(p, c)` to `(p', c')`
and makes the calls `l`. -/
inductive AllRan {P C : Type} (view : P → C → GState) : P → C → List (Cmd P C) → P → C → List (Call P C) → Prop
  | nil {p c} : AllRan view p c [] p c []
  | cons {p c d ds p1 c1 l p2 c2 l'} : d.failedGuard view p c = none →
      d.execute view p c = ((p1, c1), .code .success, l) → AllRan view p1 c1 ds p2 c2 l' →
      AllRan view p c (d :: ds) p2 c2 (l ++ l')

/-- A line of input worked: it was blank, or a command whose guards were met and which returned success or a program. -/
def Line.Worked {P C : Type} (view : P → C → GState) (k : Console P C) : Line P C → Prop
  | .blank | .push => True
  | .pop => k.stack ≠ []
  | .run d => d.failedGuard view k.prog k.ctx = none ∧
      ((∃ s l, d.execute view k.prog k.ctx = (s, .code .success, l)) ∨ ∃ s q l, d.execute view k.prog k.ctx = (s, .program q, l))
  | _ => False

end R2U2
