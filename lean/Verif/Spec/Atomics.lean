import Verif.Model.Backend
import Verif.Spec.Graph
/-
Vocabulary for statements about `compute_atomics`.
-/
namespace R2U2

/-- The nodes of a program: those reachable from its two specification sets. -/
def Heap.InProgram (h : Heap BNode) (ft pt x : Nat) : Prop := h.Reachable [ft] x ∨ h.Reachable [pt] x

/-- What `compute_atomics` is given: an object graph whose nodes are the numbers below `n`, where the temporal and logical
nodes of the program are among the parents of their operands, and no node of the program is an atomic.  Nodes that an earlier
pass has replaced may still be around, and may still be among the parents of nodes of the program. -/
structure Fresh (h : Heap BNode) (n ft pt : Nat) : Prop where
  known : ∀ p c, h.InProgram ft pt p → (h.lab p).engine true = .tl → c ∈ h.kids p → p ∈ h.pars c
  kids : ∀ p c, c ∈ h.kids p → p < n ∧ c < n
  noAtomic : ∀ x, h.InProgram ft pt x → h.lab x ≠ .atomic

namespace Tree
mutual
/-- The tree with the `Atomic` nodes left out. -/
def erase : Tree BNode → Tree BNode
  | .node .atomic [t] => erase t
  | .node l ts => .node l (eraseL ts)
def eraseL : List (Tree BNode) → List (Tree BNode)
  | [] => []
  | t :: ts => erase t :: eraseL ts
end
end Tree
end R2U2
