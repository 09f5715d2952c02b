import Verif.Model.Heap
/-
Vocabulary for statements about the object graph: what a node denotes, which nodes
are reachable, when parent sets are accurate.
-/
namespace R2U2
namespace Heap
variable {L : Type}

/-- Node `x` denotes the tree `t`: reading the graph from `x` ends and gives `t`. -/
def Denotes (h : Heap L) (x : Nat) (t : Tree L) : Prop := ∃ n, unfold n h x = some t

/-- Every node denotes a tree: there are no cycles. -/
def Acyclic (h : Heap L) : Prop := ∀ x, ∃ t, h.Denotes x t

/-- `y` is reachable from one of the `roots` through children. -/
inductive Reachable (h : Heap L) (roots : List Nat) : Nat → Prop
  | root {r} : r ∈ roots → Reachable h roots r
  | kid {p c} : Reachable h roots p → c ∈ h.kids p → Reachable h roots c

/-- Every node is recorded as a parent by each of its children. -/
def ParentsKnown (h : Heap L) : Prop := ∀ p c, c ∈ h.kids p → p ∈ h.pars c

end Heap
end R2U2
