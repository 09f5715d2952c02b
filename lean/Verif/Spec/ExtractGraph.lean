import Verif.Model.Extract
/-
C57.  When a node of the program graph stands for a term.
-/
namespace R2U2
namespace PGraph

/-- Node `x` has this label and these operands; its best-case delay is the least of those of the operands, and its worst-case
delay the greatest, plus what the operator adds. -/
structure IsNode (g : PGraph) (x : Nat) (l : BNode) (ks : List Nat) (lo hi : Int) : Prop where
  lab : g.heap.lab x = l
  kids : g.heap.kids x = ks
  best : (∀ y ∈ ks, g.bpd x ≤ g.bpd y + lo) ∧ ∃ y ∈ ks, g.bpd x = g.bpd y + lo
  worst : (∀ y ∈ ks, g.wpd y + hi ≤ g.wpd x) ∧ ∃ y ∈ ks, g.wpd x = g.wpd y + hi

/-- Node `x` of the graph stands for the term; a variable is stood for by the node of its atomic. -/
def Stands (atomNode : Nat → Nat) (g : PGraph) : Egg → Nat → Prop
  | .bool b, x => g.heap.lab x = .bool b ∧ g.heap.kids x = [] ∧ g.bpd x = 0 ∧ g.wpd x = 0
  | .var n, x => x = atomNode n
  | .not a, x => ∃ u, g.IsNode x (.op .neg false) [u] 0 0 ∧ Stands atomNode g a u
  | .implies a b, x => ∃ u v, g.IsNode x (.op .imp false) [u, v] 0 0 ∧ Stands atomNode g a u ∧ Stands atomNode g b v
  | .equiv a b, x => ∃ u v, g.IsNode x (.op .iff false) [u, v] 0 0 ∧ Stands atomNode g a u ∧ Stands atomNode g b v
  | .and2 a b, x => ∃ u v, g.IsNode x (.op .and false) [u, v] 0 0 ∧ Stands atomNode g a u ∧ Stands atomNode g b v
  | .and3 a b c, x => ∃ u v w, g.IsNode x (.op .and false) [u, v, w] 0 0 ∧ Stands atomNode g a u ∧ Stands atomNode g b v ∧ Stands atomNode g c w
  | .and4 a b c d, x => ∃ u v w z, g.IsNode x (.op .and false) [u, v, w, z] 0 0 ∧ Stands atomNode g a u ∧ Stands atomNode g b v ∧ Stands atomNode g c w ∧ Stands atomNode g d z
  | .or2 a b, x => ∃ u v, g.IsNode x (.op .or false) [u, v] 0 0 ∧ Stands atomNode g a u ∧ Stands atomNode g b v
  | .or3 a b c, x => ∃ u v w, g.IsNode x (.op .or false) [u, v, w] 0 0 ∧ Stands atomNode g a u ∧ Stands atomNode g b v ∧ Stands atomNode g c w
  | .or4 a b c d, x => ∃ u v w z, g.IsNode x (.op .or false) [u, v, w, z] 0 0 ∧ Stands atomNode g a u ∧ Stands atomNode g b v ∧ Stands atomNode g c w ∧ Stands atomNode g d z
  | .global lb ub a, x => ∃ u, g.IsNode x (.temp .G lb.natAbs ub.natAbs) [u] lb ub ∧ Stands atomNode g a u
  | .future lb ub a, x => ∃ u, g.IsNode x (.temp .F lb.natAbs ub.natAbs) [u] lb ub ∧ Stands atomNode g a u
  | .until lb ub a b, x => ∃ u v, g.IsNode x (.temp .U lb.natAbs ub.natAbs) [u, v] lb ub ∧ Stands atomNode g a u ∧ Stands atomNode g b v
  | .release lb ub a b, x => ∃ u v, g.IsNode x (.temp .R lb.natAbs ub.natAbs) [u, v] lb ub ∧ Stands atomNode g a u ∧ Stands atomNode g b v

end PGraph
end R2U2
