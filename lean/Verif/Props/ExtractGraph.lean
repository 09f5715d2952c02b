import Verif.Lemmas.ExtractGraph
import Verif.Props.Egg
/-
C57.  The graph the ILP extraction builds.
-/
namespace R2U2

/-- C57: the node the ILP extraction builds for the extracted term stands for it: operators, intervals and operands, in order, are those of the term, variables are
the nodes of the atomics, and each operator's delays are those of its operands plus what its interval adds.  The nodes of the program are unchanged but for
their parents. -/
theorem C57_ilp_graph (atomNode : Nat → Nat) (t : Egg) (g g' : PGraph) (x : Nat) (hg : ∀ p, p < g.next → ∀ c ∈ g.heap.kids p, c < g.next)
    (hat : ∀ n, atomNode n < g.next) (h : PGraph.build (PGraph.clearLeaf atomNode) t g = (g', x)) :
    PGraph.Stands atomNode g' t x ∧
    ∀ y, y < g.next → g'.heap.lab y = g.heap.lab y ∧ g'.heap.kids y = g.heap.kids y ∧ g'.bpd y = g.bpd y ∧ g'.wpd y = g.wpd y := by
  have B := PGraph.build_stands t g hg hat
  rw [h] at B
  exact ⟨B.stands, fun y hy => ⟨B.ext.lab y hy, B.ext.kids y hy, B.ext.bpd y hy, B.ext.wpd y hy⟩⟩

/-- The hypotheses are met by `eqsatProg` and its three atomics. -/
example : (∀ p, p < eqsatProg.next → ∀ c ∈ eqsatProg.heap.kids p, c < eqsatProg.next) ∧ (∀ n, 6 + n % 3 < eqsatProg.next) ∧
    (PGraph.build (PGraph.clearLeaf fun n => 6 + n % 3) eqsatT1 eqsatProg).2 = 14 :=
  ⟨fun p _ => eqsatProg_ok.low p, fun n => by show 6 + n % 3 < 13; omega, by decide +kernel⟩

end R2U2
