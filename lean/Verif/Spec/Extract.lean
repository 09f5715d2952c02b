import Verif.Model.Extract
/-
What a class of an e-graph represents.
-/
namespace R2U2

/-- The term an operator forms of operands. -/
inductive EOp.Forms : EOp → List Egg → Egg → Prop
  | bool (b : Bool) : Forms (.bool b) [] (.bool b)
  | var (n : Nat) : Forms (.var n) [] (.var n)
  | not (a : Egg) : Forms .not [a] (.not a)
  | implies (a b : Egg) : Forms .implies [a, b] (.implies a b)
  | equiv (a b : Egg) : Forms .equiv [a, b] (.equiv a b)
  | and2 (a b : Egg) : Forms .and2 [a, b] (.and2 a b)
  | and3 (a b c : Egg) : Forms .and3 [a, b, c] (.and3 a b c)
  | and4 (a b c d : Egg) : Forms .and4 [a, b, c, d] (.and4 a b c d)
  | or2 (a b : Egg) : Forms .or2 [a, b] (.or2 a b)
  | or3 (a b c : Egg) : Forms .or3 [a, b, c] (.or3 a b c)
  | or4 (a b c d : Egg) : Forms .or4 [a, b, c, d] (.or4 a b c d)
  | global (lb ub : Int) (a : Egg) : Forms (.global lb ub) [a] (.global lb ub a)
  | future (lb ub : Int) (a : Egg) : Forms (.future lb ub) [a] (.future lb ub a)
  | until (lb ub : Int) (a b : Egg) : Forms (.until lb ub) [a, b] (.until lb ub a b)
  | release (lb ub : Int) (a b : Egg) : Forms (.release lb ub) [a, b] (.release lb ub a b)

/-- A class represents the terms built by choosing one of its nodes and, for each operand, a term
its class represents. -/
inductive EGraph.Rep (G : EGraph) : Nat → Egg → Prop
  | node {c : Nat} {n : ENode} {ts : List Egg} {t : Egg} : n ∈ G.nodes c →
      ts.length = n.kids.length →
      (∀ (k d : Nat) (u : Egg), n.kids[k]? = some d → ts[k]? = some u → G.Rep d u) →
      n.op.Forms ts t → G.Rep c t

/-- Every node has as many operands as its operator takes. -/
def EGraph.Arities (G : EGraph) : Prop :=
  ∀ (c : Nat) (n : ENode), n ∈ G.nodes c → n.kids.length = n.op.arity

/-- No `->`, `G` or `F` in a term. -/
def Egg.Basic : Egg → Prop
  | .bool _ | .var _ => True
  | .not a => a.Basic
  | .implies _ _ | .global _ _ _ | .future _ _ _ => False
  | .equiv a b | .and2 a b | .or2 a b | .until _ _ a b | .release _ _ a b => a.Basic ∧ b.Basic
  | .and3 a b c | .or3 a b c => a.Basic ∧ b.Basic ∧ c.Basic
  | .and4 a b c d | .or4 a b c d => a.Basic ∧ b.Basic ∧ c.Basic ∧ d.Basic

end R2U2
