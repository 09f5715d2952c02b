import Verif.Model.Sabre
import Verif.Spec.Semantics
/-
Vocabulary for statements about the generated C program: the formula it is generated from, and
the formulas for which it is right.
-/
namespace R2U2
namespace Sabre

/-- The formula at a node, from the formulas of its operands. -/
def nodeExpr (es : List (Expr Nat)) : Node → Expr Nat
  | .atom a => .atom a
  | .const b => .const b
  | .neg k => .neg (es.getD k (.const false))
  | .and ks => .and (ks.map fun k => es.getD k (.const false))
  | .or ks => .or (ks.map fun k => es.getD k (.const false))
  | .imp l r => .imp (es.getD l (.const false)) (es.getD r (.const false))
  | .iff l r => .iff (es.getD l (.const false)) (es.getD r (.const false))
  | .xor l r => .xor (es.getD l (.const false)) (es.getD r (.const false))
  | .fut lb ub k => .fut lb ub (es.getD k (.const false))
  | .glob lb ub k => .glob lb ub (es.getD k (.const false))
  | .untl lb ub l r => .untl lb ub (es.getD l (.const false)) (es.getD r (.const false))

/-- The formula of the node at position `k`. -/
def exprAt (ns : List Node) (k : Nat) : Expr Nat := (scan nodeExpr ns).getD k (.const false)

/-- The formula of the whole list: its last node. -/
def formula (ns : List Node) : Expr Nat := exprAt ns (ns.length - 1)

/-- The trace given by the rows of the input. -/
def traceOf (rows : Nat → Nat → Int) : Trace Nat := fun t a => rows t a = 1

mutual
/-- How many words of `2^L` time steps the code must read ahead: the sum over nested temporal operators
of their upper bounds, each rounded up to words. -/
def wordDelay (L : Nat) : Expr Nat → Nat
  | .const _ | .atom _ => 0
  | .neg e => wordDelay L e
  | .and cs | .or cs => wordDelays L cs
  | .xor l r | .imp l r | .iff l r | .equal l r => max (wordDelay L l) (wordDelay L r)
  | .fut _ ub e | .glob _ ub e | .once _ ub e | .hist _ ub e => (ub + 2 ^ L - 1) / 2 ^ L + wordDelay L e
  | .untl _ ub l r | .rel _ ub l r | .since _ ub l r | .trig _ ub l r =>
      (ub + 2 ^ L - 1) / 2 ^ L + max (wordDelay L l) (wordDelay L r)
def wordDelays (L : Nat) : List (Expr Nat) → Nat
  | [] => 0
  | c :: cs => max (wordDelay L c) (wordDelays L cs)
end

/-- What remains of a window of `n` time steps beyond the largest power of two: smaller than a word
or a whole number of words. -/
def LeftoverOk (L n : Nat) : Prop := n - 2 ^ n.log2 < 2 ^ L ∨ (n - 2 ^ n.log2) % 2 ^ L = 0

/-- Nodes for which the generated code is right. -/
def NodeOk (L nsigs k : Nat) : Node → Prop
  | .atom a => a < nsigs
  | .const b => b = false
  | .neg c => c < k
  | .and cs | .or cs => cs ≠ [] ∧ ∀ c ∈ cs, c < k
  | .imp l r | .xor l r => l < k ∧ r < k
  | .iff _ _ => False
  | .fut lb ub c | .glob lb ub c => c < k ∧ lb ≤ ub ∧ LeftoverOk L (ub - lb + 1)
  | .untl lb ub l r => l < k ∧ r < k ∧ lb ≤ ub ∧ LeftoverOk L (ub - lb + 1) ∧
      (ub + 1).log2 = (ub - lb + 1).log2

/-- What the order of `cpt.postorder` gives: every node but the last is an operand of a later one. -/
def Used (ns : List Node) : Prop :=
  ∀ (k : Nat), k + 1 < ns.length → ∃ (j : Nat) (n : Node), k < j ∧ ns[j]? = some n ∧ k ∈ n.kids

/-- Formulas for which the generated code is right: operands come before uses, no `true`, no `<->`,
signals have columns, and window lengths as above. -/
def Supported (L nsigs : Nat) (ns : List Node) : Prop :=
  ns ≠ [] ∧ Used ns ∧ ∀ (k : Nat) (n : Node), ns[k]? = some n → NodeOk L nsigs k n

end Sabre
end R2U2
