import Verif.Spec.GraphPass
import Verif.Model.Pipeline
/-
Vocabulary for the statement about compiling and running a program.
-/
namespace R2U2
variable {α : Type}

namespace Expr

mutual
/-- How many time steps an expression looks ahead (`past = false`) or back (`past = true`). -/
def span (past : Bool) : Expr α → Nat
  | .const _ | .atom _ => 0
  | .neg e => span past e
  | .and cs | .or cs => spanL past cs
  | .xor l r | .imp l r | .iff l r | .equal l r => max (span past l) (span past r)
  | .fut _ ub e | .glob _ ub e => span past e + (if past then 0 else ub)
  | .untl _ ub l r | .rel _ ub l r => max (span past l) (span past r) + (if past then 0 else ub)
  | .once _ ub e | .hist _ ub e => span past e + (if past then ub else 0)
  | .since _ ub l r | .trig _ ub l r => max (span past l) (span past r) + (if past then ub else 0)
/-- The largest span. -/
def spanL (past : Bool) : List (Expr α) → Nat
  | [] => 0
  | c :: cs => max (span past c) (spanL past cs)
end

/-- What the compiled monitor does not get right: operators of the other tense, disordered intervals,
conjunctions and disjunctions without a second operand, constants as operands (apart from the left operand
of `U` and `R`), `==` between truth values, and since and trigger other than once and historically. -/
def odd (past : Bool) : Expr α → Prop
  | .const _ | .atom _ => False
  | .neg e => isConst e
  | .and cs | .or cs => cs.length < 2 ∨ ∃ c ∈ cs, isConst c
  | .xor l r | .imp l r | .iff l r => isConst l ∨ isConst r
  | .equal _ _ => True
  | .fut lb ub e | .glob lb ub e => past = true ∨ ub < lb ∨ isConst e
  | .untl lb ub _ r | .rel lb ub _ r => past = true ∨ ub < lb ∨ isConst r
  | .once lb ub e | .hist lb ub e => past = false ∨ ub < lb ∨ isConst e
  | .since lb ub l r => past = false ∨ ub < lb ∨ l ≠ .const true ∨ isConst r
  | .trig lb ub l r => past = false ∨ ub < lb ∨ l ≠ .const false ∨ isConst r

/-- What `optimize_rewrites` is not known to keep right, in addition: constants, `==`,
conjunctions and disjunctions of more than two operands, and written-out since and trigger. -/
def rough : Expr α → Prop
  | .const _ | .equal _ _ | .since _ _ _ _ | .trig _ _ _ _ => True
  | .and cs | .or cs => cs.length ≠ 2
  | _ => False

end Expr

/-- A specification the theorem is about: none of the above, with the options in force. -/
structure Fit (o : GraphPass.CliOpts) (past : Bool) (e : Expr α) : Prop where
  plain : Nowhere (Expr.odd past) e
  varies : ¬ isConst e
  rewritable : o.rewrite = true → Nowhere Expr.rough e

/-- Atoms that are signals: atom `a` is the signal named `nm a`. -/
def signalAtoms (nm : α → String) (a : α) : Ast := .node (.name (nm a)) []

namespace Heap
/-- Nothing is reached from both `a` and `b`. -/
def Apart {L : Type} (h : Heap L) (a b : Nat) : Prop := ∀ x, Reachable h [a] x → ¬ Reachable h [b] x
end Heap

end R2U2
