import Verif.Model.Egg
import Verif.Spec.Semantics
/-
What the terms handed to the e-graph engine mean, and which of them are meaningful.
-/
namespace R2U2

/-- The truth value of a term at time `i`, when atom `n` holds at the times `v · n`: the MLTL
semantics of `sat`, with integer bounds. -/
def Egg.sem (v : Trace Nat) : Egg → Nat → Prop
  | .bool b, _ => b = true
  | .var n, i => v i n
  | .not a, i => ¬ a.sem v i
  | .implies a b, i => a.sem v i → b.sem v i
  | .equiv a b, i => (a.sem v i ↔ b.sem v i)
  | .and2 a b, i => a.sem v i ∧ b.sem v i
  | .and3 a b c, i => a.sem v i ∧ b.sem v i ∧ c.sem v i
  | .and4 a b c d, i => a.sem v i ∧ b.sem v i ∧ c.sem v i ∧ d.sem v i
  | .or2 a b, i => a.sem v i ∨ b.sem v i
  | .or3 a b c, i => a.sem v i ∨ b.sem v i ∨ c.sem v i
  | .or4 a b c d, i => a.sem v i ∨ b.sem v i ∨ c.sem v i ∨ d.sem v i
  | .global lb ub a, i => ∀ (j : Nat), (i : Int) + lb ≤ j → (j : Int) ≤ i + ub → a.sem v j
  | .future lb ub a, i => ∃ (j : Nat), (i : Int) + lb ≤ j ∧ (j : Int) ≤ i + ub ∧ a.sem v j
  | .until lb ub a b, i => ∃ (j : Nat), (i : Int) + lb ≤ j ∧ (j : Int) ≤ i + ub ∧ b.sem v j ∧
      ∀ (k : Nat), (i : Int) + lb ≤ k → k < j → a.sem v k
  | .release lb ub a b, i => ∀ (j : Nat), (i : Int) + lb ≤ j → (j : Int) ≤ i + ub → ¬ b.sem v j →
      ∃ (k : Nat), (i : Int) + lb ≤ k ∧ k < j ∧ a.sem v k

/-- Every interval is `[lb, ub]` with `0 ≤ lb ≤ ub`. -/
def Egg.WF : Egg → Prop
  | .bool _ | .var _ => True
  | .not a => a.WF
  | .implies a b | .equiv a b | .and2 a b | .or2 a b => a.WF ∧ b.WF
  | .and3 a b c | .or3 a b c => a.WF ∧ b.WF ∧ c.WF
  | .and4 a b c d | .or4 a b c d => a.WF ∧ b.WF ∧ c.WF ∧ d.WF
  | .global lb ub a | .future lb ub a => 0 ≤ lb ∧ lb ≤ ub ∧ a.WF
  | .until lb ub a b | .release lb ub a b => 0 ≤ lb ∧ lb ≤ ub ∧ a.WF ∧ b.WF

/-- Same truth value at every time of every trace. -/
def Egg.Same (a b : Egg) : Prop := ∀ (v : Trace Nat) (i : Nat), a.sem v i ↔ b.sem v i

end R2U2
