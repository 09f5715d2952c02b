import Verif.Model.Cpt
/-
MLTL / past-time MLTL semantics, after `/repo/docs/Preliminaries/mltl.md`.

This file is the specification every verdict-preservation theorem refers to.
-/

namespace R2U2
variable {α : Type}

/-- A trace: which atoms hold at which time step.  Total in time; see
`satFin` for the documented finite-trace semantics. -/
abbrev Trace (α : Type) := Nat → α → Prop

mutual
/-- `π, i ⊨ e` on a total trace.  Future operators look at `[i+lb, i+ub]`,
past operators at the part of `[i-ub, i-lb]` that exists (times ≥ 0). -/
def sat (π : Trace α) : Expr α → Nat → Prop
  | .const b, _ => b = true
  | .atom a, i => π i a
  | .neg e, i => ¬ sat π e i
  | .and cs, i => satAll π cs i
  | .or cs, i => satAny π cs i
  | .xor l r, i => ¬ (sat π l i ↔ sat π r i)
  | .imp l r, i => sat π l i → sat π r i
  | .iff l r, i => (sat π l i ↔ sat π r i)
  | .equal l r, i => (sat π l i ↔ sat π r i)
  | .fut lb ub e, i => ∃ j, i + lb ≤ j ∧ j ≤ i + ub ∧ sat π e j
  | .glob lb ub e, i => ∀ j, i + lb ≤ j → j ≤ i + ub → sat π e j
  | .untl lb ub l r, i =>
      ∃ j, i + lb ≤ j ∧ j ≤ i + ub ∧ sat π r j ∧ ∀ k, i + lb ≤ k → k < j → sat π l k
  | .rel lb ub l r, i =>
      ∀ j, i + lb ≤ j → j ≤ i + ub → ¬ sat π r j → ∃ k, i + lb ≤ k ∧ k < j ∧ sat π l k
  | .once lb ub e, i => ∃ j, i ≤ j + ub ∧ j + lb ≤ i ∧ sat π e j
  | .hist lb ub e, i => ∀ j, i ≤ j + ub → j + lb ≤ i → sat π e j
  | .since lb ub l r, i =>
      ∃ j, i ≤ j + ub ∧ j + lb ≤ i ∧ sat π r j ∧ ∀ k, j < k → k + lb ≤ i → sat π l k
  | .trig lb ub l r, i =>
      ∀ j, i ≤ j + ub → j + lb ≤ i → ¬ sat π r j → ∃ k, j < k ∧ k + lb ≤ i ∧ sat π l k
/-- every member of the list holds -/
def satAll (π : Trace α) : List (Expr α) → Nat → Prop
  | [], _ => True
  | c :: cs, i => sat π c i ∧ satAll π cs i
/-- some member of the list holds -/
def satAny (π : Trace α) : List (Expr α) → Nat → Prop
  | [], _ => False
  | c :: cs, i => sat π c i ∨ satAny π cs i
end

/-- Two expressions have the same verdict at every time of every trace. -/
def Equiv (e e' : Expr α) : Prop := ∀ (π : Trace α) (i : Nat), sat π e i ↔ sat π e' i

/-- Traces that agree on the inputs of the times in `[lo, hi]`. -/
def AgreeOn (π π' : Trace α) (lo hi : Int) : Prop :=
  ∀ (j : Nat) (a : α), lo ≤ j → (j : Int) ≤ hi → (π j a ↔ π' j a)

/-- A finite trace: its length and its valuation. -/
structure FinTrace (α : Type) where
  len : Nat
  val : Nat → α → Prop

mutual
/-- The documented finite-trace semantics (mltl.md, future-time part), with
atoms outside the trace read as false. -/
def satFin (π : FinTrace α) : Expr α → Nat → Prop
  | .const b, _ => b = true
  | .atom a, i => i < π.len ∧ π.val i a
  | .neg e, i => ¬ satFin π e i
  | .and cs, i => satFinAll π cs i
  | .or cs, i => satFinAny π cs i
  | .xor l r, i => ¬ (satFin π l i ↔ satFin π r i)
  | .imp l r, i => satFin π l i → satFin π r i
  | .iff l r, i => (satFin π l i ↔ satFin π r i)
  | .equal l r, i => (satFin π l i ↔ satFin π r i)
  | .fut lb ub e, i => π.len > i + lb ∧ ∃ j, i + lb ≤ j ∧ j ≤ i + ub ∧ satFin π e j
  | .glob lb ub e, i => π.len ≤ i + lb ∨ ∀ j, i + lb ≤ j → j ≤ i + ub → satFin π e j
  | .untl lb ub l r, i => π.len > i + lb ∧
      ∃ j, i + lb ≤ j ∧ j ≤ i + ub ∧ satFin π r j ∧
        ∀ k, k < j → i + lb ≤ k → k ≤ i + ub → satFin π l k
  | .rel lb ub l r, i => π.len ≤ i + lb ∨
      ∀ j, i + lb ≤ j → j ≤ i + ub → ¬ satFin π r j →
        ∃ k, k < j ∧ i + lb ≤ k ∧ k ≤ i + ub ∧ satFin π l k
  | .once lb ub e, i => (π.len : Int) > i - ub ∧ ∃ j, i ≤ j + ub ∧ j + lb ≤ i ∧ satFin π e j
  | .hist lb ub e, i => (π.len : Int) ≤ i - ub ∨ ∀ j, i ≤ j + ub → j + lb ≤ i → satFin π e j
  | .since lb ub l r, i => (π.len : Int) > i - ub ∧
      ∃ j, i ≤ j + ub ∧ j + lb ≤ i ∧ satFin π r j ∧
        ∀ k, k > j → i ≤ k + ub → k + lb ≤ i → satFin π l k
  | .trig lb ub l r, i => (π.len : Int) ≤ i - ub ∨
      ∀ j, i ≤ j + ub → j + lb ≤ i → ¬ satFin π r j →
        ∃ k, k > j ∧ i ≤ k + ub ∧ k + lb ≤ i ∧ satFin π l k
def satFinAll (π : FinTrace α) : List (Expr α) → Nat → Prop
  | [], _ => True
  | c :: cs, i => satFin π c i ∧ satFinAll π cs i
def satFinAny (π : FinTrace α) : List (Expr α) → Nat → Prop
  | [], _ => False
  | c :: cs, i => satFin π c i ∨ satFinAny π cs i
end

end R2U2
