import Verif.Lemmas.Rewrite
/-
C01: `optimize_rewrites`.
-/
namespace R2U2
open Expr Rewrite
variable {α : Type}

/-- C01.  For a specification whose intervals are ordered (`type_check` enforces
this, C31), whose `&&`/`||` are binary and whose `==` operands are not built from
constants other than `true`: the command does not raise, and the formula it
produces has the same verdict at every time of every trace.

`key` is Python's `str`; `KeySound` says that expressions with equal texts have
equal verdicts (discharged for the real printer in `Props/Printing.lean`).

Missing for the full C01: n-ary `&&`/`||` and `==` with `false`, where the code is
wrong (theorems below). -/
theorem C01_optimize_verdicts_partial {κ : Type} [DecidableEq κ] (key : Expr α → κ)
    (hk : KeySound key) (e : Expr α)
    (hord : Nowhere isDisordered e) (hbin : Nowhere isNonBinary e)
    (heq : Nowhere isConstEqual e) :
    ∃ e', optimize key e = some e' ∧ Equiv e' e := by
  obtain ⟨e', h1, h2⟩ := optimize_rel hk e (hord.or (hbin.or heq))
  exact ⟨e', h1, h2.equiv⟩

/-- The rewritten specification again has ordered intervals and binary operators,
so the command can be repeated and the result is still accepted downstream. -/
theorem C01_optimize_wellformed {κ : Type} [DecidableEq κ] (key : Expr α → κ)
    (hk : KeySound key) (e : Expr α)
    (hord : Nowhere isDisordered e) (hbin : Nowhere isNonBinary e)
    (heq : Nowhere isConstEqual e) :
    ∃ e', optimize key e = some e' ∧ Nowhere isDisordered e' ∧ Nowhere isNonBinary e' ∧
      Nowhere isConstEqual e' := by
  obtain ⟨e', h1, h2⟩ := optimize_rel hk e (hord.or (hbin.or heq))
  exact ⟨e', h1, h2.good.mono fun _ h => .inl h, h2.good.mono fun _ h => .inr (.inl h),
    h2.good.mono fun _ h => .inr (.inr h)⟩

/-- A concrete key for the examples: a small structural printer. -/
def exKey : Expr Nat → Option (Nat × Nat × Nat × Nat)
  | .atom a => some (0, 0, 0, a)
  | .glob l u (.atom a) => some (1, l, u, a)
  | _ => none

/-- A non-trivial specification satisfying all hypotheses, and its rewriting:
`!(G[0,2] !(a == true)) && F[1,1] G[0,3] b`. -/
example :
    let e : Expr Nat := .and [.neg (.glob 0 2 (.neg (.equal (.atom 0) (.const true)))),
      .fut 1 1 (.glob 0 3 (.atom 1))]
    Nowhere isDisordered e ∧ Nowhere isNonBinary e ∧ Nowhere isConstEqual e ∧
    optimize exKey e = some (.and [.fut 0 2 (.atom 0), .glob 1 4 (.atom 1)]) := by
  refine ⟨?_, ?_, ?_, rfl⟩
  · repeat (first | (rw [nowhere_iff]; simp only [isDisordered, children]; simp))
  · repeat (first | (rw [nowhere_iff]; simp only [isNonBinary, children]; simp))
  · have hc : Nowhere isConst (Expr.atom 0) := ⟨_, by simp [isConst], by simp [children]⟩
    repeat (first | (rw [nowhere_iff]; simp only [isConstEqual, children]; simp [hc]))

/-- Merging two globally operators with different operands. -/
example : optimize exKey (.and [.glob 0 5 (.atom 1), .glob 2 4 (.atom 2)]) =
    some (.glob 0 2 (.and [.glob 0 3 (.atom 1), .glob 2 2 (.atom 2)])) := rfl

/-- The unrestricted C01 is false of the code: `false == p` is rewritten to `p`. -/
theorem C01_fails_on_false_equal {κ : Type} [DecidableEq κ] (key : Expr α → κ) (a : α) :
    ∃ e', optimize key (.equal (.const false) (.atom a)) = some e' ∧
      ¬ Equiv e' (.equal (.const false) (.atom a)) := by
  refine ⟨.atom a, rfl, fun h => ?_⟩
  have := h (fun _ _ => True) 0
  simp [sat] at this

/-- The unrestricted C01 is false of the code: the third operand of a conjunction
that starts with two globally operators is dropped. -/
theorem C01_fails_on_third_operand {κ : Type} [DecidableEq κ] (key : Expr α → κ) (a b c : α)
    (hab : key (.atom a) ≠ key (.atom b)) (hca : c ≠ a) (hcb : c ≠ b) :
    ∃ e', optimize key (.and [.glob 0 1 (.atom a), .glob 0 1 (.atom b), .atom c]) = some e' ∧
      ¬ Equiv e' (.and [.glob 0 1 (.atom a), .glob 0 1 (.atom b), .atom c]) := by
  refine ⟨_, rfl, fun h => ?_⟩
  have := h (fun _ x => x ≠ c) 0
  simp [optimize, postM, postML, optStep, andRule, andGlob, hab, globRule, sat, satAll, hca.symm, hcb.symm] at this

example : exKey (.atom 0) ≠ exKey (.atom 1) ∧ (2 : Nat) ≠ 0 ∧ (2 : Nat) ≠ 1 := by decide

/-- A conjunction with a single operand makes the command raise an `IndexError`
instead of keeping the specification. -/
theorem C01_fails_on_singleton {κ : Type} [DecidableEq κ] (key : Expr α → κ) (a : α) :
    optimize key (.and [.atom a]) = none := rfl

end R2U2
