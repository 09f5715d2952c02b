import Verif.Lemmas.Unroll
/-
C12, C13: unrolling and interval decomposition.
-/
namespace R2U2
open Expr Unroll
variable {α : Type}

/-- C12: for ordered intervals, whenever unrolling succeeds it keeps every verdict. -/
theorem C12_unroll_verdicts (e e' : Expr α) (hord : Nowhere isDisordered e)
    (h : unroll e = some e') : Equiv e' e :=
  postM_equiv_root (fun _ _ hs => isDisordered_shape hs) (fun _ _ => unrollStep_equiv) e e' hord h

/-- C12: unrolling succeeds on every specification without release operators. -/
theorem C12_unroll_succeeds (e : Expr α) (h : Nowhere isRelease e) : ∃ e', unroll e = some e' := by
  refine postM_isSome (bad := isRelease) ?_ ?_ e h
  · intro e m hs
    cases e <;> cases m <;> simp_all [shape, isRelease]
  · intro m hm
    cases m <;> simp only [unrollStep]
    case rel => simp [isRelease] at hm
    all_goals (try split) <;> exact ⟨_, rfl⟩

/-- C12: afterwards every F and G looks at a single time step and no U or R is
left. -/
theorem C12_unroll_shape (e e' : Expr α) (h : unroll e = some e') : Nowhere isUnrollable e' := by
  refine postM_nowhere ?_ e e' h
  intro m e' hc hm
  have point : ∀ b (x : Expr α), Nowhere isUnrollable x → Nowhere isUnrollable (.fut b b x) := by
    intro b x hx; rw [nw_fut]; exact ⟨by simp [isUnrollable], hx⟩
  have pointG : ∀ b (x : Expr α), Nowhere isUnrollable x → Nowhere isUnrollable (.glob b b x) := by
    intro b x hx; rw [nw_glob]; exact ⟨by simp [isUnrollable], hx⟩
  cases m <;> simp only [unrollStep, Option.some.injEq] at hm
  case fut lb ub x =>
    have hx : Nowhere isUnrollable x := hc x (by simp [children])
    split at hm <;> (rw [Option.some.injEq] at hm; subst hm)
    · rename_i heq; subst heq; exact point _ _ hx
    · rw [nw_or]
      refine ⟨by simp [isUnrollable], fun c hc => ?_⟩
      obtain ⟨b, _, rfl⟩ := List.mem_map.1 hc
      exact point _ _ hx
  case glob lb ub x =>
    have hx : Nowhere isUnrollable x := hc x (by simp [children])
    split at hm <;> (rw [Option.some.injEq] at hm; subst hm)
    · rename_i heq; subst heq; exact pointG _ _ hx
    · rw [nw_and]
      refine ⟨by simp [isUnrollable], fun c hc => ?_⟩
      obtain ⟨b, _, rfl⟩ := List.mem_map.1 hc
      exact pointG _ _ hx
  case untl lb ub l r =>
    subst hm
    have hl : Nowhere isUnrollable l := hc l (by simp [children])
    have hr : Nowhere isUnrollable r := hc r (by simp [children])
    have loop : ∀ (n : Nat) (repl : Expr α), Nowhere isUnrollable repl →
        Nowhere isUnrollable (untilLoop lb l r n repl) := by
      intro n
      induction n with
      | zero => intro repl h; exact h
      | succ n ih =>
        intro repl h
        unfold untilLoop
        apply ih
        rw [nw_or]
        refine ⟨by simp [isUnrollable], ?_⟩
        simp only [List.mem_cons, List.not_mem_nil, or_false, forall_eq_or_imp, forall_eq]
        refine ⟨point _ _ hr, ?_⟩
        rw [nw_and]
        refine ⟨by simp [isUnrollable], ?_⟩
        simp only [List.mem_cons, List.not_mem_nil, or_false, forall_eq_or_imp, forall_eq]
        exact ⟨point _ _ hl, h⟩
    exact loop _ _ (point _ _ hr)
  case rel => simp at hm
  all_goals (subst hm; exact ⟨_, by simp [isUnrollable], hc⟩)

/-- The release operator is not supported: the function raises. -/
theorem C12_unroll_rejects_release (lb ub : Nat) (a b : α) :
    unroll (.rel lb ub (.atom a) (.atom b)) = none := rfl

example :
    Nowhere isDisordered (Expr.untl 1 3 (.atom "a") (.glob 0 1 (.atom "b"))) ∧
    unroll (.untl 1 3 (.atom "a") (.glob 0 1 (.atom "b"))) =
      (let g : Expr String := .and [.glob 0 0 (.atom "b"), .glob 1 1 (.atom "b")]
       some (.or [.fut 1 1 g, .and [.fut 1 1 (.atom "a"),
         .or [.fut 2 2 g, .and [.fut 2 2 (.atom "a"), .fut 3 3 g]]]])) := by
  constructor
  · repeat (first | (rw [nowhere_iff]; simp only [isDisordered, children]; simp))
  · rfl

/-- C13: for ordered intervals `decompose_intervals` keeps every verdict. -/
theorem C13_decompose_verdicts (e : Expr α) (hord : Nowhere isDisordered e) :
    Equiv (decompose e) e :=
  post_equiv_root (fun _ _ hs => isDisordered_shape hs) (fun _ => decomposeStep_equiv) e hord

/-- C13: afterwards every F, G and U interval is a point or `[0, 2^n - 1]`. -/
theorem C13_decompose_shape (e : Expr α) : Nowhere isUndecomposed (decompose e) := by
  refine post_nowhere ?_ e
  intro m hc
  cases m <;> simp only [decomposeStep]
  case fut lb ub x =>
    have hx : Nowhere isUndecomposed x := hc x (by simp [children])
    have hfold : ∀ l : List Nat, (∀ a ∈ l, ∃ k, 0 < k ∧ a = 2 ^ k - 1) →
        Nowhere isUndecomposed (l.foldr (fun a repl => .fut 0 a repl) x) := by
      intro l hl
      induction l with
      | nil => exact hx
      | cons a l ih =>
        obtain ⟨k, _, ha⟩ := hl a (by simp)
        rw [List.foldr_cons, nw_fut]
        refine ⟨?_, ih fun a ha => hl a (by simp [ha])⟩
        simp only [isUndecomposed, Classical.not_not]
        exact .inr ⟨by trivial, k, ha⟩
    split
    · rename_i heq; subst heq; rw [nw_fut]; exact ⟨by simp [isUndecomposed], hx⟩
    · split
      · rw [nw_fut]; exact ⟨by simp [isUndecomposed], hfold _ (amounts_pow lb ub)⟩
      · exact hfold _ (amounts_pow lb ub)
  case glob lb ub x =>
    have hx : Nowhere isUndecomposed x := hc x (by simp [children])
    have hfold : ∀ l : List Nat, (∀ a ∈ l, ∃ k, 0 < k ∧ a = 2 ^ k - 1) →
        Nowhere isUndecomposed (l.foldr (fun a repl => .glob 0 a repl) x) := by
      intro l hl
      induction l with
      | nil => exact hx
      | cons a l ih =>
        obtain ⟨k, _, ha⟩ := hl a (by simp)
        rw [List.foldr_cons, nw_glob]
        refine ⟨?_, ih fun a ha => hl a (by simp [ha])⟩
        simp only [isUndecomposed, Classical.not_not]
        exact .inr ⟨by trivial, k, ha⟩
    split
    · rename_i heq; subst heq; rw [nw_glob]; exact ⟨by simp [isUndecomposed], hx⟩
    · split
      · rw [nw_glob]; exact ⟨by simp [isUndecomposed], hfold _ (amounts_pow lb ub)⟩
      · exact hfold _ (amounts_pow lb ub)
  case untl lb ub x y =>
    have hx : Nowhere isUndecomposed x := hc x (by simp [children])
    have hy : Nowhere isUndecomposed y := hc y (by simp [children])
    have hfold : ∀ l : List Nat, (∀ a ∈ l, ∃ k, 0 < k ∧ a = 2 ^ k - 1) →
        Nowhere isUndecomposed (l.foldr (fun a repl => .untl 0 a x repl) y) := by
      intro l hl
      induction l with
      | nil => exact hy
      | cons a l ih =>
        obtain ⟨k, _, ha⟩ := hl a (by simp)
        rw [List.foldr_cons, nw_untl]
        refine ⟨?_, hx, ih fun a ha => hl a (by simp [ha])⟩
        simp only [isUndecomposed, Classical.not_not]
        exact .inr ⟨by trivial, k, ha⟩
    split
    · rename_i heq; subst heq; rw [nw_untl]; exact ⟨by simp [isUndecomposed], hx, hy⟩
    · split
      · rw [nw_untl]; exact ⟨by simp [isUndecomposed], hx, hfold _ (amounts_pow lb ub)⟩
      · exact hfold _ (amounts_pow lb ub)
  all_goals exact ⟨_, by simp [isUndecomposed], hc⟩

/-- The example of the docstring (cpt.py:1858): the interval `[2,22]`. -/
example : Nowhere isDisordered (Expr.fut 2 22 (.atom "p")) ∧
    decompose (.fut 2 22 (.atom "p")) =
      .fut 2 2 (.fut 0 15 (.fut 0 3 (.fut 0 1 (.fut 0 1 (.atom "p"))))) := by
  constructor
  · repeat (first | (rw [nowhere_iff]; simp only [isDisordered, children]; simp))
  · simp [decompose, post, decomposeStep, amounts, bitLength, amountsLoop, whileSub,
      Nat.log2_def]

end R2U2
