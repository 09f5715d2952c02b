import Verif.Lemmas.Delay
/-
C14, C15, C52: propagation delays.
-/
namespace R2U2
open Expr Rewrite
variable {α : Type}

/-- C14 for future-time specifications: the verdict at `i` depends only on the
inputs at times `i + bpd … i + wpd`. -/
theorem C14_future_window (e : Expr α) (he : Nowhere isPast e) (π π' : Trace α) (i : Nat)
    (h : AgreeOn π π' (i + bpd e) (i + wpd e)) : sat π e i ↔ sat π' e i := by
  refine delay_window e (he.mono ?_) π π' i h
  intro e; cases e <;> simp [isMisdelayed, isPast]

/-- C14 for all specifications whose past operators are O, H over operands without
a delay range, or S, T over a single time step.
Missing: the other past operators, for which the recorded delays are wrong. -/
theorem C14_window_partial (e : Expr α) (he : Nowhere isMisdelayed e) (π π' : Trace α) (i : Nat)
    (h : AgreeOn π π' (i + bpd e) (i + wpd e)) : sat π e i ↔ sat π' e i :=
  delay_window e he π π' i h

example : Nowhere isPast (Expr.untl 1 4 (.atom "a") (.glob 2 3 (.atom "b"))) ∧
    bpd (Expr.untl 1 4 (.atom "a") (.glob 2 3 (.atom "b"))) = 1 ∧
    wpd (Expr.untl 1 4 (.atom "a") (.glob 2 3 (.atom "b"))) = 7 := by
  refine ⟨?_, by simp [bpd]; omega, by simp [wpd]; omega⟩
  repeat (first | (rw [nowhere_iff]; simp only [isPast, children]; simp))

example : Nowhere isMisdelayed (Expr.imp (.hist 1 4 (.atom "a")) (.atom "b")) := by
  repeat (first | (rw [nowhere_iff]; simp only [isMisdelayed, children]; simp [bpd, wpd]))

/-- The unrestricted C14 is false of the code: `p S[0,5] q` has recorded delays
`0, 0`, but its verdict at time 5 depends on `q` at time 0. -/
theorem C14_fails_on_since (p q : α) (hpq : p ≠ q) :
    ∃ (π π' : Trace α) (i : Nat),
      AgreeOn π π' (i + bpd (.since 0 5 (.atom p) (.atom q))) (i + wpd (.since 0 5 (.atom p) (.atom q))) ∧
      ¬ (sat π (.since 0 5 (.atom p) (.atom q)) i ↔ sat π' (.since 0 5 (.atom p) (.atom q)) i) := by
  refine ⟨fun j a => a = p ∨ j = 0, fun _ a => a = p, 5, ?_, ?_⟩
  · intro j a h1 h2
    simp only [bpd, wpd] at h1 h2
    have : j = 5 := by omega
    subst this; simp
  · simp only [sat]
    intro h
    have h1 : ∃ j, (5 : Nat) ≤ j + 5 ∧ j + 0 ≤ 5 ∧ (q = p ∨ j = 0) ∧
        ∀ k, j < k → k + 0 ≤ 5 → (True ∨ k = 0) := ⟨0, by omega, by omega, .inr rfl, fun _ _ _ => .inl trivial⟩
    obtain ⟨_, _, _, h3, _⟩ := h.1 h1
    exact hpq h3.symm

/-- The unrestricted C14 is false of the code: `H[0,0]((O[3,3] p) && q)` has
recorded worst-case delay `-3`, but depends on the current `q`. -/
theorem C14_fails_on_nested_past (p q : α) :
    let e : Expr α := .hist 0 0 (.and [.once 3 3 (.atom p), .atom q])
    ∃ (π π' : Trace α) (i : Nat), AgreeOn π π' (i + bpd e) (i + wpd e) ∧ ¬ (sat π e i ↔ sat π' e i) := by
  refine ⟨fun _ _ => True, fun j _ => j < 3, 3, ?_, ?_⟩
  · intro j a h1 h2
    simp only [bpd, wpd, bpdL, minL] at h1 h2
    simp; omega
  · simp only [sat, satAll]
    intro h
    have := (h.1 (by
      intro j _ _
      exact ⟨⟨j - 3, by omega, by omega, trivial⟩, trivial, trivial⟩)) 3 (by omega) (by omega)
    omega

/-- C15: on a finite trace longer than `i + wpd` the documented finite-trace
semantics and the unbounded-trace semantics give the same verdict at `i`. -/
theorem C15_finite_trace (π : FinTrace α) (e : Expr α) (he : Nowhere isPast e) (i : Nat)
    (h : (i : Int) + wpd e < π.len) : satFin π e i ↔ sat π.val e i := satFin_iff_sat π e he i h

example : ∃ (π : FinTrace String), (2 : Int) + wpd (Expr.untl 1 4 (.atom "a") (.atom "b")) < π.len :=
  ⟨⟨7, fun _ _ => True⟩, by simp [wpd]⟩

/-- C15, transfer: a verdict-preserving transformation also preserves the documented
finite-trace verdicts on every trace that covers both worst-case delays. -/
theorem C15_transfer (e e' : Expr α) (hq : Equiv e' e) (he : Nowhere isPast e)
    (he' : Nowhere isPast e') (π : FinTrace α) (i : Nat) (h : (i : Int) + wpd e < π.len)
    (h' : (i : Int) + wpd e' < π.len) : satFin π e' i ↔ satFin π e i := by
  rw [satFin_iff_sat π e he i h, satFin_iff_sat π e' he' i h']
  exact hq _ _

/-- C52: `optimize_rewrites` never increases the worst-case delay of a future-time
specification (with an unambiguous `str`). -/
theorem C52_optimize_latency {κ : Type} [DecidableEq κ] (key : Expr α → κ)
    (hk : KeyInj key) (e e' : Expr α) (hf : Nowhere isPast e)
    (hord : Nowhere isDisordered e) (hbin : Nowhere isNonBinary e)
    (h : optimize key e = some e') : wpd e' ≤ wpd e := by
  exact (optimize_latBad key hk e e' (hf.or (hord.or hbin)) h).2

/-- C01 + C15 + C52: with an unambiguous `str`, `optimize_rewrites` keeps the
documented finite-trace verdict on every trace that is long enough to decide the
specification the user wrote. -/
theorem C01_optimize_finite_partial {κ : Type} [DecidableEq κ] (key : Expr α → κ)
    (hk : KeyInj key) (e : Expr α) (hf : Nowhere isPast e)
    (hord : Nowhere isDisordered e) (hbin : Nowhere isNonBinary e) (heq : Nowhere isConstEqual e) :
    ∃ e', optimize key e = some e' ∧
      ∀ (π : FinTrace α) (i : Nat), (i : Int) + wpd e < π.len → (satFin π e' i ↔ satFin π e i) := by
  have hks : KeySound key := fun p q hp hq h => by rw [hk p q hp hq h]; exact Equiv.refl q
  obtain ⟨e', h1, h2⟩ := optimize_rel hks e (hord.or (hbin.or heq))
  refine ⟨e', h1, fun π i hi => ?_⟩
  have hw := C52_optimize_latency key hk e e' hf hord hbin h1
  have hp : Nowhere isPast e' :=
    (optimize_latBad key hk e e' (hf.or (hord.or hbin)) h1).1.mono fun _ h => .inl h
  exact C15_transfer e e' h2.equiv hf hp π i hi (by omega)

/-- On traces that are too short to decide a specification the rewriter does change
the documented finite-trace verdict: `G[0,1] G[0,0] p` is true on the one-step trace
where `p` holds, its rewriting `G[0,1] p` is not. -/
theorem C01_short_trace_disagreement {κ : Type} [DecidableEq κ] (key : Expr α → κ) (p : α) :
    let e : Expr α := .glob 0 1 (.glob 0 0 (.atom p))
    let e' : Expr α := .glob 0 1 (.atom p)
    let π : FinTrace α := ⟨1, fun _ _ => True⟩
    optimize key e = some e' ∧ satFin π e 0 ∧ ¬ satFin π e' 0 := by
  refine ⟨rfl, ?_, ?_⟩
  · simp only [satFin]
    right
    intro j h1 h2
    by_cases hj : j = 0
    · subst hj; right; intro k hk1 hk2
      have : k = 0 := by omega
      subst this; simp
    · left; omega
  · simp only [satFin]
    rintro (h | h)
    · omega
    · have := (h 1 (by omega) (by omega)).1
      omega

end R2U2
