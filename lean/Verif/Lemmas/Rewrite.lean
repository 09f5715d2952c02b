import Verif.Lemmas.Transform
import Verif.Model.Rewrite
/-
Lemmas about `optimize_rewrites`.
-/
namespace R2U2
open Expr Rewrite
variable {α : Type}

/-! interval arithmetic -/

theorem glob_glob (p : Nat → Prop) (i l1 u1 l2 u2 : Nat) (h1 : l1 ≤ u1) (h2 : l2 ≤ u2) :
    (∀ j, i + l1 ≤ j → j ≤ i + u1 → ∀ k, j + l2 ≤ k → k ≤ j + u2 → p k) ↔
      ∀ k, i + (l1 + l2) ≤ k → k ≤ i + (u1 + u2) → p k := by
  constructor
  · intro h k hk1 hk2
    by_cases hc : k ≤ i + l1 + u2
    · exact h (i + l1) (by omega) (by omega) k (by omega) (by omega)
    · exact h (k - u2) (by omega) (by omega) k (by omega) (by omega)
  · intro h j hj1 hj2 k hk1 hk2
    exact h k (by omega) (by omega)

theorem fut_fut (p : Nat → Prop) (i l1 u1 l2 u2 : Nat) (h1 : l1 ≤ u1) (h2 : l2 ≤ u2) :
    (∃ j, i + l1 ≤ j ∧ j ≤ i + u1 ∧ ∃ k, j + l2 ≤ k ∧ k ≤ j + u2 ∧ p k) ↔
      ∃ k, i + (l1 + l2) ≤ k ∧ k ≤ i + (u1 + u2) ∧ p k := by
  have := glob_glob (fun k => ¬ p k) i l1 u1 l2 u2 h1 h2
  rw [← not_iff_not]
  push Not
  exact this

/-- the point interval -/
theorem glob_point (p : Nat → Prop) (i a : Nat) :
    (∀ j, i + a ≤ j → j ≤ i + a → p j) ↔ p (i + a) := by
  constructor
  · intro h; exact h _ (by omega) (by omega)
  · intro h j h1 h2
    have : j = i + a := by omega
    subst this; exact h

theorem fut_point (p : Nat → Prop) (i a : Nat) :
    (∃ j, i + a ≤ j ∧ j ≤ i + a ∧ p j) ↔ p (i + a) := by
  constructor
  · rintro ⟨j, h1, h2, h⟩
    have : j = i + a := by omega
    subst this; exact h
  · intro h; exact ⟨_, by omega, by omega, h⟩

theorem glob_split (p : Nat → Prop) (i l1 u1 l3 u3 : Nat) (h13 : l3 ≤ l1) (hu : u3 ≤ u1)
    (h33 : l3 ≤ u3) (hlen : u3 - l3 ≤ u1 - l1) (h1 : l1 ≤ u1) :
    (∀ j, i + l1 ≤ j → j ≤ i + u1 → p j) ↔
      ∀ j, i + l3 ≤ j → j ≤ i + u3 → ∀ k, j + (l1 - l3) ≤ k → k ≤ j + (u1 - u3) → p k := by
  rw [glob_glob p i l3 u3 (l1 - l3) (u1 - u3) h33 (by omega)]
  have e1 : l3 + (l1 - l3) = l1 := by omega
  have e2 : u3 + (u1 - u3) = u1 := by omega
  rw [e1, e2]

/-! the local rules -/

theorem negRule_equiv (e : Expr α) : Equiv (negRule e) (.neg e) := by
  intro π i
  unfold negRule
  split <;> simp [sat]

theorem globRule_equiv (lb ub : Nat) (e : Expr α) (h : lb ≤ ub)
    (hd : Nowhere isDisordered e) : Equiv (globRule lb ub e) (.glob lb ub e) := by
  intro π i
  have hd' := (nowhere_iff.1 hd).1
  have hdflt : sat π (if lb = 0 ∧ ub = 0 then e else .glob lb ub e) i ↔ sat π (.glob lb ub e) i := by
    split
    · rename_i h0
      obtain ⟨rfl, rfl⟩ := h0
      simp only [sat]
      exact (glob_point (fun j => sat π e j) i 0).symm
    · exact Iff.rfl
  unfold globRule
  simp only
  split
  · simp [sat]
  · exact hdflt
  · simp only [isDisordered, Nat.not_lt] at hd'
    simp only [sat]
    exact (glob_glob (fun k => sat π _ k) i lb ub _ _ h hd').symm
  · rename_i l u p
    simp only [isDisordered, Nat.not_lt] at hd'
    split
    · rename_i hh; subst hh
      simp only [sat]
      rw [glob_point (fun j => ∃ k, j + l ≤ k ∧ k ≤ j + u ∧ sat π p k) i lb]
      simp only [Nat.add_assoc]
    · split
      · rename_i hh; subst hh
        simp only [sat]
        have : ∀ j, (∃ k, j + l ≤ k ∧ k ≤ j + l ∧ sat π p k) ↔ ∀ k, j + l ≤ k → k ≤ j + l → sat π p k := by
          intro j; rw [fut_point (fun k => sat π p k), glob_point (fun k => sat π p k)]
        simp only [this]
        exact (glob_glob (fun k => sat π p k) i lb ub l l h (Nat.le_refl _)).symm
      · exact hdflt
  · exact hdflt

theorem futRule_equiv (lb ub : Nat) (e : Expr α) (h : lb ≤ ub)
    (hd : Nowhere isDisordered e) : Equiv (futRule lb ub e) (.fut lb ub e) := by
  intro π i
  have hd' := (nowhere_iff.1 hd).1
  have hdflt : sat π (if lb = 0 ∧ ub = 0 then e else .fut lb ub e) i ↔ sat π (.fut lb ub e) i := by
    split
    · rename_i h0
      obtain ⟨rfl, rfl⟩ := h0
      simp only [sat]
      exact (fut_point (fun j => sat π e j) i 0).symm
    · exact Iff.rfl
  unfold futRule
  simp only
  split
  · exact hdflt
  · simp [sat]
  · simp only [isDisordered, Nat.not_lt] at hd'
    simp only [sat]
    exact (fut_fut (fun k => sat π _ k) i lb ub _ _ h hd').symm
  · rename_i l u p
    simp only [isDisordered, Nat.not_lt] at hd'
    split
    · rename_i hh; subst hh
      simp only [sat]
      rw [fut_point (fun j => ∀ k, j + l ≤ k → k ≤ j + u → sat π p k) i lb]
      simp only [Nat.add_assoc]
    · split
      · rename_i hh; subst hh
        simp only [sat]
        have : ∀ j, (∀ k, j + l ≤ k → k ≤ j + l → sat π p k) ↔ (∃ k, j + l ≤ k ∧ k ≤ j + l ∧ sat π p k) := by
          intro j; rw [fut_point (fun k => sat π p k), glob_point (fun k => sat π p k)]
        simp only [this]
        exact (fut_fut (fun k => sat π p k) i lb ub l l h (Nat.le_refl _)).symm
      · exact hdflt
  · exact hdflt

theorem equalRule_equiv (l r : Expr α)
    (hl : l = .const true ∨ Nowhere isConst l) (hr : r = .const true ∨ Nowhere isConst r) :
    Equiv (equalRule l r) (.equal l r) := by
  intro π i
  have key : ∀ {b : Bool}, ((Expr.const b : Expr α) = .const true ∨ Nowhere isConst (Expr.const b : Expr α)) → b = true := by
    intro b h
    rcases h with h | h
    · injection h
    · exact absurd trivial (nowhere_iff.1 h).1
  unfold equalRule
  split
  · exact Iff.rfl
  · have := key hl; subst this; simp [sat]
  · have := key hr; subst this; simp [sat]
  · exact Iff.rfl

/-- What the rewriter needs from `str`: equal texts, equivalent expressions (for expressions
whose conjunctions and disjunctions are binary). -/
def KeySound {κ : Type} (key : Expr α → κ) : Prop :=
  ∀ p q : Expr α, Nowhere isNonBinary p → Nowhere isNonBinary q → key p = key q → Equiv p q

theorem andGlob_equiv {κ : Type} [DecidableEq κ] {key : Expr α → κ}
    (l1 u1 : Nat) (p : Expr α) (l2 u2 : Nat) (q : Expr α) (hk : key p = key q → Equiv p q) (h1 : l1 ≤ u1) (h2 : l2 ≤ u2) :
    Equiv (andGlob key (.and [.glob l1 u1 p, .glob l2 u2 q]) l1 u1 p l2 u2 q)
      (.and [.glob l1 u1 p, .glob l2 u2 q]) := by
  intro π i
  unfold andGlob
  split
  · rename_i hpq
    have hpq := hk hpq π
    split
    · simp only [sat, satAll, and_true, ← hpq]
      exact ⟨fun h => ⟨h, fun j hj1 hj2 => h j (by omega) (by omega)⟩, fun h => h.1⟩
    split
    · simp only [sat, satAll, and_true, ← hpq]
      exact ⟨fun h => ⟨fun j hj1 hj2 => h j (by omega) (by omega), h⟩, fun h => h.2⟩
    split
    · simp only [sat, satAll, and_true, ← hpq]
      refine ⟨fun h => ⟨fun j hj1 hj2 => h j (by omega) (by omega),
        fun j hj1 hj2 => h j (by omega) (by omega)⟩, fun h j hj1 hj2 => ?_⟩
      by_cases hc : j ≤ i + u1
      · exact h.1 j (by omega) (by omega)
      · exact h.2 j (by omega) (by omega)
    split
    · simp only [sat, satAll, and_true, ← hpq]
      refine ⟨fun h => ⟨fun j hj1 hj2 => h j (by omega) (by omega),
        fun j hj1 hj2 => h j (by omega) (by omega)⟩, fun h j hj1 hj2 => ?_⟩
      by_cases hc : j ≤ i + u2
      · exact h.2 j (by omega) (by omega)
      · exact h.1 j (by omega) (by omega)
    · exact Iff.rfl
  · simp only [sat, satAll, and_true]
    rw [glob_split (fun j => sat π p j) i l1 u1 (min l1 l2) (min l1 l2 + min (u1 - l1) (u2 - l2))
        (by omega) (by omega) (by omega) (by omega) h1,
      glob_split (fun j => sat π q j) i l2 u2 (min l1 l2) (min l1 l2 + min (u1 - l1) (u2 - l2))
        (by omega) (by omega) (by omega) (by omega) h2]
    exact ⟨fun h => ⟨fun j a b => (h j a b).1, fun j a b => (h j a b).2⟩,
      fun h j a b => ⟨h.1 j a b, h.2 j a b⟩⟩

theorem orFut_equiv {κ : Type} [DecidableEq κ] {key : Expr α → κ}
    (l1 u1 : Nat) (p : Expr α) (l2 u2 : Nat) (q : Expr α) (hk : key p = key q → Equiv p q) (h1 : l1 ≤ u1) (h2 : l2 ≤ u2) :
    Equiv (orFut key (.or [.fut l1 u1 p, .fut l2 u2 q]) l1 u1 p l2 u2 q)
      (.or [.fut l1 u1 p, .fut l2 u2 q]) := by
  intro π i
  unfold orFut
  have mono : ∀ {l u l' u' : Nat} {e : Expr α}, l' ≤ l → u ≤ u' →
      (∃ j, i + l ≤ j ∧ j ≤ i + u ∧ sat π e j) → ∃ j, i + l' ≤ j ∧ j ≤ i + u' ∧ sat π e j := by
    rintro l u l' u' e ha hb ⟨j, hj1, hj2, h⟩
    exact ⟨j, by omega, by omega, h⟩
  split
  · rename_i hpq
    have hpq := hk hpq π
    split
    · simp only [sat, satAny, or_false, ← hpq]
      exact ⟨fun h => .inl h, fun h => h.elim id (mono (by omega) (by omega))⟩
    split
    · simp only [sat, satAny, or_false, ← hpq]
      exact ⟨fun h => .inr h, fun h => h.elim (mono (by omega) (by omega)) id⟩
    split
    · simp only [sat, satAny, or_false, ← hpq]
      refine ⟨?_, fun h => h.elim (mono (by omega) (by omega)) (mono (by omega) (by omega))⟩
      rintro ⟨j, hj1, hj2, h⟩
      by_cases hc : j ≤ i + u1
      · exact .inl ⟨j, by omega, by omega, h⟩
      · exact .inr ⟨j, by omega, by omega, h⟩
    split
    · simp only [sat, satAny, or_false, ← hpq]
      refine ⟨?_, fun h => h.elim (mono (by omega) (by omega)) (mono (by omega) (by omega))⟩
      rintro ⟨j, hj1, hj2, h⟩
      by_cases hc : j ≤ i + u2
      · exact .inr ⟨j, by omega, by omega, h⟩
      · exact .inl ⟨j, by omega, by omega, h⟩
    · exact Iff.rfl
  · simp only [sat, satAny, or_false]
    have e1 := fut_fut (fun j => sat π p j) i (min l1 l2) (min l1 l2 + min (u1 - l1) (u2 - l2))
      (l1 - min l1 l2) (u1 - (min l1 l2 + min (u1 - l1) (u2 - l2))) (by omega) (by omega)
    have e2 := fut_fut (fun j => sat π q j) i (min l1 l2) (min l1 l2 + min (u1 - l1) (u2 - l2))
      (l2 - min l1 l2) (u2 - (min l1 l2 + min (u1 - l1) (u2 - l2))) (by omega) (by omega)
    rw [show min l1 l2 + (l1 - min l1 l2) = l1 by omega,
      show min l1 l2 + min (u1 - l1) (u2 - l2) + (u1 - (min l1 l2 + min (u1 - l1) (u2 - l2))) = u1 by omega] at e1
    rw [show min l1 l2 + (l2 - min l1 l2) = l2 by omega,
      show min l1 l2 + min (u1 - l1) (u2 - l2) + (u2 - (min l1 l2 + min (u1 - l1) (u2 - l2))) = u2 by omega] at e2
    rw [← e1, ← e2]
    constructor
    · rintro ⟨j, a, b, h | h⟩
      · exact .inl ⟨j, a, b, h⟩
      · exact .inr ⟨j, a, b, h⟩
    · rintro (⟨j, a, b, h⟩ | ⟨j, a, b, h⟩)
      · exact ⟨j, a, b, .inl h⟩
      · exact ⟨j, a, b, .inr h⟩

theorem andFut_equiv {κ : Type} [DecidableEq κ] {key : Expr α → κ}
    (l1 u1 : Nat) (p : Expr α) (l2 u2 : Nat) (q : Expr α) (hk : key p = key q → Equiv p q) :
    Equiv (andFut key (.and [.fut l1 u1 p, .fut l2 u2 q]) l1 u1 p l2 u2 q)
      (.and [.fut l1 u1 p, .fut l2 u2 q]) := by
  intro π i
  unfold andFut
  have mono : ∀ {l u l' u' : Nat} {e : Expr α}, l' ≤ l → u ≤ u' →
      (∃ j, i + l ≤ j ∧ j ≤ i + u ∧ sat π e j) → ∃ j, i + l' ≤ j ∧ j ≤ i + u' ∧ sat π e j := by
    rintro l u l' u' e ha hb ⟨j, hj1, hj2, h⟩
    exact ⟨j, by omega, by omega, h⟩
  split
  · rename_i hpq
    have hpq := hk hpq π
    split
    · simp only [sat, satAll, and_true, ← hpq]
      exact ⟨fun h => ⟨mono (by omega) (by omega) h, h⟩, fun h => h.2⟩
    split
    · simp only [sat, satAll, and_true, ← hpq]
      exact ⟨fun h => ⟨h, mono (by omega) (by omega) h⟩, fun h => h.1⟩
    · exact Iff.rfl
  · exact Iff.rfl

theorem orGlob_equiv {κ : Type} [DecidableEq κ] {key : Expr α → κ}
    (l1 u1 : Nat) (p : Expr α) (l2 u2 : Nat) (q : Expr α) (hk : key p = key q → Equiv p q) :
    Equiv (orGlob key (.or [.glob l1 u1 p, .glob l2 u2 q]) l1 u1 p l2 u2 q)
      (.or [.glob l1 u1 p, .glob l2 u2 q]) := by
  intro π i
  unfold orGlob
  split
  · rename_i hpq
    have hpq := hk hpq π
    split
    · simp only [sat, satAny, or_false, ← hpq]
      refine ⟨fun h => .inl h, fun h => h.elim id fun h j a b => h j (by omega) (by omega)⟩
    split
    · simp only [sat, satAny, or_false, ← hpq]
      refine ⟨fun h => .inr h, fun h => h.elim (fun h j a b => h j (by omega) (by omega)) id⟩
    · exact Iff.rfl
  · exact Iff.rfl

theorem andUntl_equiv {κ : Type} [DecidableEq κ] {key : Expr α → κ}
    (l1 u1 : Nat) (p q : Expr α) (l2 u2 : Nat) (r s : Expr α) (hk : key q = key s → Equiv q s) :
    Equiv (andUntl key (.and [.untl l1 u1 p q, .untl l2 u2 r s]) l1 u1 p q l2 u2 r s)
      (.and [.untl l1 u1 p q, .untl l2 u2 r s]) := by
  intro π i
  unfold andUntl
  split
  · rename_i hh
    obtain ⟨hqs, rfl⟩ := hh
    have hqs := hk hqs π
    simp only [sat, satAll, and_true, ← hqs]
    constructor
    · rintro ⟨j, a, b, hq, h⟩
      exact ⟨⟨j, a, by omega, hq, fun k c d => (h k c d).1⟩,
        ⟨j, a, by omega, hq, fun k c d => (h k c d).2⟩⟩
    · rintro ⟨⟨j, a, b, hq, h⟩, ⟨j', a', b', hq', h'⟩⟩
      by_cases hc : j ≤ j'
      · exact ⟨j, a, by omega, hq, fun k c d => ⟨h k c d, h' k c (by omega)⟩⟩
      · exact ⟨j', a', by omega, hq', fun k c d => ⟨h k c (by omega), h' k c d⟩⟩
  · exact Iff.rfl

/-! the pass -/

theorem postML_of_forall₂ {f : Expr α → Option (Expr α)} {cs cs' : List (Expr α)}
    (h : List.Forall₂ (fun c c' => postM f c = some c') cs cs') : postML f cs = some cs' := by
  induction h with
  | nil => rfl
  | cons h _ ih => simp [postML, h, ih]

theorem postM_of_children {f : Expr α → Option (Expr α)} {e m : Expr α}
    (h : ChildrenTo (postM f) e m) : postM f e = f m := by
  obtain ⟨hs, hc⟩ := h
  cases e <;> cases m <;> simp only [shape, reduceCtorEq] at hs <;> simp only [children] at hc
  case and.and => simp [postM, postML_of_forall₂ hc]
  case or.or => simp [postM, postML_of_forall₂ hc]
  all_goals first
    | (cases hs; simp [postM]; done)
    | (cases hs; cases hc with | cons h1 _ => simp [postM, h1]; done)
    | (cases hs; cases hc with | cons h1 hc => cases hc with | cons h2 _ => simp [postM, h1, h2])

/-- Rebuild a node from images of its children. -/
theorem exists_rebuild {R : Expr α → Expr α → Prop} (e : Expr α)
    (h : ∀ c ∈ e.children, ∃ c', R c c') :
    ∃ m : Expr α, e.shape = m.shape ∧ List.Forall₂ R e.children m.children := by
  classical
  let g : Expr α → Expr α := fun c => if h : ∃ c', R c c' then h.choose else c
  refine ⟨mapChildren g e, by simp, ?_⟩
  rw [children_mapChildren]
  refine (forall₂_map_left' (R := fun x y => R y x) (f := g) (l := e.children) ?_).flip
  intro c hc
  have hx := h c hc
  simp only [g, hx, dite_true]
  exact hx.choose_spec

/-- Everything the rewriter's correctness needs to exclude. -/
def optBad (e : Expr α) : Prop := isDisordered e ∨ isNonBinary e ∨ isConstEqual e

theorem Nowhere.mono {b b' : Expr α → Prop} (h : ∀ e, b' e → b e) {e : Expr α}
    (he : Nowhere b e) : Nowhere b' e := by
  induction he with
  | intro e hb _ ih => exact ⟨e, fun hb' => hb (h e hb'), ih⟩

theorem Nowhere.or {b b' : Expr α → Prop} {e : Expr α} (h : Nowhere b e) (h' : Nowhere b' e) :
    Nowhere (fun e => b e ∨ b' e) e := by
  induction h with
  | intro e hb _ ih =>
    refine ⟨e, fun hh => hh.elim hb (nowhere_iff.1 h').1, fun c hc => ih c hc (h'.child hc)⟩

theorem nw_leaf_const {bad : Expr α → Prop} {b : Bool} : Nowhere bad (.const b) ↔ ¬ bad (.const b) := by
  rw [nowhere_iff]; simp [children]
theorem nw_neg {bad : Expr α → Prop} {e : Expr α} :
    Nowhere bad (.neg e) ↔ ¬ bad (.neg e) ∧ Nowhere bad e := by
  rw [nowhere_iff]; simp [children]
theorem nw_and {bad : Expr α → Prop} {cs : List (Expr α)} :
    Nowhere bad (.and cs) ↔ ¬ bad (.and cs) ∧ ∀ c ∈ cs, Nowhere bad c := by
  rw [nowhere_iff]; simp [children]
theorem nw_or {bad : Expr α → Prop} {cs : List (Expr α)} :
    Nowhere bad (.or cs) ↔ ¬ bad (.or cs) ∧ ∀ c ∈ cs, Nowhere bad c := by
  rw [nowhere_iff]; simp [children]
theorem nw_equal {bad : Expr α → Prop} {l r : Expr α} :
    Nowhere bad (.equal l r) ↔ ¬ bad (.equal l r) ∧ Nowhere bad l ∧ Nowhere bad r := by
  rw [nowhere_iff]; simp [children]
theorem nw_fut {bad : Expr α → Prop} {lb ub : Nat} {e : Expr α} :
    Nowhere bad (.fut lb ub e) ↔ ¬ bad (.fut lb ub e) ∧ Nowhere bad e := by
  rw [nowhere_iff]; simp [children]
theorem nw_glob {bad : Expr α → Prop} {lb ub : Nat} {e : Expr α} :
    Nowhere bad (.glob lb ub e) ↔ ¬ bad (.glob lb ub e) ∧ Nowhere bad e := by
  rw [nowhere_iff]; simp [children]
theorem nw_untl {bad : Expr α → Prop} {lb ub : Nat} {l r : Expr α} :
    Nowhere bad (.untl lb ub l r) ↔ ¬ bad (.untl lb ub l r) ∧ Nowhere bad l ∧ Nowhere bad r := by
  rw [nowhere_iff]; simp [children]

/-- Facts carried from a node to its image. -/
structure OptRel (e e' : Expr α) : Prop where
  equiv : Equiv e' e
  good : Nowhere optBad e'
  noConst : Nowhere isConst e → Nowhere isConst e'
  isTrue : e = .const true → e' = .const true

theorem gc {P : Expr α → Prop} {e c g : Expr α} (h : Nowhere P e) (hc : c ∈ e.children)
    (hg : g ∈ c.children) : Nowhere P g := (h.child hc).child hg

/-- bundle for the local step -/
theorem optStep_rel {κ : Type} [DecidableEq κ] {key : Expr α → κ} (hk : KeySound key) (m : Expr α)
    (hm : Nowhere optBad m) : ∃ e', optStep key m = some e' ∧ OptRel m e' := by
  have dis : ∀ e : Expr α, Nowhere optBad e → Nowhere isDisordered e :=
    fun e h => h.mono fun _ h => .inl h
  have bin : ∀ e : Expr α, Nowhere optBad e → Nowhere isNonBinary e :=
    fun e h => h.mono fun _ h => .inr (.inl h)
  have keep : ∀ e : Expr α, Nowhere optBad e → OptRel e e :=
    fun e h => ⟨Equiv.refl e, h, id, id⟩
  cases m
  case neg e =>
    refine ⟨_, rfl, negRule_equiv e, ?_, ?_, by simp⟩
    · revert hm; unfold negRule
      split <;> simp [nw_leaf_const, nw_neg, nw_glob, nw_fut, optBad, isDisordered, isNonBinary, isConstEqual] <;>
        tauto
    · unfold negRule
      split <;> simp [nw_leaf_const, nw_neg, nw_glob, nw_fut, isConst]
  case equal l r =>
    have hb : ¬ isConstEqual (.equal l r) := fun h => (nowhere_iff.1 hm).1 (.inr (.inr h))
    simp only [isConstEqual, Classical.not_not] at hb
    refine ⟨_, rfl, equalRule_equiv l r hb.1 hb.2, ?_, ?_, by simp⟩
    · unfold equalRule
      split
      · exact hm
      · exact hm.child (by simp [children])
      · exact hm.child (by simp [children])
      · exact hm
    · intro h
      unfold equalRule
      split
      · exact h
      · exact h.child (by simp [children])
      · exact h.child (by simp [children])
      · exact h
  case glob lb ub e =>
    have h1 : lb ≤ ub := by
      have := (nowhere_iff.1 hm).1; simp [optBad, isDisordered] at this; omega
    have he : Nowhere optBad e := hm.child (by simp [children])
    refine ⟨_, rfl, globRule_equiv lb ub e h1 (dis e he), ?_, ?_, by simp⟩
    · revert hm he; unfold globRule
      simp only
      intro hm he
      split <;> (try split) <;> (try split) <;> (try split) <;>
        simp_all [nw_leaf_const, nw_glob, nw_fut, optBad, isDisordered, isNonBinary, isConstEqual] <;>
        omega
    · unfold globRule
      simp only
      intro hc
      have hc' : Nowhere isConst e := hc.child (by simp [children])
      split <;> (try split) <;> (try split) <;> (try split) <;>
        simp_all [nw_leaf_const, nw_glob, nw_fut, isConst]
  case fut lb ub e =>
    have h1 : lb ≤ ub := by
      have := (nowhere_iff.1 hm).1; simp [optBad, isDisordered] at this; omega
    have he : Nowhere optBad e := hm.child (by simp [children])
    refine ⟨_, rfl, futRule_equiv lb ub e h1 (dis e he), ?_, ?_, by simp⟩
    · revert hm he; unfold futRule
      simp only
      intro hm he
      split <;> (try split) <;> (try split) <;> (try split) <;>
        simp_all [nw_leaf_const, nw_glob, nw_fut, optBad, isDisordered, isNonBinary, isConstEqual] <;>
        omega
    · unfold futRule
      simp only
      intro hc
      have hc' : Nowhere isConst e := hc.child (by simp [children])
      split <;> (try split) <;> (try split) <;> (try split) <;>
        simp_all [nw_leaf_const, nw_glob, nw_fut, isConst]
  case and cs =>
    have hb : cs.length = 2 := by
      have := (nowhere_iff.1 hm).1; simp [optBad, isDisordered, isNonBinary, isConstEqual] at this; omega
    obtain ⟨lhs, rhs, rfl⟩ := List.length_eq_two.1 hb
    simp only [optStep, andRule]
    split
    · rename_i l1 u1 p l2 u2 q
      have hm' := hm
      simp [nw_and, nw_glob, optBad, isDisordered, isNonBinary, isConstEqual] at hm'
      refine ⟨_, rfl, andGlob_equiv _ _ _ _ _ _ (hk _ _ (bin _ (gc hm (c := .glob l1 u1 p) (by simp [children]) (by simp [children])))
        (bin _ (gc hm (c := .glob l2 u2 q) (by simp [children]) (by simp [children])))) (by omega) (by omega), ?_, ?_, by simp⟩
      · unfold andGlob
        split <;> (try split) <;> (try split) <;> (try split) <;> (try split) <;>
          simp_all [nw_and, nw_glob, optBad, isDisordered, isNonBinary, isConstEqual] <;> omega
      · unfold andGlob
        split <;> (try split) <;> (try split) <;> (try split) <;> (try split) <;>
          simp_all [nw_and, nw_glob, isConst]
    · rename_i l1 u1 p l2 u2 q
      have hm' := hm
      simp [nw_and, nw_fut, optBad, isDisordered, isNonBinary, isConstEqual] at hm'
      refine ⟨_, rfl, andFut_equiv _ _ _ _ _ _ (hk _ _ (bin _ (gc hm (c := .fut l1 u1 p) (by simp [children]) (by simp [children])))
        (bin _ (gc hm (c := .fut l2 u2 q) (by simp [children]) (by simp [children])))), ?_, ?_, by simp⟩
      · unfold andFut
        split <;> (try split) <;> (try split) <;>
          simp_all [nw_and, nw_fut, optBad, isDisordered, isNonBinary, isConstEqual]
      · unfold andFut
        split <;> (try split) <;> (try split) <;>
          simp_all [nw_and, nw_fut, isConst]
    · rename_i l1 u1 p q l2 u2 r s
      have hm' := hm
      simp [nw_and, nw_untl, optBad, isDisordered, isNonBinary, isConstEqual] at hm'
      refine ⟨_, rfl, andUntl_equiv _ _ _ _ _ _ _ _ (hk _ _ (bin _ (gc hm (c := .untl l1 u1 p q) (by simp [children]) (by simp [children])))
        (bin _ (gc hm (c := .untl l2 u2 r s) (by simp [children]) (by simp [children])))), ?_, ?_, by simp⟩
      · unfold andUntl
        split <;>
          simp_all [nw_and, nw_untl, optBad, isDisordered, isNonBinary, isConstEqual] <;> omega
      · unfold andUntl
        split <;>
          simp_all [nw_and, nw_untl, isConst]
    · exact ⟨_, rfl, keep _ hm⟩
  case or cs =>
    have hb : cs.length = 2 := by
      have := (nowhere_iff.1 hm).1; simp [optBad, isDisordered, isNonBinary, isConstEqual] at this; omega
    obtain ⟨lhs, rhs, rfl⟩ := List.length_eq_two.1 hb
    simp only [optStep, orRule]
    split
    · rename_i l1 u1 p l2 u2 q
      have hm' := hm
      simp [nw_or, nw_fut, optBad, isDisordered, isNonBinary, isConstEqual] at hm'
      refine ⟨_, rfl, orFut_equiv _ _ _ _ _ _ (hk _ _ (bin _ (gc hm (c := .fut l1 u1 p) (by simp [children]) (by simp [children])))
        (bin _ (gc hm (c := .fut l2 u2 q) (by simp [children]) (by simp [children])))) (by omega) (by omega), ?_, ?_, by simp⟩
      · unfold orFut
        split <;> (try split) <;> (try split) <;> (try split) <;> (try split) <;>
          simp_all [nw_or, nw_fut, optBad, isDisordered, isNonBinary, isConstEqual] <;> omega
      · unfold orFut
        split <;> (try split) <;> (try split) <;> (try split) <;> (try split) <;>
          simp_all [nw_or, nw_fut, isConst]
    · rename_i l1 u1 p l2 u2 q
      have hm' := hm
      simp [nw_or, nw_glob, optBad, isDisordered, isNonBinary, isConstEqual] at hm'
      refine ⟨_, rfl, orGlob_equiv _ _ _ _ _ _ (hk _ _ (bin _ (gc hm (c := .glob l1 u1 p) (by simp [children]) (by simp [children])))
        (bin _ (gc hm (c := .glob l2 u2 q) (by simp [children]) (by simp [children])))), ?_, ?_, by simp⟩
      · unfold orGlob
        split <;> (try split) <;> (try split) <;>
          simp_all [nw_or, nw_glob, optBad, isDisordered, isNonBinary, isConstEqual]
      · unfold orGlob
        split <;> (try split) <;> (try split) <;>
          simp_all [nw_or, nw_glob, isConst]
    · exact ⟨_, rfl, keep _ hm⟩
  all_goals exact ⟨_, rfl, keep _ hm⟩

theorem isDisordered_shape {e m : Expr α} (hs : e.shape = m.shape) : isDisordered m → isDisordered e := by
  cases e <;> cases m <;> simp_all [shape, isDisordered]

theorem isNonBinary_shape {e m : Expr α} (hs : e.shape = m.shape) : isNonBinary m → isNonBinary e := by
  cases e <;> cases m <;> simp only [shape, reduceCtorEq, Shape.and.injEq, Shape.or.injEq] at hs <;>
    simp [isNonBinary, hs]

theorem isConst_shape {e m : Expr α} (hs : e.shape = m.shape) : isConst m → isConst e := by
  cases e <;> cases m <;> simp only [shape, reduceCtorEq] at hs <;> simp [isConst]

theorem optimize_rel {κ : Type} [DecidableEq κ] {key : Expr α → κ} (hk : KeySound key) (e : Expr α)
    (he : Nowhere optBad e) : ∃ e', optimize key e = some e' ∧ OptRel e e' := by
  unfold optimize
  induction e using childInduction with
  | h e ih =>
    obtain ⟨hb, hch⟩ := nowhere_iff.1 he
    obtain ⟨m, hs, hf⟩ := exists_rebuild
      (R := fun c c' => c ∈ e.children ∧ postM (optStep key) c = some c' ∧ OptRel c c') e (by
        intro c hc
        obtain ⟨c', h1, h2⟩ := ih c hc (hch c hc)
        exact ⟨c', hc, h1, h2⟩)
    have hpost := postM_of_children (f := optStep key) ⟨hs, hf.imp fun _ _ h => h.2.1⟩
    have hback : ∀ c' ∈ m.children, ∃ c ∈ e.children, OptRel c c' := by
      intro c' hc'
      have : ∀ {l l' : List (Expr α)}, List.Forall₂
          (fun c c' => c ∈ e.children ∧ postM (optStep key) c = some c' ∧ OptRel c c') l l' →
          ∀ c' ∈ l', ∃ c ∈ e.children, OptRel c c' := by
        intro l l' hl
        induction hl with
        | nil => simp
        | cons h _ ih =>
          intro c' hc'
          rcases List.mem_cons.1 hc' with rfl | hc'
          · exact ⟨_, h.1, h.2.2⟩
          · exact ih c' hc'
      exact this hf c' hc'
    have hmEquiv : Equiv m e :=
      Equiv.congr hs.symm (hf.flip.imp fun _ _ h => h.2.2.equiv)
    have hnc : Nowhere isConst e → Nowhere isConst m := by
      intro h
      refine ⟨m, fun hc => (nowhere_iff.1 h).1 (isConst_shape hs hc), fun c' hc' => ?_⟩
      obtain ⟨c, hc, hr⟩ := hback c' hc'
      exact hr.noConst (h.child hc)
    have hgood : Nowhere optBad m := by
      refine ⟨m, ?_, fun c' hc' => ?_⟩
      · rintro (h | h | h)
        · exact hb (.inl (isDisordered_shape hs h))
        · exact hb (.inr (.inl (isNonBinary_shape hs h)))
        · cases m <;> simp only [isConstEqual] at h
          cases e <;> simp only [shape, reduceCtorEq] at hs
          rename_i l' r' l r
          simp only [optBad, isDisordered, isNonBinary, isConstEqual, false_or, Classical.not_not] at hb
          simp only [children] at hf
          cases hf with | cons h1 hf => cases hf with | cons h2 _ =>
          apply h
          exact ⟨hb.1.imp h1.2.2.isTrue h1.2.2.noConst, hb.2.imp h2.2.2.isTrue h2.2.2.noConst⟩
      · obtain ⟨c, hc, hr⟩ := hback c' hc'
        exact hr.good
    have htrue : e = .const true → m = .const true := by
      rintro rfl
      cases m <;> simp_all [shape]
    obtain ⟨e', h1, h2⟩ := optStep_rel hk m hgood
    exact ⟨e', hpost.trans h1, h2.equiv.trans hmEquiv, h2.good, fun h => h2.noConst (hnc h),
      fun h => h2.isTrue (htrue h)⟩

end R2U2
