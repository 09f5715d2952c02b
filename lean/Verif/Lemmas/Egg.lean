import Verif.Spec.Egg
import Mathlib.Tactic.Tauto
import Mathlib.Tactic.Push
import Mathlib.Tactic.ByContra
/-
Soundness of the e-graph rules.
-/
namespace R2U2

theorem AssocRule.sound {l r : Egg} (h : AssocRule l r) (hw : l.WF) : r.WF ∧ l.Same r := by
  cases h <;> simp only [Egg.WF, Egg.Same, Egg.sem] at hw ⊢ <;>
    exact ⟨by tauto, fun v i => by tauto⟩

theorem CommRule.sound {l r : Egg} (h : CommRule l r) (hw : l.WF) : r.WF ∧ l.Same r := by
  cases h <;> simp only [Egg.WF, Egg.Same, Egg.sem] at hw ⊢ <;>
    exact ⟨by tauto, fun v i => by tauto⟩

theorem ArityRule.sound {l r : Egg} (h : ArityRule l r) (hw : l.WF) : r.WF ∧ l.Same r := by
  cases h <;> simp only [Egg.WF, Egg.Same, Egg.sem] at hw ⊢ <;>
    exact ⟨by tauto, fun v i => by tauto⟩

/-- a time inside a proper interval -/
theorem exists_inside {lb ub : Int} (h0 : 0 ≤ lb) (h1 : lb ≤ ub) (i : Nat) :
    ∃ (j : Nat), (i : Int) + lb ≤ j ∧ (j : Int) ≤ i + ub := ⟨i + lb.toNat, by omega, by omega⟩

theorem ConstRule.sound {l r : Egg} (h : ConstRule l r) (hw : l.WF) : r.WF ∧ l.Same r := by
  cases h with
  | not_true => simp [Egg.WF, Egg.Same, Egg.sem]
  | not_false => simp [Egg.WF, Egg.Same, Egg.sem]
  | and_false => simp [Egg.WF, Egg.Same, Egg.sem]
  | or_true => simp [Egg.WF, Egg.Same, Egg.sem]
  | and_not => simp [Egg.WF, Egg.Same, Egg.sem]
  | or_not =>
      simp only [Egg.WF, Egg.Same, Egg.sem] at hw ⊢
      exact ⟨trivial, fun v i => by tauto⟩
  | global_false b0 b1 =>
      simp only [Egg.WF, Egg.Same, Egg.sem] at hw ⊢
      refine ⟨trivial, fun v i => ⟨fun h => ?_, fun h => by cases h⟩⟩
      obtain ⟨j, h1, h2⟩ := exists_inside hw.1 hw.2.1 i
      exact h j h1 h2
  | global_true b0 b1 =>
      simp only [Egg.WF, Egg.Same, Egg.sem] at hw ⊢
      exact ⟨trivial, fun v i => by simp⟩
  | future_false b0 b1 =>
      simp only [Egg.WF, Egg.Same, Egg.sem] at hw ⊢
      exact ⟨trivial, fun v i => by simp⟩
  | future_true b0 b1 =>
      simp only [Egg.WF, Egg.Same, Egg.sem] at hw ⊢
      refine ⟨trivial, fun v i => ⟨fun _ => trivial, fun _ => ?_⟩⟩
      obtain ⟨j, h1, h2⟩ := exists_inside hw.1 hw.2.1 i
      exact ⟨j, h1, h2, trivial⟩
  | excluded b0 b1 a0 =>
      simp only [Egg.WF, Egg.Same, Egg.sem] at hw ⊢
      refine ⟨trivial, fun v i => ⟨fun _ => trivial, fun _ => ?_⟩⟩
      by_cases h : ∃ (j : Nat), (i : Int) + b0 ≤ j ∧ (j : Int) ≤ i + b1 ∧ a0.sem v j
      · exact .inl h
      · exact .inr fun j h1 h2 h3 => h ⟨j, h1, h2, h3⟩
  | conflict b0 b1 b2 b3 a0 g1 g2 =>
      simp only [Egg.WF, Egg.Same, Egg.sem] at hw ⊢
      refine ⟨trivial, fun v i => ⟨fun h => ?_, fun h => by cases h⟩⟩
      obtain ⟨h, j, h1, h2, h3⟩ := h
      exact absurd h3 (h j (by omega) (by omega))
  | conflict_not b0 b1 b2 b3 a0 g1 g2 =>
      simp only [Egg.WF, Egg.Same, Egg.sem] at hw ⊢
      refine ⟨trivial, fun v i => ⟨fun h => ?_, fun h => by cases h⟩⟩
      obtain ⟨h, j, h1, h2, h3⟩ := h
      exact absurd (h j (by omega) (by omega)) h3

/-- `¬ (l U r)` is `(¬ l) R (¬ r)`, pointwise -/
theorem not_until_iff (P : Nat → Prop) (A B : Nat → Prop) (Q : Nat → Prop) :
    (¬ ∃ (j : Nat), P j ∧ Q j ∧ B j ∧ ∀ (k : Nat), P k → k < j → A k) ↔
      ∀ (j : Nat), P j → Q j → ¬ ¬ B j → ∃ (k : Nat), P k ∧ k < j ∧ ¬ A k := by
  constructor
  · intro h j hp hq hb
    by_contra hk
    push Not at hk hb
    exact h ⟨j, hp, hq, hb, hk⟩
  · rintro h ⟨j, hp, hq, hb, hk⟩
    obtain ⟨k, h1, h2, h3⟩ := h j hp hq (not_not.2 hb)
    exact h3 (hk k h1 h2)

theorem not_release_iff (P : Nat → Prop) (A B : Nat → Prop) (Q : Nat → Prop) :
    (¬ ∀ (j : Nat), P j → Q j → ¬ B j → ∃ (k : Nat), P k ∧ k < j ∧ A k) ↔
      ∃ (j : Nat), P j ∧ Q j ∧ ¬ B j ∧ ∀ (k : Nat), P k → k < j → ¬ A k := by
  constructor
  · intro h
    push Not at h
    exact h
  · rintro ⟨j, hp, hq, hb, hk⟩ h
    obtain ⟨k, h1, h2, h3⟩ := h j hp hq hb
    exact hk k h1 h2 h3

theorem TemporalRule.sound {l r : Egg} (h : TemporalRule l r) (hw : l.WF) :
    r.WF ∧ l.Same r := by
  cases h with
  | and_true | or_false | not_not | or_same | and_same =>
      simp only [Egg.WF, Egg.Same, Egg.sem] at hw ⊢
      exact ⟨by tauto, fun v i => by simp⟩
  | equiv | equiv' | not_and | not_and' | not_or | not_or' | implies | implies' =>
      simp only [Egg.WF, Egg.Same, Egg.sem] at hw ⊢
      exact ⟨by tauto, fun v i => by tauto⟩
  | not_until b0 b1 a0 a1 =>
      simp only [Egg.WF, Egg.Same, Egg.sem] at hw ⊢
      exact ⟨hw, fun v i => not_until_iff (fun j => (i : Int) + b0 ≤ j) (a0.sem v) (a1.sem v)
        (fun j => (j : Int) ≤ i + b1)⟩
  | not_until' b0 b1 a0 a1 =>
      simp only [Egg.WF, Egg.Same, Egg.sem] at hw ⊢
      exact ⟨hw, fun v i => (not_until_iff (fun j => (i : Int) + b0 ≤ j) (a0.sem v) (a1.sem v)
        (fun j => (j : Int) ≤ i + b1)).symm⟩
  | not_release b0 b1 a0 a1 =>
      simp only [Egg.WF, Egg.Same, Egg.sem] at hw ⊢
      exact ⟨hw, fun v i => not_release_iff (fun j => (i : Int) + b0 ≤ j) (a0.sem v) (a1.sem v)
        (fun j => (j : Int) ≤ i + b1)⟩
  | not_release' b0 b1 a0 a1 =>
      simp only [Egg.WF, Egg.Same, Egg.sem] at hw ⊢
      exact ⟨hw, fun v i => (not_release_iff (fun j => (i : Int) + b0 ≤ j) (a0.sem v) (a1.sem v)
        (fun j => (j : Int) ≤ i + b1)).symm⟩
  | until_true | until_true' =>
      simp only [Egg.WF, Egg.Same, Egg.sem] at hw ⊢
      exact ⟨by tauto, fun v i => by simp⟩
  | release_false | release_false' =>
      simp only [Egg.WF, Egg.Same, Egg.sem] at hw ⊢
      refine ⟨by tauto, fun v i => by simp⟩
  | and_until b0 b1 b2 a0 a1 a2 g =>
      simp only [Egg.WF, Egg.Same, Egg.sem] at hw ⊢
      refine ⟨by tauto, fun v i => ⟨?_, ?_⟩⟩
      · rintro ⟨⟨j, h1, h2, h3, h4⟩, j', h1', h2', h3', h4'⟩
        by_cases hj : j ≤ j'
        · exact ⟨j, h1, h2, h3, fun k p q => ⟨h4 k p q, h4' k p (by omega)⟩⟩
        · exact ⟨j', h1', by omega, h3', fun k p q => ⟨h4 k p (by omega), h4' k p q⟩⟩
      · rintro ⟨j, h1, h2, h3, h4⟩
        exact ⟨⟨j, h1, h2, h3, fun k p q => (h4 k p q).1⟩,
          j, h1, by omega, h3, fun k p q => (h4 k p q).2⟩
  | until_point b0 a0 a1 =>
      simp only [Egg.WF, Egg.Same, Egg.sem] at hw ⊢
      refine ⟨by tauto, fun v i => ⟨?_, ?_⟩⟩
      · rintro ⟨j, h1, h2, h3, -⟩
        exact ⟨j, h1, h2, h3⟩
      · rintro ⟨j, h1, h2, h3⟩
        exact ⟨j, h1, h2, h3, fun k p q => by omega⟩
  | until_zero a0 a1 =>
      simp only [Egg.WF, Egg.Same, Egg.sem] at hw ⊢
      refine ⟨by tauto, fun v i => ⟨?_, fun h => ⟨i, by omega, by omega, h, fun k p q => by omega⟩⟩⟩
      rintro ⟨j, h1, h2, h3, -⟩
      obtain rfl : j = i := by omega
      exact h3
  | release_zero a0 a1 =>
      simp only [Egg.WF, Egg.Same, Egg.sem] at hw ⊢
      refine ⟨by tauto, fun v i => ⟨fun h => ?_, ?_⟩⟩
      · by_contra hc
        obtain ⟨k, h1, h2, -⟩ := h i (by omega) (by omega) hc
        omega
      · intro h j h1 h2 h3
        obtain rfl : j = i := by omega
        exact absurd h h3
  | not_future | not_future' | not_global | not_global' =>
      simp only [Egg.WF, Egg.Same, Egg.sem] at hw ⊢
      refine ⟨by tauto, fun v i => by push Not; rfl⟩
  | global_global b0 b1 b2 b3 a0 =>
      simp only [Egg.WF, Egg.Same, Egg.sem] at hw ⊢
      obtain ⟨w1, w2, w3, w4, w5⟩ := hw
      refine ⟨⟨by omega, by omega, w5⟩, fun v i => ⟨fun h j h1 h2 => ?_, fun h j h1 h2 k h3 h4 =>
        h k (by omega) (by omega)⟩⟩
      by_cases hj : (j : Int) ≤ i + b0 + b3
      · exact h (i + b0.toNat) (by omega) (by omega) j (by omega) (by omega)
      · exact h (j - b3.toNat) (by omega) (by omega) j (by omega) (by omega)
  | future_future b0 b1 b2 b3 a0 =>
      simp only [Egg.WF, Egg.Same, Egg.sem] at hw ⊢
      obtain ⟨w1, w2, w3, w4, w5⟩ := hw
      refine ⟨⟨by omega, by omega, w5⟩, fun v i => ⟨?_, ?_⟩⟩
      · rintro ⟨j, h1, h2, k, h3, h4, h5⟩
        exact ⟨k, by omega, by omega, h5⟩
      · rintro ⟨j, h1, h2, h3⟩
        by_cases hj : (j : Int) ≤ i + b0 + b3
        · exact ⟨i + b0.toNat, by omega, by omega, j, by omega, by omega, h3⟩
        · exact ⟨j - b3.toNat, by omega, by omega, j, by omega, by omega, h3⟩
  | and_global b0 b1 b2 b3 b4 b5 a0 a1 g4 g5 =>
      simp only [Egg.WF, Egg.Same, Egg.sem] at hw ⊢
      obtain ⟨⟨w1, w2, w3⟩, w4, w5, w6⟩ := hw
      refine ⟨⟨by omega, by omega, ⟨by omega, by omega, w3⟩, by omega, by omega, w6⟩,
        fun v i => ⟨?_, ?_⟩⟩
      · rintro ⟨h1, h2⟩ j p q
        exact ⟨fun k p' q' => h1 k (by omega) (by omega), fun k p' q' => h2 k (by omega) (by omega)⟩
      · intro h
        constructor
        · intro j p q
          by_cases hj : (j : Int) ≤ i + b4 + (b1 - b5)
          · exact (h (i + b4.toNat) (by omega) (by omega)).1 j (by omega) (by omega)
          · exact (h (j - (b1 - b5).toNat) (by omega) (by omega)).1 j (by omega) (by omega)
        · intro j p q
          by_cases hj : (j : Int) ≤ i + b4 + (b3 - b5)
          · exact (h (i + b4.toNat) (by omega) (by omega)).2 j (by omega) (by omega)
          · exact (h (j - (b3 - b5).toNat) (by omega) (by omega)).2 j (by omega) (by omega)
  | or_future b0 b1 b2 b3 b4 b5 a0 a1 g4 g5 =>
      simp only [Egg.WF, Egg.Same, Egg.sem] at hw ⊢
      obtain ⟨⟨w1, w2, w3⟩, w4, w5, w6⟩ := hw
      refine ⟨⟨by omega, by omega, ⟨by omega, by omega, w3⟩, by omega, by omega, w6⟩,
        fun v i => ⟨?_, ?_⟩⟩
      · rintro (⟨j, p, q, h⟩ | ⟨j, p, q, h⟩)
        · by_cases hj : (j : Int) ≤ i + b4 + (b1 - b5)
          · exact ⟨i + b4.toNat, by omega, by omega, .inl ⟨j, by omega, by omega, h⟩⟩
          · exact ⟨j - (b1 - b5).toNat, by omega, by omega, .inl ⟨j, by omega, by omega, h⟩⟩
        · by_cases hj : (j : Int) ≤ i + b4 + (b3 - b5)
          · exact ⟨i + b4.toNat, by omega, by omega, .inr ⟨j, by omega, by omega, h⟩⟩
          · exact ⟨j - (b3 - b5).toNat, by omega, by omega, .inr ⟨j, by omega, by omega, h⟩⟩
      · rintro ⟨j, p, q, ⟨k, p', q', h⟩ | ⟨k, p', q', h⟩⟩
        · exact .inl ⟨k, by omega, by omega, h⟩
        · exact .inr ⟨k, by omega, by omega, h⟩
  | global_future b0 b1 b2 a0 =>
      simp only [Egg.WF, Egg.Same, Egg.sem] at hw ⊢
      obtain ⟨w1, w2, w3, w4, w5⟩ := hw
      refine ⟨⟨by omega, by omega, w5⟩, fun v i => ⟨fun h j p q => ?_, fun h j p q =>
        ⟨j + b2.toNat, by omega, by omega, h _ (by omega) (by omega)⟩⟩⟩
      obtain ⟨k, p', q', h'⟩ := h (j - b2.toNat) (by omega) (by omega)
      obtain rfl : k = j := by omega
      exact h'
  | future_global b0 b1 b2 a0 =>
      simp only [Egg.WF, Egg.Same, Egg.sem] at hw ⊢
      obtain ⟨w1, w2, w3, w4, w5⟩ := hw
      refine ⟨⟨by omega, by omega, w5⟩, fun v i => ⟨?_, ?_⟩⟩
      · rintro ⟨j, p, q, h⟩
        exact ⟨j + b2.toNat, by omega, by omega, h _ (by omega) (by omega)⟩
      · rintro ⟨j, p, q, h⟩
        refine ⟨j - b2.toNat, by omega, by omega, fun k p' q' => ?_⟩
        obtain rfl : k = j := by omega
        exact h
  | global_point b0 b1 b2 a0 =>
      simp only [Egg.WF, Egg.Same, Egg.sem] at hw ⊢
      obtain ⟨w1, w2, w3, w4, w5⟩ := hw
      refine ⟨⟨by omega, by omega, w5⟩, fun v i => ⟨fun h => ?_, ?_⟩⟩
      · obtain ⟨k, p', q', h'⟩ := h (i + b0.toNat) (by omega) (by omega)
        exact ⟨k, by omega, by omega, h'⟩
      · rintro ⟨k, p', q', h'⟩ j p q
        exact ⟨k, by omega, by omega, h'⟩
  | future_point b0 b1 b2 a0 =>
      simp only [Egg.WF, Egg.Same, Egg.sem] at hw ⊢
      obtain ⟨w1, w2, w3, w4, w5⟩ := hw
      refine ⟨⟨by omega, by omega, w5⟩, fun v i => ⟨?_, fun h =>
        ⟨i + b0.toNat, by omega, by omega, fun k p q => h k (by omega) (by omega)⟩⟩⟩
      rintro ⟨j, p, q, h⟩ k p' q'
      exact h k (by omega) (by omega)
  | and_global_union b0 b1 b2 b3 a0 g1 g2 =>
      simp only [Egg.WF, Egg.Same, Egg.sem] at hw ⊢
      obtain ⟨⟨w1, w2, w3⟩, w4, w5, w6⟩ := hw
      refine ⟨⟨by omega, by omega, w3⟩, fun v i => ⟨?_, fun h =>
        ⟨fun j p q => h j (by omega) (by omega), fun j p q => h j (by omega) (by omega)⟩⟩⟩
      rintro ⟨h1, h2⟩ j p q
      by_cases hj : (j : Int) ≤ i + b1
      · exact h1 j (by omega) (by omega)
      · exact h2 j (by omega) (by omega)
  | or_future_union b0 b1 b2 b3 a0 g1 g2 =>
      simp only [Egg.WF, Egg.Same, Egg.sem] at hw ⊢
      obtain ⟨⟨w1, w2, w3⟩, w4, w5, w6⟩ := hw
      refine ⟨⟨by omega, by omega, w3⟩, fun v i => ⟨?_, ?_⟩⟩
      · rintro (⟨j, p, q, h⟩ | ⟨j, p, q, h⟩)
        · exact ⟨j, by omega, by omega, h⟩
        · exact ⟨j, by omega, by omega, h⟩
      · rintro ⟨j, p, q, h⟩
        by_cases hj : (j : Int) ≤ i + b1
        · exact .inl ⟨j, by omega, by omega, h⟩
        · exact .inr ⟨j, by omega, by omega, h⟩
  | or_global_inner b0 b1 b2 b3 a0 g1 g2 =>
      simp only [Egg.WF, Egg.Same, Egg.sem] at hw ⊢
      refine ⟨hw.2, fun v i => ⟨?_, .inr⟩⟩
      rintro (h | h)
      · exact fun j p q => h j (by omega) (by omega)
      · exact h
  | and_future_inner b0 b1 b2 b3 a0 g1 g2 =>
      simp only [Egg.WF, Egg.Same, Egg.sem] at hw ⊢
      refine ⟨hw.2, fun v i => ⟨fun h => h.2, ?_⟩⟩
      rintro ⟨j, p, q, h⟩
      exact ⟨⟨j, by omega, by omega, h⟩, j, p, q, h⟩
  | future_until b0 b1 b2 a0 a1 =>
      simp only [Egg.WF, Egg.Same, Egg.sem] at hw ⊢
      obtain ⟨w1, w2, w3, w4, w5, w6⟩ := hw
      refine ⟨⟨by omega, by omega, w5, w6⟩, fun v i => ⟨?_, ?_⟩⟩
      · rintro ⟨j, p, q, k, p', q', h, h'⟩
        exact ⟨k, by omega, by omega, h, fun m a b => h' m (by omega) b⟩
      · rintro ⟨k, p', q', h, h'⟩
        exact ⟨i + b0.toNat, by omega, by omega, k, by omega, by omega, h,
          fun m a b => h' m (by omega) b⟩
  | until_shift b0 b1 b2 a0 a1 =>
      simp only [Egg.WF, Egg.Same, Egg.sem] at hw ⊢
      obtain ⟨w1, w2, ⟨w3, w4, w5⟩, w6, w7, w8⟩ := hw
      refine ⟨⟨by omega, by omega, w5, w8⟩, fun v i => ⟨?_, ?_⟩⟩
      · rintro ⟨j, p, q, ⟨k, p', q', h⟩, h'⟩
        refine ⟨k, by omega, by omega, h, fun m a b => ?_⟩
        obtain ⟨n, c, d, e⟩ := h' (m - b2.toNat) (by omega) (by omega)
        obtain rfl : n = m := by omega
        exact e
      · rintro ⟨k, p', q', h, h'⟩
        exact ⟨k - b2.toNat, by omega, by omega, ⟨k, by omega, by omega, h⟩,
          fun m a b => ⟨m + b2.toNat, by omega, by omega, h' _ (by omega) (by omega)⟩⟩
  | until_global b0 b1 b2 a0 =>
      simp only [Egg.WF, Egg.Same, Egg.sem] at hw ⊢
      obtain ⟨w1, w2, w3, w4, w5, w6⟩ := hw
      refine ⟨⟨by omega, by omega, w3⟩, fun v i => ⟨?_, fun h =>
        ⟨i + b0.toNat, by omega, by omega, fun k p q => h k (by omega) (by omega),
          fun k p q => by omega⟩⟩⟩
      rintro ⟨j, p, q, h, h'⟩ k p' q'
      by_cases hk : k < j
      · exact h' k p' hk
      · exact h k (by omega) (by omega)
  | until_future b0 b1 b2 a0 =>
      simp only [Egg.WF, Egg.Same, Egg.sem] at hw ⊢
      obtain ⟨w1, w2, w3, w4, w5, w6⟩ := hw
      refine ⟨⟨by omega, by omega, w3⟩, fun v i => ⟨?_, ?_⟩⟩
      · rintro ⟨j, p, q, ⟨k, p', q', h⟩, h'⟩
        by_cases hj : (j : Int) = i + b0
        · exact ⟨k, by omega, by omega, h⟩
        · exact ⟨i + b0.toNat, by omega, by omega, h' _ (by omega) (by omega)⟩
      · rintro ⟨k, p', q', h⟩
        exact ⟨i + b0.toNat, by omega, by omega, ⟨k, by omega, by omega, h⟩,
          fun m a b => by omega⟩
  | global_zero a0 =>
      simp only [Egg.WF, Egg.Same, Egg.sem] at hw ⊢
      refine ⟨hw.2.2, fun v i => ⟨fun h => h i (by omega) (by omega), fun h j p q => ?_⟩⟩
      obtain rfl : j = i := by omega
      exact h
  | future_zero a0 =>
      simp only [Egg.WF, Egg.Same, Egg.sem] at hw ⊢
      refine ⟨hw.2.2, fun v i => ⟨?_, fun h => ⟨i, by omega, by omega, h⟩⟩⟩
      rintro ⟨j, p, q, h⟩
      obtain rfl : j = i := by omega
      exact h
  | point b0 a0 =>
      simp only [Egg.WF, Egg.Same, Egg.sem] at hw ⊢
      refine ⟨hw, fun v i => ⟨?_, fun h =>
        ⟨i + b0.toNat, by omega, by omega, h _ (by omega) (by omega)⟩⟩⟩
      rintro ⟨j, p, q, h⟩ k p' q'
      obtain rfl : j = k := by omega
      exact h
  | point' b0 a0 =>
      simp only [Egg.WF, Egg.Same, Egg.sem] at hw ⊢
      refine ⟨hw, fun v i => ⟨fun h =>
        ⟨i + b0.toNat, by omega, by omega, h _ (by omega) (by omega)⟩, ?_⟩⟩
      rintro ⟨j, p, q, h⟩ k p' q'
      obtain rfl : j = k := by omega
      exact h
  | and_future b0 b1 b2 b3 a0 a1 g =>
      simp only [Egg.WF, Egg.Same, Egg.sem] at hw ⊢
      obtain ⟨⟨w1, w2, w3⟩, w4, w5, w6⟩ := hw
      refine ⟨⟨by omega, by omega, ⟨by omega, by omega, w3⟩, by omega, by omega, w6⟩,
        fun v i => ⟨?_, ?_⟩⟩
      · rintro ⟨⟨j, p, q, h⟩, k, p', q', h'⟩
        exact ⟨i + b0.toNat, by omega, by omega, ⟨j, by omega, by omega, h⟩,
          k, by omega, by omega, h'⟩
      · rintro ⟨m, a, b, ⟨j, p, q, h⟩, k, p', q', h'⟩
        exact ⟨⟨j, by omega, by omega, h⟩, k, by omega, by omega, h'⟩
  | or_global b0 b1 b2 b3 a0 a1 g =>
      simp only [Egg.WF, Egg.Same, Egg.sem] at hw ⊢
      obtain ⟨⟨w1, w2, w3⟩, w4, w5, w6⟩ := hw
      refine ⟨⟨by omega, by omega, ⟨by omega, by omega, w3⟩, by omega, by omega, w6⟩,
        fun v i => ⟨?_, fun h => ?_⟩⟩
      · rintro (h | h) m a b
        · exact .inl fun j p q => h j (by omega) (by omega)
        · exact .inr fun j p q => h j (by omega) (by omega)
      · rcases h (i + b0.toNat) (by omega) (by omega) with h | h
        · exact .inl fun j p q => h j (by omega) (by omega)
        · exact .inr fun j p q => h j (by omega) (by omega)
  | or_release b0 b1 b2 b3 a0 a1 g1 g2 =>
      simp only [Egg.WF, Egg.Same, Egg.sem] at hw ⊢
      obtain ⟨⟨w1, w2, w3⟩, w4, w5, w6⟩ := hw
      refine ⟨⟨⟨w1, w2, w3⟩, w4, by omega, w6⟩, fun v i => ⟨?_, ?_⟩⟩
      · rintro (h | h)
        · exact .inl h
        · exact .inr fun j p q => h j p (by omega)
      · rintro (h | h)
        · exact .inl h
        · by_cases hg : ∀ (j : Nat), (i : Int) + b0 ≤ j → (j : Int) ≤ i + b1 → a0.sem v j
          · exact .inl hg
          · push Not at hg
            obtain ⟨j, p, q, hj⟩ := hg
            obtain ⟨k, p', q', hk⟩ := h j (by omega) (by omega) hj
            refine .inr fun m a b hm => ?_
            by_cases hmj : m ≤ j
            · exact h m a (by omega) hm
            · exact ⟨k, p', by omega, hk⟩
  | and_until_future b0 b1 b2 b3 a0 a1 g1 g2 =>
      simp only [Egg.WF, Egg.Same, Egg.sem] at hw ⊢
      refine ⟨hw.1, fun v i => ⟨fun h => h.1, fun h => ⟨h, ?_⟩⟩⟩
      obtain ⟨j, p, q, h, -⟩ := h
      exact ⟨j, by omega, by omega, h⟩
  | trim_below b0 b1 b2 b3 a0 g1 g2 g3 =>
      simp only [Egg.WF, Egg.Same, Egg.sem] at hw ⊢
      obtain ⟨⟨w1, w2, w3⟩, w4, w5, w6⟩ := hw
      refine ⟨⟨⟨w1, w2, w3⟩, by omega, by omega, w6⟩, fun v i => and_congr_right fun hg => ⟨?_, ?_⟩⟩
      · rintro ⟨j, p, q, h⟩
        refine ⟨j, ?_, q, h⟩
        by_contra hc
        exact hg j (by omega) (by omega) h
      · rintro ⟨j, p, q, h⟩
        exact ⟨j, by omega, q, h⟩
  | trim_above b0 b1 b2 b3 a0 g1 g2 g3 =>
      simp only [Egg.WF, Egg.Same, Egg.sem] at hw ⊢
      obtain ⟨⟨w1, w2, w3⟩, w4, w5, w6⟩ := hw
      refine ⟨⟨⟨w1, w2, w3⟩, by omega, by omega, w6⟩, fun v i => and_congr_right fun hg => ⟨?_, ?_⟩⟩
      · rintro ⟨j, p, q, h⟩
        refine ⟨j, p, ?_, h⟩
        by_contra hc
        exact hg j (by omega) (by omega) h
      · rintro ⟨j, p, q, h⟩
        exact ⟨j, p, by omega, h⟩
  | weak_until b0 b1 a0 a1 a2 =>
      simp only [Egg.WF, Egg.Same, Egg.sem] at hw ⊢
      refine ⟨by tauto, fun v i => ⟨fun h g => ?_, fun h g => .inl (h g)⟩⟩
      rcases h g with h | h
      · exact h
      · obtain ⟨-, j, p, q, hj⟩ := g
        exact ⟨j, p, q, hj, fun k p' q' => h k p' (by omega)⟩

theorem EggOptions.rule_sound {o : EggOptions} {l r : Egg} (h : o.rule l r) (hw : l.WF) :
    r.WF ∧ l.Same r := by
  rcases h with ⟨-, h⟩ | ⟨-, h⟩ | ⟨-, h⟩ | ⟨-, h⟩ | ⟨-, h⟩
  · exact h.sound hw
  · exact h.sound hw
  · exact h.sound hw
  · exact h.sound hw
  · exact h.sound hw

theorem Egg.WF.child {t c : Egg} (h : t.WF) (hc : c ∈ t.children) : c.WF := by
  cases t <;> simp only [Egg.children, List.mem_cons, List.not_mem_nil, or_false] at hc <;>
    simp only [Egg.WF] at h
  all_goals (try (exfalso; exact hc))
  all_goals (rcases hc with rfl | rfl | rfl | rfl) <;> tauto

theorem Egg.op_congr {t u : Egg} (hop : t.op = u.op) (ht : t.WF)
    (hc : ∀ (k : Nat) (c d : Egg), t.children[k]? = some c → u.children[k]? = some d →
      c.WF ∧ d.WF ∧ c.Same d) : u.WF ∧ t.Same u := by
  have key : ∀ (k : Nat) (c d : Egg), t.children[k]? = some c → u.children[k]? = some d →
      d.WF ∧ ∀ (v : Trace Nat) (i : Nat), c.sem v i = d.sem v i := fun k c d p q =>
    ⟨(hc k c d p q).2.1, fun v i => propext ((hc k c d p q).2.2 v i)⟩
  cases t <;> cases u <;> simp only [Egg.op, reduceCtorEq] at hop <;>
    (try injection hop with e1 e2) <;> (try subst e1) <;> (try subst e2)
  all_goals
    have k0 := fun c d => key 0 c d
    have k1 := fun c d => key 1 c d
    have k2 := fun c d => key 2 c d
    have k3 := fun c d => key 3 c d
    simp [Egg.children] at k0 k1 k2 k3
    simp [Egg.WF, Egg.Same, Egg.sem] at ht ⊢
  all_goals first
    | done
    | simp_all

theorem EqG.sound {R : Egg → Egg → Prop} {root : Egg}
    (hR : ∀ (l r : Egg), R l r → l.WF → r.WF ∧ l.Same r) (hw : root.WF) {t u : Egg}
    (h : EqG R root t u) : t.WF ∧ u.WF ∧ t.Same u := by
  induction h with
  | root => exact ⟨hw, hw, fun _ _ => .rfl⟩
  | sub _ hc ih => exact ⟨ih.1.child hc, ih.1.child hc, fun _ _ => .rfl⟩
  | symm _ ih => exact ⟨ih.2.1, ih.1, fun v i => (ih.2.2 v i).symm⟩
  | trans _ _ ih1 ih2 => exact ⟨ih1.1, ih2.2.1, fun v i => (ih1.2.2 v i).trans (ih2.2.2 v i)⟩
  | rule _ hr ih => exact ⟨ih.1, (hR _ _ hr ih.1).1, (hR _ _ hr ih.1).2⟩
  | congr _ hop _ _ ih0 ih =>
      obtain ⟨h1, h2⟩ := Egg.op_congr hop ih0.1 ih
      exact ⟨ih0.1, h1, h2⟩

end R2U2
