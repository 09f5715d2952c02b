import Verif.Lemmas.Queue
import Mathlib.Tactic.Push
import Mathlib.Tactic.Tauto
/-
What one execution of an instruction does, given what it read: no queues here.
-/
namespace R2U2

/-- The result `x` of reading an operand with values `A`, whose verdicts end at `e`, from
time `n` on. -/
def Rd (A : Nat → Prop) (n e : Nat) (x : Option Verdict) : Prop :=
  (x = none ∧ e ≤ n) ∨
    ∃ v, x = some v ∧ n ≤ v.time ∧ v.time < e ∧ ∀ s, n ≤ s → s ≤ v.time → (A s ↔ v.truth = true)

/-- The verdict produced by an instruction. -/
def Effect.verdict (E : Effect) : Option Verdict :=
  match E.push with
  | some v => some v
  | none => E.report

/-- An effect is right for an instruction with values `X` whose verdicts so far end at `e`. -/
structure Sound (X : Nat → Prop) (lb e : Nat) (a b : Option Verdict) (n : Nat)
    (own : Nat → Verdict → Nat → Prop) (E : Effect) : Prop where
  next_le : n ≤ E.next
  push : ∀ v, E.verdict = some v → e ≤ v.time ∧
    ((∃ u, a = some u ∧ v.time + lb ≤ u.time) ∨ ∃ u, b = some u ∧ v.time + lb ≤ u.time) ∧
    ∀ s, e ≤ s → s ≤ v.time → (X s ↔ v.truth = true)
  own : own E.next E.prev (match E.verdict with
    | some v => v.time + 1
    | none => e)
  adv : ∀ u v, a = some u → b = some v → min u.time v.time < E.next

/-- For the instructions other than the temporal ones the desired time is the end of the
verdicts. -/
def ownPlain (n : Nat) (_ : Verdict) (e : Nat) : Prop := n = e

theorem Rd.val {A : Nat → Prop} {n e : Nat} {v : Verdict} (h : Rd A n e (some v)) :
    n ≤ v.time ∧ v.time < e ∧ ∀ s, n ≤ s → s ≤ v.time → (A s ↔ v.truth = true) := by
  rcases h with ⟨h, _⟩ | ⟨w, hw, h⟩
  · cases h
  · cases hw; exact h

theorem Rd.ready {A : Nat → Prop} {n e : Nat} {x : Option Verdict} (h : Rd A n e x) (he : n < e) :
    ∃ v, x = some v := by
  rcases h with ⟨_, h⟩ | ⟨w, hw, _⟩
  · omega
  · exact ⟨w, hw⟩

theorem Rd.none_le {A : Nat → Prop} {n e : Nat} (h : Rd A n e none) : e ≤ n := by
  rcases h with ⟨_, h⟩ | ⟨w, hw, _⟩
  · exact h
  · cases hw

/-! ### Flipping truth values -/

def Verdict.flip (v : Verdict) : Verdict := ⟨!v.truth, v.time⟩

def Effect.flip (E : Effect) : Effect := { E with push := E.push.map Verdict.flip, report := E.report.map Verdict.flip }

theorem Rd.flip {A : Nat → Prop} {n e : Nat} {x : Option Verdict} (h : Rd A n e x) :
    Rd (fun s => ¬ A s) n e (x.map Verdict.flip) := by
  rcases h with ⟨rfl, h⟩ | ⟨v, rfl, h1, h2, h3⟩
  · exact Or.inl ⟨rfl, h⟩
  · refine Or.inr ⟨v.flip, rfl, h1, h2, fun s hs hs2 => ?_⟩
    have := h3 s hs hs2
    cases hv : v.truth <;> simp [this, Verdict.flip, hv]

theorem flip_verdict (E : Effect) : E.flip.verdict = E.verdict.map Verdict.flip := by
  unfold Effect.verdict Effect.flip
  cases E.push <;> simp

theorem Sound.flip {X : Nat → Prop} {lb e n : Nat} {a b : Option Verdict}
    {own : Nat → Verdict → Nat → Prop} {E : Effect}
    (h : Sound X lb e (a.map Verdict.flip) (b.map Verdict.flip) n own E) :
    Sound (fun s => ¬ X s) lb e a b n own E.flip := by
  refine ⟨h.next_le, ?_, ?_, ?_⟩
  · intro v hv
    rw [flip_verdict, Option.map_eq_some_iff] at hv
    obtain ⟨w, hw, rfl⟩ := hv
    obtain ⟨h1, h2, h3⟩ := h.push w hw
    refine ⟨h1, ?_, fun s hs hs2 => ?_⟩
    · rcases h2 with ⟨u, hu, h2⟩ | ⟨u, hu, h2⟩ <;>
        rw [Option.map_eq_some_iff] at hu <;> obtain ⟨x, hx, rfl⟩ := hu
      · exact Or.inl ⟨x, hx, h2⟩
      · exact Or.inr ⟨x, hx, h2⟩
    have := h3 s hs hs2
    cases hv : w.truth <;> simp [this, Verdict.flip, hv]
  · have := h.own
    rw [flip_verdict]
    cases hE : E.verdict with
    | none => rw [hE] at this; exact this
    | some v => rw [hE] at this; exact this
  · rintro u v rfl rfl
    exact h.adv u.flip v.flip rfl rfl

theorem Sound.congr {X X' : Nat → Prop} {lb e n : Nat} {a b : Option Verdict}
    {own : Nat → Verdict → Nat → Prop} {E : Effect} (h : Sound X lb e a b n own E)
    (hX : ∀ s, X s ↔ X' s) : Sound X' lb e a b n own E :=
  ⟨h.next_le, fun v hv => ⟨(h.push v hv).1, (h.push v hv).2.1,
    fun s h1 h2 => (hX s).symm.trans ((h.push v hv).2.2 s h1 h2)⟩, h.own, h.adv⟩

/-! ### The cases -/

theorem sound_keep {X A B : Nat → Prop} {lb e ea eb : Nat} {a b : Option Verdict} {c : Ctrl}
    {own : Nat → Verdict → Nat → Prop} (_ha : Rd A c.next ea a) (_hb : Rd B c.next eb b)
    (ho : own c.next c.prev e) (hab : a = none ∨ b = none) :
    Sound X lb e a b c.next own c.keep := by
  refine ⟨Nat.le_refl _, by simp [Ctrl.keep, Effect.verdict], ho, ?_⟩
  rintro u v rfl rfl
  simp at hab

theorem sound_emit {X : Nat → Prop} {a b : Option Verdict} {c : Ctrl} (v : Verdict)
    (h1 : c.next ≤ v.time)
    (h2 : (∃ u, a = some u ∧ v.time ≤ u.time) ∨ ∃ u, b = some u ∧ v.time ≤ u.time)
    (h3 : ∀ s, c.next ≤ s → s ≤ v.time → (X s ↔ v.truth = true))
    (h4 : ∀ u w, a = some u → b = some w → min u.time w.time ≤ v.time) :
    Sound X 0 c.next a b c.next ownPlain (c.emit v (v.time + 1)) := by
  refine ⟨by simp only [Ctrl.emit]; omega, ?_, rfl, ?_⟩
  · intro w hw
    simp only [Ctrl.emit, Effect.verdict, Option.some.injEq] at hw
    subst hw
    exact ⟨h1, h2, h3⟩
  · intro u w hu hw
    have := h4 u w hu hw
    simp only [Ctrl.emit]; omega

theorem sound_load {A : Nat → Prop} {ea : Nat} {a : Option Verdict} {c : Ctrl} (ha : Rd A c.next ea a) :
    Sound A 0 c.next a a c.next ownPlain (loadBody c a) := by
  cases a with
  | none => exact sound_keep ha ha rfl (Or.inl rfl)
  | some a =>
      obtain ⟨h1, h2, h3⟩ := ha.val
      exact sound_emit a h1 (Or.inl ⟨a, rfl, Nat.le_refl _⟩) h3 (by rintro u w hu hw; cases hu; cases hw; simp)

theorem sound_ret {A : Nat → Prop} {ea : Nat} {a : Option Verdict} {c : Ctrl} (ha : Rd A c.next ea a) :
    Sound A 0 c.next a a c.next ownPlain (retBody c a) := by
  cases a with
  | none => exact sound_keep ha ha rfl (Or.inl rfl)
  | some a =>
      obtain ⟨h1, h2, h3⟩ := ha.val
      refine ⟨by simp only [retBody]; omega, ?_, rfl, ?_⟩
      · intro w hw
        simp only [retBody, Ctrl.keep, Effect.verdict, Option.some.injEq] at hw
        subst hw
        exact ⟨h1, Or.inl ⟨_, rfl, Nat.le_refl _⟩, h3⟩
      · intro u w hu hw
        cases hu; cases hw
        simp [retBody]

theorem sound_not {A : Nat → Prop} {ea : Nat} {a : Option Verdict} {c : Ctrl} (ha : Rd A c.next ea a) :
    Sound (fun s => ¬ A s) 0 c.next a a c.next ownPlain (notBody c a) := by
  cases a with
  | none => exact sound_keep ha ha rfl (Or.inl rfl)
  | some a =>
      obtain ⟨h1, h2, h3⟩ := ha.val
      refine sound_emit ⟨!a.truth, a.time⟩ h1 (Or.inl ⟨a, rfl, Nat.le_refl _⟩) ?_
        (by rintro u w hu hw; cases hu; cases hw; simp)
      intro s hs hs2
      have := h3 s hs hs2
      cases hv : a.truth <;> simp [this, hv]

theorem sound_equiv {A B : Nat → Prop} {ea eb : Nat} {a b : Option Verdict} {c : Ctrl}
    (ha : Rd A c.next ea a) (hb : Rd B c.next eb b) :
    Sound (fun s => A s ↔ B s) 0 c.next a b c.next ownPlain (equivBody c a b) := by
  cases a with
  | none => exact sound_keep ha hb rfl (Or.inl rfl)
  | some a =>
  cases b with
  | none => exact sound_keep ha hb rfl (Or.inr rfl)
  | some b =>
      obtain ⟨h1, h2, h3⟩ := ha.val
      obtain ⟨g1, g2, g3⟩ := hb.val
      refine sound_emit ⟨_, min a.time b.time⟩ (by simp only []; omega)
        (Or.inl ⟨a, rfl, Nat.min_le_left _ _⟩) ?_
        (by rintro u w hu hw; cases hu; cases hw; exact Nat.le_refl _)
      intro s hs hs2
      simp only [] at hs2
      rw [h3 s hs (by omega), g3 s hs (by omega)]
      cases a.truth <;> cases b.truth <;> simp

theorem sound_and {A B : Nat → Prop} {ea eb : Nat} {a b : Option Verdict} {c : Ctrl}
    (ha : Rd A c.next ea a) (hb : Rd B c.next eb b) :
    Sound (fun s => A s ∧ B s) 0 c.next a b c.next ownPlain (andBody c a b) := by
  cases a with
  | none =>
      cases b with
      | none => exact sound_keep ha hb rfl (Or.inl rfl)
      | some b =>
          obtain ⟨g1, g2, g3⟩ := hb.val
          simp only [andBody]
          split
          · rename_i hf
            refine sound_emit ⟨false, b.time⟩ g1 (Or.inr ⟨b, rfl, Nat.le_refl _⟩) ?_ (by simp)
            intro s hs hs2
            simp [g3 s hs hs2, hf]
          · exact sound_keep ha hb rfl (Or.inl rfl)
  | some a =>
      obtain ⟨h1, h2, h3⟩ := ha.val
      cases b with
      | none =>
          simp only [andBody]
          split
          · rename_i hf
            refine sound_emit ⟨false, a.time⟩ h1 (Or.inl ⟨a, rfl, Nat.le_refl _⟩) ?_ (by simp)
            intro s hs hs2
            simp [h3 s hs hs2, hf]
          · exact sound_keep ha hb rfl (Or.inr rfl)
      | some b =>
          obtain ⟨g1, g2, g3⟩ := hb.val
          simp only [andBody]
          split
          · rename_i hf
            refine sound_emit ⟨true, min a.time b.time⟩ (by simp only []; omega)
              (Or.inl ⟨a, rfl, Nat.min_le_left _ _⟩) ?_
              (by rintro u w hu hw; cases hu; cases hw; exact Nat.le_refl _)
            intro s hs hs2
            simp only [] at hs2
            simp [h3 s hs (by omega), g3 s hs (by omega), hf]
          split
          · rename_i hf
            refine sound_emit ⟨false, max a.time b.time⟩ (by simp only []; omega) (by
                rcases Nat.le_total a.time b.time with h | h
                · exact Or.inr ⟨b, rfl, by simp only []; omega⟩
                · exact Or.inl ⟨a, rfl, by simp only []; omega⟩) ?_
              (by rintro u w hu hw; cases hu; cases hw; simp only []; omega)
            intro s hs hs2
            simp only [] at hs2
            rcases Nat.lt_or_ge a.time s with h | h
            · simp [g3 s hs (by omega), hf]
            · simp [h3 s hs h, hf]
          split
          · rename_i hf
            refine sound_emit ⟨false, a.time⟩ h1 (Or.inl ⟨a, rfl, Nat.le_refl _⟩) ?_
              (by rintro u w hu hw; cases hu; cases hw; simp only []; omega)
            intro s hs hs2
            simp [h3 s hs hs2, hf]
          · rename_i hnt hnf hf
            have : b.truth = false := by
              cases hb : b.truth with
              | false => rfl
              | true => exact absurd ⟨by cases h : a.truth <;> simp_all, hb⟩ hnt
            refine sound_emit ⟨false, b.time⟩ g1 (Or.inr ⟨b, rfl, Nat.le_refl _⟩) ?_
              (by rintro u w hu hw; cases hu; cases hw; simp only []; omega)
            intro s hs hs2
            simp [g3 s hs hs2, this]

theorem orBody_flip (c : Ctrl) (a b : Option Verdict) :
    orBody c a b = (andBody c (a.map Verdict.flip) (b.map Verdict.flip)).flip := by
  cases a with
  | none =>
      cases b with
      | none => rfl
      | some b => cases hb : b.truth <;> simp [orBody, andBody, Verdict.flip, Effect.flip, Ctrl.emit, Ctrl.keep, hb]
  | some a =>
      cases b with
      | none => cases ha : a.truth <;> simp [orBody, andBody, Verdict.flip, Effect.flip, Ctrl.emit, Ctrl.keep, ha]
      | some b =>
          cases ha : a.truth <;> cases hb : b.truth <;>
            simp [orBody, andBody, Verdict.flip, Effect.flip, Ctrl.emit, Ctrl.keep, ha, hb]

theorem sound_or {A B : Nat → Prop} {ea eb : Nat} {a b : Option Verdict} {c : Ctrl}
    (ha : Rd A c.next ea a) (hb : Rd B c.next eb b) :
    Sound (fun s => A s ∨ B s) 0 c.next a b c.next ownPlain (orBody c a b) := by
  rw [orBody_flip]
  exact (Sound.flip (sound_and ha.flip hb.flip)).congr fun s => by tauto

/-- For an until: the verdicts end at `e`; from `e + lb` up to the desired time, the left operand
held and the right one did not. -/
def ownUntil (A B : Nat → Prop) (lb ub : Nat) (n : Nat) (prev : Verdict) (e : Nat) : Prop :=
  e + lb ≤ n ∧ n ≤ e + ub ∧ (∀ s, e + lb ≤ s → s < n → A s ∧ ¬ B s) ∧
    prev.time = e - 1 ∧ (prev.truth = true ↔ 0 < e)

def untilAt (A B : Nat → Prop) (lb ub : Nat) (t : Nat) : Prop :=
  ∃ j, t + lb ≤ j ∧ j ≤ t + ub ∧ B j ∧ ∀ k, t + lb ≤ k → k < j → A k

theorem sound_until {A B : Nat → Prop} {ea eb e : Nat} {a b : Option Verdict} {c : Ctrl}
    (hlu : c.lb ≤ c.ub) (ha : Rd A c.next ea a) (hb : Rd B c.next eb b)
    (ho : ownUntil A B c.lb c.ub c.next c.prev e) :
    Sound (untilAt A B c.lb c.ub) c.lb e a b c.next (ownUntil A B c.lb c.ub)
      (untilBody c a b) := by
  obtain ⟨o1, o2, o3, o4, o5⟩ := ho
  cases b with
  | none => exact sound_keep ha hb ⟨o1, o2, o3, o4, o5⟩ (Or.inr rfl)
  | some b =>
  obtain ⟨g1, g2, g3⟩ := hb.val
  simp only [untilBody]
  -- the right operand holds
  split
  · rename_i hbt
    refine ⟨by simp only [Ctrl.emitPrev]; omega, ?_, ?_, ?_⟩
    · intro v hv
      simp only [Ctrl.emitPrev, Effect.verdict, Option.some.injEq] at hv
      subst hv
      refine ⟨by simp only []; omega, Or.inr ⟨b, rfl, by simp only []; omega⟩, fun s hs hs2 => ?_⟩
      simp only [] at hs2
      simp only [iff_true]
      rcases Nat.le_total c.next (s + c.lb) with h | h
      · exact ⟨s + c.lb, Nat.le_refl _, by omega, (g3 _ h (by omega)).2 hbt, by omega⟩
      · exact ⟨c.next, h, by omega, (g3 _ (Nat.le_refl _) g1).2 hbt,
          fun k hk hk2 => (o3 k (by omega) hk2).1⟩
    · simp only [Ctrl.emitPrev, Effect.verdict]
      exact ⟨by omega, by omega, by omega, by simp, by simp⟩
    · rintro u v _ hv
      cases hv
      simp only [Ctrl.emitPrev]; omega
  · rename_i hbf
    have hbf : ∀ s, c.next ≤ s → s ≤ b.time → ¬ B s := fun s h1 h2 h => hbf ((g3 s h1 h2).1 h)
    -- what is left after the left operand was looked at, with desired time `n'`
    have rest : ∀ n', c.next ≤ n' → n' ≤ b.time + 1 → (∀ s, c.next ≤ s → s < n' → A s) →
        (∀ u v, a = some u → some b = some v → min u.time v.time < n') →
        Sound (untilAt A B c.lb c.ub) c.lb e a (some b) c.next (ownUntil A B c.lb c.ub)
          (if c.prev.time + c.ub ≤ b.time ∧
              (c.prev.time < b.time - c.ub ∨ (b.time - c.ub = 0 ∧ c.prev.truth = false)) then
            c.emitPrev ⟨false, b.time - c.ub⟩ (max n' (b.time - c.ub + c.lb + 1))
          else { c.keep with next := n' }) := by
      intro n' hn1 hn2 hA hadv
      have hall : ∀ s, e + c.lb ≤ s → s < n' → A s ∧ ¬ B s := by
        intro s hs hs2
        rcases Nat.lt_or_ge s c.next with h | h
        · exact o3 s hs h
        · exact ⟨hA s h hs2, hbf s h (by omega)⟩
      have hcond : (c.prev.time + c.ub ≤ b.time ∧
          (c.prev.time < b.time - c.ub ∨ (b.time - c.ub = 0 ∧ c.prev.truth = false))) ↔
          e + c.ub ≤ b.time := by
        rw [o4]
        have : c.prev.truth = false ↔ ¬ 0 < e := by rw [← o5]; simp
        rw [this]
        omega
      by_cases hc : e + c.ub ≤ b.time
      · rw [if_pos (hcond.2 hc)]
        refine ⟨by simp only [Ctrl.emitPrev]; omega, ?_, ?_, ?_⟩
        · intro v hv
          simp only [Ctrl.emitPrev, Effect.verdict, Option.some.injEq] at hv
          subst hv
          refine ⟨by simp only []; omega, Or.inr ⟨b, rfl, by simp only []; omega⟩, fun s hs hs2 => ?_⟩
          simp only [] at hs2
          simp only [Bool.false_eq_true, iff_false]
          rintro ⟨j, j1, j2, j3, _⟩
          rcases Nat.lt_or_ge j c.next with h | h
          · exact (o3 j (by omega) h).2 j3
          · exact hbf j h (by omega) j3
        · simp only [Ctrl.emitPrev, Effect.verdict]
          refine ⟨by omega, by omega, ?_, by simp, by simp⟩
          intro s hs hs2
          exact hall s (by omega) (by omega)
        · intro u v hu hv
          have := hadv u v hu hv
          simp only [Ctrl.emitPrev]; omega
      · rw [if_neg (fun h => hc (hcond.1 h))]
        refine ⟨hn1, by simp [Effect.verdict, Ctrl.keep], ?_, hadv⟩
        simp only [Effect.verdict, Ctrl.keep]
        exact ⟨by omega, by omega, hall, o4, o5⟩
    cases a with
    | none =>
        exact rest c.next (Nat.le_refl _) (by omega) (by omega) (by simp)
    | some a =>
        obtain ⟨h1, h2, h3⟩ := ha.val
        simp only []
        split
        · rename_i haf
          refine ⟨by simp only [Ctrl.emitPrev]; omega, ?_, ?_, ?_⟩
          · intro v hv
            simp only [Ctrl.emitPrev, Effect.verdict, Option.some.injEq] at hv
            subst hv
            refine ⟨by simp only []; omega, Or.inr ⟨b, rfl, by simp only []; omega⟩, fun s hs hs2 => ?_⟩
            simp only [] at hs2
            simp only [Bool.false_eq_true, iff_false]
            rintro ⟨j, j1, j2, j3, j4⟩
            have hjt : min a.time b.time < j := by
              rcases Nat.lt_or_ge j c.next with h | h
              · exact absurd j3 (o3 j (by omega) h).2
              · rcases Nat.lt_or_ge (min a.time b.time) j with h' | h'
                · exact h'
                · exact absurd j3 (hbf j h (by omega))
            have hk : ∀ k, c.next ≤ k → k ≤ min a.time b.time → ¬ A k := fun k k1 k2 hA => by
              have := (h3 k k1 (by omega)).1 hA
              simp [haf] at this
            rcases Nat.le_total c.next (s + c.lb) with h | h
            · exact hk (s + c.lb) h (by omega) (j4 _ (Nat.le_refl _) (by omega))
            · exact hk c.next (Nat.le_refl _) (by omega) (j4 _ h (by omega))
          · simp only [Ctrl.emitPrev, Effect.verdict]
            exact ⟨by omega, by omega, by omega, by simp, by simp⟩
          · rintro u v hu hv
            cases hu; cases hv
            simp only [Ctrl.emitPrev]; omega
        · rename_i hat
          refine rest _ (by omega) (by omega) ?_ (by rintro u v hu hv; cases hu; cases hv; omega)
          intro s hs hs2
          rw [h3 s hs (by omega)]
          cases h : a.truth <;> simp_all

theorem releaseBody_flip (c : Ctrl) (a b : Option Verdict) :
    releaseBody c a b = (untilBody c (a.map Verdict.flip) (b.map Verdict.flip)).flip := by
  cases b with
  | none => rfl
  | some b =>
      cases a with
      | none =>
          cases hb : b.truth
          · simp [releaseBody, untilBody, Verdict.flip, Effect.flip, Ctrl.emitPrev, Ctrl.keep, hb]
          · simp only [releaseBody, untilBody, Verdict.flip, Option.map_some, Option.map_none, hb]
            simp only [Bool.true_eq_false, if_false, Bool.not_true, Bool.false_eq_true]
            split <;> simp [Effect.flip, Ctrl.emitPrev, Ctrl.keep, Verdict.flip]
      | some a =>
          cases hb : b.truth
          · simp [releaseBody, untilBody, Verdict.flip, Effect.flip, Ctrl.emitPrev, Ctrl.keep, hb]
          · cases ha : a.truth
            · simp only [releaseBody, untilBody, Verdict.flip, Option.map_some, hb, ha]
              simp only [Bool.true_eq_false, if_false, Bool.not_true, Bool.false_eq_true, Bool.not_false]
              split <;> simp [Effect.flip, Ctrl.emitPrev, Ctrl.keep, Verdict.flip]
            · simp [releaseBody, untilBody, Verdict.flip, Effect.flip, Ctrl.emitPrev, Ctrl.keep, hb, ha]

theorem sound_release {A B : Nat → Prop} {ea eb e : Nat} {a b : Option Verdict} {c : Ctrl}
    (hlu : c.lb ≤ c.ub) (ha : Rd A c.next ea a) (hb : Rd B c.next eb b)
    (ho : ownUntil (fun s => ¬ A s) (fun s => ¬ B s) c.lb c.ub c.next c.prev e) :
    Sound (fun t => ∀ j, t + c.lb ≤ j → j ≤ t + c.ub → B j ∨ ∃ k, t + c.lb ≤ k ∧ k < j ∧ A k)
      c.lb e a b c.next (ownUntil (fun s => ¬ A s) (fun s => ¬ B s) c.lb c.ub)
      (releaseBody c a b) := by
  rw [releaseBody_flip]
  refine (Sound.flip (sound_until hlu ha.flip hb.flip ho)).congr fun s => ?_
  simp only [untilAt]
  push Not
  refine forall_congr' fun j => forall_congr' fun _ => forall_congr' fun _ => ?_
  by_cases h : B j <;> simp [h]

end R2U2
