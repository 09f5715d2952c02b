import Verif.Lemmas.Effects
import Mathlib.Tactic.SplitIfs
import Mathlib.Tactic.ByContra
/-
What one execution of a once or historically does, given what it read.
-/
namespace R2U2

/-- The state of a once with operand `B` that wants time `n` next, whose verdicts end at `e`: the edge
is the last time before `n` at which `B` held. -/
structure PastI (B : Nat → Prop) (lb n : Nat) (prev edge : Verdict) (e : Nat) : Prop where
  start : prev.truth = false → e = 0 ∧ n = 0 ∧ prev.time = 0 ∧ edge.truth = false
  going : prev.truth = true → e = prev.time + 1 ∧ n + lb ≤ e
  up : edge.truth = true → B edge.time ∧ edge.time < n ∧ ∀ s, edge.time < s → s < n → ¬ B s
  down : edge.truth = false → ∀ s, s < n → ¬ B s

/-- The verdicts reach as far as the edge does. -/
def Dead (ub : Nat) (prev edge : Verdict) : Prop := edge.truth = false ∨ edge.time + ub ≤ prev.time

def onceAt (B : Nat → Prop) (lb ub t : Nat) : Prop := ∃ j, t ≤ j + ub ∧ j + lb ≤ t ∧ B j

/-- An execution of a once with values `X` and operand `B` in step `t`. -/
structure SoundP (X B : Nat → Prop) (lb ub t e : Nat) (b : Option Verdict) (c : Ctrl) (E : Effect) : Prop where
  next_le : c.next ≤ E.next
  push : ∀ v, E.push = some v → e ≤ v.time ∧
    ((∃ u, b = some u ∧ v.time = u.time + lb) ∨ (E.edge.truth = true ∧ v.time ≤ E.edge.time + ub)) ∧
    ∀ s, e ≤ s → s ≤ v.time → (X s ↔ v.truth = true)
  report : E.report = none
  own : PastI B lb E.next E.prev E.edge (match E.push with
    | some v => v.time + 1
    | none => e)
  block : E.prev = c.prev ∨ ∃ v, E.push = some v ∧ E.prev = ⟨true, v.time⟩
  edge : E.edge = c.edge ∨ ∃ u, b = some u ∧ E.edge = ⟨true, u.time⟩
  out : (b = none ∧ E.next = c.next) ∨ (∃ u, b = some u ∧ E.next = u.time + 1) ∨
    (E.next = c.next ∧ ¬ Dead ub c.prev c.edge ∧
      (t + lb + 2 ≤ c.next ∨ (E.push ≠ none ∧ Dead ub E.prev E.edge)))

/-- `sinceBody` where the left operand is true: what happens after the right one was looked at
(mltl.c:349-363). -/
def onceLast (c : Ctrl) (t next : Nat) (edge : Verdict) : Effect :=
  if c.prev.time - c.lb ≤ t + c.ub ∧ edge.truth = true ∧ (c.prev.time - c.ub < edge.time ∨ c.prev.time < c.ub) then
    if c.isNew (min (t + c.ub + c.lb) (edge.time + c.ub)) then
      { c.emitPrev ⟨true, min (t + c.ub + c.lb) (edge.time + c.ub)⟩
          (max next (min (t + c.ub + c.lb) (edge.time + c.ub) - c.ub + 1)) with edge := edge }
    else { c.keep with next := next, edge := edge }
  else { c.keep with next := next, edge := edge }

theorem sinceBody_once (c : Ctrl) (t : Nat) (b : Option Verdict) :
    sinceBody c (some ⟨true, t + c.ub⟩) b =
      match b with
      | none => onceLast c t c.next c.edge
      | some b =>
          if b.truth then
            if c.prev.time - c.lb ≤ b.time ∧ c.isNew (b.time + c.lb) then
              { c.emitPrev ⟨true, b.time + c.lb⟩ (b.time + 1) with edge := ⟨true, b.time⟩ }
            else onceLast c t (b.time + 1) ⟨true, b.time⟩
          else
            if c.edge.truth = false ∨ (c.edge.time ≤ c.prev.time - c.ub ∧ c.ub ≤ c.prev.time) then
              if c.prev.time - c.lb ≤ b.time ∧ c.isNew (b.time + c.lb) then c.emitPrev ⟨false, b.time + c.lb⟩ (b.time + 1)
              else onceLast c t (b.time + 1) c.edge
            else onceLast c t c.next c.edge := by
  unfold sinceBody onceLast
  cases b <;> simp

theorem last_spec {B : Nat → Prop} {e t n : Nat} {c : Ctrl} {g : Verdict} (hlu : c.lb ≤ c.ub)
    (ho : PastI B c.lb n c.prev g e) (hn : n + c.lb ≤ e)
    (hnew : ∀ s, c.isNew s ↔ e ≤ s) (hpe : c.prev.time ≤ e ∧ e ≤ c.prev.time + 1) :
    (onceLast c t n g).next = n ∧ (onceLast c t n g).edge = g ∧ (onceLast c t n g).report = none ∧
    (((onceLast c t n g).push = none ∧ (onceLast c t n g).prev = c.prev ∧
        (Dead c.ub c.prev g ∨ t + c.lb + 2 ≤ n)) ∨
      ∃ v, (onceLast c t n g).push = some ⟨true, v⟩ ∧ (onceLast c t n g).prev = ⟨true, v⟩ ∧ e ≤ v ∧ g.truth = true ∧
        v ≤ g.time + c.ub ∧ ¬ Dead c.ub c.prev g ∧ (Dead c.ub ⟨true, v⟩ g ∨ t + c.lb + 2 ≤ n) ∧
        (∀ s, e ≤ s → s ≤ v → onceAt B c.lb c.ub s) ∧ PastI B c.lb n ⟨true, v⟩ g (v + 1)) := by
  have hlive : (g.truth = true ∧ (c.prev.time - c.ub < g.time ∨ c.prev.time < c.ub)) ↔ ¬ Dead c.ub c.prev g := by
    unfold Dead
    cases hg : g.truth
    · simp
    · simp; omega
  unfold onceLast
  split
  · rename_i h1
    obtain ⟨h1, h2⟩ := h1
    have hnd := hlive.1 h2
    have hgt := h2.1
    obtain ⟨g1, g2, g3⟩ := ho.up hgt
    have hlt : c.prev.time < g.time + c.ub := by
      unfold Dead at hnd
      simp [hgt] at hnd
      exact hnd
    split
    · rename_i hw
      have hw := (hnew _).1 hw
      have hnx : max n (min (t + c.ub + c.lb) (g.time + c.ub) - c.ub + 1) = n := by omega
      refine ⟨by simp only [Ctrl.emitPrev, hnx], rfl, rfl, Or.inr ⟨_, rfl, rfl, hw, hgt, Nat.min_le_right _ _, hnd, ?_, ?_, ?_⟩⟩
      · rcases Nat.le_total (g.time + c.ub) (t + c.ub + c.lb) with h | h
        · left; right; simp only []; omega
        · rcases Nat.eq_or_lt_of_le h with h | h
          · left; right; simp only []; omega
          · right; omega
      · intro s hs hs2
        exact ⟨g.time, by omega, by omega, g1⟩
      · exact ⟨by simp, fun _ => ⟨rfl, by omega⟩, fun _ => ⟨g1, g2, g3⟩, fun h => by simp [hgt] at h⟩
    · rename_i hw
      rw [hnew] at hw
      exact ⟨rfl, rfl, rfl, Or.inl ⟨rfl, rfl, Or.inr (by omega)⟩⟩
  · rename_i h1
    refine ⟨rfl, rfl, rfl, Or.inl ⟨rfl, rfl, ?_⟩⟩
    by_cases hd : Dead c.ub c.prev g
    · exact Or.inl hd
    · right
      have hcap : ¬ (c.prev.time - c.lb ≤ t + c.ub) := fun h => h1 ⟨h, hlive.2 hd⟩
      have h2 := hlive.2 hd
      obtain ⟨g1, g2, g3⟩ := ho.up h2.1
      have hlt : c.prev.time < g.time + c.ub := by
        unfold Dead at hd
        simp [h2.1] at hd
        exact hd
      omega

theorem sound_once {B : Nat → Prop} {eb e t : Nat} {b : Option Verdict} {c : Ctrl}
    (hlu : c.lb ≤ c.ub) (hb : Rd B c.next eb b) (ho : PastI B c.lb c.next c.prev c.edge e) (hs : ¬ c.starting) :
    SoundP (onceAt B c.lb c.ub) B c.lb c.ub t e b c (sinceBody c (some ⟨true, t + c.ub⟩) b) := by
  have ho' := ho
  obtain ⟨o1, o2, o3, o4⟩ := ho
  have hl0 : c.prev.truth = false → c.lb = 0 := by
    intro hp
    obtain ⟨h1, h2, h3, h4⟩ := o1 hp
    by_contra hl
    exact hs ⟨hp, by omega⟩
  have hn : c.next + c.lb ≤ e := by
    cases hp : c.prev.truth with
    | true => exact (o2 hp).2
    | false =>
        obtain ⟨h1, h2, h3, h4⟩ := o1 hp
        have := hl0 hp
        omega
  have hnew : ∀ s, c.isNew s ↔ e ≤ s := by
    intro s
    unfold Ctrl.isNew
    cases hp : c.prev.truth with
    | true => have := (o2 hp).1; simp; omega
    | false => obtain ⟨h1, h2, h3, h4⟩ := o1 hp; simp; omega
  have hpe : c.prev.time ≤ e ∧ e ≤ c.prev.time + 1 := by
    cases hp : c.prev.truth with
    | true => have := (o2 hp).1; omega
    | false => obtain ⟨h1, h2, h3, h4⟩ := o1 hp; omega
  rw [sinceBody_once]
  -- the last part, for what the operand gives
  have fin : ∀ n g, PastI B c.lb n c.prev g e → n + c.lb ≤ e → c.next ≤ n →
      (g = c.edge ∨ ∃ u, b = some u ∧ g = ⟨true, u.time⟩) →
      ((b = none ∧ n = c.next) ∨ (∃ u, b = some u ∧ n = u.time + 1) ∨ (n = c.next ∧ g = c.edge ∧ ¬ Dead c.ub c.prev c.edge)) →
      SoundP (onceAt B c.lb c.ub) B c.lb c.ub t e b c (onceLast c t n g) := by
    intro n g hI hne hle hg hout
    obtain ⟨l1, l2, l3, l4⟩ := last_spec (t := t) hlu hI hne hnew hpe
    refine ⟨by rw [l1]; exact hle, ?_, l3, ?_, ?_, by rw [l2]; exact hg, ?_⟩
    · intro v hv
      rcases l4 with ⟨h1, _⟩ | ⟨w, h1, h2, h3, h4, h5, h6, h7, h8, h9⟩
      · rw [h1] at hv; cases hv
      · rw [h1] at hv; cases hv
        rw [l2]
        exact ⟨h3, Or.inr ⟨h4, h5⟩, fun s hs hs2 => by simp only [iff_true]; exact h8 s hs hs2⟩
    · rw [l1, l2]
      rcases l4 with ⟨h1, h2, _⟩ | ⟨w, h1, h2, h3, h4, h5, h6, h7, h8, h9⟩
      · rw [h1, h2]; exact hI
      · rw [h1, h2]; exact h9
    · rcases l4 with ⟨h1, h2, _⟩ | ⟨w, h1, h2, h3, h4, h5, h6, h7, h8, h9⟩
      · exact Or.inl h2
      · exact Or.inr ⟨_, h1, h2⟩
    · rw [l1, l2]
      rcases hout with h | h | ⟨h, hg', hd⟩
      · exact Or.inl h
      · exact Or.inr (Or.inl h)
      · refine Or.inr (Or.inr ⟨h, hd, ?_⟩)
        subst hg'
        rcases l4 with ⟨h1, h2, h3⟩ | ⟨w, h1, h2, h3, h4, h5, h6, h7, h8, h9⟩
        · exact Or.inl (by rw [← h]; exact h3.resolve_left hd)
        · rcases h7 with h7 | h7
          · exact Or.inr ⟨by rw [h1]; simp, by rw [h2]; exact h7⟩
          · exact Or.inl (by rw [← h]; exact h7)
  cases b with
  | none => exact fin _ _ ho' hn (Nat.le_refl _) (Or.inl rfl) (Or.inl ⟨rfl, rfl⟩)
  | some b =>
  obtain ⟨g1, g2, g3⟩ := hb.val
  have hfire : (c.prev.time - c.lb ≤ b.time ∧ c.isNew (b.time + c.lb)) ↔ e ≤ b.time + c.lb := by
    rw [hnew]; omega
  have hprev : ¬ e ≤ b.time + c.lb → c.prev.truth = true := by
    intro h
    by_contra hp
    have hp : c.prev.truth = false := by simpa using hp
    have := (o1 hp).1
    omega
  simp only [hfire]
  by_cases hbt : b.truth = true
  · rw [if_pos hbt]
    have hup : (∀ s, b.time < s → s < b.time + 1 → ¬ B s) := by intro s h1 h2; omega
    by_cases hf : e ≤ b.time + c.lb
    · rw [if_pos hf]
      refine ⟨by simp only [Ctrl.emitPrev]; omega, ?_, rfl, ?_, Or.inr ⟨_, rfl, rfl⟩, Or.inr ⟨_, rfl, rfl⟩, Or.inr (Or.inl ⟨_, rfl, rfl⟩)⟩
      · intro v hv
        simp only [Ctrl.emitPrev, Option.some.injEq] at hv
        subst hv
        refine ⟨hf, Or.inl ⟨_, rfl, rfl⟩, fun s hs hs2 => ?_⟩
        simp only [] at hs2
        simp only [iff_true]
        exact ⟨s - c.lb, by omega, by omega, (g3 (s - c.lb) (by omega) (by omega)).2 hbt⟩
      · simp only [Ctrl.emitPrev]
        exact ⟨by simp, fun _ => ⟨rfl, by omega⟩, fun _ => ⟨(g3 _ g1 (Nat.le_refl _)).2 hbt, by simp, hup⟩, by simp⟩
    · rw [if_neg hf]
      refine fin _ _ ⟨fun h => ?_, fun h => ⟨(o2 h).1, by omega⟩, fun _ => ⟨(g3 _ g1 (Nat.le_refl _)).2 hbt, by simp, hup⟩, by simp⟩
        (by omega) (by omega) (Or.inr ⟨_, rfl, rfl⟩) (Or.inr (Or.inl ⟨_, rfl, rfl⟩))
      rw [hprev hf] at h; cases h
  · rw [if_neg hbt]
    have hbf : ∀ s, c.next ≤ s → s ≤ b.time → ¬ B s := fun s h1 h2 h => hbt ((g3 s h1 h2).1 h)
    have hdead : (c.edge.truth = false ∨ (c.edge.time ≤ c.prev.time - c.ub ∧ c.ub ≤ c.prev.time)) ↔ Dead c.ub c.prev c.edge := by
      unfold Dead
      exact or_congr Iff.rfl (by omega)
    by_cases hd : Dead c.ub c.prev c.edge
    · rw [if_pos (hdead.2 hd)]
      have hup : c.edge.truth = true → B c.edge.time ∧ c.edge.time < b.time + 1 ∧ ∀ s, c.edge.time < s → s < b.time + 1 → ¬ B s := by
        intro h
        obtain ⟨u1, u2, u3⟩ := o3 h
        refine ⟨u1, by omega, fun s h1 h2 => ?_⟩
        rcases Nat.lt_or_ge s c.next with h3 | h3
        · exact u3 s h1 h3
        · exact hbf s h3 (by omega)
      have hdn : c.edge.truth = false → ∀ s, s < b.time + 1 → ¬ B s := by
        intro h s hs
        rcases Nat.lt_or_ge s c.next with h3 | h3
        · exact o4 h s h3
        · exact hbf s h3 (by omega)
      by_cases hf : e ≤ b.time + c.lb
      · rw [if_pos hf]
        refine ⟨by simp only [Ctrl.emitPrev]; omega, ?_, rfl, ?_, Or.inr ⟨_, rfl, rfl⟩, Or.inl rfl, Or.inr (Or.inl ⟨_, rfl, rfl⟩)⟩
        · intro v hv
          simp only [Ctrl.emitPrev, Option.some.injEq] at hv
          subst hv
          refine ⟨hf, Or.inl ⟨_, rfl, rfl⟩, fun s hs hs2 => ?_⟩
          simp only [] at hs2
          simp only [Bool.false_eq_true, iff_false]
          rintro ⟨j, j1, j2, j3⟩
          cases hg : c.edge.truth with
          | false => exact hdn hg j (by omega) j3
          | true =>
              have hle : c.edge.time + c.ub ≤ c.prev.time := by
                rcases hd with hd | hd
                · rw [hg] at hd; cases hd
                · exact hd
              have hjp : c.prev.truth = true := by
                by_contra hp
                have hp : c.prev.truth = false := by simpa using hp
                have := (o1 hp).2.2.2
                rw [hg] at this; cases this
              have := (o2 hjp).1
              exact (hup hg).2.2 j (by omega) (by omega) j3
        · simp only [Ctrl.emitPrev]
          exact ⟨by simp, fun _ => ⟨rfl, by omega⟩, hup, hdn⟩
      · rw [if_neg hf]
        refine fin _ _ ⟨fun h => ?_, fun h => ⟨(o2 h).1, by omega⟩, hup, hdn⟩
          (by omega) (by omega) (Or.inl rfl) (Or.inr (Or.inl ⟨_, rfl, rfl⟩))
        rw [hprev hf] at h; cases h
    · rw [if_neg (fun h => hd (hdead.1 h))]
      exact fin _ _ ho' hn (Nat.le_refl _) (Or.inl rfl) (Or.inr (Or.inr ⟨rfl, rfl, hd⟩))

/-- A once changes its value only where its operand did, an interval bound before, and only
after reading up to there. -/
theorem turn_once {X B : Nat → Prop} {lb ub t n p : Nat} {b : Option Verdict} {c : Ctrl} {E : Effect} {prev edge v : Verdict}
    (h : SoundP X B lb ub t (p + 1) b c E) (hlu : lb ≤ ub) (ho : PastI B lb n prev edge (p + 1)) (he : edge = c.edge)
    (hn : n + lb ≤ p + 1) (hv : E.push = some v) (hne : ¬ (onceAt B lb ub p ↔ onceAt B lb ub (p + 1))) :
    ∃ u, b = some u ∧ p + 1 ≤ u.time + lb ∧ (p + 1 = lb ∨ ∃ s, ¬ (B s ↔ B (s + 1)) ∧
      (s + 1 + ub = p + 1 ∨ s + 1 + lb = p + 1)) := by
  have hu : ∃ u, b = some u ∧ p + 1 ≤ u.time + lb := by
    obtain ⟨h1, h2, _⟩ := h.push v hv
    rcases h2 with ⟨u, hu, h2⟩ | ⟨h2, h3⟩
    · exact ⟨u, hu, by omega⟩
    · have hB := (h.own.up h2).1
      rcases Nat.lt_or_ge p (E.edge.time + lb) with h4 | h4
      · rcases h.edge with h5 | ⟨u, hu, h5⟩
        · rw [h5, ← he] at h2 h4
          have := (ho.up h2).2.1
          omega
        · rw [h5] at h4
          exact ⟨u, hu, by simp only [] at h4; omega⟩
      · exact absurd (iff_of_true ⟨_, by omega, h4, hB⟩ ⟨E.edge.time, by omega, by omega, hB⟩) hne
  obtain ⟨u, hu, hle⟩ := hu
  refine ⟨u, hu, hle, ?_⟩
  by_cases hp : onceAt B lb ub p
  · have hq : ¬ onceAt B lb ub (p + 1) := fun hq => hne (iff_of_true hp hq)
    obtain ⟨j, j1, j2, j3⟩ := hp
    have hj : j + ub = p := by
      by_contra hj
      exact hq ⟨j, by omega, by omega, j3⟩
    refine Or.inr ⟨j, fun hB => hq ⟨j + 1, by omega, by omega, hB.1 j3⟩, Or.inl (by omega)⟩
  · have hq : onceAt B lb ub (p + 1) := by
      by_contra hq
      exact hne (iff_of_false hp hq)
    obtain ⟨j, j1, j2, j3⟩ := hq
    have hj : j + lb = p + 1 := by
      by_contra hj
      exact hp ⟨j, by omega, by omega, j3⟩
    cases j with
    | zero => exact Or.inl (by omega)
    | succ s => exact Or.inr ⟨s, fun hB => hp ⟨s, by omega, by omega, hB.2 j3⟩, Or.inr (by omega)⟩

/-- Starting (mltl.c:281-289): before time `lb` there is nothing a once could have seen. -/
theorem sound_start {B : Nat → Prop} {e t : Nat} {b : Option Verdict} {c : Ctrl}
    (ho : PastI B c.lb c.next c.prev c.edge e) (hs : c.starting) :
    e = 0 ∧ c.next = 0 ∧ 0 < c.lb ∧ c.edge.truth = false ∧ (∀ s, s ≤ c.lb - 1 → ¬ onceAt B c.lb c.ub s) ∧
      PastI B c.lb 0 ⟨true, c.lb - 1⟩ c.edge (c.lb - 1 + 1) := by
  obtain ⟨hp, hl⟩ := hs
  obtain ⟨h1, h2, h3, h4⟩ := ho.start hp
  refine ⟨h1, h2, by omega, h4, ?_, ⟨by simp, fun _ => ⟨rfl, by omega⟩, fun h => (by rw [h4] at h; cases h), fun _ s hs => (by omega)⟩⟩
  rintro s hs ⟨j, j1, j2, j3⟩
  omega

theorem triggerBody_flip (c : Ctrl) (a b : Option Verdict) :
    triggerBody c a b = (sinceBody c (a.map Verdict.flip) (b.map Verdict.flip)).flip := by
  have hm : ∀ o : Option Verdict, (o.map Verdict.flip).map (·.truth) = some false ↔ o.map (·.truth) = some true := by
    intro o; cases o <;> simp [Verdict.flip]
  unfold triggerBody sinceBody
  cases b with
  | none =>
      cases a with
      | none => rfl
      | some a =>
          simp only [Option.map_some, Option.map_none, Verdict.flip, Bool.not_eq_true']
          split_ifs <;> simp [Effect.flip, Ctrl.emitPrev, Ctrl.keep, Verdict.flip]
  | some b =>
      cases a with
      | none =>
          simp only [Option.map_some, Option.map_none, Verdict.flip, Bool.not_eq_true']
          split_ifs <;> simp [Effect.flip, Ctrl.emitPrev, Ctrl.keep, Verdict.flip]
      | some a =>
          simp only [Option.map_some, Verdict.flip, Bool.not_eq_true']
          split_ifs <;> simp_all [Effect.flip, Ctrl.emitPrev, Ctrl.keep, Verdict.flip]

theorem SoundP.flip {X B : Nat → Prop} {lb ub t e : Nat} {b : Option Verdict} {c : Ctrl} {E : Effect}
    (h : SoundP X B lb ub t e (b.map Verdict.flip) c E) : SoundP (fun s => ¬ X s) B lb ub t e b c E.flip := by
  have hb : ∀ u, b.map Verdict.flip = some u → b = some u.flip := by
    intro u hu
    rw [Option.map_eq_some_iff] at hu
    obtain ⟨w, hw, rfl⟩ := hu
    rw [hw]; simp [Verdict.flip]
  have hn : E.flip.push = none ↔ E.push = none := by simp [Effect.flip]
  have hp : ∀ v, E.flip.push = some v → E.push = some v.flip := by
    intro v hv
    simp only [Effect.flip, Option.map_eq_some_iff] at hv
    obtain ⟨w, hw, rfl⟩ := hv
    rw [hw]; simp [Verdict.flip]
  refine ⟨h.next_le, ?_, by simp [Effect.flip, h.report], ?_, ?_, ?_, ?_⟩
  · intro v hv
    obtain ⟨h1, h2, h3⟩ := h.push _ (hp v hv)
    refine ⟨h1, ?_, fun s hs hs2 => ?_⟩
    · rcases h2 with ⟨u, hu, h2⟩ | h2
      · exact Or.inl ⟨u.flip, hb u hu, h2⟩
      · exact Or.inr h2
    · have := h3 s hs hs2
      cases hv : v.truth <;> simp [this, Verdict.flip, hv]
  · have := h.own
    cases hE : E.push with
    | none => rw [hE] at this; simp only [Effect.flip, hE, Option.map_none]; exact this
    | some v => rw [hE] at this; simp only [Effect.flip, hE, Option.map_some]; exact this
  · rcases h.block with h | ⟨v, h1, h2⟩
    · exact Or.inl h
    · exact Or.inr ⟨v.flip, by simp [Effect.flip, h1], h2⟩
  · rcases h.edge with h | ⟨u, h1, h2⟩
    · exact Or.inl h
    · exact Or.inr ⟨u.flip, hb u h1, h2⟩
  · rcases h.out with ⟨h1, h2⟩ | ⟨u, h1, h2⟩ | ⟨h1, h2, h3⟩
    · exact Or.inl ⟨by simpa using h1, h2⟩
    · exact Or.inr (Or.inl ⟨u.flip, hb u h1, h2⟩)
    · refine Or.inr (Or.inr ⟨h1, h2, ?_⟩)
      rw [Ne, hn]
      exact h3

end R2U2
