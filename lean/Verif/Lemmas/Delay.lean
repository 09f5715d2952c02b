import Verif.Lemmas.Unroll
namespace R2U2
open Expr
variable {α : Type}

theorem AgreeOn.mono {π π' : Trace α} {lo hi lo' hi' : Int} (h : AgreeOn π π' lo hi)
    (h1 : lo ≤ lo') (h2 : hi' ≤ hi) : AgreeOn π π' lo' hi' :=
  fun j a ha hb => h j a (by omega) (by omega)

theorem delay_window (e : Expr α) (he : Nowhere isMisdelayed e) (π π' : Trace α) (i : Nat)
    (h : AgreeOn π π' (i + bpd e) (i + wpd e)) : sat π e i ↔ sat π' e i := by
  induction e using childInduction generalizing i with
  | h e ih =>
    have sub : ∀ c ∈ e.children, ∀ j : Nat, AgreeOn π π' (j + bpd c) (j + wpd c) →
        (sat π c j ↔ sat π' c j) := fun c hc j hj => ih c hc (he.child hc) j hj
    clear ih
    have hroot := (nowhere_iff.1 he).1
    have nary : ∀ cs : List (Expr α), (∀ c ∈ cs, ∀ j : Nat, AgreeOn π π' (j + bpd c) (j + wpd c) →
        (sat π c j ↔ sat π' c j)) → AgreeOn π π' (i + minL (bpdL cs)) (i + maxL (wpdL cs)) →
        ∀ c ∈ cs, (sat π c i ↔ sat π' c i) := by
      intro cs hcs hag c hc
      apply hcs c hc
      apply hag.mono
      · have := minL_le (l := bpdL cs) (x := bpd c) (by rw [bpdL_eq]; exact List.mem_map_of_mem hc)
        omega
      · have := le_maxL (l := wpdL cs) (x := wpd c) (by rw [wpdL_eq]; exact List.mem_map_of_mem hc)
        omega
    cases e <;> simp only [children, List.mem_cons, List.not_mem_nil, or_false, forall_eq_or_imp,
      forall_eq] at sub <;> simp only [bpd, wpd] at h
    case const b => simp [sat]
    case atom a => simp only [sat]; exact h i a (by omega) (by omega)
    case neg e => simp only [sat]; rw [sub i h]
    case and cs =>
      rw [sat_and, sat_and]
      have := nary cs sub h
      exact ⟨fun H c hc => (this c hc).1 (H c hc), fun H c hc => (this c hc).2 (H c hc)⟩
    case or cs =>
      rw [sat_or, sat_or]
      have := nary cs sub h
      exact ⟨fun ⟨c, hc, H⟩ => ⟨c, hc, (this c hc).1 H⟩, fun ⟨c, hc, H⟩ => ⟨c, hc, (this c hc).2 H⟩⟩
    case xor l r | imp l r | iff l r | equal l r =>
      simp only [sat]
      rw [sub.1 i (h.mono (by omega) (by omega)), sub.2 i (h.mono (by omega) (by omega))]
    case fut lb ub e =>
      have := fun j (h1 : i + lb ≤ j) (h2 : j ≤ i + ub) => sub j (h.mono (by omega) (by omega))
      simp only [sat]
      exact ⟨fun ⟨j, a, b, H⟩ => ⟨j, a, b, (this j a b).1 H⟩, fun ⟨j, a, b, H⟩ => ⟨j, a, b, (this j a b).2 H⟩⟩
    case glob lb ub e =>
      have := fun j (h1 : i + lb ≤ j) (h2 : j ≤ i + ub) => sub j (h.mono (by omega) (by omega))
      simp only [sat]
      exact ⟨fun H j a b => (this j a b).1 (H j a b), fun H j a b => (this j a b).2 (H j a b)⟩
    case untl lb ub l r =>
      have hl := fun j (h1 : i + lb ≤ j) (h2 : j ≤ i + ub) => sub.1 j (h.mono (by omega) (by omega))
      have hr := fun j (h1 : i + lb ≤ j) (h2 : j ≤ i + ub) => sub.2 j (h.mono (by omega) (by omega))
      simp only [sat]
      exact ⟨fun ⟨j, a, b, H, G⟩ => ⟨j, a, b, (hr j a b).1 H, fun k c d => (hl k c (by omega)).1 (G k c d)⟩,
        fun ⟨j, a, b, H, G⟩ => ⟨j, a, b, (hr j a b).2 H, fun k c d => (hl k c (by omega)).2 (G k c d)⟩⟩
    case rel lb ub l r =>
      have hl := fun j (h1 : i + lb ≤ j) (h2 : j ≤ i + ub) => sub.1 j (h.mono (by omega) (by omega))
      have hr := fun j (h1 : i + lb ≤ j) (h2 : j ≤ i + ub) => sub.2 j (h.mono (by omega) (by omega))
      simp only [sat]
      constructor
      · intro H j a b hn
        obtain ⟨k, c, d, hk⟩ := H j a b (fun x => hn ((hr j a b).1 x))
        exact ⟨k, c, d, (hl k c (by omega)).1 hk⟩
      · intro H j a b hn
        obtain ⟨k, c, d, hk⟩ := H j a b (fun x => hn ((hr j a b).2 x))
        exact ⟨k, c, d, (hl k c (by omega)).2 hk⟩
    case once lb ub e =>
      simp only [isMisdelayed, ne_eq, Classical.not_not] at hroot
      have := fun j (h1 : i ≤ j + ub) (h2 : j + lb ≤ i) => sub j (h.mono (by omega) (by omega))
      simp only [sat]
      exact ⟨fun ⟨j, a, b, H⟩ => ⟨j, a, b, (this j a b).1 H⟩, fun ⟨j, a, b, H⟩ => ⟨j, a, b, (this j a b).2 H⟩⟩
    case hist lb ub e =>
      simp only [isMisdelayed, ne_eq, Classical.not_not] at hroot
      have := fun j (h1 : i ≤ j + ub) (h2 : j + lb ≤ i) => sub j (h.mono (by omega) (by omega))
      simp only [sat]
      exact ⟨fun H j a b => (this j a b).1 (H j a b), fun H j a b => (this j a b).2 (H j a b)⟩
    case since lb ub l r =>
      simp only [isMisdelayed, ne_eq, Classical.not_not] at hroot
      have hl := fun j (h1 : i ≤ j + ub) (h2 : j + lb ≤ i) => sub.1 j (h.mono (by omega) (by omega))
      have hr := fun j (h1 : i ≤ j + ub) (h2 : j + lb ≤ i) => sub.2 j (h.mono (by omega) (by omega))
      simp only [sat]
      exact ⟨fun ⟨j, a, b, H, G⟩ => ⟨j, a, b, (hr j a b).1 H, fun k c d => (hl k (by omega) d).1 (G k c d)⟩,
        fun ⟨j, a, b, H, G⟩ => ⟨j, a, b, (hr j a b).2 H, fun k c d => (hl k (by omega) d).2 (G k c d)⟩⟩
    case trig lb ub l r =>
      simp only [isMisdelayed, ne_eq, Classical.not_not] at hroot
      have hl := fun j (h1 : i ≤ j + ub) (h2 : j + lb ≤ i) => sub.1 j (h.mono (by omega) (by omega))
      have hr := fun j (h1 : i ≤ j + ub) (h2 : j + lb ≤ i) => sub.2 j (h.mono (by omega) (by omega))
      simp only [sat]
      constructor
      · intro H j a b hn
        obtain ⟨k, c, d, hk⟩ := H j a b (fun x => hn ((hr j a b).1 x))
        exact ⟨k, c, d, (hl k (by omega) d).1 hk⟩
      · intro H j a b hn
        obtain ⟨k, c, d, hk⟩ := H j a b (fun x => hn ((hr j a b).2 x))
        exact ⟨k, c, d, (hl k (by omega) d).2 hk⟩

theorem pd_nonneg (e : Expr α) (he : Nowhere isPast e) : 0 ≤ bpd e ∧ 0 ≤ wpd e := by
  induction e using childInduction with
  | h e ih =>
    have sub : ∀ c ∈ e.children, 0 ≤ bpd c ∧ 0 ≤ wpd c := fun c hc => ih c hc (he.child hc)
    have hroot := (nowhere_iff.1 he).1
    cases e <;> simp only [children, List.mem_cons, List.not_mem_nil, or_false, forall_eq_or_imp,
      forall_eq] at sub <;> simp only [bpd, wpd] <;> (try simp only [isPast, not_true_eq_false] at hroot)
    case and cs | or cs =>
      by_cases hcs : cs = []
      · subst hcs; simp [bpdL, wpdL, minL, maxL]
      · rw [bpdL_eq, wpdL_eq]
        have h1 := minL_mem (l := cs.map bpd) (by simpa using hcs)
        have h2 := maxL_mem (l := cs.map wpd) (by simpa using hcs)
        obtain ⟨c, hc, h1⟩ := List.mem_map.1 h1
        obtain ⟨d, hd, h2⟩ := List.mem_map.1 h2
        rw [← h1, ← h2]
        exact ⟨(sub c hc).1, (sub d hd).2⟩
    all_goals omega

theorem satFinAll_iff (π : FinTrace α) (cs : List (Expr α)) (i : Nat) :
    satFinAll π cs i ↔ ∀ c ∈ cs, satFin π c i := by
  induction cs with
  | nil => simp [satFinAll]
  | cons c cs ih => simp [satFinAll, ih]

theorem satFinAny_iff (π : FinTrace α) (cs : List (Expr α)) (i : Nat) :
    satFinAny π cs i ↔ ∃ c ∈ cs, satFin π c i := by
  induction cs with
  | nil => simp [satFinAny]
  | cons c cs ih => simp [satFinAny, ih]

theorem satFin_iff_sat (π : FinTrace α) (e : Expr α) (he : Nowhere isPast e) (i : Nat)
    (h : (i : Int) + wpd e < π.len) : satFin π e i ↔ sat π.val e i := by
  induction e using childInduction generalizing i with
  | h e ih =>
    have sub : ∀ c ∈ e.children, ∀ j : Nat, (j : Int) + wpd c < π.len →
        (satFin π c j ↔ sat π.val c j) := fun c hc j hj => ih c hc (he.child hc) j hj
    have pos : ∀ c ∈ e.children, 0 ≤ wpd c := fun c hc => (pd_nonneg c (he.child hc)).2
    clear ih
    have hroot := (nowhere_iff.1 he).1
    have nary : ∀ cs : List (Expr α), (i : Int) + maxL (wpdL cs) < π.len →
        ∀ c ∈ cs, (i : Int) + wpd c < π.len := by
      intro cs hcs c hc
      have := le_maxL (l := wpdL cs) (x := wpd c) (by rw [wpdL_eq]; exact List.mem_map_of_mem hc)
      omega
    cases e <;> simp only [children, List.mem_cons, List.not_mem_nil, or_false, forall_eq_or_imp,
      forall_eq] at sub pos <;> simp only [wpd] at h <;>
      (try simp only [isPast, not_true_eq_false] at hroot)
    case const b => simp [sat, satFin]
    case atom a => simp only [sat, satFin]; exact ⟨fun H => H.2, fun H => ⟨by omega, H⟩⟩
    case neg e => simp only [sat, satFin]; rw [sub i h]
    case and cs =>
      rw [sat_and]
      simp only [satFin, satFinAll_iff]
      exact ⟨fun H c hc => (sub c hc i (nary cs h c hc)).1 (H c hc),
        fun H c hc => (sub c hc i (nary cs h c hc)).2 (H c hc)⟩
    case or cs =>
      rw [sat_or]
      simp only [satFin, satFinAny_iff]
      exact ⟨fun ⟨c, hc, H⟩ => ⟨c, hc, (sub c hc i (nary cs h c hc)).1 H⟩,
        fun ⟨c, hc, H⟩ => ⟨c, hc, (sub c hc i (nary cs h c hc)).2 H⟩⟩
    case xor l r | imp l r | iff l r | equal l r =>
      simp only [sat, satFin]
      rw [sub.1 i (by omega), sub.2 i (by omega)]
    case fut lb ub e =>
      have := fun j (h1 : i + lb ≤ j) (h2 : j ≤ i + ub) => sub j (by omega)
      simp only [sat, satFin]
      constructor
      · rintro ⟨_, j, a, b, H⟩; exact ⟨j, a, b, (this j a b).1 H⟩
      · rintro ⟨j, a, b, H⟩; exact ⟨by omega, j, a, b, (this j a b).2 H⟩
    case glob lb ub e =>
      have := fun j (h1 : i + lb ≤ j) (h2 : j ≤ i + ub) => sub j (by omega)
      simp only [sat, satFin]
      constructor
      · rintro (H | H) j a b
        · omega
        · exact (this j a b).1 (H j a b)
      · intro H; exact .inr fun j a b => (this j a b).2 (H j a b)
    case untl lb ub l r =>
      have hl := fun j (h1 : i + lb ≤ j) (h2 : j ≤ i + ub) => sub.1 j (by omega)
      have hr := fun j (h1 : i + lb ≤ j) (h2 : j ≤ i + ub) => sub.2 j (by omega)
      simp only [sat, satFin]
      constructor
      · rintro ⟨_, j, a, b, H, G⟩
        exact ⟨j, a, b, (hr j a b).1 H, fun k c d => (hl k c (by omega)).1 (G k d c (by omega))⟩
      · rintro ⟨j, a, b, H, G⟩
        exact ⟨by omega, j, a, b, (hr j a b).2 H, fun k d c _ => (hl k c (by omega)).2 (G k c d)⟩
    case rel lb ub l r =>
      have hl := fun j (h1 : i + lb ≤ j) (h2 : j ≤ i + ub) => sub.1 j (by omega)
      have hr := fun j (h1 : i + lb ≤ j) (h2 : j ≤ i + ub) => sub.2 j (by omega)
      simp only [sat, satFin]
      constructor
      · rintro (H | H) j a b hn
        · omega
        · obtain ⟨k, d, c, _, hk⟩ := H j a b (fun x => hn ((hr j a b).1 x))
          exact ⟨k, c, d, (hl k c (by omega)).1 hk⟩
      · intro H
        right
        intro j a b hn
        obtain ⟨k, c, d, hk⟩ := H j a b (fun x => hn ((hr j a b).2 x))
        exact ⟨k, d, c, by omega, (hl k c (by omega)).2 hk⟩

end R2U2

namespace R2U2
open Expr Transform Rewrite
variable {α : Type}

theorem maxL_map_le {l : List (Expr α)} {g : Expr α → Expr α}
    (h : ∀ c ∈ l, wpd (g c) ≤ wpd c) : maxL (wpdL (l.map g)) ≤ maxL (wpdL l) := by
  by_cases hl : l = []
  · subst hl; simp
  · rw [wpdL_eq, wpdL_eq]
    have h1 := maxL_mem (l := (l.map g).map wpd) (by simpa using hl)
    obtain ⟨c, hc, h1⟩ := List.mem_map.1 h1
    obtain ⟨d, hd, rfl⟩ := List.mem_map.1 hc
    have h2 := le_maxL (l := l.map wpd) (x := wpd d) (List.mem_map_of_mem hd)
    have h3 := h d hd
    omega

/-- Forall₂ version -/
theorem maxL_forall₂_le {l l' : List (Expr α)}
    (h : List.Forall₂ (fun c c' => wpd c' ≤ wpd c) l l') : maxL (wpdL l') ≤ maxL (wpdL l) := by
  have key : ∀ {l l' : List (Expr α)}, List.Forall₂ (fun c c' => wpd c' ≤ wpd c) l l' →
      ∀ c' ∈ l', ∃ c ∈ l, wpd c' ≤ wpd c := by
    intro l l' h
    induction h with
    | nil => simp
    | cons h _ ih =>
      intro c' hc'
      rcases List.mem_cons.1 hc' with rfl | hc'
      · exact ⟨_, by simp, h⟩
      · obtain ⟨c, hc, h'⟩ := ih c' hc'
        exact ⟨c, by simp [hc], h'⟩
  by_cases hl : l' = []
  · subst hl; cases h; simp
  · rw [wpdL_eq, wpdL_eq]
    have h1 := maxL_mem (l := l'.map wpd) (by simpa using hl)
    obtain ⟨c', hc', h1⟩ := List.mem_map.1 h1
    obtain ⟨c, hc, h2⟩ := key h c' hc'
    have h3 := le_maxL (l := l.map wpd) (x := wpd c) (List.mem_map_of_mem hc)
    omega

theorem isPast_shape {e m : Expr α} (hs : e.shape = m.shape) : isPast m → isPast e := by
  cases e <;> cases m <;> simp_all [shape, isPast]

theorem wpd_rebuild_le {e m : Expr α} (hp : ¬ isPast e) (hs : e.shape = m.shape)
    (hc : List.Forall₂ (fun c c' => wpd c' ≤ wpd c) e.children m.children) : wpd m ≤ wpd e := by
  cases e <;> cases m <;> simp only [shape, reduceCtorEq] at hs <;> simp only [children] at hc <;>
    (try simp only [isPast, not_true_eq_false] at hp)
  case and.and => simp only [wpd]; exact maxL_forall₂_le hc
  case or.or => simp only [wpd]; exact maxL_forall₂_le hc
  all_goals first
    | (cases hs; simp [wpd]; done)
    | (cases hs; cases hc with | cons h1 _ => simp only [wpd]; omega)
    | (cases hs; cases hc with | cons h1 hc => cases hc with | cons h2 _ => simp only [wpd]; omega)

/-- A pass whose step keeps future formulas future and does not increase the
worst-case delay. -/
theorem postM_wpd_le {f : Expr α → Option (Expr α)} {I : Expr α → Prop}
    (hI : ∀ e, I e → ∀ c ∈ e.children, I c)
    (hrb : ∀ e m : Expr α, I e → e.shape = m.shape →
      List.Forall₂ (fun c c' => I c ∧ I c' ∧ postM f c = some c') e.children m.children → I m)
    (hpast : ∀ e, I e → ¬ isPast e)
    (hf : ∀ m e', I m → f m = some e' → I e' ∧ wpd e' ≤ wpd m)
    (e e' : Expr α) (he : I e) (h : postM f e = some e') : I e' ∧ wpd e' ≤ wpd e := by
  induction e using childInduction generalizing e' with
  | h e ih =>
    obtain ⟨m, ⟨hs, hc⟩, hm⟩ := postM_some h
    have key : ∀ {l l' : List (Expr α)}, (∀ c ∈ l, c ∈ e.children) →
        List.Forall₂ (fun c c' => postM f c = some c') l l' →
        List.Forall₂ (fun c c' => (I c ∧ I c' ∧ postM f c = some c') ∧ wpd c' ≤ wpd c) l l' := by
      intro l l' hl hc
      induction hc with
      | nil => exact .nil
      | cons h1 _ ih' =>
        have := ih _ (hl _ (by simp)) _ (hI e he _ (hl _ (by simp))) h1
        exact .cons ⟨⟨hI e he _ (hl _ (by simp)), this.1, h1⟩, this.2⟩ (ih' fun c hc => hl c (by simp [hc]))
    have hk := key (fun _ h => h) hc
    have hIm := hrb e m he hs (hk.imp fun _ _ h => h.1)
    obtain ⟨h1, h2⟩ := hf m e' hIm hm
    have h3 := wpd_rebuild_le (hpast e he) hs (hk.imp fun _ _ h => h.2)
    exact ⟨h1, by omega⟩

end R2U2

namespace R2U2
open Expr Transform Rewrite
variable {α : Type}

def latBad (e : Expr α) : Prop := isPast e ∨ isDisordered e ∨ isNonBinary e

/-- Equal texts only for equal expressions (with binary conjunctions and disjunctions). -/
def KeyInj {κ : Type} (key : Expr α → κ) : Prop :=
  ∀ p q : Expr α, Nowhere isNonBinary p → Nowhere isNonBinary q → key p = key q → p = q

theorem optStep_wpd {κ : Type} [DecidableEq κ] (key : Expr α → κ)
    (hk : KeyInj key) (m e' : Expr α)
    (hm : Nowhere latBad m) (h : optStep key m = some e') : Nowhere latBad e' ∧ wpd e' ≤ wpd m := by
  have pos : ∀ e : Expr α, Nowhere latBad e → 0 ≤ wpd e := fun e he =>
    (pd_nonneg e (he.mono fun _ h => .inl h)).2
  have bin : ∀ e : Expr α, Nowhere latBad e → Nowhere isNonBinary e :=
    fun e h => h.mono fun _ h => .inr (.inr h)
  have max2 : ∀ a b : Expr α, maxL (wpdL [a, b]) = max (wpd a) (wpd b) := by
    intro a b; simp [wpdL, maxL]
  cases m <;> simp only [optStep, Option.some.injEq] at h
  case neg e =>
    subst h
    constructor
    · revert hm; unfold negRule
      split <;> simp [nw_leaf_const, nw_neg, nw_glob, nw_fut, latBad, isDisordered, isNonBinary, isPast]
    · have := pos e (hm.child (by simp [children]))
      unfold negRule
      split <;> simp only [wpd] at * <;> omega
  case equal l r =>
    subst h
    have h1 := pos l (hm.child (by simp [children]))
    have h2 := pos r (hm.child (by simp [children]))
    constructor
    · unfold equalRule
      split
      · exact hm
      · exact hm.child (by simp [children])
      · exact hm.child (by simp [children])
      · exact hm
    · unfold equalRule
      split <;> simp only [wpd] at * <;> omega
  case glob lb ub e =>
    subst h
    have he : Nowhere latBad e := hm.child (by simp [children])
    have h1 := pos e he
    constructor
    · revert hm he; unfold globRule
      simp only
      intro hm he
      split <;> (try split) <;> (try split) <;> (try split) <;>
        simp_all [nw_leaf_const, nw_glob, nw_fut, latBad, isDisordered, isNonBinary, isPast] <;>
        omega
    · unfold globRule
      simp only
      split <;> (try split) <;> (try split) <;> (try split) <;> simp only [wpd] at * <;> omega
  case fut lb ub e =>
    subst h
    have he : Nowhere latBad e := hm.child (by simp [children])
    have h1 := pos e he
    constructor
    · revert hm he; unfold futRule
      simp only
      intro hm he
      split <;> (try split) <;> (try split) <;> (try split) <;>
        simp_all [nw_leaf_const, nw_glob, nw_fut, latBad, isDisordered, isNonBinary, isPast] <;>
        omega
    · unfold futRule
      simp only
      split <;> (try split) <;> (try split) <;> (try split) <;> simp only [wpd] at * <;> omega
  case and cs =>
    have hb : cs.length = 2 := by
      have := (nowhere_iff.1 hm).1; simp [latBad, isDisordered, isNonBinary, isPast] at this; omega
    obtain ⟨lhs, rhs, rfl⟩ := List.length_eq_two.1 hb
    simp only [andRule] at h
    split at h <;> (rw [Option.some.injEq] at h; subst h)
    · rename_i l1 u1 p l2 u2 q
      have hm' := hm
      simp [nw_and, nw_glob, latBad, isDisordered, isNonBinary, isPast] at hm'
      constructor
      · unfold andGlob
        split <;> (try split) <;> (try split) <;> (try split) <;> (try split) <;>
          simp_all [nw_and, nw_glob, latBad, isDisordered, isNonBinary, isPast] <;> omega
      · unfold andGlob
        split
        · rename_i hpq
          have hpq := hk p q (bin _ (by tauto)) (bin _ (by tauto)) hpq
          subst hpq
          (try split) <;> (try split) <;> (try split) <;> (try split) <;>
            simp only [wpd, max2] at * <;> omega
        · simp only [wpd, max2] at *; omega
    · rename_i l1 u1 p l2 u2 q
      have hm' := hm
      simp [nw_and, nw_fut, latBad, isDisordered, isNonBinary, isPast] at hm'
      constructor
      · unfold andFut
        split <;> (try split) <;> (try split) <;>
          simp_all [nw_and, nw_fut, latBad, isDisordered, isNonBinary, isPast]
      · unfold andFut
        split
        · rename_i hpq
          have hpq := hk p q (bin _ (by tauto)) (bin _ (by tauto)) hpq
          subst hpq
          (try split) <;> (try split) <;> (try split) <;> (try split) <;>
            simp only [wpd, max2] at * <;> omega
        · simp only [wpd, max2] at *; omega
    · rename_i l1 u1 p q l2 u2 r s
      have hm' := hm
      simp [nw_and, nw_untl, latBad, isDisordered, isNonBinary, isPast] at hm'
      constructor
      · unfold andUntl
        split <;>
          simp_all [nw_and, nw_untl, latBad, isDisordered, isNonBinary, isPast] <;> omega
      · unfold andUntl
        split
        · rename_i hh
          obtain ⟨hqs, rfl⟩ := hh
          have hqs := hk q s (bin _ (by tauto)) (bin _ (by tauto)) hqs
          subst hqs
          simp only [wpd, max2] at *; omega
        · simp only [wpd, max2] at *; omega
    · exact ⟨hm, by omega⟩
  case or cs =>
    have hb : cs.length = 2 := by
      have := (nowhere_iff.1 hm).1; simp [latBad, isDisordered, isNonBinary, isPast] at this; omega
    obtain ⟨lhs, rhs, rfl⟩ := List.length_eq_two.1 hb
    simp only [orRule] at h
    split at h <;> (rw [Option.some.injEq] at h; subst h)
    · rename_i l1 u1 p l2 u2 q
      have hm' := hm
      simp [nw_or, nw_fut, latBad, isDisordered, isNonBinary, isPast] at hm'
      constructor
      · unfold orFut
        split <;> (try split) <;> (try split) <;> (try split) <;> (try split) <;>
          simp_all [nw_or, nw_fut, latBad, isDisordered, isNonBinary, isPast] <;> omega
      · unfold orFut
        split
        · rename_i hpq
          have hpq := hk p q (bin _ (by tauto)) (bin _ (by tauto)) hpq
          subst hpq
          (try split) <;> (try split) <;> (try split) <;> (try split) <;>
            simp only [wpd, max2] at * <;> omega
        · simp only [wpd, max2] at *; omega
    · rename_i l1 u1 p l2 u2 q
      have hm' := hm
      simp [nw_or, nw_glob, latBad, isDisordered, isNonBinary, isPast] at hm'
      constructor
      · unfold orGlob
        split <;> (try split) <;> (try split) <;>
          simp_all [nw_or, nw_glob, latBad, isDisordered, isNonBinary, isPast]
      · unfold orGlob
        split
        · rename_i hpq
          have hpq := hk p q (bin _ (by tauto)) (bin _ (by tauto)) hpq
          subst hpq
          (try split) <;> (try split) <;> (try split) <;> (try split) <;>
            simp only [wpd, max2] at * <;> omega
        · simp only [wpd, max2] at *; omega
    · exact ⟨hm, by omega⟩
  all_goals (subst h; exact ⟨hm, by omega⟩)

theorem optimize_latBad {κ : Type} [DecidableEq κ] (key : Expr α → κ)
    (hk : KeyInj key) (e e' : Expr α) (he : Nowhere latBad e)
    (h : optimize key e = some e') : Nowhere latBad e' ∧ wpd e' ≤ wpd e := by
  refine postM_wpd_le (I := Nowhere latBad) (fun e h c hc => h.child hc) ?_ ?_
    (optStep_wpd key hk) e e' he h
  · intro e m he hs hc
    refine ⟨m, ?_, ?_⟩
    · rintro (h | h | h)
      · exact (nowhere_iff.1 he).1 (.inl (isPast_shape hs h))
      · exact (nowhere_iff.1 he).1 (.inr (.inl (isDisordered_shape hs h)))
      · exact (nowhere_iff.1 he).1 (.inr (.inr (isNonBinary_shape hs h)))
    · have : ∀ {l l' : List (Expr α)}, List.Forall₂
          (fun c c' => Nowhere latBad c ∧ Nowhere latBad c' ∧ postM (optStep key) c = some c') l l' →
          ∀ c' ∈ l', Nowhere latBad c' := by
        intro l l' h
        induction h with
        | nil => simp
        | cons h _ ih =>
          intro c' hc'
          rcases List.mem_cons.1 hc' with rfl | hc'
          · exact h.2.1
          · exact ih c' hc'
      exact this hc
  · intro e he hp
    exact (nowhere_iff.1 he).1 (.inl hp)


end R2U2
