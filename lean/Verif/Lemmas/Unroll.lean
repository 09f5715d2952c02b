import Verif.Lemmas.Rewrite
import Verif.Model.Unroll
namespace R2U2
open Expr Unroll
variable {α : Type}

theorem satFutPoint (π : Trace α) (b : Nat) (e : Expr α) (i : Nat) :
    sat π (.fut b b e) i ↔ sat π e (i + b) := by
  simp only [sat]; exact fut_point (fun j => sat π e j) i b

theorem satGlobPoint (π : Trace α) (b : Nat) (e : Expr α) (i : Nat) :
    sat π (.glob b b e) i ↔ sat π e (i + b) := by
  simp only [sat]; exact glob_point (fun j => sat π e j) i b

theorem satUntlPoint (π : Trace α) (b : Nat) (l r : Expr α) (i : Nat) :
    sat π (.untl b b l r) i ↔ sat π r (i + b) := by
  simp only [sat]
  constructor
  · rintro ⟨j, h1, h2, h, _⟩
    have : j = i + b := by omega
    subst this; exact h
  · intro h
    exact ⟨i + b, by omega, by omega, h, fun k h1 h2 => by omega⟩

/-- Peeling the first step off an until window. -/
theorem until_step (π : Trace α) (lb ub : Nat) (l r : Expr α) (i : Nat) (h : lb < ub) :
    sat π (.untl lb ub l r) i ↔
      sat π r (i + lb) ∨ (sat π l (i + lb) ∧ sat π (.untl (lb + 1) ub l r) i) := by
  simp only [sat]
  constructor
  · rintro ⟨j, h1, h2, hr, hl⟩
    by_cases hj : j = i + lb
    · subst hj; exact .inl hr
    · exact .inr ⟨hl _ (by omega) (by omega), j, by omega, h2, hr, fun k a b => hl k (by omega) b⟩
  · rintro (hr | ⟨hl, j, h1, h2, hr, hl'⟩)
    · exact ⟨i + lb, by omega, by omega, hr, fun k a b => by omega⟩
    · refine ⟨j, by omega, h2, hr, fun k a b => ?_⟩
      by_cases hk : k = i + lb
      · subst hk; exact hl
      · exact hl' k (by omega) b

theorem untilLoop_sat (π : Trace α) (l r : Expr α) (i lb ub : Nat) :
    ∀ (n : Nat) (repl : Expr α), lb + n ≤ ub →
      (sat π repl i ↔ sat π (.untl (lb + n) ub l r) i) →
      (sat π (untilLoop lb l r n repl) i ↔ sat π (.untl lb ub l r) i)
  | 0, repl, _, hr => by simpa [untilLoop] using hr
  | n + 1, repl, hn, hr => by
    unfold untilLoop
    apply untilLoop_sat π l r i lb ub n _ (by omega)
    rw [until_step π (lb + n) ub l r i (by omega)]
    have e1 : ∀ (a b : Expr α), sat π (.or [a, b]) i ↔ sat π a i ∨ sat π b i := by
      intro a b; simp [sat, satAny]
    have e2 : ∀ (a b : Expr α), sat π (.and [a, b]) i ↔ sat π a i ∧ sat π b i := by
      intro a b; simp [sat, satAll]
    rw [e1, e2, satFutPoint, satFutPoint, hr]
    simp only [Nat.add_assoc]

theorem unrollStep_equiv {e e' : Expr α} (hord : ¬ isDisordered e) (h : unrollStep e = some e') :
    Equiv e' e := by
  intro π i
  cases e <;> simp only [unrollStep, Option.some.injEq] at h
  case fut lb ub e =>
    split at h <;> (rw [Option.some.injEq] at h; subst h)
    · exact Iff.rfl
    · rw [sat_or]
      simp only [List.mem_map, List.mem_range'_1]
      constructor
      · rintro ⟨c, ⟨b, hb, rfl⟩, hs⟩
        rw [satFutPoint] at hs
        exact ⟨i + b, by omega, by omega, hs⟩
      · intro hs
        simp only [sat] at hs
        obtain ⟨j, h1, h2, hs⟩ := hs
        refine ⟨_, ⟨j - i, by omega, rfl⟩, ?_⟩
        rw [satFutPoint, show i + (j - i) = j by omega]
        exact hs
  case glob lb ub e =>
    split at h <;> (rw [Option.some.injEq] at h; subst h)
    · exact Iff.rfl
    · rw [sat_and]
      simp only [List.mem_map, List.mem_range'_1, forall_exists_index, and_imp,
        forall_apply_eq_imp_iff₂]
      constructor
      · intro hs
        simp only [sat]
        intro j h1 h2
        have := hs _ (j - i) (by omega) (by omega) rfl
        rw [satGlobPoint, show i + (j - i) = j by omega] at this
        exact this
      · intro hs c b h1 h2 hc
        subst hc
        rw [satGlobPoint]
        simp only [sat] at hs
        exact hs _ (by omega) (by omega)
  case untl lb ub l r =>
    subst h
    simp only [isDisordered, Nat.not_lt] at hord
    apply untilLoop_sat π l r i lb ub (ub - lb) _ (by omega)
    rw [show lb + (ub - lb) = ub by omega, satFutPoint, satUntlPoint]
  case rel => simp at h
  all_goals (subst h; exact Iff.rfl)

theorem whileSub_spec (a s : Nat) (ha : 0 < a) :
    (whileSub a s).1.sum + (whileSub a s).2 = s ∧ (whileSub a s).2 < a ∧
      ∀ x ∈ (whileSub a s).1, x = a := by
  induction s using Nat.strongRecOn with
  | ind s ih =>
    unfold whileSub
    split
    · rename_i h
      obtain ⟨h1, h2, h3⟩ := ih (s - a) (by omega)
      refine ⟨?_, h2, ?_⟩
      · simp only [List.sum_cons]; omega
      · intro x hx
        rcases List.mem_cons.1 hx with rfl | hx
        · rfl
        · exact h3 x hx
    · rename_i h
      simp; omega

theorem amountsLoop_spec : ∀ (n s : Nat),
    (∀ x ∈ amountsLoop n s, ∃ k, 0 < k ∧ x = 2 ^ k - 1) ∧ (0 < n → (amountsLoop n s).sum = s)
  | 0, s => by simp [amountsLoop]
  | n + 1, s => by
    have hp : 0 < 2 ^ (n + 1) - 1 := by
      have : 2 ^ 1 ≤ 2 ^ (n + 1) := Nat.pow_le_pow_right (by omega) (by omega)
      omega
    obtain ⟨h1, h2, h3⟩ := whileSub_spec (2 ^ (n + 1) - 1) s hp
    obtain ⟨h4, h5⟩ := amountsLoop_spec n (whileSub (2 ^ (n + 1) - 1) s).2
    constructor
    · intro x hx
      simp only [amountsLoop, List.mem_append] at hx
      rcases hx with hx | hx
      · exact ⟨n + 1, by omega, h3 x hx⟩
      · exact h4 x hx
    · intro _
      simp only [amountsLoop, List.sum_append]
      by_cases hn : 0 < n
      · rw [h5 hn]; exact h1
      · have : n = 0 := by omega
        subst this
        simp [amountsLoop] at h1 h2 ⊢
        omega

theorem amounts_sum (lb ub : Nat) (h : lb < ub) : (amounts lb ub).sum = ub - lb := by
  unfold amounts
  apply (amountsLoop_spec _ _).2
  unfold bitLength
  have h1 : 2 ^ 1 ≤ ub - lb + 1 := by omega
  have h2 := (Nat.le_log2 (n := ub - lb + 1) (k := 1) (by omega)).2 h1
  split <;> omega

theorem amounts_pow (lb ub x : Nat) (h : x ∈ amounts lb ub) : ∃ k, 0 < k ∧ x = 2 ^ k - 1 :=
  (amountsLoop_spec _ _).1 x h

theorem foldr_fut (π : Trace α) (l : List Nat) (e : Expr α) (i : Nat) :
    sat π (l.foldr (fun a repl => .fut 0 a repl) e) i ↔ sat π (.fut 0 l.sum e) i := by
  induction l generalizing i with
  | nil => simp [satFutPoint]
  | cons a l ih =>
    simp only [List.foldr_cons, List.sum_cons]
    have e1 : sat π (.fut 0 a (l.foldr (fun a repl => .fut 0 a repl) e)) i ↔
        ∃ j, i + 0 ≤ j ∧ j ≤ i + a ∧ sat π (l.foldr (fun a repl => .fut 0 a repl) e) j := by simp only [sat]
    rw [e1]
    simp only [ih]
    simp only [sat]
    simpa using fut_fut (fun k => sat π e k) i 0 a 0 l.sum (by omega) (by omega)

theorem foldr_glob (π : Trace α) (l : List Nat) (e : Expr α) (i : Nat) :
    sat π (l.foldr (fun a repl => .glob 0 a repl) e) i ↔ sat π (.glob 0 l.sum e) i := by
  induction l generalizing i with
  | nil => simp [satGlobPoint]
  | cons a l ih =>
    simp only [List.foldr_cons, List.sum_cons]
    have e1 : sat π (.glob 0 a (l.foldr (fun a repl => .glob 0 a repl) e)) i ↔
        ∀ j, i + 0 ≤ j → j ≤ i + a → sat π (l.foldr (fun a repl => .glob 0 a repl) e) j := by simp only [sat]
    rw [e1]
    simp only [ih]
    simp only [sat]
    simpa using glob_glob (fun k => sat π e k) i 0 a 0 l.sum (by omega) (by omega)

theorem until_until (p q : Nat → Prop) (i a b : Nat) :
    (∃ j, i ≤ j ∧ j ≤ i + a ∧ (∃ k, j ≤ k ∧ k ≤ j + b ∧ q k ∧ ∀ m, j ≤ m → m < k → p m) ∧
        ∀ m, i ≤ m → m < j → p m) ↔
      ∃ k, i ≤ k ∧ k ≤ i + (a + b) ∧ q k ∧ ∀ m, i ≤ m → m < k → p m := by
  constructor
  · rintro ⟨j, h1, h2, ⟨k, h3, h4, hq, hp⟩, hp'⟩
    refine ⟨k, by omega, by omega, hq, fun m ha hb => ?_⟩
    by_cases hm : m < j
    · exact hp' m ha hm
    · exact hp m (by omega) hb
  · rintro ⟨k, h1, h2, hq, hp⟩
    by_cases hk : k ≤ i + a
    · exact ⟨k, h1, hk, ⟨k, by omega, by omega, hq, fun m ha hb => by omega⟩, hp⟩
    · exact ⟨i + a, by omega, by omega, ⟨k, by omega, by omega, hq, fun m ha hb => hp m (by omega) hb⟩,
        fun m ha hb => hp m ha (by omega)⟩

theorem foldr_untl (π : Trace α) (l : List Nat) (p e : Expr α) (i : Nat) :
    sat π (l.foldr (fun a repl => .untl 0 a p repl) e) i ↔ sat π (.untl 0 l.sum p e) i := by
  induction l generalizing i with
  | nil => simp [satUntlPoint]
  | cons a l ih =>
    simp only [List.foldr_cons, List.sum_cons]
    have e1 : sat π (.untl 0 a p (l.foldr (fun a repl => .untl 0 a p repl) e)) i ↔
        ∃ j, i + 0 ≤ j ∧ j ≤ i + a ∧ sat π (l.foldr (fun a repl => .untl 0 a p repl) e) j ∧
          ∀ k, i + 0 ≤ k → k < j → sat π p k := by simp only [sat]
    rw [e1]
    simp only [ih]
    simp only [sat]
    simpa using until_until (fun k => sat π p k) (fun k => sat π e k) i a l.sum

theorem decomposeStep_equiv {e : Expr α} (hord : ¬ isDisordered e) : Equiv (decomposeStep e) e := by
  intro π i
  cases e <;> simp only [decomposeStep]
  case fut lb ub e =>
    simp only [isDisordered, Nat.not_lt] at hord
    split
    · exact Iff.rfl
    · have hs := amounts_sum lb ub (by omega)
      split
      · rw [satFutPoint, foldr_fut, hs]
        simp only [sat]
        rw [show i + lb + (ub - lb) = i + ub by omega, show i + lb + 0 = i + lb by omega]
      · have : lb = 0 := by omega
        subst this
        rw [foldr_fut, hs]; simp
  case glob lb ub e =>
    simp only [isDisordered, Nat.not_lt] at hord
    split
    · exact Iff.rfl
    · have hs := amounts_sum lb ub (by omega)
      split
      · rw [satGlobPoint, foldr_glob, hs]
        simp only [sat]
        rw [show i + lb + (ub - lb) = i + ub by omega, show i + lb + 0 = i + lb by omega]
      · have : lb = 0 := by omega
        subst this
        rw [foldr_glob, hs]; simp
  case untl lb ub l r =>
    simp only [isDisordered, Nat.not_lt] at hord
    split
    · exact Iff.rfl
    · have hs := amounts_sum lb ub (by omega)
      split
      · rw [satUntlPoint, foldr_untl, hs]
        simp only [sat]
        rw [show i + lb + (ub - lb) = i + ub by omega, show i + lb + 0 = i + lb by omega]
      · have : lb = 0 := by omega
        subst this
        rw [foldr_untl, hs]; simp

/-- Passes whose step needs a condition on the root operator only. -/
theorem postM_equiv_root {bad : Expr α → Prop} {f : Expr α → Option (Expr α)}
    (hb : ∀ e m : Expr α, e.shape = m.shape → bad m → bad e)
    (hf : ∀ m e', ¬ bad m → f m = some e' → Equiv e' m) (e e' : Expr α)
    (he : Nowhere bad e) (h : postM f e = some e') : Equiv e' e := by
  induction e using childInduction generalizing e' with
  | h e ih =>
    obtain ⟨m, ⟨hs, hc⟩, hm⟩ := postM_some h
    obtain ⟨hr, hch⟩ := nowhere_iff.1 he
    refine (hf m e' (fun hbm => hr (hb e m hs hbm)) hm).trans (Equiv.congr hs.symm ?_)
    have : ∀ {l l' : List (Expr α)}, (∀ c ∈ l, c ∈ e.children) →
        List.Forall₂ (fun c c' => postM f c = some c') l l' → List.Forall₂ Equiv l' l := by
      intro l l' hl hc
      induction hc with
      | nil => exact .nil
      | cons h1 _ ih' =>
        exact .cons (ih _ (hl _ (by simp)) _ (hch _ (hl _ (by simp))) h1)
          (ih' fun c hc => hl c (by simp [hc]))
    exact this (fun _ h => h) hc

theorem post_equiv_root {bad : Expr α → Prop} {f : Expr α → Expr α}
    (hb : ∀ e m : Expr α, e.shape = m.shape → bad m → bad e)
    (hf : ∀ m, ¬ bad m → Equiv (f m) m) (e : Expr α)
    (he : Nowhere bad e) : Equiv (post f e) e := by
  induction e using childInduction with
  | h e ih =>
    obtain ⟨hr, hch⟩ := nowhere_iff.1 he
    rw [post_eq]
    refine (hf _ (fun hbm => hr (hb e _ (by simp) hbm))).trans (Equiv.congr (by simp) ?_)
    rw [children_mapChildren]
    exact forall₂_map_left' fun c hc => ih c hc (hch c hc)

theorem postM_nowhere {f : Expr α → Option (Expr α)} {bad : Expr α → Prop}
    (hf : ∀ m e', (∀ c ∈ m.children, Nowhere bad c) → f m = some e' → Nowhere bad e')
    (e e' : Expr α) (h : postM f e = some e') : Nowhere bad e' := by
  induction e using childInduction generalizing e' with
  | h e ih =>
    obtain ⟨m, ⟨hs, hc⟩, hm⟩ := postM_some h
    refine hf m e' ?_ hm
    have : ∀ {l l' : List (Expr α)}, (∀ c ∈ l, c ∈ e.children) →
        List.Forall₂ (fun c c' => postM f c = some c') l l' → ∀ c' ∈ l', Nowhere bad c' := by
      intro l l' hl hc
      induction hc with
      | nil => simp
      | cons h1 _ ih' =>
        intro c' hc'
        rcases List.mem_cons.1 hc' with rfl | hc'
        · exact ih _ (hl _ (by simp)) _ h1
        · exact ih' (fun c hc => hl c (by simp [hc])) c' hc'
    exact this (fun _ h => h) hc

theorem post_nowhere {f : Expr α → Expr α} {bad : Expr α → Prop}
    (hf : ∀ m, (∀ c ∈ m.children, Nowhere bad c) → Nowhere bad (f m))
    (e : Expr α) : Nowhere bad (post f e) := by
  induction e using childInduction with
  | h e ih =>
    rw [post_eq]
    apply hf
    intro c hc
    rw [children_mapChildren, List.mem_map] at hc
    obtain ⟨d, hd, rfl⟩ := hc
    exact ih d hd

theorem postM_isSome {f : Expr α → Option (Expr α)} {bad : Expr α → Prop}
    (hb : ∀ e m : Expr α, e.shape = m.shape → bad m → bad e)
    (hf : ∀ m, ¬ bad m → ∃ e', f m = some e') (e : Expr α) (he : Nowhere bad e) :
    ∃ e', postM f e = some e' := by
  induction e using childInduction with
  | h e ih =>
    obtain ⟨hr, hch⟩ := nowhere_iff.1 he
    obtain ⟨m, hs, hfm⟩ := exists_rebuild (R := fun c c' => postM f c = some c') e
      (fun c hc => ih c hc (hch c hc))
    rw [postM_of_children ⟨hs, hfm⟩]
    exact hf m fun h => hr (hb e m hs h)

end R2U2
