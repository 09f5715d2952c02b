import Verif.Spec.Smt
import Verif.Lemmas.Unroll
import Verif.Lemmas.Delay
/-
Facts about traces that end (`satCut`): when the end does not matter, shifting, and interval
decomposition.
-/
namespace R2U2
open Expr Unroll
variable {α : Type}

theorem satCutAll_iff (n : Nat) (π : Trace α) (cs : List (Expr α)) (i : Nat) :
    satCutAll n π cs i ↔ ∀ c ∈ cs, satCut n π c i := by
  induction cs with
  | nil => simp [satCutAll]
  | cons c cs ih => simp [satCutAll, ih]

theorem satCutAny_iff (n : Nat) (π : Trace α) (cs : List (Expr α)) (i : Nat) :
    satCutAny n π cs i ↔ ∃ c ∈ cs, satCut n π c i := by
  induction cs with
  | nil => simp [satCutAny]
  | cons c cs ih => simp [satCutAny, ih]

/-- The end of the trace does not matter to a formula whose window it contains. -/
theorem satCut_iff_sat (n : Nat) (π : Trace α) (e : Expr α) (he : Nowhere isPast e) (i : Nat)
    (h : (i : Int) + wpd e < n) : satCut n π e i ↔ sat π e i := by
  induction e using childInduction generalizing i with
  | h e ih =>
    have sub : ∀ c ∈ e.children, ∀ j : Nat, (j : Int) + wpd c < n →
        (satCut n π c j ↔ sat π c j) := fun c hc j hj => ih c hc (he.child hc) j hj
    have pos : ∀ c ∈ e.children, 0 ≤ wpd c := fun c hc => (pd_nonneg c (he.child hc)).2
    clear ih
    have hroot := (nowhere_iff.1 he).1
    have nary : ∀ cs : List (Expr α), (i : Int) + maxL (wpdL cs) < n →
        ∀ c ∈ cs, (i : Int) + wpd c < n := by
      intro cs hcs c hc
      have := le_maxL (l := wpdL cs) (x := wpd c) (by rw [wpdL_eq]; exact List.mem_map_of_mem hc)
      omega
    cases e <;> simp only [children, List.mem_cons, List.not_mem_nil, or_false, forall_eq_or_imp,
      forall_eq] at sub pos <;> simp only [wpd] at h <;>
      (try simp only [isPast, not_true_eq_false] at hroot)
    case const b => simp [sat, satCut]
    case atom a => simp only [sat, satCut]
    case neg e => simp only [sat, satCut]; rw [sub i h]
    case and cs =>
      rw [sat_and]
      simp only [satCut, satCutAll_iff]
      exact ⟨fun H c hc => (sub c hc i (nary cs h c hc)).1 (H c hc),
        fun H c hc => (sub c hc i (nary cs h c hc)).2 (H c hc)⟩
    case or cs =>
      rw [sat_or]
      simp only [satCut, satCutAny_iff]
      exact ⟨fun ⟨c, hc, H⟩ => ⟨c, hc, (sub c hc i (nary cs h c hc)).1 H⟩,
        fun ⟨c, hc, H⟩ => ⟨c, hc, (sub c hc i (nary cs h c hc)).2 H⟩⟩
    case xor l r | imp l r | iff l r | equal l r =>
      simp only [sat, satCut]
      rw [sub.1 i (by omega), sub.2 i (by omega)]
    case fut lb ub e =>
      have := fun j (h1 : i + lb ≤ j) (h2 : j ≤ i + ub) => sub j (by omega)
      simp only [sat, satCut]
      constructor
      · rintro ⟨j, a, b, _, H⟩; exact ⟨j, a, b, (this j a b).1 H⟩
      · rintro ⟨j, a, b, H⟩; exact ⟨j, a, b, by omega, (this j a b).2 H⟩
    case glob lb ub e =>
      have := fun j (h1 : i + lb ≤ j) (h2 : j ≤ i + ub) => sub j (by omega)
      simp only [sat, satCut]
      exact ⟨fun H j a b => (this j a b).1 (H j a b (by omega)),
        fun H j a b _ => (this j a b).2 (H j a b)⟩
    case untl lb ub l r =>
      have hl := fun j (h1 : i + lb ≤ j) (h2 : j ≤ i + ub) => sub.1 j (by omega)
      have hr := fun j (h1 : i + lb ≤ j) (h2 : j ≤ i + ub) => sub.2 j (by omega)
      simp only [sat, satCut]
      constructor
      · rintro ⟨j, a, b, _, H, G⟩
        exact ⟨j, a, b, (hr j a b).1 H, fun k c d => (hl k c (by omega)).1 (G k c d)⟩
      · rintro ⟨j, a, b, H, G⟩
        exact ⟨j, a, b, by omega, (hr j a b).2 H, fun k c d => (hl k c (by omega)).2 (G k c d)⟩
    case rel lb ub l r =>
      have hl := fun j (h1 : i + lb ≤ j) (h2 : j ≤ i + ub) => sub.1 j (by omega)
      have hr := fun j (h1 : i + lb ≤ j) (h2 : j ≤ i + ub) => sub.2 j (by omega)
      simp only [sat, satCut]
      constructor
      · intro H j a b hn
        obtain ⟨k, c, d, hk⟩ := H j a b (by omega) (fun x => hn ((hr j a b).1 x))
        exact ⟨k, c, d, (hl k c (by omega)).1 hk⟩
      · intro H j a b _ hn
        obtain ⟨k, c, d, hk⟩ := H j a b (fun x => hn ((hr j a b).2 x))
        exact ⟨k, c, d, (hl k c (by omega)).2 hk⟩

/-- A trace that ends, preceded by `s` further time steps. -/
theorem satCut_shift (n s : Nat) (π π' : Trace α)
    (hπ : ∀ j a, j < n → (π j a ↔ π' (j + s) a)) (e : Expr α) (he : Nowhere isPast e) (i : Nat)
    (hi : i < n) : satCut n π e i ↔ satCut (n + s) π' e (i + s) := by
  induction e using childInduction generalizing i with
  | h e ih =>
    have sub : ∀ c ∈ e.children, ∀ j : Nat, j < n →
        (satCut n π c j ↔ satCut (n + s) π' c (j + s)) := fun c hc j hj => ih c hc (he.child hc) j hj
    clear ih
    have hroot := (nowhere_iff.1 he).1
    have back : ∀ j, i + s ≤ j → j - s + s = j := fun j h => by omega
    cases e <;> simp only [children, List.mem_cons, List.not_mem_nil, or_false, forall_eq_or_imp,
      forall_eq] at sub <;> (try simp only [isPast, not_true_eq_false] at hroot)
    case const b => simp [satCut]
    case atom a => simp only [satCut]; exact hπ i a hi
    case neg e => simp only [satCut]; rw [sub i hi]
    case and cs =>
      simp only [satCut, satCutAll_iff]
      exact ⟨fun H c hc => (sub c hc i hi).1 (H c hc), fun H c hc => (sub c hc i hi).2 (H c hc)⟩
    case or cs =>
      simp only [satCut, satCutAny_iff]
      exact ⟨fun ⟨c, hc, H⟩ => ⟨c, hc, (sub c hc i hi).1 H⟩,
        fun ⟨c, hc, H⟩ => ⟨c, hc, (sub c hc i hi).2 H⟩⟩
    case xor l r | imp l r | iff l r | equal l r =>
      simp only [satCut]
      rw [sub.1 i hi, sub.2 i hi]
    case fut lb ub e =>
      simp only [satCut]
      constructor
      · rintro ⟨j, a, b, c, H⟩
        exact ⟨j + s, by omega, by omega, by omega, (sub j c).1 H⟩
      · rintro ⟨j, a, b, c, H⟩
        have := sub (j - s) (by omega)
        rw [back j (by omega)] at this
        exact ⟨j - s, by omega, by omega, by omega, this.2 H⟩
    case glob lb ub e =>
      simp only [satCut]
      constructor
      · intro H j a b c
        have := sub (j - s) (by omega)
        rw [back j (by omega)] at this
        exact this.1 (H (j - s) (by omega) (by omega) (by omega))
      · intro H j a b c
        exact (sub j c).2 (H (j + s) (by omega) (by omega) (by omega))
    case untl lb ub l r =>
      simp only [satCut]
      constructor
      · rintro ⟨j, a, b, c, H, G⟩
        refine ⟨j + s, by omega, by omega, by omega, (sub.2 j c).1 H, fun k d f => ?_⟩
        have := sub.1 (k - s) (by omega)
        rw [back k (by omega)] at this
        exact this.1 (G _ (by omega) (by omega))
      · rintro ⟨j, a, b, c, H, G⟩
        have := sub.2 (j - s) (by omega)
        rw [back j (by omega)] at this
        exact ⟨j - s, by omega, by omega, by omega, this.2 H,
          fun k d f => (sub.1 k (by omega)).2 (G _ (by omega) (by omega))⟩
    case rel lb ub l r =>
      simp only [satCut]
      constructor
      · intro H j a b c hn
        have := sub.2 (j - s) (by omega)
        rw [back j (by omega)] at this
        obtain ⟨k, d, f, hk⟩ := H (j - s) (by omega) (by omega) (by omega) (fun x => hn (this.1 x))
        exact ⟨k + s, by omega, by omega, (sub.1 k (by omega)).1 hk⟩
      · intro H j a b c hn
        obtain ⟨k, d, f, hk⟩ := H (j + s) (by omega) (by omega) (by omega)
          (fun x => hn ((sub.2 j c).2 x))
        have := sub.1 (k - s) (by omega)
        rw [back k (by omega)] at this
        exact ⟨k - s, by omega, by omega, this.2 hk⟩

/-! ### Decomposition -/

/-- Equal verdicts at every existing time of every trace that ends. -/
def CutEquiv (e e' : Expr α) : Prop :=
  ∀ (n : Nat) (π : Trace α) (i : Nat), i < n → (satCut n π e i ↔ satCut n π e' i)

theorem cut_foldr_fut (n : Nat) (π : Trace α) (l : List Nat) (e : Expr α) (i : Nat) (hi : i < n) :
    satCut n π (l.foldr (fun a repl => .fut 0 a repl) e) i ↔ satCut n π (.fut 0 l.sum e) i := by
  induction l generalizing i with
  | nil =>
    simp only [List.foldr_nil, List.sum_nil, satCut, Nat.add_zero]
    exact ⟨fun H => ⟨i, by omega, by omega, hi, H⟩,
      fun ⟨j, a, b, _, H⟩ => (by omega : i = j) ▸ H⟩
  | cons a l ih =>
    have e1 : satCut n π (.fut 0 a (l.foldr (fun a repl => .fut 0 a repl) e)) i ↔
        ∃ j, i + 0 ≤ j ∧ j ≤ i + a ∧ j < n ∧
          satCut n π (l.foldr (fun a repl => .fut 0 a repl) e) j := by simp only [satCut]
    simp only [List.foldr_cons, List.sum_cons]
    rw [e1]
    simp only [satCut, Nat.add_zero]
    constructor
    · rintro ⟨j, h1, h2, h3, H⟩
      obtain ⟨m, m1, m2, m3, M⟩ := by simpa [satCut] using (ih j h3).1 H
      exact ⟨m, by omega, by omega, m3, M⟩
    · rintro ⟨m, m1, m2, m3, M⟩
      by_cases h : m ≤ i + a
      · refine ⟨m, m1, h, m3, (ih m m3).2 ?_⟩
        simp only [satCut]
        exact ⟨m, by omega, by omega, m3, M⟩
      · refine ⟨i + a, by omega, by omega, by omega, (ih _ (by omega)).2 ?_⟩
        simp only [satCut]
        exact ⟨m, by omega, by omega, m3, M⟩

theorem cut_foldr_glob (n : Nat) (π : Trace α) (l : List Nat) (e : Expr α) (i : Nat) (hi : i < n) :
    satCut n π (l.foldr (fun a repl => .glob 0 a repl) e) i ↔ satCut n π (.glob 0 l.sum e) i := by
  induction l generalizing i with
  | nil =>
    simp only [List.foldr_nil, List.sum_nil, satCut, Nat.add_zero]
    exact ⟨fun H j a b _ => (by omega : i = j) ▸ H, fun H => H i (by omega) (by omega) hi⟩
  | cons a l ih =>
    have e1 : satCut n π (.glob 0 a (l.foldr (fun a repl => .glob 0 a repl) e)) i ↔
        ∀ j, i + 0 ≤ j → j ≤ i + a → j < n →
          satCut n π (l.foldr (fun a repl => .glob 0 a repl) e) j := by simp only [satCut]
    simp only [List.foldr_cons, List.sum_cons]
    rw [e1]
    simp only [satCut, Nat.add_zero]
    constructor
    · intro H m m1 m2 m3
      by_cases h : m ≤ i + a
      · have := (ih m m3).1 (H m m1 h m3)
        simp only [satCut] at this
        exact this m (by omega) (by omega) m3
      · have := (ih (i + a) (by omega)).1 (H _ (by omega) (by omega) (by omega))
        simp only [satCut] at this
        exact this m (by omega) (by omega) m3
    · intro H j h1 h2 h3
      refine (ih j h3).2 ?_
      simp only [satCut]
      exact fun m m1 m2 m3 => H m (by omega) (by omega) m3

theorem cut_foldr_untl (n : Nat) (π : Trace α) (l : List Nat) (p e : Expr α) (i : Nat)
    (hi : i < n) :
    satCut n π (l.foldr (fun a repl => .untl 0 a p repl) e) i ↔
      satCut n π (.untl 0 l.sum p e) i := by
  induction l generalizing i with
  | nil =>
    simp only [List.foldr_nil, List.sum_nil, satCut, Nat.add_zero]
    exact ⟨fun H => ⟨i, by omega, by omega, hi, H, fun k _ _ => by omega⟩,
      fun ⟨j, a, b, _, H, _⟩ => (by omega : i = j) ▸ H⟩
  | cons a l ih =>
    have e1 : satCut n π (.untl 0 a p (l.foldr (fun a repl => .untl 0 a p repl) e)) i ↔
        ∃ j, i + 0 ≤ j ∧ j ≤ i + a ∧ j < n ∧
          satCut n π (l.foldr (fun a repl => .untl 0 a p repl) e) j ∧
          ∀ k, i + 0 ≤ k → k < j → satCut n π p k := by simp only [satCut]
    simp only [List.foldr_cons, List.sum_cons]
    rw [e1]
    simp only [satCut, Nat.add_zero]
    constructor
    · rintro ⟨j, h1, h2, h3, H, G⟩
      have := (ih j h3).1 H
      simp only [satCut] at this
      obtain ⟨m, m1, m2, m3, M, K⟩ := this
      refine ⟨m, by omega, by omega, m3, M, fun k k1 k2 => ?_⟩
      by_cases hk : k < j
      · exact G k k1 hk
      · exact K k (by omega) k2
    · rintro ⟨m, m1, m2, m3, M, K⟩
      by_cases h : m ≤ i + a
      · refine ⟨m, m1, h, m3, (ih m m3).2 ?_, K⟩
        simp only [satCut]
        exact ⟨m, by omega, by omega, m3, M, fun k _ _ => by omega⟩
      · refine ⟨i + a, by omega, by omega, by omega, (ih _ (by omega)).2 ?_,
          fun k k1 k2 => K k k1 (by omega)⟩
        simp only [satCut]
        exact ⟨m, by omega, by omega, m3, M, fun k k1 k2 => K k (by omega) k2⟩

theorem decomposeStep_cut {e : Expr α} (hord : ¬ isDisordered e) : CutEquiv (decomposeStep e) e := by
  intro n π i hi
  cases e <;> simp only [decomposeStep]
  case fut lb ub e =>
    simp only [isDisordered, Nat.not_lt] at hord
    split
    · exact Iff.rfl
    · have hs := amounts_sum lb ub (by omega)
      split
      · simp only [satCut]
        constructor
        · rintro ⟨j, a, b, c, H⟩
          rw [cut_foldr_fut n π _ _ _ c, hs] at H
          simp only [satCut] at H
          obtain ⟨m, m1, m2, m3, M⟩ := H
          exact ⟨m, by omega, by omega, m3, M⟩
        · rintro ⟨m, m1, m2, m3, M⟩
          refine ⟨i + lb, by omega, by omega, by omega, ?_⟩
          rw [cut_foldr_fut n π _ _ _ (by omega), hs]
          simp only [satCut]
          exact ⟨m, by omega, by omega, m3, M⟩
      · have : lb = 0 := by omega
        subst this
        rw [cut_foldr_fut n π _ _ _ hi, hs]; simp
  case glob lb ub e =>
    simp only [isDisordered, Nat.not_lt] at hord
    split
    · exact Iff.rfl
    · have hs := amounts_sum lb ub (by omega)
      split
      · simp only [satCut]
        constructor
        · intro H m m1 m2 m3
          have H := H (i + lb) (by omega) (by omega) (by omega)
          rw [cut_foldr_glob n π _ _ _ (by omega), hs] at H
          simp only [satCut] at H
          exact H m (by omega) (by omega) m3
        · intro H j a b c
          rw [cut_foldr_glob n π _ _ _ c, hs]
          simp only [satCut]
          exact fun m m1 m2 m3 => H m (by omega) (by omega) m3
      · have : lb = 0 := by omega
        subst this
        rw [cut_foldr_glob n π _ _ _ hi, hs]; simp
  case untl lb ub l r =>
    simp only [isDisordered, Nat.not_lt] at hord
    split
    · exact Iff.rfl
    · have hs := amounts_sum lb ub (by omega)
      split
      · simp only [satCut]
        constructor
        · rintro ⟨j, a, b, c, H, G⟩
          rw [cut_foldr_untl n π _ _ _ _ c, hs] at H
          simp only [satCut] at H
          obtain ⟨m, m1, m2, m3, M, K⟩ := H
          exact ⟨m, by omega, by omega, m3, M, fun k k1 k2 => K k (by omega) k2⟩
        · rintro ⟨m, m1, m2, m3, M, K⟩
          refine ⟨i + lb, by omega, by omega, by omega, ?_, fun k k1 k2 => by omega⟩
          rw [cut_foldr_untl n π _ _ _ _ (by omega), hs]
          simp only [satCut]
          exact ⟨m, by omega, by omega, m3, M, fun k k1 k2 => K k (by omega) k2⟩
      · have : lb = 0 := by omega
        subst this
        rw [cut_foldr_untl n π _ _ _ _ hi, hs]; simp
  all_goals exact Iff.rfl

theorem CutEquiv.congr {e e' : Expr α} (hp : ¬ isPast e) (hs : e.shape = e'.shape)
    (hc : List.Forall₂ CutEquiv e.children e'.children) : CutEquiv e e' := by
  intro n π i hi
  cases e <;> cases e' <;> simp only [Expr.shape, reduceCtorEq] at hs <;>
    simp only [Expr.children] at hc <;> (try simp only [isPast, not_true_eq_false] at hp)
  case and.and cs cs' =>
    simp only [satCut]
    clear hs
    induction hc with
    | nil => simp [satCutAll]
    | cons h1 _ ih => simp only [satCutAll]; rw [ih, h1 n π i hi]
  case or.or cs cs' =>
    simp only [satCut]
    clear hs
    induction hc with
    | nil => simp [satCutAny]
    | cons h1 _ ih => simp only [satCutAny]; rw [ih, h1 n π i hi]
  case fut.fut =>
    cases hs; cases hc with | cons h1 _ =>
    simp only [satCut]
    exact ⟨fun ⟨j, a, b, c, H⟩ => ⟨j, a, b, c, (h1 n π j c).1 H⟩,
      fun ⟨j, a, b, c, H⟩ => ⟨j, a, b, c, (h1 n π j c).2 H⟩⟩
  case glob.glob =>
    cases hs; cases hc with | cons h1 _ =>
    simp only [satCut]
    exact ⟨fun H j a b c => (h1 n π j c).1 (H j a b c), fun H j a b c => (h1 n π j c).2 (H j a b c)⟩
  case untl.untl =>
    cases hs; cases hc with | cons h1 hc => cases hc with | cons h2 _ =>
    simp only [satCut]
    exact ⟨fun ⟨j, a, b, c, H, G⟩ => ⟨j, a, b, c, (h2 n π j c).1 H,
        fun k d f => (h1 n π k (by omega)).1 (G k d f)⟩,
      fun ⟨j, a, b, c, H, G⟩ => ⟨j, a, b, c, (h2 n π j c).2 H,
        fun k d f => (h1 n π k (by omega)).2 (G k d f)⟩⟩
  case rel.rel =>
    cases hs; cases hc with | cons h1 hc => cases hc with | cons h2 _ =>
    simp only [satCut]
    constructor
    · intro H j a b c hn
      obtain ⟨k, d, f, hk⟩ := H j a b c (fun x => hn ((h2 n π j c).1 x))
      exact ⟨k, d, f, (h1 n π k (by omega)).1 hk⟩
    · intro H j a b c hn
      obtain ⟨k, d, f, hk⟩ := H j a b c (fun x => hn ((h2 n π j c).2 x))
      exact ⟨k, d, f, (h1 n π k (by omega)).2 hk⟩
  all_goals first
    | (cases hs; exact Iff.rfl)
    | (cases hs; cases hc with | cons h1 _ => simp only [satCut, h1 n π i hi]; done)
    | (cases hs; cases hc with | cons h1 hc => cases hc with | cons h2 _ =>
        simp only [satCut, h1 n π i hi, h2 n π i hi])

theorem decompose_cut (e : Expr α) (hord : Nowhere isDisordered e) (hp : Nowhere isPast e) :
    CutEquiv (decompose e) e := by
  unfold decompose
  induction e using childInduction with
  | h e ih =>
    obtain ⟨hr, hch⟩ := nowhere_iff.1 hord
    obtain ⟨hpr, hpch⟩ := nowhere_iff.1 hp
    rw [post_eq]
    have hsh : (mapChildren (post decomposeStep) e).shape = e.shape := by simp
    intro n π i hi
    rw [decomposeStep_cut (fun h => hr (isDisordered_shape hsh.symm h)) n π i hi]
    refine CutEquiv.congr (fun h => hpr (isPast_shape hsh.symm h)) hsh ?_ n π i hi
    rw [children_mapChildren]
    exact forall₂_map_left' fun c hc => ih c hc (hch c hc) (hpch c hc)

end R2U2
