import Verif.Lemmas.SmtCut
/-
What the functions of the QF_UFLIA and UFLIA encodings mean.
-/
namespace R2U2
open Expr Smt
variable {α : Type}

theorem holdsAll_iff (F : α → Int → Prop) (ts : List (LiaTerm α)) (ρ : IntEnv) :
    LiaTerm.holdsAll F ts ρ ↔ ∀ t ∈ ts, t.holds F ρ := by
  induction ts with
  | nil => simp [LiaTerm.holdsAll]
  | cons t ts ih => simp [LiaTerm.holdsAll, ih]

theorem holdsAny_iff (F : α → Int → Prop) (ts : List (LiaTerm α)) (ρ : IntEnv) :
    LiaTerm.holdsAny F ts ρ ↔ ∃ t ∈ ts, t.holds F ρ := by
  induction ts with
  | nil => simp [LiaTerm.holdsAny]
  | cons t ts ih => simp [LiaTerm.holdsAny, ih]

/-- The trace an interpretation of the declared functions stands for. -/
def liaTrace (F : α → Int → Prop) : Trace α := fun j a => F a (j : Int)

theorem encQfL_forall₂ {cs : List (Expr α)} {ts : List (LiaTerm α)} (h : encQfL cs = some ts) :
    List.Forall₂ (fun c t => encQf c = some t) cs ts := by
  induction cs generalizing ts with
  | nil => simp only [encQfL, Option.some.injEq] at h; subst h; exact .nil
  | cons c cs ih =>
    simp only [encQfL, Option.pure_def, Option.bind_eq_bind, Option.bind_eq_some_iff,
      Option.some.injEq] at h
    obtain ⟨t, h1, ts', h2, rfl⟩ := h
    exact .cons h1 (ih h2)

theorem encLiaL_forall₂ {cs : List (Expr α)} {ts : List (LiaTerm α)} (h : encLiaL cs = some ts) :
    List.Forall₂ (fun c t => encLia c = some t) cs ts := by
  induction cs generalizing ts with
  | nil => simp only [encLiaL, Option.some.injEq] at h; subst h; exact .nil
  | cons c cs ih =>
    simp only [encLiaL, Option.pure_def, Option.bind_eq_bind, Option.bind_eq_some_iff,
      Option.some.injEq] at h
    obtain ⟨t, h1, ts', h2, rfl⟩ := h
    exact .cons h1 (ih h2)

/-- The meaning of the function defined by `t`, at `k`. -/
abbrev fn (F : α → Int → Prop) (t : LiaTerm α) (len k : Int) : Prop :=
  t.holds F { k := k, len := len, i := 0, j := 0 }

theorem qfUnroll_holds (F : α → Int → Prop) (lb : Nat) (l r : LiaTerm α) (n : Nat)
    (u : LiaTerm α) (ρ : IntEnv) :
    (qfUnroll lb l r n u).holds F ρ ↔
      (∃ d : Nat, lb ≤ d ∧ d < lb + n ∧ fn F r ρ.len (d + ρ.k) ∧
        ∀ c : Nat, lb ≤ c → c < d → fn F l ρ.len (c + ρ.k)) ∨
      ((∀ c : Nat, lb ≤ c → c < lb + n → fn F l ρ.len (c + ρ.k)) ∧ u.holds F ρ) := by
  induction n generalizing u with
  | zero =>
    simp only [qfUnroll, Nat.add_zero]
    constructor
    · exact fun h => .inr ⟨fun c _ _ => by omega, h⟩
    · rintro (⟨d, h1, h2, _⟩ | ⟨_, h⟩)
      · omega
      · exact h
  | succ n ih =>
    simp only [qfUnroll]
    rw [ih]
    simp only [LiaTerm.holds, LiaTerm.holdsAny, LiaTerm.holdsAll, or_false, and_true, IntTerm.eval]
    constructor
    · rintro (⟨d, h1, h2, h3, h4⟩ | ⟨h1, h2 | ⟨h2, h3⟩⟩)
      · exact .inl ⟨d, h1, by omega, h3, h4⟩
      · exact .inl ⟨lb + n, by omega, by omega, by exact_mod_cast h2, fun c a b => h1 c a (by omega)⟩
      · refine .inr ⟨fun c a b => ?_, h3⟩
        by_cases hc : c < lb + n
        · exact h1 c a hc
        · rw [show c = lb + n by omega]; exact_mod_cast h2
    · rintro (⟨d, h1, h2, h3, h4⟩ | ⟨h1, h2⟩)
      · by_cases hd : d < lb + n
        · exact .inl ⟨d, h1, hd, h3, h4⟩
        · have : d = lb + n := by omega
          subst this
          exact .inr ⟨fun c a b => h4 c a b, .inl h3⟩
      · refine .inr ⟨fun c a b => h1 c a (by omega), .inr ⟨?_, h2⟩⟩
        exact h1 (lb + n) (by omega) (by omega)

/-- Beyond the end every QF_UFLIA function is false, except that of the constant `true`. -/
theorem encQf_outside (F : α → Int → Prop) (e : Expr α) (t : LiaTerm α) (h : encQf e = some t)
    (ρ : IntEnv) (hk : ρ.len ≤ ρ.k) : t.holds F ρ ↔ e = .const true := by
  cases e <;> simp only [encQf, reduceCtorEq, Option.pure_def, Option.bind_eq_bind,
      Option.bind_eq_some_iff, Option.some.injEq] at h
  case const b => subst h; cases b <;> simp [LiaTerm.holds]
  case atom a =>
    subst h
    simp only [LiaTerm.holds, LiaTerm.holdsAll, IntTerm.eval, reduceCtorEq, iff_false]
    omega
  case neg e =>
    obtain ⟨u, _, rfl⟩ := h
    simp only [LiaTerm.holds, LiaTerm.holdsAll, IntTerm.eval, reduceCtorEq, iff_false]
    omega
  case and cs =>
    obtain ⟨u, _, rfl⟩ := h
    simp only [LiaTerm.holds, LiaTerm.holdsAll, IntTerm.eval, reduceCtorEq, iff_false]
    omega
  case or cs =>
    obtain ⟨u, _, rfl⟩ := h
    simp only [LiaTerm.holds, LiaTerm.holdsAll, IntTerm.eval, reduceCtorEq, iff_false]
    omega
  case imp l r | iff l r | equal l r =>
    obtain ⟨u, _, v, _, rfl⟩ := h
    simp only [LiaTerm.holds, LiaTerm.holdsAll, IntTerm.eval, reduceCtorEq, iff_false]
    omega
  case fut lb ub e | glob lb ub e =>
    obtain ⟨u, _, rfl⟩ := h
    simp only [LiaTerm.holds, LiaTerm.holdsAll, IntTerm.eval, reduceCtorEq, iff_false]
    omega
  case untl lb ub l r =>
    obtain ⟨u, _, v, _, rfl⟩ := h
    simp only [LiaTerm.holds, LiaTerm.holdsAll, IntTerm.eval, reduceCtorEq, iff_false]
    omega

/-- Before the end every QF_UFLIA function is the verdict on the trace that ends there. -/
theorem encQf_inside (F : α → Int → Prop) (e : Expr α) (t : LiaTerm α) (h : encQf e = some t)
    (hord : Nowhere isDisordered e) (n k : Nat) (hk : k < n) (i j : Int) :
    t.holds F { k := k, len := n, i := i, j := j } ↔ satCut n (liaTrace F) e k := by
  induction e using childInduction generalizing t k i j with
  | h e ih =>
    have sub : ∀ c ∈ e.children, ∀ t, encQf c = some t → ∀ m : Nat, m < n → ∀ i j,
        (t.holds F { k := m, len := n, i := i, j := j } ↔ satCut n (liaTrace F) c m) :=
      fun c hc t ht m hm i j => ih c hc t ht (hord.child hc) m hm i j
    clear ih
    have hroot := (nowhere_iff.1 hord).1
    have hk' : (k : Int) < n := by omega
    cases e <;> simp only [encQf, reduceCtorEq, Option.pure_def, Option.bind_eq_bind,
      Option.bind_eq_some_iff, Option.some.injEq] at h <;>
      simp only [children, List.mem_cons, List.not_mem_nil, or_false, forall_eq_or_imp,
        forall_eq] at sub
    case const b => subst h; simp [LiaTerm.holds, satCut]
    case atom a =>
      subst h
      simp [LiaTerm.holds, LiaTerm.holdsAll, IntTerm.eval, satCut, liaTrace]; omega
    case neg e =>
      obtain ⟨u, hu, rfl⟩ := h
      simp only [LiaTerm.holds, LiaTerm.holdsAll, IntTerm.eval, satCut, and_true]
      rw [sub u hu k hk]
      exact ⟨fun h => h.2, fun h => ⟨hk', h⟩⟩
    case and cs =>
      obtain ⟨ts, hts, rfl⟩ := h
      have hf := encQfL_forall₂ hts
      clear hts hord hroot
      simp only [LiaTerm.holds, LiaTerm.holdsAll, IntTerm.eval, satCut]
      rw [and_iff_right (show (n : Int) > k from hk')]
      induction hf with
      | nil => simp [LiaTerm.holdsAll, satCutAll]
      | cons h1 _ ih' =>
        simp only [List.map_cons, LiaTerm.holdsAll, satCutAll, LiaTerm.holds, IntTerm.eval]
        exact and_congr (sub _ (by simp) _ h1 k hk _ _)
          (ih' (fun c hc => sub c (List.mem_cons_of_mem _ hc)))
    case or cs =>
      obtain ⟨ts, hts, rfl⟩ := h
      have hf := encQfL_forall₂ hts
      clear hts hord hroot
      simp only [LiaTerm.holds, LiaTerm.holdsAll, IntTerm.eval, satCut, and_true]
      rw [and_iff_right (show (n : Int) > k from hk')]
      induction hf with
      | nil => simp [LiaTerm.holdsAny, satCutAny]
      | cons h1 _ ih' =>
        simp only [List.map_cons, LiaTerm.holdsAny, satCutAny, LiaTerm.holds, IntTerm.eval]
        exact or_congr (sub _ (by simp) _ h1 k hk _ _)
          (ih' (fun c hc => sub c (List.mem_cons_of_mem _ hc)))
    case imp l r | iff l r | equal l r =>
      obtain ⟨u, hu, v, hv, rfl⟩ := h
      simp only [LiaTerm.holds, LiaTerm.holdsAll, IntTerm.eval, satCut, and_true]
      rw [sub.1 u hu k hk, sub.2 v hv k hk]
      exact ⟨fun h => h.2, fun h => ⟨hk', h⟩⟩
    case fut lb ub e =>
      obtain ⟨u, hu, rfl⟩ := h
      simp only [isDisordered, Nat.not_lt] at hroot
      simp only [LiaTerm.holds, LiaTerm.holdsAll, holdsAny_iff, IntTerm.eval, satCut, and_true,
        List.mem_map, List.mem_range'_1]
      constructor
      · rintro ⟨h1, _, ⟨d, ⟨h2, h3⟩, rfl⟩, h4⟩
        simp only [LiaTerm.holds, IntTerm.eval] at h4
        by_cases hd : k + d < n
        · rw [show (k : Int) + d = ((k + d : Nat) : Int) by omega, sub u hu (k + d) hd] at h4
          exact ⟨k + d, by omega, by omega, hd, h4⟩
        · rw [encQf_outside F e u hu _ (by simp; omega)] at h4
          subst h4
          exact ⟨k + lb, by omega, by omega, by omega, by simp [satCut]⟩
      · rintro ⟨m, h1, h2, h3, h4⟩
        refine ⟨by omega, _, ⟨m - k, ⟨by omega, by omega⟩, rfl⟩, ?_⟩
        simp only [LiaTerm.holds, IntTerm.eval]
        rw [show (k : Int) + (m - k : Nat) = (m : Int) by omega, sub u hu m h3]
        exact h4
    case glob lb ub e =>
      obtain ⟨u, hu, rfl⟩ := h
      simp only [isDisordered, Nat.not_lt] at hroot
      simp only [LiaTerm.holds, LiaTerm.holdsAll, LiaTerm.holdsAny, holdsAll_iff, IntTerm.eval,
        satCut, and_true, or_false, List.mem_map, List.mem_range'_1]
      rw [and_iff_right (show (n : Int) > k from hk')]
      constructor
      · rintro (h1 | h1) m h2 h3 h4
        · omega
        · have := h1 _ ⟨m - k, ⟨by omega, by omega⟩, rfl⟩
          simp only [LiaTerm.holds, IntTerm.eval] at this
          rw [show (k : Int) + (m - k : Nat) = (m : Int) by omega, sub u hu m h4] at this
          exact this (by omega)
      · intro H
        right
        rintro _ ⟨d, ⟨h2, h3⟩, rfl⟩
        simp only [LiaTerm.holds, IntTerm.eval]
        intro hd
        rw [show (k : Int) + d = ((k + d : Nat) : Int) by omega, sub u hu (k + d) (by omega)]
        exact H (k + d) (by omega) (by omega) (by omega)
    case untl lb ub l r =>
      obtain ⟨u, hu, v, hv, rfl⟩ := h
      simp only [isDisordered, Nat.not_lt] at hroot
      simp only [LiaTerm.holds, LiaTerm.holdsAll, IntTerm.eval, satCut, and_true, qfUnroll_holds]
      have cast : ∀ d : Nat, (d : Int) + k = ((k + d : Nat) : Int) := fun d => by omega
      simp only [cast, fn]
      have key : ((∃ d : Nat, lb ≤ d ∧ d < lb + (ub - lb) ∧
            LiaTerm.holds F v { k := (k + d : Nat), len := n, i := 0, j := 0 } ∧
            ∀ c : Nat, lb ≤ c → c < d →
              LiaTerm.holds F u { k := (k + c : Nat), len := n, i := 0, j := 0 }) ∨
          ((∀ c : Nat, lb ≤ c → c < lb + (ub - lb) →
              LiaTerm.holds F u { k := (k + c : Nat), len := n, i := 0, j := 0 }) ∧
            LiaTerm.holds F v { k := (k + ub : Nat), len := n, i := 0, j := 0 })) ↔
          ∃ d : Nat, lb ≤ d ∧ d ≤ ub ∧
            LiaTerm.holds F v { k := (k + d : Nat), len := n, i := 0, j := 0 } ∧
            ∀ c : Nat, lb ≤ c → c < d →
              LiaTerm.holds F u { k := (k + c : Nat), len := n, i := 0, j := 0 } := by
        constructor
        · rintro (⟨d, h1, h2, h3, h4⟩ | ⟨h1, h2⟩)
          · exact ⟨d, h1, by omega, h3, h4⟩
          · exact ⟨ub, hroot, by omega, h2, fun c a b => h1 c a (by omega)⟩
        · rintro ⟨d, h1, h2, h3, h4⟩
          by_cases hd : d < ub
          · exact .inl ⟨d, h1, by omega, h3, h4⟩
          · have : d = ub := by omega
            subst this
            exact .inr ⟨fun c a b => h4 c a (by omega), h3⟩
      rw [key]
      constructor
      · rintro ⟨h0, d, h1, h2, h3, h4⟩
        by_cases hd : k + d < n
        · rw [sub.2 v hv _ hd] at h3
          refine ⟨k + d, by omega, by omega, hd, h3, fun m m1 m2 => ?_⟩
          have := h4 (m - k) (by omega) (by omega)
          rwa [show k + (m - k) = m by omega, sub.1 u hu m (by omega)] at this
        · rw [encQf_outside F r v hv _ (by simp; omega)] at h3
          subst h3
          exact ⟨k + lb, by omega, by omega, by omega, by simp [satCut], fun m _ _ => by omega⟩
      · rintro ⟨m, h1, h2, h3, h4, h5⟩
        refine ⟨by omega, m - k, by omega, by omega, ?_, fun c a b => ?_⟩
        · rw [show k + (m - k) = m by omega, sub.2 v hv m h3]; exact h4
        · rw [sub.1 u hu _ (by omega)]; exact h5 _ (by omega) (by omega)

/-! ### UFLIA -/

/-- The finite trace an interpretation stands for. -/
def liaFin (F : α → Int → Prop) (n : Nat) : FinTrace α := { len := n, val := liaTrace F }

/-- Every UFLIA function is the verdict of the documented finite-trace semantics, except below
F over `[0,0]` and `[1,1]`. -/
theorem encLia_fin (F : α → Int → Prop) (e : Expr α) (t : LiaTerm α) (h : encLia e = some t)
    (hs : Nowhere isShortFut e) (hp : Nowhere isPast e) (len : Int) (n : Nat) (hn : n = len.toNat)
    (k : Nat) (i j : Int) :
    t.holds F { k := k, len := len, i := i, j := j } ↔ satFin (liaFin F n) e k := by
  induction e using childInduction generalizing t k i j with
  | h e ih =>
    have sub : ∀ c ∈ e.children, ∀ t, encLia c = some t → ∀ m : Nat, ∀ i j,
        (t.holds F { k := m, len := len, i := i, j := j } ↔ satFin (liaFin F n) c m) :=
      fun c hc t ht m i j => ih c hc t ht (hs.child hc) (hp.child hc) m i j
    clear ih
    have hroot := (nowhere_iff.1 hs).1
    have gtl : ∀ m : Nat, len > m ↔ n > m := fun m => by omega
    have lel : ∀ m : Nat, len ≤ m ↔ n ≤ m := fun m => by omega
    cases e <;> simp only [encLia, reduceCtorEq, Option.pure_def, Option.bind_eq_bind,
      Option.bind_eq_some_iff, Option.some.injEq] at h <;>
      simp only [children, List.mem_cons, List.not_mem_nil, or_false, forall_eq_or_imp,
        forall_eq] at sub
    case const b => subst h; simp [LiaTerm.holds, satFin]
    case atom a =>
      subst h
      simp only [LiaTerm.holds, LiaTerm.holdsAll, IntTerm.eval, satFin, liaTrace, liaFin, and_true,
        gtl]
    case neg e =>
      obtain ⟨u, hu, rfl⟩ := h
      simp only [LiaTerm.holds, IntTerm.eval, satFin]
      rw [sub u hu k]
    case and cs =>
      obtain ⟨ts, hts, rfl⟩ := h
      have hf := encLiaL_forall₂ hts
      clear hts hs hp hroot
      simp only [LiaTerm.holds, satFin]
      induction hf with
      | nil => simp [LiaTerm.holdsAll, satFinAll]
      | cons h1 _ ih' =>
        simp only [List.map_cons, LiaTerm.holdsAll, satFinAll, LiaTerm.holds, IntTerm.eval]
        exact and_congr (sub _ (by simp) _ h1 k _ _)
          (ih' (fun c hc => sub c (List.mem_cons_of_mem _ hc)))
    case or cs =>
      obtain ⟨ts, hts, rfl⟩ := h
      have hf := encLiaL_forall₂ hts
      clear hts hs hp hroot
      simp only [LiaTerm.holds, satFin]
      induction hf with
      | nil => simp [LiaTerm.holdsAny, satFinAny]
      | cons h1 _ ih' =>
        simp only [List.map_cons, LiaTerm.holdsAny, satFinAny, LiaTerm.holds, IntTerm.eval]
        exact or_congr (sub _ (by simp) _ h1 k _ _)
          (ih' (fun c hc => sub c (List.mem_cons_of_mem _ hc)))
    case imp l r | iff l r | equal l r =>
      obtain ⟨u, hu, v, hv, rfl⟩ := h
      simp only [LiaTerm.holds, IntTerm.eval, satFin]
      rw [sub.1 u hu k, sub.2 v hv k]
    case fut lb ub e =>
      obtain ⟨u, hu, h⟩ := h
      rw [if_neg (fun hh => hroot (by simp [isShortFut]; omega)),
        if_neg (fun hh => hroot (by simp [isShortFut]; omega))] at h
      simp only [Option.some.injEq] at h
      subst h
      simp only [LiaTerm.holds, LiaTerm.holdsAll, IntTerm.eval, IntEnv.bind, satFin, and_true]
      rw [show (lb : Int) + k = ((k + lb : Nat) : Int) by omega, gtl]
      refine and_congr Iff.rfl ?_
      constructor
      · rintro ⟨v, h1, h2, h3⟩
        have hv : v = (v.toNat : Int) := by omega
        rw [hv, sub u hu v.toNat] at h3
        exact ⟨v.toNat, by omega, by omega, h3⟩
      · rintro ⟨m, h1, h2, h3⟩
        exact ⟨m, by omega, by omega, (sub u hu m _ _).2 h3⟩
    case glob lb ub e =>
      obtain ⟨u, hu, h⟩ := h
      split at h
      · rename_i h0
        obtain ⟨rfl, rfl⟩ := h0
        simp only [Option.some.injEq] at h
        subst h
        simp only [liaPoint, LiaTerm.holds, LiaTerm.holdsAny, IntTerm.eval, satFin, or_false]
        rw [sub u hu k, lel]
        refine or_congr Iff.rfl ⟨fun H m a b => ?_, fun H => H k (by omega) (by omega)⟩
        rw [show m = k by omega]; exact H
      split at h
      · rename_i h0 h1
        obtain ⟨rfl, rfl⟩ := h1
        simp only [Option.some.injEq] at h
        subst h
        simp only [liaPoint, LiaTerm.holds, LiaTerm.holdsAny, IntTerm.eval, satFin, or_false]
        rw [show ((1 : Nat) : Int) + k = ((k + 1 : Nat) : Int) by omega, sub u hu (k + 1), lel]
        refine or_congr Iff.rfl ⟨fun H m a b => ?_, fun H => H (k + 1) (by omega) (by omega)⟩
        rw [show m = k + 1 by omega]; exact H
      · simp only [Option.some.injEq] at h
        subst h
        simp only [LiaTerm.holds, LiaTerm.holdsAll, LiaTerm.holdsAny, IntTerm.eval, IntEnv.bind,
          satFin, and_true, or_false]
        rw [show (lb : Int) + k = ((k + lb : Nat) : Int) by omega, lel]
        refine or_congr Iff.rfl ?_
        constructor
        · intro H m a b
          exact (sub u hu m _ _).1 (H m ⟨by omega, by omega⟩)
        · rintro H v ⟨h1, h2⟩
          have hv : v = (v.toNat : Int) := by omega
          rw [hv]
          exact (sub u hu v.toNat _ _).2 (H v.toNat (by omega) (by omega))
    case untl lb ub l r =>
      obtain ⟨u, hu, v, hv, rfl⟩ := h
      simp only [LiaTerm.holds, LiaTerm.holdsAll, IntTerm.eval, IntEnv.bind, satFin, and_true]
      rw [show (lb : Int) + k = ((k + lb : Nat) : Int) by omega, gtl]
      refine and_congr Iff.rfl ?_
      constructor
      · rintro ⟨x, h1, h2, h3, h4⟩
        have hx : x = (x.toNat : Int) := by omega
        rw [hx, sub.2 v hv x.toNat] at h3
        refine ⟨x.toNat, by omega, by omega, h3, fun m m1 m2 _ => ?_⟩
        exact (sub.1 u hu m _ _).1 (h4 m ⟨by omega, by omega⟩)
      · rintro ⟨m, h1, h2, h3, h4⟩
        refine ⟨m, by omega, by omega, (sub.2 v hv m _ _).2 h3, ?_⟩
        rintro y ⟨y1, y2⟩
        have hy : y = (y.toNat : Int) := by omega
        rw [hy]
        exact (sub.1 u hu y.toNat _ _).2 (h4 y.toNat (by omega) (by omega) (by omega))
    case rel lb ub l r =>
      obtain ⟨u, hu, v, hv, rfl⟩ := h
      simp only [LiaTerm.holds, LiaTerm.holdsAll, LiaTerm.holdsAny, IntTerm.eval, IntEnv.bind,
        satFin, and_true, or_false]
      rw [show (lb : Int) + k = ((k + lb : Nat) : Int) by omega, lel]
      refine or_congr Iff.rfl ?_
      constructor
      · intro H m a b hn'
        rcases H m ⟨by omega, by omega⟩ with h1 | ⟨y, y1, y2, y3⟩
        · exact absurd ((sub.2 v hv m _ _).1 h1) hn'
        · have hy : y = (y.toNat : Int) := by omega
          rw [hy] at y3
          exact ⟨y.toNat, by omega, by omega, by omega, (sub.1 u hu y.toNat _ _).1 y3⟩
      · rintro H x ⟨h1, h2⟩
        have hx : x = (x.toNat : Int) := by omega
        by_cases hr : satFin (liaFin F n) r x.toNat
        · left; rw [hx]; exact (sub.2 v hv x.toNat _ _).2 hr
        · right
          obtain ⟨m, m1, m2, _, m4⟩ := H x.toNat (by omega) (by omega) hr
          exact ⟨m, by omega, by omega, (sub.1 u hu m _ _).2 m4⟩

theorem cplenL_eq {cs : List (Expr α)} {ls : List Int} (h : cplenL cs = some ls) :
    List.Forall₂ (fun c l => cplen c = some l) cs ls := by
  induction cs generalizing ls with
  | nil => simp only [cplenL, Option.some.injEq] at h; subst h; exact .nil
  | cons c cs ih =>
    simp only [cplenL, Option.pure_def, Option.bind_eq_bind, Option.bind_eq_some_iff,
      Option.some.injEq] at h
    obtain ⟨t, h1, ts', h2, rfl⟩ := h
    exact .cons h1 (ih h2)

theorem cplen_pos (e : Expr α) (c : Int) (h : cplen e = some c) : 1 ≤ c := by
  induction e using childInduction generalizing c with
  | h e ih =>
    cases e <;> simp only [cplen, reduceCtorEq, Option.pure_def, Option.bind_eq_bind,
      Option.bind_eq_some_iff, Option.some.injEq] at h <;>
      simp only [children, List.mem_cons, List.not_mem_nil, or_false, forall_eq_or_imp,
        forall_eq] at ih
    case const b | atom a => omega
    case neg e => exact ih c h
    case and cs | or cs =>
      obtain ⟨ls, hls, h⟩ := h
      have hf := cplenL_eq hls
      rcases hf with _ | ⟨h1, _ | ⟨h2, hf⟩⟩ <;> simp at h
      have := ih _ (by simp) _ h1
      have := ih _ (by simp) _ h2
      split at h <;> omega
    case imp l r | iff l r =>
      obtain ⟨a, ha, b, hb, h⟩ := h
      have := ih.1 _ ha
      have := ih.2 _ hb
      split at h <;> omega
    case equal l r => obtain ⟨a, ha, b, hb, h⟩ := h; omega
    case fut lb ub e | glob lb ub e =>
      obtain ⟨a, ha, h⟩ := h
      have := ih _ ha
      omega
    case untl lb ub l r | rel lb ub l r =>
      obtain ⟨a, ha, b, hb, h⟩ := h
      have := ih.1 _ ha
      have := ih.2 _ hb
      split at h <;> omega

/-- With a trace at least as long as the computation length, every UFLIA function is the
verdict, provided conjunctions and disjunctions have two operands. -/
theorem encLia_sat (F : α → Int → Prop) (e : Expr α) (t : LiaTerm α) (h : encLia e = some t)
    (ho : Nowhere isOddLength e) (hord : Nowhere isDisordered e) (c len : Int) (hc : cplen e = some c)
    (k : Nat) (hk : k + c ≤ len) (i j : Int) :
    t.holds F { k := k, len := len, i := i, j := j } ↔ sat (liaTrace F) e k := by
  induction e using childInduction generalizing t c k i j with
  | h e ih =>
    have sub : ∀ x ∈ e.children, ∀ t, encLia x = some t → ∀ c, cplen x = some c →
        ∀ m : Nat, (m : Int) + c ≤ len → ∀ i j,
        (t.holds F { k := m, len := len, i := i, j := j } ↔ sat (liaTrace F) x m) :=
      fun x hx t ht c hc m hm i j => ih x hx t ht (ho.child hx) (hord.child hx) c hc m hm i j
    clear ih
    have hroot := (nowhere_iff.1 ho).1
    have hrd := (nowhere_iff.1 hord).1
    have hkl : (k : Int) < len := by have := cplen_pos e c hc; omega
    cases e <;> simp only [encLia, reduceCtorEq, Option.pure_def, Option.bind_eq_bind,
      Option.bind_eq_some_iff, Option.some.injEq] at h <;>
      simp only [cplen, reduceCtorEq, Option.pure_def, Option.bind_eq_bind,
      Option.bind_eq_some_iff, Option.some.injEq] at hc <;>
      simp only [children, List.mem_cons, List.not_mem_nil, or_false, forall_eq_or_imp,
        forall_eq] at sub
    case const b => subst h; simp [LiaTerm.holds, sat]
    case atom a =>
      subst h
      simp only [LiaTerm.holds, LiaTerm.holdsAll, IntTerm.eval, sat, liaTrace, and_true]
      exact ⟨fun h => h.2, fun h => ⟨hkl, h⟩⟩
    case neg e =>
      obtain ⟨u, hu, rfl⟩ := h
      simp only [LiaTerm.holds, IntTerm.eval, sat]
      rw [sub u hu c hc k hk]
    case and cs =>
      obtain ⟨ts, hts, rfl⟩ := h
      obtain ⟨ls, hls, hc⟩ := hc
      simp only [isOddLength, Classical.not_not] at hroot
      have hf := encLiaL_forall₂ hts
      have hg := cplenL_eq hls
      rcases cs with _ | ⟨x, _ | ⟨y, _ | ⟨z, cs⟩⟩⟩ <;> simp at hroot
      rcases hf with _ | ⟨f1, _ | ⟨f2, _ | _⟩⟩
      rcases hg with _ | ⟨g1, _ | ⟨g2, _ | _⟩⟩
      simp only [Option.some.injEq] at hc
      simp only [List.map_cons, List.map_nil, LiaTerm.holds, LiaTerm.holdsAll, IntTerm.eval, sat,
        satAll, and_true]
      rw [sub x (by simp) _ f1 _ g1 k (by split at hc <;> omega),
        sub y (by simp) _ f2 _ g2 k (by split at hc <;> omega)]
    case or cs =>
      obtain ⟨ts, hts, rfl⟩ := h
      obtain ⟨ls, hls, hc⟩ := hc
      simp only [isOddLength, Classical.not_not] at hroot
      have hf := encLiaL_forall₂ hts
      have hg := cplenL_eq hls
      rcases cs with _ | ⟨x, _ | ⟨y, _ | ⟨z, cs⟩⟩⟩ <;> simp at hroot
      rcases hf with _ | ⟨f1, _ | ⟨f2, _ | _⟩⟩
      rcases hg with _ | ⟨g1, _ | ⟨g2, _ | _⟩⟩
      simp only [Option.some.injEq] at hc
      simp only [List.map_cons, List.map_nil, LiaTerm.holds, LiaTerm.holdsAny, IntTerm.eval, sat,
        satAny, or_false]
      rw [sub x (by simp) _ f1 _ g1 k (by split at hc <;> omega),
        sub y (by simp) _ f2 _ g2 k (by split at hc <;> omega)]
    case imp l r | iff l r =>
      obtain ⟨u, hu, v, hv, rfl⟩ := h
      obtain ⟨a, ha, b, hb, hc⟩ := hc
      simp only [LiaTerm.holds, IntTerm.eval, sat]
      rw [sub.1 u hu a ha k (by split at hc <;> omega), sub.2 v hv b hb k (by split at hc <;> omega)]
    case equal l r => exact absurd trivial hroot
    case fut lb ub e =>
      obtain ⟨u, hu, h⟩ := h
      obtain ⟨a, ha, hc⟩ := hc
      have hpos := cplen_pos e a ha
      simp only [isDisordered, Nat.not_lt] at hrd
      split at h
      · rename_i h0
        obtain ⟨rfl, rfl⟩ := h0
        simp only [Option.some.injEq] at h
        subst h
        simp only [liaPoint, LiaTerm.holds, LiaTerm.holdsAny, IntTerm.eval, sat, or_false]
        rw [sub u hu a ha k (by omega)]
        constructor
        · rintro (H | H)
          · omega
          · exact ⟨k, by omega, by omega, H⟩
        · rintro ⟨m, h1, h2, H⟩
          rw [show m = k by omega] at H; exact .inr H
      split at h
      · rename_i h0 h1
        obtain ⟨rfl, rfl⟩ := h1
        simp only [Option.some.injEq] at h
        subst h
        simp only [liaPoint, LiaTerm.holds, LiaTerm.holdsAny, IntTerm.eval, sat, or_false]
        rw [show ((1 : Nat) : Int) + k = ((k + 1 : Nat) : Int) by omega,
          sub u hu a ha (k + 1) (by omega)]
        constructor
        · rintro (H | H)
          · omega
          · exact ⟨k + 1, by omega, by omega, H⟩
        · rintro ⟨m, h1, h2, H⟩
          rw [show m = k + 1 by omega] at H; exact .inr H
      · simp only [Option.some.injEq] at h
        subst h
        simp only [LiaTerm.holds, LiaTerm.holdsAll, IntTerm.eval, IntEnv.bind, sat, and_true]
        constructor
        · rintro ⟨_, v, h1, h2, h3⟩
          have hv : v = (v.toNat : Int) := by omega
          rw [hv, sub u hu a ha v.toNat (by omega)] at h3
          exact ⟨v.toNat, by omega, by omega, h3⟩
        · rintro ⟨m, h1, h2, h3⟩
          exact ⟨by omega, m, by omega, by omega, (sub u hu a ha m (by omega) _ _).2 h3⟩
    case glob lb ub e =>
      obtain ⟨u, hu, h⟩ := h
      obtain ⟨a, ha, hc⟩ := hc
      have hpos := cplen_pos e a ha
      simp only [isDisordered, Nat.not_lt] at hrd
      split at h
      · rename_i h0
        obtain ⟨rfl, rfl⟩ := h0
        simp only [Option.some.injEq] at h
        subst h
        simp only [liaPoint, LiaTerm.holds, LiaTerm.holdsAny, IntTerm.eval, sat, or_false]
        rw [sub u hu a ha k (by omega)]
        constructor
        · rintro (H | H) m h1 h2
          · omega
          · rw [show m = k by omega]; exact H
        · exact fun H => .inr (H k (by omega) (by omega))
      split at h
      · rename_i h0 h1
        obtain ⟨rfl, rfl⟩ := h1
        simp only [Option.some.injEq] at h
        subst h
        simp only [liaPoint, LiaTerm.holds, LiaTerm.holdsAny, IntTerm.eval, sat, or_false]
        rw [show ((1 : Nat) : Int) + k = ((k + 1 : Nat) : Int) by omega,
          sub u hu a ha (k + 1) (by omega)]
        constructor
        · rintro (H | H) m h1 h2
          · omega
          · rw [show m = k + 1 by omega]; exact H
        · exact fun H => .inr (H (k + 1) (by omega) (by omega))
      · simp only [Option.some.injEq] at h
        subst h
        simp only [LiaTerm.holds, LiaTerm.holdsAll, LiaTerm.holdsAny, IntTerm.eval, IntEnv.bind,
          sat, and_true, or_false]
        constructor
        · rintro (H | H) m h1 h2
          · omega
          · exact (sub u hu a ha m (by omega) _ _).1 (H m ⟨by omega, by omega⟩)
        · intro H
          right
          rintro v ⟨h1, h2⟩
          have hv : v = (v.toNat : Int) := by omega
          rw [hv]
          exact (sub u hu a ha v.toNat (by omega) _ _).2 (H v.toNat (by omega) (by omega))
    case untl lb ub l r =>
      obtain ⟨u, hu, v, hv, rfl⟩ := h
      obtain ⟨a, ha, b, hb, hc⟩ := hc
      have hpa := cplen_pos l a ha
      have hpb := cplen_pos r b hb
      simp only [isDisordered, Nat.not_lt] at hrd
      have hA : a - 1 + ub ≤ c ∧ b + ub ≤ c := by split at hc <;> omega
      simp only [LiaTerm.holds, LiaTerm.holdsAll, IntTerm.eval, IntEnv.bind, sat, and_true]
      constructor
      · rintro ⟨_, x, h1, h2, h3, h4⟩
        have hx : x = (x.toNat : Int) := by omega
        rw [hx, sub.2 v hv b hb x.toNat (by omega)] at h3
        refine ⟨x.toNat, by omega, by omega, h3, fun m m1 m2 => ?_⟩
        exact (sub.1 u hu a ha m (by omega) _ _).1 (h4 m ⟨by omega, by omega⟩)
      · rintro ⟨m, h1, h2, h3, h4⟩
        refine ⟨by omega, m, by omega, by omega, (sub.2 v hv b hb m (by omega) _ _).2 h3, ?_⟩
        rintro y ⟨y1, y2⟩
        have hy : y = (y.toNat : Int) := by omega
        rw [hy]
        exact (sub.1 u hu a ha y.toNat (by omega) _ _).2 (h4 y.toNat (by omega) (by omega))
    case rel lb ub l r =>
      obtain ⟨u, hu, v, hv, rfl⟩ := h
      obtain ⟨a, ha, b, hb, hc⟩ := hc
      have hpa := cplen_pos l a ha
      have hpb := cplen_pos r b hb
      simp only [isDisordered, Nat.not_lt] at hrd
      have hA : a - 1 + ub ≤ c ∧ b + ub ≤ c := by split at hc <;> omega
      simp only [LiaTerm.holds, LiaTerm.holdsAll, LiaTerm.holdsAny, IntTerm.eval, IntEnv.bind,
        sat, and_true, or_false]
      constructor
      · rintro (H | H) m h1 h2 hn'
        · omega
        · rcases H m ⟨by omega, by omega⟩ with h1 | ⟨y, y1, y2, y3⟩
          · exact absurd ((sub.2 v hv b hb m (by omega) _ _).1 h1) hn'
          · have hy : y = (y.toNat : Int) := by omega
            rw [hy] at y3
            exact ⟨y.toNat, by omega, by omega, (sub.1 u hu a ha y.toNat (by omega) _ _).1 y3⟩
      · intro H
        right
        rintro x ⟨h1, h2⟩
        have hx : x = (x.toNat : Int) := by omega
        by_cases hr : sat (liaTrace F) r x.toNat
        · left; rw [hx]; exact (sub.2 v hv b hb x.toNat (by omega) _ _).2 hr
        · right
          obtain ⟨m, m1, m2, m4⟩ := H x.toNat (by omega) (by omega) hr
          exact ⟨m, by omega, by omega, (sub.1 u hu a ha m (by omega) _ _).2 m4⟩

end R2U2
