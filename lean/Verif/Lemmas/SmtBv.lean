import Verif.Lemmas.SmtCut
import Verif.Props.Unroll
/-
The bit-vector encoding computes the verdicts of the formula: bit `w-1-i` of a term is the
verdict at time `i` of the trace that ends after `w` steps.
-/
namespace R2U2
open Expr Unroll Smt
variable {α : Type} {w : Nat}

/-- The bit of a term that stands for time `i`. -/
def bitAt (env : α → BitVec w) (t : BvTerm α) (i : Nat) : Prop :=
  (t.eval w env).getLsbD (w - 1 - i) = true

/-- The trace a value of the declared constants stands for. -/
def bvTrace (env : α → BitVec w) : Trace α := fun j a => (env a).getLsbD (w - 1 - j) = true

theorem toNat_toBv (env : α → BitVec w) (v : Nat) :
    ((toBv w v).eval w env).toNat = min v (2 ^ w - 1) := by
  simp only [toBv, BvTerm.eval, BitVec.toNat_ofNat]
  apply Nat.mod_eq_of_lt
  have : 0 < 2 ^ w := Nat.two_pow_pos w
  omega

theorem bitAt_shl (env : α → BitVec w) (t : BvTerm α) (amt i : Nat) (hi : i < w) :
    bitAt env (.bvshl t (toBv w amt)) i ↔ i + amt < w ∧ bitAt env t (i + amt) := by
  unfold bitAt
  rw [BvTerm.eval, toNat_toBv, BitVec.getLsbD_shiftLeft]
  have h2 : w < 2 ^ w := Nat.lt_two_pow_self
  by_cases h : i + amt < w
  · rw [Nat.min_eq_left (by omega)]
    have e1 : w - 1 - i - amt = w - 1 - (i + amt) := by omega
    rw [e1]
    simp [h, show w - 1 - i < w by omega, show ¬ (w - 1 - i < amt) by omega]
  · have : w - 1 - i < min amt (2 ^ w - 1) := by omega
    simp [h, this]

theorem bitAt_mask (env : α → BitVec w) (amt i : Nat) (hi : i < w) :
    bitAt env (toBv w (2 ^ amt - 1)) i ↔ w ≤ i + amt := by
  unfold bitAt
  simp only [toBv, BvTerm.eval]
  rw [BitVec.getLsbD_ofNat]
  have hlt : w - 1 - i < w := by omega
  by_cases h : amt ≤ w
  · have : 2 ^ amt ≤ 2 ^ w := Nat.pow_le_pow_right (by omega) h
    rw [Nat.min_eq_left (by omega), Nat.testBit_two_pow_sub_one]
    simp; omega
  · have : 2 ^ w ≤ 2 ^ amt := Nat.pow_le_pow_right (by omega) (by omega)
    rw [Nat.min_eq_right (by omega), Nat.testBit_two_pow_sub_one]
    simp; omega

theorem bitAt_and (env : α → BitVec w) (t u : BvTerm α) (i : Nat) :
    bitAt env (.bvand t u) i ↔ bitAt env t i ∧ bitAt env u i := by
  simp [bitAt, BvTerm.eval]

theorem bitAt_or (env : α → BitVec w) (t u : BvTerm α) (i : Nat) :
    bitAt env (.bvor t u) i ↔ bitAt env t i ∨ bitAt env u i := by
  simp [bitAt, BvTerm.eval]

theorem bitAt_not (env : α → BitVec w) (t : BvTerm α) (i : Nat) (hi : i < w) :
    bitAt env (.bvnot t) i ↔ ¬ bitAt env t i := by
  simp [bitAt, BvTerm.eval, show w - 1 - i < w by omega]

theorem bitAt_xnor (env : α → BitVec w) (t u : BvTerm α) (i : Nat) (hi : i < w) :
    bitAt env (.bvxnor t u) i ↔ (bitAt env t i ↔ bitAt env u i) := by
  simp only [bitAt, BvTerm.eval, BitVec.getLsbD_not, BitVec.getLsbD_xor]
  rw [decide_eq_true (show w - 1 - i < w by omega)]
  cases (BvTerm.eval w env t).getLsbD (w - 1 - i) <;>
    cases (BvTerm.eval w env u).getLsbD (w - 1 - i) <;> simp

theorem bitAt_ones (env : α → BitVec w) (i : Nat) (hi : i < w) : bitAt env (ones w) i := by
  simp only [bitAt, ones, BvTerm.eval, BitVec.getLsbD_ofNat, Nat.testBit_two_pow_sub_one]
  simp; omega

theorem bitAt_zeros (env : α → BitVec w) (i : Nat) : ¬ bitAt env zeros i := by
  simp [bitAt, zeros, BvTerm.eval]

/-! ### The doubling loops -/

theorem globLoop_bit (env : α → BitVec w) (start : BvTerm α) (m i : Nat) (hi : i < w) :
    bitAt env ((List.range m).foldl (fun cur j =>
      .bvand (.bvor (.bvshl cur (toBv w (2 ^ j))) (toBv w (2 ^ 2 ^ j - 1))) cur) start) i ↔
      ∀ d, d < 2 ^ m → i + d < w → bitAt env start (i + d) := by
  induction m generalizing i with
  | zero =>
    simp only [List.range_zero, List.foldl_nil, Nat.pow_zero]
    exact ⟨fun H d hd _ => by rw [show d = 0 by omega]; exact H, fun H => H 0 (by omega) hi⟩
  | succ m ih =>
    rw [List.range_succ, List.foldl_append, List.foldl_cons, List.foldl_nil, bitAt_and, bitAt_or,
      bitAt_shl _ _ _ _ hi, bitAt_mask _ _ _ hi, ih i hi]
    have hp : 2 ^ (m + 1) = 2 ^ m + 2 ^ m := by rw [Nat.pow_succ]; omega
    constructor
    · rintro ⟨h1, h2⟩ d hd hd'
      by_cases hdm : d < 2 ^ m
      · exact h2 d hdm hd'
      · rcases h1 with ⟨h3, h4⟩ | h3
        · have := (ih _ h3).1 h4 (d - 2 ^ m) (by omega) (by omega)
          rwa [show i + 2 ^ m + (d - 2 ^ m) = i + d by omega] at this
        · omega
    · intro H
      refine ⟨?_, fun d hd hd' => H d (by omega) hd'⟩
      by_cases h3 : i + 2 ^ m < w
      · exact .inl ⟨h3, (ih _ h3).2 fun d hd hd' => by
          have := H (2 ^ m + d) (by omega) (by omega)
          rwa [← Nat.add_assoc] at this⟩
      · exact .inr (by omega)

theorem futLoop_bit (env : α → BitVec w) (start : BvTerm α) (m i : Nat) (hi : i < w) :
    bitAt env ((List.range m).foldl (fun cur j =>
      .bvor (.bvshl cur (toBv w (2 ^ j))) cur) start) i ↔
      ∃ d, d < 2 ^ m ∧ i + d < w ∧ bitAt env start (i + d) := by
  induction m generalizing i with
  | zero =>
    simp only [List.range_zero, List.foldl_nil, Nat.pow_zero]
    exact ⟨fun H => ⟨0, by omega, hi, H⟩, fun ⟨d, hd, _, H⟩ => by
      rw [show d = 0 by omega] at H; exact H⟩
  | succ m ih =>
    rw [List.range_succ, List.foldl_append, List.foldl_cons, List.foldl_nil, bitAt_or,
      bitAt_shl _ _ _ _ hi, ih i hi]
    have hp : 2 ^ (m + 1) = 2 ^ m + 2 ^ m := by rw [Nat.pow_succ]; omega
    constructor
    · rintro (⟨h1, h2⟩ | ⟨d, h1, h2, h3⟩)
      · obtain ⟨d, h3, h4, h5⟩ := (ih _ h1).1 h2
        exact ⟨2 ^ m + d, by omega, by omega, by rwa [← Nat.add_assoc]⟩
      · exact ⟨d, by omega, h2, h3⟩
    · rintro ⟨d, h1, h2, h3⟩
      by_cases hdm : d < 2 ^ m
      · exact .inr ⟨d, hdm, h2, h3⟩
      · refine .inl ⟨by omega, (ih _ (by omega)).2 ⟨d - 2 ^ m, by omega, by omega, ?_⟩⟩
        rwa [show i + 2 ^ m + (d - 2 ^ m) = i + d by omega]

theorem untlLoop_bit (env : α → BitVec w) (s : BvTerm α × BvTerm α) (m : Nat) :
    ∀ i, i < w →
    (bitAt env ((List.range m).foldl (fun (L, R) k =>
        (BvTerm.bvand (.bvshl L (toBv w (2 ^ k))) L,
         BvTerm.bvor (.bvand (.bvshl R (toBv w (2 ^ k))) L) R)) s).1 i ↔
      ∀ d, d < 2 ^ m → i + d < w ∧ bitAt env s.1 (i + d)) ∧
    (bitAt env ((List.range m).foldl (fun (L, R) k =>
        (BvTerm.bvand (.bvshl L (toBv w (2 ^ k))) L,
         BvTerm.bvor (.bvand (.bvshl R (toBv w (2 ^ k))) L) R)) s).2 i ↔
      ∃ d, d < 2 ^ m ∧ i + d < w ∧ bitAt env s.2 (i + d) ∧ ∀ c, c < d → bitAt env s.1 (i + c)) := by
  induction m with
  | zero =>
    intro i hi
    simp only [List.range_zero, List.foldl_nil, Nat.pow_zero]
    refine ⟨⟨fun H d hd => ?_, fun H => (H 0 (by omega)).2⟩, ⟨fun H => ⟨0, by omega, hi, H, by simp⟩, ?_⟩⟩
    · rw [show d = 0 by omega]; exact ⟨hi, H⟩
    · rintro ⟨d, hd, _, H, _⟩
      rw [show d = 0 by omega] at H; exact H
  | succ m ih =>
    intro i hi
    rw [List.range_succ, List.foldl_append, List.foldl_cons, List.foldl_nil]
    have hp : 2 ^ (m + 1) = 2 ^ m + 2 ^ m := by rw [Nat.pow_succ]; omega
    simp only [bitAt_and, bitAt_or, bitAt_shl _ _ _ _ hi]
    rw [(ih i hi).1, (ih i hi).2]
    refine ⟨⟨?_, ?_⟩, ⟨?_, ?_⟩⟩
    · rintro ⟨⟨h1, h2⟩, h3⟩ d hd
      by_cases hdm : d < 2 ^ m
      · exact h3 d hdm
      · have := ((ih _ h1).1).1 h2 (d - 2 ^ m) (by omega)
        rwa [show i + 2 ^ m + (d - 2 ^ m) = i + d by omega] at this
    · intro H
      have h1 : i + 2 ^ m < w := (H (2 ^ m) (by have := Nat.two_pow_pos m; omega)).1
      refine ⟨⟨h1, ((ih _ h1).1).2 fun d hd => ?_⟩, fun d hd => H d (by omega)⟩
      have := H (2 ^ m + d) (by omega)
      rwa [← Nat.add_assoc] at this
    · rintro (⟨⟨h1, h2⟩, h3⟩ | ⟨d, h1, h2, h3, h4⟩)
      · obtain ⟨d, d1, d2, d3, d4⟩ := ((ih _ h1).2).1 h2
        refine ⟨2 ^ m + d, by omega, by omega, by rwa [← Nat.add_assoc], fun c hc => ?_⟩
        by_cases hcm : c < 2 ^ m
        · exact (h3 c hcm).2
        · have := d4 (c - 2 ^ m) (by omega)
          rwa [show i + 2 ^ m + (c - 2 ^ m) = i + c by omega] at this
      · exact ⟨d, by omega, h2, h3, h4⟩
    · rintro ⟨d, h1, h2, h3, h4⟩
      by_cases hdm : d < 2 ^ m
      · exact .inr ⟨d, hdm, h2, h3, h4⟩
      · refine .inl ⟨⟨by omega, ((ih _ (by omega)).2).2 ⟨d - 2 ^ m, by omega, by omega, ?_, ?_⟩⟩,
          fun c hc => ⟨by omega, h4 c (by omega)⟩⟩
        · rwa [show i + 2 ^ m + (d - 2 ^ m) = i + d by omega]
        · intro c hc
          have := h4 (2 ^ m + c) (by omega)
          rwa [← Nat.add_assoc] at this

/-! ### The operators -/

/-- The intervals decomposition leaves. -/
def GoodInterval (lb ub : Nat) : Prop := lb = ub ∨ (lb = 0 ∧ ∃ n, ub = 2 ^ n - 1)

theorem log2_pow (n : Nat) : Nat.log2 (2 ^ n - 1 + 1) = n := by
  have : 0 < 2 ^ n := Nat.two_pow_pos n
  rw [show 2 ^ n - 1 + 1 = 2 ^ n by omega, Nat.log2_two_pow]

theorem bvGlob_bit (env : α → BitVec w) (lb ub : Nat) (hg : GoodInterval lb ub) (c : BvTerm α)
    (i : Nat) (hi : i < w) :
    bitAt env (bvGlob w lb ub c) i ↔
      ∀ j, i + lb ≤ j → j ≤ i + ub → j < w → bitAt env c j := by
  unfold bvGlob
  by_cases h0 : ub = 0
  · have : lb = 0 := by rcases hg with h | h <;> omega
    subst this; subst h0
    simp only [if_true]
    exact ⟨fun H j a b _ => (by omega : i = j) ▸ H, fun H => H i (by omega) (by omega) hi⟩
  rw [if_neg h0]
  rcases hg with h | ⟨h, n, hn⟩
  · subst h
    have hl : lb > 0 := by omega
    simp only [if_pos hl, Nat.sub_self, Nat.zero_add]
    rw [show Nat.log2 1 = 0 by simp [Nat.log2_def]]
    simp only [List.range_zero, List.foldl_nil]
    rw [bitAt_or, bitAt_shl _ _ _ _ hi, bitAt_mask _ _ _ hi]
    constructor
    · rintro (⟨_, H⟩ | H) j a b c'
      · rw [show j = i + lb by omega]; exact H
      · omega
    · intro H
      by_cases hb : i + lb < w
      · exact .inl ⟨hb, H _ (by omega) (by omega) hb⟩
      · exact .inr (by omega)
  · subst h
    simp only [Nat.lt_irrefl, if_false, gt_iff_lt]
    rw [globLoop_bit _ _ _ _ hi, hn, log2_pow]
    have : 0 < 2 ^ n := Nat.two_pow_pos n
    constructor
    · intro H j a b c'
      have := H (j - i) (by omega) (by omega)
      rwa [show i + (j - i) = j by omega] at this
    · intro H d hd hd'
      exact H (i + d) (by omega) (by omega) hd'

theorem bvFut_bit (env : α → BitVec w) (lb ub : Nat) (hg : GoodInterval lb ub) (c : BvTerm α)
    (i : Nat) (hi : i < w) :
    bitAt env (bvFut w lb ub c) i ↔
      ∃ j, i + lb ≤ j ∧ j ≤ i + ub ∧ j < w ∧ bitAt env c j := by
  unfold bvFut
  by_cases h0 : ub = 0
  · have : lb = 0 := by rcases hg with h | h <;> omega
    subst this; subst h0
    simp only [if_true]
    exact ⟨fun H => ⟨i, by omega, by omega, hi, H⟩, fun ⟨j, a, b, _, H⟩ => (by omega : i = j) ▸ H⟩
  rw [if_neg h0]
  rcases hg with h | ⟨h, n, hn⟩
  · subst h
    have hl : lb > 0 := by omega
    simp only [if_pos hl, Nat.sub_self, Nat.zero_add]
    rw [show Nat.log2 1 = 0 by simp [Nat.log2_def]]
    simp only [List.range_zero, List.foldl_nil]
    rw [bitAt_shl _ _ _ _ hi]
    exact ⟨fun ⟨h1, h2⟩ => ⟨i + lb, by omega, by omega, h1, h2⟩,
      fun ⟨j, a, b, h1, h2⟩ => by rw [show j = i + lb by omega] at h1 h2; exact ⟨h1, h2⟩⟩
  · subst h
    simp only [Nat.lt_irrefl, if_false, gt_iff_lt]
    rw [futLoop_bit _ _ _ _ hi, hn, log2_pow]
    have : 0 < 2 ^ n := Nat.two_pow_pos n
    constructor
    · rintro ⟨d, h1, h2, h3⟩
      exact ⟨i + d, by omega, by omega, h2, h3⟩
    · rintro ⟨j, a, b, h1, h2⟩
      exact ⟨j - i, by omega, by omega, by rwa [show i + (j - i) = j by omega]⟩

theorem bvUntl_bit (env : α → BitVec w) (lb ub : Nat) (hg : GoodInterval lb ub) (l r : BvTerm α)
    (i : Nat) (hi : i < w) :
    bitAt env (bvUntl w lb ub l r) i ↔
      ∃ j, i + lb ≤ j ∧ j ≤ i + ub ∧ j < w ∧ bitAt env r j ∧
        ∀ k, i + lb ≤ k → k < j → bitAt env l k := by
  unfold bvUntl
  by_cases h0 : ub = 0
  · have : lb = 0 := by rcases hg with h | h <;> omega
    subst this; subst h0
    simp only [if_true]
    exact ⟨fun H => ⟨i, by omega, by omega, hi, H, fun k _ _ => by omega⟩,
      fun ⟨j, a, b, _, H, _⟩ => (by omega : i = j) ▸ H⟩
  rw [if_neg h0]
  rcases hg with h | ⟨h, n, hn⟩
  · subst h
    have hl : lb > 0 := by omega
    simp only [if_pos hl, Nat.sub_self, Nat.zero_add]
    rw [show Nat.log2 1 = 0 by simp [Nat.log2_def]]
    simp only [List.range_zero, List.foldl_nil]
    rw [bitAt_shl _ _ _ _ hi]
    exact ⟨fun ⟨h1, h2⟩ => ⟨i + lb, by omega, by omega, h1, h2, fun k _ _ => by omega⟩,
      fun ⟨j, a, b, h1, h2, _⟩ => by rw [show j = i + lb by omega] at h1 h2; exact ⟨h1, h2⟩⟩
  · subst h
    simp only [Nat.lt_irrefl, if_false, gt_iff_lt]
    rw [((untlLoop_bit env (l, r) _) i hi).2, hn, log2_pow]
    have : 0 < 2 ^ n := Nat.two_pow_pos n
    constructor
    · rintro ⟨d, h1, h2, h3, h4⟩
      refine ⟨i + d, by omega, by omega, h2, h3, fun k a b => ?_⟩
      have := h4 (k - i) (by omega)
      rwa [show i + (k - i) = k by omega] at this
    · rintro ⟨j, a, b, h1, h2, h3⟩
      exact ⟨j - i, by omega, by omega, by rwa [show i + (j - i) = j by omega],
        fun c hc => h3 _ (by omega) (by omega)⟩

theorem foldl_and_bit (env : α → BitVec w) (ts : List (BvTerm α)) (t : BvTerm α) (i : Nat) :
    bitAt env (ts.foldl .bvand t) i ↔ bitAt env t i ∧ ∀ u ∈ ts, bitAt env u i := by
  induction ts generalizing t with
  | nil => simp
  | cons u ts ih => simp only [List.foldl_cons, ih, bitAt_and, List.mem_cons, forall_eq_or_imp, and_assoc]

theorem foldl_or_bit (env : α → BitVec w) (ts : List (BvTerm α)) (t : BvTerm α) (i : Nat) :
    bitAt env (ts.foldl .bvor t) i ↔ bitAt env t i ∨ ∃ u ∈ ts, bitAt env u i := by
  induction ts generalizing t with
  | nil => simp
  | cons u ts ih => simp only [List.foldl_cons, ih, bitAt_or, List.mem_cons, exists_eq_or_imp, or_assoc]

theorem encBvL_forall₂ {cs : List (Expr α)} {ts : List (BvTerm α)} (h : encBvL w cs = some ts) :
    List.Forall₂ (fun c t => encBv w c = some t) cs ts := by
  induction cs generalizing ts with
  | nil => simp only [encBvL, Option.some.injEq] at h; subst h; exact .nil
  | cons c cs ih =>
    simp only [encBvL, Option.pure_def, Option.bind_eq_bind, Option.bind_eq_some_iff,
      Option.some.injEq] at h
    obtain ⟨t, h1, ts', h2, rfl⟩ := h
    exact .cons h1 (ih h2)

theorem goodInterval_of {lb ub : Nat} {e : Expr α} (h : ¬ isUndecomposed (.fut lb ub e)) :
    GoodInterval lb ub := by
  simp only [isUndecomposed, Classical.not_not] at h
  exact h

theorem foldOp_and_bit {env : α → BitVec w} {ts : List (BvTerm α)} {t : BvTerm α}
    (h : foldOp .bvand ts = some t) (i : Nat) : bitAt env t i ↔ ∀ u ∈ ts, bitAt env u i := by
  rcases ts with _ | ⟨a, _ | ⟨b, ts⟩⟩ <;> simp only [foldOp, reduceCtorEq, Option.some.injEq] at h
  subst h
  rw [foldl_and_bit, bitAt_and]
  simp only [List.mem_cons, forall_eq_or_imp, and_assoc]

theorem foldOp_or_bit {env : α → BitVec w} {ts : List (BvTerm α)} {t : BvTerm α}
    (h : foldOp .bvor ts = some t) (i : Nat) : bitAt env t i ↔ ∃ u ∈ ts, bitAt env u i := by
  rcases ts with _ | ⟨a, _ | ⟨b, ts⟩⟩ <;> simp only [foldOp, reduceCtorEq, Option.some.injEq] at h
  subst h
  rw [foldl_or_bit, bitAt_or]
  simp only [List.mem_cons, exists_eq_or_imp, or_assoc]

/-- Bit `w-1-i` of the encoding is the verdict at time `i`. -/
theorem encBv_bit (e : Expr α) (he : Nowhere isUndecomposed e) (t : BvTerm α)
    (h : encBv w e = some t) (env : α → BitVec w) (i : Nat) (hi : i < w) :
    bitAt env t i ↔ satCut w (bvTrace env) e i := by
  induction e using childInduction generalizing i t with
  | h e ih =>
    have sub : ∀ c ∈ e.children, ∀ t, encBv w c = some t → ∀ j, j < w →
        (bitAt env t j ↔ satCut w (bvTrace env) c j) :=
      fun c hc t ht j hj => ih c hc (he.child hc) t ht j hj
    clear ih
    have hroot := (nowhere_iff.1 he).1
    have list : ∀ cs ts, List.Forall₂ (fun c t => encBv w c = some t) cs ts →
        (∀ c ∈ cs, c ∈ e.children) →
        List.Forall₂ (fun c t => bitAt env t i ↔ satCut w (bvTrace env) c i) cs ts := by
      intro cs ts hf
      induction hf with
      | nil => intro _; exact .nil
      | cons h1 _ ih' =>
        intro hc
        exact .cons (sub _ (hc _ (by simp)) _ h1 i hi) (ih' fun c hc' => hc c (by simp [hc']))
    cases e <;> (try simp only [encBv, reduceCtorEq, Option.pure_def, Option.bind_eq_bind,
      Option.bind_eq_some_iff, Option.some.injEq] at h) <;>
      simp only [children, List.mem_cons, List.not_mem_nil, or_false, forall_eq_or_imp,
        forall_eq] at sub
    case const b =>
      cases b <;> simp only [encBv, Option.some.injEq] at h <;> subst h
      · simp [satCut, bitAt_zeros]
      · simp [satCut, bitAt_ones env i hi]
    case atom a => subst h; simp [satCut, bitAt, bvTrace, BvTerm.eval]
    case neg e =>
      obtain ⟨u, hu, rfl⟩ := h
      rw [bitAt_not _ _ _ hi, sub u hu i hi]; simp only [satCut]
    case and cs =>
      obtain ⟨ts, hts, h⟩ := h
      have hf := list cs ts (encBvL_forall₂ hts) (by simp [children])
      rw [foldOp_and_bit h, satCut, satCutAll_iff]
      clear h hts list sub he hroot
      induction hf with
      | nil => simp
      | cons h1 _ ih' => simp only [List.mem_cons, forall_eq_or_imp, h1, ih']
    case or cs =>
      obtain ⟨ts, hts, h⟩ := h
      have hf := list cs ts (encBvL_forall₂ hts) (by simp [children])
      rw [foldOp_or_bit h, satCut, satCutAny_iff]
      clear h hts list sub he hroot
      induction hf with
      | nil => simp
      | cons h1 _ ih' => simp only [List.mem_cons, exists_eq_or_imp, h1, ih']
    case iff l r =>
      obtain ⟨u, hu, v, hv, rfl⟩ := h
      rw [bitAt_xnor _ _ _ _ hi, sub.1 u hu i hi, sub.2 v hv i hi]; simp only [satCut]
    case fut lb ub e =>
      obtain ⟨u, hu, rfl⟩ := h
      simp only [isUndecomposed, Classical.not_not] at hroot
      rw [bvFut_bit env lb ub hroot u i hi]
      simp only [satCut]
      exact ⟨fun ⟨j, a, b, c, H⟩ => ⟨j, a, b, c, (sub u hu j c).1 H⟩,
        fun ⟨j, a, b, c, H⟩ => ⟨j, a, b, c, (sub u hu j c).2 H⟩⟩
    case glob lb ub e =>
      obtain ⟨u, hu, rfl⟩ := h
      simp only [isUndecomposed, Classical.not_not] at hroot
      rw [bvGlob_bit env lb ub hroot u i hi]
      simp only [satCut]
      exact ⟨fun H j a b c => (sub u hu j c).1 (H j a b c),
        fun H j a b c => (sub u hu j c).2 (H j a b c)⟩
    case untl lb ub l r =>
      obtain ⟨u, hu, v, hv, rfl⟩ := h
      simp only [isUndecomposed, Classical.not_not] at hroot
      rw [bvUntl_bit env lb ub hroot u v i hi]
      simp only [satCut]
      exact ⟨fun ⟨j, a, b, c, H, G⟩ => ⟨j, a, b, c, (sub.2 v hv j c).1 H,
          fun k d f => (sub.1 u hu k (by omega)).1 (G k d f)⟩,
        fun ⟨j, a, b, c, H, G⟩ => ⟨j, a, b, c, (sub.2 v hv j c).2 H,
          fun k d f => (sub.1 u hu k (by omega)).2 (G k d f)⟩⟩

/-! ### Which formulas are encoded -/

theorem encBv_some {e : Expr α} (h : BvFormula e) : ∃ t, encBv w e = some t := by
  induction h with
  | const b => cases b <;> exact ⟨_, rfl⟩
  | atom a => exact ⟨_, rfl⟩
  | neg _ ih => obtain ⟨t, ht⟩ := ih; exact ⟨_, by simp [encBv, ht]; rfl⟩
  | @and cs hl _ ih =>
    have : ∃ ts, encBvL w cs = some ts ∧ ts.length = cs.length := by
      clear hl
      induction cs with
      | nil => exact ⟨[], rfl, rfl⟩
      | cons c cs ih' =>
        obtain ⟨t, ht⟩ := ih c (by simp)
        obtain ⟨ts, hts, hl⟩ := ih' (fun c hc => by simp_all) fun c hc => ih c (by simp [hc])
        exact ⟨t :: ts, by simp [encBvL, ht, hts], by simp [hl]⟩
    obtain ⟨ts, hts, hl'⟩ := this
    rcases ts with _ | ⟨a, _ | ⟨b, ts⟩⟩ <;> simp at hl' <;> (try omega)
    exact ⟨_, by simp [encBv, hts, foldOp]; rfl⟩
  | @or cs hl _ ih =>
    have : ∃ ts, encBvL w cs = some ts ∧ ts.length = cs.length := by
      clear hl
      induction cs with
      | nil => exact ⟨[], rfl, rfl⟩
      | cons c cs ih' =>
        obtain ⟨t, ht⟩ := ih c (by simp)
        obtain ⟨ts, hts, hl⟩ := ih' (fun c hc => by simp_all) fun c hc => ih c (by simp [hc])
        exact ⟨t :: ts, by simp [encBvL, ht, hts], by simp [hl]⟩
    obtain ⟨ts, hts, hl'⟩ := this
    rcases ts with _ | ⟨a, _ | ⟨b, ts⟩⟩ <;> simp at hl' <;> (try omega)
    exact ⟨_, by simp [encBv, hts, foldOp]; rfl⟩
  | iff _ _ ih1 ih2 =>
    obtain ⟨t, ht⟩ := ih1; obtain ⟨u, hu⟩ := ih2
    exact ⟨_, by simp [encBv, ht, hu]; rfl⟩
  | fut _ ih => obtain ⟨t, ht⟩ := ih; exact ⟨_, by simp [encBv, ht]; rfl⟩
  | glob _ ih => obtain ⟨t, ht⟩ := ih; exact ⟨_, by simp [encBv, ht]; rfl⟩
  | untl _ _ ih1 ih2 =>
    obtain ⟨t, ht⟩ := ih1; obtain ⟨u, hu⟩ := ih2
    exact ⟨_, by simp [encBv, ht, hu]; rfl⟩

theorem bvFormula_of_some {e : Expr α} {t : BvTerm α} (h : encBv w e = some t) : BvFormula e := by
  induction e using childInduction generalizing t with
  | h e ih =>
    have list : ∀ cs ts, List.Forall₂ (fun c t => encBv w c = some t) cs ts →
        (∀ c ∈ cs, c ∈ e.children) → cs.length = ts.length ∧ ∀ c ∈ cs, BvFormula c := by
      intro cs ts hf
      induction hf with
      | nil => intro _; simp
      | cons h1 _ ih' =>
        intro hc
        obtain ⟨h2, h3⟩ := ih' fun c hc' => hc c (by simp [hc'])
        refine ⟨by simp [h2], ?_⟩
        simp only [List.mem_cons, forall_eq_or_imp]
        exact ⟨ih _ (hc _ (by simp)) h1, h3⟩
    cases e <;> (try simp only [encBv, reduceCtorEq, Option.pure_def, Option.bind_eq_bind,
      Option.bind_eq_some_iff, Option.some.injEq] at h) <;>
      simp only [children, List.mem_cons, List.not_mem_nil, or_false, forall_eq_or_imp,
        forall_eq] at ih
    case const b => exact .const b
    case atom a => exact .atom a
    case neg e => obtain ⟨u, hu, rfl⟩ := h; exact .neg (ih hu)
    case and cs =>
      obtain ⟨ts, hts, h⟩ := h
      obtain ⟨h1, h2⟩ := list cs ts (encBvL_forall₂ hts) (by simp [children])
      refine .and ?_ h2
      rcases ts with _ | ⟨a, _ | ⟨b, ts⟩⟩ <;> simp [foldOp] at h
      simp at h1; omega
    case or cs =>
      obtain ⟨ts, hts, h⟩ := h
      obtain ⟨h1, h2⟩ := list cs ts (encBvL_forall₂ hts) (by simp [children])
      refine .or ?_ h2
      rcases ts with _ | ⟨a, _ | ⟨b, ts⟩⟩ <;> simp [foldOp] at h
      simp at h1; omega
    case iff l r => obtain ⟨u, hu, v, hv, rfl⟩ := h; exact .iff (ih.1 hu) (ih.2 hv)
    case fut lb ub e => obtain ⟨u, hu, rfl⟩ := h; exact .fut (ih hu)
    case glob lb ub e => obtain ⟨u, hu, rfl⟩ := h; exact .glob (ih hu)
    case untl lb ub l r => obtain ⟨u, hu, v, hv, rfl⟩ := h; exact .untl (ih.1 hu) (ih.2 hv)

theorem foldr_fut_bv {l : List Nat} {e : Expr α} :
    BvFormula (l.foldr (fun a repl => .fut 0 a repl) e) ↔ BvFormula e := by
  induction l with
  | nil => exact Iff.rfl
  | cons a l ih => exact ⟨fun h => by cases h with | fut h => exact ih.1 h, fun h => .fut (ih.2 h)⟩

theorem foldr_glob_bv {l : List Nat} {e : Expr α} :
    BvFormula (l.foldr (fun a repl => .glob 0 a repl) e) ↔ BvFormula e := by
  induction l with
  | nil => exact Iff.rfl
  | cons a l ih => exact ⟨fun h => by cases h with | glob h => exact ih.1 h, fun h => .glob (ih.2 h)⟩

theorem foldr_untl_bv {l : List Nat} (p e : Expr α) (hp : BvFormula p) :
    BvFormula (l.foldr (fun a repl => .untl 0 a p repl) e) ↔ BvFormula e := by
  induction l with
  | nil => exact Iff.rfl
  | cons a l ih =>
    exact ⟨fun h => by cases h with | untl _ h => exact ih.1 h, fun h => .untl hp (ih.2 h)⟩

theorem foldr_untl_left {l : List Nat} (p e : Expr α) (hl : l ≠ [])
    (h : BvFormula (l.foldr (fun a repl => .untl 0 a p repl) e)) : BvFormula p := by
  cases l with
  | nil => exact absurd rfl hl
  | cons a l => cases h with | untl h _ => exact h

theorem amounts_ne_nil {lb ub : Nat} (h : lb < ub) : amounts lb ub ≠ [] := by
  intro h0
  have := amounts_sum lb ub h
  rw [h0] at this
  simp at this; omega

theorem decomposeStep_bv {m : Expr α} (hord : ¬ isDisordered m) :
    BvFormula (decomposeStep m) ↔ BvFormula m := by
  cases m <;> simp only [decomposeStep]
  case fut lb ub e =>
    split
    · exact Iff.rfl
    · have : BvFormula (Expr.fut lb ub e) ↔ BvFormula e :=
        ⟨fun h => by cases h with | fut h => exact h, .fut⟩
      split
      · refine Iff.trans ?_ ((foldr_fut_bv (l := amounts lb ub)).trans this.symm)
        exact ⟨fun h => by cases h with | fut h => exact h, .fut⟩
      · rw [this]; exact foldr_fut_bv
  case glob lb ub e =>
    split
    · exact Iff.rfl
    · have : BvFormula (Expr.glob lb ub e) ↔ BvFormula e :=
        ⟨fun h => by cases h with | glob h => exact h, .glob⟩
      split
      · refine Iff.trans ?_ ((foldr_glob_bv (l := amounts lb ub)).trans this.symm)
        exact ⟨fun h => by cases h with | glob h => exact h, .glob⟩
      · rw [this]; exact foldr_glob_bv
  case untl lb ub l r =>
    split
    · exact Iff.rfl
    · rename_i hne
      simp only [isDisordered, Nat.not_lt] at hord
      have hl : lb < ub := by omega
      split
      · constructor
        · intro h
          cases h with
          | untl h1 h2 => exact .untl h1 ((foldr_untl_bv l r h1).1 h2)
        · intro h
          cases h with
          | untl h1 h2 => exact .untl h1 ((foldr_untl_bv l r h1).2 h2)
      · constructor
        · intro h
          have h1 := foldr_untl_left l r (amounts_ne_nil hl) h
          exact .untl h1 ((foldr_untl_bv l r h1).1 h)
        · intro h
          cases h with
          | untl h1 h2 => exact (foldr_untl_bv l r h1).2 h2

theorem bvFormula_rebuild {e m : Expr α} (hs : e.shape = m.shape)
    (hc : List.Forall₂ (fun c c' => BvFormula c ↔ BvFormula c') e.children m.children) :
    BvFormula e → BvFormula m := by
  have memb : ∀ {cs cs' : List (Expr α)},
      List.Forall₂ (fun c c' => BvFormula c ↔ BvFormula c') cs cs' → (∀ c ∈ cs, BvFormula c) →
      ∀ c ∈ cs', BvFormula c := by
    intro cs cs' h
    induction h with
    | nil => simp
    | cons h1 _ ih =>
      simp only [List.mem_cons, forall_eq_or_imp]
      exact fun H => ⟨h1.1 H.1, ih H.2⟩
  intro h
  cases h <;> cases m <;> simp only [shape, reduceCtorEq] at hs <;> simp only [children] at hc
  case const.const => exact .const _
  case atom.atom => exact .atom _
  case neg.neg h1 _ => cases hc with | cons h _ => exact .neg (h.1 h1)
  case and.and h1 h2 _ => exact .and (by rw [← hc.length_eq]; exact h1) (memb hc h2)
  case or.or h1 h2 _ => exact .or (by rw [← hc.length_eq]; exact h1) (memb hc h2)
  case iff.iff h1 h2 _ _ =>
    cases hc with | cons h hc => cases hc with | cons h' _ => exact .iff (h.1 h1) (h'.1 h2)
  case fut.fut h1 _ _ _ => cases hc with | cons h _ => exact .fut (h.1 h1)
  case glob.glob h1 _ _ _ => cases hc with | cons h _ => exact .glob (h.1 h1)
  case untl.untl h1 h2 _ _ _ _ =>
    cases hc with | cons h hc => cases hc with | cons h' _ => exact .untl (h.1 h1) (h'.1 h2)

theorem decompose_bv (e : Expr α) (hord : Nowhere isDisordered e) :
    BvFormula (decompose e) ↔ BvFormula e := by
  unfold decompose
  induction e using childInduction with
  | h e ih =>
    obtain ⟨hr, hch⟩ := nowhere_iff.1 hord
    rw [post_eq]
    have hsh : (mapChildren (post decomposeStep) e).shape = e.shape := by simp
    rw [decomposeStep_bv (fun h => hr (isDisordered_shape hsh.symm h))]
    have hf : List.Forall₂ (fun c c' => BvFormula c ↔ BvFormula c')
        (mapChildren (post decomposeStep) e).children e.children := by
      rw [children_mapChildren]
      exact forall₂_map_left' fun c hc => ih c hc (hch c hc)
    refine ⟨bvFormula_rebuild hsh hf, bvFormula_rebuild hsh.symm ?_⟩
    exact (hf.imp fun _ _ h => h.symm).flip

theorem bvFormula_future {e : Expr α} (h : BvFormula e) : Nowhere isPast e := by
  induction h with
  | const b => exact nowhere_iff.2 ⟨by simp [isPast], by simp [children]⟩
  | atom a => exact nowhere_iff.2 ⟨by simp [isPast], by simp [children]⟩
  | neg _ ih => exact nowhere_iff.2 ⟨by simp [isPast], by simpa [children] using ih⟩
  | and _ _ ih => exact nowhere_iff.2 ⟨by simp [isPast], by simpa [children] using ih⟩
  | or _ _ ih => exact nowhere_iff.2 ⟨by simp [isPast], by simpa [children] using ih⟩
  | iff _ _ h1 h2 => exact nowhere_iff.2 ⟨by simp [isPast], by simpa [children] using ⟨h1, h2⟩⟩
  | fut _ ih => exact nowhere_iff.2 ⟨by simp [isPast], by simpa [children] using ih⟩
  | glob _ ih => exact nowhere_iff.2 ⟨by simp [isPast], by simpa [children] using ih⟩
  | untl _ _ h1 h2 => exact nowhere_iff.2 ⟨by simp [isPast], by simpa [children] using ⟨h1, h2⟩⟩

/-- Any trace is given by some value of the declared constants, up to its end. -/
theorem exists_bvTrace (w : Nat) (π : Trace α) :
    ∃ env : α → BitVec w, ∀ j a, j < w → (π j a ↔ bvTrace env j a) := by
  classical
  refine ⟨fun a => BitVec.ofBoolListLE ((List.range w).map fun p => decide (π (w - 1 - p) a)) |>.cast
    (by simp), fun j a hj => ?_⟩
  simp only [bvTrace, BitVec.getLsbD_cast, BitVec.getLsbD_ofBoolListLE]
  rw [List.getD_eq_getElem?_getD, List.getElem?_map, List.getElem?_range (by omega)]
  simp [show w - 1 - (w - 1 - j) = j by omega]

end R2U2
