import Verif.Lemmas.SmtBv
import Verif.Lemmas.SmtLia
import Verif.Props.Unroll
/-
Lemmas for the SMT properties: shifting traces, and the loops of `check_equiv` and `check_sat`.
-/
namespace R2U2
open Expr Smt Unroll
variable {α : Type}

/-- Future-time formulas only look forward: the verdict at `s` is the verdict at 0 of the trace
from `s` on. -/
theorem sat_shift (π : Trace α) (e : Expr α) (he : Nowhere isPast e) (s : Nat) :
    sat (fun j a => π (j + s) a) e 0 ↔ sat π e s := by
  have h0 := (pd_nonneg e he).2
  have hn : ((wpd e + 1).toNat : Int) = wpd e + 1 := by omega
  rw [← satCut_iff_sat (wpd e + 1).toNat _ e he 0 (by omega),
    satCut_shift _ s _ π (fun j a _ => Iff.rfl) e he 0 (by omega), Nat.zero_add,
    satCut_iff_sat _ π e he s (by omega)]

/-- Two future-time formulas are equivalent when their difference is unsatisfiable. -/
theorem not_satisfiable_notEquiv {e1 e2 : Expr α} (h1 : Nowhere isPast e1) (h2 : Nowhere isPast e2) :
    ¬ Satisfiable (notEquiv e1 e2) ↔ Equiv e1 e2 := by
  simp only [Satisfiable, notEquiv, sat, not_exists, Classical.not_not]
  constructor
  · intro h π i
    rw [← sat_shift π e1 h1 i, ← sat_shift π e2 h2 i]
    exact h _
  · exact fun h π => h π 0

theorem satisfiable_of_not_equiv {e1 e2 : Expr α} (h : Satisfiable (notEquiv e1 e2)) :
    ¬ Equiv e1 e2 := by
  obtain ⟨π, h⟩ := h
  simp only [notEquiv, sat] at h
  exact fun h' => h (h' π 0)

/-! ### Bit vectors -/

theorem toQfBv_satisfiable (e : Expr α) (he : BvFormula e) (hord : Nowhere isDisordered e) :
    ∃ s, toQfBv e false = some s ∧ (s.satisfiable ↔ Satisfiable e) := by
  have hp := bvFormula_future he
  have h0 := (pd_nonneg e hp).2
  set w := (wpd e + 1).toNat with hw
  obtain ⟨t, ht⟩ := encBv_some (w := w) ((decompose_bv e hord).2 he)
  refine ⟨{ width := w, assertion := .bit t e.wpd.toNat }, by simp [toQfBv, ← hw, ht], ?_⟩
  have key : ∀ env : α → BitVec w,
      ((t.eval w env).extractLsb' e.wpd.toNat 1 = 1#1) ↔ sat (bvTrace env) e 0 := by
    intro env
    have hb := encBv_bit (decompose e) (C13_decompose_shape e) t ht env 0 (by omega)
    rw [decompose_cut e hord hp w _ 0 (by omega), satCut_iff_sat w _ e hp 0 (by omega)] at hb
    rw [← hb]
    simp only [bitAt]
    rw [show w - 1 - 0 = e.wpd.toNat by omega]
    constructor
    · intro h
      have := congrArg (fun x => x.getLsbD 0) h
      simpa using this
    · intro h
      apply BitVec.eq_of_getLsbD_eq
      intro i hi
      have : i = 0 := by omega
      subst this
      simp [h]
  constructor
  · rintro ⟨env, h⟩
    exact ⟨_, (key env).1 h⟩
  · rintro ⟨π, h⟩
    obtain ⟨env, henv⟩ := exists_bvTrace w π
    refine ⟨env, (key env).2 ?_⟩
    rw [← satCut_iff_sat w _ e hp 0 (by omega)] at h ⊢
    have := satCut_shift w 0 π (bvTrace env) henv e hp 0 (by omega)
    simpa using this.1 h

theorem toQfBv_strict (e : Expr α) (he : BvFormula e) (hord : Nowhere isDisordered e) :
    ∃ s, toQfBv e true = some s ∧ (s.satisfiable ↔
      ∃ (n : Nat) (π : Trace α), 0 < n ∧ n ≤ (wpd e + 1).toNat ∧ satCut n π e 0) := by
  have hp := bvFormula_future he
  have h0 := (pd_nonneg e hp).2
  set w := (wpd e + 1).toNat with hw
  obtain ⟨t, ht⟩ := encBv_some (w := w) ((decompose_bv e hord).2 he)
  refine ⟨{ width := w, assertion := .nonzero t }, by simp [toQfBv, ← hw, ht], ?_⟩
  have key : ∀ env : α → BitVec w, 0 < (t.eval w env).toNat ↔
      ∃ i, i < w ∧ satCut w (bvTrace env) e i := by
    intro env
    have hb : ∀ i, i < w → (bitAt env t i ↔ satCut w (bvTrace env) e i) := fun i hi => by
      rw [encBv_bit (decompose e) (C13_decompose_shape e) t ht env i hi,
        decompose_cut e hord hp w _ i hi]
    constructor
    · intro h
      by_contra hc
      push Not at hc
      have : t.eval w env = 0#w := by
        apply BitVec.eq_of_getLsbD_eq
        intro p hpw
        have := mt (hb (w - 1 - p) (by omega)).1 (hc (w - 1 - p) (by omega))
        simp only [bitAt] at this
        rw [show w - 1 - (w - 1 - p) = p by omega] at this
        simpa using this
      rw [this] at h
      simp at h
    · rintro ⟨i, hi, h⟩
      have := (hb i hi).2 h
      by_contra hc
      have h0 : t.eval w env = 0#w := by
        apply BitVec.eq_of_toNat_eq
        simp; omega
      simp [bitAt, h0] at this
  constructor
  · rintro ⟨env, h⟩
    obtain ⟨i, hi, h⟩ := (key env).1 h
    refine ⟨w - i, fun j a => bvTrace env (j + i) a, by omega, by omega, ?_⟩
    have := satCut_shift (w - i) i (fun j a => bvTrace env (j + i) a) (bvTrace env)
      (fun j a _ => Iff.rfl) e hp 0 (by omega)
    rw [show w - i + i = w by omega, Nat.zero_add] at this
    exact this.2 h
  · rintro ⟨n, π, hn, hnw, h⟩
    obtain ⟨env, henv⟩ := exists_bvTrace w (fun j a => π (j - (w - n)) a)
    refine ⟨env, (key env).2 ⟨w - n, by omega, ?_⟩⟩
    have := satCut_shift n (w - n) π (bvTrace env) (fun j a hj => by
      rw [← henv (j + (w - n)) a (by omega), Nat.add_sub_cancel]) e hp 0 hn
    rw [show n + (w - n) = w by omega, Nat.zero_add] at this
    exact this.1 h

/-- Long traces add nothing: beyond `wpd` steps the verdict at 0 does not change. -/
theorem cut_bound (e : Expr α) (hp : Nowhere isPast e) (n : Nat) (π : Trace α) (hn : 0 < n)
    (h : satCut n π e 0) :
    ∃ (m : Nat) (π : Trace α), 0 < m ∧ m ≤ (wpd e + 1).toNat ∧ satCut m π e 0 := by
  have h0 := (pd_nonneg e hp).2
  by_cases hb : n ≤ (wpd e + 1).toNat
  · exact ⟨n, π, hn, hb, h⟩
  · refine ⟨(wpd e + 1).toNat, π, by omega, Nat.le_refl _, ?_⟩
    rw [satCut_iff_sat _ _ e hp 0 (by omega)] at h ⊢
    exact h

/-! ### Integer encodings -/

theorem encQf_some {e : Expr α} (he : Nowhere isNotQf e) : ∃ t, encQf e = some t := by
  induction e using childInduction with
  | h e ih =>
    obtain ⟨hr, hc⟩ := nowhere_iff.1 he
    have sub : ∀ c ∈ e.children, ∃ t, encQf c = some t := fun c h => ih c h (hc c h)
    have list : ∀ cs : List (Expr α), (∀ c ∈ cs, ∃ t, encQf c = some t) → ∃ ts, encQfL cs = some ts := by
      intro cs
      induction cs with
      | nil => exact fun _ => ⟨[], rfl⟩
      | cons c cs ih =>
        intro h
        obtain ⟨t, ht⟩ := h c (by simp)
        obtain ⟨ts, hts⟩ := ih fun c hc => h c (by simp [hc])
        exact ⟨t :: ts, by simp [encQfL, ht, hts]⟩
    cases e <;> simp only [isNotQf, not_true_eq_false, not_false_eq_true] at hr <;>
      simp only [children, List.mem_cons, List.not_mem_nil, or_false, forall_eq_or_imp,
        forall_eq] at sub <;> simp only [encQf, Option.pure_def, Option.bind_eq_bind]
    case const | atom => exact ⟨_, rfl⟩
    case neg | fut | glob => obtain ⟨t, ht⟩ := sub; exact ⟨_, by rw [ht]; rfl⟩
    case and cs | or cs => obtain ⟨t, ht⟩ := list cs sub; exact ⟨_, by rw [ht]; rfl⟩
    case imp | iff | equal | untl =>
      obtain ⟨⟨t, ht⟩, u, hu⟩ := sub; exact ⟨_, by rw [ht, hu]; rfl⟩

theorem encLia_some {e : Expr α} (he : Nowhere isNotLia e) : ∃ t, encLia e = some t := by
  induction e using childInduction with
  | h e ih =>
    obtain ⟨hr, hc⟩ := nowhere_iff.1 he
    have sub : ∀ c ∈ e.children, ∃ t, encLia c = some t := fun c h => ih c h (hc c h)
    have list : ∀ cs : List (Expr α), (∀ c ∈ cs, ∃ t, encLia c = some t) → ∃ ts, encLiaL cs = some ts := by
      intro cs
      induction cs with
      | nil => exact fun _ => ⟨[], rfl⟩
      | cons c cs ih =>
        intro h
        obtain ⟨t, ht⟩ := h c (by simp)
        obtain ⟨ts, hts⟩ := ih fun c hc => h c (by simp [hc])
        exact ⟨t :: ts, by simp [encLiaL, ht, hts]⟩
    cases e <;> simp only [isNotLia, not_true_eq_false, not_false_eq_true] at hr <;>
      simp only [children, List.mem_cons, List.not_mem_nil, or_false, forall_eq_or_imp,
        forall_eq] at sub <;> simp only [encLia, Option.pure_def, Option.bind_eq_bind]
    case const | atom => exact ⟨_, rfl⟩
    case neg => obtain ⟨t, ht⟩ := sub; exact ⟨_, by rw [ht]; rfl⟩
    case fut | glob =>
      obtain ⟨t, ht⟩ := sub
      rw [ht]
      simp only [Option.bind_some]
      split
      · exact ⟨_, rfl⟩
      split <;> exact ⟨_, rfl⟩
    case and cs | or cs => obtain ⟨t, ht⟩ := list cs sub; exact ⟨_, by rw [ht]; rfl⟩
    case imp | iff | equal | untl | rel =>
      obtain ⟨⟨t, ht⟩, u, hu⟩ := sub; exact ⟨_, by rw [ht, hu]; rfl⟩

theorem cplen_some {e : Expr α} (he : Nowhere isNotLia e) (ho : Nowhere isOddLength e) :
    ∃ c, cplen e = some c := by
  induction e using childInduction with
  | h e ih =>
    obtain ⟨hr, hc⟩ := nowhere_iff.1 he
    obtain ⟨hro, hco⟩ := nowhere_iff.1 ho
    have sub : ∀ c ∈ e.children, ∃ t, cplen c = some t := fun c h => ih c h (hc c h) (hco c h)
    have two : ∀ cs : List (Expr α), (∀ c ∈ cs, ∃ t, cplen c = some t) → cs.length = 2 →
        ∃ a b, cplenL cs = some [a, b] := by
      intro cs h hl
      obtain ⟨x, y, rfl⟩ := List.length_eq_two.1 hl
      obtain ⟨a, ha⟩ := h x (by simp)
      obtain ⟨b, hb⟩ := h y (by simp)
      exact ⟨a, b, by simp [cplenL, ha, hb]⟩
    cases e <;> simp only [isNotLia, not_true_eq_false, not_false_eq_true] at hr <;>
      simp only [isOddLength, not_true_eq_false, Classical.not_not, not_false_eq_true] at hro <;>
      simp only [children, List.mem_cons, List.not_mem_nil, or_false, forall_eq_or_imp,
        forall_eq] at sub <;> simp only [cplen, Option.pure_def, Option.bind_eq_bind]
    case const | atom => exact ⟨_, rfl⟩
    case neg => exact sub
    case fut | glob => obtain ⟨t, ht⟩ := sub; exact ⟨_, by rw [ht]; rfl⟩
    case and cs | or cs =>
      obtain ⟨a, b, h⟩ := two cs sub hro
      exact ⟨_, by rw [h]; rfl⟩
    case imp | iff | untl | rel =>
      obtain ⟨⟨t, ht⟩, u, hu⟩ := sub; exact ⟨_, by rw [ht, hu]; rfl⟩

theorem notQf_future {e : Expr α} (he : Nowhere isNotQf e) : Nowhere isPast e :=
  he.mono fun e h => by cases e <;> simp_all [isPast, isNotQf]

theorem notLia_future {e : Expr α} (he : Nowhere isNotLia e) : Nowhere isPast e :=
  he.mono fun e h => by cases e <;> simp_all [isPast, isNotLia]

/-- An interpretation whose trace is the given one. -/
theorem exists_liaTrace (π : Trace α) : ∃ F : α → Int → Prop, liaTrace F = π :=
  ⟨fun a i => π i.toNat a, by funext j a; simp [liaTrace]⟩

/-! ### The loops -/

/-- The solver's `sat` and `unsat` are right. -/
structure CorrectSolver {σ : Type} (satisfiable : σ → Prop) (solve : σ → SatResult) : Prop where
  sat : ∀ s, solve s = .sat → satisfiable s
  unsat : ∀ s, solve s = .unsat → ¬ satisfiable s

variable {σ : Type} {enc : Expr α → Option σ} {solve : σ → SatResult}

theorem equivFold_equiv (ps : List (EqSpec α × EqSpec α)) (r : EquivReport)
    (h1 : (ps.foldl (equivStep enc solve) r).printed = .equiv)
    (h2 : (ps.foldl (equivStep enc solve) r).ok = true) :
    r.printed = .equiv ∧ r.ok = true ∧ ∀ a b, (EqSpec.formula a, EqSpec.formula b) ∈ ps →
      ∃ s, enc (notEquiv a b) = some s ∧ solve s = .unsat := by
  induction ps generalizing r with
  | nil => exact ⟨h1, h2, by simp⟩
  | cons p ps ih =>
    obtain ⟨g1, g2, g3⟩ := ih _ h1 h2
    rcases p with ⟨_ | a, _ | b⟩
    · exact ⟨g1, g2, fun a b h => g3 a b (by simpa using h)⟩
    · exact ⟨g1, g2, fun a b h => g3 a b (by simpa using h)⟩
    · exact ⟨g1, g2, fun a b h => g3 a b (by simpa using h)⟩
    · simp only [equivStep] at g1 g2
      cases he : enc (notEquiv a b) with
      | none => rw [he] at g2; simp at g2
      | some s =>
        rw [he] at g1 g2
        simp only at g1 g2
        cases hs : solve s <;> simp only [hs, reduceCtorEq] at g1 g2
        case unsat =>
          simp only [Bool.and_eq_true] at g2
          refine ⟨g1, g2.1, fun x y h => ?_⟩
          rcases List.mem_cons.1 h with h | h
          · obtain ⟨rfl, rfl⟩ : x = a ∧ y = b := by simpa using h
            exact ⟨s, he, hs⟩
          · exact g3 x y h
        all_goals (split at g1 <;> simp_all)

theorem equivFold_printed (ps : List (EqSpec α × EqSpec α)) (henc : ∀ a b, (EqSpec.formula a, EqSpec.formula b) ∈ ps →
      ∃ s, enc (notEquiv a b) = some s) (r : EquivReport)
    (h1 : (ps.foldl (equivStep enc solve) r).printed = .equiv) :
    r.printed = .equiv ∧ ∀ a b, (EqSpec.formula a, EqSpec.formula b) ∈ ps →
      ∃ s, enc (notEquiv a b) = some s ∧ solve s = .unsat := by
  induction ps generalizing r with
  | nil => exact ⟨h1, by simp⟩
  | cons p ps ih =>
    obtain ⟨g1, g3⟩ := ih (fun a b h => henc a b (by simp [h])) _ h1
    rcases p with ⟨_ | a, _ | b⟩
    · exact ⟨g1, fun a b h => g3 a b (by simpa using h)⟩
    · exact ⟨g1, fun a b h => g3 a b (by simpa using h)⟩
    · exact ⟨g1, fun a b h => g3 a b (by simpa using h)⟩
    · simp only [equivStep] at g1
      obtain ⟨s, he⟩ := henc a b (by simp)
      rw [he] at g1
      simp only at g1
      cases hs : solve s <;> simp only [hs, reduceCtorEq] at g1
      case unsat =>
        refine ⟨g1, fun x y h => ?_⟩
        rcases List.mem_cons.1 h with h | h
        · obtain ⟨rfl, rfl⟩ : x = a ∧ y = b := by simpa using h
          exact ⟨s, he, hs⟩
        · exact g3 x y h
      all_goals (split at g1 <;> simp_all)

theorem equivFold_not (ps : List (EqSpec α × EqSpec α)) (r : EquivReport)
    (h : (ps.foldl (equivStep enc solve) r).printed = .notEquiv) :
    r.printed = .notEquiv ∨ ∃ a b s, (EqSpec.formula a, EqSpec.formula b) ∈ ps ∧
      enc (notEquiv a b) = some s ∧ solve s = .sat := by
  induction ps generalizing r with
  | nil => exact .inl h
  | cons p ps ih =>
    rcases ih _ h with g | ⟨a, b, s, g1, g2, g3⟩
    · rcases p with ⟨_ | a, _ | b⟩
      · exact .inl g
      · exact .inl g
      · exact .inl g
      · simp only [equivStep] at g
        cases he : enc (notEquiv a b) with
        | none => rw [he] at g; exact .inl g
        | some s =>
          rw [he] at g
          simp only at g
          cases hs : solve s <;> simp only [hs] at g
          case sat => exact .inr ⟨a, b, s, by simp, he, hs⟩
          case unsat => exact .inl g
          all_goals (left; split at g <;> simp_all)
    · exact .inr ⟨a, b, s, by simp [g1], g2, g3⟩

theorem equivFold_sat (ps : List (EqSpec α × EqSpec α)) (r : EquivReport)
    (h : r.printed = .notEquiv ∨ ∃ a b s, (EqSpec.formula a, EqSpec.formula b) ∈ ps ∧
      enc (notEquiv a b) = some s ∧ solve s = .sat) :
    (ps.foldl (equivStep enc solve) r).printed = .notEquiv := by
  induction ps generalizing r with
  | nil => simpa using h
  | cons p ps ih =>
    rw [List.foldl_cons]
    apply ih
    rcases h with h | ⟨a, b, s, h1, h2, h3⟩
    · left
      rcases p with ⟨_ | a, _ | b⟩ <;> simp only [equivStep, h]
      cases enc (notEquiv a b) with
      | none => rfl
      | some s => cases hs : solve s <;> simp [hs]
    · rcases List.mem_cons.1 h1 with h1 | h1
      · left; subst h1; simp [equivStep, h2, h3]
      · exact .inr ⟨a, b, s, h1, h2, h3⟩

theorem mem_zip_tail {β : Type} {l : List β} {i : Nat} {x y : β} (hx : l[i]? = some x)
    (hy : l[i + 1]? = some y) : (x, y) ∈ l.zip l.tail := by
  rw [List.mem_iff_getElem?]
  exact ⟨i, by rw [List.getElem?_zip_eq_some]; exact ⟨hx, by simpa using hy⟩⟩

theorem zip_tail_mem {β : Type} {l : List β} {x y : β} (h : (x, y) ∈ l.zip l.tail) :
    ∃ i : Nat, l[i]? = some x ∧ l[i + 1]? = some y := by
  rw [List.mem_iff_getElem?] at h
  obtain ⟨i, h⟩ := h
  rw [List.getElem?_zip_eq_some] at h
  exact ⟨i, h.1, by simpa using h.2⟩

theorem satEach_spec (es : List (Expr α)) :
    ∀ (i : Nat) (r : SatResult), (satEach enc solve es).1[i]? = some r →
      ∃ e s, es[i]? = some e ∧ enc e = some s ∧ solve s = r := by
  induction es with
  | nil => intro i r h; simp [satEach] at h
  | cons e es ih =>
    intro i r h
    simp only [satEach] at h
    cases he : enc e with
    | none => rw [he] at h; simp at h
    | some s =>
      rw [he] at h
      simp only at h
      split at h
      · cases i with
        | zero => exact ⟨e, s, by simp, he, by simpa using h⟩
        | succ i => simpa using ih i r (by simpa using h)
      · simp at h

theorem satEach_length (es : List (Expr α)) (h : (satEach enc solve es).2 = true) :
    (satEach enc solve es).1.length = es.length := by
  induction es with
  | nil => rfl
  | cons e es ih =>
    simp only [satEach] at h ⊢
    cases he : enc e with
    | none => rw [he] at h; simp at h
    | some s =>
      rw [he] at h
      simp only at h ⊢
      split at h
      · rename_i ha; simp only [ha, ↓reduceIte, List.length_cons]; rw [ih h]
      · simp at h

end R2U2
