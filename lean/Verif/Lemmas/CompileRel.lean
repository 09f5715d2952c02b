import Verif.Lemmas.Apart
import Verif.Lemmas.GraphRel
import Verif.Lemmas.Delay
/-
What the passes keep of specifications the monitor gets right, beside their meaning.
-/
namespace R2U2
open Heap Expr GraphPass
variable {α : Type}

/-! ### Spans -/

theorem span_le_spanL {past : Bool} {cs : List (Expr α)} {c : Expr α} (h : c ∈ cs) : span past c ≤ spanL past cs := by
  induction cs with
  | nil => simp at h
  | cons d ds ih =>
    simp only [spanL]
    rcases List.mem_cons.1 h with rfl | h
    · omega
    · have := ih h; omega

theorem spanL_le {past : Bool} {cs : List (Expr α)} {m : Nat} (h : ∀ c ∈ cs, span past c ≤ m) : spanL past cs ≤ m := by
  induction cs with
  | nil => simp [spanL]
  | cons d ds ih =>
    simp only [spanL]
    have h1 := h d (by simp)
    have h2 := ih fun c hc => h c (by simp [hc])
    omega

theorem spanL_mono {past : Bool} {l l' : List (Expr α)} (h : List.Forall₂ (fun c c' => span past c' ≤ span past c) l l') :
    spanL past l' ≤ spanL past l := by
  induction h with
  | nil => exact le_refl _
  | cons a _ ih => simp only [spanL]; omega

theorem span_mono {past : Bool} {e m : Expr α} (hs : e.shape = m.shape)
    (hc : List.Forall₂ (fun c c' => span past c' ≤ span past c) e.children m.children) : span past m ≤ span past e := by
  cases e <;> cases m <;> simp only [shape, reduceCtorEq] at hs <;> simp only [children] at hc
  case and.and => simp only [span]; exact spanL_mono hc
  case or.or => simp only [span]; exact spanL_mono hc
  all_goals first
    | (cases hs; simp [span]; done)
    | (cases hs; cases hc with | cons h1 _ => simp only [span]; omega)
    | (cases hs; cases hc with | cons h1 hc => cases hc with | cons h2 _ => simp only [span]; omega)

theorem span_child {past : Bool} {e c : Expr α} (h : c ∈ e.children) : span past c ≤ span past e := by
  cases e <;> simp only [children, List.mem_cons, List.not_mem_nil, or_false] at h
  case and cs => simp only [span]; exact span_le_spanL h
  case or cs => simp only [span]; exact span_le_spanL h
  all_goals first
    | (subst h; simp only [span]; omega)
    | (rcases h with rfl | rfl <;> simp only [span] <;> omega)

theorem maxL_nat : ∀ (l : List Int) (m : Nat), (∀ x ∈ l, x ≤ m) → (m = 0 ∨ (m : Int) ∈ l) → (∀ x ∈ l, 0 ≤ x) → maxL l = m
  | [], m, _, h2, _ => by
      rcases h2 with rfl | h2
      · rfl
      · simp at h2
  | x :: xs, m, h1, h2, h3 => by
      have h4 := maxL_mem (l := x :: xs) (by simp)
      have h5 := h1 _ h4
      have h6 := h3 _ h4
      rcases h2 with rfl | h2
      · omega
      · have := le_maxL h2; omega

theorem spanL_mem {past : Bool} {cs : List (Expr α)} : spanL past cs = 0 ∨ ∃ c ∈ cs, spanL past cs = span past c := by
  induction cs with
  | nil => exact .inl rfl
  | cons c cs ih =>
    simp only [spanL]
    right
    rcases ih with h | ⟨d, hd, h⟩
    · exact ⟨c, by simp, by omega⟩
    · by_cases hlt : span past c < span past d
      · exact ⟨d, by simp [hd], by omega⟩
      · exact ⟨c, by simp, by omega⟩

/-- Without past-time operators the look-ahead is the worst-case delay. -/
theorem span_wpd (e : Expr α) (he : Nowhere isPast e) : (span false e : Int) = wpd e := by
  induction e using childInduction with
  | h e ih =>
    have sub : ∀ c ∈ e.children, (span false c : Int) = wpd c := fun c hc => ih c hc (he.child hc)
    have hroot := (nowhere_iff.1 he).1
    have nary : ∀ cs : List (Expr α), (∀ c ∈ cs, (span false c : Int) = wpd c) → (spanL false cs : Int) = maxL (wpdL cs) := by
      intro cs hcs
      rw [wpdL_eq]
      refine (maxL_nat _ _ ?_ ?_ ?_).symm
      · intro x hx
        obtain ⟨c, hc, rfl⟩ := List.mem_map.1 hx
        rw [← hcs c hc]; exact_mod_cast span_le_spanL hc
      · rcases spanL_mem (past := false) (cs := cs) with h | ⟨c, hc, h⟩
        · exact .inl h
        · right; rw [h, hcs c hc]; exact List.mem_map_of_mem hc
      · intro x hx
        obtain ⟨c, hc, rfl⟩ := List.mem_map.1 hx
        rw [← hcs c hc]; omega
    cases e <;> simp only [children, List.mem_cons, List.not_mem_nil, or_false, forall_eq_or_imp,
      forall_eq] at sub <;> (try simp only [isPast, not_true_eq_false] at hroot) <;>
      simp only [span, wpd, Bool.false_eq_true, if_false]
    case and cs => exact nary cs sub
    case or cs => exact nary cs sub
    all_goals first | rfl | (push_cast; omega)

/-- Operators of the other tense do not occur, so neither does their span. -/
theorem span_other {past : Bool} (e : Expr α) (he : Nowhere (odd past) e) : span (!past) e = 0 := by
  induction e using childInduction with
  | h e ih =>
    have sub : ∀ c ∈ e.children, span (!past) c = 0 := fun c hc => ih c hc (he.child hc)
    have hroot := (nowhere_iff.1 he).1
    cases e <;> simp only [children, List.mem_cons, List.not_mem_nil, or_false, forall_eq_or_imp,
      forall_eq] at sub <;> simp only [odd, not_or] at hroot <;> simp only [span]
    case and cs => exact Nat.le_zero.1 (spanL_le fun c hc => le_of_eq (sub c hc))
    case or cs => exact Nat.le_zero.1 (spanL_le fun c hc => le_of_eq (sub c hc))
    all_goals (cases past <;> simp_all)

/-! ### Binary and extended operators -/

/-- What those passes keep. -/
structure PlainRel (e e' : Expr α) : Prop where
  equiv : Equiv e' e
  const : ∀ b, e' = .const b ↔ e = .const b
  span : ∀ past, span past e' ≤ span past e

theorem PlainRel.refl (e : Expr α) : PlainRel e e := ⟨Equiv.refl e, fun _ => Iff.rfl, fun _ => le_refl _⟩

theorem PlainRel.trans {a b c : Expr α} (h1 : PlainRel a b) (h2 : PlainRel b c) : PlainRel a c :=
  ⟨h2.equiv.trans h1.equiv, fun x => (h2.const x).trans (h1.const x), fun p => le_trans (h2.span p) (h1.span p)⟩

theorem PlainRel.isConst {e e' : Expr α} (h : PlainRel e e') : isConst e' → isConst e := by
  intro hc
  cases e' <;> simp only [R2U2.isConst] at hc
  rw [(h.const _).1 rfl]; trivial

theorem odd_shape {past : Bool} {e m : Expr α} (hs : e.shape = m.shape) (hc : List.Forall₂ PlainRel e.children m.children) :
    odd past m → odd past e := by
  cases e <;> cases m <;> simp only [shape, reduceCtorEq] at hs <;> simp only [children] at hc
  case and.and cs cs' =>
    simp only [odd]
    have := hc.length_eq
    rintro (h | ⟨c', hc', h⟩)
    · left; omega
    · obtain ⟨c, hm, hr⟩ := forall2_mem_left hc.flip hc'
      exact .inr ⟨c, hm, hr.isConst h⟩
  case or.or cs cs' =>
    simp only [odd]
    have := hc.length_eq
    rintro (h | ⟨c', hc', h⟩)
    · left; omega
    · obtain ⟨c, hm, hr⟩ := forall2_mem_left hc.flip hc'
      exact .inr ⟨c, hm, hr.isConst h⟩
  all_goals first
    | (cases hs; simp [odd]; done)
    | (cases hs; cases hc with | cons h1 _ => simp only [odd]; have := h1.isConst; tauto)
    | (cases hs; cases hc with | cons h1 hc => cases hc with | cons h2 _ =>
        simp only [odd]
        have h3 := h1.isConst
        have h4 := h2.isConst
        have h5 := h1.const true
        have h6 := h1.const false
        tauto)

theorem relOk_plain (past : Bool) : RelOk (α := α) (Nowhere (odd past)) PlainRel where
  refl e _ := .refl e
  trans _ _ _ h1 h2 := h1.trans h2
  child _ _ h hc := h.child hc
  congr e e' he hs hf := by
    obtain ⟨hb, hch⟩ := nowhere_iff.1 he
    have hR : List.Forall₂ PlainRel e.children e'.children := hf.imp fun _ _ h => h.2
    refine ⟨⟨e', fun h => hb (odd_shape hs hR h), fun c' hc' => ?_⟩,
      Equiv.congr hs.symm (equiv_flip hf fun _ _ h => h.2.equiv), fun b => ?_, fun p => span_mono hs (hR.imp fun _ _ h => h.span p)⟩
    · obtain ⟨c, _, hr⟩ := forall₂_back hf c' hc'
      exact hr.1
    · cases e <;> cases e' <;> simp only [shape, reduceCtorEq, Shape.const.injEq] at hs <;> simp_all

theorem nw_iff {bad : Expr α → Prop} {l r : Expr α} :
    Nowhere bad (.iff l r) ↔ ¬ bad (.iff l r) ∧ Nowhere bad l ∧ Nowhere bad r := by
  rw [nowhere_iff]; simp [children]
theorem nw_rel {bad : Expr α → Prop} {lb ub : Nat} {l r : Expr α} :
    Nowhere bad (.rel lb ub l r) ↔ ¬ bad (.rel lb ub l r) ∧ Nowhere bad l ∧ Nowhere bad r := by
  rw [nowhere_iff]; simp [children]
theorem nw_since {bad : Expr α → Prop} {lb ub : Nat} {l r : Expr α} :
    Nowhere bad (.since lb ub l r) ↔ ¬ bad (.since lb ub l r) ∧ Nowhere bad l ∧ Nowhere bad r := by
  rw [nowhere_iff]; simp [children]
theorem nw_trig {bad : Expr α → Prop} {lb ub : Nat} {l r : Expr α} :
    Nowhere bad (.trig lb ub l r) ↔ ¬ bad (.trig lb ub l r) ∧ Nowhere bad l ∧ Nowhere bad r := by
  rw [nowhere_iff]; simp [children]

theorem extStep_plain {past : Bool} {e : Expr α} (he : Nowhere (odd past) e) :
    Nowhere (odd past) (Transform.extStep e) ∧ PlainRel e (Transform.extStep e) := by
  refine ⟨?_, extStep_equiv e, fun b => ?_, fun p => ?_⟩
  · obtain ⟨hb, hc⟩ := nowhere_iff.1 he
    cases e <;> simp only [Transform.extStep] <;> try exact he
    all_goals
      simp only [children, List.mem_cons, List.not_mem_nil, or_false, forall_eq_or_imp, forall_eq] at hc
      simp only [odd, not_or] at hb
      simp only [nw_leaf_const, nw_neg, nw_iff, nw_or, nw_untl, nw_rel, nw_since, nw_trig, odd, List.mem_cons, List.not_mem_nil, or_false, forall_eq_or_imp, forall_eq, isConst]
      simp_all [isConst]
  · cases e <;> simp [Transform.extStep]
  · cases e <;> simp only [Transform.extStep, span, spanL] <;> omega

theorem foldl_plain {past : Bool} {mk : List (Expr α) → Expr α}
    (h1 : ∀ a b, Nowhere (odd past) a → Nowhere (odd past) b → ¬ isConst a → ¬ isConst b → Nowhere (odd past) (mk [a, b]) ∧ ¬ isConst (mk [a, b]))
    (cs : List (Expr α)) : ∀ acc, Nowhere (odd past) acc → ¬ isConst acc → (∀ c ∈ cs, Nowhere (odd past) c ∧ ¬ isConst c) →
    Nowhere (odd past) (cs.foldl (fun acc c => mk [acc, c]) acc) ∧ ¬ isConst (cs.foldl (fun acc c => mk [acc, c]) acc) := by
  induction cs with
  | nil => intro acc h2 h3 _; exact ⟨h2, h3⟩
  | cons c cs ih =>
    intro acc h2 h3 h4
    have h5 := h1 acc c h2 (h4 c (by simp)).1 h3 (h4 c (by simp)).2
    exact ih _ h5.1 h5.2 fun c hc => h4 c (by simp [hc])

theorem foldl_span {p : Bool} {mk : List (Expr α) → Expr α} (h1 : ∀ cs, span p (mk cs) = spanL p cs) (cs : List (Expr α)) :
    ∀ acc, span p (cs.foldl (fun acc c => mk [acc, c]) acc) = max (span p acc) (spanL p cs) := by
  induction cs with
  | nil => intro acc; simp [spanL]
  | cons c cs ih => intro acc; simp only [List.foldl_cons]; rw [ih, h1]; simp only [spanL]; omega

theorem binaryStep_plain {past : Bool} {e : Expr α} (he : Nowhere (odd past) e) :
    Nowhere (odd past) (Transform.binaryStep e) ∧ PlainRel e (Transform.binaryStep e) := by
  have hand : ∀ a b : Expr α, Nowhere (odd past) a → Nowhere (odd past) b → ¬ isConst a → ¬ isConst b →
      Nowhere (odd past) (.and [a, b]) ∧ ¬ isConst (.and [a, b]) := by
    intro a b h1 h2 h3 h4
    exact ⟨⟨_, by simp [odd, h3, h4], by simp [children, h1, h2]⟩, by simp [isConst]⟩
  have hor : ∀ a b : Expr α, Nowhere (odd past) a → Nowhere (odd past) b → ¬ isConst a → ¬ isConst b →
      Nowhere (odd past) (.or [a, b]) ∧ ¬ isConst (.or [a, b]) := by
    intro a b h1 h2 h3 h4
    exact ⟨⟨_, by simp [odd, h3, h4], by simp [children, h1, h2]⟩, by simp [isConst]⟩
  have hops : ∀ cs : List (Expr α), (∀ c ∈ cs, Nowhere (odd past) c) → ¬ (∃ c ∈ cs, isConst c) → ∀ c ∈ cs, Nowhere (odd past) c ∧ ¬ isConst c :=
    fun cs h1 h2 c hc => ⟨h1 c hc, fun h => h2 ⟨c, hc, h⟩⟩
  unfold Transform.binaryStep
  split
  · rename_i c0 c1 c2 rest
    obtain ⟨hb, hc⟩ := nowhere_iff.1 he
    simp only [odd, not_or] at hb
    simp only [children] at hc
    have h2 := hops _ hc hb.2
    have hl := hand c0 c1 (h2 c0 (by simp)).1 (h2 c1 (by simp)).1 (h2 c0 (by simp)).2 (h2 c1 (by simp)).2
    have h3 := foldl_plain (mk := .and) hand (c2 :: rest) (.and [c0, c1]) hl.1 hl.2 fun c hc => h2 c (by simp at hc ⊢; tauto)
    have h4 := binaryStep_equiv (.and (c0 :: c1 :: c2 :: rest))
    simp only [Transform.binaryStep] at h4
    rw [binarize_eq] at h4 ⊢
    refine ⟨h3.1, h4, fun b => ?_, fun p => ?_⟩
    · constructor
      · intro h; rw [h] at h3; simp [isConst] at h3
      · intro h; simp at h
    · rw [foldl_span (mk := .and) (fun _ => by simp [span])]
      simp only [span, spanL]; omega
  · rename_i c0 c1 c2 rest
    obtain ⟨hb, hc⟩ := nowhere_iff.1 he
    simp only [odd, not_or] at hb
    simp only [children] at hc
    have h2 := hops _ hc hb.2
    have hl := hor c0 c1 (h2 c0 (by simp)).1 (h2 c1 (by simp)).1 (h2 c0 (by simp)).2 (h2 c1 (by simp)).2
    have h3 := foldl_plain (mk := .or) hor (c2 :: rest) (.or [c0, c1]) hl.1 hl.2 fun c hc => h2 c (by simp at hc ⊢; tauto)
    have h4 := binaryStep_equiv (.or (c0 :: c1 :: c2 :: rest))
    simp only [Transform.binaryStep] at h4
    rw [binarize_eq] at h4 ⊢
    refine ⟨h3.1, h4, fun b => ?_, fun p => ?_⟩
    · constructor
      · intro h; rw [h] at h3; simp [isConst] at h3
      · intro h; simp at h
    · rw [foldl_span (mk := .or) (fun _ => by simp [span])]
      simp only [span, spanL]; omega
  · exact ⟨he, .refl e⟩

/-- Steps of the two passes. -/
abbrev PlainStep (P : Lab → Nat → Prop) (f : α → Ast) (past : Bool) (t t' : Ast) : Prop :=
  t.label.frame = false ∧ Keeps P f (Nowhere (odd past)) PlainRel t t'

theorem ext_plain {P : Lab → Nat → Prop} {f : α → Ast} (hf : AtomsPlain P f) (past : Bool) : RuleOk extRule (PlainStep P f past) :=
  ruleOk ext_olds (fun hr => frame_of_logical (ext_logical hr))
    (fun hr hl _ _ => by rw [ext_logical hr] at hl; cases hl)
    (fun {_ _ _ _ e} hd hx hg hr hat => ⟨_, (extStep_plain hg).1, ext_read hf hd hx hr hat, (extStep_plain hg).2⟩) hf

theorem binary_plain {f : α → Ast} (hf : AtomsPlain twoOperands f) (past : Bool) : RuleOk binaryRule (PlainStep twoOperands f past) :=
  ruleOk binary_olds (fun hr => multi_frame (binary_fires hr).1)
    (fun {h x b} hr hl hp _ => by
      obtain ⟨hm, c0, c1, c2, rest, hk, _⟩ := binary_fires hr
      rcases multi_cases hm with h1 | h1 | h1 | h1
      · rw [h1] at hl; cases hl
      · rw [h1] at hl; cases hl
      · have := hp (.inl h1); rw [hk] at this; simp at this
      · have := hp (.inr h1); rw [hk] at this; simp at this)
    (fun {_ _ _ _ e} hd hx hg hr hat => ⟨_, (binaryStep_plain hg).1, binary_read hf hd hx hr hat, (binaryStep_plain hg).2⟩) hf

/-! ### Rewriting -/

/-- Where rewriting is right and does not look further. -/
def rwBad (past : Bool) (e : Expr α) : Prop :=
  isDisordered e ∨ rough e ∨ (if past then isFutureOp e else isPast e)

theorem rwBad_shape {past : Bool} {e m : Expr α} (hs : e.shape = m.shape) : rwBad past m → rwBad past e := by
  have h1 : rough m → rough e := by cases e <;> cases m <;> simp_all [shape, rough]
  have h2 : isFutureOp m → isFutureOp e := by cases e <;> cases m <;> simp_all [shape, isFutureOp]
  rintro (h | h | h)
  · exact .inl (isDisordered_shape hs h)
  · exact .inr (.inl (h1 h))
  · refine .inr (.inr ?_)
    cases past
    · exact isPast_shape hs h
    · exact h2 h

/-- What rewriting keeps. -/
structure RwRel (past : Bool) (e e' : Expr α) : Prop where
  equiv : Equiv e' e
  span : span past e' ≤ span past e

theorem relOk_rw (past : Bool) : RelOk (α := α) (Nowhere (rwBad past)) (RwRel past) where
  refl e _ := ⟨Equiv.refl e, le_refl _⟩
  trans _ _ _ h1 h2 := ⟨h2.equiv.trans h1.equiv, le_trans h2.span h1.span⟩
  child _ _ h hc := h.child hc
  congr e e' he hs hf := by
    obtain ⟨hb, hch⟩ := nowhere_iff.1 he
    refine ⟨⟨e', fun h => hb (rwBad_shape hs h), fun c' hc' => ?_⟩,
      Equiv.congr hs.symm (equiv_flip hf fun _ _ h => h.2.equiv), span_mono hs (hf.imp fun _ _ h => h.2.span)⟩
    obtain ⟨c, _, hr⟩ := forall₂_back hf c' hc'
    exact hr.1

/-- `l == r` -/
def isEqual : Expr α → Prop
  | .equal _ _ => True
  | _ => False

theorem optStep_noEqual {κ : Type} [DecidableEq κ] {key : Expr α → κ} {m e' : Expr α} (hm : Nowhere isEqual m)
    (h : Rewrite.optStep key m = some e') : Nowhere isEqual e' := by
  cases m <;> simp only [Rewrite.optStep, Option.some.injEq] at h
  case equal => exact absurd trivial (nowhere_iff.1 hm).1
  case neg e =>
    subst h; unfold Rewrite.negRule
    revert hm
    split <;> simp [nw_leaf_const, nw_neg, nw_glob, nw_fut, isEqual]
  case glob lb ub e =>
    subst h; unfold Rewrite.globRule
    revert hm
    simp only
    split <;> (repeat' split) <;> simp [nw_leaf_const, nw_glob, nw_fut, isEqual]
  case fut lb ub e =>
    subst h; unfold Rewrite.futRule
    revert hm
    simp only
    split <;> (repeat' split) <;> simp [nw_leaf_const, nw_glob, nw_fut, isEqual]
  case and cs =>
    revert hm h; unfold Rewrite.andRule Rewrite.andGlob Rewrite.andFut Rewrite.andUntl
    split
    · simp only
      split <;> (repeat' split) <;> simp only [Option.some.injEq] <;> rintro hm rfl <;> revert hm <;>
        simp [nw_and, nw_glob, nw_fut, nw_untl, isEqual] <;> tauto
    · simp
  case or cs =>
    revert hm h; unfold Rewrite.orRule Rewrite.orGlob Rewrite.orFut
    split
    · simp only
      split <;> (repeat' split) <;> simp only [Option.some.injEq] <;> rintro hm rfl <;> revert hm <;>
        simp [nw_or, nw_glob, nw_fut, isEqual] <;> tauto
    · simp
  all_goals (subst h; exact hm)

theorem optStep_past {κ : Type} [DecidableEq κ] {key : Expr α → κ} {m e' : Expr α} (hm : Nowhere (rwBad true) m)
    (h : Rewrite.optStep key m = some e') : e' = m ∨ ∃ p, m = .neg (.neg p) ∧ e' = p := by
  obtain ⟨hb, hc⟩ := nowhere_iff.1 hm
  have hc' : ∀ c ∈ m.children, ¬ rwBad true c := fun c h => (nowhere_iff.1 (hc c h)).1
  cases m <;> simp only [Rewrite.optStep, Option.some.injEq] at h
  case equal => exact absurd (.inr (.inl trivial)) hb
  case glob => exact absurd (.inr (.inr trivial)) hb
  case fut => exact absurd (.inr (.inr trivial)) hb
  case neg e =>
    have he := hc' e (by simp [children])
    subst h
    unfold Rewrite.negRule
    split
    · exact absurd (.inr (.inl trivial)) he
    · exact absurd (.inr (.inl trivial)) he
    · exact .inr ⟨_, rfl, rfl⟩
    · exact absurd (.inr (.inr trivial)) he
    · exact absurd (.inr (.inr trivial)) he
    · exact .inl rfl
  case and cs =>
    revert h; unfold Rewrite.andRule
    split
    · rename_i lhs rhs rest
      have he := hc' lhs (by simp [children])
      simp only
      split
      · exact absurd (.inr (.inr trivial)) he
      · exact absurd (.inr (.inr trivial)) he
      · exact absurd (.inr (.inr trivial)) he
      · intro h; cases h; exact .inl rfl
    · simp
  case or cs =>
    revert h; unfold Rewrite.orRule
    split
    · rename_i lhs rhs rest
      have he := hc' lhs (by simp [children])
      simp only
      split
      · exact absurd (.inr (.inr trivial)) he
      · exact absurd (.inr (.inr trivial)) he
      · intro h; cases h; exact .inl rfl
    · simp
  all_goals (subst h; exact .inl rfl)

theorem rwBad_opt {past : Bool} {e : Expr α} (h : Nowhere (rwBad past) e) : Nowhere optBad e := by
  refine h.mono fun e hb => ?_
  rcases hb with h | h | h
  · exact .inl h
  · refine .inr (.inl ?_)
    cases e <;> simp_all [rough, isNonBinary]
  · refine .inr (.inl ?_)
    cases e <;> simp_all [rough, isConstEqual]

theorem rwBad_false {e : Expr α} : Nowhere (rwBad false) e ↔ Nowhere latBad e ∧ Nowhere isConst e ∧ Nowhere isEqual e := by
  constructor
  · intro h
    refine ⟨h.mono fun e hb => ?_, h.mono fun e hb => ?_, h.mono fun e hb => ?_⟩
    · rcases hb with h | h | h
      · exact .inr (.inr h)
      · exact .inl h
      · exact .inr (.inl (by cases e <;> simp_all [rough, isNonBinary]))
    · exact .inr (.inl (by cases e <;> simp_all [rough, isConst]))
    · exact .inr (.inl (by cases e <;> simp_all [rough, isEqual]))
  · rintro ⟨h1, h2, h3⟩
    refine (h1.or (h2.or h3)).mono fun e hb => ?_
    simp only [rwBad, Bool.false_eq_true, if_false] at hb
    cases e <;> simp_all [rough, isConst, isEqual, latBad, isDisordered, isPast, isNonBinary]

theorem optStep_rw {past : Bool} {κ : Type} [DecidableEq κ] {key : Expr α → κ} (hk : KeyInj key) {m e' : Expr α}
    (hm : Nowhere (rwBad past) m) (h : Rewrite.optStep key m = some e') : Nowhere (rwBad past) e' ∧ RwRel past m e' := by
  have hs : KeySound key := fun p q hp hq h => by rw [hk p q hp hq h]; exact Equiv.refl q
  obtain ⟨e2, h1, h2⟩ := optStep_rel hs m (rwBad_opt hm)
  rw [h] at h1
  cases h1
  cases past
  · obtain ⟨a, b, c⟩ := rwBad_false.1 hm
    obtain ⟨a', w⟩ := optStep_wpd key hk m e' a h
    refine ⟨rwBad_false.2 ⟨a', h2.noConst b, optStep_noEqual c h⟩, h2.equiv, ?_⟩
    have w1 := span_wpd m (a.mono fun _ h => .inl h)
    have w2 := span_wpd e' (a'.mono fun _ h => .inl h)
    omega
  · rcases optStep_past hm h with rfl | ⟨p, rfl, rfl⟩
    · exact ⟨hm, h2.equiv, le_refl _⟩
    · exact ⟨gc hm (c := .neg e') (by simp [children]) (by simp [children]), h2.equiv, by simp [span]⟩

/-- Steps of rewriting. -/
abbrev RwStep (P : Lab → Nat → Prop) (f : α → Ast) (past : Bool) (t t' : Ast) : Prop :=
  t.label.frame = false ∧ Keeps P f (Nowhere (rwBad past)) (RwRel past) t t'

theorem opt_rw {P : Lab → Nat → Prop} {f : α → Ast} (hf : AtomsPlain P f) (hk : KeyInj (str f)) (fuel : Nat) (past : Bool) :
    RuleOk (optRule fuel) (RwStep P f past) :=
  ruleOk opt_olds opt_frame (fun hr hl _ hc => opt_plain hr hl hc)
    (fun {_ _ _ _ e} hd hx hg hr hat => by
      obtain ⟨e', h1, h2⟩ := opt_read hf hd hx hr hat
      obtain ⟨h3, h4⟩ := optStep_rw hk hg h1
      exact ⟨e', h3, h2, h4⟩) hf

theorem rwBad_of {past : Bool} {e : Expr α} (h1 : Nowhere (odd past) e) (h2 : Nowhere rough e) : Nowhere (rwBad past) e := by
  refine (h1.or h2).mono fun e hb => ?_
  rcases hb with h | h | h
  · left; cases e <;> simp_all [odd, isDisordered]
  · exact .inr h
  · left; cases past <;> cases e <;> simp_all [odd, isPast, isFutureOp]

theorem odd_of_rwBad {past : Bool} {e : Expr α} (h : Nowhere (rwBad past) e) : Nowhere (odd past) e ∧ ¬ isConst e := by
  have hc : ∀ e : Expr α, Nowhere (rwBad past) e → ¬ isConst e := by
    intro e h hc
    cases e <;> simp only [isConst] at hc
    exact (nowhere_iff.1 h).1 (.inr (.inl trivial))
  refine ⟨?_, hc e h⟩
  induction e using childInduction with
  | h e ih =>
    obtain ⟨hb, hk⟩ := nowhere_iff.1 h
    refine ⟨e, fun ho => ?_, fun c hm => ih c hm (hk c hm)⟩
    have hk' : ∀ c ∈ e.children, ¬ isConst c := fun c hm => hc c (hk c hm)
    clear ih hk h
    cases past <;> cases e <;> simp_all [odd, rwBad, rough, isDisordered, isPast, isFutureOp, children]
    all_goals first | omega | (obtain ⟨c, h1, h2⟩ := ho; exact hk' c h1 h2)

end R2U2
