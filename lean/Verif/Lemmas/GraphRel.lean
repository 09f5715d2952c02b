import Verif.Lemmas.GraphRead
/-
Every rule of the passes on the object graph keeps the meaning of the specifications.
-/
namespace R2U2
open Heap Expr GraphPass
variable {α : Type}

theorem equiv_flip {l l' : List (Expr α)} {R : Expr α → Expr α → Prop} (h : List.Forall₂ R l l')
    (hR : ∀ a b, R a b → Equiv b a) : List.Forall₂ Equiv l' l := by
  induction h with
  | nil => exact .nil
  | cons a _ ih => exact .cons (hR _ _ a) ih

/-- Equivalence, for rules that need nothing of the expression. -/
theorem relOk_equiv : RelOk (α := α) (fun _ => True) (fun e e' => Equiv e' e) where
  refl e _ := Equiv.refl e
  trans _ _ _ h1 h2 := h2.trans h1
  child _ _ _ _ := trivial
  congr _ _ _ hs hc := ⟨trivial, Equiv.congr hs.symm (equiv_flip hc fun _ _ h => h.2)⟩

theorem forall₂_back {R : Expr α → Expr α → Prop} {l l' : List (Expr α)} (hl : List.Forall₂ R l l') :
    ∀ c' ∈ l', ∃ c ∈ l, R c c' := by
  induction hl with
  | nil => simp
  | cons h _ ih =>
    intro c' hc'
    rcases List.mem_cons.1 hc' with rfl | hc'
    · exact ⟨_, by simp, h⟩
    · obtain ⟨c, h1, h2⟩ := ih c' hc'
      exact ⟨c, by simp [h1], h2⟩

theorem isXor_shape {e m : Expr α} (hs : e.shape = m.shape) : isXor m → isXor e := by
  cases e <;> cases m <;> simp only [shape, reduceCtorEq] at hs <;> simp [isXor]

/-- Equivalence among expressions without exclusive or. -/
theorem relOk_noXor : RelOk (α := α) (Nowhere isXor) (fun e e' => Equiv e' e) where
  refl e _ := Equiv.refl e
  trans _ _ _ h1 h2 := h2.trans h1
  child _ _ h hc := h.child hc
  congr e e' hg hs hc := by
    refine ⟨⟨e', fun hx => (nowhere_iff.1 hg).1 (isXor_shape hs hx), fun c' hc' => ?_⟩,
      Equiv.congr hs.symm (equiv_flip hc fun _ _ h => h.2)⟩
    obtain ⟨c, _, h1⟩ := forall₂_back hc c' hc'
    exact h1.1

/-- The relation kept by `optimize_rewrites`. -/
theorem relOk_opt : RelOk (α := α) (Nowhere optBad) OptRel where
  refl e he := ⟨Equiv.refl e, he, id, id⟩
  trans _ _ _ h1 h2 := ⟨h2.equiv.trans h1.equiv, h2.good, fun h => h2.noConst (h1.noConst h), fun h => h2.isTrue (h1.isTrue h)⟩
  child _ _ h hc := h.child hc
  congr e m he hs hf := by
    obtain ⟨hb, hch⟩ := nowhere_iff.1 he
    have hback := forall₂_back hf
    have hgood : Nowhere optBad m := by
      refine ⟨m, ?_, fun c' hc' => ?_⟩
      · rintro (h | h | h)
        · exact hb (.inl (isDisordered_shape hs h))
        · exact hb (.inr (.inl (isNonBinary_shape hs h)))
        · cases m <;> simp only [isConstEqual] at h
          cases e <;> simp only [shape, reduceCtorEq] at hs
          rename_i l' r' l r
          simp only [optBad, isDisordered, isNonBinary, isConstEqual, false_or, Classical.not_not] at hb
          simp only [children] at hf
          cases hf with | cons h1 hf => cases hf with | cons h2 _ =>
          apply h
          exact ⟨hb.1.imp h1.2.isTrue h1.2.noConst, hb.2.imp h2.2.isTrue h2.2.noConst⟩
      · obtain ⟨c, _, hr⟩ := hback c' hc'
        exact hr.1
    refine ⟨hgood, Equiv.congr hs.symm (equiv_flip hf fun _ _ h => h.2.equiv), hgood, fun h => ?_, ?_⟩
    · refine ⟨m, fun hc => (nowhere_iff.1 h).1 (isConst_shape hs hc), fun c' hc' => ?_⟩
      obtain ⟨c, hc, hr⟩ := hback c' hc'
      exact hr.2.noConst (h.child hc)
    · rintro rfl
      cases m <;> simp_all [shape]

theorem AtomsPlain.mono {P Q : Lab → Nat → Prop} {f : α → Ast} (h : ∀ l k, P l k → Q l k) (hf : AtomsPlain P f) : AtomsPlain Q f := by
  have key : ∀ t : Ast, t.All (fun l k => l.logical = false ∧ P l k) → t.All (fun l k => l.logical = false ∧ Q l k) := by
    intro t ht
    induction ht with
    | node h1 _ ih => exact .node ⟨h1.1, h _ _ h1.2⟩ ih
  exact fun a => ⟨key _ (hf a).1, (hf a).2⟩

/-- `S` of the passes that keep the meaning of every expression. -/
abbrev EquivStep (P : Lab → Nat → Prop) (f : α → Ast) (t t' : Ast) : Prop :=
  t.label.frame = false ∧ Keeps P f (fun _ => True) (fun e e' => Equiv e' e) t t'

theorem bnf_ok {P : Lab → Nat → Prop} {f : α → Ast} (hf : AtomsPlain P f) : RuleOk bnfRule (EquivStep P f) :=
  ruleOk bnf_olds (fun hr => frame_of_logical (bnf_logical hr))
    (fun hr hl _ _ => by rw [bnf_logical hr] at hl; cases hl)
    (fun {_ _ _ _ e} hd hx _ hr hat => ⟨_, trivial, bnf_read hf hd hx hr hat, bnfStep_equiv e⟩) hf

theorem ext_ok {P : Lab → Nat → Prop} {f : α → Ast} (hf : AtomsPlain P f) : RuleOk extRule (EquivStep P f) :=
  ruleOk ext_olds (fun hr => frame_of_logical (ext_logical hr))
    (fun hr hl _ _ => by rw [ext_logical hr] at hl; cases hl)
    (fun {_ _ _ _ e} hd hx _ hr hat => ⟨_, trivial, ext_read hf hd hx hr hat, extStep_equiv e⟩) hf

theorem release_ok {P : Lab → Nat → Prop} {f : α → Ast} (hf : AtomsPlain P f) : RuleOk releaseRule (EquivStep P f) :=
  ruleOk release_olds (fun hr => frame_of_logical (release_logical hr))
    (fun hr hl _ _ => by rw [release_logical hr] at hl; cases hl)
    (fun {_ _ _ _ e} hd hx _ hr hat => ⟨_, trivial, release_read hf hd hx hr hat, releaseStep_equiv e⟩) hf

theorem multi_frame {l : Lab} (h : multiArity l = true) : l.frame = false := by
  rcases multi_cases h with rfl | rfl | rfl | rfl <;> rfl

theorem binary_ok {f : α → Ast} (hf : AtomsPlain twoOperands f) : RuleOk binaryRule (EquivStep twoOperands f) :=
  ruleOk binary_olds (fun hr => multi_frame (binary_fires hr).1)
    (fun {h x b} hr hl hp _ => by
      obtain ⟨hm, c0, c1, c2, rest, hk, _⟩ := binary_fires hr
      rcases multi_cases hm with h1 | h1 | h1 | h1
      · rw [h1] at hl; cases hl
      · rw [h1] at hl; cases hl
      · have := hp (.inl h1); rw [hk] at this; simp at this
      · have := hp (.inr h1); rw [hk] at this; simp at this)
    (fun {_ _ _ _ e} hd hx _ hr hat => ⟨_, trivial, binary_read hf hd hx hr hat, binaryStep_equiv e⟩) hf

theorem flatten_ok {f : α → Ast} (hf : AtomsPlain noSums f) : RuleOk flattenRule (EquivStep noSums f) :=
  ruleOk flatten_olds (fun hr => multi_frame (flatten_fires hr).1)
    (fun {h x b} hr hl hp _ => by
      obtain ⟨hm, _⟩ := flatten_fires hr
      rcases multi_cases hm with h1 | h1 | h1 | h1
      · rw [h1] at hl; cases hl
      · rw [h1] at hl; cases hl
      · exact hp.1 h1
      · exact hp.2 h1)
    (fun {_ _ _ _ e} hd hx _ hr hat => ⟨_, trivial, flatten_read hf hd hx hr hat, flattenStep_equiv e⟩) hf

theorem nnfRule_noXor_root {e : Expr α} (h : Nowhere isXor e) : Nowhere isXor (Transform.nnfRule e) := by
  refine ⟨_, fun hx => ?_, nnfRule_noXor h⟩
  unfold Transform.nnfRule at hx
  split at hx
  case h_1 p => exact (nowhere_iff.1 ((h.child (c := .neg p) (by simp [children])).child (c := p) (by simp [children]))).1 hx
  case h_13 => exact (nowhere_iff.1 h).1 hx
  all_goals exact hx

theorem nnf_ok {P : Lab → Nat → Prop} {f : α → Ast} (hf : AtomsPlain P f) :
    RuleOk nnfRuleG (fun t t' => t.label.frame = false ∧ Keeps P f (Nowhere isXor) (fun e e' => Equiv e' e) t t') :=
  ruleOk nnf_olds (fun hr => frame_of_logical (nnf_logical hr))
    (fun hr hl _ _ => by rw [nnf_logical hr] at hl; cases hl)
    (fun {_ _ _ _ e} hd hx hg hr hat => ⟨_, nnfRule_noXor_root hg, nnf_read hf hd hx hr hat,
      nnfRule_equiv e fun hn => by
        unfold NegXor at hn
        split at hn
        · rename_i l r
          exact (nowhere_iff.1 (hg.child (c := .xor l r) (by simp [children]))).1 trivial
        · exact hn⟩) hf

theorem opt_ok {P : Lab → Nat → Prop} {f : α → Ast} (hf : AtomsPlain P f) (hk : KeySound (str f)) (fuel : Nat) :
    RuleOk (optRule fuel) (fun t t' => t.label.frame = false ∧ Keeps P f (Nowhere optBad) OptRel t t') :=
  ruleOk opt_olds opt_frame (fun hr hl _ hc => opt_plain hr hl hc)
    (fun {_ _ _ _ e} hd hx hg hr hat => by
      obtain ⟨e', h1, h2⟩ := opt_read hf hd hx hr hat
      obtain ⟨e'', h3, h4⟩ := optStep_rel hk e hg
      rw [h1] at h3
      cases h3
      exact ⟨e', h4.good, h2, h4⟩) hf

end R2U2
