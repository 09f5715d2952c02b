import Verif.Lemmas.CompileRel
import Verif.Props.Pipeline
/-
What the chain of passes keeps of the specifications the monitor gets right.
-/
namespace R2U2
open Heap Expr GraphPass
variable {α : Type}

/-- A specification before and after passes. -/
structure Tracked (past : Bool) (s s' : SpecOf α) : Prop where
  label : s'.1 = s.1
  number : s'.2.1 = s.2.1
  plain : Nowhere (odd past) s'.2.2
  varies : ¬ isConst s'.2.2
  equiv : Equiv s'.2.2 s.2.2
  span : span past s'.2.2 ≤ span past s.2.2

/-- The program after passes, with the specifications it was made from. -/
structure On (f : α → Ast) (h : Heap Lab) (n ft pt : Nat) (fs0 ps0 fs ps : List (SpecOf α)) : Prop where
  below : h.Below n
  acyclic : h.Acyclic
  ft_lt : ft < n
  pt_lt : pt < n
  apart : Apart h ft pt
  future : h.Holds f ft fs
  past : h.Holds f pt ps
  ftrack : List.Forall₂ (Tracked false) fs0 fs
  ptrack : List.Forall₂ (Tracked true) ps0 ps

theorem tracked_comp {past : Bool} {as bs cs : List (SpecOf α)} {P : SpecOf α → SpecOf α → Prop} (h1 : List.Forall₂ (Tracked past) as bs)
    (h2 : List.Forall₂ P bs cs) (h : ∀ a b c, Tracked past a b → P b c → Tracked past a c) : List.Forall₂ (Tracked past) as cs := by
  induction h1 generalizing cs with
  | nil => cases h2; exact .nil
  | cons x _ ih => cases h2 with | cons y ys => exact .cons (h _ _ _ x y) (ih ys)

theorem plain_on {P : Lab → Nat → Prop} {f : α → Ast} (hf : AtomsPlain P f) {rule : Rule Lab}
    (hR : ∀ past, RuleOk rule (PlainStep P f past)) {h h' : Heap Lab} {n n' fuel ft pt : Nat} {fs0 ps0 fs ps : List (SpecOf α)}
    (ho : On f h n ft pt fs0 ps0 fs ps) (hp : postPass rule fuel ft pt (h, n) = some (h', n')) :
    ∃ fs' ps', On f h' n' ft pt fs0 ps0 fs' ps' := by
  have i1 := postPass_ok (hR false) ho.below ho.acyclic ho.ft_lt ho.pt_lt hp
  have i2 := postPass_ok (hR true) ho.below ho.acyclic ho.ft_lt ho.pt_lt hp
  obtain ⟨fs', a1, a2⟩ := holds_of_inv hf (relOk_plain false) i1 ho.ft_lt ho.future (fun s hs => by
    obtain ⟨_, _, h⟩ := forall2_mem_left ho.ftrack.flip hs; exact h.plain)
  obtain ⟨ps', b1, b2⟩ := holds_of_inv hf (relOk_plain true) i2 ho.pt_lt ho.past (fun s hs => by
    obtain ⟨_, _, h⟩ := forall2_mem_left ho.ptrack.flip hs; exact h.plain)
  have comp : ∀ (past : Bool) (a b c : SpecOf α), Tracked past a b →
      (c.1 = b.1 ∧ c.2.1 = b.2.1 ∧ Nowhere (odd past) c.2.2 ∧ PlainRel b.2.2 c.2.2) → Tracked past a c := by
    intro past a b c h1 h2
    exact ⟨h2.1.trans h1.label, h2.2.1.trans h1.number, h2.2.2.1, fun h => h1.varies (h2.2.2.2.isConst h), h2.2.2.2.equiv.trans h1.equiv,
      le_trans (h2.2.2.2.span past) h1.span⟩
  exact ⟨fs', ps', i1.below, i1.acyclic, lt_of_lt_of_le ho.ft_lt i1.le, lt_of_lt_of_le ho.pt_lt i1.le,
    postPass_apart (hR false) ho.below ho.acyclic ho.ft_lt ho.pt_lt ho.apart hp, a1, b1,
    tracked_comp ho.ftrack a2 (comp false), tracked_comp ho.ptrack b2 (comp true)⟩

theorem extended_on {f : α → Ast} (hf : AtomsPlain twoOperands f) {h h' : Heap Lab} {n n' fuel ft pt : Nat} {fs0 ps0 fs ps : List (SpecOf α)}
    (ho : On f h n ft pt fs0 ps0 fs ps) (hp : removeExtendedG fuel ft pt (h, n) = some (h', n')) :
    ∃ fs' ps', On f h' n' ft pt fs0 ps0 fs' ps' := by
  unfold removeExtendedG at hp
  rw [Option.bind_eq_some_iff] at hp
  obtain ⟨⟨h1, n1⟩, hp1, hp2⟩ := hp
  obtain ⟨fs1, ps1, o1⟩ := plain_on hf (binary_plain hf) ho hp1
  exact plain_on hf (ext_plain hf) o1 hp2

theorem rewrite_on {P : Lab → Nat → Prop} {f : α → Ast} (hf : AtomsPlain P f) (hk : KeyInj (str f))
    {h h' : Heap Lab} {n n' fuel ft pt : Nat} {fs ps : List (SpecOf α)} (hb : h.Below n) (ha : h.Acyclic) (hft : ft < n) (hpt : pt < n)
    (hx : Apart h ft pt) (h1 : h.Holds f ft fs) (h2 : h.Holds f pt ps)
    (hfs : ∀ s ∈ fs, Nowhere (rwBad false) s.2.2) (hps : ∀ s ∈ ps, Nowhere (rwBad true) s.2.2)
    (hp : optimizeG fuel ft pt (h, n) = some (h', n')) :
    ∃ fs' ps', On f h' n' ft pt fs ps fs' ps' := by
  have i1 := postPass_ok (opt_rw hf hk fuel false) hb ha hft hpt hp
  have i2 := postPass_ok (opt_rw hf hk fuel true) hb ha hft hpt hp
  obtain ⟨fs', a1, a2⟩ := holds_of_inv hf (relOk_rw false) i1 hft h1 hfs
  obtain ⟨ps', b1, b2⟩ := holds_of_inv hf (relOk_rw true) i2 hpt h2 hps
  have tr : ∀ (past : Bool) (b c : SpecOf α), (c.1 = b.1 ∧ c.2.1 = b.2.1 ∧ Nowhere (rwBad past) c.2.2 ∧ RwRel past b.2.2 c.2.2) → Tracked past b c :=
    fun past b c h => ⟨h.1, h.2.1, (odd_of_rwBad h.2.2.1).1, (odd_of_rwBad h.2.2.1).2, h.2.2.2.equiv, h.2.2.2.span⟩
  exact ⟨fs', ps', i1.below, i1.acyclic, lt_of_lt_of_le hft i1.le, lt_of_lt_of_le hpt i1.le,
    postPass_apart (opt_rw hf hk fuel false) hb ha hft hpt hx hp, a1, b1, a2.imp fun _ _ h => tr _ _ _ h, b2.imp fun _ _ h => tr _ _ _ h⟩

/-- The chain. -/
theorem compile_on {f : α → Ast} (hf : AtomsPlain twoOperands f) (hsep : AtomsSeparate f)
    (hdes : ∀ a, Desugared false (f a)) {o : CliOpts} {h h' : Heap Lab} {n n' fuel ft pt : Nat} {fs ps : List (SpecOf α)}
    (hp : Program f h n ft pt fs ps) (hx : Apart h ft pt) (hfs : ∀ s ∈ fs, Fit o false s.2.2) (hps : ∀ s ∈ ps, Fit o true s.2.2)
    (hc : compileG o fuel ft pt (h, n) = some (h', n')) :
    ∃ fs' ps', On f h' n' ft pt fs ps fs' ps' ∧ (∀ s ∈ fs' ++ ps', Nowhere isExtended s.2.2 ∧ Nowhere isWide s.2.2) ∧
      Shaped (fun l k => l.extended = false ∧ atMostTwo l k) h' [ft] ∧
      Shaped (fun l k => l.extended = false ∧ atMostTwo l k) h' [pt] := by
  have hrwF : o.rewrite = true → ∀ s ∈ fs, Nowhere (rwBad false) s.2.2 := fun hr s hs => rwBad_of (hfs s hs).plain ((hfs s hs).rewritable hr)
  have hrwP : o.rewrite = true → ∀ s ∈ ps, Nowhere (rwBad true) s.2.2 := fun hr s hs => rwBad_of (hps s hs).plain ((hps s hs).rewritable hr)
  have hrw : o.rewrite = true → ∀ s ∈ fs ++ ps, Nowhere isDisordered s.2.2 ∧ Nowhere isNonBinary s.2.2 ∧ Nowhere isConstEqual s.2.2 := by
    intro hr s hs
    have : Nowhere optBad s.2.2 := by
      rcases List.mem_append.1 hs with h | h
      · exact rwBad_opt (hrwF hr s h)
      · exact rwBad_opt (hrwP hr s h)
    exact ⟨this.mono fun _ h => .inl h, this.mono fun _ h => .inr (.inl h), this.mono fun _ h => .inr (.inr h)⟩
  obtain ⟨fsC, psC, _, _, _, _, _, x1, x2⟩ := C63_compile_partial hf hsep hdes hp hrw hc
  unfold compileG at hc
  simp only [Option.bind_eq_some_iff, Prod.exists] at hc
  obtain ⟨h1, n1, e1, h2, n2, e2, h3, n3, e3, h4, n4, e4, e5⟩ := hc
  have o1 : ∃ fs' ps', On f h1 n1 ft pt fs ps fs' ps' := by
    have e1' := e1
    split at e1'
    · rename_i hr
      exact rewrite_on hf (C17_str_separates hsep hdes) hp.below hp.acyclic hp.ft_lt hp.pt_lt hx hp.future hp.past (hrwF hr) (hrwP hr) e1'
    · cases e1'
      exact ⟨fs, ps, hp.below, hp.acyclic, hp.ft_lt, hp.pt_lt, hx, hp.future, hp.past,
        List.forall₂_same.2 fun s hs => ⟨rfl, rfl, (hfs s hs).plain, (hfs s hs).varies, Equiv.refl _, le_refl _⟩,
        List.forall₂_same.2 fun s hs => ⟨rfl, rfl, (hps s hs).plain, (hps s hs).varies, Equiv.refl _, le_refl _⟩⟩
  obtain ⟨fs1, ps1, o1⟩ := o1
  have o2 : ∃ fs' ps', On f h2 n2 ft pt fs ps fs' ps' := by
    have e2' := e2
    split at e2'
    · cases e2'; exact ⟨_, _, o1⟩
    · exact extended_on hf o1 e2'
  obtain ⟨fs2, ps2, o2⟩ := o2
  have o3 : ∃ fs' ps', On f h3 n3 ft pt fs ps fs' ps' := by
    split at e3
    · simp only [Option.map_eq_some_iff, Prod.mk.injEq] at e3
      obtain ⟨h3', e3, rfl, rfl⟩ := e3
      obtain ⟨D2, fsB, psB, st2, fr2, _, _, set1, set2, hdisj⟩ := before_cse hf hsep hdes hp hrw e1 e2
      obtain ⟨D3, hb, hd⟩ := cse_step st2.between fr2 hp.ne st2.future st2.past set1 set2 hdisj e3
      exact ⟨fs2, ps2, hb.below, hb.acyclic, o2.ft_lt, o2.pt_lt, optimizeCse_apart o2.below o2.ft_lt o2.pt_lt o2.apart e3,
        (hd _ _).1 o2.future, (hd _ _).1 o2.past, o2.ftrack, o2.ptrack⟩
    · cases e3; exact ⟨_, _, o2⟩
  obtain ⟨fs3, ps3, o3⟩ := o3
  obtain ⟨fs4, ps4, o4⟩ := plain_on hf (binary_plain hf) o3 e4
  obtain ⟨fs5, ps5, o5⟩ := extended_on hf o4 e5
  refine ⟨fs5, ps5, o5, fun s hm => ?_, x1, x2⟩
  rcases List.mem_append.1 hm with hm | hm
  · exact ⟨toAst_extended ((holds_shaped o5.future).1 (fun z hz => (x1 z hz).1) s hm),
      toAst_wide ((holds_shaped o5.future).1 (fun z hz => (x1 z hz).2) s hm)⟩
  · exact ⟨toAst_extended ((holds_shaped o5.past).1 (fun z hz => (x2 z hz).1) s hm),
      toAst_wide ((holds_shaped o5.past).1 (fun z hz => (x2 z hz).2) s hm)⟩

end R2U2
