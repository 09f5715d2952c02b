import Verif.Lemmas.Pipeline
import Verif.Props.GraphPass
/-
C63: the passes of the command line tool, one after another on the shared graph.
-/
namespace R2U2
open Heap Expr GraphPass
variable {α : Type}

/-- C63.  Whatever passes the command line options choose, when they are through the two sets
hold the same specifications in the same order, with their labels and numbers; every formula
has the verdicts it had; no node reached is one of the operators the monitor does not execute
or has more than two operands.  The atoms may be shared, and the formulas may share nodes
inside a set and between the two sets.

Partial: equality saturation is not one of the passes, sums and products in atoms have at most
two operands, and rewriting is right only on formulas without the known defects
(`C01_optimize_str_partial`). -/
theorem C63_compile_partial {f : α → Ast} (hf : AtomsPlain twoOperands f) (hsep : AtomsSeparate f)
    (hdes : ∀ a, Desugared false (f a)) {o : CliOpts} {h h' : Heap Lab} {n n' fuel ft pt : Nat} {fs ps : List (SpecOf α)}
    (hp : Program f h n ft pt fs ps)
    (hrw : o.rewrite = true → ∀ s ∈ fs ++ ps, Nowhere isDisordered s.2.2 ∧ Nowhere isNonBinary s.2.2 ∧ Nowhere isConstEqual s.2.2)
    (hc : compileG o fuel ft pt (h, n) = some (h', n')) :
    ∃ fs' ps', h'.Holds f ft fs' ∧ h'.Holds f pt ps' ∧ SameSpecs fs fs' ∧ SameSpecs ps ps' ∧
      (∀ s ∈ fs' ++ ps', Nowhere isExtended s.2.2 ∧ Nowhere isWide s.2.2) ∧
      Shaped (fun l k => l.extended = false ∧ atMostTwo l k) h' [ft] ∧
      Shaped (fun l k => l.extended = false ∧ atMostTwo l k) h' [pt] := by
  unfold compileG at hc
  simp only [Option.bind_eq_some_iff, Prod.exists] at hc
  obtain ⟨h1, n1, e1, h2, n2, e2, h3, n3, e3, h4, n4, e4, e5⟩ := hc
  obtain ⟨D2, fs2, ps2, st2, fr2, sf2, sp2, set1, set2, hdisj⟩ := before_cse hf hsep hdes hp hrw e1 e2
  have s3 : ∃ D3, Stage f h3 n3 D3 ft pt fs2 ps2 := by
    split at e3
    · simp only [Option.map_eq_some_iff, Prod.mk.injEq] at e3
      obtain ⟨h3', e3, rfl, rfl⟩ := e3
      obtain ⟨D3, hb, hd⟩ := cse_step st2.between fr2 hp.ne st2.future st2.past set1 set2 hdisj e3
      exact ⟨D3, hb, (hd _ _).1 st2.future, (hd _ _).1 st2.past⟩
    · cases e3; exact ⟨D2, st2⟩
  obtain ⟨D3, st3⟩ := s3
  -- assembling
  obtain ⟨D4, fs4, ps4, k4, _⟩ := binary_stage hf st3 e4
  obtain ⟨D5, fs5, ps5, k5, ⟨w1, w2⟩, x1, x2⟩ := extended_stage hf k4.stage e5
  refine ⟨fs5, ps5, k5.stage.future, k5.stage.past, (sf2.trans k4.fsame).trans k5.fsame,
    (sp2.trans k4.psame).trans k5.psame, fun s hm => ?_, fun z hz => ⟨x1 z hz, w1 z hz⟩, fun z hz => ⟨x2 z hz, w2 z hz⟩⟩
  rcases List.mem_append.1 hm with hm | hm
  · exact ⟨toAst_extended ((holds_shaped k5.stage.future).1 x1 s hm), toAst_wide ((holds_shaped k5.stage.future).1 w1 s hm)⟩
  · exact ⟨toAst_extended ((holds_shaped k5.stage.past).1 x2 s hm), toAst_wide ((holds_shaped k5.stage.past).1 w2 s hm)⟩

/-! ### What single passes leave behind on the shared graph -/

section
variable {f : α → Ast} {h h' : Heap Lab} {n n' fuel ft pt : Nat} {fs ps : List (SpecOf α)}

/-- C63, `to_bnf`: no node that can be reached is `||`, `->`, `xor`, `F`, `G` or `R`. -/
theorem C63_to_bnf_shape {P : Lab → Nat → Prop} (hf : AtomsPlain P f) (hp : Program f h n ft pt fs ps)
    (hc : toBnfG fuel ft pt (h, n) = some (h', n')) :
    Shaped (fun l _ => l.bnfGone = false) h' [ft] ∧ Shaped (fun l _ => l.bnfGone = false) h' [pt] := by
  obtain ⟨_, _, _, _, h1, h2, _⟩ := pass_step hf relOk_equiv (bnf_ok hf) bnf_shape hp.start.1.between hc
  exact ⟨h1, h2⟩

/-- C63, `remove_release_operators`: no node that can be reached is `R`. -/
theorem C63_remove_release_shape {P : Lab → Nat → Prop} (hf : AtomsPlain P f) (hp : Program f h n ft pt fs ps)
    (hc : removeReleaseG fuel ft pt (h, n) = some (h', n')) :
    Shaped (fun l _ => l.release = false) h' [ft] ∧ Shaped (fun l _ => l.release = false) h' [pt] := by
  obtain ⟨_, _, _, _, h1, h2, _⟩ := pass_step hf relOk_equiv (release_ok hf) release_shape hp.start.1.between hc
  exact ⟨h1, h2⟩

/-- C63, `multi_operators_to_binary`: no node that can be reached is `&&`, `||`, `+` or `*` with more
than two operands. -/
theorem C63_to_binary_shape (hf : AtomsPlain twoOperands f) (hp : Program f h n ft pt fs ps)
    (hc : toBinaryG fuel ft pt (h, n) = some (h', n')) : Shaped atMostTwo h' [ft] ∧ Shaped atMostTwo h' [pt] := by
  obtain ⟨_, _, _, _, h1, h2⟩ := binary_stage hf hp.start.1 hc
  exact ⟨h1, h2⟩

/-- C63, `remove_extended_operators`: no node that can be reached is `->`, `xor`, `F`, `G`, `O`, `H`
or an operator with more than two operands. -/
theorem C63_remove_extended_shape (hf : AtomsPlain twoOperands f) (hp : Program f h n ft pt fs ps)
    (hc : removeExtendedG fuel ft pt (h, n) = some (h', n')) :
    Shaped (fun l k => l.extended = false ∧ atMostTwo l k) h' [ft] ∧ Shaped (fun l k => l.extended = false ∧ atMostTwo l k) h' [pt] := by
  obtain ⟨_, _, _, _, ⟨w1, w2⟩, x1, x2⟩ := extended_stage hf hp.start.1 hc
  exact ⟨fun z hz => ⟨x1 z hz, w1 z hz⟩, fun z hz => ⟨x2 z hz, w2 z hz⟩⟩
end

/-! ### A program -/

theorem gpHeap_program : Program exAtom gpHeap 8 0 7 [("a", 0, .and [gpD, gpD]), ("b", 1, .neg gpD)] [] where
  below := gpHeap_ok.1
  acyclic := gpHeap_ok.2.1
  parents := by
    intro p c hc
    match p, hc with
    | 0, hc | 1, hc | 2, hc | 3, hc | 4, hc | 5, hc =>
      simp only [gpHeap, List.mem_cons, List.not_mem_nil, or_false] at hc
      rcases hc with rfl | rfl <;> simp [gpHeap]
    | _ + 6, hc => simp [gpHeap] at hc
  ft_lt := by decide
  pt_lt := by decide
  ne := by decide
  ft_top := rfl
  pt_top := rfl
  future := ⟨8, rfl⟩
  past := ⟨1, rfl⟩
  idents := by
    intro s hs
    simp only [List.append_nil, List.mem_cons, List.not_mem_nil, or_false] at hs
    rcases hs with rfl | rfl
    · exact ident_a
    · exact ident_b
  labels := by simp
  operands := by
    have leaf : Nowhere isEmptyOp gpD :=
      ⟨_, by simp [gpD, isEmptyOp], by
        intro c hc
        simp only [gpD, children, List.mem_singleton] at hc
        subst hc
        exact ⟨_, by simp [isEmptyOp], by simp [children]⟩⟩
    intro s hs
    simp only [List.append_nil, List.mem_cons, List.not_mem_nil, or_false] at hs
    rcases hs with rfl | rfl
    · exact ⟨_, by simp [isEmptyOp], by simp [children, leaf]⟩
    · exact ⟨_, by simp [isEmptyOp], by simp [children, leaf]⟩

/-- With the options as they are by default, and with all of them reversed, compiling ends. -/
example : (compileG ⟨true, false, true⟩ 40 0 7 (gpHeap, 8)).isSome = true := by decide +kernel
example : (compileG ⟨false, true, false⟩ 40 0 7 (gpHeap, 8)).isSome = true := by decide +kernel

end R2U2
