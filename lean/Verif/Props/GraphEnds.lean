import Verif.Lemmas.PipelineEnds
import Verif.Props.Pipeline
/-
C62 and C63: the passes come to an end on every program.  They change the graph while they
walk over it and put new nodes into it, so this is not a matter of course.  In the model a
pass has a bound on the number of steps, `fuel`; what is shown is that from some bound on
the result exists and no longer depends on it.
-/
namespace R2U2
open Heap Expr GraphPass
variable {α : Type}

section
variable {P : Lab → Nat → Prop} {f : α → Ast} {h : Heap Lab} {n ft pt : Nat} {fs ps : List (SpecOf α)}

/-- C62, `to_bnf` ends. -/
theorem C62_to_bnf_ends (hf : AtomsPlain P f) (hp : Program f h n ft pt fs ps) :
    ∃ N r, ∀ fuel ≥ N, toBnfG fuel ft pt (h, n) = some r :=
  have ⟨N, r, e, _⟩ := bnf_ends h n ft pt hp.below hp.acyclic hp.ft_lt hp.pt_lt (pair_fits hf (by simp) hp.future hp.past (by simp))
  ⟨N, r, e⟩

/-- C62, `to_nnf` ends.  It puts negations above subformulas it has not visited yet, and
visits them again. -/
theorem C62_to_nnf_ends (hf : AtomsPlain P f) (hp : Program f h n ft pt fs ps) :
    ∃ N r, ∀ fuel ≥ N, toNnfG fuel ft pt (h, n) = some r :=
  have ⟨N, r, e, _⟩ := NnfEnds.nnf_ends hp.below hp.acyclic hp.ft_lt hp.pt_lt (pair_fits hf (by simp) hp.future hp.past (by simp))
  ⟨N, r, e⟩

/-- C62, `multi_operators_to_binary` ends. -/
theorem C62_to_binary_ends (hf : AtomsPlain P f) (hp : Program f h n ft pt fs ps) :
    ∃ N r, ∀ fuel ≥ N, toBinaryG fuel ft pt (h, n) = some r :=
  have ⟨N, r, e, _⟩ := binary_ends false h n ft pt hp.below hp.acyclic hp.ft_lt hp.pt_lt
    (pair_fits hf (by simp) hp.future hp.past (by simp))
  ⟨N, r, e⟩

/-- C62, `flatten_multi_operators` ends. -/
theorem C62_flatten_ends (hf : AtomsPlain P f) (hp : Program f h n ft pt fs ps) :
    ∃ N r, ∀ fuel ≥ N, flattenG fuel ft pt (h, n) = some r :=
  have ⟨N, r, e, _⟩ := flatten_ends h n ft pt hp.below hp.acyclic hp.ft_lt hp.pt_lt (pair_fits hf (by simp) hp.future hp.past (by simp))
  ⟨N, r, e⟩

/-- C62, `remove_extended_operators` ends. -/
theorem C62_remove_extended_ends (hf : AtomsPlain P f) (hp : Program f h n ft pt fs ps) :
    ∃ N r, ∀ fuel ≥ N, removeExtendedG fuel ft pt (h, n) = some r :=
  have ⟨N, r, e, _⟩ := extended_ends hp.below hp.acyclic hp.ft_lt hp.pt_lt
    (pair_fits hf (s := false) (by simp) hp.future hp.past (by simp))
  ⟨N, r, e⟩

/-- C62, `remove_release_operators` ends. -/
theorem C62_remove_release_ends (hf : AtomsPlain P f) (hp : Program f h n ft pt fs ps) :
    ∃ N r, ∀ fuel ≥ N, removeReleaseG fuel ft pt (h, n) = some r :=
  have ⟨N, r, e, _⟩ := release_ends false h n ft pt hp.below hp.acyclic hp.ft_lt hp.pt_lt
    (pair_fits hf (by simp) hp.future hp.past (by simp))
  ⟨N, r, e⟩

/-- C62, `optimize_rewrites` ends, and does not stop with an index error, when `&&`, `||` and
`==` have two operands.  It visits a shared node once for every path that leads to it and
rewrites it each time. -/
theorem C62_optimize_ends (hf : AtomsPlain P f) (heq : ∀ a, (f a).All fun l k => l = .op .eq → 2 ≤ k)
    (hp : Program f h n ft pt fs ps) (hb : ∀ s ∈ fs ++ ps, Nowhere isNonBinary s.2.2) :
    ∃ N r, ∀ fuel ≥ N, optimizeG fuel ft pt (h, n) = some r :=
  have ⟨N, r, e, _⟩ := opt_ends h n ft pt hp.below hp.acyclic hp.ft_lt hp.pt_lt
    (pair_fits hf (fun _ => heq) hp.future hp.past fun _ => hb)
  ⟨N, r, e⟩
end

/-- C63: whatever passes the options choose, compiling ends, and what comes out is as in
`C63_compile_partial`: the same specifications with the same labels and numbers and verdicts,
without operators the monitor does not execute.

Partial for the same reasons, and `==` in atoms has two operands (as the parser builds it). -/
theorem C63_compile_total_partial {f : α → Ast} (hf : AtomsPlain twoOperands f) (hsep : AtomsSeparate f)
    (hdes : ∀ a, Desugared false (f a)) (heq : ∀ a, (f a).All fun l k => l = .op .eq → 2 ≤ k)
    {o : CliOpts} {h : Heap Lab} {n ft pt : Nat} {fs ps : List (SpecOf α)} (hp : Program f h n ft pt fs ps)
    (hrw : o.rewrite = true → ∀ s ∈ fs ++ ps, Nowhere isDisordered s.2.2 ∧ Nowhere isNonBinary s.2.2 ∧ Nowhere isConstEqual s.2.2) :
    ∃ N h' n', (∀ fuel ≥ N, compileG o fuel ft pt (h, n) = some (h', n')) ∧
      ∃ fs' ps', h'.Holds f ft fs' ∧ h'.Holds f pt ps' ∧ SameSpecs fs fs' ∧ SameSpecs ps ps' ∧
        ∀ s ∈ fs' ++ ps', Nowhere isExtended s.2.2 ∧ Nowhere isWide s.2.2 := by
  suffices ∃ N r, ∀ fuel ≥ N, compileG o fuel ft pt (h, n) = some r by
    obtain ⟨N, ⟨h', n'⟩, e⟩ := this
    obtain ⟨fs', ps', h1, h2, h3, h4, h5, _⟩ := C63_compile_partial hf hsep hdes hp hrw (e N le_rfl)
    exact ⟨N, h', n', e, fs', ps', h1, h2, h3, h4, h5⟩
  -- rewriting
  have p1 : ∃ N h1 n1, (∀ fuel ≥ N, (if o.rewrite then optimizeG fuel ft pt (h, n) else some (h, n)) = some (h1, n1)) ∧
      n ≤ n1 ∧ h1.Below n1 ∧ h1.Acyclic ∧ Shaped (Lab.fits false) h1 [ft, pt] := by
    split
    · rename_i hr
      obtain ⟨N, r, e, l, b, a, s⟩ := opt_ends h n ft pt hp.below hp.acyclic hp.ft_lt hp.pt_lt
        (pair_fits hf (fun _ => heq) hp.future hp.past fun _ s hs => (hrw hr s hs).2.1)
      exact ⟨N, r.1, r.2, e, l, b, a, fun z hz => fits_weaken (s z hz)⟩
    · exact ⟨0, h, n, fun _ _ => rfl, le_rfl, hp.below, hp.acyclic, pair_fits hf (by simp) hp.future hp.past (by simp)⟩
  obtain ⟨N1, h1, n1, e1, l1, b1, a1, s1⟩ := p1
  -- extended operators
  have p2 : ∃ N h2 n2, (∀ fuel ≥ N, (if o.extops then some (h1, n1) else removeExtendedG fuel ft pt (h1, n1)) = some (h2, n2)) ∧
      n1 ≤ n2 ∧ h2.Below n2 ∧ h2.Acyclic ∧ Shaped (Lab.fits false) h2 [ft, pt] := by
    split
    · exact ⟨0, h1, n1, fun _ _ => rfl, le_rfl, b1, a1, s1⟩
    · obtain ⟨N, r, e, l, b, a, s⟩ := extended_ends b1 a1 (by have := hp.ft_lt; omega) (by have := hp.pt_lt; omega) s1
      exact ⟨N, r.1, r.2, e, l, b, a, s⟩
  obtain ⟨N2, h2, n2, e2, l2, b2, a2, s2⟩ := p2
  obtain ⟨D2, fs2, ps2, st2, fr2, _, _, set1, set2, hdisj⟩ :=
    before_cse hf hsep hdes hp hrw (e1 (max N1 N2) (by omega)) (e2 (max N1 N2) (by omega))
  -- common sub-expressions
  have p3 : ∃ N h3, (∀ fuel ≥ N, (if o.cse then (optimizeCse prefixStr fuel h2 ft pt).map (·, n2) else some (h2, n2)) = some (h3, n2)) ∧
      h3.Below n2 ∧ h3.Acyclic ∧ Shaped (Lab.fits false) h3 [ft, pt] := by
    split
    · obtain ⟨N, h3, e⟩ := cse_ends st2.between fr2 hp.ne st2.future st2.past set1 set2
      obtain ⟨D3, hb, hd⟩ := cse_step st2.between fr2 hp.ne st2.future st2.past set1 set2 hdisj (e N le_rfl)
      exact ⟨N, h3, fun fuel hm => by rw [e fuel hm]; rfl, hb.below, hb.acyclic,
        pair_fits hf (by simp) ((hd _ _).1 st2.future) ((hd _ _).1 st2.past) (by simp)⟩
    · exact ⟨0, h2, fun _ _ => rfl, b2, a2, s2⟩
  obtain ⟨N3, h3, e3, b3, a3, s3⟩ := p3
  -- assembling
  have hft := hp.ft_lt
  have hpt := hp.pt_lt
  obtain ⟨N4, ⟨h4, n4⟩, e4, l4, b4, a4, s4⟩ := binary_ends false h3 n2 ft pt b3 a3 (by omega) (by omega) s3
  simp only at l4 b4 a4 s4
  obtain ⟨N5, r, e5, _⟩ := extended_ends b4 a4 (by omega : ft < n4) (by omega : pt < n4) s4
  refine ⟨max (max N1 N2) (max N3 (max N4 N5)), r, fun fuel hm => ?_⟩
  have e4' := e4 fuel (by omega)
  simp only [plain] at e4'
  simp only [compileG, e1 fuel (by omega), e2 fuel (by omega), e3 fuel (by omega), Option.bind_some, toBinaryG, e4', e5 fuel (by omega)]

theorem exAtom_fits : AtomsPlain twoOperands exAtom ∧ ∀ a, (exAtom a).All fun l k => l = .op .eq → 2 ≤ k := by
  refine ⟨fun a => ⟨(exAtom_plain a).1.mono fun l k h => ⟨h.1, h.2.1⟩, (exAtom_plain a).2⟩, fun a => ?_⟩
  cases a with
  | true => exact .node (by simp) (by simp)
  | false =>
    refine .node (by simp) ?_
    simp only [List.mem_cons, List.not_mem_nil, or_false, forall_eq_or_imp, forall_eq]
    exact ⟨.node (by simp) (by simp), .node (by simp) (by simp)⟩

theorem gpD_plain : Nowhere isDisordered gpD ∧ Nowhere isNonBinary gpD ∧ Nowhere isConstEqual gpD := by
  refine ⟨⟨_, by simp [gpD, isDisordered], ?_⟩, ⟨_, by simp [gpD, isNonBinary], ?_⟩, ⟨_, by simp [gpD, isConstEqual], ?_⟩⟩
  all_goals
    intro c hc
    simp only [gpD, children, List.mem_singleton] at hc
    subst hc
    exact ⟨_, by simp [isDisordered, isNonBinary, isConstEqual], by simp [children]⟩

/-- The program of `gpHeap_program`, whose two specifications share a node, is compiled with
the options as they are by default. -/
example : ∃ N h' n', (∀ fuel ≥ N, compileG ⟨true, false, true⟩ fuel 0 7 (gpHeap, 8) = some (h', n')) ∧
    ∃ fs' ps', h'.Holds exAtom 0 fs' ∧ h'.Holds exAtom 7 ps' ∧
      SameSpecs [("a", 0, .and [gpD, gpD]), ("b", 1, .neg gpD)] fs' ∧ SameSpecs [] ps' ∧
      ∀ s ∈ fs' ++ ps', Nowhere isExtended s.2.2 ∧ Nowhere isWide s.2.2 := by
  refine C63_compile_total_partial exAtom_fits.1 exAtom_separate.1 exAtom_separate.2 exAtom_fits.2 gpHeap_program fun _ s hs => ?_
  simp only [List.append_nil, List.mem_cons, List.not_mem_nil, or_false] at hs
  rcases hs with rfl | rfl
  · exact ⟨⟨_, by simp [isDisordered], by simp [children, gpD_plain]⟩, ⟨_, by simp [isNonBinary], by simp [children, gpD_plain]⟩,
      ⟨_, by simp [isConstEqual], by simp [children, gpD_plain]⟩⟩
  · exact ⟨⟨_, by simp [isDisordered], by simp [children, gpD_plain]⟩, ⟨_, by simp [isNonBinary], by simp [children, gpD_plain]⟩,
      ⟨_, by simp [isConstEqual], by simp [children, gpD_plain]⟩⟩

example : (∃ N r, ∀ fuel ≥ N, toNnfG fuel 0 7 (gpHeap, 8) = some r) ∧ ∃ N r, ∀ fuel ≥ N, flattenG fuel 0 7 (gpHeap, 8) = some r :=
  ⟨C62_to_nnf_ends exAtom_plain gpHeap_program, C62_flatten_ends exAtom_plain gpHeap_program⟩

end R2U2
