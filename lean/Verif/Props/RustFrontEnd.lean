import Verif.Props.FrontEnd
import Verif.Props.RustCompile
/-
C69: from the text of a program to the verdicts of the Rust monitor.
-/
namespace R2U2
open Heap Expr GraphPass

/-- C69.  As C65, with the Rust monitor: the text of a program is parsed, type-checked and desugared; the formulas, in memory, go through the passes the
options choose and are assembled.  The Rust monitor, with arrays no smaller than the bounds written with the binary and an output buffer with room for all the
verdicts one step can bring, loads it, and at every time step of every run, for every specification of the text (three formulas for a contract) what it
reports under the specification's number is what the specification as written means on the inputs, the input at index `sid s` being the signal `s`.
Future-time verdicts come within the number of steps the desugared formula looks ahead, past-time ones at once.

Partial: as C65 and C67. -/
theorem C69_text_to_rust_partial {F : Type} {I : Interp F} {flt : String → String} {mission : Int} {text : List Char} {secs : List C2po.Section}
    (hparse : C2po.parse flt mission text = some secs)
    {Γ₀ Γ : TcCtx} {fuel₀ : Nat} {secs' : List Sec} {fsrc psrc : List (String × Nat × Src)}
    (hfront : frontEnd Γ₀ fuel₀ secs = some ((secs', Γ), fsrc, psrc))
    (hI : I.Fits Γ.scalarDecls) (hD : Γ.scalarDecls.Apart)
    {N : Scope} (hN : N.Declares (fun s d => nameOf (secs', Γ) s = some d) Γ.scalarDecls)
    (hr : ∀ past, ∀ s ∈ specsOf past secs', ∀ e ∈ s.exprs, e.Proper Γ.scalarDecls N (nameOf (secs', Γ)))
    {S : List String} (hS : ∀ s ∈ S, IsIdent s) {fs ps : List (SpecOf {s : String // s ∈ S})}
    (hf : Src.toSpecs S fsrc = some fs) (hp : Src.toSpecs S psrc = some ps)
    {o : CliOpts} {b : BackEnd} {h : Heap Lab} {n ft pt fuel : Nat} (hm : InMemory h n ft pt fsrc psrc) (hx : Apart h ft pt)
    (hfs : ∀ s ∈ fs, Fit o false s.2.2) (hps : ∀ s ∈ ps, Fit o true s.2.2)
    (hkf : ∀ s ∈ fs, span false s.2.2 ≤ b.slack) (hkp : ∀ s ∈ ps, span true s.2.2 ≤ b.slack)
    (hsid : ∀ s ∈ S, 0 ≤ b.sid s) {bytes : List Nat} {bounds : Bounds}
    (hc : compileBinary o b fuel ft pt (h, n) = some (bytes, bounds)) (hat : ∀ s ∈ S, b.sid s < bounds.maxAtomics)
    (lim : Rs.Limits) (hlim : Rs.Covers lim bounds)
    (hcap : (fs.map fun s => span false s.2.2 + 1).sum + (ps.map fun s => span true s.2.2 + 1).sum ≤ lim.outputs) :
    ∃ bound, ∀ fuel, bound ≤ fuel → ∃ M0, Rs.getMonitor lim fuel bytes = some M0 ∧
      ∀ (inp : Nat → Nat → Bool) (T : Nat), T + b.slack < 2 ^ 32 →
        ∃ M out, M0.run fuel inp T = some (M, out) ∧
          ∀ ρ : Env F, ρ.Fits Γ.scalarDecls Scope.empty → ρ.Respects (fun s d => nameOf (secs', Γ) s = some d) I →
            (∀ s ∈ S, ∀ t, ρ.sig s t = .bool (inp t (b.sid s).toNat)) →
            List.Forall₂ (fun v f => v.1 = f.2.1 ∧ Answers (fun t => v.2 t = true) (Rs.reports out v.1) ∧
                ∀ t, t + span false f.2.2 < T → ∃ u ∈ Rs.reports out v.1, t ≤ u.time)
              ((specsOf true secs').flatMap (Spec.verdicts I ρ)) fs ∧
            List.Forall₂ (fun v f => v.1 = f.2.1 ∧ Answers (fun t => v.2 t = true) (Rs.reports out v.1) ∧
                ∀ t, t < T → ∃ u ∈ Rs.reports out v.1, t ≤ u.time)
              ((specsOf false secs').flatMap (Spec.verdicts I ρ)) ps := by
  obtain ⟨hprog, hnum, hv⟩ := text_program hparse hfront hI hD hN hr hf hp hm hfs hps
  obtain ⟨bound, c3⟩ := C67_rust_compile_and_run_partial (nm := Subtype.val) Subtype.val_injective (fun a => hS a.1 a.2) hprog hx hnum
    hfs hps hkf hkp (fun a => hsid a.1 a.2) hc (fun a => hat a.1 a.2) lim hlim hcap
  refine ⟨bound, fun fuel hfuel => ?_⟩
  obtain ⟨M0, c4, c5⟩ := c3 fuel hfuel
  refine ⟨M0, c4, fun inp T hT => ?_⟩
  obtain ⟨M, out, d1, d2, d3⟩ := c5 inp T hT
  refine ⟨M, out, d1, fun ρ hρ hres hsig => ?_⟩
  have hπ : ∀ (s : {s : String // s ∈ S}) (i : Nat), ∃ c, ρ.sig s.1 i = .bool c ∧ (c = true ↔ inp i (b.sid s.1).toNat = true) :=
    fun s i => ⟨_, hsig s.1 s.2 i, Iff.rfl⟩
  obtain ⟨f4, p4⟩ := hv ρ (fun t a => inp t (b.sid a.1).toNat = true) hρ hres hπ
  refine ⟨(forall2_with f4 d2).imp ?_, (forall2_with p4 d3).imp ?_⟩
  all_goals
    rintro v f ⟨⟨a1, a2⟩, a3, a4⟩
    rw [a1]
    refine ⟨rfl, ?_, a4⟩
    rw [funext fun t => propext (a2 t)]
    exact a3

namespace FE

/-- All the hypotheses of C69 hold of the text of C65, with the bounds written for it and room for fifteen verdicts a step. -/
example : C2po.parse id (-1) feText = some parsed ∧ frontEnd {} 30 parsed = some ((secs, ctx), fsrc, psrc) ∧
    ∃ bytes bounds, compileBinary ⟨true, false, true⟩ back 100 0 17 (heap, 21) = some (bytes, bounds) ∧
      ∃ bound, ∀ fuel, bound ≤ fuel → ∃ M0, Rs.getMonitor { bounds.rust 5 with outputs := 15 } fuel bytes = some M0 ∧
        ∀ (inp : Nat → Nat → Bool) (T : Nat), T + 3 < 2 ^ 32 →
          ∃ M out, M0.run fuel inp T = some (M, out) ∧
            Answers (fun t => (specA.sem interp (env inp) t).isTrue = true) (Rs.reports out 0) ∧
            Answers (fun t => (Oy.sem interp (env inp) t).isTrue = true) (Rs.reports out 4) ∧
            ∀ t, t + 2 < T → ∃ u ∈ Rs.reports out 0, t ≤ u.time := by
  refine ⟨parse_eq, front, ?_⟩
  have hm : (compileBinary ⟨true, false, true⟩ back 100 0 17 (heap, 21)).map
    (fun r => (r.2.maxAtomics, decide (0 ≤ r.2.maxQueueSlots ∧ r.2.maxQueueSlots ≤ 2 ^ 32))) = some (2, true) := by decide +kernel
  obtain ⟨⟨bytes, bounds⟩, hr, hb⟩ := Option.map_eq_some_iff.1 hm
  simp only [Prod.mk.injEq, decide_eq_true_eq] at hb
  obtain ⟨hb, hb1, hb2⟩ := hb
  refine ⟨bytes, bounds, hr, ?_⟩
  obtain ⟨bound, c3⟩ := C69_text_to_rust_partial (I := interp) (b := back) parse_eq front ⟨rfl, rfl, fun _ _ _ _ _ _ => .err⟩
    (by intro s n ms hs hm; simp [TcCtx.scalarDecls, TcCtx.decls, ctx] at hm) declares proper_all
    (by
      intro s hs
      simp only [List.mem_cons, List.not_mem_nil, or_false] at hs
      rcases hs with rfl | rfl <;> exact ident rfl (by decide) (by decide) (by decide) (by decide))
    fs_eq ps_eq inMemory apart fit_f fit_p
    (by intro s hs; simp only [fs, List.mem_cons, List.not_mem_nil, or_false] at hs; rcases hs with rfl | rfl | rfl | rfl <;> simp [span, spanL, back, X, Y])
    (by intro s hs; simp only [ps, List.mem_cons, List.not_mem_nil, or_false] at hs; subst hs; simp [span, back, Y])
    (by decide) hr (by rw [hb]; decide) { bounds.rust 5 with outputs := 15 }
    ⟨Nat.le_refl _, Nat.le_refl _, by simp only [Bounds.rust]; omega, by simp only [Bounds.rust]; omega⟩
    (by simp [fs, ps, span, spanL, X, Y])
  refine ⟨bound, fun fuel hfuel => ?_⟩
  obtain ⟨M0, c4, c5⟩ := c3 fuel hfuel
  refine ⟨M0, c4, fun inp T hT => ?_⟩
  obtain ⟨M, out, d1, d2⟩ := c5 inp T hT
  obtain ⟨d3, d4⟩ := d2 (env inp) (env_fits inp) (env_respects inp) (fun s _ t => rfl)
  have v1 : (specsOf true secs).flatMap (Spec.verdicts interp (env inp)) =
      [(0, fun t => (specA.sem interp (env inp) t).isTrue), (1, fun t => ((var "d").sem interp (env inp) t).isTrue),
       (2, fun t => !((var "d").sem interp (env inp) t).isTrue || (Fy.sem interp (env inp) t).isTrue),
       (3, fun t => ((var "d").sem interp (env inp) t).isTrue && (Fy.sem interp (env inp) t).isTrue)] := rfl
  have v2 : (specsOf false secs).flatMap (Spec.verdicts interp (env inp)) = [(4, fun t => (Oy.sem interp (env inp) t).isTrue)] := rfl
  rw [v1] at d3
  rw [v2] at d4
  simp only [fs, ps, List.forall₂_cons] at d3 d4
  exact ⟨M, out, d1, d3.1.2.1, d4.1.2.1, d3.1.2.2⟩

end FE
end R2U2
