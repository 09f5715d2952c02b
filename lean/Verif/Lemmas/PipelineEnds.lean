import Verif.Lemmas.GraphEndsNnf
import Verif.Lemmas.Pipeline
/-
The passes of the command line tool end: what the single passes need holds of a program.
-/
namespace R2U2
open Heap Expr GraphPass
variable {α : Type}

theorem reach_pair {h : Heap Lab} {a b z : Nat} : Reachable h [a, b] z ↔ Reachable h [a] z ∨ Reachable h [b] z := by
  constructor
  · intro hz
    induction hz with
    | root h1 =>
      simp only [List.mem_cons, List.not_mem_nil, or_false] at h1
      rcases h1 with rfl | rfl
      · exact .inl .self
      · exact .inr .self
    | kid _ hc ih => exact ih.imp (.kid · hc) (.kid · hc)
  · rintro (hz | hz)
    all_goals
      induction hz with
      | root h1 => exact .root (by rw [List.mem_singleton.1 h1]; simp)
      | kid _ hc ih => exact .kid ih hc

theorem shaped_pair {h : Heap Lab} {Q : Lab → Nat → Prop} {a b : Nat} :
    Shaped Q h [a, b] ↔ Shaped Q h [a] ∧ Shaped Q h [b] := by
  simp only [Shaped, reach_pair]
  exact ⟨fun h => ⟨fun z hz => h z (.inl hz), fun z hz => h z (.inr hz)⟩, fun h z hz => hz.elim (h.1 z) (h.2 z)⟩

theorem Tree.All.mono {L : Type} {P Q : L → Nat → Prop} (hpq : ∀ l k, P l k → Q l k) {t : Tree L} (h : t.All P) : t.All Q := by
  induction h with
  | node h1 _ ih => exact .node (hpq _ _ h1) ih

theorem Tree.All.and {L : Type} {P Q : L → Nat → Prop} {t : Tree L} (h : t.All P) : t.All Q → t.All fun l k => P l k ∧ Q l k := by
  induction h with
  | node h1 _ ih =>
    rintro (⟨h2, h3⟩)
    exact .node ⟨h1, h2⟩ fun t ht => ih t ht (h3 t ht)

theorem fits_weaken {l : Lab} {k : Nat} (h : l.fits true k) : l.fits false k := by
  unfold Lab.fits at *
  split at h <;> simp_all

/-- No operator of the logic: nothing is asked for, except by `optimize_rewrites` of `==`. -/
theorem fits_plain {s : Bool} {l : Lab} {k : Nat} (hl : l.logical = false) (he : s = true → l = .op .eq → 2 ≤ k) : l.fits s k := by
  cases l with
  | op o => cases o <;> simp_all [Lab.logical, Lab.fits]
  | tmp o lb ub => simp [Lab.logical] at hl
  | _ => simp [Lab.fits]

theorem toAst_fits {P : Lab → Nat → Prop} {f : α → Ast} (hf : AtomsPlain P f) {s : Bool}
    (he : s = true → ∀ a, (f a).All fun l k => l = .op .eq → 2 ≤ k) (e : Expr α) :
    (s = true → Nowhere isNonBinary e) → (e.toAst f).All (Lab.fits s) := by
  induction e using childInduction with
  | h e ih =>
    intro hn
    have hk : ∀ c ∈ e.children, (c.toAst f).All (Lab.fits s) :=
      fun c hc => ih c hc fun hs => (nowhere_iff.1 (hn hs)).2 c hc
    cases e
    case atom a =>
      simp only [toAst]
      cases s with
      | false => exact (hf a).1.mono fun l k h => fits_plain h.1 (by simp)
      | true => exact ((hf a).1.and (he rfl a)).mono fun l k h => fits_plain h.1.1 fun _ => h.2
    all_goals
      simp only [children, List.mem_cons, List.not_mem_nil, or_false, forall_eq_or_imp, forall_eq] at hk
      simp only [toAst, toAstL_eq]
      refine .node ?_ ?_
      · simp only [Lab.fits, List.length_cons, List.length_nil, List.length_map]
        all_goals
          first
            | trivial
            | omega
            | (intro hs
               first
                 | omega
                 | (have := (nowhere_iff.1 (hn hs)).1
                    simp only [isNonBinary] at this
                    omega))
      · simp only [List.mem_cons, List.not_mem_nil, or_false, forall_eq_or_imp, forall_eq, List.mem_map,
          forall_exists_index, and_imp, forall_apply_eq_imp_iff₂, IsEmpty.forall_iff, implies_true]
        try exact hk

theorem holds_fits {P : Lab → Nat → Prop} {f : α → Ast} (hf : AtomsPlain P f) {s : Bool}
    (he : s = true → ∀ a, (f a).All fun l k => l = .op .eq → 2 ≤ k) {h : Heap Lab} {r : Nat} {specs : List (SpecOf α)}
    (hh : h.Holds f r specs) (hn : s = true → ∀ x ∈ specs, Nowhere isNonBinary x.2.2) : Shaped (Lab.fits s) h [r] := by
  refine (denotes_all hh).2 (.node trivial ?_)
  intro t ht
  obtain ⟨x, hx, rfl⟩ := List.mem_map.1 ht
  refine .node trivial ?_
  simp only [List.mem_singleton, forall_eq]
  exact toAst_fits hf he _ fun hs => hn hs x hx

theorem pair_fits {P : Lab → Nat → Prop} {f : α → Ast} (hf : AtomsPlain P f) {s : Bool}
    (he : s = true → ∀ a, (f a).All fun l k => l = .op .eq → 2 ≤ k) {h : Heap Lab} {ft pt : Nat} {fs ps : List (SpecOf α)}
    (h1 : h.Holds f ft fs) (h2 : h.Holds f pt ps) (hn : s = true → ∀ x ∈ fs ++ ps, Nowhere isNonBinary x.2.2) :
    Shaped (Lab.fits s) h [ft, pt] :=
  shaped_pair.2 ⟨holds_fits hf he h1 fun hs x hx => hn hs x (List.mem_append_left _ hx),
    holds_fits hf he h2 fun hs x hx => hn hs x (List.mem_append_right _ hx)⟩

/-- Two passes one after the other. -/
theorem extended_ends {h : Heap Lab} {n ft pt : Nat} (hb : h.Below n) (ha : h.Acyclic) (hf : ft < n) (hp : pt < n) {s : Bool}
    (hs : Shaped (Lab.fits s) h [ft, pt]) : ∃ N r, (∀ f ≥ N, removeExtendedG f ft pt (h, n) = some r) ∧ n ≤ r.2 ∧ r.1.Below r.2 ∧
      r.1.Acyclic ∧ Shaped (Lab.fits s) r.1 [ft, pt] := by
  obtain ⟨N1, ⟨h1, n1⟩, e1, l1, b1, a1, s1⟩ := binary_ends s h n ft pt hb ha hf hp hs
  simp only at l1 b1 a1 s1
  obtain ⟨N2, r, e2, l2, b2, a2, s2⟩ := ext_ends s h1 n1 ft pt b1 a1 (by omega) (by omega) s1
  refine ⟨max N1 N2, r, fun f hf => ?_, by omega, b2, a2, s2⟩
  have e1' := e1 f (by omega)
  have e2' := e2 f (by omega)
  simp only [plain] at e1' e2'
  simp only [removeExtendedG, toBinaryG, e1', Option.bind_some, e2']

/-- Looking for common sub-expressions ends. -/
theorem cse_ends {h : Heap Lab} {n ft pt : Nat} {D : List Nat} (hb : Between h n D ft pt) (hF : TopsFresh h D ft pt) (hne : ft ≠ pt)
    {fts pts : List Ast} (hdf : h.Denotes ft (.node .specSet fts)) (hdp : h.Denotes pt (.node .specSet pts))
    (hsf : IsSpecSet fts) (hsp : IsSpecSet pts) : ∃ N h', ∀ fuel ≥ N, optimizeCse prefixStr fuel h ft pt = some h' := by
  obtain ⟨tr, hd, _⟩ := hb.acyclic.rank
  have hkf : KeyOk prefixStr (tr ft) := by rw [(hd ft).unique hdf]; exact specSet_keyOk hsf
  have hkp : KeyOk prefixStr (tr pt) := by rw [(hd pt).unique hdp]; exact specSet_keyOk hsp
  obtain ⟨N1, h1, e1⟩ := cse_total hd hb.live hF.ftD hkf
  obtain ⟨D1, F1⟩ := cse_spec hd hb.live hF.ftD hF.ftP hkf e1
  have hlive : ∀ x, Reachable h [ft] x → x ∉ D := by
    intro x hx
    induction hx with
    | root h => rw [List.mem_singleton.1 h]; exact hF.ftD
    | kid _ hc ih => exact hb.live.refs _ ih _ hc
  have hptR : ¬ Reachable h [ft] pt := by
    intro hr
    cases hr with
    | root h1 => exact hne (List.mem_singleton.1 h1).symm
    | kid hp hc => have := hb.live.parents _ (hlive _ hp) _ hc; rw [hF.ptP] at this; simp at this
  have hptD : pt ∉ D1 := fun hd1 => (F1.deadHi pt hd1).elim hF.ptD hptR
  obtain ⟨N2, h2, e2⟩ := cse_total F1.den F1.live hptD hkp
  refine ⟨max N1 N2, h2, fun fuel hm => ?_⟩
  simp only [optimizeCse, cse_mono (by omega : N1 ≤ fuel) e1, Option.bind_some, cse_mono (by omega : N2 ≤ fuel) e2]

end R2U2
