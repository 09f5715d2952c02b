import Verif.Lemmas.Passes
/-
The passes after the unrolling of aggregations, and all passes together.
-/
namespace R2U2
namespace Src
variable {F : Type}

/-! ### what is left -/

theorem _root_.R2U2.OpK.sort_args {o : OpK} {ts : List Ty} {t : Ty} (h : o.sort false ts = some t) : ∀ u ∈ ts, u.scalar := by
  have key : ∀ {p : Ty → Bool}, ts.all p = true → (∀ u, p u = true → u.scalar) → ∀ u ∈ ts, u.scalar := by
    intro p hp hs u hu
    exact hs u (List.all_eq_true.mp hp u hu)
  have e1 : ∀ u : Ty, decide (u = .bool) = true → u.scalar := by intro u hu; simp at hu; subst hu; rfl
  have e2 : ∀ u : Ty, decide (u = .num) = true → u.scalar := by intro u hu; simp at hu; subst hu; rfl
  have pair : ∀ a b : Ty, a = b → a.scalar = true → ∀ u ∈ [a, b], u.scalar = true := by
    rintro a _ rfl h; simpa using h
  unfold OpK.sort at h
  split at h
  all_goals first
    | (simp at h; done)
    | (simp [Ty.scalar]; done)
    | (split at h
       · rename_i hc; exact pair _ _ hc.1 (hc.2.resolve_right Bool.false_ne_true)
       · simp at h)
    | (split at h
       · rename_i hc; exact pair _ _ hc.1 hc.2
       · simp at h)
    | (split_ifs at h with hc
       · first | exact key hc e1 | exact key hc e2 | exact key hc fun _ h => h
       done)
    | (split_ifs at h with hc hd
       · exact key hc e1
       · exact key hd e2)

def _root_.R2U2.SK.plain : SK → Prop
  | .lit _ | .tau | .sig _ | .op _ | .tmp .. => True
  | _ => False

theorem plain_node {k ty cs} : Plain (.node k ty cs) ↔
    k.plain ∧ ∀ c ∈ cs, Plain c := every_node

/-- Where no name is in scope and no aggregations and array comparisons are left, resolving accesses leaves only
operators over literals and inputs. -/
theorem plain_postM {D : Decls} (hD : D.arrays = false) {e e' : Src} {t : Ty} (h : HasSort D Scope.empty e t)
    (hr : Resolved D.enums e) (hb : bound e = []) (hp : postM structAcc e = some e') : Canon D Plain t e' := by
  induction e using Src.ind generalizing e' t with
  | h k ty cs ih =>
    obtain ⟨cs', h1, h2⟩ := postM_node hp
    rw [resolved_node] at hr
    have hb' : ∀ c ∈ cs, bound c = [] := fun c hc => bound_eq_nil.mpr fun s hs =>
      bound_eq_nil.mp hb s (mem_bound.mpr (.inr ⟨c, hc, hs⟩))
    have hleaf : cs = [] → k.plain → Plain e' := by
      rintro rfl hk
      cases h1
      rw [structAcc_id (e := .node k ty []) (by rintro m hm; simp only [kind] at hm; subst hm; exact hk)] at h2
      simp at h2; subst h2
      exact plain_node.mpr ⟨hk, by simp⟩
    cases h with
    | bool => exact .scalar rfl (hleaf rfl trivial)
    | int => exact .scalar rfl (hleaf rfl trivial)
    | float => exact .scalar rfl (hleaf rfl trivial)
    | tau => exact .scalar rfl (hleaf rfl trivial)
    | sig a b => exact .scalar b (hleaf rfl trivial)
    | enum a => have h1 : enumVal _ _ _ = none := hr.1; rw [h1] at a; simp at a
    | var a b => simp [Scope.empty] at b
    | array h =>
      rw [structAcc_id (by simp [kind])] at h2
      simp at h2; subst h2
      refine .arr fun c' hc' => ?_
      obtain ⟨c, hc, h3⟩ := forall₂_mem h1 hc'
      exact ih c hc (h c hc) (hr.2 c hc) (hb' c hc) h3
    | index h0 h => exact hr.1.elim
    | slice h0 h => exact hr.1.elim
    | call h0 h => exact hr.1.elim
    | struct g1 g2 g3 g4 g5 =>
      rw [structAcc_id (by simp [kind])] at h2
      simp at h2; subst h2
      refine .struct g1 g2 g3 (by rw [← g4, h1.length_eq]) fun i c' t hc' ht => ?_
      obtain ⟨c, hc, h3⟩ := forall₂_idx h1 hc'
      have hm : c ∈ cs := List.mem_of_getElem? hc
      exact ih c hm (g5 i c t hc ht) (hr.2 c hm) (hb' c hm) h3
    | access g g1 g2 g3 =>
      cases h1 with
      | cons h1 hn =>
        cases hn
        have hc := ih _ (by simp) g (hr.2 _ (by simp)) (hb' _ (by simp)) h1
        cases hc with
        | scalar hsc _ => simp [Ty.scalar] at hsc
        | struct k1 k2 k3 k4 k5 =>
          rw [g1] at k1; cases k1
          subst k2
          simp only [structAcc, memberIdx] at h2
          split_ifs at h2 with hlt
          · exact k5 _ _ _ (by simpa using h2) (member_sort (D := D) k3 g2 g3)
          · simp at h2
    | agg => exact absurd (mem_bound.mpr (.inl ⟨_, rfl⟩)) (bound_eq_nil.mp hb _)
    | aggN => exact absurd (mem_bound.mpr (.inl ⟨_, rfl⟩)) (bound_eq_nil.mp hb _)
    | op g1 g2 g3 =>
      rw [structAcc_id (by simp [kind])] at h2
      simp at h2; subst h2
      refine .scalar (OpK.sort_scalar g3) (plain_node.mpr ⟨trivial, fun c' hc' => ?_⟩)
      rw [hD] at g3
      obtain ⟨i, hi⟩ := List.getElem?_of_mem hc'
      obtain ⟨c, hc, h3⟩ := forall₂_idx h1 hi
      have hm : c ∈ cs := List.mem_of_getElem? hc
      obtain ⟨hlt, _⟩ := List.getElem?_eq_some_iff.mp hc
      obtain ⟨u, ht⟩ : ∃ u, _ = some u := ⟨_, List.getElem?_eq_getElem (g1 ▸ hlt)⟩
      have hsc := OpK.sort_args g3 _ (List.mem_of_getElem? ht)
      have := ih c hm (g2 i c _ hc ht) (hr.2 c hm) (hb' c hm) h3
      cases this with
      | scalar _ h => exact h
      | arr => simp [Ty.scalar] at hsc
      | struct => simp [Ty.scalar] at hsc
    | tmp h =>
      rw [structAcc_id (by simp [kind])] at h2
      simp at h2; subst h2
      refine .scalar rfl (plain_node.mpr ⟨trivial, fun c' hc' => ?_⟩)
      obtain ⟨c, hc, h3⟩ := forall₂_mem h1 hc'
      have := ih c hc (h c hc) (hr.2 c hc) (hb' c hc) h3
      cases this with
      | scalar _ h => exact h

theorem plain_structAcc {e e' : Src} (h : Plain e) (hp : postM structAcc e = some e') : e' = e := by
  induction e using Src.ind generalizing e' with
  | h k ty cs ih =>
    obtain ⟨cs', h1, h2⟩ := postM_node hp
    have h := plain_node.mp h
    have : cs' = cs := by
      have := map_eq_of (f := id) (g := id) (forall₂_of_mem h1 fun c hc c' hcc => ih c hc (h.2 c hc) hcc)
      simpa using this
    subst this
    rw [structAcc_id (e := .node k ty cs') (by rintro m hm; simp only [kind] at hm; subst hm; exact h.1)] at h2
    simpa using h2.symm

/-! ### array comparisons -/

theorem unrollArr_inv {n : Nat} {e e' : Src} (h : unrollArr n e = some e') :
    ∃ m e1 cs, n = m + 1 ∧ unrollCmp e = some e1 ∧ unrollArrL m e1.kids = some cs ∧ e' = .node e1.kind e1.ty cs := by
  cases n with
  | zero => simp [unrollArr] at h
  | succ m =>
    simp only [unrollArr, Option.bind_eq_some_iff] at h
    obtain ⟨e1, h1, h2⟩ := h
    split at h2
    · simp at h2
    · simp only [Option.map_eq_some_iff] at h2
      obtain ⟨cs, h2, rfl⟩ := h2
      exact ⟨m, e1, cs, rfl, h1, h2, rfl⟩

theorem unrollCmp_inv {e e' : Src} (h : unrollCmp e = some e') : e' = e ∨
    ∃ o ty ty1 ty2 cs ds, e = .node (.op o) ty [.node .array ty1 cs, .node .array ty2 ds] ∧ o.isRel = true ∧
      cs.length ≤ ds.length ∧
      e' = .node (.op .and) ty (List.zipWith (fun c d => .node (.op o) .none [c, d]) cs ds) := by
  unfold unrollCmp at h
  split at h
  · split_ifs at h with h1 h2
    · simp at h; exact .inr ⟨_, _, _, _, _, _, rfl, h1, h2, h.symm⟩
    · simp at h; exact .inl h.symm
  · simp at h; exact .inl h.symm

theorem unrollArr_plain (n : Nat) :
    (∀ e e', unrollArr n e = some e' → Plain e → e' = e) ∧
    (∀ cs cs', unrollArrL n cs = some cs' → (∀ c ∈ cs, Plain c) → cs' = cs) := by
  induction n with
  | zero =>
    refine ⟨fun e e' h => by simp [unrollArr] at h, fun cs cs' h _ => ?_⟩
    cases cs with
    | nil => simpa [unrollArrL] using h.symm
    | cons => simp [unrollArrL] at h
  | succ n ih =>
    constructor
    · intro e e' h hp
      obtain ⟨m, e1, cs, hn, h1, h2, rfl⟩ := unrollArr_inv h
      cases hn
      rcases unrollCmp_inv h1 with rfl | ⟨o, ty, ty1, ty2, cs, ds, rfl, _⟩
      · obtain ⟨k, ty, ds⟩ := e1
        rw [ih.2 _ _ h2 (plain_node.mp hp).2]
        rfl
      · have := (plain_node.mp ((plain_node.mp hp).2 (.node .array ty1 cs) (by simp))).1
        exact this.elim
    · intro cs cs' h hp
      cases cs with
      | nil => simpa [unrollArrL] using h.symm
      | cons c cs =>
        simp only [unrollArrL, Option.bind_eq_some_iff] at h
        obtain ⟨c', h1, ds, h2, h3⟩ := h
        simp at h3; subst h3
        rw [ih.1 _ _ h1 (hp c (by simp)), ih.2 _ _ h2 fun d hd => hp d (by simp [hd])]

theorem comparesAlike_node {k ty cs} : ComparesAlike (.node k ty cs) ↔
    (∀ (o : OpK) (a b : Src), k = .op o → cs = [a, b] → o.isRel →
      Alike a b ∧ (o = .ne → a.kind ≠ .array ∨ b.kind ≠ .array)) ∧ ∀ c ∈ cs, ComparesAlike c := every_node

theorem cmpL_all (I : Interp F) (o : OpK) {as bs : List (Val F)} (h : as.length = bs.length) :
    Val.cmpL I o as bs = (List.zipWith (Val.cmp I o) as bs).all id := by
  induction as generalizing bs with
  | nil => cases bs with
    | nil => simp [Val.cmpL]
    | cons => simp at h
  | cons a as ih => cases bs with
    | nil => simp at h
    | cons b bs => simp [Val.cmpL, ih (by simpa using h)]

theorem evalOp_rel {I : Interp F} {o : OpK} (h : o.isRel = true) (hne : o ≠ .ne) (a b : Val F) :
    Val.evalOp I o [a, b] = .bool (Val.cmp I o a b) := by
  cases o <;> simp [OpK.isRel] at h <;> first | rfl | exact absurd rfl hne

theorem sem_rel {I : Interp F} {o : OpK} {ty : Typ} {a b : Src} (h : o.isRel = true) (hne : o ≠ .ne) (ρ : Env F) (i : Nat) :
    sem I (.node (.op o) ty [a, b]) ρ i = .bool (Val.cmp I o (sem I a ρ i) (sem I b ρ i)) := by
  have ho : o ≠ .prev := by rintro rfl; simp [OpK.isRel] at h
  rw [sem_node, ← evalOp_rel h hne]
  cases o <;> simp [OpK.isRel] at h <;> rfl

/-- Comparing arrays of the same length other than with `!=` is comparing all their elements. -/
theorem unrollCmp_sem {I : Interp F} {o : OpK} {ty ty1 ty2 cs ds} (ho : o.isRel = true) (hne : o ≠ .ne)
    (hl : cs.length = ds.length) (ty' : Typ) :
    sem I (.node (.op .and) ty (List.zipWith (fun c d => .node (.op o) ty' [c, d]) cs ds)) =
      sem I (.node (.op o) ty [.node .array ty1 cs, .node .array ty2 ds]) := by
  funext ρ i
  rw [sem_rel ho hne, sem_node, sem_node, sem_node]
  simp only [evalK, Val.cmp]
  rw [cmpL_all I o (by simpa using hl)]
  simp only [Val.evalOp, List.map_map]
  congr 1
  induction cs generalizing ds with
  | nil => simp
  | cons c cs ih =>
    cases ds with
    | nil => simp at hl
    | cons d ds =>
      simp only [List.zipWith_cons_cons, List.map_cons, List.all_cons, Function.comp]
      rw [← ih (by simpa using hl), sem_rel ho hne]
      simp [Val.isTrue]

theorem unrollArr_both {I : Interp F} (n : Nat) :
    (∀ e e', unrollArr n e = some e' → ComparesAlike e → sem I e' = sem I e) ∧
    (∀ cs cs', unrollArrL n cs = some cs' → (∀ c ∈ cs, ComparesAlike c) → cs'.map (sem I) = cs.map (sem I)) := by
  induction n with
  | zero =>
    refine ⟨fun e e' h => by simp [unrollArr] at h, fun cs cs' h _ => ?_⟩
    cases cs with
    | nil => simp [unrollArrL] at h; subst h; rfl
    | cons => simp [unrollArrL] at h
  | succ n ih =>
    constructor
    · intro e e' h ha
      obtain ⟨m, e1, cs, hn, h1, h2, rfl⟩ := unrollArr_inv h
      cases hn
      have h3 : ComparesAlike e1 ∧ sem I e1 = sem I e := by
        rcases unrollCmp_inv h1 with rfl | ⟨o, ty, ty1, ty2, cs, ds, rfl, ho, hl, rfl⟩
        · exact ⟨ha, rfl⟩
        · obtain ⟨ha1, ha2⟩ := comparesAlike_node.mp ha
          obtain ⟨h3, h4⟩ := ha1 o _ _ rfl rfl ho
          have hne : o ≠ .ne := by
            rintro rfl
            rcases h4 rfl with h | h <;> exact h rfl
          cases h3 with
          | other h => rcases h with h | h <;> exact absurd rfl h
          | arrays hlen hall =>
            refine ⟨comparesAlike_node.mpr ⟨?_, ?_⟩, unrollCmp_sem ho hne hlen _⟩
            · rintro o' a b h _ hr; cases h; simp [OpK.isRel] at hr
            · intro c hc
              obtain ⟨i, hi⟩ := List.getElem?_of_mem hc
              rw [List.getElem?_zipWith_eq_some] at hi
              obtain ⟨a, b, h5, h6, rfl⟩ := hi
              refine comparesAlike_node.mpr ⟨?_, ?_⟩
              · rintro o' a' b' h h' _
                cases h; cases h'
                exact ⟨hall i _ _ h5 h6, fun h => absurd h hne⟩
              · intro x hx
                simp at hx
                have hc := (comparesAlike_node.mp (ha2 (.node .array ty1 cs) (by simp))).2 a (List.mem_of_getElem? h5)
                have hd := (comparesAlike_node.mp (ha2 (.node .array ty2 ds) (by simp))).2 b (List.mem_of_getElem? h6)
                rcases hx with rfl | rfl
                · exact hc
                · exact hd
      obtain ⟨k, ty, ds⟩ := e1
      rw [← h3.2, sem_node, sem_node]
      have := ih.2 _ _ h2 (comparesAlike_node.mp h3.1).2
      simp only [kind, Src.ty]
      rw [this]
      rfl
    · intro cs cs' h ha
      cases cs with
      | nil => simp [unrollArrL] at h; subst h; rfl
      | cons c cs =>
        simp only [unrollArrL, Option.bind_eq_some_iff] at h
        obtain ⟨c', h1, ds, h2, h3⟩ := h
        simp at h3; subst h3
        simp only [List.map_cons]
        rw [ih.1 _ _ h1 (ha c (by simp)), ih.2 _ _ h2 fun d hd => ha d (by simp [hd])]

/-! ### all passes -/

/-- The passes before the aggregations leave an expression ready for them, with the same meaning. -/
theorem front {D : Decls} {I : Interp F} (hI : I.Fits D) (hD : D.Apart) {e e1 e2 e3 e4 : Src} {t : Ty}
    (h : HasSort D Scope.empty e t) (hs : Scoped e) (hp : PicksLiterals D.enums e)
    (h1 : postM (callToStruct I.structs) e = some e1) (h2 : postM (enumRef I.enums) e1 = some e2)
    (h3 : postM structAcc e2 = some e3) (h4 : postM (arrayAcc true) e3 = some e4) :
    Ready D e4 t ∧ sem I e4 = sem I e := by
  have k1 := postM_keep (I := I) (callToStruct_keep hI.structs) h1
  have s1 := k1.1 _ _ h
  have k2 := postM_keep (I := I) (enumRef_keep hI.enums hD) h2
  have s2 := k2.1 _ _ s1
  have k3 := postM_keep (I := I) (D := D) structAcc_keep h3
  have s3 := k3.1 _ _ s2
  have c2 : NoCall e2 := noCall_enumRef h2 (callToStruct_noCall hI.structs h h1)
  have n2 : NoEnum D.enums e2 := by rw [← hI.enums]; exact enumRef_noEnum h2
  have p2 : PicksLiterals D.enums e2 := (enumRef_rekind _).picks h2 ((callToStruct_rekind _).picks h1 hp)
  have p3 := structAcc_picks s2 p2 c2 n2 h3
  have c3 : NoCall e3 := structAcc_every (fun k ty cs cs' _ h => h) h3 c2
  have n3 : NoEnum D.enums e3 := structAcc_every (fun k ty cs cs' _ h => h) h3 n2
  have k4 := arrayAcc_keep (I := I) p3 h4
  refine ⟨⟨k4.1 _ _ s3, ?_, arrayAcc_resolved p3 c3 n3 h4⟩, ?_⟩
  · refine postM_scoped arrayAcc_bound arrayAcc_scoped h4 (postM_scoped structAcc_bound structAcc_scoped h3 ?_)
    exact postM_scoped (enumRef_rekind _).bound (enumRef_rekind _).scoped h2
      (postM_scoped (callToStruct_rekind _).bound (callToStruct_rekind _).scoped h1 hs)
  · rw [k4.2 _ _ s3, k3.2 _ _ s2, k2.2 _ _ s1, k1.2 _ _ h]

theorem plain_isDesugared {e : Src} (h : Plain e) : isDesugared e = true := by
  unfold isDesugared
  simp only [Bool.not_eq_true']
  induction e using Src.ind with
  | h k ty cs ih =>
    have h := plain_node.mp h
    have hl : ∀ (p : Src → Bool) (ds : List Src), (∀ d ∈ ds, any p d = false) → anyL p ds = false := by
      intro p ds hd
      induction ds with
      | nil => rfl
      | cons d ds ih' => simp [anyL, hd d (by simp), ih' fun x hx => hd x (by simp [hx])]
    rw [any, hl _ cs fun d hd => ih d hd (h.2 d hd)]
    cases k <;> first | rfl | exact h.1.elim

theorem desugar_keeps {D : Decls} {I : Interp F} (hI : I.Fits D) (hD : D.Apart) {n : Nat} {e e' : Src} {t : Ty}
    (h : HasSort D Scope.empty e t) (hs : Scoped e) (hp : PicksLiterals D.enums e) (ha : D.arrays = false) (ht : t.scalar)
    (hd : desugar true I.structs I.enums n e = some e') :
    Plain e' ∧ HasSort D Scope.empty e' t ∧ ∀ ρ : Env F, ρ.Fits D Scope.empty → ∀ i, sem I e' ρ i = sem I e ρ i := by
  simp only [desugar, bind, Option.bind_eq_some_iff] at hd
  obtain ⟨e1, h1, e2, h2, e3, h3, e4, h4, e5, h5, e6, h6, e7, h7, h8⟩ := hd
  obtain ⟨r4, q4⟩ := front hI hD h hs hp h1 h2 h3 h4
  obtain ⟨r5, b5, q5⟩ := unrollAgg_keeps hI h5 t r4
  have c6 := plain_postM ha r5.sort r5.resolved b5 h6
  have p6 : Plain e6 := by
    cases c6 with
    | scalar _ h => exact h
    | arr => simp [Ty.scalar] at ht
    | struct => simp [Ty.scalar] at ht
  have k6 := postM_keep (I := I) (D := D) structAcc_keep h6
  obtain rfl := (unrollArr_plain n).1 _ _ h7 p6
  obtain rfl := plain_structAcc p6 h8
  refine ⟨p6, k6.1 _ _ r5.sort, fun ρ hρ i => ?_⟩
  rw [k6.2 _ _ r5.sort, q5 ρ hρ i, q4]

theorem arrayAcc_relax {e e' : Src} (h : arrayAcc true e = some e') : arrayAcc false e = some e' := by
  unfold arrayAcc at h ⊢
  split at h
  · exact h
  · simp at h
  · simp only [if_true] at h
    split_ifs at h with h1
    rw [if_neg h1]; exact h
  · simp at h
  · exact h

theorem postM_relax {f g : Src → Option Src} (hfg : ∀ e e', f e = some e' → g e = some e') {e e' : Src} (h : postM f e = some e') :
    postM g e = some e' := by
  induction e using Src.ind generalizing e' with
  | h k ty cs ih =>
    obtain ⟨cs', h1, h2⟩ := postM_node h
    have : postML g cs = some cs' := by
      clear h h2
      induction h1 with
      | nil => rfl
      | cons h1 _ ih' => simp [postML, ih _ (by simp) h1, ih' fun c hc => ih c (by simp [hc])]
    simp [postM, this, hfg _ _ h2]

theorem desugar_relax {T : Structs} {E : Enums} {n : Nat} {e e' : Src} (h : desugar true T E n e = some e') :
    desugar false T E n e = some e' := by
  simp only [desugar, bind, Option.bind_eq_some_iff] at h ⊢
  obtain ⟨e1, h1, e2, h2, e3, h3, e4, h4, h5⟩ := h
  exact ⟨e1, h1, e2, h2, e3, h3, e4, postM_relax (fun _ _ => arrayAcc_relax) h4, h5⟩

end Src
end R2U2
