import Verif.Lemmas.UnrollAll
/-
The passes before the unrolling of aggregations.
-/
namespace R2U2
namespace Src
variable {F : Type}

/-! ### calls and enumeration members -/

/-- The node functions that only change what kind of node it is. -/
def Rekind (f : Src → Option Src) : Prop := ∀ k ty cs e', f (.node k ty cs) = some e' →
  e' = .node k ty cs ∨ (∃ g ms, k = .call g ∧ e' = .node (.struct g ms) ty cs) ∨
    (∃ s v, (k = .var s ∨ k = .sig s) ∧ e' = .node (.lit v) ty [])

theorem callToStruct_rekind (T : Structs) : Rekind (callToStruct T) := by
  intro k ty cs e' h
  unfold callToStruct at h
  split at h
  · rename_i heq
    cases heq
    split at h
    · simp at h; subst h; exact .inr (.inl ⟨_, _, rfl, rfl⟩)
    · simp at h; subst h; exact .inl rfl
  · simp at h; subst h; exact .inl rfl

theorem enumRef_rekind (E : Enums) : Rekind (enumRef E) := by
  intro k ty cs e' h
  simp only [enumRef] at h
  split at h
  · rename_i _ _ n s hs
    split_ifs at h
    · simp only [Option.map_eq_some_iff] at h
      obtain ⟨v, _, rfl⟩ := h
      refine .inr (.inr ⟨s, .int v, ?_, rfl⟩)
      split at hs <;> simp_all
    · simp at h; exact .inl h.symm
  · simp at h; exact .inl h.symm

theorem Rekind.literal {E : Enums} {f : Src → Option Src} (hf : Rekind f) {e e' : Src} (hp : postM f e = some e')
    (h : Literal E e) : Literal E e' := by
  induction e using Src.ind generalizing e' with
  | h k ty cs ih =>
    obtain ⟨cs', h1, h2⟩ := postM_node hp
    have hkids : (∀ c ∈ cs, Literal E c) → ∀ c' ∈ cs', Literal E c' := by
      intro hc c' hc'
      obtain ⟨c, hcm, hcc⟩ := forall₂_mem h1 hc'
      exact ih c hcm hcc (hc c hcm)
    rcases hf _ _ _ _ h2 with rfl | ⟨g, ms, rfl, rfl⟩ | ⟨s, v, _, rfl⟩
    · cases h with
      | lit => exact .lit
      | tau => exact .tau
      | sig => exact .sig
      | enum h => exact .enum h
      | agg => exact .agg
      | op => exact .op
      | tmp => exact .tmp
      | array h => exact .array (hkids h)
      | struct h => exact .struct (hkids h)
      | call h => exact .call (hkids h)
      | access h => exact .access (hkids h)
    · cases h with
      | call h => exact .struct (hkids h)
    · exact .lit

theorem Rekind.pickable {E : Enums} {f : Src → Option Src} (hf : Rekind f) {e e' : Src} (hp : postM f e = some e')
    (h : Pickable E e) : Pickable E e' := by
  induction e using Src.ind generalizing e' with
  | h k ty cs ih =>
    obtain ⟨cs', h1, h2⟩ := postM_node hp
    have hkids : (∀ c ∈ cs, Pickable E c) → ∀ c' ∈ cs', Pickable E c' := by
      intro hc c' hc'
      obtain ⟨c, hcm, hcc⟩ := forall₂_mem h1 hc'
      exact ih c hcm hcc (hc c hcm)
    cases h with
    | literal h => exact .literal (hf.literal hp h)
    | array h =>
      rcases hf _ _ _ _ h2 with rfl | ⟨g, ms, hk, rfl⟩ | ⟨s, v, hk, rfl⟩
      · exact .array (hkids h)
      · cases hk
      · rcases hk with hk | hk <;> cases hk
    | index h =>
      rcases hf _ _ _ _ h2 with rfl | ⟨g, ms, hk, rfl⟩ | ⟨s, v, hk, rfl⟩
      · exact .index (hkids h)
      · cases hk
      · rcases hk with hk | hk <;> cases hk
    | slice h =>
      rcases hf _ _ _ _ h2 with rfl | ⟨g, ms, hk, rfl⟩ | ⟨s, v, hk, rfl⟩
      · exact .slice (hkids h)
      · cases hk
      · rcases hk with hk | hk <;> cases hk

theorem picks_node {E : Enums} {k ty cs} : PicksLiterals E (.node k ty cs) ↔
    (match k with | .index _ | .slice .. => ∀ c ∈ cs, Pickable E c | _ => True) ∧ ∀ c ∈ cs, PicksLiterals E c := every_node

theorem Rekind.picks {E : Enums} {f : Src → Option Src} (hf : Rekind f) {e e' : Src} (hp : postM f e = some e')
    (h : PicksLiterals E e) : PicksLiterals E e' := by
  induction e using Src.ind generalizing e' with
  | h k ty cs ih =>
    obtain ⟨cs', h1, h2⟩ := postM_node hp
    rw [picks_node] at h
    have hkids : ∀ c' ∈ cs', PicksLiterals E c' := by
      intro c' hc'
      obtain ⟨c, hcm, hcc⟩ := forall₂_mem h1 hc'
      exact ih c hcm hcc (h.2 c hcm)
    have hpick : (∀ c ∈ cs, Pickable E c) → ∀ c' ∈ cs', Pickable E c' := by
      intro hc c' hc'
      obtain ⟨c, hcm, hcc⟩ := forall₂_mem h1 hc'
      exact hf.pickable hcc (hc c hcm)
    rcases hf _ _ _ _ h2 with rfl | ⟨g, ms, rfl, rfl⟩ | ⟨s, v, _, rfl⟩
    · refine picks_node.mpr ⟨?_, hkids⟩
      cases k with
      | index i => exact hpick h.1
      | slice a b => exact hpick h.1
      | _ => trivial
    · exact picks_node.mpr ⟨trivial, hkids⟩
    · exact picks_node.mpr ⟨trivial, by simp⟩

theorem Rekind.bound {f : Src → Option Src} (hf : Rekind f) (e e' : Src) (h : f e = some e') : ∀ s, s ∈ bound e' → s ∈ bound e := by
  obtain ⟨k, ty, cs⟩ := e
  intro s hs
  rcases hf _ _ _ _ h with rfl | ⟨g, ms, rfl, rfl⟩ | ⟨s', v, _, rfl⟩
  · exact hs
  · rw [mem_bound] at hs ⊢
    rcases hs with ⟨a, ha⟩ | hs
    · cases ha
    · exact .inr hs
  · rw [mem_bound] at hs
    rcases hs with ⟨a, ha⟩ | ⟨c, hc, _⟩
    · cases ha
    · simp at hc

theorem Rekind.scoped {f : Src → Option Src} (hf : Rekind f) (e e' : Src) (h : f e = some e') (hs : Scoped e) : Scoped e' := by
  obtain ⟨k, ty, cs⟩ := e
  rcases hf _ _ _ _ h with rfl | ⟨g, ms, rfl, rfl⟩ | ⟨s', v, _, rfl⟩
  · exact hs
  · exact scoped_node.mpr ⟨trivial, (scoped_node.mp hs).2⟩
  · exact scoped_node.mpr ⟨trivial, by simp⟩

/-! ### what is left -/

/-- A bottom-up pass whose results have the property `p` at their root, or are parts of the children. -/
theorem postM_every {p : Src → Prop} {f : Src → Option Src} (hp : ∀ k ty cs e', f (.node k ty cs) = some e' →
      (∀ c ∈ cs, Every p c) → Every p e') {e e' : Src} (h : postM f e = some e') : Every p e' := by
  induction e using Src.ind generalizing e' with
  | h k ty cs ih =>
    obtain ⟨cs', h1, h2⟩ := postM_node h
    refine hp _ _ _ _ h2 fun c' hc' => ?_
    obtain ⟨c, hc, hcc⟩ := forall₂_mem h1 hc'
    exact ih c hc hcc

/-- No calls. -/
def NoCall : Src → Prop := Every fun e => ∀ f, e.kind ≠ .call f

/-- No enumeration members. -/
def NoEnum (E : Enums) : Src → Prop := Every fun e => ∀ s, e.kind = .var s → enumVal E e.ty s = none

theorem postM_every_sort {D : Decls} {p : Src → Prop} {f : Src → Option Src}
    (hk : ∀ e e', postM f e = some e' → SortLe D e e')
    (hp : ∀ k ty cs e' Γ t, HasSort D Γ (.node k ty cs) t → f (.node k ty cs) = some e' → (∀ c ∈ cs, Every p c) → Every p e')
    {e e' : Src} {Γ : Scope} {t : Ty} (hs : HasSort D Γ e t) (h : postM f e = some e') : Every p e' := by
  induction e using Src.ind generalizing e' Γ t with
  | h k ty cs ih =>
    obtain ⟨cs', h1, h2⟩ := postM_node h
    refine hp _ _ _ _ Γ t (hs.congr_kids (forall₂_of_mem h1 fun c _ c' hcc => hk _ _ hcc)) h2 fun c' hc' => ?_
    obtain ⟨c, hc, hcc⟩ := forall₂_mem h1 hc'
    obtain ⟨Γ', t', hs'⟩ := hs.kid hc
    exact ih c hc hs' hcc

theorem callToStruct_noCall {D : Decls} {I : Interp F} (hI : I.structs = D.structs) {e e' : Src} {Γ : Scope} {t : Ty}
    (hs : HasSort D Γ e t) (h : postM (callToStruct I.structs) e = some e') : NoCall e' := by
  refine postM_every_sort (D := D) (fun e e' hp => (postM_keep (I := I) (callToStruct_keep hI) hp).1) ?_ hs h
  intro k ty cs e' Γ t hs hf hc
  unfold callToStruct at hf
  split at hf
  · rename_i heq
    cases heq
    cases hs with
    | call g1 g2 g3 g4 =>
      rw [hI, g1] at hf
      simp at hf; subst hf
      exact every_node.mpr ⟨by simp [kind], hc⟩
  · rename_i hne
    simp at hf; subst hf
    refine every_node.mpr ⟨fun f hf => ?_, hc⟩
    simp only [kind] at hf
    subst hf
    exact hne _ _ _ rfl

theorem enumVal_mem {E : Enums} {ty : Typ} {s : String} {v : Int} (h : enumVal E ty s = some v) :
    E.any (fun p => p.2.any (fun m => m.1 == s)) = true := by
  unfold enumVal at h
  split at h
  · rename_i n
    rw [Option.bind_eq_some_iff] at h
    obtain ⟨ms, h1, h2⟩ := h
    rw [List.any_eq_true]
    refine ⟨(n, ms), ?_, ?_⟩
    · obtain ⟨l, r, rfl, _⟩ := List.lookup_eq_some_iff.mp h1
      simp
    · obtain ⟨l, r, rfl, _⟩ := List.lookup_eq_some_iff.mp h2
      simp
  · simp at h

theorem enumRef_noEnum {E : Enums} {e e' : Src} (h : postM (enumRef E) e = some e') : NoEnum E e' := by
  refine postM_every ?_ h
  intro k ty cs e' hf hc
  simp only [enumRef] at hf
  split at hf
  · rename_i _ _ n s hs
    split_ifs at hf with hany
    · simp only [Option.map_eq_some_iff] at hf
      obtain ⟨v, _, rfl⟩ := hf
      exact every_node.mpr ⟨by simp [kind], by simp⟩
    · simp at hf; subst hf
      refine every_node.mpr ⟨fun s' hk => ?_, hc⟩
      simp only [kind] at hk
      subst hk
      simp at hs; subst hs
      cases hv : enumVal E (.enum n) s' with
      | none => exact hv
      | some v => exact absurd (enumVal_mem hv) hany
  · rename_i hne
    simp at hf; subst hf
    refine every_node.mpr ⟨fun s' hk => ?_, hc⟩
    simp only [kind] at hk
    subst hk
    show enumVal E _ s' = none
    unfold enumVal
    split
    · rename_i heq
      simp only [ty] at heq
      exact (hne _ s' heq rfl).elim
    · rfl

theorem noCall_enumRef {E : Enums} {e e' : Src} (h : postM (enumRef E) e = some e') (hn : NoCall e) : NoCall e' := by
  induction e using Src.ind generalizing e' with
  | h k ty cs ih =>
    obtain ⟨cs', h1, h2⟩ := postM_node h
    have hn := every_node.mp hn
    have hkids : ∀ c' ∈ cs', NoCall c' := by
      intro c' hc'
      obtain ⟨c, hc, hcc⟩ := forall₂_mem h1 hc'
      exact ih c hc hcc (hn.2 c hc)
    rcases enumRef_rekind E _ _ _ _ h2 with rfl | ⟨g, ms, rfl, rfl⟩ | ⟨s', v, _, rfl⟩
    · exact every_node.mpr ⟨hn.1, hkids⟩
    · exact absurd rfl (hn.1 g)
    · exact every_node.mpr ⟨by simp [kind], by simp⟩

theorem structAcc_every {p : Src → Prop} (hc : ∀ k ty cs cs', List.Forall₂ (fun c c' => postM structAcc c = some c') cs cs' →
      p (.node k ty cs) → p (.node k ty cs'))
    {e e' : Src} (h : postM structAcc e = some e') (he : Every p e) : Every p e' := by
  induction e using Src.ind generalizing e' with
  | h k ty cs ih =>
    obtain ⟨cs', h1, h2⟩ := postM_node h
    have he := every_node.mp he
    have h3 : Every p (.node k ty cs') := by
      refine every_node.mpr ⟨hc _ _ _ _ h1 he.1, fun c' hc' => ?_⟩
      obtain ⟨c, hcm, hcc⟩ := forall₂_mem h1 hc'
      exact ih c hcm hcc (he.2 c hcm)
    rcases structAcc_inv h2 with rfl | ⟨m, ty, f, ms, ty', cs, heq, _, hc⟩
    · exact h3
    · rw [heq] at h3
      exact (every_node.mp ((every_node.mp h3).2 _ (List.mem_singleton.mpr rfl))).2 _ (List.mem_of_getElem? hc)

/-! ### array accesses -/

/-- A scalar that is not a name or an element of an array. -/
def Solid (e : Src) : Prop := (∀ s, e.kind ≠ .var s) ∧ (∀ i, e.kind ≠ .index i) ∧ ∀ i j, e.kind ≠ .slice i j

/-- Resolving accesses turns literal data into canonical data. -/
theorem literal_canon {D : Decls} {e e' : Src} {Γ : Scope} {t : Ty} (h : HasSort D Γ e t) (hl : Literal D.enums e)
    (hn : NoCall e) (hne : NoEnum D.enums e) (hp : postM structAcc e = some e') : Canon D Solid t e' := by
  induction e using Src.ind generalizing e' Γ t with
  | h k ty cs ih =>
    obtain ⟨cs', h1, h2⟩ := postM_node hp
    have hn := every_node.mp hn
    have hne := every_node.mp hne
    have hsolid : ((∀ s, k ≠ .var s) ∧ (∀ i, k ≠ .index i) ∧ ∀ i j, k ≠ .slice i j) → (∀ m, k ≠ .access m) → Solid e' := by
      intro hk hm
      rw [structAcc_id (e := .node k ty cs') hm] at h2
      simp at h2; subst h2
      exact hk
    have hkids : (∀ c ∈ cs, Literal D.enums c) → ∀ c ∈ cs, ∀ Γ t e', HasSort D Γ c t → postM structAcc c = some e' →
        Canon D Solid t e' := fun hc c hcm Γ t e' hs hp => ih c hcm hs (hc c hcm) (hn.2 c hcm) (hne.2 c hcm) hp
    cases h with
    | bool => exact .scalar rfl (hsolid (by simp) (by simp))
    | int => exact .scalar rfl (hsolid (by simp) (by simp))
    | float => exact .scalar rfl (hsolid (by simp) (by simp))
    | tau => exact .scalar rfl (hsolid (by simp) (by simp))
    | sig a b => exact .scalar b (hsolid (by simp) (by simp))
    | enum a => have := hne.1 _ rfl; simp only [Src.ty] at this; rw [a] at this; simp at this
    | var a b => cases hl with | enum h => rw [a] at h; simp at h
    | array h =>
      cases hl with
      | array hl =>
        rw [structAcc_id (by simp [kind])] at h2
        simp at h2; subst h2
        refine .arr fun c' hc' => ?_
        obtain ⟨c, hc, h3⟩ := forall₂_mem h1 hc'
        exact hkids hl c hc _ _ _ (h c hc) h3
    | index h0 h => cases hl
    | slice h0 h => cases hl
    | call h0 h => exact absurd rfl (hn.1 _)
    | struct g1 g2 g3 g4 g5 =>
      cases hl with
      | struct hl =>
        rw [structAcc_id (by simp [kind])] at h2
        simp at h2; subst h2
        refine .struct g1 g2 g3 (by rw [← g4, h1.length_eq]) fun i c' t hc' ht => ?_
        obtain ⟨c, hc, h3⟩ := forall₂_idx h1 hc'
        have hm : c ∈ cs := List.mem_of_getElem? hc
        exact hkids hl c hm _ _ _ (g5 i c t hc ht) h3
    | access g g1 g2 g3 =>
      cases hl with
      | access hl =>
        cases h1 with
        | cons h1 hn' =>
          cases hn'
          have hc := hkids hl _ (by simp) _ _ _ g h1
          cases hc with
          | scalar hsc _ => simp [Ty.scalar] at hsc
          | struct k1 k2 k3 k4 k5 =>
            rw [g1] at k1; cases k1
            subst k2
            simp only [structAcc, memberIdx] at h2
            split_ifs at h2 with hlt
            · exact k5 _ _ _ (by simpa using h2) (member_sort (D := D) k3 g2 g3)
            · simp at h2
    | agg h1 h2 h3 => exact .scalar rfl (hsolid (by simp) (by simp))
    | aggN h1 h2 h3 h4 => exact .scalar rfl (hsolid (by simp) (by simp))
    | op h1 h2 h3 => exact .scalar (OpK.sort_scalar h3) (hsolid (by simp) (by simp))
    | tmp h => exact .scalar rfl (hsolid (by simp) (by simp))

/-- Arrays whose elements can be picked, after member accesses have been resolved. -/
inductive Pick (D : Decls) : Ty → Src → Prop
  | canon {t e} : Canon D Solid t e → Pick D t e
  | array {t ty cs} : (∀ c ∈ cs, Pick D t c) → Pick D (.arr t) (.node .array ty cs)
  | index {t i ty a} : Pick D (.arr t) a → Pick D t (.node (.index i) ty [a])
  | slice {t i j ty a} : Pick D (.arr t) a → Pick D (.arr t) (.node (.slice i j) ty [a])

theorem pickable_pick {D : Decls} {e e' : Src} {Γ : Scope} {t : Ty} (h : HasSort D Γ e t) (hl : Pickable D.enums e)
    (hn : NoCall e) (hne : NoEnum D.enums e) (hp : postM structAcc e = some e') : Pick D t e' := by
  induction e using Src.ind generalizing e' Γ t with
  | h k ty cs ih =>
    obtain ⟨cs', h1, h2⟩ := postM_node hp
    have hn' := every_node.mp hn
    have hne' := every_node.mp hne
    cases hl with
    | literal hl => exact .canon (literal_canon h hl hn hne hp)
    | array hl =>
      rw [structAcc_id (by simp [kind])] at h2
      simp at h2; subst h2
      cases h with
      | array h =>
        refine .array fun c' hc' => ?_
        obtain ⟨c, hc, h3⟩ := forall₂_mem h1 hc'
        exact ih c hc (h c hc) (hl c hc) (hn'.2 c hc) (hne'.2 c hc) h3
    | index hl =>
      rw [structAcc_id (by simp [kind])] at h2
      simp at h2; subst h2
      cases h with
      | index h0 h =>
        cases h1 with
        | cons h1 hnil =>
          cases hnil
          exact .index (ih _ (by simp) h (hl _ (by simp)) (hn'.2 _ (by simp)) (hne'.2 _ (by simp)) h1)
    | slice hl =>
      rw [structAcc_id (by simp [kind])] at h2
      simp at h2; subst h2
      cases h with
      | slice h0 h =>
        cases h1 with
        | cons h1 hnil =>
          cases hnil
          exact .slice (ih _ (by simp) h (hl _ (by simp)) (hn'.2 _ (by simp)) (hne'.2 _ (by simp)) h1)

/-- Elements are picked from arrays from which they can be. -/
def Picks (D : Decls) : Src → Prop := Every fun e => match e.kind with
  | .index _ | .slice .. => ∀ c ∈ e.kids, ∃ t, Pick D (.arr t) c
  | _ => True

theorem picks_node' {D : Decls} {k ty cs} : Picks D (.node k ty cs) ↔
    (match k with | .index _ | .slice .. => ∀ c ∈ cs, ∃ t, Pick D (.arr t) c | _ => True) ∧ ∀ c ∈ cs, Picks D c := every_node

theorem structAcc_picks {D : Decls} {e e' : Src} {Γ : Scope} {t : Ty} (h : HasSort D Γ e t) (hl : PicksLiterals D.enums e)
    (hn : NoCall e) (hne : NoEnum D.enums e) (hp : postM structAcc e = some e') : Picks D e' := by
  induction e using Src.ind generalizing e' Γ t with
  | h k ty cs ih =>
    obtain ⟨cs', h1, h2⟩ := postM_node hp
    have hl := picks_node.mp hl
    have hn := every_node.mp hn
    have hne := every_node.mp hne
    have hkids : ∀ c' ∈ cs', Picks D c' := by
      intro c' hc'
      obtain ⟨c, hc, hcc⟩ := forall₂_mem h1 hc'
      obtain ⟨Γ', t', hs⟩ := h.kid hc
      exact ih c hc hs (hl.2 c hc) (hn.2 c hc) (hne.2 c hc) hcc
    have h3 : Picks D (.node k ty cs') := by
      refine picks_node'.mpr ⟨?_, hkids⟩
      cases k with
      | index i =>
        cases h with
        | index h0 h =>
          intro c' hc'
          obtain ⟨c, hc, hcc⟩ := forall₂_mem h1 hc'
          have hc0 := List.mem_singleton.mp hc
          subst hc0
          exact ⟨_, pickable_pick h (hl.1 _ hc) (hn.2 _ hc) (hne.2 _ hc) hcc⟩
      | slice i j =>
        cases h with
        | slice h0 h =>
          intro c' hc'
          obtain ⟨c, hc, hcc⟩ := forall₂_mem h1 hc'
          have hc0 := List.mem_singleton.mp hc
          subst hc0
          exact ⟨_, pickable_pick h (hl.1 _ hc) (hn.2 _ hc) (hne.2 _ hc) hcc⟩
      | _ => trivial
    rcases structAcc_inv h2 with rfl | ⟨m, ty, f, ms, ty', cs, heq, _, hc⟩
    · exact h3
    · rw [heq] at h3
      exact (picks_node'.mp ((picks_node'.mp h3).2 _ (List.mem_singleton.mpr rfl))).2 _ (List.mem_of_getElem? hc)

theorem arrayAcc_id {b : Bool} {e : Src} (h1 : ∀ i, e.kind ≠ .index i) (h2 : ∀ i j, e.kind ≠ .slice i j) : arrayAcc b e = some e := by
  unfold arrayAcc
  split
  · exact absurd rfl (h1 _)
  · exact absurd rfl (h1 _)
  · exact absurd rfl (h2 _ _)
  · exact absurd rfl (h2 _ _)
  · rfl

theorem pyIndex_mem {cs : List Src} {i : Int} {c : Src} (h : pyIndex cs i = some c) : c ∈ cs := by
  unfold pyIndex at h
  split_ifs at h
  · exact List.mem_of_getElem? h
  · exact List.mem_of_getElem? h

theorem pySlice_some {cs ds : List Src} {a b : Int} (h : pySlice cs a b = some ds) :
    List.Forall₂ (fun (k : Nat) d => pyIndex cs (a + k) = some d) (List.range (b + 1 - a).toNat) ds := by
  unfold pySlice at h
  generalize List.range (b + 1 - a).toNat = l at h
  induction l generalizing ds with
  | nil => simp at h; subst h; exact .nil
  | cons k l ih =>
    simp only [List.mapM_cons, Option.bind_eq_bind, Option.bind_eq_some_iff] at h
    obtain ⟨d, h1, ds', h2, h3⟩ := h
    simp at h3; subst h3
    exact .cons h1 (ih h2)

theorem arrayAcc_index_inv {b i ty cs e'} (h : arrayAcc b (.node (.index i) ty cs) = some e') :
    ∃ k m n cs' c, cs = [.node k (.arr m n) cs'] ∧ pyIndex cs' i = some c ∧ e' = c.withTy ty := by
  unfold arrayAcc at h
  split at h
  · rename_i heq
    cases heq
    split_ifs at h
    simp only [Option.map_eq_some_iff] at h
    obtain ⟨c, h1, rfl⟩ := h
    exact ⟨_, _, _, _, c, rfl, h1, rfl⟩
  · simp at h
  · rename_i heq; cases heq
  · rename_i heq; cases heq
  · rename_i hne _ _; exact absurd rfl (hne _ _ _)

theorem arrayAcc_slice_inv {i j ty cs e'} (h : arrayAcc true (.node (.slice i j) ty cs) = some e') :
    ∃ k m n cs' ds, cs = [.node k (.arr m n) cs'] ∧ pySlice cs' i j = some ds ∧ e' = .node .array ty ds := by
  unfold arrayAcc at h
  split at h
  · rename_i heq; cases heq
  · rename_i heq; cases heq
  · rename_i heq
    cases heq
    simp only [if_true] at h
    split_ifs at h
    simp only [Option.map_eq_some_iff] at h
    obtain ⟨ds, h1, rfl⟩ := h
    exact ⟨_, _, _, _, ds, rfl, h1, rfl⟩
  · simp at h
  · rename_i hne; exact absurd rfl (hne _ _ _ _)

theorem canon_withTy {D : Decls} {t : Ty} {e : Src} (h : Canon D Solid t e) (ty : Typ) :
    Canon D Solid t (e.withTy ty) := by
  cases h with
  | scalar hs hP => obtain ⟨k, ty', cs⟩ := e; exact .scalar hs hP
  | arr h => exact .arr h
  | struct h1 h2 h3 h4 h5 => exact .struct h1 h2 h3 h4 h5

theorem canon_arrayAcc {D : Decls} {t : Ty} {e e' : Src} (h : Canon D Solid t e) (hp : postM (arrayAcc true) e = some e') :
    Canon D Solid t e' := by
  induction e using Src.ind generalizing e' t with
  | h k ty cs ih =>
    obtain ⟨cs', h1, h2⟩ := postM_node hp
    cases h with
    | scalar hs hP =>
      rw [arrayAcc_id (e := .node k ty cs') hP.2.1 hP.2.2] at h2
      simp at h2; subst h2
      exact .scalar hs hP
    | arr h =>
      rw [arrayAcc_id (by simp [kind]) (by simp [kind])] at h2
      simp at h2; subst h2
      refine .arr fun c' hc' => ?_
      obtain ⟨c, hc, hcc⟩ := forall₂_mem h1 hc'
      exact ih c hc (h c hc) hcc
    | struct g1 g2 g3 g4 g5 =>
      rw [arrayAcc_id (by simp [kind]) (by simp [kind])] at h2
      simp at h2; subst h2
      refine .struct g1 g2 g3 (by rw [← g4, h1.length_eq]) fun i c' t hc' ht => ?_
      obtain ⟨c, hc, hcc⟩ := forall₂_idx h1 hc'
      exact ih c (List.mem_of_getElem? hc) (g5 i c t hc ht) hcc

theorem canon_arr_inv {D : Decls} {P : Src → Prop} {t : Ty} {k ty cs} (h : Canon D P (.arr t) (.node k ty cs)) :
    k = .array ∧ ∀ c ∈ cs, Canon D P t c := by
  cases h with
  | scalar hs _ => simp [Ty.scalar] at hs
  | arr h => exact ⟨rfl, h⟩

theorem pick_canon {D : Decls} {t : Ty} {e e' : Src} (h : Pick D t e) (hp : postM (arrayAcc true) e = some e') :
    Canon D Solid t e' := by
  induction e using Src.ind generalizing e' t with
  | h k ty cs ih =>
    obtain ⟨cs', h1, h2⟩ := postM_node hp
    cases h with
    | canon h => exact canon_arrayAcc h hp
    | array h =>
      rw [arrayAcc_id (by simp [kind]) (by simp [kind])] at h2
      simp at h2; subst h2
      refine .arr fun c' hc' => ?_
      obtain ⟨c, hc, hcc⟩ := forall₂_mem h1 hc'
      exact ih c hc (h c hc) hcc
    | index h =>
      cases h1 with
      | cons h1 hn =>
        cases hn
        have hc := ih _ (by simp) h h1
        obtain ⟨k, m, n, cs', c, heq, hi, rfl⟩ := arrayAcc_index_inv h2
        simp at heq; subst heq
        exact canon_withTy ((canon_arr_inv hc).2 c (pyIndex_mem hi)) ty
    | slice h =>
      cases h1 with
      | cons h1 hn =>
        cases hn
        have hc := ih _ (by simp) h h1
        obtain ⟨k, m, n, cs', ds, heq, hi, rfl⟩ := arrayAcc_slice_inv h2
        simp at heq; subst heq
        refine .arr fun d hd => ?_
        obtain ⟨k, _, hk⟩ := forall₂_mem (pySlice_some hi) hd
        exact (canon_arr_inv hc).2 d (pyIndex_mem hk)

theorem canon_kind {D : Decls} {t : Ty} {e : Src} (h : Canon D Solid t e) : ∀ s, e.kind ≠ .var s := by
  cases h with
  | scalar _ h => exact h.1
  | arr h => simp [kind]
  | struct => simp [kind]

/-- Picking elements of pickable arrays keeps sorts and meanings. -/
theorem arrayAcc_keep {D : Decls} {I : Interp F} {e e' : Src} (hpk : Picks D e) (hp : postM (arrayAcc true) e = some e') :
    SortLe D e e' ∧ ∀ Γ t, HasSort D Γ e t → sem I e' = sem I e := by
  induction e using Src.ind generalizing e' with
  | h k ty cs ih =>
    obtain ⟨cs', h1, h2⟩ := postM_node hp
    have hpk := picks_node'.mp hpk
    have hle : List.Forall₂ (SortLe D) cs cs' := forall₂_of_mem h1 fun c hc c' hcc => (ih c hc (hpk.2 c hc) hcc).1
    have hsem : ∀ Γ t, HasSort D Γ (.node k ty cs) t → sem I (.node k ty cs') = sem I (.node k ty cs) := by
      intro Γ t hs
      rw [sem_node, sem_node]
      congr 1
      refine map_eq_of (forall₂_of_mem h1 fun c hc c' hcc => ?_)
      obtain ⟨Γ', t', hs'⟩ := hs.kid hc
      exact (ih c hc (hpk.2 c hc) hcc).2 Γ' t' hs'
    suffices H : ∀ Γ t, HasSort D Γ (.node k ty cs') t → HasSort D Γ e' t ∧ sem I e' = sem I (.node k ty cs') from
      ⟨fun Γ t hs => (H Γ t (hs.congr_kids hle)).1, fun Γ t hs => (H Γ t (hs.congr_kids hle)).2.trans (hsem Γ t hs)⟩
    intro Γ t hs
    by_cases hi : ∃ i, k = .index i
    · obtain ⟨i, rfl⟩ := hi
      obtain ⟨k1, m, n, cs1, c, rfl, hpy, rfl⟩ := arrayAcc_index_inv h2
      cases h1 with
      | cons h1 hnil =>
        cases hnil
        obtain ⟨t0, hpick⟩ := hpk.1 _ (List.mem_singleton.mpr rfl)
        have hcan := pick_canon hpick h1
        obtain ⟨rfl, hall⟩ := canon_arr_inv hcan
        have hck := canon_kind (hall c (pyIndex_mem hpy))
        cases hs with
        | index h0 hs =>
          cases hs with
          | array hs =>
            refine ⟨(hs c (pyIndex_mem hpy)).withTy hck ty, ?_⟩
            rw [sem_withTy I c ty hck]
            unfold pyIndex at hpy
            rw [if_pos h0] at hpy
            funext ρ j
            simp [sem_node, evalK, h0, Val.nth, Val.items, hpy]
    · by_cases hsl : ∃ i j, k = .slice i j
      · obtain ⟨i, j, rfl⟩ := hsl
        obtain ⟨k1, m, n, cs1, ds, rfl, hpy, rfl⟩ := arrayAcc_slice_inv h2
        cases h1 with
        | cons h1 hnil =>
          cases hnil
          obtain ⟨t0, hpick⟩ := hpk.1 _ (List.mem_singleton.mpr rfl)
          have hcan := pick_canon hpick h1
          obtain ⟨rfl, hall⟩ := canon_arr_inv hcan
          have hpy := pySlice_some hpy
          cases hs with
          | slice h0 hs =>
            cases hs with
            | array hs =>
              constructor
              · refine .array fun d hd => ?_
                obtain ⟨k, _, hk⟩ := forall₂_mem hpy hd
                exact hs d (pyIndex_mem hk)
              · funext ρ l
                simp only [sem_node, evalK, List.map_cons, List.map_nil, h0, if_true, List.map_map]
                congr 1
                refine map_eq_of (forall₂_of_mem hpy fun k _ d hk => ?_)
                unfold pyIndex at hk
                rw [if_pos (by omega)] at hk
                have : (i + (k : Int)).toNat = i.toNat + k := by omega
                rw [this] at hk
                simp [Val.nth, Val.items, hk]
      · push Not at hi hsl
        rw [arrayAcc_id (e := .node k ty cs') hi hsl] at h2
        simp at h2; subst h2
        exact ⟨hs, rfl⟩

theorem arrayAcc_bound (e e' : Src) (h : arrayAcc true e = some e') : ∀ s, s ∈ bound e' → s ∈ bound e := by
  obtain ⟨k, ty, cs⟩ := e
  by_cases hi : ∃ i, k = .index i
  · obtain ⟨i, rfl⟩ := hi
    obtain ⟨k1, m, n, cs1, c, rfl, hpy, rfl⟩ := arrayAcc_index_inv h
    intro s hs
    rw [bound_withTy] at hs
    exact mem_bound.mpr (.inr ⟨_, List.mem_singleton.mpr rfl, mem_bound.mpr (.inr ⟨c, pyIndex_mem hpy, hs⟩)⟩)
  · by_cases hsl : ∃ i j, k = .slice i j
    · obtain ⟨i, j, rfl⟩ := hsl
      obtain ⟨k1, m, n, cs1, ds, rfl, hpy, rfl⟩ := arrayAcc_slice_inv h
      intro s hs
      rcases mem_bound.mp hs with ⟨a, ha⟩ | ⟨d, hd, hs⟩
      · cases ha
      · obtain ⟨k, _, hk⟩ := forall₂_mem (pySlice_some hpy) hd
        exact mem_bound.mpr (.inr ⟨_, List.mem_singleton.mpr rfl, mem_bound.mpr (.inr ⟨d, pyIndex_mem hk, hs⟩)⟩)
    · push Not at hi hsl
      rw [arrayAcc_id (e := .node k ty cs) hi hsl] at h
      simp at h; subst h
      exact fun s hs => hs

theorem arrayAcc_scoped (e e' : Src) (h : arrayAcc true e = some e') (hsc : Scoped e) : Scoped e' := by
  obtain ⟨k, ty, cs⟩ := e
  by_cases hi : ∃ i, k = .index i
  · obtain ⟨i, rfl⟩ := hi
    obtain ⟨k1, m, n, cs1, c, rfl, hpy, rfl⟩ := arrayAcc_index_inv h
    exact scoped_withTy ((scoped_node.mp ((scoped_node.mp hsc).2 _ (List.mem_singleton.mpr rfl))).2 c (pyIndex_mem hpy)) ty
  · by_cases hsl : ∃ i j, k = .slice i j
    · obtain ⟨i, j, rfl⟩ := hsl
      obtain ⟨k1, m, n, cs1, ds, rfl, hpy, rfl⟩ := arrayAcc_slice_inv h
      refine scoped_node.mpr ⟨trivial, fun d hd => ?_⟩
      obtain ⟨k, _, hk⟩ := forall₂_mem (pySlice_some hpy) hd
      exact (scoped_node.mp ((scoped_node.mp hsc).2 _ (List.mem_singleton.mpr rfl))).2 d (pyIndex_mem hk)
    · push Not at hi hsl
      rw [arrayAcc_id (e := .node k ty cs) hi hsl] at h
      simp at h; subst h
      exact hsc

/-- After the array accesses, nothing is left to resolve but member accesses below bound names. -/
theorem arrayAcc_resolved {D : Decls} {e e' : Src} (hpk : Picks D e) (hc : NoCall e) (hne : NoEnum D.enums e)
    (hp : postM (arrayAcc true) e = some e') : Resolved D.enums e' := by
  induction e using Src.ind generalizing e' with
  | h k ty cs ih =>
    obtain ⟨cs', h1, h2⟩ := postM_node hp
    have hpk := picks_node'.mp hpk
    have hc := every_node.mp hc
    have hne := every_node.mp hne
    have hkids : ∀ c' ∈ cs', Resolved D.enums c' := by
      intro c' hc'
      obtain ⟨c, hcm, hcc⟩ := forall₂_mem h1 hc'
      exact ih c hcm (hpk.2 c hcm) (hc.2 c hcm) (hne.2 c hcm) hcc
    by_cases hi : ∃ i, k = .index i
    · obtain ⟨i, rfl⟩ := hi
      obtain ⟨k1, m, n, cs1, c, rfl, hpy, rfl⟩ := arrayAcc_index_inv h2
      cases h1 with
      | cons h1 hnil =>
        cases hnil
        obtain ⟨t0, hpick⟩ := hpk.1 _ (List.mem_singleton.mpr rfl)
        obtain ⟨rfl, hall⟩ := canon_arr_inv (pick_canon hpick h1)
        exact resolved_withTy ((resolved_node.mp (hkids _ (List.mem_singleton.mpr rfl))).2 c (pyIndex_mem hpy))
          (canon_kind (hall c (pyIndex_mem hpy))) ty
    · by_cases hsl : ∃ i j, k = .slice i j
      · obtain ⟨i, j, rfl⟩ := hsl
        obtain ⟨k1, m, n, cs1, ds, rfl, hpy, rfl⟩ := arrayAcc_slice_inv h2
        refine resolved_node.mpr ⟨trivial, fun d hd => ?_⟩
        obtain ⟨k, _, hk⟩ := forall₂_mem (pySlice_some hpy) hd
        exact (resolved_node.mp (hkids _ (List.mem_singleton.mpr rfl))).2 d (pyIndex_mem hk)
      · push Not at hi hsl
        rw [arrayAcc_id (e := .node k ty cs') hi hsl] at h2
        simp at h2; subst h2
        refine resolved_node.mpr ⟨?_, hkids⟩
        cases k with
        | index i => exact absurd rfl (hi i)
        | slice i j => exact absurd rfl (hsl i j)
        | call f => exact absurd rfl (hc.1 f)
        | var s => exact hne.1 s rfl
        | _ => trivial

end Src
end R2U2
