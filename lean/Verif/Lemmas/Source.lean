import Verif.Model.Desugar
import Verif.Spec.Source
import Mathlib.Tactic.SplitIfs
/-
Basic facts about source expressions: induction, meanings of passes that work bottom-up, sorts and values.
-/
namespace R2U2

theorem Src.ind {P : Src → Prop} (h : ∀ k ty cs, (∀ c ∈ cs, P c) → P (.node k ty cs)) : ∀ e, P e := by
  intro e
  exact Src.rec (motive_1 := P) (motive_2 := fun cs => ∀ c ∈ cs, P c)
    (fun k ty cs ih => h k ty cs ih) (by simp)
    (fun c cs hc hcs => by
      intro d hd
      rcases List.mem_cons.mp hd with rfl | hd
      · exact hc
      · exact hcs d hd) e

namespace Src
variable {F : Type}

theorem semL_eq (I : Interp F) (cs : List Src) : semL I cs = cs.map (sem I) := by
  induction cs with
  | nil => simp [semL]
  | cons c cs ih => simp [semL, ih]

theorem sem_node (I : Interp F) (k : SK) (ty : Typ) (cs : List Src) :
    sem I (.node k ty cs) = evalK I k ty (cs.map (sem I)) := by
  rw [sem, semL_eq]

theorem postML_some {f : Src → Option Src} {cs cs' : List Src} (h : postML f cs = some cs') :
    List.Forall₂ (fun c c' => postM f c = some c') cs cs' := by
  induction cs generalizing cs' with
  | nil => simp [postML] at h; subst h; exact .nil
  | cons c cs ih =>
    simp only [postML, Option.bind_eq_some_iff] at h
    obtain ⟨c', h1, cs1, h2, h3⟩ := h
    simp at h3; subst h3
    exact .cons h1 (ih h2)

theorem postM_node {f : Src → Option Src} {k ty cs e'} (h : postM f (.node k ty cs) = some e') :
    ∃ cs', List.Forall₂ (fun c c' => postM f c = some c') cs cs' ∧ f (.node k ty cs') = some e' := by
  simp only [postM, Option.bind_eq_some_iff] at h
  obtain ⟨cs', h1, h2⟩ := h
  exact ⟨cs', postML_some h1, h2⟩

theorem forall₂_of_mem {A B : Type} {R S : A → B → Prop} {as : List A} {bs : List B} (h : List.Forall₂ R as bs)
    (hs : ∀ a ∈ as, ∀ b, R a b → S a b) : List.Forall₂ S as bs := by
  induction h with
  | nil => exact .nil
  | cons h1 _ ih => exact .cons (hs _ (by simp) _ h1) (ih fun a ha => hs a (by simp [ha]))

theorem forall₂_idx {A B : Type} {R : A → B → Prop} {as : List A} {bs : List B} (h : List.Forall₂ R as bs)
    {i : Nat} {b : B} (hb : bs[i]? = some b) : ∃ a, as[i]? = some a ∧ R a b := by
  induction h generalizing i with
  | nil => simp at hb
  | cons h1 _ ih =>
    cases i with
    | zero => simp at hb; subst hb; exact ⟨_, by simp, h1⟩
    | succ i => simpa using ih (by simpa using hb)

theorem forall₂_mem {A B : Type} {R : A → B → Prop} {as : List A} {bs : List B} (h : List.Forall₂ R as bs)
    {b : B} (hb : b ∈ bs) : ∃ a ∈ as, R a b := by
  induction h with
  | nil => simp at hb
  | cons h1 _ ih =>
    rcases List.mem_cons.mp hb with rfl | hb
    · exact ⟨_, by simp, h1⟩
    · obtain ⟨a, ha, hr⟩ := ih hb
      exact ⟨a, by simp [ha], hr⟩

theorem map_eq_of {A B C : Type} {f : A → C} {g : B → C} {as : List A} {bs : List B}
    (h : List.Forall₂ (fun a b => g b = f a) as bs) : bs.map g = as.map f := by
  induction h with
  | nil => rfl
  | cons h1 _ ih => simp [h1, ih]

/-- A pass that keeps the meaning of every node keeps the meaning of the expression. -/
theorem postM_sem (I : Interp F) {f : Src → Option Src} (hf : ∀ e e', f e = some e' → sem I e' = sem I e) {e e' : Src}
    (h : postM f e = some e') : sem I e' = sem I e := by
  induction e using Src.ind generalizing e' with
  | h k ty cs ih =>
    obtain ⟨cs', h1, h2⟩ := postM_node h
    rw [hf _ _ h2, sem_node, sem_node]
    congr 1
    exact map_eq_of (forall₂_of_mem h1 fun c hc c' hcc => ih c hc hcc)

/-! ### the node functions -/

theorem lookup_zip {β : Type} {ms : List String} {vs : List β} {m : String} {v : β}
    (h : vs[ms.idxOf m]? = some v) (hm : ms.idxOf m < ms.length) : (ms.zip vs).lookup m = some v := by
  induction ms generalizing vs with
  | nil => simp at hm
  | cons a ms ih =>
    cases vs with
    | nil => simp at h
    | cons w vs =>
      by_cases ham : a = m
      · subst ham; simp [List.idxOf_cons] at h ⊢; exact h
      · have hne : (a == m) = false := by simpa using ham
        have hne' : (m == a) = false := by simpa using fun h => ham h.symm
        rw [List.idxOf_cons, hne] at h hm
        simp only [cond_false, List.getElem?_cons_succ, List.length_cons, Nat.add_lt_add_iff_right] at h hm
        simp only [List.zip_cons_cons, List.lookup_cons, hne']
        exact ih h hm

theorem structAcc_inv {e e' : Src} (h : structAcc e = some e') :
    e' = e ∨ ∃ m ty s ms ty' cs, e = .node (.access m) ty [.node (.struct s ms) ty' cs] ∧
      ms.idxOf m < ms.length ∧ cs[ms.idxOf m]? = some e' := by
  unfold structAcc at h
  split at h
  · rename_i m ty s ms ty' cs
    simp only [memberIdx] at h
    split_ifs at h with hlt
    · exact .inr ⟨m, ty, s, ms, ty', cs, rfl, hlt, by simpa using h⟩
    · simp at h
  · exact .inl (by simpa using h.symm)

theorem structAcc_sem (I : Interp F) (e e' : Src) (h : structAcc e = some e') : sem I e' = sem I e := by
  rcases structAcc_inv h with rfl | ⟨m, ty, s, ms, ty', cs, rfl, hlt, hc⟩
  · rfl
  · funext ρ i
    simp only [sem_node, List.map_cons, List.map_nil, evalK, Val.member]
    rw [lookup_zip (v := sem I e' ρ i) (by simp [hc]) hlt]
    rfl

theorem callToStruct_sem (I : Interp F) (e e' : Src) (h : callToStruct I.structs e = some e') :
    sem I e' = sem I e := by
  unfold callToStruct at h
  split at h
  · split at h
    · rename_i f ty cs ms hl
      simp at h; subst h
      funext ρ i
      simp [sem_node, evalK, hl]
    · simp at h; subst h; rfl
  · simp at h; subst h; rfl

/-! ### sorts -/

/-- `c'` may stand wherever `c` does. -/
def SortLe (D : Decls) (c c' : Src) : Prop := ∀ Γ t, HasSort D Γ c t → HasSort D Γ c' t

theorem _root_.R2U2.HasSort.congr_kids {D : Decls} {Γ : Scope} {k ty cs cs' t} (h : HasSort D Γ (.node k ty cs) t)
    (hc : List.Forall₂ (SortLe D) cs cs') : HasSort D Γ (.node k ty cs') t := by
  have hidx : ∀ {ts : List Ty}, (∀ (i : Nat) (c : Src) (t : Ty), cs[i]? = some c → ts[i]? = some t → HasSort D Γ c t) →
      ∀ (i : Nat) (c : Src) (t : Ty), cs'[i]? = some c → ts[i]? = some t → HasSort D Γ c t := by
    intro ts hh i c' t hi ht
    obtain ⟨c, hc1, hc2⟩ := forall₂_idx hc hi
    exact hc2 _ _ (hh i c t hc1 ht)
  have hlen := hc.length_eq
  cases h with
  | bool => cases hc; exact .bool
  | int => cases hc; exact .int
  | float => cases hc; exact .float
  | tau => cases hc; exact .tau
  | sig a b => cases hc; exact .sig a b
  | enum a => cases hc; exact .enum a
  | var a b => cases hc; exact .var a b
  | array h =>
    refine .array fun c' hm => ?_
    obtain ⟨c, hc1, hc2⟩ := forall₂_mem hc hm
    exact hc2 _ _ (h c hc1)
  | index h0 h => cases hc with | cons h1 hn => cases hn; exact .index h0 (h1 _ _ h)
  | slice h0 h => cases hc with | cons h1 hn => cases hn; exact .slice h0 (h1 _ _ h)
  | struct h1 h2 h3 h4 h5 => exact .struct h1 h2 h3 (by omega) (hidx h5)
  | call h1 h3 h4 h5 => exact .call h1 h3 (by omega) (hidx h5)
  | access h h1 h2 h3 => cases hc with | cons h4 hn => cases hn; exact .access (h4 _ _ h) h1 h2 h3
  | agg h1 h2 h3 =>
    cases hc with
    | cons h4 hn => cases hn with | cons h5 hn => cases hn; exact .agg (h4 _ _ h1) (h5 _ _ h2) h3
  | aggN h1 h2 h3 h4 =>
    cases hc with
    | cons h5 hn =>
      cases hn with
      | cons h6 hn => cases hn with | cons h7 hn => cases hn; exact .aggN (h5 _ _ h1) (h6 _ _ h2) (h7 _ _ h3) h4
  | op h1 h2 h3 => exact .op (by omega) (hidx h2) h3
  | tmp h =>
    refine .tmp fun c' hm => ?_
    obtain ⟨c, hc1, hc2⟩ := forall₂_mem hc hm
    exact hc2 _ _ (h c hc1)

/-- Every child of a well-sorted node is well-sorted in some scope. -/
theorem _root_.R2U2.HasSort.kid {D : Decls} {Γ : Scope} {k ty cs t} (h : HasSort D Γ (.node k ty cs) t) {c : Src} (hc : c ∈ cs) :
    ∃ Γ' t', HasSort D Γ' c t' := by
  have hidx : ∀ {ts : List Ty}, cs.length = ts.length →
      (∀ (i : Nat) (c : Src) (t : Ty), cs[i]? = some c → ts[i]? = some t → HasSort D Γ c t) → ∃ Γ' t', HasSort D Γ' c t' := by
    intro ts hl hh
    obtain ⟨i, hi, rfl⟩ := List.mem_iff_getElem.mp hc
    exact ⟨Γ, ts[i]'(hl ▸ hi), hh i _ _ (by simp [hi]) (by simp [hl ▸ hi])⟩
  cases h with
  | bool | int | float | tau | sig | enum | var => simp at hc
  | array h => exact ⟨_, _, h c hc⟩
  | index h0 h => simp at hc; subst hc; exact ⟨_, _, h⟩
  | slice h0 h => simp at hc; subst hc; exact ⟨_, _, h⟩
  | struct h1 h2 h3 h4 h5 => exact hidx h4 h5
  | call h1 h3 h4 h5 => exact hidx h4 h5
  | access h h1 h2 h3 => simp at hc; subst hc; exact ⟨_, _, h⟩
  | agg h1 h2 h3 => simp at hc; rcases hc with rfl | rfl; exacts [⟨_, _, h1⟩, ⟨_, _, h2⟩]
  | aggN h1 h2 h3 h4 => simp at hc; rcases hc with rfl | rfl | rfl; exacts [⟨_, _, h1⟩, ⟨_, _, h2⟩, ⟨_, _, h3⟩]
  | op h1 h2 h3 => exact hidx h1 h2
  | tmp h => exact ⟨_, _, h c hc⟩

/-- A bottom-up pass whose node function keeps sorts and, on well-sorted nodes, meanings. -/
theorem postM_keep {D : Decls} {I : Interp F} {f : Src → Option Src}
    (hf : ∀ e e' Γ t, HasSort D Γ e t → f e = some e' → HasSort D Γ e' t ∧ sem I e' = sem I e)
    {e e' : Src} (hp : postM f e = some e') :
    SortLe D e e' ∧ ∀ Γ t, HasSort D Γ e t → sem I e' = sem I e := by
  induction e using Src.ind generalizing e' with
  | h k ty cs ih =>
    obtain ⟨cs', h1, h2⟩ := postM_node hp
    have hk : List.Forall₂ (SortLe D) cs cs' := forall₂_of_mem h1 fun c hc c' hcc => (ih c hc hcc).1
    refine ⟨fun Γ t h => (hf _ _ Γ t (h.congr_kids hk) h2).1, fun Γ t h => ?_⟩
    rw [(hf _ _ Γ t (h.congr_kids hk) h2).2, sem_node, sem_node]
    congr 1
    refine map_eq_of (forall₂_of_mem h1 fun c hc c' hcc => ?_)
    obtain ⟨Γ', t', hs⟩ := h.kid hc
    exact (ih c hc hcc).2 Γ' t' hs

theorem member_sort {D : Decls} {fs : List (String × Typ)} {ts : List Ty} {m : String} {mt : Typ} {t : Ty}
    (hts : fs.map (·.2.sort) = ts.map some) (hm : fs.lookup m = some mt) (ht : mt.sort = some t) :
    ts[(fs.map (·.1)).idxOf m]? = some t := by
  induction fs generalizing ts with
  | nil => simp at hm
  | cons f fs ih =>
    cases ts with
    | nil => simp at hts
    | cons u ts =>
      simp only [List.map_cons, List.cons.injEq] at hts
      by_cases h : f.1 = m
      · have hb : (f.1 == m) = true := by simpa using h
        have hb' : (m == f.1) = true := by simpa using h.symm
        obtain ⟨a, b⟩ := f
        simp only [List.lookup_cons, hb'] at hm
        simp only [Option.some.injEq] at hm; subst hm
        simp only [List.map_cons, List.idxOf_cons, hb, cond_true, List.getElem?_cons_zero]
        rw [← ht]; exact hts.1.symm
      · have hb : (f.1 == m) = false := by simpa using h
        have hb' : (m == f.1) = false := by simpa using fun h' => h h'.symm
        obtain ⟨a, b⟩ := f
        simp only [List.lookup_cons, hb'] at hm
        simp only [List.map_cons, List.idxOf_cons, hb, cond_false, List.getElem?_cons_succ]
        exact ih hts.2 hm

theorem structAcc_keep {D : Decls} {I : Interp F} (e e' : Src) (Γ : Scope) (t : Ty) (h : HasSort D Γ e t)
    (he : structAcc e = some e') : HasSort D Γ e' t ∧ sem I e' = sem I e := by
  refine ⟨?_, structAcc_sem I e e' he⟩
  rcases structAcc_inv he with rfl | ⟨m, ty, s, ms, ty', cs, rfl, hlt, hc⟩
  · exact h
  · cases h with
    | access h1 h2 h3 h4 =>
      cases h1 with
      | struct g1 g2 g3 g4 g5 =>
        rw [h2] at g1; cases g1
        subst g2
        exact g5 _ _ _ hc (member_sort (D := D) g3 h3 h4)

theorem callToStruct_keep {D : Decls} {I : Interp F} (hI : I.structs = D.structs) (e e' : Src) (Γ : Scope) (t : Ty)
    (h : HasSort D Γ e t) (he : callToStruct I.structs e = some e') : HasSort D Γ e' t ∧ sem I e' = sem I e := by
  refine ⟨?_, callToStruct_sem I e e' he⟩
  unfold callToStruct at he
  split at he
  · split at he
    · rename_i f ty cs ms hl
      simp at he; subst he
      cases h with
      | call g1 g2 g3 g4 =>
        rw [hI, g1] at hl; cases hl
        exact .struct g1 rfl g2 g3 g4
    · simp at he; subst he; exact h
  · simp at he; subst he; exact h

theorem enumRef_keep {D : Decls} {I : Interp F} (hI : I.enums = D.enums) (hD : D.Apart) (e e' : Src) (Γ : Scope) (t : Ty)
    (h : HasSort D Γ e t) (he : enumRef I.enums e = some e') : HasSort D Γ e' t ∧ sem I e' = sem I e := by
  obtain ⟨k, ty, cs⟩ := e
  simp only [enumRef] at he
  split at he
  · rename_i _ _ n s hs
    split_ifs at he with hany
    · rw [hI] at he hany
      cases hl : (D.enums.lookup n).bind fun ms => ms.lookup s with
      | none => rw [hl] at he; simp at he
      | some v =>
        rw [hl] at he; simp at he; subst he
        split at hs
        · simp at hs; subst hs
          cases h with
          | enum g => exact ⟨.int, by funext ρ i; simp [sem_node, evalK, hI, enumVal, hl]⟩
          | var g1 _ => simp [enumVal, hl] at g1
        · simp at hs; subst hs
          cases h with
          | sig g1 g2 =>
            exfalso
            simp only [List.any_eq_true, beq_iff_eq] at hany
            obtain ⟨p, hp, m, hm, rfl⟩ := hany
            exact hD _ p.1 p.2 (by simp [g1]) hp m hm rfl
        · simp at hs
    · simp at he; subst he; exact ⟨h, rfl⟩
  · simp at he; subst he; exact ⟨h, rfl⟩

end Src
end R2U2
