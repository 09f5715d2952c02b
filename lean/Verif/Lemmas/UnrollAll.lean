import Verif.Lemmas.Unrolled
import Mathlib.Tactic.SplitIfs
/-
Unrolling the aggregations of a whole expression: meanings are kept, no aggregation is left, and the walk comes
to an end.
-/
namespace R2U2
namespace Src
variable {F : Type}

theorem _root_.R2U2.HasSort.congr_here {D : Decls} {Γ : Scope} {k ty cs cs' t} (h : HasSort D Γ (.node k ty cs) t)
    (hk : ∀ a v, k ≠ .agg a v) (hc : List.Forall₂ (fun c c' => ∀ t, HasSort D Γ c t → HasSort D Γ c' t) cs cs') :
    HasSort D Γ (.node k ty cs') t := by
  have hidx : ∀ {ts : List Ty}, (∀ (i : Nat) (c : Src) (t : Ty), cs[i]? = some c → ts[i]? = some t → HasSort D Γ c t) →
      ∀ (i : Nat) (c : Src) (t : Ty), cs'[i]? = some c → ts[i]? = some t → HasSort D Γ c t := by
    intro ts hh i c' t hi ht
    obtain ⟨c, hc1, hc2⟩ := forall₂_idx hc hi
    exact hc2 _ (hh i c t hc1 ht)
  have hlen := hc.length_eq
  cases h with
  | bool => cases hc; exact .bool
  | int => cases hc; exact .int
  | float => cases hc; exact .float
  | tau => cases hc; exact .tau
  | sig a b => cases hc; exact .sig a b
  | enum a => cases hc; exact .enum a
  | var a b => cases hc; exact .var a b
  | array h =>
    refine .array fun c' hm => ?_
    obtain ⟨c, hc1, hc2⟩ := forall₂_mem hc hm
    exact hc2 _ (h c hc1)
  | index h0 h => cases hc with | cons h1 hn => cases hn; exact .index h0 (h1 _ h)
  | slice h0 h => cases hc with | cons h1 hn => cases hn; exact .slice h0 (h1 _ h)
  | struct h1 h2 h3 h4 h5 => exact .struct h1 h2 h3 (by omega) (hidx h5)
  | call h1 h3 h4 h5 => exact .call h1 h3 (by omega) (hidx h5)
  | access h h1 h2 h3 => cases hc with | cons h4 hn => cases hn; exact .access (h4 _ h) h1 h2 h3
  | agg h1 h2 h3 => exact absurd rfl (hk _ _)
  | aggN h1 h2 h3 h4 => exact absurd rfl (hk _ _)
  | op h1 h2 h3 => exact .op (by omega) (hidx h2) h3
  | tmp h =>
    refine .tmp fun c' hm => ?_
    obtain ⟨c, hc1, hc2⟩ := forall₂_mem hc hm
    exact hc2 _ (h c hc1)

theorem _root_.R2U2.HasSort.kid_here {D : Decls} {Γ : Scope} {k ty cs t} (h : HasSort D Γ (.node k ty cs) t)
    (hk : ∀ a v, k ≠ .agg a v) {c : Src} (hc : c ∈ cs) : ∃ t', HasSort D Γ c t' := by
  have hidx : ∀ {ts : List Ty}, cs.length = ts.length →
      (∀ (i : Nat) (c : Src) (t : Ty), cs[i]? = some c → ts[i]? = some t → HasSort D Γ c t) → ∃ t', HasSort D Γ c t' := by
    intro ts hl hh
    obtain ⟨i, hi, rfl⟩ := List.mem_iff_getElem.mp hc
    exact ⟨ts[i]'(hl ▸ hi), hh i _ _ (by simp [hi]) (by simp [hl ▸ hi])⟩
  cases h with
  | bool | int | float | tau | sig | enum | var => simp at hc
  | array h => exact ⟨_, h c hc⟩
  | index h0 h => simp at hc; subst hc; exact ⟨_, h⟩
  | slice h0 h => simp at hc; subst hc; exact ⟨_, h⟩
  | struct h1 h2 h3 h4 h5 => exact hidx h4 h5
  | call h1 h3 h4 h5 => exact hidx h4 h5
  | access h h1 h2 h3 => simp at hc; subst hc; exact ⟨_, h⟩
  | agg h1 h2 h3 => exact absurd rfl (hk _ _)
  | aggN h1 h2 h3 h4 => exact absurd rfl (hk _ _)
  | op h1 h2 h3 => exact hidx h1 h2
  | tmp h => exact ⟨_, h c hc⟩

/-- `e'` may replace `e` where no names are in scope; it has no aggregations. -/
def Keeps (D : Decls) (I : Interp F) (e e' : Src) : Prop :=
  ∀ t, Ready D e t → Ready D e' t ∧ bound e' = [] ∧ ∀ ρ : Env F, ρ.Fits D Scope.empty → ∀ i, sem I e' ρ i = sem I e ρ i

theorem Ready.kid {D : Decls} {k ty cs t} (h : Ready D (.node k ty cs) t) (hk : ∀ a v, k ≠ .agg a v) {c : Src} (hc : c ∈ cs) :
    ∃ t', Ready D c t' := by
  obtain ⟨t', ht⟩ := h.sort.kid_here hk hc
  exact ⟨t', ht, (scoped_node.mp h.scope).2 c hc, (resolved_node.mp h.resolved).2 c hc⟩

theorem keeps_node {D : Decls} {I : Interp F} {k ty cs cs'} (hk : ∀ a v, k ≠ .agg a v)
    (hc : List.Forall₂ (Keeps D I) cs cs') : Keeps D I (.node k ty cs) (.node k ty cs') := by
  intro t h
  have hkid : ∀ c' ∈ cs', ∃ c ∈ cs, ∃ t', Ready D c t' ∧ Keeps D I c c' := by
    intro c' hc'
    obtain ⟨c, hcm, hcc⟩ := forall₂_mem hc hc'
    obtain ⟨t', ht'⟩ := h.kid hk hcm
    exact ⟨c, hcm, t', ht', hcc⟩
  refine ⟨⟨?_, ?_, ?_⟩, ?_, ?_⟩
  · refine h.sort.congr_here hk (forall₂_of_mem hc fun c hcm c' hcc t' ht' => ?_)
    exact (hcc t' ⟨ht', (scoped_node.mp h.scope).2 c hcm, (resolved_node.mp h.resolved).2 c hcm⟩).1.sort
  · refine scoped_node.mpr ⟨?_, fun c' hc' => ?_⟩
    · cases k with
      | agg a v => exact absurd rfl (hk a v)
      | _ => trivial
    · obtain ⟨c, _, t', h1, h2⟩ := hkid c' hc'
      exact (h2 t' h1).1.scope
  · refine resolved_node.mpr ⟨(resolved_node.mp h.resolved).1, fun c' hc' => ?_⟩
    obtain ⟨c, _, t', h1, h2⟩ := hkid c' hc'
    exact (h2 t' h1).1.resolved
  · refine bound_eq_nil.mpr fun s hs => ?_
    rcases mem_bound.mp hs with ⟨a, ha⟩ | ⟨c', hc', hs⟩
    · exact hk a s ha
    · obtain ⟨c, _, t', h1, h2⟩ := hkid c' hc'
      exact bound_eq_nil.mp (h2 t' h1).2.1 s hs
  · intro ρ hρ i
    rw [sem_node, sem_node]
    refine evalK_congr h.kind hk rfl ?_ i
    have h3 : List.Forall₂ (fun c c' => ∀ j, sem I c' ρ j = sem I c ρ j) cs cs' :=
      forall₂_of_mem hc fun c hcm c' hcc => by
        obtain ⟨t', ht'⟩ := h.kid hk hcm
        exact (hcc t' ht').2.2 ρ hρ
    clear hc hkid h
    induction h3 with
    | nil => exact .nil
    | cons h _ ih => exact .cons h ih

theorem unrollOne_id {e : Src} (h : ∀ a v, e.kind ≠ .agg a v) : unrollOne e = some e := by
  unfold unrollOne
  split
  · exact absurd rfl (h _ _)
  · exact absurd rfl (h _ _)
  · rfl

theorem unrollAgg_inv {n : Nat} {e e' : Src} (h : unrollAgg n e = some e') :
    ∃ m e1 cs, n = m + 1 ∧ unrollOne e = some e1 ∧ unrollAggL m e1.kids = some cs ∧ e' = .node e1.kind e1.ty cs ∧
      ((∃ a v, e.kind = .agg a v) → e1.kids ≠ []) := by
  cases n with
  | zero => simp [unrollAgg] at h
  | succ m =>
    simp only [unrollAgg, Option.bind_eq_some_iff] at h
    obtain ⟨e1, h1, h2⟩ := h
    split at h2
    · simp at h2
    · rename_i hne
      simp only [Option.map_eq_some_iff] at h2
      obtain ⟨cs, h3, rfl⟩ := h2
      refine ⟨m, e1, cs, rfl, h1, h3, rfl, ?_⟩
      rintro ⟨a, v, hk⟩ hnil
      exact hne a v hk hnil

theorem unrollAgg_keeps_both {D : Decls} {I : Interp F} (hI : I.Fits D) (n : Nat) :
    (∀ e e', unrollAgg n e = some e' → Keeps D I e e') ∧
    (∀ cs cs', unrollAggL n cs = some cs' → List.Forall₂ (Keeps D I) cs cs') := by
  induction n with
  | zero =>
    refine ⟨fun e e' h => by simp [unrollAgg] at h, fun cs cs' h => ?_⟩
    cases cs with
    | nil => simp [unrollAggL] at h; subst h; exact .nil
    | cons c cs => simp [unrollAggL] at h
  | succ n ih =>
    constructor
    · intro e e' h t ht
      obtain ⟨m, e1, cs, hm, h1, h2, rfl, _⟩ := unrollAgg_inv h
      cases hm
      have hk := ih.2 _ _ h2
      by_cases ha : ∃ a v, e.kind = .agg a v
      · obtain ⟨k, ty, cs0⟩ := e
        simp only [kind] at ha
        obtain ⟨a, v, rfl⟩ := ha
        obtain ⟨g1, g2, g3⟩ := unrollOne_agg hI ht h1
        obtain ⟨k1, ty1, cs1⟩ := e1
        obtain ⟨g4, g5, g6⟩ := keeps_node (ty := ty1) g2 hk t g1
        exact ⟨g4, g5, fun ρ hρ i => (g6 ρ hρ i).trans (g3 ρ hρ i)⟩
      · push Not at ha
        rw [unrollOne_id ha] at h1
        simp at h1; subst h1
        obtain ⟨k1, ty1, cs1⟩ := e
        exact keeps_node ha hk t ht
    · intro cs cs' h
      cases cs with
      | nil => simp [unrollAggL] at h; subst h; exact .nil
      | cons c cs =>
        simp only [unrollAggL, Option.bind_eq_some_iff] at h
        obtain ⟨c', h1, cs1, h2, h3⟩ := h
        simp at h3; subst h3
        exact .cons (ih.1 _ _ h1) (ih.2 _ _ h2)

theorem unrollAgg_keeps {D : Decls} {I : Interp F} (hI : I.Fits D) {n : Nat} {e e' : Src} (h : unrollAgg n e = some e') :
    Keeps D I e e' := (unrollAgg_keeps_both hI n).1 e e' h

/-! ### the walk ends -/

theorem unrollAgg_mono (n : Nat) :
    (∀ e e', unrollAgg n e = some e' → ∀ m, n ≤ m → unrollAgg m e = some e') ∧
    (∀ cs cs', unrollAggL n cs = some cs' → ∀ m, n ≤ m → unrollAggL m cs = some cs') := by
  induction n with
  | zero =>
    refine ⟨fun e e' h => by simp [unrollAgg] at h, fun cs cs' h m _ => ?_⟩
    cases cs with
    | nil => simpa [unrollAggL] using h
    | cons c cs => simp [unrollAggL] at h
  | succ n ih =>
    constructor
    · intro e e' h m hm
      obtain ⟨m, rfl⟩ : ∃ k, m = k + 1 := ⟨m - 1, by omega⟩
      simp only [unrollAgg, Option.bind_eq_some_iff] at h ⊢
      obtain ⟨e1, h1, h2⟩ := h
      refine ⟨e1, h1, ?_⟩
      split at h2
      · simp at h2
      · simp only [Option.map_eq_some_iff] at h2 ⊢
        obtain ⟨cs, h3, h4⟩ := h2
        exact ⟨cs, ih.2 _ _ h3 m (by omega), h4⟩
    · intro cs cs' h m hm
      cases cs with
      | nil => simpa [unrollAggL] using h
      | cons c cs =>
        obtain ⟨m, rfl⟩ : ∃ k, m = k + 1 := ⟨m - 1, by omega⟩
        simp only [unrollAggL, Option.bind_eq_some_iff] at h ⊢
        obtain ⟨c', h1, cs1, h2, h3⟩ := h
        exact ⟨c', ih.1 _ _ h1 m (by omega), cs1, ih.2 _ _ h2 m (by omega), h3⟩

theorem unrollAggL_total {cs : List Src} (h : ∀ c ∈ cs, ∃ n c', unrollAgg n c = some c') : ∃ n cs', unrollAggL n cs = some cs' := by
  induction cs with
  | nil => exact ⟨0, [], by simp [unrollAggL]⟩
  | cons c cs ih =>
    obtain ⟨n, c', h1⟩ := h c (by simp)
    obtain ⟨m, cs', h2⟩ := ih fun d hd => h d (by simp [hd])
    refine ⟨max n m + 1, c' :: cs', ?_⟩
    simp only [unrollAggL, Option.bind_eq_some_iff]
    exact ⟨c', (unrollAgg_mono n).1 _ _ h1 _ (by omega), cs', (unrollAgg_mono m).2 _ _ h2 _ (by omega), rfl⟩

def _root_.R2U2.SK.weight : SK → Nat
  | .agg .. => 1
  | _ => 0

mutual
/-- How deep aggregations are nested. -/
def depth : Src → Nat
  | .node k _ cs => k.weight + depthL cs
def depthL : List Src → Nat
  | [] => 0
  | c :: cs => max (depth c) (depthL cs)
end

theorem depthL_le {cs : List Src} {d : Nat} : depthL cs ≤ d ↔ ∀ c ∈ cs, depth c ≤ d := by
  induction cs with
  | nil => simp [depthL]
  | cons c cs ih => simp only [depthL, Nat.max_le, ih, List.forall_mem_cons]

theorem depth_kid {k ty cs} {c : Src} (hc : c ∈ cs) : depth c ≤ depth (.node k ty cs) := by
  have := depthL_le.mp (Nat.le_refl (depthL cs)) c hc
  rw [depth]; omega

theorem depth_kids {k ty cs cs'} (h : List.Forall₂ (fun c c' : Src => depth c' ≤ depth c) cs cs') :
    depth (.node k ty cs') ≤ depth (.node k ty cs) := by
  have : depthL cs' ≤ depthL cs := by
    rw [depthL_le]
    intro c' hc'
    obtain ⟨c, hc, hl⟩ := forall₂_mem h hc'
    exact Nat.le_trans hl (depthL_le.mp (Nat.le_refl _) c hc)
  rw [depth, depth]
  omega

theorem depth_of_bound {e : Src} (h : bound e = []) : depth e = 0 := by
  induction e using Src.ind with
  | h k ty cs ih =>
    rw [bound_eq_nil] at h
    have : depthL cs ≤ 0 := depthL_le.mpr fun c hc => Nat.le_of_eq (ih c hc (bound_eq_nil.mpr fun s hs =>
      h s (mem_bound.mpr (.inr ⟨c, hc, hs⟩))))
    have hk : k.weight = 0 := by
      cases k with
      | agg a v => exact absurd (mem_bound.mpr (.inl ⟨a, rfl⟩)) (h v)
      | _ => rfl
    rw [depth]
    omega

theorem depth_withTy (r : Src) (ty : Typ) : depth (r.withTy ty) = depth r := by
  obtain ⟨k, ty', cs⟩ := r
  simp [withTy, depth]

theorem depth_renameIn {v : String} {r : Src} (hr : bound r = []) (e : Src) : depth (renameIn v r e) ≤ depth e := by
  induction e using Src.ind with
  | h k ty cs ih =>
    rw [renameIn_node]
    split_ifs
    · rw [depth_withTy, depth_of_bound hr]; omega
    · refine depth_kids ?_
      clear * - ih
      induction cs with
      | nil => exact .nil
      | cons c cs ih2 => exact .cons (ih c (by simp)) (ih2 fun d hd => ih d (by simp [hd]))

theorem depth_rename {v : String} {r : Src} (hr : bound r = []) (e : Src) : depth (rename v r e) ≤ depth e := by
  unfold rename
  split_ifs
  · rw [depth_of_bound hr]; omega
  · exact depth_renameIn hr e

theorem depth_postM {e e' : Src} (h : postM structAcc e = some e') : depth e' ≤ depth e := by
  induction e using Src.ind generalizing e' with
  | h k ty cs ih =>
    obtain ⟨cs', h1, h2⟩ := postM_node h
    refine Nat.le_trans ?_ (depth_kids (k := k) (ty := ty) (forall₂_of_mem h1 fun c hc c' hcc => ih c hc hcc))
    rcases structAcc_inv h2 with rfl | ⟨m, ty, f, ms, ty', cs, heq, _, hc⟩
    · exact Nat.le_refl _
    · rw [heq]
      exact Nat.le_trans (depth_kid (List.mem_of_getElem? hc)) (depth_kid (List.mem_singleton.mpr rfl))

/-- No array literal is empty. -/
def Filled : Src → Prop := Every fun e => e.kind = .array → e.kids ≠ []

theorem filled_node {k ty cs} : Filled (.node k ty cs) ↔ (k = .array → cs ≠ []) ∧ ∀ c ∈ cs, Filled c := every_node

theorem filled_withTy {r : Src} (h : Filled r) (ty : Typ) : Filled (r.withTy ty) := by
  obtain ⟨k, ty', cs⟩ := r
  exact filled_node.mpr (filled_node.mp h)

theorem filled_renameIn {v : String} {r : Src} (hr : Filled r) {e : Src} (h : Filled e) : Filled (renameIn v r e) := by
  induction e using Src.ind with
  | h k ty cs ih =>
    rw [renameIn_node]
    split_ifs
    · exact filled_withTy hr ty
    · rw [filled_node] at h ⊢
      refine ⟨fun hk => by simpa using h.1 hk, fun c hc => ?_⟩
      obtain ⟨c0, h0, rfl⟩ := List.mem_map.mp hc
      exact ih c0 h0 (h.2 c0 h0)

theorem filled_rename {v : String} {r : Src} (hr : Filled r) {e : Src} (h : Filled e) : Filled (rename v r e) := by
  unfold rename
  split_ifs
  · exact hr
  · exact filled_renameIn hr h

theorem filled_postM {e e' : Src} (h : postM structAcc e = some e') (hf : Filled e) : Filled e' := by
  induction e using Src.ind generalizing e' with
  | h k ty cs ih =>
    obtain ⟨cs', h1, h2⟩ := postM_node h
    have h3 : Filled (.node k ty cs') := by
      rw [filled_node] at hf ⊢
      refine ⟨fun hk hn => hf.1 hk ?_, fun c' hc' => ?_⟩
      · subst hn; cases h1; rfl
      · obtain ⟨c, hc, hcc⟩ := forall₂_mem h1 hc'
        exact ih c hc hcc (hf.2 c hc)
    rcases structAcc_inv h2 with rfl | ⟨m, ty, f, ms, ty', cs, heq, _, hc⟩
    · exact h3
    · rw [heq] at h3
      exact (filled_node.mp ((filled_node.mp h3).2 _ (List.mem_singleton.mpr rfl))).2 _ (List.mem_of_getElem? hc)

theorem postML_total {f : Src → Option Src} {cs : List Src} (h : ∀ c ∈ cs, ∃ c', postM f c = some c') :
    ∃ cs', postML f cs = some cs' := by
  induction cs with
  | nil => exact ⟨[], rfl⟩
  | cons c cs ih =>
    obtain ⟨c', h1⟩ := h c (by simp)
    obtain ⟨cs', h2⟩ := ih fun d hd => h d (by simp [hd])
    exact ⟨c' :: cs', by simp [postML, h1, h2]⟩

/-- Resolving the accesses of a well-sorted expression does not fail. -/
theorem structAcc_total {D : Decls} {Γ : Scope} {e : Src} {t : Ty} (h : HasSort D Γ e t) : ∃ e', structAcc e = some e' := by
  unfold structAcc
  split
  · cases h with
    | access h1 h2 h3 h4 =>
      cases h1 with
      | struct g1 g2 g3 g4 g5 =>
        rw [h2] at g1; cases g1
        subst g2
        have hs := member_sort (D := D) g3 h3 h4
        have hlt := (List.getElem?_eq_some_iff.mp hs).1
        have hl := congrArg List.length g3
        simp only [List.length_map] at hl
        simp only [memberIdx, List.length_map, hl, hlt, if_true, Option.bind_some]
        exact ⟨_, List.getElem?_eq_getElem (by omega)⟩
  · exact ⟨_, rfl⟩

theorem postM_structAcc_total {D : Decls} {Γ : Scope} {e : Src} {t : Ty} (h : HasSort D Γ e t) : ∃ e', postM structAcc e = some e' := by
  induction e using Src.ind generalizing Γ t with
  | h k ty cs ih =>
    obtain ⟨cs', hcs⟩ := postML_total (f := structAcc) (cs := cs) fun c hc => by
      obtain ⟨Γ', t', h'⟩ := h.kid hc
      exact ih c hc h'
    have h2 : HasSort D Γ (.node k ty cs') t := by
      refine h.congr_kids (forall₂_of_mem (postML_some hcs) fun c _ c' hcc => ?_)
      exact (postM_keep (I := (⟨[], [], id, fun _ _ _ => true, fun _ _ => .err⟩ : Interp String)) structAcc_keep hcc).1
    obtain ⟨e', he'⟩ := structAcc_total h2
    exact ⟨e', by simp [postM, hcs, he']⟩

/-- One aggregation can be replaced, by an operator over closed expressions in which aggregations are nested
less deeply. -/
theorem unrollOne_total {D : Decls} {a v ty cs t} (h : Ready D (.node (.agg a v) ty cs) t) (hf : Filled (.node (.agg a v) ty cs)) :
    ∃ e', unrollOne (.node (.agg a v) ty cs) = some e' ∧ e'.kids ≠ [] ∧ Filled e' ∧ depth e' < depth (.node (.agg a v) ty cs) := by
  have hs := scoped_node.mp h.scope
  have hr := resolved_node.mp h.resolved
  rw [filled_node] at hf
  have key : ∀ {set body : Src} {tv : Ty}, set ∈ cs → body ∈ cs → HasSort D Scope.empty set (.arr tv) →
      HasSort D (Scope.empty.bind v tv) body .bool → bound set = [] → v ∉ bound body →
      ∃ set' ds, postM structAcc set = some set' ∧ postML structAcc (instances v set' body) = some ds ∧ ds ≠ [] ∧
        (∀ d ∈ ds, Filled d ∧ depth d ≤ depthL cs) := by
    intro set body tv hset hbody h1 h2 hb hv
    obtain ⟨set', hp⟩ := postM_structAcc_total h1
    obtain ⟨ty', ms, rfl, hms⟩ := set_array ⟨h1, hs.2 _ hset, hr.2 _ hset⟩ hb hp
    have hfs := filled_node.mp (filled_postM hp (hf.2 _ hset))
    obtain ⟨ds, hd⟩ := postML_total (f := structAcc) (cs := instances v (.node .array ty' ms) body) (by
      intro e he
      simp only [instances, kids, List.mem_map] at he
      obtain ⟨c, hc, rfl⟩ := he
      exact postM_structAcc_total ((hms c hc).1.rename (hms c hc).2 h2 hv (hs.2 _ hbody) (hr.2 _ hbody)).sort)
    refine ⟨_, ds, hp, hd, ?_, ?_⟩
    · intro hn
      have := (postML_some hd).length_eq
      simp only [instances, kids, List.length_map, hn, List.length_nil] at this
      exact hfs.1 rfl (List.length_eq_zero_iff.mp this)
    · intro d hdm
      obtain ⟨e, he, hpe⟩ := forall₂_mem (postML_some hd) hdm
      simp only [instances, kids, List.mem_map] at he
      obtain ⟨c, hc, rfl⟩ := he
      refine ⟨filled_postM hpe (filled_rename (hfs.2 c hc) (hf.2 _ hbody)), ?_⟩
      exact Nat.le_trans (depth_postM hpe) (Nat.le_trans (depth_rename (hms c hc).2 body)
        (depthL_le.mp (Nat.le_refl _) body hbody))
  have hdep : depth (.node (.agg a v) ty cs) = 1 + depthL cs := by rw [depth]; rfl
  cases h.sort with
  | @agg _ k v _ set body tv h1 h2 h3 =>
    have hvb : v ∉ bound body := fun hm => hs.1.2 (mem_boundL.mpr ⟨body, by simp, hm⟩)
    obtain ⟨set', ds, hp, hd, hne, hall⟩ := key (by simp) (by simp) h1 h2 hs.1.1 hvb
    have hmain : ∀ o : OpK, Filled (.node (.op o) ty ds) ∧ depth (.node (.op o) ty ds) < 1 + depthL [set, body] := by
      intro o
      refine ⟨filled_node.mpr ⟨by simp, fun d hd => (hall d hd).1⟩, ?_⟩
      rw [depth]
      have := depthL_le.mpr fun d hd => (hall d hd).2
      simp only [SK.weight]
      omega
    rcases h3 with rfl | rfl
    · exact ⟨.node (.op .and) ty ds, by simp [unrollOne, hp, hd], hne, (hmain _).1, hdep ▸ (hmain _).2⟩
    · exact ⟨.node (.op .or) ty ds, by simp [unrollOne, hp, hd], hne, (hmain _).1, hdep ▸ (hmain _).2⟩
  | @aggN _ k v _ set num body tv h1 h2 h3 h4 =>
    have hvb : v ∉ bound body := fun hm => hs.1.2 (mem_boundL.mpr ⟨body, by simp, hm⟩)
    obtain ⟨set', ds, hp, hd, hne, hall⟩ := key (by simp) (by simp) h1 h3 hs.1.1 hvb
    obtain ⟨num', hn⟩ := postM_structAcc_total h2
    have hmain : ∀ o : OpK, Filled (.node (.op o) ty [.node (.op .add) .int ds, num']) ∧
        depth (.node (.op o) ty [.node (.op .add) .int ds, num']) < 1 + depthL [set, num, body] := by
      intro o
      refine ⟨filled_node.mpr ⟨by simp, fun d hd => ?_⟩, ?_⟩
      · simp at hd
        rcases hd with rfl | rfl
        · exact filled_node.mpr ⟨by simp, fun d hd => (hall d hd).1⟩
        · exact filled_postM hn (hf.2 _ (by simp))
      · rw [depth]
        have h5 := depthL_le.mpr fun d hd => (hall d hd).2
        have h6 : depth num' ≤ depthL [set, num, body] :=
          Nat.le_trans (depth_postM hn) (depthL_le.mp (Nat.le_refl _) num (by simp))
        have h7 : depthL [.node (.op .add) .int ds, num'] ≤ depthL [set, num, body] := by
          rw [depthL_le]
          intro c hc
          simp only [List.mem_cons, List.not_mem_nil, or_false] at hc
          rcases hc with rfl | rfl
          · rw [depth]; simpa [SK.weight] using h5
          · exact h6
        simp only [SK.weight]
        omega
    rcases h4 with rfl | rfl | rfl
    · exact ⟨.node (.op .eq) ty [.node (.op .add) .int ds, num'], by simp [unrollOne, hp, hd, hn], by simp [kids], (hmain _).1, hdep ▸ (hmain _).2⟩
    · exact ⟨.node (.op .ge) ty [.node (.op .add) .int ds, num'], by simp [unrollOne, hp, hd, hn], by simp [kids], (hmain _).1, hdep ▸ (hmain _).2⟩
    · exact ⟨.node (.op .le) ty [.node (.op .add) .int ds, num'], by simp [unrollOne, hp, hd, hn], by simp [kids], (hmain _).1, hdep ▸ (hmain _).2⟩

/-- With enough fuel, unrolling succeeds. -/
theorem unrollAgg_total {D : Decls} {e : Src} {t : Ty} (h : Ready D e t) (hf : Filled e) : ∃ n e', unrollAgg n e = some e' := by
  suffices H : ∀ d, ∀ e t, depth e ≤ d → Ready D e t → Filled e → ∃ n e', unrollAgg n e = some e' from
    H (depth e) e t (Nat.le_refl _) h hf
  have hI : (⟨D.structs, D.enums, fun _ => (), fun _ _ _ => true, fun _ _ => .err⟩ : Interp Unit).Fits D :=
    ⟨rfl, rfl, fun _ _ _ _ _ _ => .err⟩
  have node : ∀ e : Src, (∀ a v, e.kind ≠ .agg a v) → (∀ c ∈ e.kids, ∃ n c', unrollAgg n c = some c') →
      ∃ n e', unrollAgg n e = some e' := by
    intro e hk hc
    obtain ⟨n, cs', hn⟩ := unrollAggL_total hc
    refine ⟨n + 1, .node e.kind e.ty cs', ?_⟩
    simp only [unrollAgg, unrollOne_id hk, Option.bind_some]
    split
    · rename_i a v hk' _; exact absurd hk' (hk a v)
    · simp [hn]
  have agg : ∀ e e1 : Src, unrollOne e = some e1 → e1.kids ≠ [] → (∀ c ∈ e1.kids, ∃ n c', unrollAgg n c = some c') →
      ∃ n e', unrollAgg n e = some e' := by
    intro e e1 h1 hne hc
    obtain ⟨n, cs', hn⟩ := unrollAggL_total hc
    refine ⟨n + 1, .node e1.kind e1.ty cs', ?_⟩
    simp only [unrollAgg, h1, Option.bind_some]
    split
    · rename_i _ _ _ hnil; exact absurd hnil hne
    · simp [hn]
  intro d
  induction d with
  | zero =>
    intro e
    induction e using Src.ind with
    | h k ty cs ih =>
      intro t hd h hf
      have hk : ∀ a v, k ≠ .agg a v := by
        intro a v hk
        subst hk
        rw [depth] at hd
        simp only [SK.weight] at hd
        omega
      refine node _ hk fun c hc => ?_
      obtain ⟨t', ht'⟩ := h.kid hk hc
      exact ih c hc t' (Nat.le_trans (depth_kid hc) hd) ht' ((filled_node.mp hf).2 c hc)
  | succ d ihd =>
    intro e
    induction e using Src.ind with
    | h k ty cs ih =>
      intro t hd h hf
      by_cases hk : ∃ a v, k = .agg a v
      · obtain ⟨a, v, rfl⟩ := hk
        obtain ⟨e1, h1, h2, h3, h4⟩ := unrollOne_total h hf
        obtain ⟨g1, g2, _⟩ := unrollOne_agg hI h h1
        refine agg _ e1 h1 h2 fun c hc => ?_
        obtain ⟨k1, ty1, cs1⟩ := e1
        obtain ⟨t', ht'⟩ := g1.kid g2 hc
        exact ihd c t' (Nat.le_trans (depth_kid (k := k1) (ty := ty1) hc) (by simp only [kids]; omega)) ht' ((filled_node.mp h3).2 c hc)
      · push Not at hk
        refine node _ hk fun c hc => ?_
        obtain ⟨t', ht'⟩ := h.kid hk hc
        exact ih c hc t' (Nat.le_trans (depth_kid hc) hd) ht' ((filled_node.mp hf).2 c hc)

end Src
end R2U2
