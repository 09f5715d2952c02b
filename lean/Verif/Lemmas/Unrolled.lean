import Verif.Lemmas.Sorts
/-
Unrolling aggregations keeps meanings.
-/
namespace R2U2
namespace Src
variable {F : Type}

/-! ### passes keep the shape -/

theorem bound_kids {k ty cs cs' s} (h : List.Forall₂ (fun c c' : Src => ∀ s, s ∈ bound c' → s ∈ bound c) cs cs')
    (hs : s ∈ bound (.node k ty cs')) : s ∈ bound (.node k ty cs) := by
  rcases mem_bound.mp hs with h1 | ⟨c', hc', h1⟩
  · exact mem_bound.mpr (.inl h1)
  · obtain ⟨c, hc, h2⟩ := forall₂_mem h hc'
    exact mem_bound.mpr (.inr ⟨c, hc, h2 s h1⟩)

theorem postM_bound {f : Src → Option Src} (hf : ∀ e e', f e = some e' → ∀ s, s ∈ bound e' → s ∈ bound e) {e e' : Src}
    (h : postM f e = some e') : ∀ s, s ∈ bound e' → s ∈ bound e := by
  induction e using Src.ind generalizing e' with
  | h k ty cs ih =>
    obtain ⟨cs', h1, h2⟩ := postM_node h
    intro s hs
    exact bound_kids (forall₂_of_mem h1 fun c hc c' hcc => ih c hc hcc) (hf _ _ h2 s hs)

theorem scoped_kids {k ty cs cs'} (h : List.Forall₂ (fun c c' : Src => ∀ s, s ∈ bound c' → s ∈ bound c) cs cs')
    (hs : Scoped (.node k ty cs)) (hc : ∀ c ∈ cs', Scoped c) : Scoped (.node k ty cs') := by
  rw [scoped_node] at hs ⊢
  refine ⟨?_, hc⟩
  cases k with
  | agg a w =>
    cases h with
    | nil => trivial
    | cons h1 h2 =>
      refine ⟨bound_eq_nil.mpr fun s hs' => bound_eq_nil.mp hs.1.1 s (h1 s hs'), fun hw => hs.1.2 ?_⟩
      obtain ⟨c', hc', hw⟩ := mem_boundL.mp hw
      obtain ⟨c, hc, h3⟩ := forall₂_mem h2 hc'
      exact mem_boundL.mpr ⟨c, hc, h3 _ hw⟩
  | _ => trivial

theorem postM_scoped {f : Src → Option Src} (hb : ∀ e e', f e = some e' → ∀ s, s ∈ bound e' → s ∈ bound e)
    (hf : ∀ e e', f e = some e' → Scoped e → Scoped e') {e e' : Src}
    (h : postM f e = some e') (hs : Scoped e) : Scoped e' := by
  induction e using Src.ind generalizing e' with
  | h k ty cs ih =>
    obtain ⟨cs', h1, h2⟩ := postM_node h
    refine hf _ _ h2 (scoped_kids (forall₂_of_mem h1 fun c hc c' hcc => postM_bound hb hcc) hs fun c' hc' => ?_)
    obtain ⟨c, hc, h3⟩ := forall₂_mem h1 hc'
    exact ih c hc h3 ((scoped_node.mp hs).2 c hc)

theorem postM_resolved {E : Enums} {f : Src → Option Src} (hf : ∀ e e', f e = some e' → Resolved E e → Resolved E e') {e e' : Src}
    (h : postM f e = some e') (hs : Resolved E e) : Resolved E e' := by
  induction e using Src.ind generalizing e' with
  | h k ty cs ih =>
    obtain ⟨cs', h1, h2⟩ := postM_node h
    rw [resolved_node] at hs
    refine hf _ _ h2 (resolved_node.mpr ⟨hs.1, fun c' hc' => ?_⟩)
    obtain ⟨c, hc, h3⟩ := forall₂_mem h1 hc'
    exact ih c hc h3 (hs.2 c hc)

theorem structAcc_bound (e e' : Src) (h : structAcc e = some e') : ∀ s, s ∈ bound e' → s ∈ bound e := by
  rcases structAcc_inv h with rfl | ⟨m, ty, f, ms, ty', cs, rfl, _, hc⟩
  · exact fun s hs => hs
  · intro s hs
    exact mem_bound.mpr (.inr ⟨_, List.mem_singleton.mpr rfl, mem_bound.mpr (.inr ⟨e', List.mem_of_getElem? hc, hs⟩)⟩)

theorem structAcc_scoped (e e' : Src) (h : structAcc e = some e') (hs : Scoped e) : Scoped e' := by
  rcases structAcc_inv h with rfl | ⟨m, ty, f, ms, ty', cs, rfl, _, hc⟩
  · exact hs
  · exact (scoped_node.mp ((scoped_node.mp hs).2 _ (List.mem_singleton.mpr rfl))).2 e' (List.mem_of_getElem? hc)

theorem structAcc_resolved {E : Enums} (e e' : Src) (h : structAcc e = some e') (hs : Resolved E e) : Resolved E e' := by
  rcases structAcc_inv h with rfl | ⟨m, ty, f, ms, ty', cs, rfl, _, hc⟩
  · exact hs
  · exact (resolved_node.mp ((resolved_node.mp hs).2 _ (List.mem_singleton.mpr rfl))).2 e' (List.mem_of_getElem? hc)

/-! ### canonical data -/

/-- Array expressions are array literals, structure expressions structure literals, all the way down to the
scalars, which satisfy `P`. -/
inductive Canon (D : Decls) (P : Src → Prop) : Ty → Src → Prop
  | scalar {t e} : t.scalar → P e → Canon D P t e
  | arr {t ty cs} : (∀ c ∈ cs, Canon D P t c) → Canon D P (.arr t) (.node .array ty cs)
  | struct {f ms fs ty cs} {ts : List Ty} : D.structs.lookup f = some fs → ms = fs.map (·.1) → fs.map (·.2.sort) = ts.map some →
      cs.length = ts.length → (∀ (i : Nat) (c : Src) (t : Ty), cs[i]? = some c → ts[i]? = some t → Canon D P t c) →
      Canon D P (.struct f) (.node (.struct f ms) ty cs)

theorem _root_.R2U2.OpK.sort_scalar {b : Bool} {o : OpK} {ts : List Ty} {t : Ty} (h : o.sort b ts = some t) : t.scalar := by
  unfold OpK.sort at h
  split at h
  all_goals first
    | (simp at h; done)
    | (split_ifs at h with hc <;> simp at h <;> subst h <;> first | rfl | (obtain ⟨rfl, h'⟩ := hc; exact h'))
    | (simp at h; subst h; rfl)

theorem structAcc_id {e : Src} (h : ∀ m, e.kind ≠ .access m) : structAcc e = some e := by
  unfold structAcc
  split
  · exact absurd rfl (h _)
  · rfl

/-- Where no name is in scope, resolving accesses leaves only literals as data. -/
theorem canon_postM {D : Decls} {e e' : Src} {t : Ty} (h : HasSort D Scope.empty e t) (hr : Resolved D.enums e)
    (hp : postM structAcc e = some e') : Canon D (fun _ => True) t e' := by
  induction e using Src.ind generalizing e' t with
  | h k ty cs ih =>
    obtain ⟨cs', h1, h2⟩ := postM_node hp
    rw [resolved_node] at hr
    cases h with
    | bool => exact .scalar rfl trivial
    | int => exact .scalar rfl trivial
    | float => exact .scalar rfl trivial
    | tau => exact .scalar rfl trivial
    | sig a b => exact .scalar b trivial
    | enum a => have h1 : enumVal _ _ _ = none := hr.1; rw [h1] at a; simp at a
    | var a b => simp [Scope.empty] at b
    | array h =>
      rw [structAcc_id (by simp [kind])] at h2
      simp at h2; subst h2
      refine .arr fun c' hc' => ?_
      obtain ⟨c, hc, h3⟩ := forall₂_mem h1 hc'
      exact ih c hc (h c hc) (hr.2 c hc) h3
    | index h0 h => exact hr.1.elim
    | slice h0 h => exact hr.1.elim
    | call h0 h => exact hr.1.elim
    | struct g1 g2 g3 g4 g5 =>
      rw [structAcc_id (by simp [kind])] at h2
      simp at h2; subst h2
      refine .struct g1 g2 g3 (by rw [← g4, h1.length_eq]) fun i c' t hc' ht => ?_
      obtain ⟨c, hc, h3⟩ := forall₂_idx h1 hc'
      have hm : c ∈ cs := List.mem_of_getElem? hc
      exact ih c hm (g5 i c t hc ht) (hr.2 c hm) h3
    | access g g1 g2 g3 =>
      cases h1 with
      | cons h1 hn =>
        cases hn
        have hc := ih _ (by simp) g (hr.2 _ (by simp)) h1
        cases hc with
        | scalar hsc _ => simp [Ty.scalar] at hsc
        | struct k1 k2 k3 k4 k5 =>
          rw [g1] at k1; cases k1
          subst k2
          simp only [structAcc, memberIdx] at h2
          split_ifs at h2 with hlt
          · exact k5 _ _ _ (by simpa using h2) (member_sort (D := D) k3 g2 g3)
          · simp at h2
    | agg h1 h2 h3 => exact .scalar rfl trivial
    | aggN h1 h2 h3 h4 => exact .scalar rfl trivial
    | op h1 h2 h3 => exact .scalar (OpK.sort_scalar h3) trivial
    | tmp h => exact .scalar rfl trivial

/-! ### one aggregation -/

/-- What the unrolling pass needs of an expression. -/
structure Ready (D : Decls) (e : Src) (t : Ty) : Prop where
  sort : HasSort D Scope.empty e t
  scope : Scoped e
  resolved : Resolved D.enums e

theorem Ready.kind {D : Decls} {e : Src} {t : Ty} (h : Ready D e t) : ∀ s, e.kind ≠ .var s := by
  intro s hs
  obtain ⟨k, ty, cs⟩ := e
  simp only [Src.kind] at hs
  subst hs
  have h1 : enumVal D.enums ty s = none := (resolved_node.mp h.resolved).1
  cases h.sort with
  | enum a => rw [h1] at a; simp at a
  | var a b => simp [Scope.empty] at b

theorem Ready.postM {D : Decls} {e e' : Src} {t : Ty} (h : Ready D e t) (hp : postM structAcc e = some e') : Ready D e' t where
  sort := (postM_keep (I := (⟨[], [], id, fun _ _ _ => true, fun _ _ => .err⟩ : Interp String)) structAcc_keep hp).1 _ _ h.sort
  scope := postM_scoped structAcc_bound structAcc_scoped hp h.scope
  resolved := postM_resolved structAcc_resolved hp h.resolved

theorem Ready.rename {D : Decls} {v : String} {r e : Src} {tv t : Ty} (hr : Ready D r tv) (hb : bound r = [])
    (h : HasSort D (Scope.empty.bind v tv) e t) (hv : v ∉ bound e) (hs : Scoped e) (he : Resolved D.enums e) :
    Ready D (rename v r e) t where
  sort := rename_sort hr.sort hr.kind h hv he
  scope := by
    unfold Src.rename
    split_ifs
    · exact hr.scope
    · exact scoped_renameIn hb hr.scope hs
  resolved := by
    unfold Src.rename
    split_ifs
    · exact hr.resolved
    · exact resolved_renameIn hr.kind hr.resolved he

/-- The set of a closed aggregation is an array literal, and its members are closed. -/
theorem set_array {D : Decls} {set set' : Src} {t : Ty} (h : Ready D set (.arr t)) (hb : bound set = [])
    (hp : postM structAcc set = some set') :
    ∃ ty cs, set' = .node .array ty cs ∧ ∀ c ∈ cs, Ready D c t ∧ bound c = [] := by
  have hc := canon_postM h.sort h.resolved hp
  have hr := h.postM hp
  have hb' : bound set' = [] := bound_eq_nil.mpr fun s hs => bound_eq_nil.mp hb s (postM_bound structAcc_bound hp s hs)
  cases hc with
  | scalar hs _ => simp [Ty.scalar] at hs
  | @arr t ty cs hcs =>
    refine ⟨ty, cs, rfl, fun c hc => ⟨⟨?_, (scoped_node.mp hr.scope).2 c hc, (resolved_node.mp hr.resolved).2 c hc⟩, ?_⟩⟩
    · cases hr.sort with
      | array h => exact h c hc
    · exact bound_eq_nil.mpr fun s hs => bound_eq_nil.mp hb' s (mem_bound.mpr (.inr ⟨c, hc, hs⟩))

/-- The instances of the body: closed, and with the values the body has for the members of the set. -/
theorem instances_sem {D : Decls} {I : Interp F} (hI : I.Fits D) {v : String} {set set' body : Src} {t : Ty} {ds : List Src}
    (hset : Ready D set (.arr t)) (hb : bound set = []) (hbody : HasSort D (Scope.empty.bind v t) body .bool)
    (hv : v ∉ bound body) (hs : Scoped body) (he : Resolved D.enums body)
    (hp : postM structAcc set = some set') (hd : postML structAcc (instances v set' body) = some ds) :
    (∀ d ∈ ds, Ready D d .bool) ∧
    ∀ (ρ : Env F) i, ds.map (fun d => sem I d ρ i) = (List.range (sem I set ρ i).items.length).map fun n =>
      sem I body (ρ.bind v fun j => (sem I set ρ j).nth n) i := by
  obtain ⟨ty, cs, rfl, hcs⟩ := set_array hset hb hp
  have hd' := postML_some hd
  simp only [instances, kids] at hd'
  have hsem : sem I (.node .array ty cs) = sem I set := postM_sem I (structAcc_sem I) hp
  constructor
  · intro d hdm
    obtain ⟨e, hem, hpe⟩ := forall₂_mem hd' hdm
    obtain ⟨c, hc, rfl⟩ := List.mem_map.mp hem
    exact ((hcs c hc).1.rename (hcs c hc).2 hbody hv hs he).postM hpe
  · intro ρ i
    have h1 : ds.map (fun d => sem I d ρ i) = cs.map fun c => sem I body (ρ.bind v (sem I c ρ)) i := by
      have h2 : ds.map (fun d => sem I d ρ i) = (cs.map fun e => rename v e body).map fun e => sem I e ρ i :=
        map_eq_of (forall₂_of_mem hd' fun e _ d hpe => by rw [postM_sem I (structAcc_sem I) hpe])
      rw [h2, List.map_map]
      refine List.map_congr_left fun c hc => ?_
      have hr := (hcs c hc).1
      exact rename_sem hr.kind (fun ρ ρ' h i => sem_closed hI.enums hr.sort ρ ρ' h i) hv (hI.enums ▸ he) ρ i
    rw [h1, ← hsem]
    have h2 : ∀ j, sem I (.node .array ty cs) ρ j = .arr (cs.map fun c => sem I c ρ j) := by
      intro j; simp only [sem_node, evalK, List.map_map]; rfl
    apply List.ext_getElem
    · simp [h2, Val.items]
    · intro n h3 h4
      simp only [List.getElem_map, List.getElem_range]
      congr 2
      funext j
      have hn : n < cs.length := by simpa using h3
      simp [h2, Val.nth, Val.items, hn]

theorem sum_count {D : Decls} {vs : List (Val F)} (h : ∀ v ∈ vs, Val.Ok D v .bool) :
    vs.any Val.isFlt = false ∧ (vs.map Val.toInt).sum = ((vs.filter Val.isTrue).length : Int) := by
  induction vs with
  | nil => simp
  | cons v vs ih =>
    have hv := h v (by simp)
    obtain ⟨h1, h2⟩ := ih fun w hw => h w (by simp [hw])
    refine ⟨?_, ?_⟩
    · simp only [List.any_cons, h1, Bool.or_false]
      cases hv <;> rfl
    · simp only [List.map_cons, List.sum_cons, h2]
      cases hv with
      | err => simp [Val.toInt, Val.isTrue, List.filter_cons]
      | @bool b => cases b <;> simp [Val.toInt, Val.isTrue, List.filter_cons]; omega

/-- The value of a sum of Booleans. -/
theorem sum_sem {D : Decls} {I : Interp F} (hI : I.Fits D) {ds : List Src} (hd : ∀ d ∈ ds, Ready D d .bool) {ρ : Env F}
    (hρ : ρ.Fits D Scope.empty) (i : Nat) :
    sem I (.node (.op .add) .int ds) ρ i = .int (((ds.map fun d => sem I d ρ i).filter Val.isTrue).length : Int) := by
  have h := sum_count (D := D) (vs := ds.map fun d => sem I d ρ i) (by
    intro v hv
    obtain ⟨d, hd', rfl⟩ := List.mem_map.mp hv
    exact sem_ok hI (hd d hd').sort ρ hρ i)
  have h0 : (ds.map (sem I)).map (· ρ i) = ds.map fun d => sem I d ρ i := by simp
  simp only [sem_node, evalK, Val.evalOp, h0, h.1, h.2]
  simp

theorem Ready.op {D : Decls} {o : OpK} {ty : Typ} {cs : List Src} {ts : List Ty} {t : Ty} (h : List.Forall₂ (Ready D) cs ts)
    (ho : o.sort D.arrays ts = some t) : Ready D (.node (.op o) ty cs) t where
  sort := by
    refine .op h.length_eq (fun i c t hc ht => ?_) ho
    obtain ⟨c', hc', hr⟩ := forall₂_idx h ht
    rw [hc] at hc'; cases hc'
    exact hr.sort
  scope := scoped_node.mpr ⟨trivial, fun c hc => by
    obtain ⟨i, hi, rfl⟩ := List.mem_iff_getElem.mp hc
    have := (List.forall₂_iff_get.mp h).2 i hi (h.length_eq ▸ hi)
    exact this.scope⟩
  resolved := resolved_node.mpr ⟨trivial, fun c hc => by
    obtain ⟨i, hi, rfl⟩ := List.mem_iff_getElem.mp hc
    have := (List.forall₂_iff_get.mp h).2 i hi (h.length_eq ▸ hi)
    exact this.resolved⟩

theorem Ready.all {D : Decls} {cs : List Src} {t : Ty} (h : ∀ c ∈ cs, Ready D c t) :
    List.Forall₂ (Ready D) cs (List.replicate cs.length t) := by
  induction cs with
  | nil => exact .nil
  | cons c cs ih => exact .cons (h c (by simp)) (ih fun d hd => h d (by simp [hd]))

/-- An aggregation and its replacement have the same value. -/
theorem unrollOne_agg {D : Decls} {I : Interp F} (hI : I.Fits D) {a v ty cs e' t} (h : Ready D (.node (.agg a v) ty cs) t)
    (hu : unrollOne (.node (.agg a v) ty cs) = some e') :
    Ready D e' t ∧ (∀ a v, e'.kind ≠ .agg a v) ∧
      ∀ ρ : Env F, ρ.Fits D Scope.empty → ∀ i, sem I e' ρ i = sem I (.node (.agg a v) ty cs) ρ i := by
  have hs := scoped_node.mp h.scope
  have hr := resolved_node.mp h.resolved
  cases h.sort with
  | @agg _ k v _ set body t h1 h2 h3 =>
    have hset : Ready D set (.arr t) := ⟨h1, hs.2 _ (by simp), hr.2 _ (by simp)⟩
    have hvb : v ∉ bound body := fun hm => hs.1.2 (mem_boundL.mpr ⟨body, by simp, hm⟩)
    simp only [unrollOne, Option.bind_eq_some_iff] at hu
    obtain ⟨set', hp, hu⟩ := hu
    rcases h3 with rfl | rfl
    · simp only [Option.map_eq_some_iff] at hu
      obtain ⟨ds, hd, rfl⟩ := hu
      obtain ⟨g1, g2⟩ := instances_sem hI hset hs.1.1 h2 hvb (hs.2 _ (by simp)) (hr.2 _ (by simp)) hp hd
      refine ⟨Ready.op (Ready.all g1) (by simp [OpK.sort]), by simp [Src.kind], fun ρ hρ i => ?_⟩
      have h0 : (ds.map (sem I)).map (· ρ i) = ds.map fun d => sem I d ρ i := by simp
      simp only [sem_node, evalK, Val.evalOp, List.map_cons, List.map_nil, evalAgg, h0, g2]
      congr 1
      rw [Bool.eq_iff_iff]
      simp [List.all_eq_true]
    · simp only [Option.map_eq_some_iff] at hu
      obtain ⟨ds, hd, rfl⟩ := hu
      obtain ⟨g1, g2⟩ := instances_sem hI hset hs.1.1 h2 hvb (hs.2 _ (by simp)) (hr.2 _ (by simp)) hp hd
      refine ⟨Ready.op (Ready.all g1) (by simp [OpK.sort]), by simp [Src.kind], fun ρ hρ i => ?_⟩
      have h0 : (ds.map (sem I)).map (· ρ i) = ds.map fun d => sem I d ρ i := by simp
      simp only [sem_node, evalK, Val.evalOp, List.map_cons, List.map_nil, evalAgg, h0, g2]
      congr 1
      rw [Bool.eq_iff_iff]
      simp [List.any_eq_true]
  | @aggN _ k v _ set num body t h1 h2 h3 h4 =>
    have hset : Ready D set (.arr t) := ⟨h1, hs.2 _ (by simp), hr.2 _ (by simp)⟩
    have hnum : Ready D num .num := ⟨h2, hs.2 _ (by simp), hr.2 _ (by simp)⟩
    have hvb : v ∉ bound body := fun hm => hs.1.2 (mem_boundL.mpr ⟨body, by simp, hm⟩)
    simp only [unrollOne, Option.bind_eq_some_iff] at hu
    obtain ⟨set', hp, ds, hd, num', hn, hu⟩ := hu
    obtain ⟨g1, g2⟩ := instances_sem hI hset hs.1.1 h3 hvb (hs.2 _ (by simp)) (hr.2 _ (by simp)) hp hd
    have hnum' := hnum.postM hn
    have hsn : sem I num' = sem I num := postM_sem I (structAcc_sem I) hn
    have hsum : Ready D (.node (.op .add) .int ds) .num := Ready.op (Ready.all g1) (by simp [OpK.sort, Ty.scalar])
    have hcount : ∀ (ρ : Env F) i, ((ds.map fun d => sem I d ρ i).filter Val.isTrue).length =
        ((List.range (sem I set ρ i).items.length).filter fun n =>
          (sem I body (ρ.bind v fun j => (sem I set ρ j).nth n) i).isTrue).length := by
      intro ρ i
      rw [g2, List.filter_map, List.length_map]
      rfl
    rcases h4 with rfl | rfl | rfl <;> simp only [Option.some.injEq] at hu <;> subst hu
    all_goals
      refine ⟨Ready.op (.cons hsum (.cons hnum' .nil)) (by simp [OpK.sort, Ty.scalar]), by simp [Src.kind], fun ρ hρ i => ?_⟩
      rw [sem_node, sem_node]
      simp only [evalK, Val.evalOp, List.map_cons, List.map_nil, evalAgg, sum_sem hI g1 hρ, hcount, hsn]
      congr 1
      cases sem I num ρ i <;> simp [Val.cmp, Val.isInt, Val.icmp]

end Src
end R2U2
