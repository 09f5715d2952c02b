import Verif.Lemmas.Source
import Mathlib.Tactic.Push
/-
Substitution, canonical data expressions, soundness of sorts, and the unrolling passes.
-/
namespace R2U2
namespace Src
variable {F : Type}

theorem everyL_iff {p : Src → Prop} {cs : List Src} : EveryL p cs ↔ ∀ c ∈ cs, Every p c := by
  induction cs with
  | nil => simp [EveryL]
  | cons c cs ih => simp [EveryL, ih]

theorem every_node {p : Src → Prop} {k ty cs} : Every p (.node k ty cs) ↔ p (.node k ty cs) ∧ ∀ c ∈ cs, Every p c := by
  rw [Every, everyL_iff]

theorem mem_boundL {cs : List Src} {s : String} : s ∈ boundL cs ↔ ∃ c ∈ cs, s ∈ bound c := by
  induction cs with
  | nil => simp [boundL]
  | cons c cs ih => simp [boundL, ih]

theorem mem_bound {k ty cs s} : s ∈ bound (.node k ty cs) ↔ (∃ a, k = .agg a s) ∨ ∃ c ∈ cs, s ∈ bound c := by
  cases k <;> simp [bound, mem_boundL]
  exact or_congr_left eq_comm

theorem scoped_node {k ty cs} : Scoped (.node k ty cs) ↔
    (match k, cs with | .agg _ v, set :: rest => bound set = [] ∧ v ∉ boundL rest | _, _ => True) ∧ ∀ c ∈ cs, Scoped c :=
  every_node

theorem resolved_node {E : Enums} {k ty cs} : Resolved E (.node k ty cs) ↔
    (match k with | .index _ | .slice .. | .call _ => False | .var s => enumVal E ty s = none | _ => True) ∧
      ∀ c ∈ cs, Resolved E c :=
  every_node

/-! ### environments -/

/-- The value of a node other than a name or an aggregation depends on the values of its children only. -/
theorem evalK_congr {I : Interp F} {k ty} {ds ds' : List (Den F)} {ρ ρ' : Env F} (hk : ∀ s, k ≠ .var s) (ha : ∀ a v, k ≠ .agg a v)
    (hs : ρ.sig = ρ'.sig) (hd : List.Forall₂ (fun d d' => ∀ j, d ρ j = d' ρ' j) ds ds') (i : Nat) :
    evalK I k ty ds ρ i = evalK I k ty ds' ρ' i := by
  have hm : ∀ j, ds.map (· ρ j) = ds'.map (· ρ' j) := by
    intro j
    induction hd with
    | nil => rfl
    | cons h _ ih => simp [h j, ih]
  have ht : (ds.map fun d => fun j => (d ρ j).isTrue) = ds'.map fun d => fun j => (d ρ' j).isTrue := by
    clear hm
    induction hd with
    | nil => rfl
    | cons h _ ih => simp only [List.map_cons, ih]; congr 1; funext j; rw [h j]
  cases k with
  | var s => exact absurd rfl (hk s)
  | agg a v => exact absurd rfl (ha a v)
  | lit v => cases v <;> rfl
  | tau => rfl
  | sig s => simp [evalK, hs]
  | array => simp [evalK, hm]
  | struct f ms => simp [evalK, hm]
  | call f => simp [evalK, hm]
  | tmp o lb ub => simp only [evalK, ht]
  | index n =>
    match ds, ds', hd with
    | [], _, .nil => rfl
    | [d], _, .cons h .nil => simp [evalK, h i]
    | _ :: _ :: _, _, .cons _ (.cons _ _) => rfl
  | slice m n =>
    match ds, ds', hd with
    | [], _, .nil => rfl
    | [d], _, .cons h .nil => simp [evalK, h i]
    | _ :: _ :: _, _, .cons _ (.cons _ _) => rfl
  | access n =>
    match ds, ds', hd with
    | [], _, .nil => rfl
    | [d], _, .cons h .nil => simp [evalK, h i]
    | _ :: _ :: _, _, .cons _ (.cons _ _) => rfl
  | op o =>
    by_cases hp : o = .prev
    · subst hp
      match ds, ds', hd, hm i with
      | [], _, .nil, _ => rfl
      | [d], _, .cons h .nil, _ => simp [evalK, h i]
      | [d, e], _, .cons h (.cons h' .nil), _ => simp only [evalK]; cases i <;> simp [h, h']
      | d :: e :: f :: l, _, .cons h (.cons h' (.cons h'' hl)), hm' =>
        simp only [evalK]
        exact congrArg _ hm'
    · have : ∀ (ds : List (Den F)) (ρ : Env F), evalK I (.op o) ty ds ρ i = Val.evalOp I o (ds.map (· ρ i)) := by
        intro ds ρ
        cases o <;> first | rfl | exact absurd rfl hp
      rw [this, this, hm]

theorem forall₂_same {A B C : Type} {f : A → B} {g : A → C} {R : B → C → Prop} {as : List A} (h : ∀ a ∈ as, R (f a) (g a)) :
    List.Forall₂ R (as.map f) (as.map g) := by
  induction as with
  | nil => exact .nil
  | cons a as ih => exact .cons (h a (by simp)) (ih fun b hb => h b (by simp [hb]))

theorem bind_comm (ρ : Env F) {v w : String} (h : v ≠ w) (d d' : Nat → Val F) :
    (ρ.bind v d).bind w d' = (ρ.bind w d').bind v d := by
  simp only [Env.bind]
  congr 1
  funext s
  by_cases h1 : s = w
  · subst h1; simp [Ne.symm h]
  · simp [h1]

theorem _root_.R2U2.Scope.bind_comm (Γ : Scope) {v w : String} (h : v ≠ w) (t u : Ty) :
    (Γ.bind v t).bind w u = (Γ.bind w u).bind v t := by
  funext s
  simp only [Scope.bind]
  by_cases h1 : s = w
  · subst h1; simp [Ne.symm h]
  · simp [h1]

theorem evalAgg_congr {k : AggK} {v : String} {set set' body body' : Den F} {num num' : Option (Den F)} {ρ ρ' : Env F}
    (hset : ∀ j, set ρ j = set' ρ' j) (hnum : ∀ j, num.map (· ρ j) = num'.map (· ρ' j))
    (hbody : ∀ (d : Nat → Val F) j, body (ρ.bind v d) j = body' (ρ'.bind v d) j) (i : Nat) :
    evalAgg k v set num body ρ i = evalAgg k v set' num' body' ρ' i := by
  have h1 : ∀ n, (fun j => (set ρ j).nth n) = fun j => (set' ρ' j).nth n := by intro n; funext j; rw [hset]
  have h2 : ∀ n, body (ρ.bind v fun j => (set ρ j).nth n) i = body' (ρ'.bind v fun j => (set' ρ' j).nth n) i := by
    intro n; rw [h1, hbody]
  have hnum := hnum i
  cases num <;> cases num' <;> cases k <;> simp_all [evalAgg]

/-- The value of an expression depends on the signals and the names in scope. -/
theorem sem_scope {D : Decls} {I : Interp F} {Γ : Scope} {e : Src} {t : Ty} (hI : I.enums = D.enums) (h : HasSort D Γ e t) :
    ∀ ρ ρ' : Env F, ρ.sig = ρ'.sig → (∀ s, Γ s ≠ none → ρ.var s = ρ'.var s) → ∀ i, sem I e ρ i = sem I e ρ' i := by
  have hkids : ∀ {k : SK} {ty : Typ} {cs : List Src}, (∀ s, k ≠ .var s) → (∀ a v, k ≠ .agg a v) → ∀ ρ ρ' : Env F,
      ρ.sig = ρ'.sig → (∀ c ∈ cs, ∀ i, sem I c ρ i = sem I c ρ' i) → ∀ i, sem I (.node k ty cs) ρ i = sem I (.node k ty cs) ρ' i := by
    intro k ty cs h1 h2 ρ ρ' h3 h4 i
    rw [sem_node]
    exact evalK_congr h1 h2 h3 (forall₂_same h4) i
  have hidx : ∀ {cs : List Src} {ts : List Ty} {P : Src → Prop}, cs.length = ts.length →
      (∀ (i : Nat) (c : Src) (t : Ty), cs[i]? = some c → ts[i]? = some t → P c) → ∀ c ∈ cs, P c := by
    intro cs ts P hl hh c hc
    obtain ⟨i, hi, rfl⟩ := List.mem_iff_getElem.mp hc
    exact hh i _ (ts[i]'(hl ▸ hi)) (by simp [hi]) (by simp [hl ▸ hi])
  induction h with
  | bool | int | float | tau => intros; simp [sem_node, evalK]
  | sig _ _ => intro ρ ρ' hs hv i; simp [sem_node, evalK, hs]
  | enum h => intro ρ ρ' hs hv i; simp [sem_node, evalK, hI, h]
  | var h h' =>
    intro ρ ρ' hs hv i
    simp only [sem_node, evalK, hI, h]
    rw [hv _ (by simp [h'])]
  | array _ ih => intro ρ ρ' hs hv i; exact hkids (by simp) (by simp) ρ ρ' hs (fun c hc => ih c hc ρ ρ' hs hv) i
  | tmp _ ih => intro ρ ρ' hs hv i; exact hkids (by simp) (by simp) ρ ρ' hs (fun c hc => ih c hc ρ ρ' hs hv) i
  | index _ _ ih => intro ρ ρ' hs hv i; exact hkids (by simp) (by simp) ρ ρ' hs (by simpa using ih ρ ρ' hs hv) i
  | slice _ _ ih => intro ρ ρ' hs hv i; exact hkids (by simp) (by simp) ρ ρ' hs (by simpa using ih ρ ρ' hs hv) i
  | access _ _ _ _ ih => intro ρ ρ' hs hv i; exact hkids (by simp) (by simp) ρ ρ' hs (by simpa using ih ρ ρ' hs hv) i
  | struct _ _ _ hl _ ih =>
    intro ρ ρ' hs hv i
    exact hkids (by simp) (by simp) ρ ρ' hs (hidx hl fun i c t hc ht => ih i c t hc ht ρ ρ' hs hv) i
  | call _ _ hl _ ih =>
    intro ρ ρ' hs hv i
    exact hkids (by simp) (by simp) ρ ρ' hs (hidx hl fun i c t hc ht => ih i c t hc ht ρ ρ' hs hv) i
  | op hl _ _ ih =>
    intro ρ ρ' hs hv i
    exact hkids (by simp) (by simp) ρ ρ' hs (hidx hl fun i c t hc ht => ih i c t hc ht ρ ρ' hs hv) i
  | @agg Γ k v ty set body t _ _ _ ih1 ih2 =>
    intro ρ ρ' hs hv i
    simp only [sem_node, List.map_cons, List.map_nil, evalK]
    refine evalAgg_congr (ih1 ρ ρ' hs hv) (by simp) (fun d j => ih2 (ρ.bind v d) (ρ'.bind v d) hs ?_ j) i
    intro s hb
    simp only [Env.bind]
    split_ifs with h
    · rfl
    · exact hv s (by simpa [Scope.bind, h] using hb)
  | @aggN Γ k v ty set num body t _ _ _ _ ih1 ih2 ih3 =>
    intro ρ ρ' hs hv i
    simp only [sem_node, List.map_cons, List.map_nil, evalK]
    refine evalAgg_congr (ih1 ρ ρ' hs hv) (by simpa using ih2 ρ ρ' hs hv) (fun d j => ih3 (ρ.bind v d) (ρ'.bind v d) hs ?_ j) i
    intro s hb
    simp only [Env.bind]
    split_ifs with h
    · rfl
    · exact hv s (by simpa [Scope.bind, h] using hb)

theorem sem_closed {D : Decls} {I : Interp F} {e : Src} {t : Ty} (hI : I.enums = D.enums) (h : HasSort D Scope.empty e t)
    (ρ ρ' : Env F) (hs : ρ.sig = ρ'.sig) (i : Nat) : sem I e ρ i = sem I e ρ' i :=
  sem_scope hI h ρ ρ' hs (by simp [Scope.empty]) i

/-! ### substitution -/

theorem renameL_eq (v : String) (r : Src) (cs : List Src) : renameL v r cs = cs.map (renameIn v r) := by
  induction cs with
  | nil => simp [renameL]
  | cons c cs ih => simp [renameL, ih]

theorem renameIn_node (v : String) (r : Src) (k ty cs) :
    renameIn v r (.node k ty cs) = if k = .var v then r.withTy ty else .node k ty (cs.map (renameIn v r)) := by
  rw [renameIn, renameL_eq]

theorem evalK_ty (I : Interp F) (k : SK) (ty ty' : Typ) (ds : List (Den F)) (h : ∀ s, k ≠ .var s) :
    evalK I k ty ds = evalK I k ty' ds := by
  cases k with
  | var s => exact absurd rfl (h s)
  | lit v => cases v <;> rfl
  | op o => cases o <;> rcases ds with _ | ⟨a, _ | ⟨b, _ | ⟨c, _ | ⟨d, l⟩⟩⟩⟩ <;> rfl
  | _ => first | rfl | (rcases ds with _ | ⟨a, _ | ⟨b, _ | ⟨c, _ | ⟨d, l⟩⟩⟩⟩ <;> rfl)

theorem sem_withTy (I : Interp F) (r : Src) (ty : Typ) (h : ∀ s, r.kind ≠ .var s) : sem I (r.withTy ty) = sem I r := by
  obtain ⟨k, ty', cs⟩ := r
  simp only [withTy, sem_node]
  exact evalK_ty I k _ _ _ h

theorem renameIn_sem {I : Interp F} {v : String} {r : Src} (hk : ∀ s, r.kind ≠ .var s)
    (hr : ∀ ρ ρ' : Env F, ρ.sig = ρ'.sig → ∀ i, sem I r ρ i = sem I r ρ' i) {e : Src} (hv : v ∉ bound e) (he : Resolved I.enums e) :
    ∀ (ρ : Env F) i, sem I (renameIn v r e) ρ i = sem I e (ρ.bind v (sem I r ρ)) i := by
  induction e using Src.ind with
  | h k ty cs ih =>
    intro ρ i
    rw [resolved_node] at he
    have hb : ∀ c ∈ cs, v ∉ bound c := fun c hc hm => hv (mem_bound.mpr (.inr ⟨c, hc, hm⟩))
    have ih : ∀ c ∈ cs, ∀ (ρ : Env F) i, sem I (renameIn v r c) ρ i = sem I c (ρ.bind v (sem I r ρ)) i :=
      fun c hc => ih c hc (hb c hc) (he.2 c hc)
    rw [renameIn_node]
    split_ifs with hkv
    · subst hkv
      rw [sem_withTy I r ty hk]
      have h1 : enumVal I.enums ty v = none := he.1
      simp only [sem_node, evalK, h1, Env.bind, if_true]
    · simp only [sem_node, List.map_map]
      cases k with
      | var s =>
        have h1 : enumVal I.enums ty s = none := he.1
        have hsv : s ≠ v := fun h => hkv (by rw [h])
        simp only [evalK, h1, Env.bind, hsv, if_false]
      | agg a w =>
        have hwv : w ≠ v := fun h => hv (mem_bound.mpr (.inl ⟨a, by rw [h]⟩))
        have hbody : ∀ c ∈ cs, ∀ (d : Nat → Val F) j,
            sem I (renameIn v r c) (ρ.bind w d) j = sem I c ((ρ.bind v (sem I r ρ)).bind w d) j := by
          intro c hc d j
          rw [ih c hc, bind_comm _ hwv.symm]
          congr 2
          funext j
          exact hr (ρ.bind w d) ρ rfl j
        match cs with
        | [] => simp [evalK]
        | [_] => simp [evalK]
        | [set, body] =>
          simp only [List.map_cons, List.map_nil, Function.comp, evalK]
          exact evalAgg_congr (ih set (by simp) ρ) (by simp) (hbody body (by simp)) i
        | [set, num, body] =>
          simp only [List.map_cons, List.map_nil, Function.comp, evalK]
          exact evalAgg_congr (ih set (by simp) ρ) (by simpa using ih num (by simp) ρ) (hbody body (by simp)) i
        | _ :: _ :: _ :: _ :: _ => simp [evalK]
      | _ =>
        refine evalK_congr (ρ := ρ) (ρ' := ρ.bind v (sem I r ρ)) ?_ ?_ rfl ?_ i
        · simp
        · simp
        exact forall₂_same (f := sem I ∘ renameIn v r) (g := sem I)
          (R := fun d d' => ∀ j, d ρ j = d' (ρ.bind v (sem I r ρ)) j) fun c hc j => ih c hc ρ j

theorem rename_sem {I : Interp F} {v : String} {r : Src} (hk : ∀ s, r.kind ≠ .var s)
    (hr : ∀ ρ ρ' : Env F, ρ.sig = ρ'.sig → ∀ i, sem I r ρ i = sem I r ρ' i) {e : Src} (hv : v ∉ bound e) (he : Resolved I.enums e)
    (ρ : Env F) (i : Nat) : sem I (rename v r e) ρ i = sem I e (ρ.bind v (sem I r ρ)) i := by
  unfold rename
  split_ifs with h
  · obtain ⟨k, ty, cs⟩ := e
    simp only [kind] at h
    subst h
    have h1 : enumVal I.enums ty v = none := (resolved_node.mp he).1
    simp [sem_node, evalK, h1, Env.bind]
  · exact renameIn_sem hk hr hv he ρ i

theorem _root_.R2U2.HasSort.withTy {D : Decls} {Γ : Scope} {r : Src} {t : Ty} (h : HasSort D Γ r t) (hk : ∀ s, r.kind ≠ .var s)
    (ty : Typ) : HasSort D Γ (r.withTy ty) t := by
  cases h with
  | bool => exact .bool
  | int => exact .int
  | float => exact .float
  | tau => exact .tau
  | sig a b => exact .sig a b
  | enum a => exact absurd rfl (hk _)
  | var a b => exact absurd rfl (hk _)
  | array h => exact .array h
  | index h0 h => exact .index h0 h
  | slice h0 h => exact .slice h0 h
  | struct h1 h2 h3 h4 h5 => exact .struct h1 h2 h3 h4 h5
  | call h1 h3 h4 h5 => exact .call h1 h3 h4 h5
  | access h h1 h2 h3 => exact .access h h1 h2 h3
  | agg h1 h2 h3 => exact .agg h1 h2 h3
  | aggN h1 h2 h3 h4 => exact .aggN h1 h2 h3 h4
  | op h1 h2 h3 => exact .op h1 h2 h3
  | tmp h => exact .tmp h

theorem _root_.R2U2.HasSort.weaken {D : Decls} {Γ : Scope} {e : Src} {t : Ty} (h : HasSort D Γ e t) :
    ∀ Γ' : Scope, (∀ s u, Γ s = some u → Γ' s = some u) → HasSort D Γ' e t := by
  have hbind : ∀ {Γ Γ' : Scope} {v : String} {t : Ty}, (∀ s u, Γ s = some u → Γ' s = some u) →
      ∀ s u, (Γ.bind v t) s = some u → (Γ'.bind v t) s = some u := by
    intro Γ Γ' v t h s u hu
    simp only [Scope.bind] at hu ⊢
    split_ifs at hu ⊢ with hs
    · exact hu
    · exact h s u hu
  induction h with
  | bool => intros; exact .bool
  | int => intros; exact .int
  | float => intros; exact .float
  | tau => intros; exact .tau
  | sig a b => intros; exact .sig a b
  | enum a => intros; exact .enum a
  | var a b => intro Γ' hs; exact .var a (hs _ _ b)
  | array _ ih => intro Γ' hs; exact .array fun c hc => ih c hc Γ' hs
  | index h0 _ ih => intro Γ' hs; exact .index h0 (ih Γ' hs)
  | slice h0 _ ih => intro Γ' hs; exact .slice h0 (ih Γ' hs)
  | struct h1 h2 h3 h4 _ ih => intro Γ' hs; exact .struct h1 h2 h3 h4 fun i c t hc ht => ih i c t hc ht Γ' hs
  | call h1 h3 h4 _ ih => intro Γ' hs; exact .call h1 h3 h4 fun i c t hc ht => ih i c t hc ht Γ' hs
  | access _ h1 h2 h3 ih => intro Γ' hs; exact .access (ih Γ' hs) h1 h2 h3
  | agg _ _ h3 ih1 ih2 => intro Γ' hs; exact .agg (ih1 Γ' hs) (ih2 _ (hbind hs)) h3
  | aggN _ _ _ h4 ih1 ih2 ih3 => intro Γ' hs; exact .aggN (ih1 Γ' hs) (ih2 Γ' hs) (ih3 _ (hbind hs)) h4
  | op h1 _ h3 ih => intro Γ' hs; exact .op h1 (fun i c t hc ht => ih i c t hc ht Γ' hs) h3
  | tmp _ ih => intro Γ' hs; exact .tmp fun c hc => ih c hc Γ' hs

theorem _root_.R2U2.HasSort.closed {D : Decls} {e : Src} {t : Ty} (h : HasSort D Scope.empty e t) (Γ : Scope) : HasSort D Γ e t :=
  h.weaken Γ (by simp [Scope.empty])

theorem renameIn_sort {D : Decls} {v : String} {r : Src} {tv : Ty} (hr : HasSort D Scope.empty r tv) (hk : ∀ s, r.kind ≠ .var s)
    {Γv : Scope} {e : Src} {t : Ty} (h : HasSort D Γv e t) : ∀ Γ : Scope, Γv = Γ.bind v tv → v ∉ bound e →
      (Resolved D.enums e) → HasSort D Γ (renameIn v r e) t := by
  have hbn : ∀ {k ty cs}, v ∉ bound (.node k ty cs) → ∀ c ∈ cs, v ∉ bound c :=
    fun hv c hc hm => hv (mem_bound.mpr (.inr ⟨c, hc, hm⟩))
  have hrn : ∀ {k ty cs}, Resolved D.enums (.node k ty cs) → ∀ c ∈ cs, Resolved D.enums c :=
    fun h => (resolved_node.mp h).2
  have hidx : ∀ {cs : List Src} {ts : List Ty} {Γ : Scope}, (∀ c ∈ cs, v ∉ bound c) → (∀ c ∈ cs, Resolved D.enums c) →
      (∀ (i : Nat) (c : Src) (t : Ty), cs[i]? = some c → ts[i]? = some t → ∀ Γ' : Scope, Γ.bind v tv = Γ'.bind v tv →
        v ∉ bound c → Resolved D.enums c → HasSort D Γ' (renameIn v r c) t) →
      ∀ (i : Nat) (c : Src) (t : Ty), (cs.map (renameIn v r))[i]? = some c → ts[i]? = some t → HasSort D Γ c t := by
    intro cs ts Γ h1 h2 h3 i c t hc ht
    rw [List.getElem?_map, Option.map_eq_some_iff] at hc
    obtain ⟨c0, hc0, rfl⟩ := hc
    have hm : c0 ∈ cs := List.mem_of_getElem? hc0
    exact h3 i c0 t hc0 ht Γ rfl (h1 c0 hm) (h2 c0 hm)
  induction h with
  | bool => intro Γ _ _ _; rw [renameIn_node]; simp; exact .bool
  | int => intro Γ _ _ _; rw [renameIn_node]; simp; exact .int
  | float => intro Γ _ _ _; rw [renameIn_node]; simp; exact .float
  | tau => intro Γ _ _ _; rw [renameIn_node]; simp; exact .tau
  | sig a b => intro Γ _ _ _; rw [renameIn_node]; simp; exact .sig a b
  | enum a => intro Γ _ _ he; have h1 : enumVal _ _ _ = none := (resolved_node.mp he).1; rw [h1] at a; simp at a
  | @var Γv s ty t a b =>
    intro Γ hΓ _ _
    subst hΓ
    rw [renameIn_node]
    by_cases h : s = v
    · subst h
      simp only [Scope.bind, if_true, Option.some.injEq] at b
      subst b
      rw [if_pos rfl]
      exact (hr.closed Γ).withTy hk ty
    · rw [if_neg (by simpa using h)]
      exact .var a (by simpa [Scope.bind, h] using b)
  | array _ ih =>
    intro Γ hΓ hv he
    rw [renameIn_node, if_neg (by simp)]
    refine .array fun c hc => ?_
    obtain ⟨c0, h0, rfl⟩ := List.mem_map.mp hc
    exact ih c0 h0 Γ hΓ (hbn hv c0 h0) (hrn he c0 h0)
  | index h0 _ ih => intro Γ _ _ he; exact (resolved_node.mp he).1.elim
  | slice h0 _ ih => intro Γ _ _ he; exact (resolved_node.mp he).1.elim
  | call h0 _ ih => intro Γ _ _ he; exact (resolved_node.mp he).1.elim
  | struct h1 h2 h3 h4 _ ih =>
    intro Γ hΓ hv he
    subst hΓ
    rw [renameIn_node, if_neg (by simp)]
    exact .struct h1 h2 h3 (by simpa using h4) (hidx (hbn hv) (hrn he) ih)
  | access _ h1 h2 h3 ih =>
    intro Γ hΓ hv he
    rw [renameIn_node, if_neg (by simp)]
    exact .access (ih Γ hΓ (hbn hv _ (by simp)) (hrn he _ (by simp))) h1 h2 h3
  | @agg Γv k w ty set body t _ _ h3 ih1 ih2 =>
    intro Γ hΓ hv he
    have hw : w ≠ v := fun h => hv (mem_bound.mpr (.inl ⟨k, by rw [h]⟩))
    rw [renameIn_node, if_neg (by simp)]
    refine .agg (ih1 Γ hΓ (hbn hv _ (by simp)) (hrn he _ (by simp))) ?_ h3
    exact ih2 _ (by rw [hΓ, Scope.bind_comm _ hw.symm]) (hbn hv _ (by simp)) (hrn he _ (by simp))
  | @aggN Γv k w ty set num body t _ _ _ h4 ih1 ih2 ih3 =>
    intro Γ hΓ hv he
    have hw : w ≠ v := fun h => hv (mem_bound.mpr (.inl ⟨k, by rw [h]⟩))
    rw [renameIn_node, if_neg (by simp)]
    refine .aggN (ih1 Γ hΓ (hbn hv _ (by simp)) (hrn he _ (by simp))) (ih2 Γ hΓ (hbn hv _ (by simp)) (hrn he _ (by simp))) ?_ h4
    exact ih3 _ (by rw [hΓ, Scope.bind_comm _ hw.symm]) (hbn hv _ (by simp)) (hrn he _ (by simp))
  | op h1 _ h3 ih =>
    intro Γ hΓ hv he
    subst hΓ
    rw [renameIn_node, if_neg (by simp)]
    exact .op (by simpa using h1) (hidx (hbn hv) (hrn he) ih) h3
  | tmp _ ih =>
    intro Γ hΓ hv he
    rw [renameIn_node, if_neg (by simp)]
    refine .tmp fun c hc => ?_
    obtain ⟨c0, h0, rfl⟩ := List.mem_map.mp hc
    exact ih c0 h0 Γ hΓ (hbn hv c0 h0) (hrn he c0 h0)

theorem rename_sort {D : Decls} {v : String} {r : Src} {tv : Ty} (hr : HasSort D Scope.empty r tv) (hk : ∀ s, r.kind ≠ .var s)
    {Γ : Scope} {e : Src} {t : Ty} (h : HasSort D (Γ.bind v tv) e t) (hv : v ∉ bound e) (he : Resolved D.enums e) :
    HasSort D Γ (rename v r e) t := by
  unfold rename
  split_ifs with hkv
  · obtain ⟨k, ty, cs⟩ := e
    simp only [kind] at hkv
    subst hkv
    have h1 : enumVal D.enums ty v = none := (resolved_node.mp he).1
    cases h with
    | enum a => rw [h1] at a; simp at a
    | var a b =>
      simp only [Scope.bind, if_true, Option.some.injEq] at b
      subst b
      exact hr.closed Γ
  · exact renameIn_sort hr hk h Γ rfl hv he

/-! ### substitution keeps the shape -/

theorem bound_withTy (r : Src) (ty : Typ) : bound (r.withTy ty) = bound r := by
  obtain ⟨k, ty', cs⟩ := r
  simp [withTy, bound]

theorem bound_renameIn {v : String} {r : Src} (hr : bound r = []) {e : Src} {s : String} (hs : s ∈ bound (renameIn v r e)) :
    s ∈ bound e := by
  induction e using Src.ind with
  | h k ty cs ih =>
    rw [renameIn_node] at hs
    split_ifs at hs with hk
    · rw [bound_withTy, hr] at hs; simp at hs
    · rcases mem_bound.mp hs with h | ⟨c, hc, h⟩
      · exact mem_bound.mpr (.inl h)
      · obtain ⟨c0, h0, rfl⟩ := List.mem_map.mp hc
        exact mem_bound.mpr (.inr ⟨c0, h0, ih c0 h0 h⟩)

theorem bound_eq_nil {e : Src} : bound e = [] ↔ ∀ s, s ∉ bound e := List.eq_nil_iff_forall_not_mem

theorem scoped_withTy {r : Src} (h : Scoped r) (ty : Typ) : Scoped (r.withTy ty) := by
  obtain ⟨k, ty', cs⟩ := r
  exact scoped_node.mpr (scoped_node.mp h)

theorem scoped_renameIn {v : String} {r : Src} (hr : bound r = []) (hsr : Scoped r) {e : Src} (h : Scoped e) :
    Scoped (renameIn v r e) := by
  induction e using Src.ind with
  | h k ty cs ih =>
    rw [renameIn_node]
    split_ifs with hk
    · exact scoped_withTy hsr ty
    · rw [scoped_node] at h ⊢
      refine ⟨?_, fun c hc => ?_⟩
      · cases k with
        | agg a w =>
          cases cs with
          | nil => simp
          | cons set rest =>
            simp only [List.map_cons] at h ⊢
            refine ⟨bound_eq_nil.mpr fun s hs => bound_eq_nil.mp h.1.1 s (bound_renameIn hr hs), fun hw => h.1.2 ?_⟩
            obtain ⟨c, hc, hcw⟩ := mem_boundL.mp hw
            obtain ⟨c0, h0, rfl⟩ := List.mem_map.mp hc
            exact mem_boundL.mpr ⟨c0, h0, bound_renameIn hr hcw⟩
        | _ => trivial
      · obtain ⟨c0, h0, rfl⟩ := List.mem_map.mp hc
        exact ih c0 h0 (h.2 c0 h0)

theorem resolved_withTy {E : Enums} {r : Src} (h : Resolved E r) (hk : ∀ s, r.kind ≠ .var s) (ty : Typ) : Resolved E (r.withTy ty) := by
  obtain ⟨k, ty', cs⟩ := r
  rw [withTy, resolved_node]
  rw [resolved_node] at h
  cases k with
  | var s => exact absurd rfl (hk s)
  | _ => exact h

theorem resolved_renameIn {E : Enums} {v : String} {r : Src} (hk : ∀ s, r.kind ≠ .var s) (hsr : Resolved E r) {e : Src}
    (h : Resolved E e) : Resolved E (renameIn v r e) := by
  induction e using Src.ind with
  | h k ty cs ih =>
    rw [renameIn_node]
    split_ifs
    · exact resolved_withTy hsr hk ty
    · rw [resolved_node] at h ⊢
      refine ⟨h.1, fun c hc => ?_⟩
      obtain ⟨c0, h0, rfl⟩ := List.mem_map.mp hc
      exact ih c0 h0 (h.2 c0 h0)

end Src
end R2U2
