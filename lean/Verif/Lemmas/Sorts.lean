import Verif.Lemmas.Desugar
/-
Well-sorted expressions have values of their sort.
-/
namespace R2U2
namespace Src
variable {F : Type}

theorem lookup_zip_inv {β : Type} {ms : List String} {vs : List β} {m : String} {v : β}
    (h : (ms.zip vs).lookup m = some v) : vs[ms.idxOf m]? = some v := by
  induction ms generalizing vs with
  | nil => simp at h
  | cons a ms ih =>
    cases vs with
    | nil => simp at h
    | cons w vs =>
      by_cases ham : a = m
      · subst ham; simpa [List.idxOf_cons] using h
      · have hne : (a == m) = false := by simpa using ham
        have hne' : (m == a) = false := by simpa using fun h => ham h.symm
        simp only [List.zip_cons_cons, List.lookup_cons, hne'] at h
        rw [List.idxOf_cons, hne]
        simpa using ih h

theorem nth_ok {D : Decls} {v : Val F} {t : Ty} (h : Val.Ok D v (.arr t)) (n : Nat) : Val.Ok D (v.nth n) t := by
  cases h with
  | err => simp [Val.nth, Val.items]; exact .err
  | arr h =>
    rename_i vs
    simp only [Val.nth, Val.items]
    cases hn : vs[n]? with
    | none => exact .err
    | some w => exact h w (List.mem_of_getElem? hn)

theorem items_ok {D : Decls} {v : Val F} {t : Ty} (h : Val.Ok D v (.arr t)) : ∀ w ∈ v.items, Val.Ok D w t := by
  cases h with
  | err => simp [Val.items]
  | arr h => exact h

theorem sort_bool {b : Bool} {o : OpK} {ts : List Ty} {t : Ty} (h : o.sort b ts = some t)
    (ho : o ∈ [OpK.and, .or, .neg, .xor, .imp, .iff, .ne, .eq, .lt, .gt, .le, .ge]) : t = .bool := by
  unfold OpK.sort at h
  split at h <;> simp_all

theorem evalOp_ok {D : Decls} {I : Interp F} (hI : I.Fits D) {o : OpK} {vs : List (Val F)} {ts : List Ty} {t : Ty}
    (ho : o.sort D.arrays ts = some t) (hv : List.Forall₂ (Val.Ok D) vs ts) : Val.Ok D (Val.evalOp I o vs) t := by
  have har := hI.arith o vs ts t ho hv
  unfold Val.evalOp
  split
  case h_13 =>
    split_ifs
    · exact har
    · simp only [OpK.sort] at ho
      split_ifs at ho
      simp at ho; subst ho
      exact .int
  case h_14 => exact har
  all_goals (rw [sort_bool ho (by simp)]; exact .bool)

theorem sem_ok {D : Decls} {I : Interp F} (hI : I.Fits D) {Γ : Scope} {e : Src} {t : Ty} (h : HasSort D Γ e t) :
    ∀ ρ : Env F, ρ.Fits D Γ → ∀ i, Val.Ok D (sem I e ρ i) t := by
  have hstruct : ∀ {f : String} {fs : List (String × Typ)} {ts : List Ty} {vs : List (Val F)}, D.structs.lookup f = some fs →
      fs.map (·.2.sort) = ts.map some → (∀ (i : Nat) (v : Val F) (t : Ty), vs[i]? = some v → ts[i]? = some t → Val.Ok D v t) →
      Val.Ok D (.struct ((fs.map (·.1)).zip vs)) (.struct f) := by
    intro f fs ts vs h1 h2 h3
    refine .struct h1 fun m v mt t hl hm ht => ?_
    exact h3 _ v t (lookup_zip_inv hl) (member_sort (D := D) h2 hm ht)
  have hvals : ∀ {cs : List Src} {ts : List Ty} {ρ : Env F} {i : Nat},
      (∀ (i : Nat) (c : Src) (t : Ty), cs[i]? = some c → ts[i]? = some t → ∀ i, Val.Ok D (sem I c ρ i) t) →
      ∀ (n : Nat) (v : Val F) (t : Ty), ((cs.map (sem I)).map (· ρ i))[n]? = some v → ts[n]? = some t → Val.Ok D v t := by
    intro cs ts ρ i h n v t hv ht
    simp only [List.map_map, List.getElem?_map, Option.map_eq_some_iff] at hv
    obtain ⟨c, hc, rfl⟩ := hv
    exact h n c t hc ht i
  induction h with
  | bool => intros; simp only [sem_node, evalK]; exact .bool
  | int => intros; simp only [sem_node, evalK]; exact .int
  | float => intros; simp only [sem_node, evalK]; exact .flt
  | tau => intros; simp only [sem_node, evalK]; exact .int
  | sig h1 _ => intro ρ hρ i; simp only [sem_node, evalK]; exact hρ.sig _ _ i h1
  | enum h => intro ρ hρ i; simp only [sem_node, evalK, hI.enums, h]; exact .int
  | var h h' => intro ρ hρ i; simp only [sem_node, evalK, hI.enums, h]; exact hρ.var _ _ i h'
  | array _ ih =>
    intro ρ hρ i
    simp only [sem_node, evalK]
    refine .arr fun v hv => ?_
    simp only [List.map_map, List.mem_map] at hv
    obtain ⟨c, hc, rfl⟩ := hv
    exact ih c hc ρ hρ i
  | tmp _ ih => intro ρ hρ i; simp only [sem_node, evalK]; exact .bool
  | index h0 _ ih =>
    intro ρ hρ i
    simp only [sem_node, List.map_cons, List.map_nil, evalK, h0, if_true]
    exact nth_ok (ih ρ hρ i) _
  | slice h0 _ ih =>
    intro ρ hρ i
    simp only [sem_node, List.map_cons, List.map_nil, evalK, h0, if_true]
    refine .arr fun v hv => ?_
    obtain ⟨k, _, rfl⟩ := List.mem_map.mp hv
    exact nth_ok (ih ρ hρ i) _
  | access _ h1 h2 h3 ih =>
    intro ρ hρ i
    simp only [sem_node, List.map_cons, List.map_nil, evalK]
    have := ih ρ hρ i
    generalize sem I _ ρ i = v at this
    cases this with
    | err => exact .err
    | struct g1 g2 =>
      rename_i decl fs
      rw [h1] at g1; cases g1
      simp only [Val.member]
      cases hl : fs.lookup _ with
      | none => exact .err
      | some w => exact g2 _ w _ _ hl h2 h3
  | struct h1 h2 h3 h4 _ ih =>
    intro ρ hρ i
    simp only [sem_node, evalK]
    subst h2
    exact hstruct h1 h3 (hvals fun n c t hc ht => ih n c t hc ht ρ hρ)
  | call h1 h3 h4 _ ih =>
    intro ρ hρ i
    simp only [sem_node, evalK, hI.structs, h1]
    exact hstruct h1 h3 (hvals fun n c t hc ht => ih n c t hc ht ρ hρ)
  | @agg Γ k v ty set body t _ _ h ih1 ih2 =>
    intro ρ hρ i
    simp only [sem_node, List.map_cons, List.map_nil, evalK, evalAgg]
    rcases h with rfl | rfl <;> exact .bool
  | @aggN Γ k v ty set num body t _ _ _ h ih1 ih2 ih3 =>
    intro ρ hρ i
    simp only [sem_node, List.map_cons, List.map_nil, evalK, evalAgg]
    rcases h with rfl | rfl | rfl <;> exact .bool
  | @op Γ o ty cs t ts hl _ ho ih =>
    intro ρ hρ i
    have hv : ∀ j, List.Forall₂ (Val.Ok D) ((cs.map (sem I)).map (· ρ j)) ts := by
      intro j
      rw [List.forall₂_iff_get]
      refine ⟨by simpa using hl, fun n h1 h2 => ?_⟩
      exact hvals (fun n c t hc ht => ih n c t hc ht ρ hρ) n _ _ (List.getElem?_eq_getElem h1) (List.getElem?_eq_getElem h2)
    simp only [sem_node]
    by_cases hp : o = .prev
    · subst hp
      rcases cs with _ | ⟨a, _ | ⟨b, _ | ⟨c, l⟩⟩⟩
      · exact evalOp_ok hI ho (hv i)
      · exact evalOp_ok hI ho (hv i)
      · rcases ts with _ | ⟨ta, _ | ⟨tb, _ | _⟩⟩ <;> simp at hl
        simp only [OpK.sort] at ho
        split_ifs at ho with hc
        simp at ho; subst ho
        obtain ⟨rfl, _⟩ := hc
        simp only [List.map_cons, List.map_nil, evalK]
        cases i with
        | zero => exact ih 0 a ta rfl rfl ρ hρ 0
        | succ j => exact ih 1 b ta rfl rfl ρ hρ j
      · exact evalOp_ok hI ho (hv i)
    · have : evalK I (.op o) ty (cs.map (sem I)) ρ i = Val.evalOp I o ((cs.map (sem I)).map (· ρ i)) := by
        cases o <;> first | rfl | exact absurd rfl hp
      rw [this]
      exact evalOp_ok hI ho (hv i)

end Src
end R2U2
