import Verif.Spec.Extract
import Verif.Lemmas.EggIo
/-
Extraction from an e-graph by a solution of the constraints.
-/
namespace R2U2
namespace EGraph

theorem sum_pos {l : List Nat} (h : 0 < l.sum) : ∃ x ∈ l, 0 < x := by
  induction l with
  | nil => simp at h
  | cons a l ih =>
      by_cases ha : 0 < a
      · exact ⟨a, by simp, ha⟩
      · obtain ⟨x, hx, h'⟩ := ih (by simp at h; omega)
        exact ⟨x, by simp [hx], h'⟩

theorem sum_le_length {l : List Nat} (h : ∀ x ∈ l, x ≤ 1) : l.sum ≤ l.length := by
  induction l with
  | nil => simp
  | cons a l ih =>
      have := h a (by simp)
      have := ih fun x hx => h x (by simp [hx])
      simp only [List.sum_cons, List.length_cons]; omega

theorem all_one {l : List Nat} (h : ∀ x ∈ l, x ≤ 1) (hs : l.sum = l.length) : ∀ x ∈ l, x = 1 := by
  induction l with
  | nil => simp
  | cons a l ih =>
      have h1 := h a (by simp)
      have h2 := sum_le_length (l := l) fun x hx => h x (by simp [hx])
      simp only [List.sum_cons, List.length_cons] at hs
      intro x hx
      rcases List.mem_cons.1 hx with rfl | hx
      · omega
      · exact ih (fun y hy => h y (by simp [hy])) (by omega) x hx

/-- An active class has an active node; its operands are active and come earlier. -/
theorem repr_active {G : EGraph} {ext : Bool} {s : Sol} (h : G.Feasible ext s) {c : Nat}
    (hc : s.cls c = 1) :
    ∃ n, G.repr s c = some n ∧ n ∈ G.nodes c ∧
      (∀ d ∈ n.kids, s.cls d = 1 ∧ s.order d < s.order c) ∧
      (ext = false → n.op.extended = false) := by
  have hsum := h.sum c
  rw [hc] at hsum
  obtain ⟨x, hx, hx0⟩ := sum_pos (l := (List.range (G.nodes c).length).map (s.node c)) (by omega)
  obtain ⟨k0, hk0, rfl⟩ := List.mem_map.1 hx
  have hk01 : s.node c k0 = 1 := by have := h.node_binary c k0; omega
  have hfind : ((List.range (G.nodes c).length).find? (fun k => s.node c k = 1)).isSome := by
    rw [List.find?_isSome]
    exact ⟨k0, hk0, by simpa using hk01⟩
  obtain ⟨k, hk⟩ := Option.isSome_iff_exists.1 hfind
  have hk1 : s.node c k = 1 := by simpa using List.find?_some hk
  have hklt : k < (G.nodes c).length := by simpa using List.mem_of_find?_eq_some hk
  have hget : (G.nodes c)[k]? = some (G.nodes c)[k] := List.getElem?_eq_getElem hklt
  refine ⟨(G.nodes c)[k], ?_, List.getElem_mem hklt, ?_, ?_⟩
  · simp only [repr, hc, if_true, hk, Option.bind_some, hget]
  · intro d hd
    have hch := h.children c k _ hget
    rw [hk1, Nat.one_mul, Nat.one_mul] at hch
    have hone := all_one (l := ((G.nodes c)[k].kids.map s.cls))
      (by intro x hx; obtain ⟨e, _, rfl⟩ := List.mem_map.1 hx; exact h.cls_binary e)
      (by rw [← hch, List.length_map])
    refine ⟨hone _ (List.mem_map.2 ⟨d, hd, rfl⟩), ?_⟩
    have := h.order c k _ hget d hd
    rw [hk1] at this
    omega
  · intro he
    cases hx : (G.nodes c)[k].op.extended with
    | false => rfl
    | true => have := h.ext he c k _ hget hx; omega

theorem mk_forms {op : EOp} {ts : List Egg} {t : Egg} (h : op.mk ts = some t) : op.Forms ts t := by
  unfold EOp.mk at h
  split at h <;> first | (cases h; constructor) | cases h

theorem mk_total {op : EOp} {ts : List Egg} (h : ts.length = op.arity) : ∃ t, op.mk ts = some t := by
  cases op <;> simp only [EOp.arity] at h <;>
    (first
      | (obtain rfl : ts = [] := List.length_eq_zero_iff.1 h; exact ⟨_, rfl⟩)
      | (obtain ⟨a, rfl⟩ := List.length_eq_one_iff.1 h; exact ⟨_, rfl⟩)
      | (match ts, h with | [a, b], _ => exact ⟨_, rfl⟩)
      | (match ts, h with | [a, b, c], _ => exact ⟨_, rfl⟩)
      | (match ts, h with | [a, b, c, d], _ => exact ⟨_, rfl⟩))

theorem mapM_some {f : Nat → Option Egg} : ∀ (l : List Nat), (∀ d ∈ l, ∃ t, f d = some t) →
    ∃ ts, l.mapM f = some ts ∧ ts.length = l.length ∧
      ∀ (k d : Nat) (u : Egg), l[k]? = some d → ts[k]? = some u → f d = some u
  | [], _ => ⟨[], rfl, rfl, by simp⟩
  | a :: l, h => by
      obtain ⟨t, ht⟩ := h a (by simp)
      obtain ⟨ts, h1, h2, h3⟩ := mapM_some l fun d hd => h d (by simp [hd])
      refine ⟨t :: ts, by simp [List.mapM_cons, ht, h1], by simp [h2], ?_⟩
      rintro (_ | k) d u p q
      · simp only [List.getElem?_cons_zero, Option.some.injEq] at p q
        subst p; subst q; exact ht
      · simp only [List.getElem?_cons_succ] at p q
        exact h3 k d u p q

theorem mk_basic {op : EOp} {ts : List Egg} {t : Egg} (h : op.mk ts = some t)
    (hop : op.extended = false) (hts : ∀ u ∈ ts, u.Basic) : t.Basic := by
  unfold EOp.mk at h
  split at h <;> simp only [Option.some.injEq, reduceCtorEq] at h <;> subst h <;>
    simp_all [Egg.Basic, EOp.extended]

theorem build_ok {G : EGraph} {ext : Bool} {s : Sol} (h : G.Feasible ext s) (ha : G.Arities) :
    ∀ (m c : Nat), s.order c < m → s.cls c = 1 → ∃ t,
      (∀ (fuel : Nat), m ≤ fuel → G.build s fuel c = some t) ∧ G.Rep c t ∧
        (ext = false → t.Basic) := by
  intro m
  induction m with
  | zero => intro c h; omega
  | succ m ih =>
      intro c hm hc
      obtain ⟨n, hr, hn, hk, he⟩ := repr_active h hc
      have hch : ∀ d ∈ n.kids, ∃ t, (∀ (fuel : Nat), m ≤ fuel → G.build s fuel d = some t) ∧
          G.Rep d t ∧ (ext = false → t.Basic) := fun d hd =>
        ih d (by have := (hk d hd).2; omega) (hk d hd).1
      obtain ⟨ts, h1, h2, h3⟩ := mapM_some (f := G.build s m) n.kids fun d hd =>
        let ⟨t, ht, _⟩ := hch d hd; ⟨t, ht m (Nat.le_refl _)⟩
      obtain ⟨t, ht⟩ := mk_total (op := n.op) (ts := ts) (by rw [h2, ha c n hn])
      refine ⟨t, ?_, ?_, ?_⟩
      · intro fuel hf
        obtain ⟨fuel, rfl⟩ : ∃ x, fuel = x + 1 := ⟨fuel - 1, by omega⟩
        have : n.kids.mapM (G.build s fuel) = n.kids.mapM (G.build s m) := by
          obtain ⟨ts', h1', h2', h3'⟩ := mapM_some (f := G.build s fuel) n.kids fun d hd =>
            let ⟨t, ht, _⟩ := hch d hd; ⟨t, ht fuel (by omega)⟩
          rw [h1, h1', Option.some.injEq]
          apply List.ext_getElem (by omega)
          intro k p q
          have hk' : k < n.kids.length := by omega
          have a1 := h3 k _ _ (List.getElem?_eq_getElem hk') (List.getElem?_eq_getElem q)
          have a2 := h3' k _ _ (List.getElem?_eq_getElem hk') (List.getElem?_eq_getElem p)
          obtain ⟨t, ht, _⟩ := hch n.kids[k] (List.getElem_mem hk')
          rw [ht m (Nat.le_refl _)] at a1
          rw [ht fuel (by omega)] at a2
          rw [Option.some.injEq] at a1 a2
          rw [← a1, ← a2]
        simp only [build, hr, Option.bind_eq_bind, Option.bind_some, this, h1, ht]
      · refine .node hn h2 (fun k d u p q => ?_) (mk_forms ht)
        obtain ⟨t, ht, hrep, _⟩ := hch d (List.mem_of_getElem? p)
        have := h3 k d u p q
        rw [ht m (Nat.le_refl _), Option.some.injEq] at this
        exact this ▸ hrep
      · intro hext
        refine mk_basic ht (he hext) fun u hu => ?_
        obtain ⟨k, hk', rfl⟩ := List.getElem_of_mem hu
        have hk'' : k < n.kids.length := by omega
        obtain ⟨t, ht, _, hb⟩ := hch n.kids[k] (List.getElem_mem hk'')
        have := h3 k _ _ (List.getElem?_eq_getElem hk'') (List.getElem?_eq_getElem hk')
        rw [ht m (Nat.le_refl _), Option.some.injEq] at this
        exact this ▸ hb hext

end EGraph

namespace Eqsat

theorem import_shape {α : Type} {atomOf : Nat → Option α} : ∀ (t : Egg) (e : Expr α),
    replaceAtoms atomOf (ofEgg t) = some e →
      (t.WF → Nowhere isDisordered e) ∧ (t.Basic → Nowhere isExtended e) := by
  intro t
  induction t with
  | bool b =>
      intro e h
      simp only [ofEgg, replaceAtoms, Option.some.injEq] at h
      subst h
      simp [nw_iff_children (e := Expr.const b), isDisordered, isExtended, Expr.children]
  | var n =>
      intro e h
      simp only [ofEgg, replaceAtoms, Option.bind_eq_bind, Option.pure_def, Option.bind_eq_some_iff,
        Option.some.injEq] at h
      obtain ⟨a, ha, rfl⟩ := h
      simp [nw_iff_children (e := Expr.atom a), isDisordered, isExtended, Expr.children]
  | not a iha =>
      intro e h
      simp only [ofEgg, replaceAtoms, Option.bind_eq_bind, Option.pure_def, Option.bind_eq_some_iff,
        Option.some.injEq] at h
      obtain ⟨x, hx, rfl⟩ := h
      have := iha x hx
      simp [nw_iff_children (e := Expr.neg x), isDisordered, isExtended, Expr.children, Egg.WF,
        Egg.Basic]
      exact this
  | implies a b iha ihb =>
      intro e h
      simp only [ofEgg, replaceAtoms, Option.bind_eq_bind, Option.pure_def, Option.bind_eq_some_iff,
        Option.some.injEq] at h
      obtain ⟨x, hx, y, hy, rfl⟩ := h
      have h1 := iha x hx
      have h2 := ihb y hy
      simp [nw_iff_children (e := Expr.imp x y), isDisordered, isExtended, Expr.children, Egg.WF,
        Egg.Basic]
      tauto
  | equiv a b iha ihb =>
      intro e h
      simp only [ofEgg, replaceAtoms, Option.bind_eq_bind, Option.pure_def, Option.bind_eq_some_iff,
        Option.some.injEq] at h
      obtain ⟨x, hx, y, hy, rfl⟩ := h
      have h1 := iha x hx
      have h2 := ihb y hy
      simp [nw_iff_children (e := Expr.iff x y), isDisordered, isExtended, Expr.children, Egg.WF,
        Egg.Basic]
      tauto
  | global lb ub a iha =>
      intro e h
      simp only [ofEgg, replaceAtoms, Option.bind_eq_bind, Option.pure_def, Option.bind_eq_some_iff,
        Option.some.injEq] at h
      obtain ⟨x, hx, rfl⟩ := h
      have := iha x hx
      simp [nw_iff_children (e := Expr.glob lb.natAbs ub.natAbs x), isDisordered, isExtended,
        Expr.children, Egg.WF, Egg.Basic]
      exact fun h0 h1 hw => ⟨by omega, this.1 hw⟩
  | future lb ub a iha =>
      intro e h
      simp only [ofEgg, replaceAtoms, Option.bind_eq_bind, Option.pure_def, Option.bind_eq_some_iff,
        Option.some.injEq] at h
      obtain ⟨x, hx, rfl⟩ := h
      have := iha x hx
      simp [nw_iff_children (e := Expr.fut lb.natAbs ub.natAbs x), isDisordered, isExtended,
        Expr.children, Egg.WF, Egg.Basic]
      exact fun h0 h1 hw => ⟨by omega, this.1 hw⟩
  | «until» lb ub a b iha ihb =>
      intro e h
      simp only [ofEgg, replaceAtoms, Option.bind_eq_bind, Option.pure_def, Option.bind_eq_some_iff,
        Option.some.injEq] at h
      obtain ⟨x, hx, y, hy, rfl⟩ := h
      have h1 := iha x hx
      have h2 := ihb y hy
      simp [nw_iff_children (e := Expr.untl lb.natAbs ub.natAbs x y), isDisordered, isExtended,
        Expr.children, Egg.WF, Egg.Basic]
      exact ⟨fun p q r t => ⟨by omega, h1.1 r, h2.1 t⟩, fun r t => ⟨h1.2 r, h2.2 t⟩⟩
  | release lb ub a b iha ihb =>
      intro e h
      simp only [ofEgg, replaceAtoms, Option.bind_eq_bind, Option.pure_def, Option.bind_eq_some_iff,
        Option.some.injEq] at h
      obtain ⟨x, hx, y, hy, rfl⟩ := h
      have h1 := iha x hx
      have h2 := ihb y hy
      simp [nw_iff_children (e := Expr.rel lb.natAbs ub.natAbs x y), isDisordered, isExtended,
        Expr.children, Egg.WF, Egg.Basic]
      exact ⟨fun p q r t => ⟨by omega, h1.1 r, h2.1 t⟩, fun r t => ⟨h1.2 r, h2.2 t⟩⟩
  | and2 a b iha ihb | or2 a b iha ihb =>
      intro e h
      simp only [ofEgg, replaceAtoms, replaceAtomsL, Option.bind_eq_bind, Option.pure_def,
        Option.bind_eq_some_iff, Option.some.injEq] at h
      obtain ⟨_, ⟨x, hx, _, ⟨y, hy, _, rfl, rfl⟩, rfl⟩, rfl⟩ := h
      have h1 := iha x hx
      have h2 := ihb y hy
      constructor <;> intro hw <;> rw [nw_iff_children] <;>
        simp only [isDisordered, isExtended, Expr.children, Egg.WF, Egg.Basic, List.mem_cons,
          List.not_mem_nil, or_false, not_false_eq_true, true_and, forall_eq_or_imp, forall_eq] at hw ⊢
      · exact ⟨h1.1 hw.1, h2.1 hw.2⟩
      · exact ⟨h1.2 hw.1, h2.2 hw.2⟩
  | and3 a b c iha ihb ihc | or3 a b c iha ihb ihc =>
      intro e h
      simp only [ofEgg, replaceAtoms, replaceAtomsL, Option.bind_eq_bind, Option.pure_def,
        Option.bind_eq_some_iff, Option.some.injEq] at h
      obtain ⟨_, ⟨x, hx, _, ⟨y, hy, _, ⟨z, hz, _, rfl, rfl⟩, rfl⟩, rfl⟩, rfl⟩ := h
      have h1 := iha x hx
      have h2 := ihb y hy
      have h3 := ihc z hz
      constructor <;> intro hw <;> rw [nw_iff_children] <;>
        simp only [isDisordered, isExtended, Expr.children, Egg.WF, Egg.Basic, List.mem_cons,
          List.not_mem_nil, or_false, not_false_eq_true, true_and, forall_eq_or_imp, forall_eq] at hw ⊢
      · exact ⟨h1.1 hw.1, h2.1 hw.2.1, h3.1 hw.2.2⟩
      · exact ⟨h1.2 hw.1, h2.2 hw.2.1, h3.2 hw.2.2⟩
  | and4 a b c d iha ihb ihc ihd | or4 a b c d iha ihb ihc ihd =>
      intro e h
      simp only [ofEgg, replaceAtoms, replaceAtomsL, Option.bind_eq_bind, Option.pure_def,
        Option.bind_eq_some_iff, Option.some.injEq] at h
      obtain ⟨_, ⟨x, hx, _, ⟨y, hy, _, ⟨z, hz, _, ⟨w, hw', _, rfl, rfl⟩, rfl⟩, rfl⟩, rfl⟩, rfl⟩ := h
      have h1 := iha x hx
      have h2 := ihb y hy
      have h3 := ihc z hz
      have h4 := ihd w hw'
      constructor <;> intro hw <;> rw [nw_iff_children] <;>
        simp only [isDisordered, isExtended, Expr.children, Egg.WF, Egg.Basic, List.mem_cons,
          List.not_mem_nil, or_false, not_false_eq_true, true_and, forall_eq_or_imp, forall_eq] at hw ⊢
      · exact ⟨h1.1 hw.1, h2.1 hw.2.1, h3.1 hw.2.2.1, h4.1 hw.2.2.2⟩
      · exact ⟨h1.2 hw.1, h2.2 hw.2.1, h3.2 hw.2.2.1, h4.2 hw.2.2.2⟩

/-- Whatever term of the root's class comes back, the formula read from it is equivalent to the
original one. -/
theorem extracted_equiv {α : Type} {atomId : α → Nat} {atomOf : Nat → Option α}
    (hm : ∀ a, atomOf (atomId a) = some a) {o : EggOptions} {e : Expr α} {t u : Egg}
    (hd : Nowhere isDisordered e) (he : toEgg atomId e = some t) (h : EqG o.rule t t u) :
    ∃ e', replaceAtoms atomOf (ofEgg u) = some e' ∧ Equiv e e' ∧ Nowhere isDisordered e' := by
  obtain ⟨hwt, hwu, hs⟩ := h.sound (fun l r => EggOptions.rule_sound) (export_wf e t he hd)
  obtain ⟨e', he'⟩ := replaceAtoms_total (atomOf := atomOf) u fun n hn => by
    obtain ⟨a, rfl⟩ := export_vars e t he n ((EqG_vars h).2 hn)
    simp [hm]
  refine ⟨e', he', fun π i => ?_, (import_shape u e' he').1 hwu⟩
  rw [← replaceAtoms_sat π _ _ (replace_export hm e t he) i, ← replaceAtoms_sat π _ _ he' i,
    ofEgg_sat hwt, ofEgg_sat hwu]
  exact hs _ i

end Eqsat
end R2U2
