import Verif.Spec.Wcet
import Verif.Props.Assembly
namespace R2U2
open BProg
namespace Wcet

theorem cpuLoop_eq {table : Key → Option Nat} {lat : Key → Nat} {clk : Nat} : ∀ (A : List Item) (n : Nat),
    (∀ k ∈ A.filterMap Item.key, table k = some (lat k)) →
    cpuLoop table clk n A = n + ((A.filterMap Item.key).map fun k => lat k / clk).sum
  | [], n, _ => by simp [cpuLoop]
  | i :: A, n, h => by
    simp only [cpuLoop]
    cases hk : i.key with
    | none =>
      simp only [List.filterMap_cons, hk] at h ⊢
      exact cpuLoop_eq A n h
    | some k =>
      simp only [List.filterMap_cons, hk] at h ⊢
      rw [h k (by simp)]
      simp only [List.map_cons, List.sum_cons]
      rw [cpuLoop_eq A _ (fun k' hk' => h k' (by simp [hk']))]
      omega

theorem fpgaLoop_eq {scqs : List CgInstr} (hs : ∀ c ∈ scqs, c.instr.v2 = 0) {table : Key → Option (Int × Int)} {lat : Key → Int × Int} :
    ∀ (A : List Item) (n : Int), (∀ k ∈ A.filterMap Item.key, table k = some (lat k)) →
    fpgaLoop scqs table n A = n + ((A.filterMap Item.key).map fun k => (lat k).1 + (lat k).2).sum
  | [], n, _ => by simp [fpgaLoop]
  | i :: A, n, h => by
    have hsz : ∀ ids, childSizes scqs ids = 1 := by
      intro ids
      unfold childSizes
      split
      · rfl
      · rename_i c hc
        rw [hs c (List.mem_of_find?_eq_some hc)]; rfl
    have ht : ∀ a b, fpgaTime scqs a b i = a + b := by
      intro a b; cases i <;> simp [fpgaTime, hsz]
    simp only [fpgaLoop]
    cases hk : i.key with
    | none =>
      simp only [List.filterMap_cons, hk] at h ⊢
      exact fpgaLoop_eq hs A n h
    | some k =>
      simp only [List.filterMap_cons, hk] at h ⊢
      rw [h k (by simp)]
      simp only [List.map_cons, List.sum_cons]
      rw [fpgaLoop_eq hs A _ (fun k' hk' => h k' (by simp [hk'])), ht]
      omega

theorem perm_sum_int {l m : List Int} (h : l.Perm m) : l.sum = m.sum := by
  induction h with
  | nil => rfl
  | cons x _ ih => simp [ih]
  | swap x y l => simp only [List.sum_cons]; omega
  | trans _ _ h1 h2 => rw [h1, h2]

theorem keys_items (A : Assembly) : (items A).filterMap Item.key =
    A.bz.map (fun i => Key.bz i.op) ++ A.ft.map (fun i => Key.ft i.op) ++ A.pt.map (fun i => Key.pt i.op) := by
  have h1 : (A.bz.map Item.bz).filterMap Item.key = A.bz.map (fun i => Key.bz i.op) := by
    rw [List.filterMap_map]; exact congrFun List.filterMap_eq_map' _
  have h2 : (A.ft.map Item.ft).filterMap Item.key = A.ft.map (fun i => Key.ft i.op) := by
    rw [List.filterMap_map]; exact congrFun List.filterMap_eq_map' _
  have h3 : (A.pt.map Item.pt).filterMap Item.key = A.pt.map (fun i => Key.pt i.op) := by
    rw [List.filterMap_map]; exact congrFun List.filterMap_eq_map' _
  have h4 : (A.cg.map Item.cg).filterMap Item.key = [] := by
    rw [List.filterMap_map]
    induction A.cg with
    | nil => rfl
    | cons c l ih => simpa [Item.key] using ih
  simp only [items, List.filterMap_append, h1, h2, h3, h4, List.append_nil]

/-- Nodes and their instructions, one to one. -/
theorem perm_of_means {I K : Type} [DecidableEq I] {xs : List Nat} {is : List I} (hx : xs.Nodup) (id : I → Nat)
    (hi : (is.map id).Nodup) (M : Nat → I → Prop) (key : Nat → K) (ikey : I → K) (pos : Nat → Nat)
    (h1 : ∀ x ∈ xs, ∃ i ∈ is, M x i) (h2 : ∀ i ∈ is, ∃ x ∈ xs, M x i) (hinj : ∀ x ∈ xs, ∀ y ∈ xs, pos x = pos y → x = y)
    (hid : ∀ x i, M x i → id i = pos x) (hkey : ∀ x i, M x i → ikey i = key x) :
    (is.map ikey).Perm (xs.map key) := by
  have hpos : (is.map id).Perm (xs.map pos) := by
    have hnd : (xs.map pos).Nodup := by
      rw [List.nodup_iff_pairwise_ne, List.pairwise_map]
      exact (List.nodup_iff_pairwise_ne.1 hx).imp_of_mem (fun ha hb hne h => hne (hinj _ ha _ hb h))
    rw [List.perm_ext_iff_of_nodup hi hnd]
    intro n
    simp only [List.mem_map]
    constructor
    · rintro ⟨i, hi', rfl⟩
      obtain ⟨x, hx', hm⟩ := h2 i hi'
      exact ⟨x, hx', (hid x i hm).symm⟩
    · rintro ⟨x, hx', rfl⟩
      obtain ⟨i, hi', hm⟩ := h1 x hx'
      exact ⟨i, hi', hid x i hm⟩
  -- the key of a position
  have key1 : ∀ i ∈ is, ∀ x ∈ xs, id i = pos x → ikey i = key x := by
    intro i hi' x hx' he
    obtain ⟨y, hy, hm⟩ := h2 i hi'
    have := hinj y hy x hx' (by rw [← hid y i hm, he])
    subst this
    exact hkey _ _ hm
  clear h1 h2 hid hkey
  induction is generalizing xs with
  | nil =>
    have : xs.map pos = [] := by simpa using hpos.symm
    simp only [List.map_eq_nil_iff] at this
    subst this
    simp
  | cons i is ih =>
    have hmem : id i ∈ xs.map pos := hpos.mem_iff.1 (by simp)
    obtain ⟨x, hxm, hxi⟩ := List.mem_map.1 hmem
    have hp := List.perm_cons_erase hxm
    have hpos' : (is.map id).Perm ((xs.erase x).map pos) := by
      have h1 : (id i :: is.map id).Perm (pos x :: (xs.erase x).map pos) := by
        have := hpos.trans (hp.map pos)
        simpa using this
      rw [hxi] at h1
      exact (List.perm_cons _).1 h1
    have hsub : ∀ y ∈ xs.erase x, y ∈ xs := fun y hy => List.mem_of_mem_erase hy
    have ih' := ih (hx.erase x) (by simp only [List.map_cons, List.nodup_cons] at hi; exact hi.2)
      (fun y hy z hz => hinj y (hsub y hy) z (hsub z hz)) hpos'
      (fun j hj y hy => key1 j (by simp [hj]) y (hsub y hy))
    have := (hp.map key).symm
    refine List.Perm.trans ?_ this
    simp only [List.map_cons]
    rw [key1 i (by simp) x hxm hxi.symm]
    exact ih'.cons _

end Wcet

open Wcet

theorem BProg.BzMeans.key {P : BProg} {cell : Nat → Nat} {x : Nat} {i : BzInstr} (h : P.BzMeans cell x i) :
    i.id = cell x ∧ Key.bz i.op = P.bzKey x := by
  unfold BProg.BzMeans at h
  unfold BProg.bzKey
  split at h <;> first
    | (subst h; simp_all; done)
    | (obtain ⟨k, hk, rfl⟩ := h; simp_all; done)
    | (obtain ⟨k, hk, rfl⟩ := h
       simp only [*, Option.getD_some, true_and]
       split <;> simp_all)
    | simp_all

theorem BProg.TlMeans.key {P : BProg} {past : Bool} {queue : Nat → Nat} {x : Nat} {i : TlInstr} (h : P.TlMeans past queue x i) :
    i.id = queue x ∧ (if past then Key.pt i.op else Key.ft i.op) = P.tlKey past x := by
  have hop : ∀ o, P.atomicId x = none → tlOperator past (P.heap.lab x) = some o → i.op = o →
      (if past then Key.pt i.op else Key.ft i.op) = P.tlKey past x := by
    intro o ha ho hi
    subst hi
    unfold BProg.tlKey
    rw [ha]
    cases past <;> cases hl : P.heap.lab x <;> rw [hl] at ho <;> simp_all [tlOperator]
  unfold BProg.TlMeans at h
  split at h
  · rename_i a ha
    subst h
    refine ⟨rfl, ?_⟩
    simp [BProg.tlKey, ha]
  · rename_i n c _ ha hl _
    subst h
    refine ⟨rfl, ?_⟩
    simp [BProg.tlKey, ha, hl]
  · obtain ⟨k, hk, rfl⟩ := h
    exact ⟨rfl, hop k (by assumption) hk rfl⟩
  · obtain ⟨k, hk, rfl⟩ := h
    exact ⟨rfl, hop k (by assumption) hk rfl⟩
  · obtain ⟨k, hk, rfl⟩ := h
    exact ⟨rfl, hop k (by assumption) hk rfl⟩
  · exact h.elim

theorem BProg.exists_computed {P : BProg} (ha : P.heap.Acyclic) : ∃ cells fts pts, P.Computed cells fts pts := by
  classical
  obtain ⟨o1, _, _, n1, m1, _⟩ := C48_postorder P.heap ha [P.ft]
  obtain ⟨o2, _, _, n2, m2, _⟩ := C48_postorder P.heap ha [P.pt]
  refine ⟨(o1 ++ o2.filter (fun x => decide (x ∉ o1))).filter (fun x => decide (P.NeedsCell x)),
    o1.filter (fun x => decide (P.NeedsTl P.ft x)), o2.filter (fun x => decide (P.NeedsTl P.pt x)), ⟨?_, ?_⟩, ⟨?_, ?_⟩, ⟨?_, ?_⟩⟩
  · refine List.Pairwise.filter _ ?_
    refine List.nodup_append.2 ?_
    refine ⟨n1, n2.filter _, ?_⟩
    rintro a ha b hb rfl
    simp at hb; exact hb.2 ha
  · intro x
    simp only [List.mem_filter, List.mem_append, decide_eq_true_eq, m1, m2]
    constructor
    · exact fun h => h.2
    · intro h
      refine ⟨?_, h⟩
      by_cases h1 : P.heap.Reachable [P.ft] x
      · exact .inl h1
      · exact .inr ⟨h.1.resolve_left h1, h1⟩
  · exact n1.filter _
  · intro x
    simp only [List.mem_filter, decide_eq_true_eq, m1]
    exact ⟨fun h => h.2, fun h => ⟨h.1, h⟩⟩
  · exact n2.filter _
  · intro x
    simp only [List.mem_filter, decide_eq_true_eq, m2]
    exact ⟨fun h => h.2, fun h => ⟨h.1, h⟩⟩

/-- The operators of the instructions are those of the computed nodes. -/
theorem BProg.keys_perm {P : BProg} (hr : P.Ready) (hsep : P.Separate) (hcov : P.Covered) {fuel : Nat}
    {scq : Nat → Option (Int × Int)} {A : Assembly} (h : genAssembly fuel P scq = some A) {cells fts pts : List Nat}
    (hc : P.Computed cells fts pts) : ((items A).filterMap Item.key).Perm (P.keys cells fts pts) := by
  obtain ⟨cell, queue, h1, h2, h3, h4, h5, h6, h7, h8, _, _⟩ := C53_code P hr hsep hcov fuel scq A h
  obtain ⟨i1, _, i2⟩ := C23_ids_partial P hr hsep fuel scq A h
  have i3 : (A.ft.map (·.id)).Nodup ∧ (A.pt.map (·.id)).Nodup := by
    have : ((A.ft ++ A.pt).map (·.id)).Nodup := by rw [i2]; exact List.nodup_range
    rw [List.map_append, List.nodup_append] at this
    exact ⟨this.1, this.2.1⟩
  rw [keys_items]
  refine List.Perm.append (List.Perm.append ?_ ?_) ?_
  · exact perm_of_means hc.cells.1 (·.id) i1 (P.BzMeans cell) P.bzKey (fun i => Key.bz i.op) cell
      (fun x hx => h1 x ((hc.cells.2 x).1 hx))
      (fun i hi => by obtain ⟨x, hx, hm⟩ := h2 i hi; exact ⟨x, (hc.cells.2 x).2 hx, hm⟩)
      (fun x hx y hy => h3 x y ((hc.cells.2 x).1 hx) ((hc.cells.2 y).1 hy))
      (fun x i hm => hm.key.1) (fun x i hm => hm.key.2)
  · exact perm_of_means hc.fts.1 (·.id) i3.1 (P.TlMeans false queue) (P.tlKey false) (fun i => Key.ft i.op) queue
      (fun x hx => h4 x ((hc.fts.2 x).1 hx))
      (fun i hi => by obtain ⟨x, hx, hm⟩ := h5 i hi; exact ⟨x, (hc.fts.2 x).2 hx, hm⟩)
      (fun x hx y hy => h8 x y (.inl ((hc.fts.2 x).1 hx)) (.inl ((hc.fts.2 y).1 hy)))
      (fun x i hm => hm.key.1) (fun x i hm => by simpa using hm.key.2)
  · exact perm_of_means hc.pts.1 (·.id) i3.2 (P.TlMeans true queue) (P.tlKey true) (fun i => Key.pt i.op) queue
      (fun x hx => h6 x ((hc.pts.2 x).1 hx))
      (fun i hi => by obtain ⟨x, hx, hm⟩ := h7 i hi; exact ⟨x, (hc.pts.2 x).2 hx, hm⟩)
      (fun x hx y hy => h8 x y (.inr ((hc.pts.2 x).1 hx)) (.inr ((hc.pts.2 y).1 hy)))
      (fun x i hm => hm.key.1) (fun x i hm => by simpa using hm.key.2)

/-- The records that size queues have no second operand. -/
theorem BProg.scq_second {P : BProg} (hr : P.Ready) (hsep : P.Separate) {fuel : Nat} {scq : Nat → Option (Int × Int)} {A : Assembly}
    (h : genAssembly fuel P scq = some A) (c : CgInstr) (hc : c ∈ A.cg) (ht : c.temp = false) : c.instr.v2 = 0 := by
  obtain ⟨o1, o2, bzd, ftd, ptd, hf, _⟩ := facts hr hsep h
  have : c ∈ ((ftd ++ ptd).map (fun e => P.genScq scq e.2.id e.1)).flatten := by
    rw [hf.cg, List.mem_append] at hc
    rcases hc with hc | hc <;> exact (List.mem_filter.1 hc).1
  simp only [List.mem_flatten, List.mem_map] at this
  obtain ⟨_, ⟨e, _, rfl⟩, hc⟩ := this
  unfold genScq at hc
  split at hc
  · simp only [List.mem_cons, List.not_mem_nil, or_false] at hc
    rcases hc with rfl | rfl
    · rfl
    · simp at ht
  · simp only [List.mem_cons, List.not_mem_nil, or_false] at hc
    subst hc; rfl

end R2U2
