import Verif.Spec.Console
import Verif.Props.Graph
import Verif.Lemmas.TypeCheck
/-
Helper lemmas for C34: copies are faithful and separate, and what is separate is not disturbed.
-/
namespace R2U2
open Heap

section
variable {L : Type}

/-- What a node denotes depends only on a closed set of nodes around it. -/
theorem Heap.denotes_frame {h h' : Heap L} {A : Nat → Prop} (hl : ∀ x, A x → h'.lab x = h.lab x)
    (hk : ∀ x, A x → h'.kids x = h.kids x) (hc : ∀ x c, A x → c ∈ h.kids x → A c) :
    ∀ t x, A x → h.Denotes x t → h'.Denotes x t := by
  intro t
  induction t using Tree.childInduction with
  | h l us ih =>
    intro z hA hz
    rw [denotes_node] at hz ⊢
    refine ⟨by rw [hl z hA]; exact hz.1, ?_⟩
    rw [hk z hA]
    have : ∀ (cs : List Nat) (vs : List (Tree L)), (∀ v ∈ vs, v ∈ us) → (∀ c ∈ cs, A c) →
        List.Forall₂ h.Denotes cs vs → List.Forall₂ h'.Denotes cs vs := by
      intro cs vs hv hcs hf
      induction hf with
      | nil => exact .nil
      | cons hc hf ihf =>
        exact .cons (ih _ (hv _ List.mem_cons_self) _ (hcs _ (by simp)) hc)
          (ihf (fun v hv' => hv v (List.mem_cons_of_mem _ hv')) fun c hc => hcs c (by simp [hc]))
    exact this _ _ (fun v hv => hv) (fun c hc' => hc z c hA hc') hz.2

theorem Heap.reach_frame {h h' : Heap L} {rs : List Nat} (hk : ∀ x, h.Reachable rs x → h'.kids x = h.kids x) {x : Nat} :
    h'.Reachable rs x ↔ h.Reachable rs x := by
  constructor
  · intro hx
    induction hx with
    | root hr => exact .root hr
    | kid _ hc ih => exact .kid ih (by rw [← hk _ ih]; exact hc)
  · intro hx
    induction hx with
    | root hr => exact .root hr
    | kid hp hc ih => exact .kid ih (by rw [hk _ hp]; exact hc)

theorem Heap.reach_closed {h : Heap L} {rs : List Nat} {A : Nat → Prop} (hr : ∀ r ∈ rs, A r)
    (hc : ∀ p c, A p → c ∈ h.kids p → A c) {x : Nat} (hx : h.Reachable rs x) : A x := by
  induction hx with
  | root h1 => exact hr _ h1
  | kid _ h1 ih => exact hc _ _ ih h1

theorem Heap.postorder_reachable {h : Heap L} (ha : h.Acyclic) {fuel : Nat} {roots out : List Nat}
    (ho : h.postorder fuel roots = some out) {x : Nat} (hx : x ∈ out) : Reachable h roots x := by
  obtain ⟨out', N, h1, _, h3, _⟩ := C48_postorder h ha roots
  have h2 := h1 (max fuel N) (by omega)
  have h4 : h.postorder (max fuel N) roots = some out := by
    unfold postorder at ho ⊢
    rw [Option.map_eq_some_iff] at ho ⊢
    obtain ⟨w, hw, rfl⟩ := ho
    exact ⟨w, walk_mono (fun _ _ _ _ h => h) (by omega) hw, rfl⟩
  rw [h2] at h4; cases h4
  exact (h3 x).mp hx

theorem _root_.List.mem_lookup {A B : Type} [BEq A] [LawfulBEq A] {a : A} {b : B} : ∀ {l : List (A × B)},
    l.lookup a = some b → (a, b) ∈ l
  | [], h => by simp at h
  | (x, y) :: l, h => by
      rw [List.lookup_cons] at h
      cases hx : a == x with
      | true => simp only [hx] at h; cases h; simp [eq_of_beq hx]
      | false => simp only [hx] at h; exact List.mem_cons_of_mem _ (List.mem_lookup h)
end

/-- Allocation keeps the heap sound. -/
theorem Mem.Ok.alloc {m : Mem} (hm : m.Ok) {l : CLab} {ks : List Nat} (hk : ∀ k ∈ ks, k < m.next) : (m.alloc l ks).Ok := by
  have hold : ∀ x, x < m.next → (m.alloc l ks).heap.lab x = m.heap.lab x ∧ (m.alloc l ks).heap.kids x = m.heap.kids x := by
    intro x hx
    simp [Mem.alloc, Nat.ne_of_lt hx]
  have hd : ∀ x, x < m.next → ∃ t, (m.alloc l ks).heap.Denotes x t := by
    intro x hx
    obtain ⟨t, ht⟩ := hm.acyclic x
    exact ⟨t, Heap.denotes_frame (A := (· < m.next)) (fun x hx => (hold x hx).1) (fun x hx => (hold x hx).2)
      (fun x c _ hc => (hm.below x c hc).2) t x hx ht⟩
  constructor
  · intro x
    by_cases hx : x < m.next
    · exact hd x hx
    by_cases hx' : x = m.next
    · subst hx'
      have : ∃ ts, List.Forall₂ (m.alloc l ks).heap.Denotes ks ts := by
        have : ∀ k ∈ ks, ∃ t, (m.alloc l ks).heap.Denotes k t := fun k hk' => hd k (hk k hk')
        generalize (m.alloc l ks).heap = h at this
        clear hd hold hk
        induction ks with
        | nil => exact ⟨[], .nil⟩
        | cons k ks ih =>
          obtain ⟨t, ht⟩ := this k (by simp)
          obtain ⟨ts, hts⟩ := ih fun k hk => this k (by simp [hk])
          exact ⟨t :: ts, .cons ht hts⟩
      obtain ⟨ts, hts⟩ := this
      exact ⟨.node l ts, denotes_node.2 ⟨by simp [Mem.alloc], by simpa [Mem.alloc] using hts⟩⟩
    · refine ⟨.node (m.heap.lab x) [], denotes_node.2 ⟨by simp [Mem.alloc, hx'], ?_⟩⟩
      have : (m.alloc l ks).heap.kids x = [] := by
        simp only [Mem.alloc, hx', if_false]
        refine List.eq_nil_iff_forall_not_mem.2 fun c hc => hx (hm.below x c hc).1
      rw [this]; exact .nil
  · intro p c hc
    simp only [Mem.alloc] at hc ⊢
    split_ifs at hc with hp
    · have := hk c hc; omega
    · have := hm.below p c hc; omega

/-- From `(m, c)` to `(m', c')`: nothing but new nodes, whose children are new, and new entries for them in the map of
atomics. -/
structure Grown (m : Mem) (c : CCtx) (m' : Mem) (c' : CCtx) : Prop where
  ok : m'.Ok
  next : m.next ≤ m'.next
  lab : ∀ x, x < m.next → m'.heap.lab x = m.heap.lab x
  kids : ∀ x, x < m.next → m'.heap.kids x = m.heap.kids x
  new : ∀ p d, m.next ≤ p → d ∈ m'.heap.kids p → m.next ≤ d
  ids : ∀ e ∈ c'.atomicId, e.1 < m'.next
  old : ∀ x, x < m.next → c'.atomicId.lookup x = c.atomicId.lookup x
  bz : c'.bz = c.bz

theorem Grown.refl {m : Mem} {c : CCtx} (hm : m.Ok) (hi : ∀ e ∈ c.atomicId, e.1 < m.next) : Grown m c m c :=
  ⟨hm, Nat.le_refl _, fun _ _ => rfl, fun _ _ => rfl, fun p d hp hd => absurd (hm.below p d hd).1 (by omega), hi,
    fun _ _ => rfl, rfl⟩

theorem Grown.trans {m m1 m2 : Mem} {c c1 c2 : CCtx} (h1 : Grown m c m1 c1) (h2 : Grown m1 c1 m2 c2) : Grown m c m2 c2 where
  ok := h2.ok
  next := Nat.le_trans h1.next h2.next
  lab x hx := (h2.lab x (Nat.lt_of_lt_of_le hx h1.next)).trans (h1.lab x hx)
  kids x hx := (h2.kids x (Nat.lt_of_lt_of_le hx h1.next)).trans (h1.kids x hx)
  new p d hp hd := by
    by_cases h : p < m1.next
    · rw [h2.kids p h] at hd
      exact h1.new p d hp hd
    · exact Nat.le_trans h1.next (h2.new p d (by omega) hd)
  ids := h2.ids
  old x hx := (h2.old x (Nat.lt_of_lt_of_le hx h1.next)).trans (h1.old x hx)
  bz := h2.bz.trans h1.bz

theorem Grown.same {m m' : Mem} {c c' : CCtx} (h : Grown m c m' c') (hm : m.Ok) {x : Nat} (hx : x < m.next) :
    SameExpr (seen m.heap c) (seen m'.heap c') x x := by
  intro t ht
  refine Heap.denotes_frame (h := seen m.heap c) (h' := seen m'.heap c') (A := (· < m.next)) ?_ (fun x hx => h.kids x hx) (fun x d _ hd => (hm.below x d hd).2) t x hx ht
  intro y hy
  simp only [seen, CCtx.labelled, h.lab y hy, h.old y hy, h.bz]

theorem SameExpr.trans {a b c : Heap (CLab × Option Nat)} {x y z : Nat} (h1 : SameExpr a b x y) (h2 : SameExpr b c y z) :
    SameExpr a c x z := fun t ht => h2 t (h1 t ht)

/-- Allocation of a node, with or without a new entry in the map of atomics. -/
theorem Grown.alloc {m : Mem} {c c' : CCtx} (hm : m.Ok) (hi : ∀ e ∈ c.atomicId, e.1 < m.next) {l : CLab} {ks : List Nat}
    (hk : ∀ k ∈ ks, k < m.next) (hc : c'.atomicId = c.atomicId ∨ ∃ i, c'.atomicId = (m.next, i) :: c.atomicId) (hb : c'.bz = c.bz) :
    (m.alloc l ks).Ok ∧ m.next ≤ (m.alloc l ks).next ∧ (∀ x, x < m.next → (m.alloc l ks).heap.lab x = m.heap.lab x) ∧
    (∀ x, x < m.next → (m.alloc l ks).heap.kids x = m.heap.kids x) ∧ (∀ e ∈ c'.atomicId, e.1 < (m.alloc l ks).next) ∧
    (∀ x, x < m.next → c'.atomicId.lookup x = c.atomicId.lookup x) := by
  refine ⟨hm.alloc hk, by simp [Mem.alloc], fun x hx => by simp [Mem.alloc, Nat.ne_of_lt hx],
    fun x hx => by simp [Mem.alloc, Nat.ne_of_lt hx], ?_, ?_⟩
  · intro e he
    simp only [Mem.alloc]
    rcases hc with h | ⟨i, h⟩ <;> rw [h] at he
    · have := hi e he; omega
    · rcases List.mem_cons.1 he with rfl | he
      · simp
      · have := hi e he; omega
  · intro x hx
    rcases hc with h | ⟨i, h⟩ <;> rw [h]
    rw [List.lookup_cons]
    have : (x == m.next) = false := by simp; omega
    simp [this]

theorem not_in_ids {c : CCtx} {n : Nat} (hi : ∀ e ∈ c.atomicId, e.1 < n) : c.atomicId.lookup n = none := by
  cases h : c.atomicId.lookup n with
  | none => rfl
  | some i => exact absurd (hi _ (List.mem_lookup h)) (by simp)

/-- The context changes in its maps of atomics only. -/
def CtxSame (c c' : CCtx) : Prop := c' = { c with atomicId := c'.atomicId, atomicExpr := c'.atomicExpr }

theorem CtxSame.refl (c : CCtx) : CtxSame c c := rfl
theorem CtxSame.trans {c c1 c2 : CCtx} (h1 : CtxSame c c1) (h2 : CtxSame c1 c2) : CtxSame c c2 := by
  unfold CtxSame at *
  rw [h2, h1]

theorem copied_inv {c c' : CCtx} {l : CLab} {x n : Nat} (h : c.copied l x n = some c') :
    CtxSame c c' ∧ (c'.atomicId = c.atomicId ∨ ∃ i, c'.atomicId = (n, i) :: c.atomicId) ∧ c'.bz = c.bz ∧
    (c.atomicId.lookup n = none → (c'.labelled n l) = (c.labelled x l)) := by
  unfold CCtx.copied at h
  split at h
  · rename_i hl
    rw [Option.map_eq_some_iff] at h
    obtain ⟨i, hi, rfl⟩ := h
    exact ⟨rfl, .inr ⟨i, rfl⟩, rfl, fun _ => by simp [CCtx.labelled, hl, CCtx.mapAtomic, hi]⟩
  · rename_i hl
    split_ifs at h with hb
    · cases h
      exact ⟨rfl, .inl rfl, rfl, fun _ => by simp [CCtx.labelled, hl, hb]⟩
    · split at h
      · rename_i i hi
        cases h
        exact ⟨rfl, .inr ⟨i, rfl⟩, rfl, fun _ => by simp [CCtx.labelled, hl, CCtx.mapAtomic, hi]⟩
      · rename_i hi
        cases h
        exact ⟨rfl, .inl rfl, rfl, fun hn => by simp [CCtx.labelled, hl, hi, hn]⟩
  · cases h
  · rename_i h1 h2
    cases h
    refine ⟨rfl, .inl rfl, rfl, fun _ => ?_⟩
    unfold CCtx.labelled
    split <;> simp_all

/-- The state of `deepcopy_expr`. -/
structure CopyInv (m : Mem) (c : CCtx) (s : CopySt) : Prop where
  grown : Grown m c s.mem s.ctx
  ctx : CtxSame c s.ctx
  memo : ∀ x y, (x, y) ∈ s.memo → m.next ≤ y ∧ y < s.mem.next ∧ SameExpr (seen m.heap c) (seen s.mem.heap s.ctx) x y

theorem CopyInv.node {m : Mem} {c : CCtx} {s s' : CopySt} {x : Nat} (hs : CopyInv m c s) (hx : x < m.next)
    (h : s.node x = some s') : CopyInv m c s' := by
  unfold CopySt.node at h
  split_ifs at h with h0
  · cases h; exact hs
  simp only [Option.bind_eq_some_iff, Option.map_eq_some_iff] at h
  obtain ⟨ks, hks, c1, hc1, rfl⟩ := h
  rw [Heap.collect_eq] at hks
  obtain ⟨h1, h2, h3, h4⟩ := copied_inv hc1
  have hk : ∀ k ∈ ks, m.next ≤ k ∧ k < s.mem.next := by
    intro k hk
    obtain ⟨d, hd, he⟩ := forall2_mem_left hks.flip hk
    have := hs.memo d k (List.mem_lookup he)
    exact ⟨this.1, this.2.1⟩
  obtain ⟨g1, g2, g3, g4, g5, g6⟩ := Grown.alloc hs.grown.ok hs.grown.ids (l := s.mem.heap.lab x) (fun k h => (hk k h).2) h2 h3
  have hg : Grown m c (s.mem.alloc (s.mem.heap.lab x) ks) c1 := by
    refine ⟨g1, Nat.le_trans hs.grown.next g2, fun y hy => ?_, fun y hy => ?_, fun p d hp hd => ?_, g5, fun y hy => ?_,
      h3.trans hs.grown.bz⟩
    · rw [g3 y (Nat.lt_of_lt_of_le hy hs.grown.next), hs.grown.lab y hy]
    · rw [g4 y (Nat.lt_of_lt_of_le hy hs.grown.next), hs.grown.kids y hy]
    · simp only [Mem.alloc] at hd
      split_ifs at hd with hp'
      · exact (hk d hd).1
      · exact hs.grown.new p d hp hd
    · rw [g6 y (Nat.lt_of_lt_of_le hy hs.grown.next), hs.grown.old y hy]
  have hold : ∀ y, y < s.mem.next → SameExpr (seen s.mem.heap s.ctx) (seen (s.mem.alloc (s.mem.heap.lab x) ks).heap c1) y y := by
    intro y hy t ht
    refine Heap.denotes_frame (h := seen s.mem.heap s.ctx) (h' := seen (s.mem.alloc (s.mem.heap.lab x) ks).heap c1)
      (A := (· < s.mem.next)) ?_ (fun x hx => g4 x hx) (fun x d _ hd => (hs.grown.ok.below x d hd).2) t y hy ht
    intro z hz
    simp only [seen, CCtx.labelled, g3 z hz, g6 z hz, h3]
  refine ⟨hg, hs.ctx.trans h1, ?_⟩
  intro a b hab
  rcases List.mem_cons.1 hab with hab | hab
  · cases hab
    refine ⟨hs.grown.next, by simp [Mem.alloc], ?_⟩
    intro t ht
    cases t with
    | node l ts =>
      rw [denotes_node] at ht ⊢
      obtain ⟨ht1, ht2⟩ := ht
      constructor
      · rw [ht1]
        have hl : (s.mem.alloc (s.mem.heap.lab x) ks).heap.lab s.mem.next = s.mem.heap.lab x := by simp [Mem.alloc]
        have := h4 (not_in_ids hs.grown.ids)
        simp only [seen, hl]
        rw [this, CCtx.labelled, CCtx.labelled, hs.grown.lab x hx, hs.grown.old x hx, hs.grown.bz]
      · have hk2 : (seen (s.mem.alloc (s.mem.heap.lab x) ks).heap c1).kids s.mem.next = ks := by simp [seen, Mem.alloc]
        rw [hk2]
        obtain ⟨KS, hKS⟩ : ∃ KS, KS = ks := ⟨ks, rfl⟩
        rw [← hKS] at hold ⊢
        have hk3 : (seen m.heap c).kids x = s.mem.heap.kids x := (hs.grown.kids x hx).symm
        rw [hk3] at ht2
        have : ∀ {cs ks : List Nat} {ts}, List.Forall₂ (fun d k => s.memo.lookup d = some k) cs ks →
            List.Forall₂ (seen m.heap c).Denotes cs ts →
            List.Forall₂ (seen (s.mem.alloc (s.mem.heap.lab x) KS).heap c1).Denotes ks ts := by
          intro cs ks ts h1
          induction h1 generalizing ts with
          | nil => intro h2; cases h2; exact .nil
          | cons hd _ ih =>
            intro h2
            cases h2 with
            | cons h2 h3 =>
              obtain ⟨a1, a2, a3⟩ := hs.memo _ _ (List.mem_lookup hd)
              exact .cons (hold _ a2 _ (a3 _ h2)) (ih h3)
        exact this (hKS ▸ hks) ht2
  · obtain ⟨a1, a2, a3⟩ := hs.memo a b hab
    exact ⟨a1, by simp [Mem.alloc]; omega, a3.trans (hold b a2)⟩

theorem CopyInv.nodes {m : Mem} {c : CCtx} : ∀ {xs : List Nat} {s s' : CopySt}, CopyInv m c s → (∀ x ∈ xs, x < m.next) →
    s.nodes xs = some s' → CopyInv m c s'
  | [], s, s', hs, _, h => by simp only [CopySt.nodes, Option.some.injEq] at h; exact h ▸ hs
  | x :: xs, s, s', hs, hx, h => by
      simp only [CopySt.nodes, Option.bind_eq_some_iff] at h
      obtain ⟨s1, h1, h2⟩ := h
      exact (hs.node (hx x (by simp)) h1).nodes (fun y hy => hx y (by simp [hy])) h2

theorem copyExpr_spec {fuel : Nat} {m m' : Mem} {c c' : CCtx} {x y : Nat} (hm : m.Ok) (hi : ∀ e ∈ c.atomicId, e.1 < m.next)
    (hx : x < m.next) (h : copyExpr fuel m c x = some (m', c', y)) :
    Grown m c m' c' ∧ CtxSame c c' ∧ m.next ≤ y ∧ y < m'.next ∧ SameExpr (seen m.heap c) (seen m'.heap c') x y := by
  unfold copyExpr at h
  simp only [Option.bind_eq_some_iff, Option.map_eq_some_iff] at h
  obtain ⟨xs, h1, s, h2, z, h3, h4⟩ := h
  simp only [Prod.mk.injEq] at h4
  obtain ⟨rfl, rfl, rfl⟩ := h4
  have h0 : CopyInv m c ⟨m, c, []⟩ := ⟨Grown.refl hm hi, rfl, by simp⟩
  have hs := h0.nodes (xs := xs) (fun z hz => by
    refine Heap.reach_closed (h := m.heap) (rs := [x]) (A := (· < m.next)) (by simpa using hx) (fun p d _ hd => (hm.below p d hd).2) ?_
    exact Heap.postorder_reachable hm.acyclic h1 hz) h2
  obtain ⟨a1, a2, a3⟩ := hs.memo x z (List.mem_lookup h3)
  exact ⟨hs.grown, hs.ctx, a1, a2, a3⟩

theorem copyExprs_spec {fuel : Nat} : ∀ {xs ys : List Nat} {m m' : Mem} {c c' : CCtx}, m.Ok → (∀ e ∈ c.atomicId, e.1 < m.next) →
    (∀ x ∈ xs, x < m.next) → copyExprs fuel m c xs = some (m', c', ys) →
    Grown m c m' c' ∧ CtxSame c c' ∧ (∀ y ∈ ys, m.next ≤ y ∧ y < m'.next) ∧
    List.Forall₂ (SameExpr (seen m.heap c) (seen m'.heap c')) xs ys
  | [], ys, m, m', c, c', hm, hi, hx, h => by
      simp only [copyExprs, Option.some.injEq, Prod.mk.injEq] at h
      obtain ⟨rfl, rfl, rfl⟩ := h
      exact ⟨Grown.refl hm hi, rfl, by simp, .nil⟩
  | x :: xs, ys, m, m', c, c', hm, hi, hx, h => by
      simp only [copyExprs, Option.bind_eq_some_iff, Option.map_eq_some_iff] at h
      obtain ⟨⟨m1, c1, y⟩, h1, ⟨m2, c2, zs⟩, h2, h3⟩ := h
      simp only [Prod.mk.injEq] at h3
      obtain ⟨rfl, rfl, rfl⟩ := h3
      obtain ⟨a1, a2, a3, a4, a5⟩ := copyExpr_spec hm hi (hx x (by simp)) h1
      have hx' : ∀ z ∈ xs, z < m.next := fun z hz => hx z (by simp [hz])
      obtain ⟨b1, b2, b3, b4⟩ := copyExprs_spec a1.ok a1.ids (fun z hz => Nat.lt_of_lt_of_le (hx' z hz) a1.next) h2
      refine ⟨a1.trans b1, a2.trans b2, ?_, .cons (a5.trans (b1.same a1.ok a4)) ?_⟩
      · intro z hz
        rcases List.mem_cons.1 hz with rfl | hz
        · exact ⟨a3, Nat.lt_of_lt_of_le a4 b1.next⟩
        · have := b3 z hz
          exact ⟨Nat.le_trans a1.next this.1, this.2⟩
      · clear h2 h1
        have : ∀ {xs zs : List Nat}, (∀ z ∈ xs, z < m.next) → List.Forall₂ (SameExpr (seen m1.heap c1) (seen m2.heap c2)) xs zs →
            List.Forall₂ (SameExpr (seen m.heap c) (seen m2.heap c2)) xs zs := by
          intro xs zs hx h
          induction h with
          | nil => exact .nil
          | cons hd _ ih => exact .cons ((a1.same hm (hx _ (by simp))).trans hd) (ih fun z hz => hx z (by simp [hz]))
        exact this hx' b4

/-- Fields of the context that copying a section leaves alone. -/
structure CtxRest (c c' : CCtx) : Prop where
  vars : c'.variables' = c.variables'
  bound : c'.boundVars = c.boundVars
  mapping : c'.signalMapping = c.signalMapping
  trace : c'.trace = c.trace
  assembly : c'.assembly = c.assembly
  binary : c'.binary = c.binary
  equiv : c'.equiv = c.equiv
  stats : c'.stats = c.stats
  flags : c'.isFt = c.isFt ∧ c'.hasFt = c.hasFt ∧ c'.hasPt = c.hasPt ∧ c'.status = c.status
  options : c'.traceLength = c.traceLength ∧ c'.missionTime = c.missionTime ∧ c'.bz = c.bz
  files : c'.scriptFile = c.scriptFile ∧ c'.specFile = c.specFile ∧ c'.traceFile = c.traceFile ∧ c'.mapFile = c.mapFile
  paths : c'.egglogPath = c.egglogPath ∧ c'.smtPath = c.smtPath

theorem CtxRest.refl (c : CCtx) : CtxRest c c := by constructor <;> simp

theorem CtxRest.trans {c c1 c2 : CCtx} (h1 : CtxRest c c1) (h2 : CtxRest c1 c2) : CtxRest c c2 := by
  obtain ⟨a1, a2, a3, a4, a5, a6, a7, a8, a9, a10, a11, a12⟩ := h1
  obtain ⟨b1, b2, b3, b4, b5, b6, b7, b8, b9, b10, b11, b12⟩ := h2
  constructor <;> simp_all

theorem CtxSame.rest {c c' : CCtx} (h : CtxSame c c') : CtxRest c c' ∧ c'.structs = c.structs ∧ c'.signals = c.signals := by
  unfold CtxSame at h
  rw [h]
  exact ⟨by constructor <;> simp, rfl, rfl⟩

theorem addSpec_rest (m : Mem) : ∀ (ys : List Nat) (c : CCtx), CtxRest c (ys.foldl (fun c y => c.addSpec m y) c) ∧
    (ys.foldl (fun c y => c.addSpec m y) c).structs = c.structs ∧ (ys.foldl (fun c y => c.addSpec m y) c).signals = c.signals ∧
    (ys.foldl (fun c y => c.addSpec m y) c).atomicId = c.atomicId
  | [], c => ⟨.refl c, rfl, rfl, rfl⟩
  | y :: ys, c => by
      obtain ⟨h1, h2, h3, h4⟩ := addSpec_rest m ys (c.addSpec m y)
      have : CtxRest c (c.addSpec m y) ∧ (c.addSpec m y).structs = c.structs ∧ (c.addSpec m y).signals = c.signals ∧
          (c.addSpec m y).atomicId = c.atomicId := by
        unfold CCtx.addSpec
        split <;> exact ⟨by constructor <;> simp, rfl, rfl, rfl⟩
      exact ⟨this.1.trans h1, h2.trans this.2.1, h3.trans this.2.2.1, h4.trans this.2.2.2⟩

theorem lookup_readd {A : Type} : ∀ (ds d : Tbl A), (∀ e ∈ ds, d.lookup e.1 = some e.2) → ∀ s,
    (ds.foldl (fun d e => d.set e.1 e.2) d).lookup s = d.lookup s
  | [], d, _, s => rfl
  | e :: ds, d, h, s => by
      have he := h e (by simp)
      have h1 : ∀ s, (Tbl.set d e.1 e.2).lookup s = d.lookup s := by
        intro s
        rw [Tbl.lookup_set]
        split_ifs with h2
        · rw [h2, he]
        · rfl
      simp only [List.foldl_cons]
      rw [lookup_readd ds _ (fun e' he' => by rw [h1]; exact h e' (by simp [he'])) s, h1]

theorem Grown.ctx {m m' : Mem} {c c' c'' : CCtx} (h : Grown m c m' c') (ha : c''.atomicId = c'.atomicId) (hb : c''.bz = c'.bz) :
    Grown m c m' c'' := ⟨h.ok, h.next, h.lab, h.kids, h.new, by rw [ha]; exact h.ids, by rw [ha]; exact h.old, by rw [hb]; exact h.bz⟩

theorem seen_congr {h : Heap CLab} {c c' : CCtx} (ha : c'.atomicId = c.atomicId) (hb : c'.bz = c.bz) : seen h c' = seen h c := by
  have : ∀ x l, c'.labelled x l = c.labelled x l := by
    intro x l
    unfold CCtx.labelled
    rw [ha, hb]
  simp only [seen, this]

theorem forall2_zip {R : Nat → Nat → Prop} : ∀ (ds : List (String × Nat)) (ys : List Nat), List.Forall₂ R (ds.map (·.2)) ys →
    List.Forall₂ (fun a b => b.1 = a.1 ∧ R a.2 b.2) ds ((ds.map (·.1)).zip ys)
  | [], _, h => by cases h; exact .nil
  | d :: ds, _, h => by
      cases h with
      | cons h1 h2 => exact .cons ⟨rfl, h1⟩ (forall2_zip ds _ h2)

theorem copySection_spec {fuel : Nat} {m m' : Mem} {c c' : CCtx} {s s' : CSec} (hm : m.Ok) (hi : ∀ e ∈ c.atomicId, e.1 < m.next)
    (hx : ∀ x ∈ s.exprs, x < m.next) (h : copySection fuel m c s = some (m', c', s')) :
    Grown m c m' c' ∧ CtxRest c c' ∧ (∀ y ∈ s'.exprs, m.next ≤ y ∧ y < m'.next) ∧
    SameSec (seen m.heap c) (seen m'.heap c') s s' ∧
    (∀ b, List.Forall₂ (SameExpr (seen m.heap c) (seen m'.heap c')) (s.specsOf b) (s'.specsOf b)) ∧
    (c.KnowsSec s → (∀ s, c'.structs.lookup s = c.structs.lookup s) ∧ ∀ s, c'.signals.lookup s = c.signals.lookup s) := by
  cases s with
  | structs ds =>
      simp only [copySection, Option.some.injEq, Prod.mk.injEq] at h
      obtain ⟨rfl, rfl, rfl⟩ := h
      exact ⟨(Grown.refl hm hi).ctx rfl rfl, by constructor <;> simp, by simp [CSec.exprs], rfl, fun _ => .nil,
        fun hk => ⟨lookup_readd ds _ hk, fun _ => rfl⟩⟩
  | enums ds =>
      simp only [copySection, Option.some.injEq, Prod.mk.injEq] at h
      obtain ⟨rfl, rfl, rfl⟩ := h
      exact ⟨(Grown.refl hm hi).ctx rfl rfl, by constructor <;> simp, by simp [CSec.exprs], rfl, fun _ => .nil,
        fun _ => ⟨fun _ => rfl, fun _ => rfl⟩⟩
  | inputs ds =>
      simp only [copySection, Option.some.injEq, Prod.mk.injEq] at h
      obtain ⟨rfl, rfl, rfl⟩ := h
      exact ⟨(Grown.refl hm hi).ctx rfl rfl, by constructor <;> simp, by simp [CSec.exprs], rfl, fun _ => .nil,
        fun hk => ⟨fun _ => rfl, lookup_readd ds _ hk⟩⟩
  | defines ds =>
      simp only [copySection, Option.map_eq_some_iff] at h
      obtain ⟨⟨m1, c1, ys⟩, h1, h2⟩ := h
      simp only [Prod.mk.injEq] at h2
      obtain ⟨rfl, rfl, rfl⟩ := h2
      obtain ⟨a1, a2, a3, a4⟩ := copyExprs_spec hm hi hx h1
      obtain ⟨b1, b2, b3⟩ := a2.rest
      have hl : ((ds.map (·.1)).zip ys).map (·.2) = ys := by
        have := a4.length_eq
        rw [List.map_snd_zip]
        simp only [CSec.exprs, List.length_map] at this ⊢
        omega
      refine ⟨a1.ctx rfl rfl, b1.trans (by constructor <;> simp), ?_, ?_, fun _ => .nil, fun _ => ⟨fun s => ?_, fun s => ?_⟩⟩
      · simp only [CSec.exprs]
        rw [hl]
        exact a3
      · change SameSec (seen m.heap c) (seen m1.heap c1) _ _
        exact forall2_zip ds ys a4
      · show c1.structs.lookup s = _
        rw [b2]
      · show c1.signals.lookup s = _
        rw [b3]
  | specs ft xs =>
      simp only [copySection, Option.map_eq_some_iff] at h
      obtain ⟨⟨m1, c1, ys⟩, h1, h2⟩ := h
      simp only [Prod.mk.injEq] at h2
      obtain ⟨rfl, rfl, rfl⟩ := h2
      obtain ⟨a1, a2, a3, a4⟩ := copyExprs_spec hm hi hx h1
      obtain ⟨b1, b2, b3⟩ := a2.rest
      obtain ⟨d1, d2, d3, d4⟩ := addSpec_rest m1 ys c1
      have hs := seen_congr (h := m1.heap) d4 d1.options.2.2
      refine ⟨a1.ctx d4 d1.options.2.2, b1.trans d1, a3, ?_, ?_, fun _ => ⟨fun s => by rw [d2, b2], fun s => by rw [d3, b3]⟩⟩
      · rw [hs]; exact ⟨rfl, a4⟩
      · intro b
        rw [hs]
        simp only [CSec.specsOf]
        split_ifs
        · exact a4
        · exact .nil

theorem SameSec.left {a b d : Heap (CLab × Option Nat)} {n : Nat} (h1 : ∀ x, x < n → SameExpr a b x x)
    {s s' : CSec} (hx : ∀ x ∈ s.exprs, x < n) (h : SameSec b d s s') : SameSec a d s s' := by
  cases s with
  | defines ds =>
      cases s' with
      | defines ds' =>
          simp only [SameSec] at h ⊢
          simp only [CSec.exprs, List.mem_map] at hx
          have hx' : ∀ e ∈ ds, e.2 < n := fun e he => hx _ ⟨e, he, rfl⟩
          clear hx
          induction h with
          | nil => exact .nil
          | cons hd _ ih => exact .cons ⟨hd.1, (h1 _ (hx' _ (by simp))).trans hd.2⟩ (ih fun e he => hx' e (by simp [he]))
      | _ => exact h
  | specs ft xs =>
      cases s' with
      | specs ft' ys =>
          simp only [SameSec] at h ⊢
          refine ⟨h.1, ?_⟩
          obtain ⟨_, h⟩ := h
          simp only [CSec.exprs] at hx
          induction h with
          | nil => exact .nil
          | cons hd _ ih => exact .cons ((h1 _ (hx _ (by simp))).trans hd) (ih fun e he => hx e (by simp [he]))
      | _ => exact h
  | _ => cases s' <;> exact h

theorem SameSec.right {a b d : Heap (CLab × Option Nat)} {n : Nat} (h1 : ∀ x, x < n → SameExpr b d x x)
    {s s' : CSec} (hx : ∀ x ∈ s'.exprs, x < n) (h : SameSec a b s s') : SameSec a d s s' := by
  cases s with
  | defines ds =>
      cases s' with
      | defines ds' =>
          simp only [SameSec] at h ⊢
          simp only [CSec.exprs, List.mem_map] at hx
          have hx' : ∀ e ∈ ds', e.2 < n := fun e he => hx _ ⟨e, he, rfl⟩
          clear hx
          induction h with
          | nil => exact .nil
          | cons hd _ ih => exact .cons ⟨hd.1, hd.2.trans (h1 _ (hx' _ (by simp)))⟩ (ih fun e he => hx' e (by simp [he]))
      | _ => exact h
  | specs ft xs =>
      cases s' with
      | specs ft' ys =>
          simp only [SameSec] at h ⊢
          refine ⟨h.1, ?_⟩
          obtain ⟨_, h⟩ := h
          simp only [CSec.exprs] at hx
          induction h with
          | nil => exact .nil
          | cons hd _ ih => exact .cons (hd.trans (h1 _ (hx _ (by simp)))) (ih fun e he => hx e (by simp [he]))
      | _ => exact h
  | _ => cases s' <;> exact h

theorem sameList_left {a b d : Heap (CLab × Option Nat)} {n : Nat} (h1 : ∀ x, x < n → SameExpr a b x x) {xs ys : List Nat}
    (hx : ∀ x ∈ xs, x < n) (h : List.Forall₂ (SameExpr b d) xs ys) : List.Forall₂ (SameExpr a d) xs ys := by
  induction h with
  | nil => exact .nil
  | cons hd _ ih => exact .cons ((h1 _ (hx _ (by simp))).trans hd) (ih fun e he => hx e (by simp [he]))

theorem sameList_right {a b d : Heap (CLab × Option Nat)} {n : Nat} (h2 : ∀ x, x < n → SameExpr b d x x) {xs ys : List Nat}
    (hy : ∀ x ∈ ys, x < n) (h : List.Forall₂ (SameExpr a b) xs ys) : List.Forall₂ (SameExpr a d) xs ys := by
  induction h with
  | nil => exact .nil
  | cons hd _ ih => exact .cons (hd.trans (h2 _ (hy _ (by simp)))) (ih fun e he => hy e (by simp [he]))

theorem specsOf_exprs {b : Bool} {s : CSec} {x : Nat} (h : x ∈ s.specsOf b) : x ∈ s.exprs := by
  cases s <;> simp only [CSec.specsOf, List.not_mem_nil] at h
  split_ifs at h
  · exact h
  · simp at h

theorem copySections_spec {fuel : Nat} : ∀ {ss ss' : List CSec} {m m' : Mem} {c c' : CCtx}, m.Ok → (∀ e ∈ c.atomicId, e.1 < m.next) →
    (∀ s ∈ ss, ∀ x ∈ s.exprs, x < m.next) → copySections fuel m c ss = some (m', c', ss') →
    Grown m c m' c' ∧ CtxRest c c' ∧ (∀ s ∈ ss', ∀ y ∈ s.exprs, m.next ≤ y ∧ y < m'.next) ∧
    List.Forall₂ (SameSec (seen m.heap c) (seen m'.heap c')) ss ss' ∧
    (∀ b, List.Forall₂ (SameExpr (seen m.heap c) (seen m'.heap c')) (ss.flatMap (CSec.specsOf b)) (ss'.flatMap (CSec.specsOf b))) ∧
    ((∀ s ∈ ss, c.KnowsSec s) → (∀ s, c'.structs.lookup s = c.structs.lookup s) ∧ ∀ s, c'.signals.lookup s = c.signals.lookup s)
  | [], ss', m, m', c, c', hm, hi, hx, h => by
      simp only [copySections, Option.some.injEq, Prod.mk.injEq] at h
      obtain ⟨rfl, rfl, rfl⟩ := h
      exact ⟨Grown.refl hm hi, .refl c, by simp, .nil, fun _ => .nil, fun _ => ⟨fun _ => rfl, fun _ => rfl⟩⟩
  | s :: ss, ss', m, m', c, c', hm, hi, hx, h => by
      simp only [copySections, Option.bind_eq_some_iff, Option.map_eq_some_iff] at h
      obtain ⟨⟨m1, c1, s1⟩, h1, ⟨m2, c2, ss2⟩, h2, h3⟩ := h
      simp only [Prod.mk.injEq] at h3
      obtain ⟨rfl, rfl, rfl⟩ := h3
      obtain ⟨a1, a2, a3, a4, a5, a6⟩ := copySection_spec hm hi (hx s (by simp)) h1
      have hx' : ∀ z ∈ ss, ∀ x ∈ z.exprs, x < m.next := fun z hz => hx z (by simp [hz])
      obtain ⟨b1, b2, b3, b4, b5, b6⟩ := copySections_spec a1.ok a1.ids
        (fun z hz x hx => Nat.lt_of_lt_of_le (hx' z hz x hx) a1.next) h2
      have e1 : ∀ x, x < m.next → SameExpr (seen m.heap c) (seen m1.heap c1) x x := fun x hx => a1.same hm hx
      have e2 : ∀ x, x < m1.next → SameExpr (seen m1.heap c1) (seen m2.heap c2) x x := fun x hx => b1.same a1.ok hx
      refine ⟨a1.trans b1, a2.trans b2, ?_, .cons ?_ ?_, ?_, ?_⟩
      · intro z hz y hy
        rcases List.mem_cons.1 hz with rfl | hz
        · have := a3 y hy
          exact ⟨this.1, Nat.lt_of_lt_of_le this.2 b1.next⟩
        · have := b3 z hz y hy
          exact ⟨Nat.le_trans a1.next this.1, this.2⟩
      · exact SameSec.right e2 (fun y hy => (a3 y hy).2) a4
      · clear h2 b5 b6 b3
        have : ∀ {xs ys : List CSec}, (∀ z ∈ xs, ∀ x ∈ z.exprs, x < m.next) →
            List.Forall₂ (SameSec (seen m1.heap c1) (seen m2.heap c2)) xs ys →
            List.Forall₂ (SameSec (seen m.heap c) (seen m2.heap c2)) xs ys := by
          intro xs ys hx h
          induction h with
          | nil => exact .nil
          | @cons s s' _ _ hd _ ih =>
            refine .cons ?_ (ih fun z hz => hx z (by simp [hz]))
            exact hd.left e1 (hx _ (by simp))
        exact this hx' b4
      · intro b
        simp only [List.flatMap_cons]
        refine List.rel_append (sameList_right e2 (fun y hy => (a3 y (specsOf_exprs hy)).2) (a5 b)) (sameList_left e1 ?_ (b5 b))
        intro x hx
        obtain ⟨z, hz, hx⟩ := List.mem_flatMap.1 hx
        exact hx' z hz x (specsOf_exprs hx)
      · intro hk
        obtain ⟨d1, d2⟩ := a6 (hk s (by simp))
        obtain ⟨f1, f2⟩ := b6 (fun z hz => by
          have := hk z (by simp [hz])
          cases z <;> simp only [CCtx.KnowsSec, d1, d2] at this ⊢ <;> exact this)
        exact ⟨fun s => (f1 s).trans (d1 s), fun s => (f2 s).trans (d2 s)⟩

theorem Grown.make {m m' : Mem} {ss : List CSec} {q : CProg} {c : CCtx} {n : Nat} (hm : m.Ok) (hi : ∀ e ∈ c.atomicId, e.1 < m.next)
    (hn : n ≤ m.next) (hs : ∀ s ∈ ss, ∀ y ∈ s.exprs, n ≤ y ∧ y < m.next) (h : makeProgram m ss = (m', q)) :
    m'.Ok ∧ m'.next = m.next + 2 ∧ (∀ x, x < m.next → m'.heap.lab x = m.heap.lab x ∧ m'.heap.kids x = m.heap.kids x) ∧
    (∀ e ∈ c.atomicId, e.1 < m'.next) ∧ (∀ p d, m.next ≤ p → d ∈ m'.heap.kids p → n ≤ d) ∧
    q.sections = ss ∧ q.ft = m.next ∧ q.pt = m.next + 1 ∧ q.Plain m'.heap := by
  unfold makeProgram at h
  simp only [Prod.mk.injEq] at h
  obtain ⟨rfl, rfl⟩ := h
  have hb : ∀ b, ∀ y ∈ ss.flatMap (CSec.specsOf b), n ≤ y ∧ y < m.next := by
    intro b y hy
    obtain ⟨z, hz, hy⟩ := List.mem_flatMap.1 hy
    exact hs z hz y (specsOf_exprs hy)
  have o1 := hm.alloc (l := ⟨.specSet, ""⟩) (fun y hy => (hb true y hy).2)
  have hlt : ∀ y ∈ ss.flatMap (CSec.specsOf false), y < (m.alloc ⟨.specSet, ""⟩ (ss.flatMap (CSec.specsOf true))).next :=
    fun y hy => Nat.lt_succ_of_lt (hb false y hy).2
  have o2 := o1.alloc (l := ⟨.specSet, ""⟩) hlt
  refine ⟨o2, rfl, fun x hx => ?_, fun e he => ?_, fun p d hp hd => ?_, rfl, rfl, rfl, ?_⟩
  · have h1 : x ≠ m.next := by omega
    have h2 : x ≠ m.next + 1 := by omega
    simp [Mem.alloc, h1, h2]
  · have := hi e he
    simp only [Mem.alloc]; omega
  · have hd : d ∈ (if p = m.next + 1 then ss.flatMap (CSec.specsOf false) else if p = m.next then ss.flatMap (CSec.specsOf true)
      else m.heap.kids p) := hd
    by_cases h1 : p = m.next + 1
    · rw [if_pos h1] at hd
      exact (hb false d hd).1
    rw [if_neg h1] at hd
    by_cases h2 : p = m.next
    · rw [if_pos h2] at hd
      exact (hb true d hd).1
    · rw [if_neg h2] at hd
      exact absurd (hm.below p d hd).1 (by omega)
  · constructor <;> simp [Mem.alloc]

/-- A copied program: new nodes only, and the same program if the specification sets were those of the sections. -/
theorem copyProgram_spec {fuel : Nat} {m m' : Mem} {c c' : CCtx} {p q : CProg} (hm : m.Ok) (hi : ∀ e ∈ c.atomicId, e.1 < m.next)
    (hx : ∀ x ∈ p.roots, x < m.next) (h : copyProgram fuel m c p = some (m', c', q)) :
    Grown m c m' c' ∧ CtxRest c c' ∧ (∀ y ∈ q.roots, m.next ≤ y ∧ y < m'.next) ∧ q.Plain m'.heap ∧
    (p.Plain m.heap → SameProg (seen m.heap c) (seen m'.heap c') p q) ∧
    List.Forall₂ (SameSec (seen m.heap c) (seen m'.heap c')) p.sections q.sections ∧
    q.scqSize = p.scqSize ∧ q.dummy = p.dummy ∧ q.typed = p.typed ∧
    (c.Knows p → (∀ s, c'.structs.lookup s = c.structs.lookup s) ∧ ∀ s, c'.signals.lookup s = c.signals.lookup s) := by
  unfold copyProgram at h
  simp only [Option.map_eq_some_iff] at h
  obtain ⟨⟨m1, c1, ss⟩, h1, h2⟩ := h
  simp only [Prod.mk.injEq] at h2
  rcases hmk : makeProgram m1 ss with ⟨m2, q1⟩
  rw [hmk] at h2
  obtain ⟨rfl, rfl, rfl⟩ := h2
  simp only at hmk ⊢
  obtain ⟨a1, a2, a3, a4, a5, a6⟩ := copySections_spec hm hi (fun s hs x hx' => hx x (by
    simp only [CProg.roots, List.mem_cons, List.mem_flatMap]
    exact .inr (.inr ⟨s, hs, hx'⟩))) h1
  obtain ⟨b1, b2, b3, b4, b5, b6, b7, b8, b9⟩ := Grown.make (n := m.next) a1.ok a1.ids a1.next a3 hmk
  have hg : Grown m1 c1 m2 c1 → Grown m c m2 c1 := fun h => a1.trans h
  have hG : Grown m c m2 c1 := by
    refine ⟨b1, by rw [b2]; exact Nat.le_add_right_of_le a1.next, fun x hx => ?_, fun x hx => ?_, fun p d hp hd => ?_, b4, a1.old, a1.bz⟩
    · rw [(b3 x (Nat.lt_of_lt_of_le hx a1.next)).1, a1.lab x hx]
    · rw [(b3 x (Nat.lt_of_lt_of_le hx a1.next)).2, a1.kids x hx]
    · by_cases hp' : p < m1.next
      · rw [(b3 p hp').2] at hd
        exact a1.new p d hp hd
      · exact b5 p d (by omega) hd
  have e2 : ∀ x, x < m1.next → SameExpr (seen m1.heap c1) (seen m2.heap c1) x x := by
    intro x hx t ht
    refine Heap.denotes_frame (h := seen m1.heap c1) (h' := seen m2.heap c1) (A := (· < m1.next)) ?_ (fun x hx => (b3 x hx).2)
      (fun x d _ hd => (a1.ok.below x d hd).2) t x hx ht
    intro y hy
    simp only [seen, (b3 y hy).1]
  have hsec : List.Forall₂ (SameSec (seen m.heap c) (seen m2.heap c1)) p.sections ss := by
    clear hmk h1 a5 a6 b6 b9
    generalize p.sections = ps at a4
    induction a4 with
    | nil => exact .nil
    | cons hd _ ih =>
      exact .cons (SameSec.right e2 (fun y hy => (a3 _ (by simp) y hy).2) hd) (ih fun s hs => a3 s (by simp [hs]))
  have hsp : ∀ b, List.Forall₂ (SameExpr (seen m.heap c) (seen m2.heap c1)) (p.sections.flatMap (CSec.specsOf b)) (ss.flatMap (CSec.specsOf b)) := by
    intro b
    refine sameList_right e2 (fun y hy => ?_) (a5 b)
    obtain ⟨z, hz, hy⟩ := List.mem_flatMap.1 hy
    exact (a3 z hz y (specsOf_exprs hy)).2
  have hset : ∀ b (x y : Nat), m.heap.lab x = ⟨.specSet, ""⟩ → m.heap.kids x = p.sections.flatMap (CSec.specsOf b) →
      m2.heap.lab y = ⟨.specSet, ""⟩ → m2.heap.kids y = ss.flatMap (CSec.specsOf b) →
      SameExpr (seen m.heap c) (seen m2.heap c1) x y := by
    intro b x y hl hk hl' hk' t ht
    cases t with
    | node l ts =>
      rw [denotes_node] at ht ⊢
      obtain ⟨h1, h2⟩ := ht
      refine ⟨by rw [h1]; simp [seen, hl, hl', CCtx.labelled], ?_⟩
      have e1 : (seen m.heap c).kids x = p.sections.flatMap (CSec.specsOf b) := hk
      have e2 : (seen m2.heap c1).kids y = ss.flatMap (CSec.specsOf b) := hk'
      rw [e1] at h2
      rw [e2]
      have := hsp b
      generalize p.sections.flatMap (CSec.specsOf b) = xs at this h2
      generalize ss.flatMap (CSec.specsOf b) = ys at this
      clear e1 e2 hk hk' h1
      induction this generalizing ts with
      | nil => cases h2; exact .nil
      | cons hd _ ih =>
        cases h2 with
        | cons h2 h3 => exact .cons (hd _ h2) (ih _ h3)
  refine ⟨hG, a2, ?_, ⟨b9.ftLab, b9.ptLab, b9.ft, b9.pt⟩, fun hp => ⟨by rw [b6]; exact hsec, ?_, ?_, rfl, rfl, rfl⟩, by rw [b6]; exact hsec, ?_, ?_, ?_, ?_⟩
  · intro y hy
    simp only [CProg.roots, List.mem_cons, List.mem_flatMap] at hy
    have := a1.next
    rcases hy with rfl | rfl | ⟨s, hs, hy⟩
    · simp only [b7, b2]; omega
    · simp only [b8, b2]; omega
    · rw [b6] at hs
      have := a3 s hs y hy
      omega
  · exact hset true _ _ hp.ftLab hp.ft b9.ftLab (by rw [b9.ft, b6])
  · exact hset false _ _ hp.ptLab hp.pt b9.ptLab (by rw [b9.pt, b6])
  · trivial
  · trivial
  · trivial
  · exact fun hk => a6 hk

/-- Everything a program refers to exists. -/
theorem reach_below {m : Mem} (hm : m.Ok) {rs : List Nat} (hr : ∀ r ∈ rs, r < m.next) {x : Nat} (hx : m.heap.Reachable rs x) : x < m.next :=
  Heap.reach_closed (A := (· < m.next)) hr (fun p c _ hc => (hm.below p c hc).2) hx

/-- Growing keeps what is reachable from old nodes, and new nodes reach new nodes only. -/
theorem Grown.reach_old {m m' : Mem} {c c' : CCtx} (h : Grown m c m' c') (hm : m.Ok) {rs : List Nat} (hr : ∀ r ∈ rs, r < m.next) {x : Nat} :
    m'.heap.Reachable rs x ↔ m.heap.Reachable rs x :=
  Heap.reach_frame fun _ hx => h.kids _ (reach_below hm hr hx)

theorem Grown.reach_new {m m' : Mem} {c c' : CCtx} (h : Grown m c m' c') {rs : List Nat} (hr : ∀ r ∈ rs, m.next ≤ r) {x : Nat}
    (hx : m'.heap.Reachable rs x) : m.next ≤ x :=
  Heap.reach_closed (A := (m.next ≤ ·)) hr (fun p d hp hd => h.new p d hp hd) hx

/-- The nodes of the saved states are as they were. -/
def StackSame (w w' : World) : Prop := w'.stack = w.stack ∧ ∀ s ∈ w.stack, ∀ x, w.mem.heap.Reachable s.1.roots x →
  w'.mem.heap.lab x = w.mem.heap.lab x ∧ w'.mem.heap.kids x = w.mem.heap.kids x

theorem push_inv {fuel : Nat} {w w1 : World} (h : w.push fuel = some w1) :
    ∃ m c p, copyProgram fuel w.mem w.ctx w.prog = some (m, c, p) ∧ w1 = { w with mem := m, ctx := c, stack := (p, c.copy) :: w.stack } := by
  simp only [World.push, Option.map_eq_some_iff] at h
  obtain ⟨⟨m, c, p⟩, h1, rfl⟩ := h
  exact ⟨m, c, p, h1, rfl⟩

theorem pop_inv {w w1 : World} (h : w.pop = some w1) : ∃ s st, w.stack = s :: st ∧ w1 = { w with prog := s.1, ctx := s.2, stack := st } := by
  unfold World.pop at h
  cases hs : w.stack with
  | nil => simp [hs] at h
  | cons s st => simp only [hs, Option.some.injEq] at h; exact ⟨s, st, rfl, h.symm⟩

theorem push_apart {fuel : Nat} {w w1 : World} (hm : w.mem.Ok) (ha : w.Apart) (h : w.push fuel = some w1) : w1.mem.Ok ∧ w1.Apart := by
  obtain ⟨m, c, p, h1, rfl⟩ := push_inv h
  obtain ⟨a1, a2, a3, _⟩ := copyProgram_spec hm ha.ids ha.roots h1
  refine ⟨a1.ok, ⟨a1.ids, ?_, ?_, ?_, ?_, ?_⟩⟩
  · intro s hs e he
    rcases List.mem_cons.1 hs with rfl | hs
    · exact a1.ids e he
    · exact Nat.lt_of_lt_of_le (ha.savedIds s hs e he) a1.next
  · exact fun r hr => Nat.lt_of_lt_of_le (ha.roots r hr) a1.next
  · intro s hs r hr
    rcases List.mem_cons.1 hs with rfl | hs
    · exact (a3 r hr).2
    · exact Nat.lt_of_lt_of_le (ha.saved s hs r hr) a1.next
  · intro s hs x hx hx'
    have hx1 := (a1.reach_old hm ha.roots).1 hx
    rcases List.mem_cons.1 hs with rfl | hs
    · exact absurd (a1.reach_new (fun r hr => (a3 r hr).1) hx') (Nat.not_le.2 (reach_below hm ha.roots hx1))
    · exact ha.current s hs x hx1 ((a1.reach_old hm (ha.saved s hs)).1 hx')
  · refine List.pairwise_cons.2 ⟨fun s hs x hx hx' => ?_, ?_⟩
    · have := a1.reach_new (fun r hr => (a3 r hr).1) hx
      exact absurd this (Nat.not_le.2 (reach_below hm (ha.saved s hs) ((a1.reach_old hm (ha.saved s hs)).1 hx')))
    · refine ha.pairs.imp_of_mem fun {s s'} hs hs' hp x hx hx' => ?_
      exact hp x ((a1.reach_old hm (ha.saved s hs)).1 hx) ((a1.reach_old hm (ha.saved s' hs')).1 hx')

theorem pop_apart {w w1 : World} (hm : w.mem.Ok) (ha : w.Apart) (h : w.pop = some w1) : w1.mem.Ok ∧ w1.Apart := by
  obtain ⟨s, st, hs, rfl⟩ := pop_inv h
  have hmem : ∀ z, z ∈ st → z ∈ w.stack := fun z hz => by rw [hs]; simp [hz]
  have hp := ha.pairs
  rw [hs, List.pairwise_cons] at hp
  exact ⟨hm, ⟨ha.savedIds s (by simp [hs]), fun z hz => ha.savedIds z (hmem z hz), ha.saved s (by simp [hs]),
    fun z hz => ha.saved z (hmem z hz), fun z hz => hp.1 z hz, hp.2⟩⟩

theorem works_apart {w w1 : World} (hm : w.mem.Ok) (ha : w.Apart) (h : w.Works w1) : w1.mem.Ok ∧ w1.Apart ∧ StackSame w w1 := by
  have hf : ∀ s ∈ w.stack, ∀ x, w.mem.heap.Reachable s.1.roots x →
      w1.mem.heap.lab x = w.mem.heap.lab x ∧ w1.mem.heap.kids x = w.mem.heap.kids x := fun s hs x hx =>
    h.frame x (reach_below hm (ha.saved s hs) hx) fun hp => ha.current s hs x hp hx
  have hr : ∀ s ∈ w.stack, ∀ x, w1.mem.heap.Reachable s.1.roots x ↔ w.mem.heap.Reachable s.1.roots x := fun s hs x =>
    Heap.reach_frame fun x hx => (hf s hs x hx).2
  refine ⟨h.ok, ⟨h.ids, ?_, h.roots, ?_, ?_, ?_⟩, h.stack, hf⟩
  · intro s hs e he
    rw [h.stack] at hs
    exact Nat.lt_of_lt_of_le (ha.savedIds s hs e he) h.next
  · intro s hs r hr
    rw [h.stack] at hs
    exact Nat.lt_of_lt_of_le (ha.saved s hs r hr) h.next
  · intro s hs x hx hx'
    rw [h.stack] at hs
    have hx' := (hr s hs x).1 hx'
    rcases h.reach x hx with h1 | h1
    · exact ha.current s hs x h1 hx'
    · exact absurd (reach_below hm (ha.saved s hs) hx') (Nat.not_lt.2 h1)
  · rw [h.stack]
    exact ha.pairs.imp_of_mem fun {s s'} hs hs' hp x hx hx' => hp x ((hr s hs x).1 hx) ((hr s' hs' x).1 hx')

theorem StackSame.trans {w w1 w2 : World} (h1 : StackSame w w1) (h2 : StackSame w1 w2) : StackSame w w2 := by
  refine ⟨h2.1.trans h1.1, fun s hs x hx => ?_⟩
  have a := h1.2 s hs x hx
  have b := h2.2 s (by rw [h1.1]; exact hs) x ((Heap.reach_frame fun x hx => (h1.2 s hs x hx).2).2 hx)
  exact ⟨b.1.trans a.1, b.2.trans a.2⟩

/-- Between a push and its pop the saved states are not disturbed. -/
theorem balanced_apart {fuel : Nat} {w w1 : World} (h : Balanced fuel w w1) : w.mem.Ok → w.Apart → w1.mem.Ok ∧ w1.Apart ∧ StackSame w w1 := by
  induction h with
  | nil => exact fun hm ha => ⟨hm, ha, rfl, fun _ _ _ _ => ⟨rfl, rfl⟩⟩
  | work h1 _ ih =>
    intro hm ha
    obtain ⟨a1, a2, a3⟩ := works_apart hm ha h1
    obtain ⟨b1, b2, b3⟩ := ih a1 a2
    exact ⟨b1, b2, a3.trans b3⟩
  | @nest w w1 w2 w3 w4 h1 _ h3 _ ih1 ih2 =>
    intro hm ha
    obtain ⟨a1, a2⟩ := push_apart hm ha h1
    obtain ⟨b1, b2, b3⟩ := ih1 a1 a2
    obtain ⟨c1, c2⟩ := pop_apart b1 b2 h3
    obtain ⟨d1, d2, d3⟩ := ih2 c1 c2
    refine ⟨d1, d2, StackSame.trans ?_ d3⟩
    obtain ⟨m, c, p, h5, rfl⟩ := push_inv h1
    obtain ⟨s, st, hs, rfl⟩ := pop_inv h3
    have he := b3.1
    rw [hs] at he
    simp only [List.cons.injEq] at he
    obtain ⟨rfl, rfl⟩ := he
    obtain ⟨e1, _⟩ := copyProgram_spec hm ha.ids ha.roots h5
    refine ⟨rfl, fun s hs x hx => ?_⟩
    have hlt := reach_below hm (ha.saved s hs) hx
    have h6 := b3.2 s (by simp [hs]) x ((e1.reach_old hm (ha.saved s hs)).2 hx)
    exact ⟨h6.1.trans (e1.lab x hlt), h6.2.trans (e1.kids x hlt)⟩

theorem SameSec.frame {a b d : Heap (CLab × Option Nat)} {A : Nat → Prop} (h1 : ∀ x, A x → SameExpr b d x x)
    {s s' : CSec} (hx : ∀ x ∈ s'.exprs, A x) (h : SameSec a b s s') : SameSec a d s s' := by
  cases s with
  | defines ds =>
      cases s' with
      | defines ds' =>
          simp only [SameSec] at h ⊢
          simp only [CSec.exprs, List.mem_map] at hx
          have hx' : ∀ e ∈ ds', A e.2 := fun e he => hx _ ⟨e, he, rfl⟩
          clear hx
          induction h with
          | nil => exact .nil
          | cons hd _ ih => exact .cons ⟨hd.1, hd.2.trans (h1 _ (hx' _ (by simp)))⟩ (ih fun e he => hx' e (by simp [he]))
      | _ => exact h
  | specs ft xs =>
      cases s' with
      | specs ft' ys =>
          simp only [SameSec] at h ⊢
          refine ⟨h.1, ?_⟩
          obtain ⟨_, h⟩ := h
          simp only [CSec.exprs] at hx
          induction h with
          | nil => exact .nil
          | cons hd _ ih => exact .cons (hd.trans (h1 _ (hx _ (by simp)))) (ih fun e he => hx e (by simp [he]))
      | _ => exact h
  | _ => cases s' <;> exact h

theorem SameProg.frame {a b d : Heap (CLab × Option Nat)} {p q : CProg} (h1 : ∀ x ∈ q.roots, SameExpr b d x x)
    (h : SameProg a b p q) : SameProg a d p q where
  sections := by
    have : ∀ (xs ys : List CSec), (∀ s ∈ ys, ∀ x ∈ s.exprs, x ∈ q.roots) → List.Forall₂ (SameSec a b) xs ys →
        List.Forall₂ (SameSec a d) xs ys := by
      intro xs ys hy hf
      induction hf with
      | nil => exact .nil
      | cons hd _ ih => exact .cons (SameSec.frame (A := (· ∈ q.roots)) h1 (hy _ (by simp)) hd) (ih fun s hs => hy s (by simp [hs]))
    exact this _ _ (fun s hs x hx => by
      simp only [CProg.roots, List.mem_cons, List.mem_flatMap]
      exact .inr (.inr ⟨s, hs, hx⟩)) h.sections
  ft := h.ft.trans (h1 _ (by simp [CProg.roots]))
  pt := h.pt.trans (h1 _ (by simp [CProg.roots]))
  scqSize := h.scqSize
  dummy := h.dummy
  typed := h.typed

theorem CtxRest.kept {c c' : CCtx} (h : CtxRest c c') (h1 : ∀ s, c'.structs.lookup s = c.structs.lookup s)
    (h2 : ∀ s, c'.signals.lookup s = c.signals.lookup s) : c.Kept c'.copy := by
  obtain ⟨a1, a2, a3, a4, a5, a6, a7, a8, a9, a10, a11, a12⟩ := h
  constructor <;> simp_all [CCtx.copy]

/-! Definitions: the copied context refers to the copied definitions. -/

theorem addSpec_defs (m : Mem) : ∀ (ys : List Nat) (c : CCtx), (ys.foldl (fun c y => c.addSpec m y) c).definitions = c.definitions
  | [], _ => rfl
  | y :: ys, c => by
      simp only [List.foldl_cons]
      rw [addSpec_defs m ys]
      unfold CCtx.addSpec
      split <;> rfl

def CSec.defs : CSec → List (String × Nat)
  | .defines ds => ds
  | _ => []

theorem copySection_defs {fuel : Nat} {m m' : Mem} {c c' : CCtx} {s s' : CSec} (hm : m.Ok) (hi : ∀ e ∈ c.atomicId, e.1 < m.next)
    (hx : ∀ x ∈ s.exprs, x < m.next) (h : copySection fuel m c s = some (m', c', s')) :
    c'.definitions = s'.defs.foldl (fun d e => d.set e.1 e.2) c.definitions ∧ s'.defs.map (·.1) = s.defs.map (·.1) := by
  cases s with
  | defines ds =>
      simp only [copySection, Option.map_eq_some_iff] at h
      obtain ⟨⟨m1, c1, ys⟩, h1, h2⟩ := h
      simp only [Prod.mk.injEq] at h2
      obtain ⟨rfl, rfl, rfl⟩ := h2
      obtain ⟨_, a2, _, a4⟩ := copyExprs_spec hm hi hx h1
      have : c1.definitions = c.definitions := by unfold CtxSame at a2; rw [a2]
      have hl : ds.length ≤ ys.length := by
        have := a4.length_eq
        simp only [CSec.exprs, List.length_map] at this
        omega
      refine ⟨by simp only [CSec.defs, this], ?_⟩
      simp only [CSec.defs]
      rw [List.map_fst_zip (by simpa using hl)]
  | specs ft xs =>
      simp only [copySection, Option.map_eq_some_iff] at h
      obtain ⟨⟨m1, c1, ys⟩, h1, h2⟩ := h
      simp only [Prod.mk.injEq] at h2
      obtain ⟨rfl, rfl, rfl⟩ := h2
      obtain ⟨_, a2, _, a4⟩ := copyExprs_spec hm hi hx h1
      have : c1.definitions = c.definitions := by unfold CtxSame at a2; rw [a2]
      exact ⟨by rw [addSpec_defs, this]; rfl, rfl⟩
  | _ =>
      simp only [copySection, Option.some.injEq, Prod.mk.injEq] at h
      obtain ⟨rfl, rfl, rfl⟩ := h
      exact ⟨rfl, rfl⟩

theorem copySections_defs {fuel : Nat} : ∀ {ss ss' : List CSec} {m m' : Mem} {c c' : CCtx}, m.Ok → (∀ e ∈ c.atomicId, e.1 < m.next) →
    (∀ s ∈ ss, ∀ x ∈ s.exprs, x < m.next) → copySections fuel m c ss = some (m', c', ss') →
    c'.definitions = (ss'.flatMap CSec.defs).foldl (fun d e => d.set e.1 e.2) c.definitions ∧
    (ss'.flatMap CSec.defs).map (·.1) = (ss.flatMap CSec.defs).map (·.1)
  | [], ss', m, m', c, c', hm, hi, hx, h => by
      simp only [copySections, Option.some.injEq, Prod.mk.injEq] at h
      obtain ⟨rfl, rfl, rfl⟩ := h
      exact ⟨rfl, rfl⟩
  | s :: ss, ss', m, m', c, c', hm, hi, hx, h => by
      simp only [copySections, Option.bind_eq_some_iff, Option.map_eq_some_iff] at h
      obtain ⟨⟨m1, c1, s1⟩, h1, ⟨m2, c2, ss2⟩, h2, h3⟩ := h
      simp only [Prod.mk.injEq] at h3
      obtain ⟨rfl, rfl, rfl⟩ := h3
      obtain ⟨a1, _⟩ := copySection_spec hm hi (hx s (by simp)) h1
      obtain ⟨d1, d2⟩ := copySection_defs hm hi (hx s (by simp)) h1
      obtain ⟨e1, e2⟩ := copySections_defs a1.ok a1.ids
        (fun z hz x hx' => Nat.lt_of_lt_of_le (hx z (by simp [hz]) x hx') a1.next) h2
      refine ⟨by rw [e1, d1]; simp [List.foldl_append], by simp [d2, e2]⟩

theorem foldl_set_lookup {A : Type} : ∀ (es d : Tbl A), (es.map (·.1)).Nodup → ∀ e ∈ es,
    (es.foldl (fun d e => d.set e.1 e.2) d).lookup e.1 = some e.2
  | a :: es, d, hn, e, he => by
      simp only [List.map_cons, List.nodup_cons] at hn
      simp only [List.foldl_cons]
      rcases List.mem_cons.1 he with rfl | he
      · have : ∀ (es d : Tbl A) (k : String), k ∉ es.map (·.1) → (es.foldl (fun d e => d.set e.1 e.2) d).lookup k = d.lookup k := by
          intro es
          induction es with
          | nil => intros; rfl
          | cons b es ih =>
            intro d k hk
            simp only [List.map_cons, List.mem_cons, not_or] at hk
            simp only [List.foldl_cons]
            rw [ih _ _ hk.2, Tbl.lookup_set, if_neg hk.1]
        rw [this _ _ _ hn.1, Tbl.lookup_set, if_pos rfl]
      · exact foldl_set_lookup es _ hn.2 e he

theorem copyProgram_defs {fuel : Nat} {m m' : Mem} {c c' : CCtx} {p q : CProg} (hm : m.Ok) (hi : ∀ e ∈ c.atomicId, e.1 < m.next)
    (hx : ∀ x ∈ p.roots, x < m.next) (h : copyProgram fuel m c p = some (m', c', q)) (hn : (p.defs.map (·.1)).Nodup) :
    ∀ d ∈ q.defs, c'.definitions.lookup d.1 = some d.2 := by
  unfold copyProgram at h
  simp only [Option.map_eq_some_iff] at h
  obtain ⟨⟨m1, c1, ss⟩, h1, h2⟩ := h
  simp only [Prod.mk.injEq] at h2
  obtain ⟨rfl, rfl, rfl⟩ := h2
  obtain ⟨e1, e2⟩ := copySections_defs hm hi (fun s hs x hx' => hx x (by
    simp only [CProg.roots, List.mem_cons, List.mem_flatMap]
    exact .inr (.inr ⟨s, hs, hx'⟩))) h1
  have hd : ∀ p : CProg, p.defs = p.sections.flatMap CSec.defs := by
    intro p
    unfold CProg.defs
    congr 1
  rw [hd, ← e2] at hn
  intro d hd'
  rw [hd] at hd'
  rw [e1]
  exact foldl_set_lookup _ _ hn d hd'

namespace Tc

theorem checkSpec_opts {Γ Γ' : TcCtx} {s s'} (h : checkSpec Γ s = some (s', Γ')) :
    Γ'.enums = Γ.enums ∧ Γ'.bz = Γ.bz ∧ Γ'.width = Γ.width ∧ Γ'.signed = Γ.signed := by
  cases s with
  | formula l n e =>
      simp only [checkSpec, Option.bind_eq_some_iff] at h
      obtain ⟨⟨e1, Γ1⟩, h1, h2⟩ := h
      have := check_ext h1
      simp only at h2
      split_ifs at h2
      cases h2
      exact ⟨this.enums, this.bz, this.width, this.signed⟩
  | contract l n1 n2 n3 a g =>
      simp only [checkSpec, Option.bind_eq_some_iff] at h
      obtain ⟨⟨a1, Γ1⟩, h1, ⟨g1, Γ2⟩, h2, h3⟩ := h
      have := (check_ext h1).trans (check_ext h2)
      simp only at h3
      split_ifs at h3
      cases h3
      exact ⟨this.enums, this.bz, this.width, this.signed⟩

theorem specifications_opts {ss : List Spec} : ∀ {st : List String × TcCtx} {ss' : List Spec} {Γ' : TcCtx}, specifications st ss = some (ss', Γ') →
    Γ'.enums = st.2.enums ∧ Γ'.bz = st.2.bz ∧ Γ'.width = st.2.width ∧ Γ'.signed = st.2.signed := by
  induction ss with
  | nil => intro st ss' Γ' h; simp only [specifications, Option.some.injEq, Prod.mk.injEq] at h; obtain ⟨_, rfl⟩ := h; exact ⟨rfl, rfl, rfl, rfl⟩
  | cons s ss ih =>
    intro st ss' Γ' h
    simp only [specifications] at h
    split_ifs at h
    simp only [Option.bind_eq_some_iff, Option.map_eq_some_iff] at h
    obtain ⟨⟨s1, Γ1⟩, h1, ⟨ss1, Γ2⟩, h2, h3⟩ := h
    simp only [Prod.mk.injEq] at h3
    obtain ⟨_, rfl⟩ := h3
    have a := checkSpec_opts h1
    have b := ih h2
    exact ⟨b.1.trans a.1, b.2.1.trans a.2.1, b.2.2.1.trans a.2.2.1, b.2.2.2.trans a.2.2.2⟩

theorem defines_opts {ds : List (String × Src)} : ∀ {st : List String × TcCtx} {ds' : List (String × Src)} {Γ' : TcCtx}, defines st ds = some (ds', Γ') →
    Γ'.enums = st.2.enums ∧ Γ'.bz = st.2.bz ∧ Γ'.width = st.2.width ∧ Γ'.signed = st.2.signed := by
  induction ds with
  | nil => intro st ss' Γ' h; simp only [defines, Option.some.injEq, Prod.mk.injEq] at h; obtain ⟨_, rfl⟩ := h; exact ⟨rfl, rfl, rfl, rfl⟩
  | cons d ds ih =>
    obtain ⟨s, e⟩ := d
    intro st ss' Γ' h
    simp only [defines] at h
    split_ifs at h
    simp only [Option.bind_eq_some_iff, Option.map_eq_some_iff] at h
    obtain ⟨⟨s1, Γ1⟩, h1, ⟨ss1, Γ2⟩, h2, h3⟩ := h
    simp only [Prod.mk.injEq] at h3
    obtain ⟨_, rfl⟩ := h3
    have a := check_ext h1
    have b := ih h2
    exact ⟨b.1.trans a.enums, b.2.1.trans a.bz, b.2.2.1.trans a.width, b.2.2.2.trans a.signed⟩

theorem structures_opts {ds : List (String × List (String × Typ))} : ∀ {st : List String × TcCtx} {Γ' : TcCtx}, structures st ds = some Γ' →
    Γ'.enums = st.2.enums ∧ Γ'.bz = st.2.bz ∧ Γ'.width = st.2.width ∧ Γ'.signed = st.2.signed := by
  induction ds with
  | nil => intro st Γ' h; simp only [structures, Option.some.injEq] at h; subst h; exact ⟨rfl, rfl, rfl, rfl⟩
  | cons d ds ih =>
    obtain ⟨s, e⟩ := d
    intro st Γ' h
    simp only [structures] at h
    split_ifs at h
    have := ih h
    exact this

theorem declare_opts {st st' : List String × TcCtx} {s : String} {t : Typ} (h : declare st s t = some st') :
    st'.2.enums = st.2.enums ∧ st'.2.bz = st.2.bz ∧ st'.2.width = st.2.width ∧ st'.2.signed = st.2.signed := by
  unfold declare at h
  simp only at h
  split_ifs at h <;> split at h <;> (cases h; exact ⟨rfl, rfl, rfl, rfl⟩)

theorem declareAll_opts {ss : List String} : ∀ {st st' : List String × TcCtx} {t : Typ}, declareAll st t ss = some st' →
    st'.2.enums = st.2.enums ∧ st'.2.bz = st.2.bz ∧ st'.2.width = st.2.width ∧ st'.2.signed = st.2.signed := by
  induction ss with
  | nil => intro st st' t h; cases h; exact ⟨rfl, rfl, rfl, rfl⟩
  | cons s ss ih =>
    intro st st' t h
    simp only [declareAll, Option.bind_eq_some_iff] at h
    obtain ⟨st1, h1, h2⟩ := h
    have a := declare_opts h1
    have b := ih h2
    exact ⟨b.1.trans a.1, b.2.1.trans a.2.1, b.2.2.1.trans a.2.2.1, b.2.2.2.trans a.2.2.2⟩

theorem inputs_opts {ds : List (List String × Typ)} : ∀ {st st' : List String × TcCtx}, inputs st ds = some st' →
    st'.2.enums = st.2.enums ∧ st'.2.bz = st.2.bz ∧ st'.2.width = st.2.width ∧ st'.2.signed = st.2.signed := by
  induction ds with
  | nil => intro st st' h; cases h; exact ⟨rfl, rfl, rfl, rfl⟩
  | cons d ds ih =>
    intro st st' h
    simp only [inputs, Option.bind_eq_some_iff] at h
    obtain ⟨st1, h1, h2⟩ := h
    have a := declareAll_opts h1
    have b := ih h2
    exact ⟨b.1.trans a.1, b.2.1.trans a.2.1, b.2.2.1.trans a.2.2.1, b.2.2.2.trans a.2.2.2⟩

/-- Checking a program without enumerations changes neither the enumerations nor the options. -/
theorem checkProgram_opts {ss : List Sec} : ∀ {Γ Γ' : TcCtx} {ss'}, NoEnums ss → checkProgram Γ ss = some (ss', Γ') →
    Γ'.enums = Γ.enums ∧ Γ'.bz = Γ.bz ∧ Γ'.width = Γ.width ∧ Γ'.signed = Γ.signed := by
  induction ss with
  | nil => intro Γ Γ' ss' _ h; simp only [checkProgram, Option.some.injEq, Prod.mk.injEq] at h; obtain ⟨_, rfl⟩ := h; exact ⟨rfl, rfl, rfl, rfl⟩
  | cons s ss ih =>
    intro Γ Γ' ss' hn h
    simp only [checkProgram, Option.bind_eq_some_iff, Option.map_eq_some_iff] at h
    obtain ⟨⟨s1, Γ1⟩, h1, ⟨ss1, Γ2⟩, h2, h3⟩ := h
    simp only [Prod.mk.injEq] at h3
    obtain ⟨_, rfl⟩ := h3
    have b := ih (fun z hz => hn z (by simp [hz])) h2
    have a : Γ1.enums = Γ.enums ∧ Γ1.bz = Γ.bz ∧ Γ1.width = Γ.width ∧ Γ1.signed = Γ.signed := by
      cases s with
      | input ds =>
          simp only [checkSection, Option.map_eq_some_iff, Prod.mk.injEq] at h1
          obtain ⟨st, h1, _, rfl⟩ := h1
          exact inputs_opts h1
      | define ds =>
          simp only [checkSection, Option.map_eq_some_iff, Prod.mk.injEq] at h1
          obtain ⟨⟨_, _⟩, h1, _, rfl⟩ := h1
          exact defines_opts h1
      | struct ds =>
          simp only [checkSection, Option.map_eq_some_iff, Prod.mk.injEq] at h1
          obtain ⟨_, h1, _, rfl⟩ := h1
          exact structures_opts h1
      | enum ds => exact absurd rfl (hn _ (by simp) ds)
      | spec ft ss =>
          simp only [checkSection, Option.map_eq_some_iff, Prod.mk.injEq] at h1
          obtain ⟨⟨_, _⟩, h1, _, rfl⟩ := h1
          exact specifications_opts h1
    exact ⟨b.1.trans a.1, b.2.1.trans a.2.1, b.2.2.1.trans a.2.2.1, b.2.2.2.trans a.2.2.2⟩

theorem After.opts {Γ0 Γ : TcCtx} (h : After Γ0 Γ) : Γ.enums = Γ0.enums ∧ Γ.bz = Γ0.bz ∧ Γ.width = Γ0.width ∧ Γ.signed = Γ0.signed := by
  induction h with
  | start => exact ⟨rfl, rfl, rfl, rfl⟩
  | parse _ ih => exact ih
  | accept _ hn h ih =>
    have a := checkProgram_opts hn h
    exact ⟨a.1.trans ih.1, a.2.1.trans ih.2.1, a.2.2.1.trans ih.2.2.1, a.2.2.2.trans ih.2.2.2⟩
  | reject _ _ _ h1 h2 h3 h4 ih => exact ⟨h1.trans ih.1, h2.trans ih.2.1, h3.trans ih.2.2.1, h4.trans ih.2.2.2⟩

end Tc

end R2U2
