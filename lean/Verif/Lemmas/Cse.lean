import Verif.Lemmas.Heap
/-
Common sub-expression elimination on the object graph.
-/
namespace R2U2
namespace Tree
variable {L : Type}
/-- `s` is a proper subtree of `t`. -/
inductive Sub : Tree L → Tree L → Prop
  | kid {l cs c} : c ∈ cs → Sub c (.node l cs)
  | deep {l cs c s} : c ∈ cs → Sub s c → Sub s (.node l cs)

theorem Sub.trans {r s t : Tree L} (h1 : Sub r s) (h2 : Sub s t) : Sub r t := by
  induction h2 with
  | kid hc => exact .deep hc h1
  | deep hc _ ih => exact .deep hc (ih h1)

theorem Sub.size_lt {s t : Tree L} (h : Sub s t) : s.size < t.size := by
  induction h with
  | kid hc => exact Tree.size_lt hc
  | deep hc _ ih => exact Nat.lt_trans ih (Tree.size_lt hc)
end Tree

namespace Heap
variable {L : Type}

theorem forall2_mem_left {α β : Type} {R : α → β → Prop} {as : List α} {bs : List β}
    (h : List.Forall₂ R as bs) {a : α} (ha : a ∈ as) : ∃ b ∈ bs, R a b := by
  induction h with
  | nil => simp at ha
  | cons h1 _ ih =>
    rcases List.mem_cons.1 ha with rfl | ha
    · exact ⟨_, List.mem_cons_self, h1⟩
    · obtain ⟨b, hb, hr⟩ := ih ha
      exact ⟨b, List.mem_cons_of_mem _ hb, hr⟩

/-- A child denotes a direct subtree. -/
theorem Denotes.kid {h : Heap L} {p c : Nat} {t u : Tree L} (hp : h.Denotes p t) (hc : c ∈ h.kids p)
    (hu : h.Denotes c u) : Tree.Sub u t := by
  cases t with
  | node l ts =>
    rw [denotes_node] at hp
    obtain ⟨v, hv, hd⟩ := forall2_mem_left hp.2 hc
    rw [hu.unique hd]
    exact .kid hv

/-- Tree size is enough fuel for reading a node. -/
theorem Denotes.unfold_size {h : Heap L} : ∀ {t : Tree L} {x : Nat}, h.Denotes x t →
    unfold t.size h x = some t := by
  intro t
  induction t using Tree.childInduction with
  | h l ts ih =>
    intro x hx
    rw [denotes_node] at hx
    rw [show (Tree.node l ts).size = Tree.sizeL ts + 1 from rfl, unfold_succ]
    refine ⟨ts, by rw [hx.1], ?_⟩
    have hle : ∀ u ∈ ts, u.size ≤ Tree.sizeL ts := by
      intro u hu
      have := Tree.size_lt (l := l) hu
      simp only [Tree.size] at this; omega
    have key : ∀ (cs : List Nat) (us : List (Tree L)), (∀ u ∈ us, u ∈ ts) → List.Forall₂ h.Denotes cs us →
        List.Forall₂ (fun c t => unfold (Tree.sizeL ts) h c = some t) cs us := by
      intro cs us hu hf
      induction hf with
      | nil => exact .nil
      | cons hc _ ihf =>
        have hm := hu _ List.mem_cons_self
        exact .cons (unfold_mono (hle _ hm) (ih _ hm hc)) (ihf fun v hv => hu v (List.mem_cons_of_mem _ hv))
    exact key _ _ (fun u hu => hu) hx.2

theorem replace_not_mem {h : Heap L} {x y p : Nat} (hxy : x ≠ y) (hp : x ∈ h.kids p → p ∈ h.pars x) :
    x ∉ (h.replace x y).kids p := by
  unfold replace
  rw [if_neg hxy]
  simp only
  split
  · rw [List.mem_map]
    rintro ⟨c, _, h2⟩
    split at h2
    · exact hxy h2.symm
    · rename_i h3; exact h3 h2
  · rename_i h1; exact fun h2 => h1 (hp h2)

theorem replace_parents {h : Heap L} {x y p c : Nat} (hp : ∀ c, c ∈ h.kids p → p ∈ h.pars c) (hpx : p ≠ x)
    (hc : c ∈ (h.replace x y).kids p) : p ∈ (h.replace x y).pars c := by
  unfold replace at hc ⊢
  by_cases hxy : x = y
  · rw [if_pos hxy] at hc ⊢; exact hp c hc
  · rw [if_neg hxy] at hc ⊢
    simp only at hc ⊢
    have : p ∈ (if c = y then h.pars c ++ h.pars x else h.pars c) := by
      split at hc
      · rename_i h1
        rw [List.mem_map] at hc
        obtain ⟨d, hd, rfl⟩ := hc
        by_cases hdx : d = x
        · simp [hdx, h1]
        · simp only [if_neg hdx]
          split
          · exact List.mem_append_left _ (hp _ hd)
          · exact hp _ hd
      · split
        · exact List.mem_append_left _ (hp _ hc)
        · exact hp _ hc
    split
    · rw [List.mem_filter]; exact ⟨this, by simpa using hpx⟩
    · exact this

theorem replace_pars_nil {h : Heap L} {x y z : Nat} (hz : h.pars z = []) (hzy : z ≠ y) :
    (h.replace x y).pars z = [] := by
  unfold replace
  split
  · exact hz
  · simp [hz, hzy]

/-- `D` holds the orphaned nodes: they are not referenced by the others, and the others
are known to their children. -/
structure Live (h : Heap L) (D : List Nat) : Prop where
  refs : ∀ p, p ∉ D → ∀ c ∈ h.kids p, c ∉ D
  parents : ∀ p, p ∉ D → ∀ c ∈ h.kids p, p ∈ h.pars c

/-- Below `fs` no expression is represented twice. -/
def Shared (tr : Nat → Tree L) (h : Heap L) (fs : List Nat) : Prop :=
  ∀ x y, Reachable h fs x → Reachable h fs y → tr x = tr y → x = y

/-- What `_optimize_cse` maintains until the root is reached. -/
structure CInv {κ : Type} [DecidableEq κ] (key : Tree L → κ) (tr : Nat → Tree L) (h0 : Heap L) (root : Nat)
    (D0 D : List Nat) (w : Walk L (List (κ × Nat))) : Prop where
  winv : WInv (fun x => (tr x).size) [root] w
  den : ∀ x, w.heap.Denotes x (tr x)
  live : Live w.heap D
  deg : ∀ x, (w.heap.kids x).length = (h0.kids x).length
  mapOk : ∀ k y, w.acc.lookup k = some y → key (tr y) = k ∧ y ∈ w.out ∧ y ∉ D
  canon : ∀ x ∈ w.out, x ∈ D ∨ w.acc.lookup (key (tr x)) = some x
  outR : ∀ x ∈ w.out, Reachable h0 [root] x
  stackR : ∀ b x, (b, x) ∈ w.stack → Reachable h0 [root] x ∧ x ∉ D0
  kidsR : ∀ p, Reachable h0 [root] p → ∀ c ∈ w.heap.kids p, Reachable h0 [root] c
  parsNil : ∀ z, h0.pars z = [] → (z = root ∨ ¬ Reachable h0 [root] z) → w.heap.pars z = []
  kidsOut : ∀ p, (∀ c ∈ h0.kids p, ¬ Reachable h0 [root] c) → w.heap.kids p = h0.kids p
  deadLo : ∀ x ∈ D0, x ∈ D
  deadHi : ∀ x ∈ D, x ∈ D0 ∨ x ∈ w.out
  keep : ∀ fs, (∀ f ∈ fs, f ∉ D0 ∧ ¬ Reachable h0 [root] f) → Shared tr h0 fs → Shared tr w.heap fs
  rootOut : root ∉ w.out
  rootD : root ∉ D
  shape : w.stack = [(false, root)] ∨ ∃ st, w.stack = st ++ [(true, root)]

/-- How the traversal of one set ends. -/
structure CFin (tr : Nat → Tree L) (h0 : Heap L) (root : Nat)
    (D0 D : List Nat) (h : Heap L) : Prop where
  den : ∀ x, h.Denotes x (tr x)
  live : Live h D
  deg : ∀ x, (h.kids x).length = (h0.kids x).length
  shared : Shared tr h [root]
  parsNil : ∀ z, h0.pars z = [] → ¬ Reachable h0 [root] z → h.pars z = []
  kidsOut : ∀ p, (∀ c ∈ h0.kids p, ¬ Reachable h0 [root] c) → h.kids p = h0.kids p
  deadLo : ∀ x ∈ D0, x ∈ D
  deadHi : ∀ x ∈ D, x ∈ D0 ∨ Reachable h0 [root] x
  keep : ∀ fs, (∀ f ∈ fs, f ∉ D0 ∧ ¬ Reachable h0 [root] f) → Shared tr h0 fs → Shared tr h fs
  kidsLive : ∀ c ∈ h.kids root, c ∉ D

theorem Shared.replace {tr : Nat → Tree L} {h : Heap L} {D fs : List Nat} {x y : Nat} (hl : Live h D)
    (hr : ∀ p c, c ∈ h.kids p → (tr c).size < (tr p).size)
    (hfs : ∀ f ∈ fs, f ∉ D ∧ f ≠ x) (hxy : x ≠ y) (hy : y ∉ D) (hk : h.kids x = h.kids y) (ht : tr x = tr y)
    (hs : Shared tr h fs) : Shared tr (h.replace x y) fs := by
  have claim : ∀ a, Reachable (h.replace x y) fs a →
      a ∉ D ∧ a ≠ x ∧ (Reachable h fs a ∨ (a = y ∧ Reachable h fs x)) := by
    intro a ha
    induction ha with
    | root hf => exact ⟨(hfs _ hf).1, (hfs _ hf).2, .inl (.root hf)⟩
    | @kid p c _ hc ih =>
      obtain ⟨hpD, hpx, hp⟩ := ih
      have hcx : c ≠ x := fun h1 => replace_not_mem hxy (fun h2 => hl.parents p hpD x h2) (h1 ▸ hc)
      rcases mem_replace_kids hc with h1 | ⟨h1, h2⟩
      · refine ⟨hl.refs p hpD c h1, hcx, ?_⟩
        rcases hp with hp | ⟨rfl, hp⟩
        · exact .inl (.kid hp h1)
        · exact .inl (.kid hp (hk ▸ h1))
      · subst h1
        refine ⟨hy, hcx, ?_⟩
        rcases hp with hp | ⟨rfl, hp⟩
        · exact .inr ⟨rfl, .kid hp h2⟩
        · have := hr _ _ h2; rw [ht] at this; omega
  intro a b ha hb hab
  obtain ⟨_, ha2, ha3⟩ := claim a ha
  obtain ⟨_, hb2, hb3⟩ := claim b hb
  rcases ha3 with ha4 | ⟨rfl, ha4⟩ <;> rcases hb3 with hb4 | ⟨rfl, hb4⟩
  · exact hs a b ha4 hb4 hab
  · exact absurd (hs a x ha4 hb4 (by rw [hab, ht])) ha2
  · exact absurd (hs b x hb4 ha4 (by rw [← hab, ht])) hb2
  · rfl

theorem forall2_kids_eq {tr : Nat → Tree L} {h : Heap L} (hd : ∀ x, h.Denotes x (tr x)) :
    ∀ {as bs : List Nat} {ts : List (Tree L)}, List.Forall₂ h.Denotes as ts → List.Forall₂ h.Denotes bs ts →
    (∀ a ∈ as, ∀ b ∈ bs, tr a = tr b → a = b) → as = bs
  | _, _, _, .nil, .nil, _ => rfl
  | _, _, _, .cons h1 h2, .cons h3 h4, hi => by
      rw [hi _ List.mem_cons_self _ List.mem_cons_self (((hd _).unique h1).trans ((hd _).unique h3).symm),
        forall2_kids_eq hd h2 h4 fun a ha b hb => hi a (List.mem_cons_of_mem _ ha) b (List.mem_cons_of_mem _ hb)]

variable {κ : Type} [DecidableEq κ] {key : Tree L → κ} {tr : Nat → Tree L} {h0 : Heap L} {root : Nat}
  {D0 : List Nat}

/-- Reachable nodes denote subtrees of the root's tree. -/
theorem reach_sub {h : Heap L} (hd : ∀ x, h.Denotes x (tr x)) {x : Nat} (hx : Reachable h [root] x) :
    x = root ∨ Tree.Sub (tr x) (tr root) := by
  induction hx with
  | root h => exact .inl (List.mem_singleton.1 h)
  | @kid p c _ hc ih =>
    have := (hd p).kid hc (hd c)
    rcases ih with rfl | ih
    · exact .inr this
    · exact .inr (this.trans ih)

theorem reach_congr {h h' : Heap L} (hk : ∀ x, h'.kids x = h.kids x) {roots : List Nat} {x : Nat}
    (hx : Reachable h' roots x) : Reachable h roots x := by
  induction hx with
  | root h => exact .root h
  | kid _ hc ih => exact .kid ih (hk _ ▸ hc)

/-- The text of a node determines its tree, below the root. -/
def KeyOk (key : Tree L → κ) (T : Tree L) : Prop :=
  ∀ s s', Tree.Sub s T → Tree.Sub s' T → key s = key s' → s = s'

theorem CInv.start (hd : ∀ x, h0.Denotes x (tr x)) (hl : Live h0 D0) (hrD : root ∉ D0) :
    CInv key tr h0 root D0 D0 (start h0 [root] []) where
  winv := WInv.start (fun p c hc => ((hd p).kid hc (hd c)).size_lt) [root] []
  den := hd
  live := hl
  deg := fun _ => rfl
  mapOk := by simp [Heap.start]
  canon := by simp [Heap.start]
  outR := by simp [Heap.start]
  stackR := by
    intro b x hx
    simp only [Heap.start, List.map_cons, List.map_nil, List.reverse_cons, List.reverse_nil, List.nil_append,
      List.mem_singleton, Prod.mk.injEq] at hx
    rw [hx.2]; exact ⟨.root (List.mem_singleton.2 rfl), hrD⟩
  kidsR := fun p hp c hc => .kid hp hc
  parsNil := fun z hz _ => hz
  kidsOut := fun p _ => rfl
  deadLo := fun x hx => hx
  deadHi := fun x hx => .inl hx
  keep := fun fs _ h => h
  rootOut := by simp [Heap.start]
  rootD := hrD
  shape := .inl rfl

theorem CInv.skip {D : List Nat} {w : Walk L (List (κ × Nat))} (hw : CInv key tr h0 root D0 D w) {x : Nat} {st}
    (hs : w.stack = (false, x) :: st) (hv : x ∈ w.visited) : CInv key tr h0 root D0 D { w with stack := st } :=
  { hw with
    winv := hw.winv.skip hs hv
    stackR := fun b y hy => hw.stackR b y (by rw [hs]; exact List.mem_cons_of_mem _ hy)
    shape := by
      rcases hw.shape with h | ⟨s', h⟩
      · rw [hs] at h
        simp only [List.cons.injEq, Prod.mk.injEq, true_and] at h
        -- the root was not visited before its own entry is popped
        exfalso
        have h1 := (hw.winv.vis x).1 hv
        rw [hs, h.1, h.2] at h1
        rcases h1 with h1 | h1
        · exact hw.rootOut h1
        · simp at h1
      · rw [hs] at h
        cases s' with
        | nil => simp at h
        | cons e s' =>
          simp only [List.cons_append, List.cons.injEq] at h
          exact .inr ⟨s', h.2⟩ }

theorem CInv.expand {D : List Nat} {w : Walk L (List (κ × Nat))} (hw : CInv key tr h0 root D0 D w) {x : Nat} {st}
    (hs : w.stack = (false, x) :: st) (hv : x ∉ w.visited) : CInv key tr h0 root D0 D { w with
        stack := (w.heap.kids x).map (fun c => (false, c)) ++ (true, x) :: st
        visited := x :: w.visited } :=
  { hw with
    winv := hw.winv.expand hs hv
    stackR := by
      intro b y hy
      have hx := hw.stackR false x (by rw [hs]; exact List.mem_cons_self)
      simp only [List.mem_append, List.mem_map, Prod.mk.injEq, List.mem_cons] at hy
      rcases hy with ⟨c, hc, _, rfl⟩ | ⟨_, rfl⟩ | hy
      · refine ⟨hw.kidsR x hx.1 _ hc, fun h => hw.live.refs x ?_ _ hc (hw.deadLo _ h)⟩
        intro h
        rcases hw.deadHi _ h with h | h
        · exact hx.2 h
        · exact hv ((hw.winv.vis x).2 (.inl h))
      · exact hx
      · exact hw.stackR b y (by rw [hs]; exact List.mem_cons_of_mem _ hy)
    shape := by
      right
      rcases hw.shape with h | ⟨s', h⟩
      · rw [hs] at h
        simp only [List.cons.injEq, Prod.mk.injEq, true_and] at h
        exact ⟨(w.heap.kids x).map (fun c => (false, c)), by simp [h.1, h.2]⟩
      · rw [hs] at h
        cases s' with
        | nil => simp at h
        | cons e s' =>
          simp only [List.cons_append, List.cons.injEq] at h
          exact ⟨(w.heap.kids x).map (fun c => (false, c)) ++ (true, x) :: s', by simp [h.2]⟩ }

/-- The node on top of the stack is the root only if nothing is left. -/
theorem CInv.top {D : List Nat} {w : Walk L (List (κ × Nat))} (hw : CInv key tr h0 root D0 D w) {x : Nat} {st}
    (hs : w.stack = (true, x) :: st) : (x = root ∧ st = []) ∨ (x ≠ root ∧ ∃ s', st = s' ++ [(true, root)]) := by
  rcases hw.shape with h | ⟨s', h⟩
  · rw [hs] at h; simp at h
  · rw [hs] at h
    cases s' with
    | nil =>
      simp only [List.nil_append, List.cons.injEq, Prod.mk.injEq, true_and] at h
      exact .inl h
    | cons e s' =>
      simp only [List.cons_append, List.cons.injEq] at h
      refine .inr ⟨?_, s', h.2⟩
      rintro rfl
      have ho := hw.winv.ordered
      rw [hs, List.pairwise_cons] at ho
      have := ho.1 (true, x) (by rw [h.2]; simp) rfl
      simp only at this; omega

theorem CInv.yield {D : List Nat} {w : Walk L (List (κ × Nat))} (hw : CInv key tr h0 root D0 D w)
    (hkey : KeyOk key (tr root)) (hd0 : ∀ x, h0.Denotes x (tr x)) {x : Nat} {st}
    (hs : w.stack = (true, x) :: st) (hx : x ≠ root) {fuel : Nat} {h' : Heap L} {m' : List (κ × Nat)}
    (hv : cseVisit key fuel w.heap w.acc x = some (h', m')) :
    ∃ D', CInv key tr h0 root D0 D'
      { heap := h', stack := st, visited := w.visited, out := w.out ++ [x], acc := m' } := by
  have hxR := hw.stackR true x (by rw [hs]; exact List.mem_cons_self)
  have hxout : x ∉ w.out := by
    have := hw.winv.nodup
    rw [hs] at this
    rw [List.nodup_append] at this
    intro h
    exact this.2.2 x h x (by simp [grays]) rfl
  have hxD : x ∉ D := fun h => (hw.deadHi x h).elim hxR.2 hxout
  have hshape : st = [(false, root)] ∨ ∃ s', st = s' ++ [(true, root)] := by
    rcases hw.top hs with h | h
    · exact absurd h.1 hx
    · exact .inr h.2
  have hstR : ∀ b z, (b, z) ∈ st → Reachable h0 [root] z ∧ z ∉ D0 :=
    fun b z hz => hw.stackR b z (by rw [hs]; exact List.mem_cons_of_mem _ hz)
  have houtR : ∀ z ∈ w.out ++ [x], Reachable h0 [root] z := by
    intro z hz
    rcases List.mem_append.1 hz with h | h
    · exact hw.outR z h
    · rw [List.mem_singleton.1 h]; exact hxR.1
  have hrootOut : root ∉ w.out ++ [x] := by
    simp only [List.mem_append, List.mem_singleton, not_or]
    exact ⟨hw.rootOut, fun h => hx h.symm⟩
  unfold cseVisit at hv
  split at hv
  · cases hv
  · rename_i t ht
    have htx : t = tr x := Denotes.unique ⟨fuel, ht⟩ (hw.den x)
    subst htx
    split at hv
    · rename_i y hy
      cases hv
      obtain ⟨hky, hyout, hyD⟩ := hw.mapOk _ _ hy
      have hyR := hw.outR y hyout
      have hyroot : y ≠ root := fun h => hw.rootOut (h ▸ hyout)
      have hxy : x ≠ y := fun h => hxout (h ▸ hyout)
      have htr : tr x = tr y := by
        refine hkey _ _ ?_ ?_ hky.symm
        · exact (reach_sub hd0 hxR.1).resolve_left hx
        · exact (reach_sub hd0 hyR).resolve_left hyroot
      have hkids : w.heap.kids x = w.heap.kids y := by
        have hdx := hw.den x
        have hdy := hw.den y
        rw [← htr] at hdy
        revert hdx hdy
        cases tr x with
        | node l ts =>
          intro hdx hdy
          rw [denotes_node] at hdx hdy
          refine forall2_kids_eq hw.den hdx.2 hdy.2 ?_
          intro a ha b hb hab
          have ca := (hw.canon a (hw.winv.kids_out hs ha)).resolve_left (hw.live.refs x hxD a ha)
          have cb := (hw.canon b (hw.winv.blackKids y hyout b hb)).resolve_left (hw.live.refs y hyD b hb)
          rw [hab, cb] at ca
          exact (Option.some.inj ca).symm
      have hrk : ∀ p c, c ∈ w.heap.kids p → (tr c).size < (tr p).size := hw.winv.rankKids
      refine ⟨x :: D, ?_⟩
      refine {
        winv := hw.winv.yield hs ?_
        den := fun z => replace_denotes (hw.den x) (htr ▸ hw.den y) _ z (hw.den z)
        live := ⟨?_, ?_⟩
        deg := fun z => by rw [replace_kids_length]; exact hw.deg z
        mapOk := ?_
        canon := ?_
        outR := houtR
        stackR := hstR
        kidsR := ?_
        parsNil := ?_
        kidsOut := ?_
        deadLo := fun z hz => List.mem_cons_of_mem _ (hw.deadLo z hz)
        deadHi := ?_
        keep := ?_
        rootOut := hrootOut
        rootD := ?_
        shape := hshape }
      · intro p c hc
        rcases mem_replace_kids hc with h | ⟨rfl, h⟩
        · exact ⟨hrk p c h, .inl h⟩
        · have := hrk p x h
          rw [htr] at this
          exact ⟨this, .inr hyout⟩
      · intro p hp c hc
        simp only [List.mem_cons, not_or] at hp ⊢
        refine ⟨?_, ?_⟩
        · rintro rfl
          exact replace_not_mem hxy (fun h => hw.live.parents p hp.2 _ h) hc
        · rcases mem_replace_kids hc with h | ⟨rfl, h⟩
          · exact hw.live.refs p hp.2 c h
          · exact hyD
      · intro p hp c hc
        simp only [List.mem_cons, not_or] at hp
        exact replace_parents (hw.live.parents p hp.2) hp.1 hc
      · intro k z hz
        obtain ⟨h1, h2, h3⟩ := hw.mapOk k z hz
        refine ⟨h1, List.mem_append_left _ h2, ?_⟩
        simp only [List.mem_cons, not_or]
        exact ⟨fun h => hxout (h ▸ h2), h3⟩
      · intro z hz
        rcases List.mem_append.1 hz with h | h
        · rcases hw.canon z h with h | h
          · exact .inl (List.mem_cons_of_mem _ h)
          · exact .inr h
        · rw [List.mem_singleton.1 h]; exact .inl List.mem_cons_self
      · intro p hp c hc
        rcases mem_replace_kids hc with h | ⟨rfl, h⟩
        · exact hw.kidsR p hp c h
        · exact hyR
      · intro z hz hz2
        refine replace_pars_nil (hw.parsNil z hz hz2) ?_
        rintro rfl
        rcases hz2 with h | h
        · exact hyroot h
        · exact h hyR
      · intro p hp
        have hk := hw.kidsOut p hp
        have : x ∉ w.heap.kids p := by rw [hk]; exact fun h => hp x h hxR.1
        rw [← hk]
        unfold Heap.replace
        rw [if_neg hxy]
        simp only
        split
        · conv => rhs; rw [← List.map_id (w.heap.kids p)]
          apply List.map_congr_left
          intro c hc
          have : c ≠ x := fun h => this (h ▸ hc)
          simp [this]
        · rfl
      · intro z hz
        rcases List.mem_cons.1 hz with rfl | h
        · right; simp
        · rcases hw.deadHi z h with h | h
          · exact .inl h
          · exact .inr (List.mem_append_left _ h)
      · intro fs hfs hsh
        refine Shared.replace hw.live hrk ?_ hxy hyD hkids htr (hw.keep fs hfs hsh)
        intro f hf
        obtain ⟨h1, h2⟩ := hfs f hf
        refine ⟨fun h => (hw.deadHi f h).elim h1 fun h => h2 (hw.outR f h), ?_⟩
        rintro rfl; exact h2 hxR.1
      · simp only [List.mem_cons, not_or]
        exact ⟨fun h => hx h.symm, hw.rootD⟩
    · rename_i hnone
      cases hv
      refine ⟨D, { hw with
        winv := hw.winv.yield hs fun p c hc => ⟨hw.winv.rankKids p c hc, .inl hc⟩
        mapOk := ?_
        canon := ?_
        outR := houtR
        stackR := hstR
        deadHi := fun z hz => (hw.deadHi z hz).imp id fun h => List.mem_append_left _ h
        rootOut := hrootOut
        shape := hshape }⟩
      · intro k z hz
        simp only [List.lookup_cons] at hz
        split at hz
        · rename_i hk
          cases hz
          simp only [beq_iff_eq] at hk
          exact ⟨hk.symm, by simp, hxD⟩
        · obtain ⟨h1, h2, h3⟩ := hw.mapOk k z hz
          exact ⟨h1, List.mem_append_left _ h2, h3⟩
      · intro z hz
        rcases List.mem_append.1 hz with h | h
        · rcases hw.canon z h with h | h
          · exact .inl h
          · right
            simp only [List.lookup_cons]
            split
            · rename_i hk
              simp only [beq_iff_eq] at hk
              rw [← hk, h] at hnone; cases hnone
            · exact h
        · rw [List.mem_singleton.1 h]; right; simp

theorem CInv.finish {D : List Nat} {w : Walk L (List (κ × Nat))} (hw : CInv key tr h0 root D0 D w)
    (hp0 : h0.pars root = []) (hs : w.stack = [(true, root)]) {fuel : Nat} {h' : Heap L} {m' : List (κ × Nat)}
    (hv : cseVisit key fuel w.heap w.acc root = some (h', m')) :
    ∃ D', CFin tr h0 root D0 D' h' := by
  have hpars : w.heap.pars root = [] := hw.parsNil root hp0 (.inl rfl)
  have hrootKid : ∀ p, p ∉ D → root ∉ w.heap.kids p := by
    intro p hp h
    have := hw.live.parents p hp root h
    rw [hpars] at this; simp at this
  -- the heap after the visit of the root has the same children
  have hsame : (∀ z, h'.kids z = w.heap.kids z) ∧ (∀ z, h'.lab z = w.heap.lab z) ∧
      (∀ p, p ≠ root → (∀ c, c ∈ w.heap.kids p → p ∈ w.heap.pars c) → ∀ c ∈ w.heap.kids p, p ∈ h'.pars c) ∧
      (∀ z, w.heap.pars z = [] → ¬ Reachable h0 [root] z → h'.pars z = []) := by
    unfold cseVisit at hv
    split at hv
    · cases hv
    · split at hv
      · rename_i y hy
        cases hv
        refine ⟨replace_orphan hpars, fun z => replace_lab _ _ _ _, ?_, ?_⟩
        · intro p hp hk c hc
          exact replace_parents hk hp (by rw [replace_orphan hpars]; exact hc)
        · intro z hz hr
          refine replace_pars_nil hz ?_
          rintro rfl
          exact hr (hw.outR _ (hw.mapOk _ _ hy).2.1)
      · cases hv
        exact ⟨fun _ => rfl, fun _ => rfl, fun p _ hk c hc => hk c hc, fun z hz _ => hz⟩
  obtain ⟨hk, hlab, hpar, hnil⟩ := hsame
  have hwin := hw.winv.yield (h' := h') (a' := m') hs fun p c hc =>
    ⟨hw.winv.rankKids p c (hk p ▸ hc), .inl (hk p ▸ hc)⟩
  have hden : ∀ z, h'.Denotes z (tr z) := fun z => denotes_congr hlab hk _ z (hw.den z)
  have hlive : Live h' (root :: D) := by
    constructor
    · intro p hp c hc
      simp only [List.mem_cons, not_or] at hp ⊢
      rw [hk] at hc
      exact ⟨fun h => hrootKid p hp.2 (h ▸ hc), hw.live.refs p hp.2 c hc⟩
    · intro p hp c hc
      simp only [List.mem_cons, not_or] at hp
      rw [hk] at hc
      exact hpar p hp.1 (hw.live.parents p hp.2) c hc
  refine ⟨root :: D, {
    den := hden
    live := hlive
    deg := fun z => by rw [hk]; exact hw.deg z
    shared := ?_
    parsNil := fun z hz hr => hnil z (hw.parsNil z hz (.inr hr)) hr
    kidsOut := fun p hp => by rw [hk]; exact hw.kidsOut p hp
    deadLo := fun z hz => List.mem_cons_of_mem _ (hw.deadLo z hz)
    deadHi := ?_
    keep := ?_
    kidsLive := ?_ }⟩
  · have hnd : ∀ z, Reachable h' [root] z → z ∉ D := by
      intro z hz
      induction hz with
      | root h => rw [List.mem_singleton.1 h]; exact hw.rootD
      | @kid p c _ hc ih => exact hw.live.refs p ih c (hk p ▸ hc)
    have hcan : ∀ z, Reachable h' [root] z → z ≠ root → w.acc.lookup (key (tr z)) = some z := by
      intro z hz hne
      have := hwin.reachable rfl hz
      simp only [List.mem_append, List.mem_singleton] at this
      exact (hw.canon z (this.resolve_right hne)).resolve_left (hnd z hz)
    intro a b ha hb hab
    by_cases har : a = root
    · by_cases hbr : b = root
      · rw [har, hbr]
      · have := ((reach_sub hden hb).resolve_left hbr).size_lt
        rw [← hab, har] at this; omega
    · by_cases hbr : b = root
      · have := ((reach_sub hden ha).resolve_left har).size_lt
        rw [hab, hbr] at this; omega
      · have h1 := hcan a ha har
        have h2 := hcan b hb hbr
        rw [hab, h2] at h1
        exact (Option.some.inj h1).symm
  · intro z hz
    rcases List.mem_cons.1 hz with rfl | h
    · exact .inr (.root (List.mem_singleton.2 rfl))
    · exact (hw.deadHi z h).imp id (hw.outR z)
  · intro fs hfs hsh a b ha hb hab
    exact hw.keep fs hfs hsh a b (reach_congr hk ha) (reach_congr hk hb) hab
  · intro c hc
    rw [hk] at hc
    simp only [List.mem_cons, not_or]
    refine ⟨fun h => hrootKid root hw.rootD (h ▸ hc), hw.live.refs root hw.rootD c hc⟩

/-- One pass of `_optimize_cse` over a set. -/
theorem cse_spec (hd : ∀ x, h0.Denotes x (tr x)) (hl : Live h0 D0) (hrD : root ∉ D0)
    (hp0 : h0.pars root = []) (hkey : KeyOk key (tr root)) {fuel : Nat} {h' : Heap L}
    (h : cse key fuel h0 root = some h') : ∃ D', CFin tr h0 root D0 D' h' := by
  simp only [cse, Option.map_eq_some_iff] at h
  obtain ⟨w', h1, rfl⟩ := h
  have := walk_inv (I := fun w => (∃ D, CInv key tr h0 root D0 D w) ∨
      (w.stack = [] ∧ ∃ D', CFin tr h0 root D0 D' w.heap))
    (by
      intro w w1 hi hne hst
      rcases hi with ⟨D, hw⟩ | ⟨hc, _⟩
      · rcases walkStep_cases hne hst with ⟨x, st, hs, hvis, rfl⟩ | ⟨x, st, hs, hvis, rfl⟩ |
          ⟨x, st, h', a', hs, hvis, rfl⟩
        · exact .inl ⟨D, hw.skip hs hvis⟩
        · exact .inl ⟨D, hw.expand hs hvis⟩
        · rcases hw.top hs with ⟨rfl, rfl⟩ | ⟨hx, _⟩
          · exact .inr ⟨rfl, hw.finish hp0 hs hvis⟩
          · exact .inl (hw.yield hkey hd hs hx hvis)
      · exact absurd hc hne) fuel _ _ (.inl ⟨D0, CInv.start hd hl hrD⟩) h1
  rcases this with ⟨⟨D, hw⟩ | ⟨_, hf⟩, hnil⟩
  · rcases hw.shape with h | ⟨s', h⟩ <;> rw [hnil] at h <;> simp at h
  · exact hf

theorem cseVisit_mono {n m : Nat} (hnm : n ≤ m) {h : Heap L} {a : List (κ × Nat)} {x : Nat} {r}
    (hv : cseVisit key n h a x = some r) : cseVisit key m h a x = some r := by
  unfold cseVisit at hv ⊢
  split at hv
  · cases hv
  · rename_i t ht
    rw [unfold_mono hnm ht]
    exact hv

theorem cse_mono {n m : Nat} (hnm : n ≤ m) {h h' : Heap L} (hv : cse key n h root = some h') :
    cse key m h root = some h' := by
  simp only [cse, Option.map_eq_some_iff] at hv ⊢
  obtain ⟨w, h1, h2⟩ := hv
  exact ⟨w, walk_mono (fun h a x r => cseVisit_mono hnm) hnm h1, h2⟩

/-- A pass ends. -/
theorem cse_total (hd : ∀ x, h0.Denotes x (tr x)) (hl : Live h0 D0) (hrD : root ∉ D0)
    (hkey : KeyOk key (tr root)) : ∃ n h', cse key n h0 root = some h' := by
  obtain ⟨U, hU1, hU2⟩ := Acyclic.finite (h := h0) (fun x => ⟨_, hd x⟩) [root]
  have hRU : ∀ x, Reachable h0 [root] x → x ∈ U := by
    intro x hx
    induction hx with
    | root h => exact hU1 _ h
    | kid _ hc ih => exact hU2 _ ih _ hc
  let deg := fun x => (h0.kids x).length
  let n := (start h0 [root] ([] : List (κ × Nat))).stack.length + todo deg U [] + 1 + (tr root).size
  refine ⟨n, ?_⟩
  have hsz : ∀ x, Reachable h0 [root] x → (tr x).size ≤ (tr root).size := by
    intro x hx
    rcases reach_sub hd hx with rfl | h
    · exact Nat.le_refl _
    · exact Nat.le_of_lt h.size_lt
  have := walk_total (visit := cseVisit key n) (deg := deg) (U := U)
    (I := fun w => (∃ D, CInv key tr h0 root D0 D w) ∨
      (w.stack = [] ∧ ∀ x, (w.heap.kids x).length = deg x))
    (by
      intro w w1 hi hne hst
      rcases hi with ⟨D, hw⟩ | ⟨hc, _⟩
      · rcases walkStep_cases hne hst with ⟨x, st, hs, hvis, rfl⟩ | ⟨x, st, hs, hvis, rfl⟩ |
          ⟨x, st, h', a', hs, hvis, rfl⟩
        · exact .inl ⟨D, hw.skip hs hvis⟩
        · exact .inl ⟨D, hw.expand hs hvis⟩
        · rcases hw.top hs with ⟨rfl, rfl⟩ | ⟨hx, _⟩
          · refine .inr ⟨rfl, ?_⟩
            intro z
            unfold cseVisit at hvis
            split at hvis
            · cases hvis
            · split at hvis
              · cases hvis; simp only [replace_kids_length]; exact hw.deg z
              · cases hvis; exact hw.deg z
          · exact .inl (hw.yield hkey hd hs hx hvis)
      · exact absurd hc hne)
    (by
      intro w x st hi hs
      rcases hi with ⟨D, hw⟩ | ⟨hc, _⟩
      · have hR := (hw.stackR true x (by rw [hs]; exact List.mem_cons_self)).1
        have : unfold n w.heap x = some (tr x) :=
          unfold_mono (by have := hsz x hR; omega) (hw.den x).unfold_size
        unfold cseVisit
        rw [this]
        simp only
        split <;> rfl
      · rw [hs] at hc; cases hc)
    (by
      intro w hi x
      rcases hi with ⟨D, hw⟩ | ⟨_, h⟩
      · exact Nat.le_of_eq (hw.deg x)
      · exact Nat.le_of_eq (h x))
    (by
      intro w hi b x hx
      rcases hi with ⟨D, hw⟩ | ⟨hc, _⟩
      · exact hRU x (hw.stackR b x hx).1
      · rw [hc] at hx; simp at hx)
    n _ (.inl ⟨D0, CInv.start hd hl hrD⟩) (by simp only [n, Heap.start]; omega)
  obtain ⟨w', hw'⟩ := this
  exact ⟨w'.heap, by simp only [cse, hw', Option.map_some]⟩

end Heap
end R2U2
