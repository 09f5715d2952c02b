import Verif.Lemmas.Extract
import Verif.Props.Graph
import Verif.Props.Backend
/-
Lemmas for C58: what the greedy importer does to the recorded parents.
-/
namespace R2U2
open Heap
namespace PGraph

/-- Node numbers in use are below `next`, the graph has no cycles, and signals are leaves. -/
structure Ok (g : PGraph) : Prop where
  dom : ∀ p, g.next ≤ p → g.heap.kids p = []
  low : ∀ p c, c ∈ g.heap.kids p → c < g.next
  acyclic : g.heap.Acyclic
  leaf : ∀ x s n, g.heap.lab x = .signal s n → g.heap.kids x = []

/-- `g'` is `g` with new nodes, all reachable from `rs`, all known to their operands. -/
structure Grown (g g' : PGraph) (rs : List Nat) : Prop where
  ok : g'.Ok
  next : g.next ≤ g'.next
  kids : ∀ p, p < g.next → g'.heap.kids p = g.heap.kids p
  known : ∀ p, g.next ≤ p → ∀ c ∈ g'.heap.kids p, p ∈ g'.heap.pars c
  pars : ∀ x y, y ∈ g.heap.pars x → y ∈ g'.heap.pars x
  reach : ∀ p, g.next ≤ p → p < g'.next → Reachable g'.heap rs p
  roots : ∀ r ∈ rs, g.next ≤ r ∧ r < g'.next

theorem Grown.nil {g : PGraph} (h : g.Ok) : Grown g g [] :=
  ⟨h, Nat.le_refl _, fun _ _ => rfl, fun p hp c hc => by rw [h.dom p hp] at hc; simp at hc,
    fun _ _ h => h, fun p h1 h2 => by omega, by simp⟩

theorem reach_grow {g g' : PGraph} (hg : g.Ok) (hk : ∀ p, p < g.next → g'.heap.kids p = g.heap.kids p)
    {rs rs' : List Nat} (hr : ∀ r ∈ rs, r ∈ rs') {p : Nat} (h : Reachable g.heap rs p) :
    Reachable g'.heap rs' p := by
  induction h with
  | root hx => exact .root (hr _ hx)
  | @kid p c _ hc ih =>
      refine .kid ih ?_
      rw [hk p]
      · exact hc
      · by_contra hn
        rw [hg.dom p (by omega)] at hc
        simp at hc

theorem Grown.snoc {g g1 g2 : PGraph} {rs : List Nat} {r : Nat} (h1 : Grown g g1 rs)
    (h2 : Grown g1 g2 [r]) : Grown g g2 (rs ++ [r]) where
  ok := h2.ok
  next := Nat.le_trans h1.next h2.next
  kids p hp := by rw [h2.kids p (by have := h1.next; omega), h1.kids p hp]
  known p hp c hc := by
    by_cases hq : g1.next ≤ p
    · exact h2.known p hq c hc
    · rw [h2.kids p (by omega)] at hc
      exact h2.pars _ _ (h1.known p hp c hc)
  pars x y hy := h2.pars _ _ (h1.pars _ _ hy)
  reach p h3 h4 := by
    by_cases hq : g1.next ≤ p
    · exact reach_mono (by simp) (h2.reach p hq h4)
    · exact reach_grow h1.ok h2.kids (by intro r hr; simp [hr]) (h1.reach p h3 (by omega))
  roots x hx := by
    have h5 := h1.next
    have h6 := h2.next
    rcases List.mem_append.1 hx with hx | hx
    · have := h1.roots x hx; omega
    · have := h2.roots x hx; omega

theorem unfold_agree {g : PGraph} (hg : g.Ok) {h' : Heap BNode}
    (hl : ∀ x, x < g.next → h'.lab x = g.heap.lab x)
    (hk : ∀ x, x < g.next → h'.kids x = g.heap.kids x) :
    ∀ (n x : Nat) (t : Tree BNode), x < g.next → unfold n g.heap x = some t →
      unfold n h' x = some t
  | 0, _, _, _, h => by simp [unfold] at h
  | n + 1, x, t, hx, h => by
      rw [unfold_succ] at h ⊢
      obtain ⟨ts, h1, h2⟩ := h
      refine ⟨ts, by rw [hl x hx]; exact h1, ?_⟩
      rw [hk x hx]
      have : ∀ (cs : List Nat) (ts : List (Tree BNode)), (∀ c ∈ cs, c < g.next) →
          List.Forall₂ (fun c t => unfold n g.heap c = some t) cs ts →
          List.Forall₂ (fun c t => unfold n h' c = some t) cs ts := by
        intro cs ts hc h
        induction h with
        | nil => exact .nil
        | cons p q ih =>
            exact .cons (unfold_agree hg hl hk n _ _ (hc _ (by simp)) p)
              (ih fun c hc' => hc c (by simp [hc']))
      exact this _ _ (hg.low x) h2

theorem Grown.alloc {g g1 : PGraph} {rs : List Nat} (h : Grown g g1 rs) (l : BNode) (b w : Int)
    (hl : ∀ s n, l = .signal s n → rs = []) :
    Grown g (g1.alloc l rs b w).1 [(g1.alloc l rs b w).2] := by
  have hn := h.next
  have hkids : ∀ p, p < g1.next → (g1.alloc l rs b w).1.heap.kids p = g1.heap.kids p := by
    intro p hp
    simp only [PGraph.alloc]
    rw [if_neg (by omega)]
  have hnew : (g1.alloc l rs b w).1.heap.kids g1.next = rs := by simp [PGraph.alloc]
  have hpars : ∀ x y, y ∈ g1.heap.pars x → y ∈ (g1.alloc l rs b w).1.heap.pars x := by
    intro x y hy
    simp only [PGraph.alloc]
    split
    · exact List.mem_append_left _ hy
    · exact hy
  have hdom : ∀ p, g1.next < p → (g1.alloc l rs b w).1.heap.kids p = [] := by
    intro p hp
    simp only [PGraph.alloc]
    rw [if_neg (by omega)]
    exact h.ok.dom p (by omega)
  have hden : ∀ x, x < g1.next → ∃ t, (g1.alloc l rs b w).1.heap.Denotes x t := by
    intro x hx
    obtain ⟨t, n, ht⟩ := h.ok.acyclic x
    refine ⟨t, n, unfold_agree h.ok ?_ hkids n x t hx ht⟩
    intro y hy
    simp only [PGraph.alloc]
    rw [if_neg (by omega)]
  refine ⟨⟨?_, ?_, ?_, ?_⟩, ?_, ?_, ?_, ?_, ?_, ?_⟩
  · intro p hp
    exact hdom p (by simp only [PGraph.alloc] at hp; omega)
  · intro p c hc
    simp only [PGraph.alloc] at hc ⊢
    split at hc
    · have := h.roots c hc; omega
    · have := h.ok.low p c hc; omega
  · intro x
    rcases Nat.lt_trichotomy x g1.next with hx | rfl | hx
    · exact hden x hx
    · have : ∀ cs : List Nat, (∀ c ∈ cs, c < g1.next) →
          ∃ ts, List.Forall₂ (g1.alloc l rs b w).1.heap.Denotes cs ts := by
        intro cs
        induction cs with
        | nil => exact fun _ => ⟨[], .nil⟩
        | cons c cs ih =>
            intro hc
            obtain ⟨t, ht⟩ := hden c (hc c (by simp))
            obtain ⟨ts, hts⟩ := ih fun d hd => hc d (by simp [hd])
            exact ⟨_, .cons ht hts⟩
      obtain ⟨ts, hts⟩ := this rs fun c hc => (h.roots c hc).2
      exact ⟨.node _ ts, denotes_node.2 ⟨rfl, by rw [hnew]; exact hts⟩⟩
    · exact ⟨.node _ [], denotes_node.2 ⟨rfl, by rw [hdom x hx]; exact .nil⟩⟩
  · intro x s n hx
    simp only [PGraph.alloc] at hx ⊢
    split at hx
    · rename_i he; rw [if_pos he]; exact hl s n hx
    · rename_i he; rw [if_neg he]; exact h.ok.leaf x s n hx
  · simp only [PGraph.alloc]; omega
  · intro p hp
    rw [hkids p (by omega), h.kids p hp]
  · intro p hp c hc
    by_cases he : p = g1.next
    · subst he
      rw [hnew] at hc
      simp [PGraph.alloc, hc]
    · have : p < g1.next := by
        by_contra hx
        rw [hdom p (by omega)] at hc
        simp at hc
      rw [hkids p this] at hc
      exact hpars _ _ (h.known p hp c hc)
  · exact fun x y hy => hpars _ _ (h.pars _ _ hy)
  · intro p hp hq
    have hroot : Reachable (g1.alloc l rs b w).1.heap [(g1.alloc l rs b w).2] g1.next :=
      .root (by simp [PGraph.alloc])
    by_cases he : p = g1.next
    · subst he; exact hroot
    · have hlt : p < g1.next := by simp only [PGraph.alloc] at hq; omega
      have h1 := reach_grow (rs' := rs) h.ok hkids (fun _ h => h) (h.reach p hp hlt)
      clear hp hq hlt he
      induction h1 with
      | root hx => exact .kid hroot (by rw [hnew]; exact hx)
      | kid _ hc ih => exact .kid ih hc
  · intro r hr
    simp only [PGraph.alloc, List.mem_singleton] at hr ⊢
    omega

theorem Grown.op {g g1 : PGraph} {rs : List Nat} (h : Grown g g1 rs) (o : OpK) :
    Grown g (g1.logical o rs).1 [(g1.logical o rs).2] := h.alloc _ _ _ (by simp)

theorem Grown.tmp {g g1 : PGraph} {rs : List Nat} (h : Grown g g1 rs) (o : TmpK) (lb ub : Int) :
    Grown g (g1.temporal o lb ub rs).1 [(g1.temporal o lb ub rs).2] := h.alloc _ _ _ (by simp)

theorem build_grown (t : Egg) : ∀ (g : PGraph), g.Ok →
    Grown g (build signalLeaf t g).1 [(build signalLeaf t g).2] := by
  induction t with
  | bool b => exact fun g hg => (Grown.nil hg).alloc _ _ _ (by simp)
  | var n => exact fun g hg => (Grown.nil hg).alloc _ _ _ (fun _ _ _ => rfl)
  | not a iha => exact fun g hg => ((Grown.nil hg).snoc (iha g hg)).op _
  | implies a b iha ihb | equiv a b iha ihb | and2 a b iha ihb | or2 a b iha ihb =>
      exact fun g hg => (((Grown.nil hg).snoc (iha g hg)).snoc (ihb _ (iha g hg).ok)).op _
  | and3 a b c iha ihb ihc | or3 a b c iha ihb ihc =>
      intro g hg
      have h1 := (Grown.nil hg).snoc (iha g hg)
      have h2 := h1.snoc (ihb _ h1.ok)
      exact (h2.snoc (ihc _ h2.ok)).op _
  | and4 a b c d iha ihb ihc ihd | or4 a b c d iha ihb ihc ihd =>
      intro g hg
      have h1 := (Grown.nil hg).snoc (iha g hg)
      have h2 := h1.snoc (ihb _ h1.ok)
      have h3 := h2.snoc (ihc _ h2.ok)
      exact (h3.snoc (ihd _ h3.ok)).op _
  | global lb ub a iha | future lb ub a iha =>
      exact fun g hg => ((Grown.nil hg).snoc (iha g hg)).tmp _ _ _
  | «until» lb ub a b iha ihb | release lb ub a b iha ihb =>
      exact fun g hg => (((Grown.nil hg).snoc (iha g hg)).snoc (ihb _ (iha g hg).ok)).tmp _ _ _

/-- What every step of the importer's second loop keeps. -/
structure Linked (base : Nat) (inUse : List Nat) (h : Heap BNode) : Prop where
  known : ∀ p ∈ inUse, base ≤ p → ∀ c ∈ h.kids p, p ∈ h.pars c
  leaf : ∀ x s n, h.lab x = .signal s n → h.kids x = []

theorem Linked.replace {base : Nat} {inUse : List Nat} {h : Heap BNode} (hl : Linked base inUse h) (x a : Nat)
    (hx : h.kids x = []) : Linked base inUse (h.replace x a) := by
  refine ⟨?_, ?_⟩
  · intro p hp hb c hc
    unfold Heap.replace at hc ⊢
    split at hc
    · rename_i he; rw [if_pos he]; exact hl.known p hp hb c hc
    rename_i he
    rw [if_neg he]
    simp only [hx, List.not_mem_nil, if_false] at hc ⊢
    split at hc
    · rename_i hpx
      rw [List.mem_map] at hc
      obtain ⟨d, hd, rfl⟩ := hc
      by_cases hdx : d = x
      · rw [if_pos hdx]
        simp [hpx]
      · rw [if_neg hdx]
        have := hl.known p hp hb d hd
        split <;> simp [this]
    · have := hl.known p hp hb c hc
      split <;> simp [this]
  · intro y s n hy
    rw [replace_lab] at hy
    have := replace_kids_length h x a y
    rw [hl.leaf y s n hy] at this
    exact List.length_eq_zero_iff.1 this

theorem Linked.relink {base : Nat} {inUse : List Nat} {h : Heap BNode} (hl : Linked base inUse h) (atomNode : Nat → Nat)
    (x : Nat) : Linked base inUse (relink atomNode inUse h x) := by
  unfold PGraph.relink
  split
  · rename_i s n hx
    have h1 := hl.replace x (atomNode n.toNat) (hl.leaf x s n hx)
    refine ⟨?_, h1.leaf⟩
    intro p hp hb c hc
    have := h1.known p hp hb c hc
    dsimp only
    split
    · simp [List.mem_filter, this, hp]
    · exact this
  · exact hl

theorem greedy_linked (fuel : Nat) (atomNode : Nat → Nat) (t : Egg) (old : Nat) (g g' : PGraph)
    (hg : g.Ok) (hold : old < g.next) (h : greedyReplace fuel atomNode t old g = some g') :
    ∀ p, g.next ≤ p → p < g'.next → ∀ c ∈ g'.heap.kids p, p ∈ g'.heap.pars c := by
  have hgr := build_grown t g hg
  unfold greedyReplace at h
  generalize hb : build signalLeaf t g = r at h hgr
  obtain ⟨g1, new⟩ := r
  simp only [Option.bind_eq_bind, Option.pure_def, Option.bind_eq_some_iff, Option.some.injEq] at h
  obtain ⟨inUse, h1, w, h2, rfl⟩ := h
  dsimp only at hgr ⊢
  have hin : ∀ p, g.next ≤ p → p < g1.next → p ∈ inUse := by
    obtain ⟨out, N, h3, _, h4, _⟩ := C48_postorder g1.heap hgr.ok.acyclic [new]
    have : inUse = out := by
      have h5 := h3 (max N fuel) (Nat.le_max_left ..)
      unfold postorder at h1 h5
      rw [Option.map_eq_some_iff] at h1 h5
      obtain ⟨w1, h6, rfl⟩ := h1
      obtain ⟨w2, h7, rfl⟩ := h5
      have h8 := walk_mono (fun _ _ _ _ h => h) (Nat.le_max_right N fuel) h6
      rw [h7, Option.some.injEq] at h8
      rw [h8]
    intro p hp hq
    rw [this, h4]
    exact hgr.reach p hp hq
  have hstart : Linked g.next inUse g1.heap := ⟨fun p _ hp => hgr.known p hp, hgr.ok.leaf⟩
  have hw : Linked g.next inUse w.heap := by
    refine (walk_inv (I := fun w : Walk BNode Unit => Linked g.next inUse w.heap) ?_ fuel _ w hstart h2).1
    intro w w' hI hne hst
    rcases walkStep_cases hne hst with ⟨x, st, hs, hvis, rfl⟩ | ⟨x, st, hs, hvis, rfl⟩ |
      ⟨x, st, h', a', hs, hvis, rfl⟩
    · exact hI
    · exact hI
    · simp only [Option.some.injEq, Prod.mk.injEq] at hvis
      obtain ⟨rfl, _⟩ := hvis
      exact hI.relink atomNode x
  intro p hp hq c hc
  have hpold : p ≠ old := by omega
  have hon : old ≠ new := by have := hgr.roots new (by simp); omega
  have hP := hw.known p (hin p hp hq) hp
  unfold Heap.replace at hc ⊢
  rw [if_neg hon] at hc ⊢
  have key : p ∈ (if c = new then w.heap.pars c ++ w.heap.pars old else w.heap.pars c) := by
    dsimp only at hc
    split at hc
    · rename_i hpo
      rw [List.mem_map] at hc
      obtain ⟨d, hd, rfl⟩ := hc
      by_cases hdx : d = old
      · simp [hdx, hpo]
      · rw [if_neg hdx]
        have := hP d hd
        split <;> simp [this]
    · have := hP c hc
      split <;> simp [this]
  dsimp only
  split
  · simp only [List.mem_filter]
    exact ⟨key, by simpa using hpold⟩
  · exact key

end PGraph
end R2U2
