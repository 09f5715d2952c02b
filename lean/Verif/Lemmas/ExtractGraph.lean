import Verif.Spec.ExtractGraph
import Verif.Lemmas.Transform
/-
Lemmas for C57: the graph built for an extracted term.
-/
namespace R2U2
namespace PGraph
open Expr
variable {atomNode : Nat → Nat}

/-- Nodes in use have operands in use. -/
def Closed (g : PGraph) : Prop := ∀ p, p < g.next → ∀ c ∈ g.heap.kids p, c < g.next

/-- `g'` has the nodes of `g`, unchanged but for their parents. -/
structure Ext (g g' : PGraph) : Prop where
  next : g.next ≤ g'.next
  lab : ∀ x, x < g.next → g'.heap.lab x = g.heap.lab x
  kids : ∀ x, x < g.next → g'.heap.kids x = g.heap.kids x
  bpd : ∀ x, x < g.next → g'.bpd x = g.bpd x
  wpd : ∀ x, x < g.next → g'.wpd x = g.wpd x

theorem Ext.refl (g : PGraph) : Ext g g := ⟨Nat.le_refl _, fun _ _ => rfl, fun _ _ => rfl, fun _ _ => rfl, fun _ _ => rfl⟩

theorem Ext.trans {g g1 g2 : PGraph} (h : Ext g g1) (h' : Ext g1 g2) : Ext g g2 where
  next := Nat.le_trans h.next h'.next
  lab x hx := by rw [h'.lab x (Nat.lt_of_lt_of_le hx h.next), h.lab x hx]
  kids x hx := by rw [h'.kids x (Nat.lt_of_lt_of_le hx h.next), h.kids x hx]
  bpd x hx := by rw [h'.bpd x (Nat.lt_of_lt_of_le hx h.next), h.bpd x hx]
  wpd x hx := by rw [h'.wpd x (Nat.lt_of_lt_of_le hx h.next), h.wpd x hx]

theorem IsNode.mono {g g' : PGraph} (e : Ext g g') (hc : g.Closed) {x : Nat} (hx : x < g.next) {l : BNode} {ks : List Nat} {lo hi : Int}
    (h : g.IsNode x l ks lo hi) : g'.IsNode x l ks lo hi ∧ ∀ y ∈ ks, y < g.next := by
  have hk : ∀ y ∈ ks, y < g.next := fun y hy => hc x hx y (by rw [h.kids]; exact hy)
  refine ⟨⟨by rw [e.lab x hx, h.lab], by rw [e.kids x hx, h.kids], ?_, ?_⟩, hk⟩
  · obtain ⟨h1, y, h2, h3⟩ := h.best
    exact ⟨fun y hy => by rw [e.bpd x hx, e.bpd y (hk y hy)]; exact h1 y hy, y, h2, by rw [e.bpd x hx, e.bpd y (hk y h2)]; exact h3⟩
  · obtain ⟨h1, y, h2, h3⟩ := h.worst
    exact ⟨fun y hy => by rw [e.wpd x hx, e.wpd y (hk y hy)]; exact h1 y hy, y, h2, by rw [e.wpd x hx, e.wpd y (hk y h2)]; exact h3⟩

theorem Stands.mono {g g' : PGraph} (e : Ext g g') (hc : g.Closed) : ∀ (t : Egg) (x : Nat), x < g.next → Stands atomNode g t x → Stands atomNode g' t x
  | .bool b, x, hx, h => by
      obtain ⟨h1, h2, h3, h4⟩ := h
      exact ⟨by rw [e.lab x hx, h1], by rw [e.kids x hx, h2], by rw [e.bpd x hx, h3], by rw [e.wpd x hx, h4]⟩
  | .var n, x, _, h => h
  | .not a, x, hx, h => by
      obtain ⟨u, hn, h0⟩ := h
      obtain ⟨m, hk⟩ := hn.mono e hc hx
      exact ⟨u, m, mono e hc a u (hk _ (by simp)) h0⟩
  | .implies a b, x, hx, h => by
      obtain ⟨u, v, hn, h0, h1⟩ := h
      obtain ⟨m, hk⟩ := hn.mono e hc hx
      exact ⟨u, v, m, mono e hc a u (hk _ (by simp)) h0, mono e hc b v (hk _ (by simp)) h1⟩
  | .equiv a b, x, hx, h => by
      obtain ⟨u, v, hn, h0, h1⟩ := h
      obtain ⟨m, hk⟩ := hn.mono e hc hx
      exact ⟨u, v, m, mono e hc a u (hk _ (by simp)) h0, mono e hc b v (hk _ (by simp)) h1⟩
  | .and2 a b, x, hx, h => by
      obtain ⟨u, v, hn, h0, h1⟩ := h
      obtain ⟨m, hk⟩ := hn.mono e hc hx
      exact ⟨u, v, m, mono e hc a u (hk _ (by simp)) h0, mono e hc b v (hk _ (by simp)) h1⟩
  | .and3 a b c, x, hx, h => by
      obtain ⟨u, v, w, hn, h0, h1, h2⟩ := h
      obtain ⟨m, hk⟩ := hn.mono e hc hx
      exact ⟨u, v, w, m, mono e hc a u (hk _ (by simp)) h0, mono e hc b v (hk _ (by simp)) h1, mono e hc c w (hk _ (by simp)) h2⟩
  | .and4 a b c d, x, hx, h => by
      obtain ⟨u, v, w, z, hn, h0, h1, h2, h3⟩ := h
      obtain ⟨m, hk⟩ := hn.mono e hc hx
      exact ⟨u, v, w, z, m, mono e hc a u (hk _ (by simp)) h0, mono e hc b v (hk _ (by simp)) h1, mono e hc c w (hk _ (by simp)) h2, mono e hc d z (hk _ (by simp)) h3⟩
  | .or2 a b, x, hx, h => by
      obtain ⟨u, v, hn, h0, h1⟩ := h
      obtain ⟨m, hk⟩ := hn.mono e hc hx
      exact ⟨u, v, m, mono e hc a u (hk _ (by simp)) h0, mono e hc b v (hk _ (by simp)) h1⟩
  | .or3 a b c, x, hx, h => by
      obtain ⟨u, v, w, hn, h0, h1, h2⟩ := h
      obtain ⟨m, hk⟩ := hn.mono e hc hx
      exact ⟨u, v, w, m, mono e hc a u (hk _ (by simp)) h0, mono e hc b v (hk _ (by simp)) h1, mono e hc c w (hk _ (by simp)) h2⟩
  | .or4 a b c d, x, hx, h => by
      obtain ⟨u, v, w, z, hn, h0, h1, h2, h3⟩ := h
      obtain ⟨m, hk⟩ := hn.mono e hc hx
      exact ⟨u, v, w, z, m, mono e hc a u (hk _ (by simp)) h0, mono e hc b v (hk _ (by simp)) h1, mono e hc c w (hk _ (by simp)) h2, mono e hc d z (hk _ (by simp)) h3⟩
  | .global lb ub a, x, hx, h => by
      obtain ⟨u, hn, h0⟩ := h
      obtain ⟨m, hk⟩ := hn.mono e hc hx
      exact ⟨u, m, mono e hc a u (hk _ (by simp)) h0⟩
  | .future lb ub a, x, hx, h => by
      obtain ⟨u, hn, h0⟩ := h
      obtain ⟨m, hk⟩ := hn.mono e hc hx
      exact ⟨u, m, mono e hc a u (hk _ (by simp)) h0⟩
  | .until lb ub a b, x, hx, h => by
      obtain ⟨u, v, hn, h0, h1⟩ := h
      obtain ⟨m, hk⟩ := hn.mono e hc hx
      exact ⟨u, v, m, mono e hc a u (hk _ (by simp)) h0, mono e hc b v (hk _ (by simp)) h1⟩
  | .release lb ub a b, x, hx, h => by
      obtain ⟨u, v, hn, h0, h1⟩ := h
      obtain ⟨m, hk⟩ := hn.mono e hc hx
      exact ⟨u, v, m, mono e hc a u (hk _ (by simp)) h0, mono e hc b v (hk _ (by simp)) h1⟩

theorem alloc_ext {g : PGraph} (hc : g.Closed) {ks : List Nat} (hk : ∀ y ∈ ks, y < g.next) (l : BNode) (b w : Int) :
    Ext g (g.alloc l ks b w).1 ∧ (g.alloc l ks b w).1.Closed ∧ (g.alloc l ks b w).2 < (g.alloc l ks b w).1.next := by
  refine ⟨⟨Nat.le_succ _, ?_, ?_, ?_, ?_⟩, ?_, Nat.lt_succ_self _⟩
  · intro x hx; exact if_neg (by omega)
  · intro x hx; exact if_neg (by omega)
  · intro x hx; exact if_neg (by omega)
  · intro x hx; exact if_neg (by omega)
  · intro p hp c hcp
    simp only [alloc] at hp hcp ⊢
    split at hcp
    · have := hk c hcp; omega
    · have := hc p (by omega) c hcp; omega

theorem alloc_node {g : PGraph} {ks : List Nat} (h0 : ks ≠ []) (hk : ∀ y ∈ ks, y < g.next) (l : BNode) (lo hi : Int) :
    (g.alloc l ks (Expr.minL (ks.map g.bpd) + lo) (Expr.maxL (ks.map g.wpd) + hi)).1.IsNode g.next l ks lo hi := by
  have h1 : ks.map g.bpd ≠ [] := by simpa using h0
  have h2 : ks.map g.wpd ≠ [] := by simpa using h0
  refine ⟨by simp [alloc], by simp [alloc], ⟨?_, ?_⟩, ⟨?_, ?_⟩⟩
  · intro y hy
    have hy' := hk y hy
    simp only [alloc, if_true]
    rw [if_neg (by omega)]
    have := minL_le (List.mem_map_of_mem (f := g.bpd) hy)
    omega
  · obtain ⟨y, hy, e⟩ := List.mem_map.1 (minL_mem h1)
    have hy' := hk y hy
    refine ⟨y, hy, ?_⟩
    simp only [alloc, if_true]
    rw [if_neg (by omega), e]
  · intro y hy
    have hy' := hk y hy
    simp only [alloc, if_true]
    rw [if_neg (by omega)]
    have := le_maxL (List.mem_map_of_mem (f := g.wpd) hy)
    omega
  · obtain ⟨y, hy, e⟩ := List.mem_map.1 (maxL_mem h2)
    have hy' := hk y hy
    refine ⟨y, hy, ?_⟩
    simp only [alloc, if_true]
    rw [if_neg (by omega), e]

/-- What is known of a graph grown from `g` with `x` standing for `t`. -/
structure Built (atomNode : Nat → Nat) (g : PGraph) (t : Egg) (r : PGraph × Nat) : Prop where
  ext : Ext g r.1
  closed : r.1.Closed
  lt : r.2 < r.1.next
  stands : Stands atomNode r.1 t r.2

theorem logical_built {g g1 : PGraph} (e : Ext g g1) (hc : g1.Closed) {ks : List Nat} (h0 : ks ≠ []) (hk : ∀ y ∈ ks, y < g1.next) (o : OpK) {t : Egg}
    (h : ∀ g2, Ext g1 g2 → g2.IsNode g1.next (.op o false) ks 0 0 → Stands atomNode g2 t g1.next) : Built atomNode g t (g1.logical o ks) := by
  have hn := alloc_node h0 hk (.op o false) 0 0
  simp only [Int.add_zero] at hn
  obtain ⟨a1, a2, a3⟩ := alloc_ext hc hk (.op o false) (Expr.minL (ks.map g1.bpd)) (Expr.maxL (ks.map g1.wpd))
  exact ⟨e.trans a1, a2, a3, h _ a1 hn⟩

theorem temporal_built {g g1 : PGraph} (e : Ext g g1) (hc : g1.Closed) {ks : List Nat} (h0 : ks ≠ []) (hk : ∀ y ∈ ks, y < g1.next) (o : TmpK) (lb ub : Int) {t : Egg}
    (h : ∀ g2, Ext g1 g2 → g2.IsNode g1.next (.temp o lb.natAbs ub.natAbs) ks lb ub → Stands atomNode g2 t g1.next) : Built atomNode g t (g1.temporal o lb ub ks) := by
  have hn := alloc_node h0 hk (.temp o lb.natAbs ub.natAbs) lb ub
  obtain ⟨a1, a2, a3⟩ := alloc_ext hc hk (.temp o lb.natAbs ub.natAbs) (Expr.minL (ks.map g1.bpd) + lb) (Expr.maxL (ks.map g1.wpd) + ub)
  exact ⟨e.trans a1, a2, a3, h _ a1 hn⟩

theorem build_stands : ∀ (t : Egg) (g : PGraph), g.Closed → (∀ n, atomNode n < g.next) → Built atomNode g t (build (clearLeaf atomNode) t g)
  | .bool b, g, hc, _ => by
      obtain ⟨a1, a2, a3⟩ := alloc_ext hc (ks := []) (by simp) (.bool b) 0 0
      exact ⟨a1, a2, a3, by simp [Stands, build, alloc]⟩
  | .var n, g, hc, hl => ⟨⟨Nat.le_refl _, fun _ _ => rfl, fun _ _ => rfl, fun _ _ => rfl, fun _ _ => rfl⟩, hc, hl n, rfl⟩
  | .not a, g, hc, hl => by
      have B0 := build_stands a g hc hl
      generalize hr0 : build (clearLeaf atomNode) a g = r0 at B0
      have l0 := B0.lt
      simp only [build, hr0]
      refine logical_built B0.ext B0.closed (by simp) (by simp only [List.mem_cons, List.not_mem_nil, or_false]; rintro y h; rcases h with rfl; assumption) .neg fun g2 q hn => ?_
      exact ⟨r0.2, hn, Stands.mono q B0.closed _ _ B0.lt B0.stands⟩
  | .implies a b, g, hc, hl => by
      have B0 := build_stands a g hc hl
      generalize hr0 : build (clearLeaf atomNode) a g = r0 at B0
      have B1 := build_stands b r0.1 B0.closed (fun n => Nat.lt_of_lt_of_le (hl n) B0.ext.next)
      generalize hr1 : build (clearLeaf atomNode) b r0.1 = r1 at B1
      have l1 := B1.lt
      have e0 : Ext r0.1 r1.1 := B1.ext
      have l0 := Nat.lt_of_lt_of_le B0.lt e0.next
      simp only [build, hr0, hr1]
      refine logical_built (B0.ext.trans B1.ext) B1.closed (by simp) (by simp only [List.mem_cons, List.not_mem_nil, or_false]; rintro y h; rcases h with rfl | rfl <;> assumption) .imp fun g2 q hn => ?_
      exact ⟨r0.2, r1.2, hn, Stands.mono (e0.trans q) B0.closed _ _ B0.lt B0.stands, Stands.mono q B1.closed _ _ B1.lt B1.stands⟩
  | .equiv a b, g, hc, hl => by
      have B0 := build_stands a g hc hl
      generalize hr0 : build (clearLeaf atomNode) a g = r0 at B0
      have B1 := build_stands b r0.1 B0.closed (fun n => Nat.lt_of_lt_of_le (hl n) B0.ext.next)
      generalize hr1 : build (clearLeaf atomNode) b r0.1 = r1 at B1
      have l1 := B1.lt
      have e0 : Ext r0.1 r1.1 := B1.ext
      have l0 := Nat.lt_of_lt_of_le B0.lt e0.next
      simp only [build, hr0, hr1]
      refine logical_built (B0.ext.trans B1.ext) B1.closed (by simp) (by simp only [List.mem_cons, List.not_mem_nil, or_false]; rintro y h; rcases h with rfl | rfl <;> assumption) .iff fun g2 q hn => ?_
      exact ⟨r0.2, r1.2, hn, Stands.mono (e0.trans q) B0.closed _ _ B0.lt B0.stands, Stands.mono q B1.closed _ _ B1.lt B1.stands⟩
  | .and2 a b, g, hc, hl => by
      have B0 := build_stands a g hc hl
      generalize hr0 : build (clearLeaf atomNode) a g = r0 at B0
      have B1 := build_stands b r0.1 B0.closed (fun n => Nat.lt_of_lt_of_le (hl n) B0.ext.next)
      generalize hr1 : build (clearLeaf atomNode) b r0.1 = r1 at B1
      have l1 := B1.lt
      have e0 : Ext r0.1 r1.1 := B1.ext
      have l0 := Nat.lt_of_lt_of_le B0.lt e0.next
      simp only [build, hr0, hr1]
      refine logical_built (B0.ext.trans B1.ext) B1.closed (by simp) (by simp only [List.mem_cons, List.not_mem_nil, or_false]; rintro y h; rcases h with rfl | rfl <;> assumption) .and fun g2 q hn => ?_
      exact ⟨r0.2, r1.2, hn, Stands.mono (e0.trans q) B0.closed _ _ B0.lt B0.stands, Stands.mono q B1.closed _ _ B1.lt B1.stands⟩
  | .and3 a b c, g, hc, hl => by
      have B0 := build_stands a g hc hl
      generalize hr0 : build (clearLeaf atomNode) a g = r0 at B0
      have B1 := build_stands b r0.1 B0.closed (fun n => Nat.lt_of_lt_of_le (hl n) B0.ext.next)
      generalize hr1 : build (clearLeaf atomNode) b r0.1 = r1 at B1
      have B2 := build_stands c r1.1 B1.closed (fun n => Nat.lt_of_lt_of_le ((fun n => Nat.lt_of_lt_of_le (hl n) B0.ext.next) n) B1.ext.next)
      generalize hr2 : build (clearLeaf atomNode) c r1.1 = r2 at B2
      have l2 := B2.lt
      have e0 : Ext r0.1 r2.1 := (B1.ext.trans B2.ext)
      have l0 := Nat.lt_of_lt_of_le B0.lt e0.next
      have e1 : Ext r1.1 r2.1 := B2.ext
      have l1 := Nat.lt_of_lt_of_le B1.lt e1.next
      simp only [build, hr0, hr1, hr2]
      refine logical_built ((B0.ext.trans B1.ext).trans B2.ext) B2.closed (by simp) (by simp only [List.mem_cons, List.not_mem_nil, or_false]; rintro y h; rcases h with rfl | rfl | rfl <;> assumption) .and fun g2 q hn => ?_
      exact ⟨r0.2, r1.2, r2.2, hn, Stands.mono (e0.trans q) B0.closed _ _ B0.lt B0.stands, Stands.mono (e1.trans q) B1.closed _ _ B1.lt B1.stands, Stands.mono q B2.closed _ _ B2.lt B2.stands⟩
  | .and4 a b c d, g, hc, hl => by
      have B0 := build_stands a g hc hl
      generalize hr0 : build (clearLeaf atomNode) a g = r0 at B0
      have B1 := build_stands b r0.1 B0.closed (fun n => Nat.lt_of_lt_of_le (hl n) B0.ext.next)
      generalize hr1 : build (clearLeaf atomNode) b r0.1 = r1 at B1
      have B2 := build_stands c r1.1 B1.closed (fun n => Nat.lt_of_lt_of_le ((fun n => Nat.lt_of_lt_of_le (hl n) B0.ext.next) n) B1.ext.next)
      generalize hr2 : build (clearLeaf atomNode) c r1.1 = r2 at B2
      have B3 := build_stands d r2.1 B2.closed (fun n => Nat.lt_of_lt_of_le ((fun n => Nat.lt_of_lt_of_le ((fun n => Nat.lt_of_lt_of_le (hl n) B0.ext.next) n) B1.ext.next) n) B2.ext.next)
      generalize hr3 : build (clearLeaf atomNode) d r2.1 = r3 at B3
      have l3 := B3.lt
      have e0 : Ext r0.1 r3.1 := ((B1.ext.trans B2.ext).trans B3.ext)
      have l0 := Nat.lt_of_lt_of_le B0.lt e0.next
      have e1 : Ext r1.1 r3.1 := (B2.ext.trans B3.ext)
      have l1 := Nat.lt_of_lt_of_le B1.lt e1.next
      have e2 : Ext r2.1 r3.1 := B3.ext
      have l2 := Nat.lt_of_lt_of_le B2.lt e2.next
      simp only [build, hr0, hr1, hr2, hr3]
      refine logical_built (((B0.ext.trans B1.ext).trans B2.ext).trans B3.ext) B3.closed (by simp) (by simp only [List.mem_cons, List.not_mem_nil, or_false]; rintro y h; rcases h with rfl | rfl | rfl | rfl <;> assumption) .and fun g2 q hn => ?_
      exact ⟨r0.2, r1.2, r2.2, r3.2, hn, Stands.mono (e0.trans q) B0.closed _ _ B0.lt B0.stands, Stands.mono (e1.trans q) B1.closed _ _ B1.lt B1.stands, Stands.mono (e2.trans q) B2.closed _ _ B2.lt B2.stands, Stands.mono q B3.closed _ _ B3.lt B3.stands⟩
  | .or2 a b, g, hc, hl => by
      have B0 := build_stands a g hc hl
      generalize hr0 : build (clearLeaf atomNode) a g = r0 at B0
      have B1 := build_stands b r0.1 B0.closed (fun n => Nat.lt_of_lt_of_le (hl n) B0.ext.next)
      generalize hr1 : build (clearLeaf atomNode) b r0.1 = r1 at B1
      have l1 := B1.lt
      have e0 : Ext r0.1 r1.1 := B1.ext
      have l0 := Nat.lt_of_lt_of_le B0.lt e0.next
      simp only [build, hr0, hr1]
      refine logical_built (B0.ext.trans B1.ext) B1.closed (by simp) (by simp only [List.mem_cons, List.not_mem_nil, or_false]; rintro y h; rcases h with rfl | rfl <;> assumption) .or fun g2 q hn => ?_
      exact ⟨r0.2, r1.2, hn, Stands.mono (e0.trans q) B0.closed _ _ B0.lt B0.stands, Stands.mono q B1.closed _ _ B1.lt B1.stands⟩
  | .or3 a b c, g, hc, hl => by
      have B0 := build_stands a g hc hl
      generalize hr0 : build (clearLeaf atomNode) a g = r0 at B0
      have B1 := build_stands b r0.1 B0.closed (fun n => Nat.lt_of_lt_of_le (hl n) B0.ext.next)
      generalize hr1 : build (clearLeaf atomNode) b r0.1 = r1 at B1
      have B2 := build_stands c r1.1 B1.closed (fun n => Nat.lt_of_lt_of_le ((fun n => Nat.lt_of_lt_of_le (hl n) B0.ext.next) n) B1.ext.next)
      generalize hr2 : build (clearLeaf atomNode) c r1.1 = r2 at B2
      have l2 := B2.lt
      have e0 : Ext r0.1 r2.1 := (B1.ext.trans B2.ext)
      have l0 := Nat.lt_of_lt_of_le B0.lt e0.next
      have e1 : Ext r1.1 r2.1 := B2.ext
      have l1 := Nat.lt_of_lt_of_le B1.lt e1.next
      simp only [build, hr0, hr1, hr2]
      refine logical_built ((B0.ext.trans B1.ext).trans B2.ext) B2.closed (by simp) (by simp only [List.mem_cons, List.not_mem_nil, or_false]; rintro y h; rcases h with rfl | rfl | rfl <;> assumption) .or fun g2 q hn => ?_
      exact ⟨r0.2, r1.2, r2.2, hn, Stands.mono (e0.trans q) B0.closed _ _ B0.lt B0.stands, Stands.mono (e1.trans q) B1.closed _ _ B1.lt B1.stands, Stands.mono q B2.closed _ _ B2.lt B2.stands⟩
  | .or4 a b c d, g, hc, hl => by
      have B0 := build_stands a g hc hl
      generalize hr0 : build (clearLeaf atomNode) a g = r0 at B0
      have B1 := build_stands b r0.1 B0.closed (fun n => Nat.lt_of_lt_of_le (hl n) B0.ext.next)
      generalize hr1 : build (clearLeaf atomNode) b r0.1 = r1 at B1
      have B2 := build_stands c r1.1 B1.closed (fun n => Nat.lt_of_lt_of_le ((fun n => Nat.lt_of_lt_of_le (hl n) B0.ext.next) n) B1.ext.next)
      generalize hr2 : build (clearLeaf atomNode) c r1.1 = r2 at B2
      have B3 := build_stands d r2.1 B2.closed (fun n => Nat.lt_of_lt_of_le ((fun n => Nat.lt_of_lt_of_le ((fun n => Nat.lt_of_lt_of_le (hl n) B0.ext.next) n) B1.ext.next) n) B2.ext.next)
      generalize hr3 : build (clearLeaf atomNode) d r2.1 = r3 at B3
      have l3 := B3.lt
      have e0 : Ext r0.1 r3.1 := ((B1.ext.trans B2.ext).trans B3.ext)
      have l0 := Nat.lt_of_lt_of_le B0.lt e0.next
      have e1 : Ext r1.1 r3.1 := (B2.ext.trans B3.ext)
      have l1 := Nat.lt_of_lt_of_le B1.lt e1.next
      have e2 : Ext r2.1 r3.1 := B3.ext
      have l2 := Nat.lt_of_lt_of_le B2.lt e2.next
      simp only [build, hr0, hr1, hr2, hr3]
      refine logical_built (((B0.ext.trans B1.ext).trans B2.ext).trans B3.ext) B3.closed (by simp) (by simp only [List.mem_cons, List.not_mem_nil, or_false]; rintro y h; rcases h with rfl | rfl | rfl | rfl <;> assumption) .or fun g2 q hn => ?_
      exact ⟨r0.2, r1.2, r2.2, r3.2, hn, Stands.mono (e0.trans q) B0.closed _ _ B0.lt B0.stands, Stands.mono (e1.trans q) B1.closed _ _ B1.lt B1.stands, Stands.mono (e2.trans q) B2.closed _ _ B2.lt B2.stands, Stands.mono q B3.closed _ _ B3.lt B3.stands⟩
  | .global lb ub a, g, hc, hl => by
      have B0 := build_stands a g hc hl
      generalize hr0 : build (clearLeaf atomNode) a g = r0 at B0
      have l0 := B0.lt
      simp only [build, hr0]
      refine temporal_built B0.ext B0.closed (by simp) (by simp only [List.mem_cons, List.not_mem_nil, or_false]; rintro y h; rcases h with rfl; assumption) .G lb ub fun g2 q hn => ?_
      exact ⟨r0.2, hn, Stands.mono q B0.closed _ _ B0.lt B0.stands⟩
  | .future lb ub a, g, hc, hl => by
      have B0 := build_stands a g hc hl
      generalize hr0 : build (clearLeaf atomNode) a g = r0 at B0
      have l0 := B0.lt
      simp only [build, hr0]
      refine temporal_built B0.ext B0.closed (by simp) (by simp only [List.mem_cons, List.not_mem_nil, or_false]; rintro y h; rcases h with rfl; assumption) .F lb ub fun g2 q hn => ?_
      exact ⟨r0.2, hn, Stands.mono q B0.closed _ _ B0.lt B0.stands⟩
  | .until lb ub a b, g, hc, hl => by
      have B0 := build_stands a g hc hl
      generalize hr0 : build (clearLeaf atomNode) a g = r0 at B0
      have B1 := build_stands b r0.1 B0.closed (fun n => Nat.lt_of_lt_of_le (hl n) B0.ext.next)
      generalize hr1 : build (clearLeaf atomNode) b r0.1 = r1 at B1
      have l1 := B1.lt
      have e0 : Ext r0.1 r1.1 := B1.ext
      have l0 := Nat.lt_of_lt_of_le B0.lt e0.next
      simp only [build, hr0, hr1]
      refine temporal_built (B0.ext.trans B1.ext) B1.closed (by simp) (by simp only [List.mem_cons, List.not_mem_nil, or_false]; rintro y h; rcases h with rfl | rfl <;> assumption) .U lb ub fun g2 q hn => ?_
      exact ⟨r0.2, r1.2, hn, Stands.mono (e0.trans q) B0.closed _ _ B0.lt B0.stands, Stands.mono q B1.closed _ _ B1.lt B1.stands⟩
  | .release lb ub a b, g, hc, hl => by
      have B0 := build_stands a g hc hl
      generalize hr0 : build (clearLeaf atomNode) a g = r0 at B0
      have B1 := build_stands b r0.1 B0.closed (fun n => Nat.lt_of_lt_of_le (hl n) B0.ext.next)
      generalize hr1 : build (clearLeaf atomNode) b r0.1 = r1 at B1
      have l1 := B1.lt
      have e0 : Ext r0.1 r1.1 := B1.ext
      have l0 := Nat.lt_of_lt_of_le B0.lt e0.next
      simp only [build, hr0, hr1]
      refine temporal_built (B0.ext.trans B1.ext) B1.closed (by simp) (by simp only [List.mem_cons, List.not_mem_nil, or_false]; rintro y h; rcases h with rfl | rfl <;> assumption) .R lb ub fun g2 q hn => ?_
      exact ⟨r0.2, r1.2, hn, Stands.mono (e0.trans q) B0.closed _ _ B0.lt B0.stands, Stands.mono q B1.closed _ _ B1.lt B1.stands⟩

end PGraph
end R2U2
