import Verif.Lemmas.Backend
import Verif.Props.Graph
/-
C18, C19: queue regions.
-/
namespace R2U2
open Heap BProg

/-- The nodes that need a queue: formulas, nodes of the temporal engine and atomics. -/
def NeedsQueue (P : BProg) (x : Nat) : Prop :=
  Reachable P.heap P.specs x ∧
    (P.engine x = .tl ∨ P.atomicId x ≠ none)

theorem formula_tl {P : BProg} {x : Nat} (h : (P.heap.lab x).isFormula = true) : P.engine x = .tl := by
  unfold engine
  cases hl : P.heap.lab x <;> rw [hl] at h <;> simp_all [BNode.isFormula, BNode.engine]

theorem scqSize_isSome {P : BProg} {k : Int} {x : Nat} :
    (P.scqSize k x).isSome ↔ P.engine x = .tl ∨ P.atomicId x ≠ none := by
  unfold scqSize
  split
  · rename_i h; simp [formula_tl h]
  · split
    · rename_i h; simp [h]
    · rename_i h
      have : P.engine x = .tl ∨ P.atomicId x ≠ none := by
        by_cases h1 : P.engine x = .tl
        · exact .inl h1
        · exact .inr fun h2 => h ⟨h1, h2⟩
      split <;> simp only [Option.isSome_some, true_iff] <;> exact this

theorem computeScq_inv (P : BProg) (ha : P.heap.Acyclic) (k : Int) (hk : 0 ≤ k) :
    ∃ s N order, (∀ fuel, N ≤ fuel → P.computeScq fuel k = some s) ∧ ScqInv P k order s ∧
      ∀ x, x ∈ order ↔ Reachable P.heap P.specs x := by
  obtain ⟨order, N, h1, h2, h3, _⟩ := C48_postorder P.heap ha P.specs
  refine ⟨order.foldl (P.scqStep k) { total := 0, scq := fun _ => none }, N, order, fun fuel hf => ?_, ?_, h3⟩
  · simp [computeScq, h1 fuel hf]
  · simpa using ScqInv.fold hk order [] _ ScqInv.init (by simpa using h2)

/-- C18.  For every program graph, whatever is shared: `compute_scq_sizes` ends; it gives a
region to exactly the formulas, temporal-engine nodes and atomics of the program; every
region lies between 0 and the reported total; and every slot below the total belongs to
exactly one node's region - the regions are disjoint and fill the reported total. -/
theorem C18_regions (P : BProg) (ha : P.heap.Acyclic) (k : Int) (hk : 0 ≤ k) :
    ∃ s N, (∀ fuel, N ≤ fuel → P.computeScq fuel k = some s) ∧
      (∀ x, (s.scq x).isSome ↔ NeedsQueue P x) ∧
      (∀ x lo hi, s.scq x = some (lo, hi) → 0 ≤ lo ∧ lo ≤ hi ∧ hi ≤ s.total) ∧
      (∀ i : Int, 0 ≤ i → i < s.total →
        ∃ x, (∃ lo hi, s.scq x = some (lo, hi) ∧ lo ≤ i ∧ i < hi) ∧
          ∀ y, (∃ lo hi, s.scq y = some (lo, hi) ∧ lo ≤ i ∧ i < hi) → y = x) := by
  obtain ⟨s, N, order, h1, h2, h3⟩ := computeScq_inv P ha k hk
  refine ⟨s, N, h1, ?_, ?_, ?_⟩
  · intro x; rw [h2.assigned x, scqSize_isSome, h3 x]; rfl
  · intro x lo hi hx
    obtain ⟨a, b, c⟩ := h2.size x lo hi hx
    have := scqSize_nonneg hk c
    exact ⟨a, by omega, b⟩
  · intro i h0 hi
    obtain ⟨x, lo, hi', hx, a, b⟩ := h2.cover i h0 hi
    refine ⟨x, ⟨lo, hi', hx, a, b⟩, ?_⟩
    rintro y ⟨lo', hi'', hy, c, d⟩
    exact h2.uniq i _ _ _ _ _ _ hy hx c d a b

/-- C19 for the operands that know the operator as a parent. -/
theorem C19_known (P : BProg) (ha : P.heap.Acyclic) (k : Int) (hk : 0 ≤ k) :
    ∃ s N, (∀ fuel, N ≤ fuel → P.computeScq fuel k = some s) ∧
      ∀ x, NeedsQueue P x → (P.heap.lab x).isBoolConst = false →
        ∃ lo hi, s.scq x = some (lo, hi) ∧ 1 ≤ hi - lo ∧
          ((P.heap.lab x).isFormula = false → ∀ p c, p ∈ P.heap.pars x → x ∈ P.heap.kids p →
            c ∈ P.heap.kids p → c ≠ x → P.wpd c - P.bpd x + 1 ≤ hi - lo) := by
  obtain ⟨s, N, order, h1, h2, h3⟩ := computeScq_inv P ha k hk
  refine ⟨s, N, h1, ?_⟩
  intro x hx hb
  have hs : (s.scq x).isSome := by
    rw [h2.assigned x, scqSize_isSome, h3 x]; exact hx
  obtain ⟨⟨lo, hi⟩, hr⟩ := Option.isSome_iff_exists.1 hs
  refine ⟨lo, hi, hr, ?_⟩
  have hsz := (h2.size x lo hi hr).2.2
  unfold scqSize at hsz
  split at hsz
  · rename_i hf
    simp only [Option.some.injEq] at hsz
    refine ⟨by omega, ?_⟩
    intro hf'; rw [hf'] at hf; simp at hf
  · split at hsz
    · cases hsz
    · simp only [hb, Bool.false_eq_true, if_false, Option.some.injEq] at hsz
      refine ⟨by omega, ?_⟩
      intro _ p c hpx _ hcp hcx
      have : P.wpd c ≤ P.maxWpd x := by
        apply foldr_max_mem
        apply List.mem_map_of_mem
        simp only [siblings, List.mem_flatMap, List.mem_filter, decide_eq_true_eq]
        exact ⟨p, hpx, hcp, hcx⟩
      omega

/-- C19.  Every operator and atomic of the program gets at least one slot, and enough slots
for the delay between its own earliest verdict and the latest verdict of any node that is
an operand next to it. -/
theorem C19_sizes (P : BProg) (ha : P.heap.Acyclic) (hp : P.heap.ParentsKnown) (k : Int) (hk : 0 ≤ k) :
    ∃ s N, (∀ fuel, N ≤ fuel → P.computeScq fuel k = some s) ∧
      ∀ x, NeedsQueue P x → (P.heap.lab x).isBoolConst = false →
        ∃ lo hi, s.scq x = some (lo, hi) ∧ 1 ≤ hi - lo ∧
          ((P.heap.lab x).isFormula = false → ∀ p c, x ∈ P.heap.kids p → c ∈ P.heap.kids p → c ≠ x →
            P.wpd c - P.bpd x + 1 ≤ hi - lo) := by
  obtain ⟨s, N, h1, h2⟩ := C19_known P ha k hk
  refine ⟨s, N, h1, fun x hx hb => ?_⟩
  obtain ⟨lo, hi, h3, h4, h5⟩ := h2 x hx hb
  exact ⟨lo, hi, h3, h4, fun hf p c hxp => h5 hf p c (hp p x hxp) hxp⟩

/-! A program meeting the hypotheses: `F: G[0,5] a && a` (future time) with `a` an atomic node
(6) shared by both operands, over a booleanizer signal. -/

def bxLab : Nat → BNode
  | 0 => .specSet | 1 => .formula 0 | 2 => .op .and true | 3 => .temp .G 0 5 | 4 => .atomic
  | 5 => .signal true 0 | 6 => .specSet | _ => .tau
def bxKids : Nat → List Nat
  | 0 => [1] | 1 => [2] | 2 => [3, 4] | 3 => [4] | 4 => [5] | _ => []
def bxPars : Nat → List Nat
  | 1 => [0] | 2 => [1] | 3 => [2] | 4 => [2, 3] | 5 => [4] | _ => []
def bxProg : BProg where
  heap := ⟨bxLab, bxKids, bxPars⟩
  bpd := fun _ => 0
  wpd := fun x => if x = 2 ∨ x = 3 then 5 else 0
  ft := 0
  pt := 6
  bz := true
  atomicId := fun x => if x = 4 then some 0 else none

theorem bxProg_acyclic : bxProg.heap.Acyclic
  | 0 => ⟨_, 6, rfl⟩ | 1 => ⟨_, 5, rfl⟩ | 2 => ⟨_, 4, rfl⟩ | 3 => ⟨_, 3, rfl⟩ | 4 => ⟨_, 2, rfl⟩
  | 5 => ⟨_, 1, rfl⟩ | 6 => ⟨_, 1, rfl⟩ | _ + 7 => ⟨_, 1, rfl⟩

theorem bxProg_parents : bxProg.heap.ParentsKnown := by
  intro p c hc
  match p, hc with
  | 0, hc | 1, hc | 2, hc | 3, hc | 4, hc =>
    simp only [bxProg, bxKids, List.mem_cons, List.not_mem_nil, or_false] at hc
    rcases hc with rfl | rfl <;> simp [bxProg, bxPars]
  | 5, hc | 6, hc | _ + 7, hc => simp [bxProg, bxKids] at hc

/-- The atomic, an operand next to `G[0,5] a`, gets six slots; the total is 9. -/
example : (bxProg.computeScq 40 0).map (fun s => (s.total, [1, 2, 3, 4, 5].map s.scq)) =
    some (9, [some (8, 9), some (7, 8), some (6, 7), some (0, 6), none]) := by decide +kernel

end R2U2
