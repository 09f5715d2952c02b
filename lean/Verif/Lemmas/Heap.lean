import Verif.Spec.Graph
import Verif.Lemmas.Tree
import Mathlib.Data.List.Forall2
import Mathlib.Tactic.Tauto
/-
Facts about the object graph and traversals.
-/
namespace R2U2
namespace Tree
variable {L : Type}

mutual
def size : Tree L → Nat
  | .node _ cs => sizeL cs + 1
def sizeL : List (Tree L) → Nat
  | [] => 0
  | c :: cs => size c + sizeL cs
end

theorem size_lt {l : L} {cs : List (Tree L)} {c : Tree L} (h : c ∈ cs) : size c < size (.node l cs) := by
  simp only [size]
  induction cs with
  | nil => simp at h
  | cons d ds ih =>
    simp only [sizeL]
    rcases List.mem_cons.1 h with rfl | h
    · omega
    · have := ih h; omega
end Tree

namespace Heap
variable {L : Type}

theorem collect_eq {β : Type} {f : Nat → Option β} : ∀ (cs : List Nat) (ts : List β),
    collect (cs.map f) = some ts ↔ List.Forall₂ (fun c t => f c = some t) cs ts
  | [], ts => by cases ts <;> simp [collect]
  | c :: cs, ts => by
      simp only [List.map_cons, collect]
      cases h1 : f c with
      | none => cases ts <;> simp [h1]
      | some t =>
        cases h2 : collect (cs.map f) with
        | none =>
          cases ts with
          | nil => simp
          | cons u us =>
            have := (collect_eq (f := f) cs us)
            rw [h2] at this
            simp [← this]
        | some us =>
          cases ts with
          | nil => simp
          | cons v vs =>
            have := (collect_eq (f := f) cs vs)
            rw [h2] at this
            simp [← this, h1]

theorem unfold_succ (n : Nat) (h : Heap L) (x : Nat) (t : Tree L) :
    unfold (n + 1) h x = some t ↔
      ∃ ts, t = .node (h.lab x) ts ∧ List.Forall₂ (fun c t => unfold n h c = some t) (h.kids x) ts := by
  simp only [unfold, Option.map_eq_some_iff, collect_eq]
  constructor
  · rintro ⟨a, h1, h2⟩; exact ⟨a, h2.symm, h1⟩
  · rintro ⟨a, h1, h2⟩; exact ⟨a, h2, h1.symm⟩

theorem unfold_mono {h : Heap L} : ∀ {n m : Nat} {x : Nat} {t : Tree L}, n ≤ m →
    unfold n h x = some t → unfold m h x = some t
  | 0, _, _, _, _, h1 => by simp [unfold] at h1
  | n + 1, 0, _, _, h0, _ => by omega
  | n + 1, m + 1, x, t, h0, h1 => by
      rw [unfold_succ] at h1 ⊢
      obtain ⟨ts, h1, h2⟩ := h1
      exact ⟨ts, h1, h2.imp fun c t hc => unfold_mono (by omega) hc⟩

theorem Denotes.unique {h : Heap L} {x : Nat} {t t' : Tree L} (h1 : h.Denotes x t)
    (h2 : h.Denotes x t') : t = t' := by
  obtain ⟨n, h1⟩ := h1
  obtain ⟨m, h2⟩ := h2
  have a := unfold_mono (Nat.le_max_left n m) h1
  have b := unfold_mono (Nat.le_max_right n m) h2
  exact Option.some.inj (a.symm.trans b)

theorem common_fuel {h : Heap L} : ∀ {cs : List Nat} {ts : List (Tree L)},
    List.Forall₂ h.Denotes cs ts → ∃ n, List.Forall₂ (fun c t => unfold n h c = some t) cs ts
  | _, _, .nil => ⟨0, .nil⟩
  | _, _, .cons ⟨n, h1⟩ hs => by
      obtain ⟨m, hm⟩ := common_fuel hs
      exact ⟨max n m, .cons (unfold_mono (Nat.le_max_left ..) h1)
        (hm.imp fun c t hc => unfold_mono (Nat.le_max_right ..) hc)⟩

theorem denotes_node {h : Heap L} {x : Nat} {l : L} {ts : List (Tree L)} :
    h.Denotes x (.node l ts) ↔ l = h.lab x ∧ List.Forall₂ h.Denotes (h.kids x) ts := by
  constructor
  · rintro ⟨n, hn⟩
    cases n with
    | zero => simp [unfold] at hn
    | succ n =>
      rw [unfold_succ] at hn
      obtain ⟨us, h1, h2⟩ := hn
      cases h1
      exact ⟨rfl, h2.imp fun c t hc => ⟨n, hc⟩⟩
  · rintro ⟨rfl, h2⟩
    obtain ⟨n, hn⟩ := common_fuel h2
    exact ⟨n + 1, (unfold_succ ..).2 ⟨ts, rfl, hn⟩⟩

/-- Children of acyclic heaps denote strictly smaller trees. -/
theorem Acyclic.rank {h : Heap L} (ha : h.Acyclic) :
    ∃ tr : Nat → Tree L, (∀ x, h.Denotes x (tr x)) ∧
      ∀ p c, c ∈ h.kids p → (tr c).size < (tr p).size := by
  refine ⟨fun x => Classical.choose (ha x), fun x => Classical.choose_spec (ha x), ?_⟩
  intro p c hc
  have hp := Classical.choose_spec (ha p)
  have hcc := Classical.choose_spec (ha c)
  show (Classical.choose (ha c)).size < (Classical.choose (ha p)).size
  generalize Classical.choose (ha p) = tp at *
  generalize Classical.choose (ha c) = tc at *
  cases tp with
  | node l ts =>
    rw [denotes_node] at hp
    obtain ⟨i, hi, rfl⟩ := List.mem_iff_getElem.1 hc
    have hi' : i < ts.length := hp.2.length_eq ▸ hi
    have := hp.2.get hi hi'
    have := hcc.unique this
    rw [this]
    exact Tree.size_lt (List.getElem_mem hi')

/-- Replacing a node by one denoting the same tree changes no node's tree. -/
theorem replace_denotes {h : Heap L} {x y : Nat} {t : Tree L} (hx : h.Denotes x t)
    (hy : h.Denotes y t) : ∀ u z, h.Denotes z u → (h.replace x y).Denotes z u := by
  intro u
  induction u using Tree.childInduction with
  | h l us ih =>
    intro z hz
    by_cases hxy : x = y
    · simpa [replace, hxy] using hz
    rw [denotes_node] at hz ⊢
    refine ⟨by simpa [replace, hxy] using hz.1, ?_⟩
    have key : ∀ (cs : List Nat) (vs : List (Tree L)), (∀ v ∈ vs, v ∈ us) →
        List.Forall₂ h.Denotes cs vs →
        List.Forall₂ (h.replace x y).Denotes (cs.map (fun c => if c = x then y else c)) vs ∧
        List.Forall₂ (h.replace x y).Denotes cs vs := by
      intro cs vs hv hf
      induction hf with
      | nil => exact ⟨.nil, .nil⟩
      | @cons c v cs vs hc hf ihf =>
        have hh := ihf (fun v hv' => hv v (List.mem_cons_of_mem _ hv'))
        have hvm := hv v List.mem_cons_self
        refine ⟨.cons ?_ hh.1, .cons (ih v hvm c hc) hh.2⟩
        by_cases hcx : c = x
        · simp only [if_pos hcx]
          subst hcx
          have := hc.unique hx
          subst this
          exact ih v hvm y hy
        · simp only [if_neg hcx]; exact ih v hvm c hc
    have := key _ _ (fun v hv => hv) hz.2
    simp only [replace, if_neg hxy] at this ⊢
    by_cases hp : z ∈ h.pars x
    · simpa only [if_pos hp] using this.1
    · simpa only [if_neg hp] using this.2

/-- Replacing a node nobody points to changes no node's tree. -/
theorem replace_orphan {h : Heap L} {x y : Nat} (hx : h.pars x = []) (z : Nat) :
    (h.replace x y).kids z = h.kids z := by
  unfold replace; split <;> simp [hx]

theorem replace_lab (h : Heap L) (x y z : Nat) : (h.replace x y).lab z = h.lab z := by
  unfold replace; split <;> rfl

theorem denotes_congr {h h' : Heap L} (hl : ∀ x, h'.lab x = h.lab x) (hk : ∀ x, h'.kids x = h.kids x) :
    ∀ t x, h.Denotes x t → h'.Denotes x t := by
  intro t
  induction t using Tree.childInduction with
  | h l us ih =>
    intro z hz
    rw [denotes_node] at hz ⊢
    refine ⟨by rw [hl]; exact hz.1, ?_⟩
    rw [hk]
    have : ∀ (cs : List Nat) (vs : List (Tree L)), (∀ v ∈ vs, v ∈ us) →
        List.Forall₂ h.Denotes cs vs → List.Forall₂ h'.Denotes cs vs := by
      intro cs vs hv hf
      induction hf with
      | nil => exact .nil
      | cons hc hf ihf =>
        exact .cons (ih _ (hv _ List.mem_cons_self) _ hc) (ihf fun v hv' => hv v (List.mem_cons_of_mem _ hv'))
    exact this _ _ (fun v hv => hv) hz.2

theorem replace_kids_length (h : Heap L) (x y z : Nat) :
    ((h.replace x y).kids z).length = (h.kids z).length := by
  unfold replace; split
  · rfl
  · simp only; split <;> simp

/-- New children are old children or the replacement. -/
theorem mem_replace_kids {h : Heap L} {x y p c : Nat} (hc : c ∈ (h.replace x y).kids p) :
    c ∈ h.kids p ∨ (c = y ∧ x ∈ h.kids p) := by
  unfold replace at hc
  split at hc
  · exact .inl hc
  · simp only at hc
    split at hc
    · rw [List.mem_map] at hc
      obtain ⟨d, hd, rfl⟩ := hc
      split
      · rename_i h1; subst h1; exact .inr ⟨rfl, hd⟩
      · exact .inl hd
    · exact .inl hc

theorem pairwise_all {R : Nat → Nat → Prop} : ∀ l : List Nat, (∀ a b, R a b) → l.Pairwise R
  | [], _ => .nil
  | _ :: l, h => .cons (fun b _ => h _ b) (pairwise_all l h)

/-! ### Traversals -/

/-- The nodes that are open: expanded, not yet yielded. -/
def grays (st : List (Bool × Nat)) : List Nat := st.filterMap fun e => if e.1 then some e.2 else none

theorem mem_grays {st : List (Bool × Nat)} {x : Nat} : x ∈ grays st ↔ (true, x) ∈ st := by
  simp only [grays, List.mem_filterMap]
  constructor
  · rintro ⟨⟨b, y⟩, h1, h2⟩
    cases b <;> simp at h2
    subst h2; exact h1
  · intro h; exact ⟨(true, x), h, by simp⟩

theorem grays_white (cs : List Nat) : grays (cs.map fun c => (false, c)) = [] := by
  simp [grays, List.filterMap_map]

theorem grays_append (a b : List (Bool × Nat)) : grays (a ++ b) = grays a ++ grays b := by
  simp [grays]

/-- What every traversal maintains. -/
structure WInv {σ : Type} (rank : Nat → Nat) (roots : List Nat) (w : Walk L σ) : Prop where
  vis : ∀ x, x ∈ w.visited ↔ x ∈ w.out ∨ (true, x) ∈ w.stack
  nodup : (w.out ++ grays w.stack).Nodup
  rankKids : ∀ p c, c ∈ w.heap.kids p → rank c < rank p
  ordered : w.stack.Pairwise fun e f => f.1 = true → rank e.2 < rank f.2
  grayKids : ∀ A x B, w.stack = A ++ (true, x) :: B →
    ∀ c ∈ w.heap.kids x, c ∈ w.visited ∨ (false, c) ∈ A
  blackKids : ∀ x ∈ w.out, ∀ c ∈ w.heap.kids x, c ∈ w.out
  rootsIn : ∀ r ∈ roots, r ∈ w.visited ∨ (false, r) ∈ w.stack

theorem WInv.start {σ : Type} {rank : Nat → Nat} {h : Heap L} (hr : ∀ p c, c ∈ h.kids p → rank c < rank p)
    (roots : List Nat) (a : σ) : WInv rank roots (start h roots a) where
  vis := by simp [Heap.start]
  nodup := by
    simp only [Heap.start, List.nil_append, ← List.map_reverse, grays_white]; simp
  rankKids := hr
  ordered := by
    simp only [Heap.start, ← List.map_reverse]
    rw [List.pairwise_map]
    exact pairwise_all _ (by simp)
  grayKids := by
    intro A x B hst
    simp only [Heap.start, ← List.map_reverse] at hst
    have : (true, x) ∈ (roots.reverse.map fun r => (false, r)) := by rw [hst]; simp
    simp at this
  blackKids := by simp [Heap.start]
  rootsIn := by simp [Heap.start]

variable {σ : Type} {rank : Nat → Nat} {roots : List Nat}

theorem WInv.skip {w : Walk L σ} {x : Nat} {st} (hw : WInv rank roots w) (hs : w.stack = (false, x) :: st)
    (hv : x ∈ w.visited) : WInv rank roots { w with stack := st } where
  vis := by intro y; have := hw.vis y; rw [hs] at this; simpa using this
  nodup := by have := hw.nodup; rw [hs] at this; simpa [grays] using this
  rankKids := hw.rankKids
  ordered := by have := hw.ordered; rw [hs] at this; exact this.of_cons
  grayKids := by
    intro A y B hst c hc
    have := hw.grayKids ((false, x) :: A) y B (by rw [hs]; simp at hst; simp [hst]) c hc
    rcases this with h | h
    · exact .inl h
    · simp only [List.mem_cons, Prod.mk.injEq, true_and] at h
      rcases h with rfl | h
      · exact .inl hv
      · exact .inr h
  blackKids := hw.blackKids
  rootsIn := by
    intro r hr
    have := hw.rootsIn r hr
    rw [hs] at this
    simp only [List.mem_cons, Prod.mk.injEq, true_and] at this
    rcases this with h | rfl | h
    · exact .inl h
    · exact .inl hv
    · exact .inr h

theorem WInv.expand {w : Walk L σ} {x : Nat} {st} (hw : WInv rank roots w) (hs : w.stack = (false, x) :: st)
    (hv : x ∉ w.visited) : WInv rank roots { w with
        stack := (w.heap.kids x).map (fun c => (false, c)) ++ (true, x) :: st
        visited := x :: w.visited } where
  vis := by
    intro y
    have := hw.vis y
    rw [hs] at this
    simp only [List.mem_cons, Prod.mk.injEq, Bool.true_eq_false, false_and, false_or] at this
    simp only [List.mem_cons, List.mem_append, List.mem_map, Prod.mk.injEq, Bool.false_eq_true, false_and,
      and_false, exists_false, true_and, false_or, this]
    tauto
  nodup := by
    have h1 := hw.nodup
    rw [hs] at h1
    have hx : x ∉ w.out ++ grays st := by
      intro hx
      apply hv
      rw [hw.vis, hs]
      rcases List.mem_append.1 hx with h | h
      · exact .inl h
      · exact .inr (List.mem_cons_of_mem _ (mem_grays.1 h))
    have h2 : (w.out ++ grays st).Nodup := by simpa [grays] using h1
    simp only [grays_append, grays_white, List.nil_append]
    have : grays ((true, x) :: st) = x :: grays st := by simp [grays]
    rw [this]
    exact (List.perm_middle.nodup_iff).2 (List.nodup_cons.2 ⟨hx, h2⟩)
  rankKids := hw.rankKids
  ordered := by
    have h1 := hw.ordered
    rw [hs, List.pairwise_cons] at h1
    simp only
    rw [List.pairwise_append]
    refine ⟨?_, ?_, ?_⟩
    · rw [List.pairwise_map]; exact pairwise_all _ (by simp)
    · rw [List.pairwise_cons]
      exact ⟨fun a ha ht => h1.1 a ha ht, h1.2⟩
    · rintro ⟨b, c⟩ hc ⟨b', d⟩ hd ht
      simp only [List.mem_map, Prod.mk.injEq] at hc
      obtain ⟨c', hc', _, rfl⟩ := hc
      have hr := hw.rankKids _ _ hc'
      rcases List.mem_cons.1 hd with h | h
      · cases h; exact hr
      · exact Nat.lt_trans hr (h1.1 _ h ht)
  grayKids := by
    intro A y B hst c hc
    simp only at hst
    by_cases hy : y = x
    · subst hy
      -- the first entry for x is the new one; there is no other since x was unvisited
      have hnot : (true, y) ∉ st := by
        intro h; apply hv; rw [hw.vis, hs]; exact .inr (List.mem_cons_of_mem _ h)
      have hA : A = (w.heap.kids y).map (fun c => (false, c)) := by
        rcases List.append_eq_append_iff.1 hst with ⟨as, h1, h2⟩ | ⟨bs, h1, h2⟩
        · cases as with
          | nil => simpa using h1
          | cons a as =>
            exfalso
            simp only [List.cons_append, List.cons.injEq] at h2
            exact hnot (by rw [h2.2]; simp)
        · cases bs with
          | nil => simpa using h1.symm
          | cons b bs =>
            exfalso
            simp only [List.cons_append, List.cons.injEq] at h2
            have : (true, y) ∈ (w.heap.kids y).map (fun c => (false, c)) := by
              rw [h1, ← h2.1]; simp
            simp at this
      right
      rw [hA]
      exact List.mem_map.2 ⟨c, hc, rfl⟩
    · rcases List.append_eq_append_iff.1 hst with ⟨as, h1, h2⟩ | ⟨bs, h1, h2⟩
      · cases as with
        | nil => simp only [List.nil_append, List.cons.injEq, Prod.mk.injEq, true_and] at h2; exact absurd h2.1.symm hy
        | cons a as =>
          simp only [List.cons_append, List.cons.injEq] at h2
          have := hw.grayKids ((false, x) :: as) y B (by rw [hs, h2.2]; simp) c hc
          rcases this with h | h
          · exact .inl (List.mem_cons_of_mem _ h)
          · simp only [List.mem_cons, Prod.mk.injEq, true_and] at h
            rcases h with rfl | h
            · exact .inl List.mem_cons_self
            · right; rw [h1]; simp [h]
      · cases bs with
        | nil => simp only [List.nil_append, List.cons.injEq, Prod.mk.injEq, true_and] at h2; exact absurd h2.1 hy
        | cons b bs =>
          exfalso
          simp only [List.cons_append, List.cons.injEq] at h2
          have : (true, y) ∈ (w.heap.kids x).map (fun c => (false, c)) := by rw [h1, ← h2.1]; simp
          simp at this
  blackKids := hw.blackKids
  rootsIn := by
    intro r hr
    have := hw.rootsIn r hr
    rw [hs] at this
    simp only [List.mem_cons, Prod.mk.injEq, true_and] at this
    rcases this with h | rfl | h
    · exact .inl (List.mem_cons_of_mem _ h)
    · exact .inl List.mem_cons_self
    · right; simp [h]

/-- All children of a node have been yielded when the node is. -/
theorem WInv.kids_out {w : Walk L σ} {x : Nat} {st} (hw : WInv rank roots w) (hs : w.stack = (true, x) :: st)
    {c : Nat} (hc : c ∈ w.heap.kids x) : c ∈ w.out := by
  have h1 := hw.grayKids [] x st (by rw [hs]; rfl) c hc
  simp only [List.not_mem_nil, or_false] at h1
  rcases (hw.vis c).1 h1 with h | h
  · exact h
  · exfalso
    have hr := hw.rankKids _ _ hc
    rw [hs] at h
    rcases List.mem_cons.1 h with h | h
    · simp only [Prod.mk.injEq, true_and] at h; subst h; omega
    · have ho := hw.ordered
      rw [hs, List.pairwise_cons] at ho
      have := ho.1 _ h rfl
      simp only at this; omega

theorem WInv.yield {w : Walk L σ} {x : Nat} {st} (hw : WInv rank roots w) (hs : w.stack = (true, x) :: st)
    {h' : Heap L} {a' : σ}
    (hk : ∀ p c, c ∈ h'.kids p → rank c < rank p ∧ (c ∈ w.heap.kids p ∨ c ∈ w.out)) :
    WInv rank roots { heap := h', stack := st, visited := w.visited, out := w.out ++ [x], acc := a' } where
  vis := by
    intro y
    have := hw.vis y
    rw [hs] at this
    simp only [List.mem_cons, Prod.mk.injEq, true_and] at this
    simp only [this, List.mem_append, List.mem_singleton]
    tauto
  nodup := by
    have := hw.nodup
    rw [hs] at this
    simpa [grays] using this
  rankKids := fun p c hc => (hk p c hc).1
  ordered := by have := hw.ordered; rw [hs] at this; exact this.of_cons
  grayKids := by
    intro A y B hst c hc
    simp only at hst
    rcases (hk y c hc).2 with h | h
    · have := hw.grayKids ((true, x) :: A) y B (by rw [hs, hst]; rfl) c h
      simpa using this
    · exact .inl ((hw.vis c).2 (.inl h))
  blackKids := by
    intro y hy c hc
    simp only [List.mem_append, List.mem_singleton] at hy ⊢
    left
    rcases (hk y c hc).2 with h | h
    · rcases hy with hy | rfl
      · exact hw.blackKids y hy c h
      · exact hw.kids_out hs h
    · exact h
  rootsIn := by
    intro r hr
    have := hw.rootsIn r hr
    rw [hs] at this
    simpa using this

/-- At the end everything reachable has been yielded. -/
theorem WInv.reachable {w : Walk L σ} (hw : WInv rank roots w) (hs : w.stack = []) {x : Nat}
    (hx : Reachable w.heap roots x) : x ∈ w.out := by
  induction hx with
  | root h =>
    have := hw.rootsIn _ h
    rw [hs] at this
    simp only [List.not_mem_nil, or_false] at this
    have := (hw.vis _).1 this
    rw [hs] at this
    simpa using this
  | kid _ hc ih => exact hw.blackKids _ ih _ hc

/-- Induction over a traversal. -/
theorem walk_inv {visit : Heap L → σ → Nat → Option (Heap L × σ)} {I : Walk L σ → Prop}
    (hstep : ∀ w w', I w → w.stack ≠ [] → walkStep visit w = some w' → I w') :
    ∀ n w w', I w → walk visit n w = some w' → I w' ∧ w'.stack = []
  | 0, _, _, _, h => by simp [walk] at h
  | n + 1, w, w', hi, h => by
      simp only [walk] at h
      split at h
      · rename_i he
        cases h
        exact ⟨hi, List.isEmpty_iff.1 he⟩
      · rename_i he
        have he' : w.stack ≠ [] := fun hc => he (List.isEmpty_iff.2 hc)
        split at h
        · cases h
        · rename_i w1 h1
          exact walk_inv hstep n w1 w' (hstep w w1 hi he' h1) h

/-- The three cases of a step. -/
theorem walkStep_cases {visit : Heap L → σ → Nat → Option (Heap L × σ)} {w w' : Walk L σ}
    (hne : w.stack ≠ []) (h : walkStep visit w = some w') :
    (∃ x st, w.stack = (false, x) :: st ∧ x ∈ w.visited ∧ w' = { w with stack := st }) ∨
    (∃ x st, w.stack = (false, x) :: st ∧ x ∉ w.visited ∧ w' = { w with
        stack := (w.heap.kids x).map (fun c => (false, c)) ++ (true, x) :: st
        visited := x :: w.visited }) ∨
    (∃ x st h' a', w.stack = (true, x) :: st ∧ visit w.heap w.acc x = some (h', a') ∧
      w' = { heap := h', stack := st, visited := w.visited, out := w.out ++ [x], acc := a' }) := by
  unfold walkStep at h
  split at h
  · rename_i hs; exact absurd hs hne
  · rename_i x st hs
    right; right
    simp only [Option.map_eq_some_iff] at h
    obtain ⟨⟨h', a'⟩, h1, h2⟩ := h
    exact ⟨x, st, h', a', hs, h1, h2.symm⟩
  · rename_i x st hs
    split at h
    · rename_i hv; cases h; exact .inl ⟨x, st, hs, hv, rfl⟩
    · rename_i hv; cases h; exact .inr (.inl ⟨x, st, hs, hv, rfl⟩)

/-! ### Termination -/

/-- Work left: stack entries and, for unvisited nodes, what expanding them adds. -/
def todo (deg : Nat → Nat) (U visited : List Nat) : Nat :=
  (U.map fun u => if u ∈ visited then 0 else deg u + 1).sum

theorem todo_le {deg : Nat → Nat} {visited : List Nat} {x : Nat} : ∀ (U : List Nat),
    todo deg U (x :: visited) ≤ todo deg U visited
  | [] => by simp [todo]
  | u :: U => by
      have ih := todo_le (deg := deg) (visited := visited) (x := x) U
      simp only [todo, List.map_cons, List.sum_cons, List.mem_cons] at ih ⊢
      by_cases h1 : u ∈ visited
      · simp [h1]; exact ih
      · by_cases h2 : u = x <;> simp [h1, h2] <;> omega

theorem todo_visit {deg : Nat → Nat} {visited : List Nat} {x : Nat} (hv : x ∉ visited) : ∀ (U : List Nat),
    x ∈ U → todo deg U (x :: visited) + deg x + 1 ≤ todo deg U visited
  | [], h => by simp at h
  | u :: U, h => by
      have le := todo_le (deg := deg) (visited := visited) (x := x) U
      by_cases h2 : u = x
      · subst h2
        simp only [todo, List.map_cons, List.sum_cons, List.mem_cons, true_or, if_true, if_neg hv] at le ⊢
        omega
      · have hx : x ∈ U := by
          rcases List.mem_cons.1 h with h | h
          · exact absurd h.symm h2
          · exact h
        have ih := todo_visit (deg := deg) hv U hx
        simp only [todo, List.map_cons, List.sum_cons, List.mem_cons, h2, false_or] at ih ⊢
        omega

/-- A traversal inside a finite set of nodes ends, if the consumer never fails and keeps
an invariant `I` that bounds the children. -/
theorem walk_total {visit : Heap L → σ → Nat → Option (Heap L × σ)} {deg : Nat → Nat} {U : List Nat}
    {I : Walk L σ → Prop}
    (hI : ∀ w w', I w → w.stack ≠ [] → walkStep visit w = some w' → I w')
    (hv : ∀ w x st, I w → w.stack = (true, x) :: st → (visit w.heap w.acc x).isSome)
    (hk : ∀ w, I w → ∀ x, (w.heap.kids x).length ≤ deg x)
    (hU : ∀ w, I w → ∀ b x, (b, x) ∈ w.stack → x ∈ U) :
    ∀ n w, I w → w.stack.length + todo deg U w.visited < n → ∃ w', walk visit n w = some w'
  | 0, _, _, h => by omega
  | n + 1, w, hi, hn => by
      simp only [walk]
      split
      · exact ⟨w, rfl⟩
      · rename_i he
        have he' : w.stack ≠ [] := fun hc => he (List.isEmpty_iff.2 hc)
        cases hst : walkStep visit w with
        | none =>
          exfalso
          unfold walkStep at hst
          split at hst
          · cases hst
          · rename_i x st hs
            have := hv w x st hi hs
            simp only [Option.map_eq_none_iff] at hst
            rw [hst] at this; simp at this
          · split at hst <;> cases hst
        | some w1 =>
          have hi1 := hI w w1 hi he' hst
          apply walk_total hI hv hk hU n w1 hi1
          rcases walkStep_cases he' hst with ⟨x, st, hs, hvis, rfl⟩ | ⟨x, st, hs, hvis, rfl⟩ |
            ⟨x, st, h', a', hs, hvis, rfl⟩
          · rw [hs] at hn; simp only [List.length_cons] at hn ⊢; omega
          · have hx := hU w hi false x (by rw [hs]; simp)
            have := todo_visit (deg := deg) hvis U hx
            have hd := hk w hi x
            rw [hs] at hn
            simp only [List.length_cons, List.length_append, List.length_map] at hn ⊢
            omega
          · rw [hs] at hn; simp only [List.length_cons] at hn ⊢; omega

/-- More fuel does not change the result. -/
theorem walk_mono {visit visit' : Heap L → σ → Nat → Option (Heap L × σ)}
    (hv : ∀ h a x r, visit h a x = some r → visit' h a x = some r) :
    ∀ {n m : Nat} {w w' : Walk L σ}, n ≤ m → walk visit n w = some w' → walk visit' m w = some w'
  | 0, _, _, _, _, h => by simp [walk] at h
  | n + 1, 0, _, _, h0, _ => by omega
  | n + 1, m + 1, w, w', h0, h => by
      simp only [walk] at h ⊢
      split at h
      · rename_i he; rw [if_pos he]; exact h
      · rename_i he
        rw [if_neg he]
        split at h
        · cases h
        · rename_i w1 h1
          have : walkStep visit' w = some w1 := by
            unfold walkStep at h1 ⊢
            split at h1
            · rename_i hs; simp [hs] at he
            · rename_i x st hs
              simp only [Option.map_eq_some_iff] at h1
              obtain ⟨r, hr, h2⟩ := h1
              simp only [Option.map_eq_some_iff]
              exact ⟨r, hv _ _ _ _ hr, h2⟩
            · rename_i x st hs
              exact h1
          rw [this]
          exact walk_mono hv (by omega) h

/-- The nodes reachable from a node that denotes a tree are finitely many. -/
theorem finite_reach {h : Heap L} : ∀ (t : Tree L) (x : Nat), h.Denotes x t →
    ∃ U : List Nat, x ∈ U ∧ ∀ p ∈ U, ∀ c ∈ h.kids p, c ∈ U := by
  intro t
  induction t using Tree.childInduction with
  | h l ts ih =>
    intro x hx
    rw [denotes_node] at hx
    have key : ∀ (cs : List Nat) (us : List (Tree L)), (∀ u ∈ us, u ∈ ts) → List.Forall₂ h.Denotes cs us →
        ∃ U : List Nat, (∀ c ∈ cs, c ∈ U) ∧ ∀ p ∈ U, ∀ c ∈ h.kids p, c ∈ U := by
      intro cs us hu hf
      induction hf with
      | nil => exact ⟨[], by simp, by simp⟩
      | cons hc hf ihf =>
        obtain ⟨U, h1, h2⟩ := ihf fun v hv' => hu v (List.mem_cons_of_mem _ hv')
        obtain ⟨V, h3, h4⟩ := ih _ (hu _ List.mem_cons_self) _ hc
        refine ⟨U ++ V, ?_, ?_⟩
        · intro c hc'
          rcases List.mem_cons.1 hc' with rfl | h
          · simp [h3]
          · simp [h1 c h]
        · intro p hp c hc'
          rcases List.mem_append.1 hp with h | h
          · simp [h2 p h c hc']
          · simp [h4 p h c hc']
    obtain ⟨U, h1, h2⟩ := key _ _ (fun u hu => hu) hx.2
    refine ⟨x :: U, List.mem_cons_self, ?_⟩
    intro p hp c hc
    rcases List.mem_cons.1 hp with rfl | h
    · exact List.mem_cons_of_mem _ (h1 c hc)
    · exact List.mem_cons_of_mem _ (h2 p h c hc)

theorem Acyclic.finite {h : Heap L} (ha : h.Acyclic) : ∀ roots : List Nat,
    ∃ U : List Nat, (∀ r ∈ roots, r ∈ U) ∧ ∀ p ∈ U, ∀ c ∈ h.kids p, c ∈ U
  | [] => ⟨[], by simp, by simp⟩
  | r :: rs => by
      obtain ⟨t, ht⟩ := ha r
      obtain ⟨U, h1, h2⟩ := finite_reach t r ht
      obtain ⟨V, h3, h4⟩ := ha.finite rs
      refine ⟨U ++ V, ?_, ?_⟩
      · intro c hc'
        rcases List.mem_cons.1 hc' with rfl | h
        · simp [h1]
        · simp [h3 c h]
      · intro p hp c hc'
        rcases List.mem_append.1 hp with h | h
        · simp [h2 p h c hc']
        · simp [h4 p h c hc']

end Heap
end R2U2
