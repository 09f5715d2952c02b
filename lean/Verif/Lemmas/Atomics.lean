import Batteries.Data.List.Perm
import Verif.Spec.Atomics
import Verif.Lemmas.Heap
import Mathlib.Tactic.Set
import Mathlib.Tactic.ByContra
/- Invariants of `compute_atomics` with booleanizer. -/
namespace R2U2
open Heap

/-- `c'` stands for the child `c` of `p`: it is `c` or an atomic over `c`. -/
def Stands (h0 : Heap BNode) (n0 : Nat) (h : Heap BNode) (next p c c' : Nat) : Prop :=
  c' = c ∨ (n0 ≤ c' ∧ c' < next ∧ h.kids c' = [c] ∧ (h0.lab p).engine true = .tl)

/-- `Fresh`, for the nodes in `K`. -/
structure FreshOn (K : Nat → Prop) (h : Heap BNode) (n : Nat) : Prop where
  closed : ∀ p c, K p → c ∈ h.kids p → K c
  known : ∀ p c, K p → (h.lab p).engine true = .tl → c ∈ h.kids p → p ∈ h.pars c
  kids : ∀ p c, c ∈ h.kids p → p < n ∧ c < n
  noAtomic : ∀ x, K x → h.lab x ≠ .atomic

theorem Fresh.on {h : Heap BNode} {n ft pt : Nat} (hf : Fresh h n ft pt) : FreshOn (h.InProgram ft pt) h n where
  closed := by
    rintro p c (hp | hp) hc
    · exact .inl (.kid hp hc)
    · exact .inr (.kid hp hc)
  known := hf.known
  kids := hf.kids
  noAtomic := hf.noAtomic

/-- What holds between two visits; `D` are the nodes visited so far. -/
structure AInv (K : Nat → Prop) (h0 : Heap BNode) (n0 : Nat) (h : Heap BNode) (a : AtomState) (D : Nat → Prop) : Prop where
  next : a.next = n0 + a.aid
  ids : a.ids = ((List.range a.aid).map fun i => (n0 + i, i)).reverse
  labOld : ∀ x, (x < n0 ∨ a.next ≤ x) → h.lab x = h0.lab x
  labNew : ∀ x, n0 ≤ x → x < a.next → h.lab x = .atomic ∧ ∃ c, c < n0 ∧ h.kids x = [c] ∧
    (h0.lab c).engine true = .bz ∧ (h0.lab c).isConst = false ∧ K c
  known : ∀ p c, p < n0 → K p → (h0.lab p).engine true = .tl → c ∈ h.kids p → p ∈ h.pars c
  kidsLt : ∀ p c, c ∈ h.kids p → p < a.next ∧ c < a.next
  edges : ∀ p, p < n0 → List.Forall₂ (Stands h0 n0 h a.next p) (h0.kids p) (h.kids p)
  done : ∀ x, D x → x < n0 → (h0.lab x).engine true = .bz → (h0.lab x).isConst = false →
    ∀ p, p < n0 → K p → (h0.lab p).engine true = .tl → x ∉ h.kids p

theorem lookup_ids (n0 aid x : Nat) :
    (((List.range aid).map fun i => (n0 + i, i)).reverse).lookup x =
      if n0 ≤ x ∧ x < n0 + aid then some (x - n0) else none := by
  induction aid with
  | zero => simp
  | succ k ih =>
    rw [List.range_succ, List.map_append, List.reverse_append, List.map_cons, List.map_nil]
    simp only [List.reverse_cons, List.reverse_nil, List.nil_append, List.cons_append, List.lookup]
    by_cases hx : x = n0 + k
    · subst hx
      simp
    · have : (x == n0 + k) = false := by simpa using hx
      rw [this]
      simp only [ih]
      by_cases h1 : n0 ≤ x ∧ x < n0 + k
      · rw [if_pos h1, if_pos (by omega)]
      · rw [if_neg h1, if_neg (by omega)]

theorem AInv.start {K : Nat → Prop} {h0 : Heap BNode} {n0 : Nat} (hf : FreshOn K h0 n0) :
    AInv K h0 n0 h0 ⟨[], 0, n0⟩ (fun _ => False) where
  next := rfl
  ids := rfl
  labOld := fun _ _ => rfl
  labNew := by intro x h1 h2; simp only at h2; omega
  known := fun p c _ => hf.known p c
  kidsLt := hf.kids
  edges := by
    intro p hp
    exact List.forall₂_same.2 fun c _ => .inl rfl
  done := by intro x h; exact h.elim

theorem AInv.weaken {K : Nat → Prop} {h0 : Heap BNode} {n0 : Nat} {h : Heap BNode} {a : AtomState} {D D' : Nat → Prop}
    (hi : AInv K h0 n0 h a D) (hd : ∀ x, D' x → D x) : AInv K h0 n0 h a D' :=
  { hi with done := fun x hx => hi.done x (hd x hx) }

/-- Adding a visited node that needs nothing. -/
theorem AInv.noop {K : Nat → Prop} {h0 : Heap BNode} {n0 : Nat} {h : Heap BNode} {a : AtomState} {D : Nat → Prop} {x : Nat}
    (hi : AInv K h0 n0 h a D)
    (hx : x < n0 → (h0.lab x).engine true = .bz → (h0.lab x).isConst = false →
      ∀ p, p < n0 → K p → (h0.lab p).engine true = .tl → x ∉ h.kids p) :
    AInv K h0 n0 h a (fun y => D y ∨ y = x) := by
  refine { hi with done := ?_ }
  rintro y (hy | rfl)
  · exact hi.done y hy
  · exact hx

/-- Inserting an atomic. -/
theorem AInv.insert {K : Nat → Prop} {h0 : Heap BNode} {n0 : Nat} {h : Heap BNode} {a : AtomState} {D : Nat → Prop} {x : Nat}
    (hf : FreshOn K h0 n0) (hi : AInv K h0 n0 h a D) (hxn : x < n0) (hxK : K x) (he : (h0.lab x).engine true = .bz)
    (hc : (h0.lab x).isConst = false) :
    AInv K h0 n0
      (insertAtomic h x a.next ((h.pars x).filter fun p => decide ((h.lab p).engine true = .tl)))
      { ids := (a.next, a.aid) :: a.ids, aid := a.aid + 1, next := a.next + 1 }
      (fun y => D y ∨ y = x) := by
  have hnx := hi.next
  have hne : x ≠ a.next := by omega
  set tlp := (h.pars x).filter fun p => decide ((h.lab p).engine true = .tl) with htlp
  have htl : ∀ p, p ∈ tlp ↔ p ∈ h.pars x ∧ (h.lab p).engine true = .tl := by
    intro p; simp [htlp]
  have htlt : ∀ p ∈ tlp, p < n0 → (h0.lab p).engine true = .tl := by
    intro p hp h4
    rw [← hi.labOld p (.inl h4)]
    exact ((htl p).1 hp).2
  have hold : ∀ y, n0 ≤ y → y ≠ a.next → (insertAtomic h x a.next tlp).kids y = h.kids y := by
    intro y hy hya
    simp only [insertAtomic, if_neg hya]
    split
    · rename_i hy'
      by_cases h3 : y < a.next
      · have h2 := ((htl y).1 hy').2
        rw [(hi.labNew y hy h3).1] at h2
        simp [BNode.engine] at h2
      · have : h.kids y = [] := List.eq_nil_iff_forall_not_mem.2 fun c hc => h3 (hi.kidsLt y c hc).1
        simp [this]
    · rfl
  have hnew : (insertAtomic h x a.next tlp).kids a.next = [x] := by simp [insertAtomic]
  constructor
  · simp only; omega
  · simp only [List.range_succ, List.map_append, List.map_cons, List.map_nil, List.reverse_append,
      List.reverse_cons, List.reverse_nil, List.nil_append, List.cons_append, ← hi.ids, hnx]
  · intro y hy
    simp only at hy
    simp only [insertAtomic]
    rw [if_neg (by omega)]
    exact hi.labOld y (by omega)
  · intro y h1 h2
    simp only at h2
    by_cases hy : y = a.next
    · subst hy
      exact ⟨by simp [insertAtomic], x, hxn, hnew, he, hc, hxK⟩
    · obtain ⟨h3, c, h4⟩ := hi.labNew y h1 (by omega)
      refine ⟨by simpa [insertAtomic, hy] using h3, c, ?_⟩
      rw [hold y h1 hy]; exact h4
  · intro p c hpn hpK hpe hpc
    have hp : p ≠ a.next := by omega
    · simp only [insertAtomic, if_neg hp] at hpc ⊢
      have hcase : ∀ d, d ∈ h.kids p → p ∈ (if d = a.next then tlp else if d = x then h.pars x ++ [a.next] else h.pars d) := by
        intro d hd
        have h1 := (hi.kidsLt p d hd).2
        rw [if_neg (by omega)]
        have := hi.known p d hpn hpK hpe hd
        split
        · rename_i hdx; subst hdx; simp [this]
        · exact this
      split at hpc
      · rename_i hpt
        rw [List.mem_map] at hpc
        obtain ⟨d, hd, hdc⟩ := hpc
        split at hdc
        · subst hdc; simp [hpt]
        · subst hdc; exact hcase d hd
      · exact hcase c hpc
  · intro p c hpc
    simp only
    by_cases hp : p = a.next
    · subst hp
      rw [hnew] at hpc
      obtain rfl : c = x := by simpa using hpc
      omega
    · simp only [insertAtomic, if_neg hp] at hpc
      split at hpc
      · rw [List.mem_map] at hpc
        obtain ⟨d, hd, hdc⟩ := hpc
        have := hi.kidsLt p d hd
        split at hdc <;> omega
      · have := hi.kidsLt p c hpc; omega
  · intro p hp
    have hpn : p ≠ a.next := by omega
    have := hi.edges p hp
    have hcov : ∀ c c', Stands h0 n0 h a.next p c c' →
        Stands h0 n0 (insertAtomic h x a.next tlp) (a.next + 1) p c c' := by
      rintro c c' (rfl | ⟨h1, h2, h3, h4⟩)
      · exact .inl rfl
      · exact .inr ⟨h1, by omega, by rw [hold c' h1 (by omega)]; exact h3, h4⟩
    simp only [show (insertAtomic h x a.next tlp).kids p =
      if p ∈ tlp then (h.kids p).map (fun c => if c = x then a.next else c) else h.kids p by
        simp [insertAtomic, hpn]]
    split
    · rename_i hpt
      rw [List.forall₂_map_right_iff]
      refine this.imp ?_
      intro c c' hcc
      split
      · rename_i hcx
        rcases hcc with rfl | ⟨h1, _⟩
        · subst hcx
          exact .inr ⟨by omega, by omega, hnew, htlt p hpt hp⟩
        · omega
      · exact hcov c c' hcc
    · exact this.imp hcov
  · rintro y hy hyn hye hyc p hp hpK hpt hyk
    have hpn : p ≠ a.next := by omega
    simp only [insertAtomic, if_neg hpn] at hyk
    rcases hy with hy | rfl
    · have h1 := hi.done y hy hyn hye hyc p hp hpK hpt
      split at hyk
      · rw [List.mem_map] at hyk
        obtain ⟨d, hd, hdc⟩ := hyk
        split at hdc
        · omega
        · subst hdc; exact h1 hd
      · exact h1 hyk
    · split at hyk
      · rw [List.mem_map] at hyk
        obtain ⟨d, hd, hdc⟩ := hyk
        split at hdc
        · omega
        · rename_i hne; exact hne hdc
      · rename_i hpt'
        apply hpt'
        rw [htl]
        exact ⟨hi.known p y hp hpK hpt hyk, by rw [hi.labOld p (.inl hp)]; exact hpt⟩

/-- One visit, with booleanizer. -/
theorem AInv.visit {K : Nat → Prop} {h0 : Heap BNode} {n0 : Nat} (hf : FreshOn K h0 n0) {h h' : Heap BNode} {a a' : AtomState}
    {D : Nat → Prop} {x : Nat} (hi : AInv K h0 n0 h a D) (hx : x < a.next)
    (hxK : x < n0 → K x) (hv : atomVisit true h a x = some (h', a')) :
    AInv K h0 n0 h' a' (fun y => D y ∨ y = x) ∧ a.next ≤ a'.next ∧ a'.next ≤ a.next + 1 ∧
      (n0 ≤ x → a'.next = a.next) ∧
      ∀ y, n0 ≤ y → y < a.next → h'.kids y = h.kids y := by
  have hlab : x < n0 → h.lab x = h0.lab x := fun hx => hi.labOld x (.inl hx)
  unfold atomVisit at hv
  simp only [Bool.true_eq_false, if_false] at hv
  split at hv
  · rename_i hcond
    simp only [Option.some.injEq, Prod.mk.injEq] at hv
    obtain ⟨rfl, rfl⟩ := hv
    refine ⟨hi.noop ?_, Nat.le_refl _, by omega, fun _ => rfl, fun _ _ _ => rfl⟩
    intro hxn he hc
    rw [← hlab hxn] at he hc
    rcases hcond with h1 | h1 | h1
    · rw [he] at h1; cases h1
    · rw [hc] at h1; cases h1
    · rw [hi.ids, lookup_ids, if_neg (by omega)] at h1
      simp at h1
  · rename_i hcond
    split at hv
    · rename_i hat
      simp only [Option.some.injEq, Prod.mk.injEq] at hv
      obtain ⟨rfl, rfl⟩ := hv
      refine ⟨hi.noop ?_, Nat.le_refl _, by omega, fun _ => rfl, fun _ _ _ => rfl⟩
      intro hxn
      rw [hlab hxn] at hat
      exact absurd hat (hf.noAtomic x (hxK hxn))
    · rename_i hat
      have hxn : x < n0 := by
        by_contra hge
        exact hat (hi.labNew x (by omega) hx).1
      split at hv
      · rename_i hcond2
        simp only [Option.some.injEq, Prod.mk.injEq] at hv
        obtain ⟨rfl, rfl⟩ := hv
        refine ⟨hi.noop ?_, Nat.le_refl _, by omega, fun _ => rfl, fun _ _ _ => rfl⟩
        intro _ he hc p hp hpK hpt hk
        rcases hcond2 with h1 | h1
        · rw [hlab hxn] at h1; exact h1 he
        · have := hi.known p x hp hpK hpt hk
          have hm : p ∈ (h.pars x).filter fun p => decide ((h.lab p).engine true = .tl) := by
            simp only [List.mem_filter, decide_eq_true_eq]
            exact ⟨this, by rw [hi.labOld p (.inl hp)]; exact hpt⟩
          rw [h1] at hm
          simp at hm
      · rename_i hcond2
        simp only [Option.some.injEq, Prod.mk.injEq] at hv
        obtain ⟨rfl, rfl⟩ := hv
        have he : (h0.lab x).engine true = .bz := by
          rw [← hlab hxn]
          by_contra h1
          exact hcond2 (.inl h1)
        have hc : (h0.lab x).isConst = false := by
          rw [← hlab hxn]
          by_contra h1
          exact hcond (.inr (.inl (by simpa using h1)))
        refine ⟨hi.insert hf hxn (hxK hxn) he hc, by simp, by simp, by simp only; omega, ?_⟩
        intro y h1 h2
        simp only [insertAtomic]
        rw [if_neg (by omega), if_neg]
        intro hy
        simp only [List.mem_filter, decide_eq_true_eq] at hy
        rw [(hi.labNew y h1 h2).1] at hy
        simp [BNode.engine] at hy

/-- Old children of nodes in `K` are in `K`. -/
theorem AInv.kidK {K : Nat → Prop} {h0 : Heap BNode} {n0 : Nat} (hf : FreshOn K h0 n0) {h : Heap BNode} {a : AtomState}
    {D : Nat → Prop} {x c : Nat} (hi : AInv K h0 n0 h a D) (hxK : x < n0 → K x) (hx : x < a.next)
    (hc : c ∈ h.kids x) (hcn : c < n0) : K c := by
  by_cases hxn : x < n0
  · obtain ⟨i, hi', rfl⟩ := List.mem_iff_getElem.1 hc
    have he := hi.edges x hxn
    have hi0 : i < (h0.kids x).length := he.length_eq ▸ hi'
    have hst := he.get hi0 hi'
    simp only [List.get_eq_getElem] at hst
    rcases hst with h3 | ⟨h3, _⟩
    · rw [h3]
      exact hf.closed x _ (hxK hxn) (List.getElem_mem hi0)
    · omega
  · obtain ⟨_, d, _, hd, _, _, hK⟩ := hi.labNew x (by omega) hx
    rw [hd] at hc
    obtain rfl : c = d := by simpa using hc
    exact hK

/-- What holds during a traversal; `D0` are the nodes visited by earlier traversals. -/
structure KInv (K : Nat → Prop) (h0 : Heap BNode) (n0 : Nat) (D0 : Nat → Prop) (root : Nat) (w : Walk BNode AtomState) :
    Prop where
  inv : AInv K h0 n0 w.heap w.acc (fun y => D0 y ∨ y ∈ w.out)
  stackLt : ∀ e ∈ w.stack, e.2 < w.acc.next
  stackK : ∀ e ∈ w.stack, e.2 < n0 → K e.2
  visLt : ∀ x ∈ w.visited, x < w.acc.next
  vis : ∀ x ∈ w.visited, x ∈ w.out ∨ (true, x) ∈ w.stack
  old : ∀ p ∈ w.visited, p < n0 → ∀ c ∈ h0.kids p,
    c ∈ w.visited ∨ ∃ y, (false, y) ∈ w.stack ∧ (y = c ∨ (n0 ≤ y ∧ w.heap.kids y = [c]))
  new : ∀ p ∈ w.visited, n0 ≤ p → ∀ c, w.heap.kids p = [c] → c ∈ w.visited ∨ (false, c) ∈ w.stack
  root : root ∈ w.visited ∨ (false, root) ∈ w.stack

theorem KInv.start {K : Nat → Prop} {h0 : Heap BNode} {n0 : Nat} {D0 : Nat → Prop} {root : Nat} {h : Heap BNode}
    {a : AtomState} (hi : AInv K h0 n0 h a D0) (hr : root < n0) (hrK : K root) :
    KInv K h0 n0 D0 root (Heap.start h [root] a) where
  inv := hi.weaken (by simp [Heap.start])
  stackLt := by
    have := hi.next
    simp [Heap.start]; omega
  stackK := by simp [Heap.start, hrK]
  visLt := by simp [Heap.start]
  vis := by simp [Heap.start]
  old := by simp [Heap.start]
  new := by simp [Heap.start]
  root := by simp [Heap.start]

theorem KInv.step {K : Nat → Prop} {h0 : Heap BNode} {n0 : Nat} (hf : FreshOn K h0 n0) {D0 : Nat → Prop} {root : Nat}
    {w w' : Walk BNode AtomState} (hk : KInv K h0 n0 D0 root w) (hne : w.stack ≠ [])
    (hs : walkStep (atomVisit true) w = some w') : KInv K h0 n0 D0 root w' := by
  rcases walkStep_cases hne hs with ⟨x, st, h1, hv, rfl⟩ | ⟨x, st, h1, hv, rfl⟩ | ⟨x, st, h', a', h1, hv, rfl⟩
  · -- skip
    refine ⟨hk.inv, fun e he => hk.stackLt e (by rw [h1]; simp [he]), fun e he => hk.stackK e (by rw [h1]; simp [he]), hk.visLt, ?_, ?_, ?_, ?_⟩
    · intro y hy
      have := hk.vis y hy
      rw [h1] at this
      simpa using this
    · intro p hp hpn c hc
      rcases hk.old p hp hpn c hc with h2 | ⟨y, h2, h3⟩
      · exact .inl h2
      · rw [h1] at h2
        simp only [List.mem_cons, Prod.mk.injEq, true_and] at h2
        rcases h2 with rfl | h2
        · rcases h3 with rfl | ⟨h3, h4⟩
          · exact .inl hv
          · rcases hk.new y hv h3 c h4 with h5 | h5
            · exact .inl h5
            · rw [h1] at h5
              simp only [List.mem_cons, Prod.mk.injEq, true_and] at h5
              rcases h5 with rfl | h5
              · exact .inl hv
              · exact .inr ⟨c, h5, .inl rfl⟩
        · exact .inr ⟨y, h2, h3⟩
    · intro p hp hpn c hc
      rcases hk.new p hp hpn c hc with h2 | h2
      · exact .inl h2
      · rw [h1] at h2
        simp only [List.mem_cons, Prod.mk.injEq, true_and] at h2
        rcases h2 with rfl | h2
        · exact .inl hv
        · exact .inr h2
    · rcases hk.root with h2 | h2
      · exact .inl h2
      · rw [h1] at h2
        simp only [List.mem_cons, Prod.mk.injEq, true_and] at h2
        rcases h2 with rfl | h2
        · exact .inl hv
        · exact .inr h2
  · -- expand
    have hxlt := hk.stackLt (false, x) (by rw [h1]; simp)
    have hxK := hk.stackK (false, x) (by rw [h1]; simp)
    refine ⟨hk.inv, ?_, ?_, ?_, ?_, ?_, ?_, ?_⟩
    · intro e he
      simp only [List.mem_append, List.mem_map, List.mem_cons] at he
      rcases he with ⟨c, hc, rfl⟩ | rfl | he
      · exact (hk.inv.kidsLt x c hc).2
      · exact hxlt
      · exact hk.stackLt e (by rw [h1]; simp [he])
    · intro e he
      simp only [List.mem_append, List.mem_map, List.mem_cons] at he
      rcases he with ⟨c, hc, rfl⟩ | rfl | he
      · intro hcn
        exact hk.inv.kidK hf hxK hxlt hc hcn
      · exact hxK
      · exact hk.stackK e (by rw [h1]; simp [he])
    · intro y hy
      rcases List.mem_cons.1 hy with rfl | hy
      · exact hxlt
      · exact hk.visLt y hy
    · intro y hy
      rcases List.mem_cons.1 hy with rfl | hy
      · right; simp
      · rcases hk.vis y hy with h2 | h2
        · exact .inl h2
        · rw [h1] at h2
          right
          simp only [List.mem_cons, Prod.mk.injEq, Bool.true_eq_false, false_and, false_or] at h2
          simp [h2]
    · intro p hp hpn c hc
      rcases List.mem_cons.1 hp with rfl | hp
      · obtain ⟨i, hi, rfl⟩ := List.mem_iff_getElem.1 hc
        have he := hk.inv.edges p hpn
        have hi' : i < (w.heap.kids p).length := he.length_eq ▸ hi
        have hst := he.get hi hi'
        simp only [List.get_eq_getElem] at hst
        right
        refine ⟨(w.heap.kids p)[i], ?_, ?_⟩
        · simp only [List.mem_append, List.mem_map, Prod.mk.injEq, true_and, exists_eq_right]
          exact .inl (List.getElem_mem hi')
        · rcases hst with h2 | ⟨h2, _, h3, _⟩
          · exact .inl h2
          · exact .inr ⟨h2, h3⟩
      · rcases hk.old p hp hpn c hc with h2 | ⟨y, h2, h3⟩
        · exact .inl (List.mem_cons_of_mem _ h2)
        · rw [h1] at h2
          simp only [List.mem_cons, Prod.mk.injEq, true_and] at h2
          rcases h2 with rfl | h2
          · rcases h3 with rfl | ⟨h3, h4⟩
            · exact .inl List.mem_cons_self
            · right
              refine ⟨c, ?_, .inl rfl⟩
              simp [h4]
          · exact .inr ⟨y, by simp [h2], h3⟩
    · intro p hp hpn c hc
      rcases List.mem_cons.1 hp with rfl | hp
      · right; simp only at hc; simp [hc]
      · rcases hk.new p hp hpn c hc with h2 | h2
        · exact .inl (List.mem_cons_of_mem _ h2)
        · rw [h1] at h2
          simp only [List.mem_cons, Prod.mk.injEq, true_and] at h2
          rcases h2 with rfl | h2
          · exact .inl List.mem_cons_self
          · right; simp [h2]
    · rcases hk.root with h2 | h2
      · exact .inl (List.mem_cons_of_mem _ h2)
      · rw [h1] at h2
        simp only [List.mem_cons, Prod.mk.injEq, true_and] at h2
        rcases h2 with rfl | h2
        · exact .inl List.mem_cons_self
        · right; simp [h2]
  · -- yield
    have hxlt := hk.stackLt (true, x) (by rw [h1]; simp)
    obtain ⟨hi', hle, _, _, hkeep⟩ := hk.inv.visit hf hxlt (hk.stackK (true, x) (by rw [h1]; simp)) hv
    have hmem : ∀ y, (false, y) ∈ w.stack → (false, y) ∈ st := by
      intro y hy; rw [h1] at hy; simpa using hy
    refine ⟨hi'.weaken ?_, ?_, fun e he => hk.stackK e (by rw [h1]; simp [he]), ?_, ?_, ?_, ?_, ?_⟩
    · intro y hy
      simp only [List.mem_append, List.mem_singleton] at hy
      rcases hy with hy | hy | hy
      · exact .inl (.inl hy)
      · exact .inl (.inr hy)
      · exact .inr hy
    · intro e he
      exact Nat.lt_of_lt_of_le (hk.stackLt e (by rw [h1]; simp [he])) hle
    · intro y hy
      exact Nat.lt_of_lt_of_le (hk.visLt y hy) hle
    · intro y hy
      rcases hk.vis y hy with h2 | h2
      · left; simp [h2]
      · rw [h1] at h2
        rcases List.mem_cons.1 h2 with h2 | h2
        · left; simp only [Prod.mk.injEq, true_and] at h2; simp [h2]
        · exact .inr h2
    · intro p hp hpn c hc
      rcases hk.old p hp hpn c hc with h2 | ⟨y, h2, h3⟩
      · exact .inl h2
      · right
        refine ⟨y, hmem y h2, ?_⟩
        rcases h3 with h3 | ⟨h3, h4⟩
        · exact .inl h3
        · exact .inr ⟨h3, by simp only; rw [hkeep y h3 (hk.stackLt _ h2)]; exact h4⟩
    · intro p hp hpn c hc
      simp only at hc
      rw [hkeep p hpn (hk.visLt p hp)] at hc
      rcases hk.new p hp hpn c hc with h2 | h2
      · exact .inl h2
      · exact .inr (hmem c h2)
    · rcases hk.root with h2 | h2
      · exact .inl h2
      · exact .inr (hmem _ h2)

/-- At the end every node reachable in the original graph has been visited. -/
theorem KInv.covers {K : Nat → Prop} {h0 : Heap BNode} {n0 : Nat} (hf : FreshOn K h0 n0) {D0 : Nat → Prop} {root : Nat}
    {w : Walk BNode AtomState} (hk : KInv K h0 n0 D0 root w) (hs : w.stack = []) (hr : root < n0) {x : Nat}
    (hx : h0.Reachable [root] x) : x ∈ w.out ∧ x < n0 := by
  have : x ∈ w.visited ∧ x < n0 := by
    induction hx with
    | root hr' =>
      obtain rfl : _ = root := by simpa using hr'
      have := hk.root
      rw [hs] at this
      exact ⟨by simpa using this, hr⟩
    | kid _ hc ih =>
      have := hk.old _ ih.1 ih.2 _ hc
      rw [hs] at this
      exact ⟨by simpa using this, (hf.kids _ _ hc).2⟩
  refine ⟨?_, this.2⟩
  have h2 := hk.vis x this.1
  rw [hs] at h2
  simpa using h2

/-- The invariant at the end of `compute_atomics`. -/
theorem computeAtomics_inv {h0 : Heap BNode} {n0 ft pt : Nat} (hf : Fresh h0 n0 ft pt) (hft : ft < n0)
    (hpt : pt < n0) {fuel : Nat} {h : Heap BNode} {a : AtomState}
    (hc : computeAtomics fuel true h0 ft pt n0 = some (h, a)) :
    AInv (h0.InProgram ft pt) h0 n0 h a (fun x => h0.Reachable [ft] x ∨ h0.Reachable [pt] x) := by
  unfold computeAtomics at hc
  simp only [Option.bind_eq_some_iff, Option.map_eq_some_iff] at hc
  obtain ⟨w, hw, w', hw', he⟩ := hc
  obtain ⟨k1, s1⟩ := walk_inv (I := KInv (h0.InProgram ft pt) h0 n0 (fun _ => False) ft)
    (fun w w' h1 h2 h3 => h1.step hf.on h2 h3) _ _ _ (KInv.start (AInv.start hf.on) hft (.inl (.root (by simp)))) hw
  obtain ⟨k2, s2⟩ := walk_inv (I := KInv (h0.InProgram ft pt) h0 n0 (fun y => False ∨ y ∈ w.out) pt)
    (fun w w' h1 h2 h3 => h1.step hf.on h2 h3) _ _ _ (KInv.start k1.inv hpt (.inr (.root (by simp)))) hw'
  simp only [Prod.mk.injEq] at he
  obtain ⟨rfl, rfl⟩ := he
  refine k2.inv.weaken ?_
  rintro x (hx | hx)
  · exact .inl (.inr (k1.covers hf.on s1 hft hx).1)
  · exact .inr (k2.covers hf.on s2 hpt hx).1

/-! ### Termination -/

/-- Bookkeeping that bounds the number of new nodes. -/
structure TInv (n0 k0 : Nat) (w : Walk BNode AtomState) : Prop where
  nodup : (w.out ++ grays w.stack).Nodup
  sub : ∀ x ∈ w.out ++ grays w.stack, x ∈ w.visited
  count : w.acc.aid ≤ k0 + (w.out.filter (fun x => decide (x < n0))).length

theorem TInv.step {K : Nat → Prop} {h0 : Heap BNode} {n0 k0 : Nat} (hf : FreshOn K h0 n0) {D0 : Nat → Prop} {root : Nat}
    {w w' : Walk BNode AtomState} (hk : KInv K h0 n0 D0 root w) (ht : TInv n0 k0 w) (hne : w.stack ≠ [])
    (hs : walkStep (atomVisit true) w = some w') : TInv n0 k0 w' := by
  rcases walkStep_cases hne hs with ⟨x, st, h1, hv, rfl⟩ | ⟨x, st, h1, hv, rfl⟩ | ⟨x, st, h', a', h1, hv, rfl⟩
  · have hg : grays w.stack = grays st := by rw [h1]; simp [grays]
    exact ⟨by rw [← hg]; exact ht.nodup, by rw [← hg]; exact ht.sub, ht.count⟩
  · have hg : grays w.stack = grays st := by rw [h1]; simp [grays]
    have hg' : grays ((w.heap.kids x).map (fun c => (false, c)) ++ (true, x) :: st) = x :: grays st := by
      rw [grays_append, grays_white]; simp [grays]
    refine ⟨?_, ?_, ht.count⟩
    · simp only [hg']
      refine (List.perm_middle.nodup_iff).2 (List.nodup_cons.2 ⟨?_, hg ▸ ht.nodup⟩)
      intro hx
      exact hv (ht.sub x (hg ▸ hx))
    · simp only [hg']
      intro y hy
      rw [List.mem_append, List.mem_cons] at hy
      rcases hy with hy | rfl | hy
      · exact List.mem_cons_of_mem _ (ht.sub y (List.mem_append_left _ hy))
      · exact List.mem_cons_self
      · exact List.mem_cons_of_mem _ (ht.sub y (List.mem_append_right _ (hg ▸ hy)))
  · have hxlt := hk.stackLt (true, x) (by rw [h1]; simp)
    obtain ⟨hi', hle, hle', hsame, _⟩ := hk.inv.visit hf hxlt (hk.stackK (true, x) (by rw [h1]; simp)) hv
    have hg : grays w.stack = x :: grays st := by rw [h1]; simp [grays]
    have e : w.out ++ [x] ++ grays st = w.out ++ grays w.stack := by rw [hg]; simp
    refine ⟨by simp only [e]; exact ht.nodup, by simp only [e]; exact ht.sub, ?_⟩
    have h2 := hk.inv.next
    have h3 := hi'.next
    have h4 := ht.count
    simp only [List.filter_append, List.length_append]
    by_cases hx : x < n0
    · simp [hx]; omega
    · have := hsame (by omega)
      omega

/-- The traversal ends. -/
theorem atom_walk_total {K : Nat → Prop} {h0 : Heap BNode} {n0 : Nat} (hf : FreshOn K h0 n0) {D0 : Nat → Prop} {root : Nat}
    {h : Heap BNode} {a : AtomState} (hi : AInv K h0 n0 h a D0) (hr : root < n0) (hrK : K root) :
    ∃ n, ∀ m, n ≤ m → ∃ w', walk (atomVisit true) m (Heap.start h [root] a) = some w' := by
  let deg : Nat → Nat := fun x => if x < n0 then (h0.kids x).length else 1
  let U := List.range (n0 + a.aid + n0)
  refine ⟨(Heap.start h [root] a).stack.length + todo deg U [] + 1, ?_⟩
  intro m hm
  refine walk_total (visit := atomVisit true) (deg := deg) (U := U)
    (I := fun w => KInv K h0 n0 D0 root w ∧ TInv n0 a.aid w) ?_ ?_ ?_ ?_ m _ ?_ ?_
  · intro w w' h1 h2 h3
    exact ⟨h1.1.step hf h2 h3, h1.2.step hf h1.1 h2 h3⟩
  · intro w x st h1 h2
    unfold atomVisit
    simp only [Bool.true_eq_false, if_false]
    split
    · rfl
    · split
      · rfl
      · split <;> rfl
  · intro w h1 x
    simp only [deg]
    split
    · rename_i hx; rw [(h1.1.inv.edges x hx).length_eq]; exact Nat.le_refl _
    · rename_i hx
      by_cases h2 : x < w.acc.next
      · obtain ⟨_, c, _, hc, _⟩ := h1.1.inv.labNew x (by omega) h2
        rw [hc]; simp
      · cases hk : w.heap.kids x with
        | nil => simp
        | cons c cs =>
          have := (h1.1.inv.kidsLt x c (by rw [hk]; simp)).1
          omega
  · intro w h1 b x hx
    have h2 := h1.1.stackLt _ hx
    have h3 := h1.2.count
    have h4 := h1.1.inv.next
    have h5 : (w.out.filter (fun x => decide (x < n0))).length ≤ n0 := by
      have hnd : (w.out.filter (fun x => decide (x < n0))).Nodup :=
        (List.nodup_append.1 h1.2.nodup).1.filter _
      have hsub : w.out.filter (fun x => decide (x < n0)) ⊆ List.range n0 := by
        intro y hy
        have := (List.mem_filter.1 hy).2
        simpa using this
      have := (List.subperm_of_subset hnd hsub).length_le
      simpa using this
    simp only [U, List.mem_range]
    simp only at h2
    omega
  · refine ⟨KInv.start hi hr hrK, ?_, ?_, ?_⟩
    · simp [Heap.start, grays]
    · simp [Heap.start, grays]
    · simp [Heap.start]
  · simp only [Heap.start] at hm ⊢
    omega

theorem computeAtomics_total {h0 : Heap BNode} {n0 ft pt : Nat} (hf : Fresh h0 n0 ft pt) (hft : ft < n0)
    (hpt : pt < n0) : ∃ n r, ∀ m, n ≤ m → computeAtomics m true h0 ft pt n0 = some r := by
  obtain ⟨n1, e1⟩ := atom_walk_total hf.on (AInv.start hf.on) hft (.inl (.root (by simp)))
  obtain ⟨w, hw⟩ := e1 n1 (Nat.le_refl _)
  obtain ⟨k1, s1⟩ := walk_inv (I := KInv (h0.InProgram ft pt) h0 n0 (fun _ => False) ft)
    (fun w w' h1 h2 h3 => h1.step hf.on h2 h3) _ _ _ (KInv.start (AInv.start hf.on) hft (.inl (.root (by simp)))) hw
  obtain ⟨n2, e2⟩ := atom_walk_total hf.on k1.inv hpt (.inr (.root (by simp)))
  obtain ⟨w', hw'⟩ := e2 n2 (Nat.le_refl _)
  refine ⟨max n1 n2, (w'.heap, w'.acc), ?_⟩
  intro m hm
  unfold computeAtomics
  rw [walk_mono (fun _ _ _ _ h => h) (by omega) hw]
  simp only [Option.bind_some]
  rw [walk_mono (fun _ _ _ _ h => h) (by omega) hw']
  rfl

/-! ### What the graph denotes -/

theorem erase_node {l : BNode} (hl : l ≠ .atomic) (ts : List (Tree BNode)) :
    Tree.erase (.node l ts) = .node l (ts.map Tree.erase) := by
  have : ∀ ts, Tree.eraseL ts = ts.map Tree.erase := by
    intro ts
    induction ts with
    | nil => simp [Tree.eraseL]
    | cons t ts ih => simp [Tree.eraseL, ih]
  cases l <;> first | exact absurd rfl hl | simp [Tree.erase, this]

theorem AInv.denotes {K : Nat → Prop} {h0 : Heap BNode} {n0 : Nat} (hf : FreshOn K h0 n0) {h : Heap BNode} {a : AtomState}
    {D : Nat → Prop} (hi : AInv K h0 n0 h a D) :
    ∀ t x, x < n0 → h0.Denotes x t → ∃ t', h.Denotes x t' ∧ (K x → t'.erase = t) := by
  intro t
  induction t using Tree.childInduction with
  | h l ts ih =>
    intro x hx hd
    rw [denotes_node] at hd
    have hk : ∀ c ∈ h0.kids x, c < n0 := fun c hc => (hf.kids x c hc).2
    have key : ∀ (cs cs' : List Nat) (us : List (Tree BNode)), (∀ u ∈ us, u ∈ ts) → (∀ c ∈ cs, c < n0) →
        (K x → ∀ c ∈ cs, K c) →
        List.Forall₂ h0.Denotes cs us → List.Forall₂ (Stands h0 n0 h a.next x) cs cs' →
        ∃ us', List.Forall₂ h.Denotes cs' us' ∧ (K x → us'.map Tree.erase = us) := by
      intro cs cs' us hu hc hcK hd hs
      induction hs generalizing us with
      | nil => cases hd; exact ⟨[], .nil, fun _ => rfl⟩
      | @cons c c' cs cs' h1 h2 ihs =>
        cases hd with
        | @cons _ u _ us d1 d2 =>
          obtain ⟨us', e1, e2⟩ := ihs us (fun v hv => hu v (by simp [hv])) (fun d hd => hc d (by simp [hd]))
            (fun hx d hd => hcK hx d (by simp [hd])) d2
          obtain ⟨u', e3, e4⟩ := ih u (hu u (by simp)) c (hc c (by simp)) d1
          rcases h1 with rfl | ⟨h3, h4, h5, h6⟩
          · exact ⟨u' :: us', .cons e3 e1, fun hx => by simp [e2 hx, e4 (hcK hx c' (by simp))]⟩
          · refine ⟨.node .atomic [u'] :: us', .cons ?_ e1, fun hx => by simp [e2 hx, e4 (hcK hx c (by simp)), Tree.erase]⟩
            rw [denotes_node]
            exact ⟨(hi.labNew c' h3 h4).1.symm, by rw [h5]; exact .cons e3 .nil⟩
    obtain ⟨us', e1, e2⟩ := key _ _ _ (fun u hu => hu) hk (fun hx c hc => hf.closed x c hx hc) hd.2 (hi.edges x hx)
    refine ⟨.node l us', ?_, ?_⟩
    · rw [denotes_node]
      exact ⟨by rw [hi.labOld x (.inl hx)]; exact hd.1, e1⟩
    · intro hxK
      rw [erase_node (by rw [hd.1]; exact hf.noAtomic x hxK), e2 hxK]

theorem AInv.acyclic {K : Nat → Prop} {h0 : Heap BNode} {n0 : Nat} (hf : FreshOn K h0 n0) (ha : h0.Acyclic) {h : Heap BNode}
    {a : AtomState} {D : Nat → Prop} (hi : AInv K h0 n0 h a D) : h.Acyclic := by
  have hold : ∀ x, x < n0 → ∃ t, h.Denotes x t := by
    intro x hx
    obtain ⟨t, ht⟩ := ha x
    obtain ⟨t', h1, _⟩ := hi.denotes hf t x hx ht
    exact ⟨t', h1⟩
  intro x
  by_cases hx : x < n0
  · exact hold x hx
  · by_cases h2 : x < a.next
    · obtain ⟨h3, c, h4, h5, _⟩ := hi.labNew x (by omega) h2
      obtain ⟨t, ht⟩ := hold c h4
      exact ⟨.node (h.lab x) [t], denotes_node.2 ⟨rfl, by rw [h5]; exact .cons ht .nil⟩⟩
    · refine ⟨.node (h.lab x) [], denotes_node.2 ⟨rfl, ?_⟩⟩
      cases hk : h.kids x with
      | nil => exact .nil
      | cons c cs =>
        have := (hi.kidsLt x c (by rw [hk]; simp)).1
        omega

/-- Reachability afterwards, in terms of the original graph. -/
theorem AInv.reach {K : Nat → Prop} {h0 : Heap BNode} {n0 : Nat} (hf : FreshOn K h0 n0) {h : Heap BNode} {a : AtomState}
    {D : Nat → Prop} (hi : AInv K h0 n0 h a D) {r : Nat} (hr : r < n0) {x : Nat} (hx : h.Reachable [r] x) :
    (x < n0 ∧ h0.Reachable [r] x) ∨
      (n0 ≤ x ∧ x < a.next ∧ ∃ c, h.kids x = [c] ∧ h0.Reachable [r] c ∧ c < n0 ∧
        (h0.lab c).engine true = .bz ∧ (h0.lab c).isConst = false) := by
  induction hx with
  | root hr' =>
    obtain rfl : _ = r := by simpa using hr'
    exact .inl ⟨hr, .root (by simp)⟩
  | @kid p c _ hc ih =>
    rcases ih with ⟨h1, h2⟩ | ⟨h1, h2, d, h3, h4, h5, _⟩
    · obtain ⟨i, hi', rfl⟩ := List.mem_iff_getElem.1 hc
      have he := hi.edges p h1
      have hi0 : i < (h0.kids p).length := he.length_eq ▸ hi'
      have hst := he.get hi0 hi'
      simp only [List.get_eq_getElem] at hst
      have hm : (h0.kids p)[i] ∈ h0.kids p := List.getElem_mem hi0
      rcases hst with h3 | ⟨h3, h4, h5, _⟩
      · rw [h3]
        exact .inl ⟨(hf.kids _ _ hm).2, .kid h2 hm⟩
      · right
        obtain ⟨_, c, e1, e2, e3, e4⟩ := hi.labNew _ h3 h4
        rw [h5] at e2
        simp only [List.cons.injEq, and_true] at e2
        subst e2
        exact ⟨h3, h4, _, h5, .kid h2 hm, e1, e3, e4.1⟩
    · rw [h3] at hc
      obtain rfl : c = d := by simpa using hc
      exact .inl ⟨h5, h4⟩

/-! ### Without booleanizer -/

/-- A traversal whose consumer leaves the graph alone is a fold over the postorder. -/
theorem walk_passive {σ : Type} {h : Heap BNode} {visit : Heap BNode → σ → Nat → Option (Heap BNode × σ)}
    {f : σ → Nat → σ} (hv : ∀ a x, visit h a x = some (h, f a x)) (a0 : σ) :
    ∀ n (w : Walk BNode σ), w.heap = h → w.acc = w.out.foldl f a0 →
      walk visit n w = (walk (fun h (_ : Unit) _ => some (h, ())) n
        ⟨w.heap, w.stack, w.visited, w.out, ()⟩).map
          fun u => ⟨u.heap, u.stack, u.visited, u.out, u.out.foldl f a0⟩ := by
  intro n
  induction n with
  | zero => intro w _ _; rfl
  | succ n ih =>
    rintro ⟨wh, st, vis, out, acc⟩ rfl hacc
    simp only at hacc hv
    cases st with
    | nil => simp [walk, hacc]
    | cons e st =>
      rcases e with ⟨b, x⟩
      cases b with
      | true =>
        simp only [walk, walkStep, List.isEmpty_cons, Bool.false_eq_true, if_false, hv, Option.map_some]
        exact ih ⟨wh, st, vis, out ++ [x], f acc x⟩ rfl (by simp [hacc])
      | false =>
        simp only [walk, walkStep, List.isEmpty_cons, Bool.false_eq_true, if_false]
        by_cases hx : x ∈ vis
        · simp only [if_pos hx]
          exact ih ⟨wh, st, vis, out, acc⟩ rfl hacc
        · simp only [if_neg hx]
          exact ih ⟨wh, _, x :: vis, out, acc⟩ rfl hacc

/-- The body of the loop without booleanizer. -/
def sigStep (h : Heap BNode) (a : AtomState) (x : Nat) : AtomState :=
  if (a.ids.lookup x).isSome then a
  else match h.lab x with
    | .signal _ sid =>
        if sid < 0 then { a with ids := (x, a.aid) :: a.ids, aid := a.aid + 1 }
        else { a with ids := (x, sid.toNat) :: a.ids }
    | _ => a

theorem atomVisit_false (h : Heap BNode) (a : AtomState) (x : Nat) :
    atomVisit false h a x = some (h, sigStep h a x) := by
  unfold atomVisit sigStep
  cases hl : h.lab x <;> simp [BNode.engine, BNode.isConst]
  case op o t =>
    split <;> split <;> rfl
  case specSet => exact ite_self _
  case tau => exact ite_self _
  case atomic => exact ite_self _
  case signal t sid =>
    by_cases h1 : a.ids.lookup x = none
    · simp only [h1, Option.isSome_none]
      by_cases hs : sid < 0 <;> simp [hs]
    · obtain ⟨v, hv⟩ := Option.ne_none_iff_exists'.1 h1
      simp [hv]

theorem computeAtomics_false {fuel : Nat} {h0 : Heap BNode} {ft pt next : Nat} {h : Heap BNode} {a : AtomState}
    (hc : computeAtomics fuel false h0 ft pt next = some (h, a)) :
    ∃ o1 o2, postorder fuel h0 [ft] = some o1 ∧ postorder fuel h0 [pt] = some o2 ∧ h = h0 ∧
      a = (o1 ++ o2).foldl (sigStep h0) ⟨[], 0, next⟩ := by
  unfold computeAtomics at hc
  rw [walk_passive (h := h0) (atomVisit_false h0) ⟨[], 0, next⟩ _ _ rfl rfl] at hc
  simp only [Option.bind_eq_some_iff, Option.map_eq_some_iff] at hc
  obtain ⟨w, ⟨u, hu, rfl⟩, w', hw', hr⟩ := hc
  have hpres : ∀ n (w u : Walk BNode Unit), walk (fun h (_ : Unit) _ => some (h, ())) n w = some u →
      u.heap = w.heap := by
    intro n w u h
    exact (walk_inv (I := fun v => v.heap = w.heap) (by
      intro w1 w2 h1 h2 h3
      rcases walkStep_cases h2 h3 with ⟨x, st, _, _, rfl⟩ | ⟨x, st, _, _, rfl⟩ | ⟨x, st, h', a', _, hv, rfl⟩
      · exact h1
      · exact h1
      · simp only [Option.some.injEq, Prod.mk.injEq] at hv
        exact hv.1 ▸ h1) n w u rfl h).1
  have hh : u.heap = h0 := hpres _ _ _ hu
  simp only [hh] at hw'
  rw [walk_passive (h := h0) (atomVisit_false h0) (u.out.foldl (sigStep h0) ⟨[], 0, next⟩) _ _ rfl rfl] at hw'
  simp only [Option.map_eq_some_iff] at hw'
  obtain ⟨u', hu', rfl⟩ := hw'
  simp only [Prod.mk.injEq] at hr
  refine ⟨u.out, u'.out, ?_, ?_, ?_, ?_⟩
  · unfold postorder
    simp only [Option.map_eq_some_iff]
    exact ⟨u, hu, rfl⟩
  · unfold postorder
    simp only [Option.map_eq_some_iff]
    exact ⟨u', hu', rfl⟩
  · rw [← hr.1]; exact hpres _ _ _ hu'
  · rw [← hr.2, List.foldl_append]

structure SInv (h0 : Heap BNode) (D : Nat → Prop) (a : AtomState) : Prop where
  dom : ∀ x, (∃ i, a.ids.lookup x = some i) ↔ D x ∧ ∃ t s, h0.lab x = .signal t s
  mapped : ∀ x i t s, a.ids.lookup x = some i → h0.lab x = .signal t s → 0 ≤ s → (i : Int) = s
  unmapped : ∀ x i t s, a.ids.lookup x = some i → h0.lab x = .signal t s → s < 0 → i < a.aid
  inj : ∀ x y i t s t' s', a.ids.lookup x = some i → a.ids.lookup y = some i → h0.lab x = .signal t s →
    h0.lab y = .signal t' s' → s < 0 → s' < 0 → x = y

theorem lookup_cons_eq (x y : Nat) (i : Nat) (l : List (Nat × Nat)) :
    ((y, i) :: l).lookup x = if x = y then some i else l.lookup x := by
  rw [List.lookup_cons]
  by_cases h : x = y
  · simp [h]
  · have : (x == y) = false := by simpa using h
    rw [this, if_neg h]

theorem SInv.step {h0 : Heap BNode} {D : Nat → Prop} {a : AtomState} (hi : SInv h0 D a) (x : Nat) :
    SInv h0 (fun y => D y ∨ y = x) (sigStep h0 a x) := by
  unfold sigStep
  by_cases h1 : a.ids.lookup x = none
  · rw [h1]
    simp only [Option.isSome_none, Bool.false_eq_true, if_false]
    split
    · next t sid hl =>
      split
      · next hs =>
        constructor
        · intro y
          simp only [lookup_cons_eq]
          by_cases hy : y = x
          · subst hy; simp [hl]
          · simp only [if_neg hy, hi.dom y]; simp [hy]
        · intro y i t' s'
          simp only [lookup_cons_eq]
          split
          · next hy => subst hy; intro _ hl' h0'; rw [hl] at hl'; cases hl'; omega
          · exact hi.mapped y i t' s'
        · intro y i t' s'
          simp only [lookup_cons_eq]
          split
          · intro he; cases he; omega
          · intro h2 h3 h4; have := hi.unmapped y i t' s' h2 h3 h4; omega
        · intro y z i t1 s1 t2 s2
          simp only [lookup_cons_eq]
          split
          · next hy =>
            split
            · next hz => intros; rw [hy, hz]
            · intro he h2 h3 h4 h5 h6; cases he
              have := hi.unmapped z _ t2 s2 h2 h4 h6; omega
          · split
            · intro h2 he h3 h4 h5 h6; cases he
              have := hi.unmapped y _ t1 s1 h2 h3 h5; omega
            · exact hi.inj y z i t1 s1 t2 s2
      · next hs =>
        constructor
        · intro y
          simp only [lookup_cons_eq]
          by_cases hy : y = x
          · subst hy; simp [hl]
          · simp only [if_neg hy, hi.dom y]; simp [hy]
        · intro y i t' s'
          simp only [lookup_cons_eq]
          split
          · next hy => subst hy; intro he hl' h0'; cases he; rw [hl] at hl'; cases hl'; omega
          · exact hi.mapped y i t' s'
        · intro y i t' s'
          simp only [lookup_cons_eq]
          split
          · next hy => subst hy; intro he hl' h0'; rw [hl] at hl'; cases hl'; omega
          · exact hi.unmapped y i t' s'
        · intro y z i t1 s1 t2 s2
          simp only [lookup_cons_eq]
          split
          · next hy => subst hy; intro _ _ hl' _ h5; rw [hl] at hl'; cases hl'; omega
          · split
            · next hz => subst hz; intro _ _ _ hl' _ h5; rw [hl] at hl'; cases hl'; omega
            · exact hi.inj y z i t1 s1 t2 s2
    · next hl =>
      refine ⟨?_, hi.mapped, hi.unmapped, hi.inj⟩
      intro y
      rw [hi.dom y]
      constructor
      · rintro ⟨h2, h3⟩; exact ⟨.inl h2, h3⟩
      · rintro ⟨h2 | rfl, t, s, h3⟩
        · exact ⟨h2, t, s, h3⟩
        · exact absurd h3 (hl t s)
  · obtain ⟨v, hv⟩ := Option.ne_none_iff_exists'.1 h1
    rw [hv]
    simp only [Option.isSome_some, if_true]
    refine ⟨?_, hi.mapped, hi.unmapped, hi.inj⟩
    intro y
    have := (hi.dom x).1 ⟨v, hv⟩
    rw [hi.dom y]
    constructor
    · rintro ⟨h2, h3⟩; exact ⟨.inl h2, h3⟩
    · rintro ⟨h2 | rfl, h3⟩
      · exact ⟨h2, h3⟩
      · exact ⟨this.1, h3⟩

theorem SInv.fold {h0 : Heap BNode} : ∀ (l : List Nat) {D : Nat → Prop} {a : AtomState}, SInv h0 D a →
    SInv h0 (fun y => D y ∨ y ∈ l) (l.foldl (sigStep h0) a)
  | [], D, a, hi => by simpa using hi
  | x :: l, D, a, hi => by
      have := SInv.fold l (hi.step x)
      simp only [List.foldl_cons]
      have e : (fun y => D y ∨ y ∈ x :: l) = fun y => (D y ∨ y = x) ∨ y ∈ l := by
        funext y; simp [or_assoc]
      rw [e]; exact this

end R2U2
