import Verif.Lemmas.Atomics
import Verif.Props.Assembly
/-
C20, C54: atomic propositions.
-/
namespace R2U2
open Heap

/-- The program `compute_atomics` leaves behind (with booleanizer), as the input of the
code generator. -/
def BProg.withAtomics (P : BProg) (h : Heap BNode) (a : AtomState) : BProg :=
  { P with heap := h, atomicId := fun x => a.ids.lookup x }

/-- C20 with booleanizer: the identifiers are 0, 1, 2, ... and no two atomics share one. -/
theorem C20_distinct (h0 : Heap BNode) (n0 ft pt fuel : Nat) (hf : Fresh h0 n0 ft pt) (hft : ft < n0) (hpt : pt < n0)
    (h : Heap BNode) (a : AtomState) (hc : computeAtomics fuel true h0 ft pt n0 = some (h, a)) :
    (∀ x y i, a.ids.lookup x = some i → a.ids.lookup y = some i → x = y) ∧
    (∀ x i, a.ids.lookup x = some i → i < a.aid) ∧
    (∀ i, i < a.aid → ∃ x, a.ids.lookup x = some i) ∧
    (∀ x i, a.ids.lookup x = some i → h.lab x = .atomic) ∧
    (∀ x, h.InProgram ft pt x → h.lab x = .atomic → ∃ i, a.ids.lookup x = some i) := by
  have hi := computeAtomics_inv hf hft hpt hc
  have hl : ∀ x, a.ids.lookup x = if n0 ≤ x ∧ x < n0 + a.aid then some (x - n0) else none := by
    intro x; rw [hi.ids]; exact lookup_ids _ _ _
  have hsome : ∀ x i, a.ids.lookup x = some i ↔ x = n0 + i ∧ i < a.aid := by
    intro x i
    rw [hl]
    split
    · simp only [Option.some.injEq]; omega
    · simp only [reduceCtorEq, false_iff]; omega
  refine ⟨?_, ?_, ?_, ?_, ?_⟩
  · intro x y i hx hy
    rw [hsome] at hx hy
    omega
  · intro x i hx
    exact ((hsome x i).1 hx).2
  · intro i hlt
    exact ⟨n0 + i, (hsome _ _).2 ⟨rfl, hlt⟩⟩
  · intro x i hx
    rw [hsome] at hx
    exact (hi.labNew x (by omega) (by rw [hi.next]; omega)).1
  · intro x hr hx
    have hcase : (x < n0 ∧ h0.InProgram ft pt x) ∨ (n0 ≤ x ∧ x < a.next) := by
      rcases hr with hr | hr
      · rcases hi.reach hf.on hft hr with ⟨h1, h2⟩ | ⟨h1, h2, _⟩
        · exact .inl ⟨h1, .inl h2⟩
        · exact .inr ⟨h1, h2⟩
      · rcases hi.reach hf.on hpt hr with ⟨h1, h2⟩ | ⟨h1, h2, _⟩
        · exact .inl ⟨h1, .inr h2⟩
        · exact .inr ⟨h1, h2⟩
    rcases hcase with ⟨h1, h2⟩ | ⟨h1, h2⟩
    · rw [hi.labOld x (.inl h1)] at hx
      exact absurd hx (hf.noAtomic x h2)
    · exact ⟨x - n0, (hsome _ _).2 (by have := hi.next; omega)⟩

/-- C20 without booleanizer: exactly the signals of the program get an identifier, a
signal in the signal mapping gets the index it is mapped to, and two signals outside
the mapping get different identifiers.  Missing: a signal outside the mapping may get
the identifier of a mapped one (`C20_mixed_fail`). -/
theorem C20_signals_partial (h0 : Heap BNode) (ha : h0.Acyclic) (ft pt next fuel : Nat)
    (h : Heap BNode) (a : AtomState) (hc : computeAtomics fuel false h0 ft pt next = some (h, a)) :
    h = h0 ∧
    (∀ x, (∃ i, a.ids.lookup x = some i) ↔
      (h0.Reachable [ft] x ∨ h0.Reachable [pt] x) ∧ ∃ t s, h0.lab x = .signal t s) ∧
    (∀ x i t s, a.ids.lookup x = some i → h0.lab x = .signal t s → 0 ≤ s → (i : Int) = s) ∧
    (∀ x y i t s t' s', a.ids.lookup x = some i → a.ids.lookup y = some i → h0.lab x = .signal t s →
      h0.lab y = .signal t' s' → s < 0 → s' < 0 → x = y) := by
  obtain ⟨o1, o2, e1, e2, rfl, rfl⟩ := computeAtomics_false hc
  have hmem : ∀ r o, postorder fuel h [r] = some o → ∀ x, x ∈ o ↔ h.Reachable [r] x := by
    intro r o ho
    obtain ⟨out, N, h1, _, h3, _⟩ := C48_postorder h ha [r]
    rw [Heap.postorder_fuel ho (h1 N (Nat.le_refl _))]
    exact h3
  have hs := SInv.fold (h0 := h) (o1 ++ o2) (D := fun _ => False) (a := ⟨[], 0, next⟩)
    ⟨by simp, by simp, by simp, by simp⟩
  refine ⟨rfl, ?_, hs.mapped, hs.inj⟩
  intro x
  rw [hs.dom x]
  simp only [false_or, List.mem_append, hmem _ _ e1 x, hmem _ _ e2 x]

/-- C20 fails without booleanizer if only some signals are mapped: the specification
`a && b` with `b` mapped to 0 and `a` unmapped gives both the identifier 0.  (The guard
of `assemble` rejects such a program later.) -/
def mixProg : Heap BNode where
  lab := fun | 1 => .formula 0 | 2 => .op .and true | 3 => .signal true (-1) | 4 => .signal true 0 | _ => .specSet
  kids := fun | 0 => [1] | 1 => [2] | 2 => [3, 4] | _ => []
  pars := fun | 1 => [0] | 2 => [1] | 3 => [2] | 4 => [2] | _ => []

theorem C20_mixed_fail : ∃ (h0 h : Heap BNode) (a : AtomState) (x y : Nat), Fresh h0 6 0 5 ∧ h0.Acyclic ∧
    computeAtomics 60 false h0 0 5 6 = some (h, a) ∧ x ≠ y ∧
    a.ids.lookup x = some 0 ∧ a.ids.lookup y = some 0 := by
  have hr : (computeAtomics 60 false mixProg 0 5 6).map (·.2.ids) = some [(4, 0), (3, 0)] := by decide +kernel
  obtain ⟨⟨h, a⟩, hc, hids⟩ := Option.map_eq_some_iff.1 hr
  refine ⟨mixProg, h, a, 3, 4, ⟨?_, ?_, ?_⟩, ?_, hc, by decide, ?_, ?_⟩
  · rintro p c - -
    rcases p with _|_|_|_|_|_|p <;> simp [mixProg] <;>
      (intro h; first | (rcases h with rfl | rfl <;> simp) | (subst h; simp))
  · intro p c
    rcases p with _|_|_|_|_|_|p <;> simp [mixProg] <;> omega
  · rintro x -
    rcases x with _|_|_|_|_|_|x <;> simp [mixProg]
  · exact fun
    | 0 => ⟨_, 4, rfl⟩ | 1 => ⟨_, 3, rfl⟩ | 2 => ⟨_, 2, rfl⟩ | 3 => ⟨_, 1, rfl⟩ | 4 => ⟨_, 1, rfl⟩
    | 5 => ⟨_, 1, rfl⟩ | _ + 6 => ⟨_, 1, rfl⟩
  · simp only at hids; rw [hids]; decide
  · simp only at hids; rw [hids]; decide

/-- C54: `compute_atomics` ends on every program. -/
theorem C54_total (h0 : Heap BNode) (n0 ft pt : Nat) (hf : Fresh h0 n0 ft pt) (hft : ft < n0) (hpt : pt < n0) :
    ∃ n r, ∀ m, n ≤ m → computeAtomics m true h0 ft pt n0 = some r :=
  computeAtomics_total hf hft hpt

/-- C54: leaving out the inserted atomics, every node of the program means what it meant before. -/
theorem C54_meaning (h0 : Heap BNode) (n0 ft pt fuel : Nat) (hf : Fresh h0 n0 ft pt) (hft : ft < n0) (hpt : pt < n0)
    (h : Heap BNode) (a : AtomState) (hc : computeAtomics fuel true h0 ft pt n0 = some (h, a))
    (x : Nat) (hx : h0.InProgram ft pt x) (t : Tree BNode) (ht : h0.Denotes x t) :
    ∃ t', h.Denotes x t' ∧ t'.erase = t := by
  have hlt : x < n0 := by
    have : ∀ r, r < n0 → h0.Reachable [r] x → x < n0 := by
      intro r hr h1
      cases h1 with
      | root h2 => obtain rfl : x = r := by simpa using h2
                   exact hr
      | kid _ h2 => exact (hf.kids _ _ h2).2
    exact hx.elim (this ft hft) (this pt hpt)
  obtain ⟨t', h1, h2⟩ := (computeAtomics_inv hf hft hpt hc).denotes hf.on t x hlt ht
  exact ⟨t', h1, h2 hx⟩

/-- Operands of temporal and logical nodes are computed by one of the engines, and
numeric constants are not among them: what type checking leaves. -/
def BProg.Typed (P : BProg) : Prop :=
  ∀ p c, (P.heap.Reachable [P.ft] p ∨ P.heap.Reachable [P.pt] p) → P.engine p = .tl → c ∈ P.heap.kids p →
    (P.heap.lab c).isBoolConst = true ∨
      ((P.heap.lab c).isConst = false ∧ (P.engine c = .tl ∨ P.engine c = .bz))

/-- C54: afterwards every operand of a temporal or logical node of the program is a
boolean constant, an atomic with an identifier, or computed by the temporal engine, and
the program is what the code generator requires (C22, C23, C26, C53). -/
theorem C54_ready (P : BProg) (n0 fuel : Nat) (hbz : P.bz = true) (hf : Fresh P.heap n0 P.ft P.pt) (hft : P.ft < n0)
    (hpt : P.pt < n0) (hac : P.heap.Acyclic) (hfs : P.heap.lab P.ft = .specSet) (hps : P.heap.lab P.pt = .specSet)
    (har : ∀ x o t, P.heap.InProgram P.ft P.pt x → P.heap.lab x = .op o t → o.isLogical = false → (P.heap.kids x).length ∈ o.bzArity)
    (hty : P.Typed)
    (h : Heap BNode) (a : AtomState) (hc : computeAtomics fuel true P.heap P.ft P.pt n0 = some (h, a)) :
    (P.withAtomics h a).Ready ∧ (P.withAtomics h a).Covered ∧
    (P.Separate → (P.withAtomics h a).Separate) := by
  have hi := computeAtomics_inv hf hft hpt hc
  obtain ⟨_, _, _, h4, h4'⟩ := C20_distinct P.heap n0 P.ft P.pt fuel hf hft hpt h a hc
  have hnx := hi.next
  refine ⟨?_, ?_, ?_⟩
  · constructor
    · exact hi.acyclic hf.on hac
    · exact (hi.labOld P.ft (.inl hft)).trans hfs
    · exact (hi.labOld P.pt (.inl hpt)).trans hps
    · intro x hr o t hx ho
      simp only [BProg.withAtomics] at hx hr ⊢
      have hcase : (x < n0 ∧ P.heap.InProgram P.ft P.pt x) ∨ (n0 ≤ x ∧ x < a.next) := by
        rcases hr with hr | hr
        · rcases hi.reach hf.on hft hr with ⟨h1, h2⟩ | ⟨h1, h2, _⟩
          · exact .inl ⟨h1, .inl h2⟩
          · exact .inr ⟨h1, h2⟩
        · rcases hi.reach hf.on hpt hr with ⟨h1, h2⟩ | ⟨h1, h2, _⟩
          · exact .inl ⟨h1, .inr h2⟩
          · exact .inr ⟨h1, h2⟩
      rcases hcase with ⟨hn, h2⟩ | ⟨h1, h2⟩
      · rw [← (hi.edges x hn).length_eq]
        rw [hi.labOld x (.inl hn)] at hx
        exact har x o t h2 hx ho
      · rw [(hi.labNew x h1 h2).1] at hx
        simp at hx
    · intro _ x hx
      obtain ⟨i, hi'⟩ := Option.ne_none_iff_exists'.1 hx
      exact h4 x i hi'
    · intro h5
      simp only [BProg.withAtomics, hbz] at h5
      simp at h5
  · intro p c hp he hc'
    simp only [BProg.withAtomics, BProg.engine, hbz] at hp he hc' ⊢
    have hplt : p < n0 := by
      have no : ¬ (n0 ≤ p ∧ p < a.next) := by
        rintro ⟨h1, h2⟩
        rw [(hi.labNew p h1 h2).1] at he
        simp [BNode.engine] at he
      rcases hp with hp | hp
      · rcases hi.reach hf.on hft hp with ⟨h, _⟩ | ⟨h1, h2, _⟩
        · exact h
        · exact absurd ⟨h1, h2⟩ no
      · rcases hi.reach hf.on hpt hp with ⟨h, _⟩ | ⟨h1, h2, _⟩
        · exact h
        · exact absurd ⟨h1, h2⟩ no
    have hpr : P.heap.Reachable [P.ft] p ∨ P.heap.Reachable [P.pt] p := by
      rcases hp with hp | hp
      · rcases hi.reach hf.on hft hp with ⟨_, h⟩ | ⟨h, _⟩
        · exact .inl h
        · omega
      · rcases hi.reach hf.on hpt hp with ⟨_, h⟩ | ⟨h, _⟩
        · exact .inr h
        · omega
    have hpe : (P.heap.lab p).engine true = .tl := by rw [← hi.labOld p (.inl hplt)]; exact he
    by_cases hcn : c < n0
    · -- an original child: it is not a booleanizer node
      have hck : c ∈ P.heap.kids p := by
        obtain ⟨i, hi', rfl⟩ := List.mem_iff_getElem.1 hc'
        have hl := (hi.edges p hplt).length_eq
        have hst := (hi.edges p hplt).get (hl ▸ hi') hi'
        simp only [List.get_eq_getElem] at hst
        rcases hst with h3 | ⟨h3, _⟩
        · rw [h3]; exact List.getElem_mem _
        · omega
      have hcr : P.heap.Reachable [P.ft] c ∨ P.heap.Reachable [P.pt] c := by
        rcases hpr with h | h
        · exact .inl (.kid h hck)
        · exact .inr (.kid h hck)
      rw [hi.labOld c (.inl hcn)]
      rcases hty p c hpr (by simpa [BProg.engine, hbz] using hpe) hck with h | ⟨h, h' | h'⟩
      · exact .inl h
      · simp only [BProg.engine, hbz] at h'
        exact .inr (.inr h')
      · simp only [BProg.engine, hbz] at h'
        exact absurd hc' (hi.done c hcr hcn h' h p hplt hpr hpe)
    · refine .inr (.inl ?_)
      have h3 := (hi.kidsLt p c hc').2
      exact Option.ne_none_iff_exists'.2 (h4' c (hp.imp (fun h => .kid h hc') (fun h => .kid h hc')) (hi.labNew c (by omega) h3).1)
  · intro hsep x h1 h2
    simp only [BProg.withAtomics] at h1 h2 ⊢
    rcases hi.reach hf.on hft h1 with ⟨h3, h4⟩ | ⟨h3, h3', c, h5, h6, h6', h6'', h6'''⟩
    · rcases hi.reach hf.on hpt h2 with ⟨_, h5⟩ | ⟨h5, _⟩
      · rw [hi.labOld x (.inl h3)]
        exact hsep x h4 h5
      · omega
    · rcases hi.reach hf.on hpt h2 with ⟨h7, _⟩ | ⟨_, _, c', h7, h8, _⟩
      · omega
      · rw [h5] at h7
        obtain rfl : c = c' := by simpa using h7
        have := hsep c h6 h8
        cases hl : P.heap.lab c <;> simp_all [BNode.isBoolConst, BNode.isConst]

/-! ### Example: `(x > prev(0, x)) && G[0,3] b` and `H[0,2] (x > prev(0,x))`-/

def atLab : Nat → BNode
  | 1 => .formula 0 | 2 => .op .and true | 3 => .op .gt true | 4 => .temp .G 0 3 | 5 => .signal true 0
  | 6 => .op .prev true | 7 => .int 0 | 8 => .signal true 1
  | 10 => .formula 1 | 11 => .temp .H 0 2 | 12 => .signal true 2
  | _ => .specSet
def atKids : Nat → List Nat
  | 0 => [1] | 1 => [2] | 2 => [3, 4] | 3 => [5, 6] | 4 => [8] | 6 => [7, 5] | 9 => [10] | 10 => [11] | 11 => [12]
  | _ => []
def atPars : Nat → List Nat
  | 1 => [0] | 2 => [1] | 3 => [2] | 4 => [2] | 5 => [3, 6] | 6 => [3] | 7 => [6] | 8 => [4]
  | 10 => [9] | 11 => [10] | 12 => [11]
  | _ => []
def atProg : BProg where
  heap := ⟨atLab, atKids, atPars⟩
  bpd := fun _ => 0
  wpd := fun _ => 0
  ft := 0
  pt := 9
  bz := true
  atomicId := fun _ => none

theorem atProg_fresh : Fresh atProg.heap 13 0 9 where
  known := by
    rintro p c - -
    rcases p with _|_|_|_|_|_|_|_|_|_|_|_|_|p <;> simp [atProg, atKids] <;>
      (intro h; first | (rcases h with rfl | rfl <;> simp [atPars]) | (subst h; simp [atPars]))
  kids := by
    intro p c
    rcases p with _|_|_|_|_|_|_|_|_|_|_|_|_|p <;> simp [atProg, atKids] <;> omega
  noAtomic := by
    rintro x -
    rcases x with _|_|_|_|_|_|_|_|_|_|_|_|_|x <;> simp [atProg, atLab]

theorem atProg_typed : atProg.Typed := by
  rintro p c -
  rcases p with _|_|_|_|_|_|_|_|_|_|_|_|_|p <;>
    simp [atProg, atKids, atLab, BProg.engine, BNode.engine, OpK.isLogical] <;>
    (intro h; first
      | (rcases h with rfl | rfl <;> simp [BNode.isBoolConst, BNode.isConst])
      | (subst h; simp [BNode.isBoolConst, BNode.isConst]))

/-- The hypotheses of C54 hold of the example, and three atomics are inserted. -/
example : atProg.bz = true ∧ Fresh atProg.heap 13 0 9 ∧ atProg.heap.Acyclic ∧ atProg.Typed ∧ atProg.Separate ∧
    (computeAtomics 60 true atProg.heap 0 9 13).map (fun r => (r.2.ids, (List.range 16).map r.1.kids)) =
      some ([(15, 2), (14, 1), (13, 0)],
        [[1], [2], [13, 4], [5, 6], [14], [], [7, 5], [], [], [10], [11], [15], [], [3], [8], [12]]) := by
  refine ⟨rfl, atProg_fresh, ?_, atProg_typed, ?_, by decide +kernel⟩
  · exact fun
    | 0 => ⟨_, 6, rfl⟩ | 1 => ⟨_, 5, rfl⟩ | 2 => ⟨_, 4, rfl⟩ | 3 => ⟨_, 3, rfl⟩ | 4 => ⟨_, 2, rfl⟩
    | 5 => ⟨_, 1, rfl⟩ | 6 => ⟨_, 2, rfl⟩ | 7 => ⟨_, 1, rfl⟩ | 8 => ⟨_, 1, rfl⟩ | 9 => ⟨_, 4, rfl⟩
    | 10 => ⟨_, 3, rfl⟩ | 11 => ⟨_, 2, rfl⟩ | 12 => ⟨_, 1, rfl⟩ | _ + 13 => ⟨_, 1, rfl⟩
  · intro x h1 h2
    have a := BProg.reachable_mem (S := [0, 1, 2, 3, 4, 5, 6, 7, 8]) (by decide) (by decide) h1
    have b := BProg.reachable_mem (S := [9, 10, 11, 12]) (by decide) (by decide) h2
    simp at a b
    omega

/-- A graph left by a pass that replaced an implication: the old one, node 9, is no longer part of the
program, but still among the parents of the comparison `x > 0`, node 3. -/
def staleProg : Heap BNode where
  lab := fun | 1 => .formula 0 | 2 => .op .neg true | 3 => .op .gt true | 4 => .signal true 0 | 5 => .int 0 | 9 => .op .imp true | _ => .specSet
  kids := fun | 0 => [1] | 1 => [2] | 2 => [3] | 3 => [4, 5] | 9 => [3, 3] | _ => []
  pars := fun | 1 => [0] | 2 => [1] | 3 => [9, 2, 9] | 4 => [3] | 5 => [3] | _ => []

/-- It meets the hypotheses of C20 and C54; one atomic is inserted. -/
example : Fresh staleProg 10 0 8 ∧
    (computeAtomics 60 true staleProg 0 8 10).map (fun r => (r.2.ids, (List.range 11).map r.1.kids)) =
      some ([(10, 0)], [[1], [2], [10], [4, 5], [], [], [], [], [], [10, 10], [3]]) := by
  refine ⟨⟨?_, ?_, ?_⟩, by decide +kernel⟩
  · intro p c hp _
    have h9 : p ∈ [0, 1, 2, 3, 4, 5, 8] := by
      rcases hp with h | h
      · have := BProg.reachable_mem (S := [0, 1, 2, 3, 4, 5]) (by decide) (by decide) h
        simp at this ⊢; omega
      · have := BProg.reachable_mem (S := [8]) (by decide) (by decide) h
        simp at this ⊢; omega
    simp only [List.mem_cons, List.not_mem_nil, or_false] at h9
    rcases h9 with rfl|rfl|rfl|rfl|rfl|rfl|rfl <;> simp [staleProg] <;> rintro (rfl | rfl) <;> simp
  · intro p c
    rcases p with _|_|_|_|_|_|_|_|_|_|p <;> simp [staleProg] <;> omega
  · rintro x -
    rcases x with _|_|_|_|_|_|_|_|_|_|x <;> simp [staleProg]

end R2U2
