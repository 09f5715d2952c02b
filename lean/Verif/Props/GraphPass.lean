import Verif.Lemmas.GraphRel
import Verif.Props.Transform
/-
C62: the transformation passes, run in place on a graph of shared nodes while the traversal
goes on, keep the meaning of every specification.
-/
namespace R2U2
open Heap Expr GraphPass
variable {α : Type}

/-- C62, `to_bnf`: however the graph is shared, if the pass ends then every specification is
still there, with its label and number, and its formula has the verdicts it had.  The graph
is still acyclic. -/
theorem C62_to_bnf {P : Lab → Nat → Prop} {f : α → Ast} (hf : AtomsPlain P f) {h h' : Heap Lab} {n n' fuel ft pt : Nat}
    (hb : h.Below n) (ha : h.Acyclic) (hft : ft < n) (hpt : pt < n) (hp : toBnfG fuel ft pt (h, n) = some (h', n')) :
    h'.Below n' ∧ h'.Acyclic ∧ ∀ x < n, ∀ l k e, h.Specifies f x l k e → ∃ e', h'.Specifies f x l k e' ∧ Equiv e' e := by
  have hi := postPass_ok (bnf_ok hf) hb ha hft hpt hp
  refine ⟨hi.below, hi.acyclic, fun x hx l k e hs => ?_⟩
  obtain ⟨e', h1, _, h2⟩ := specifies_of_inv hf relOk_equiv hi hx hs trivial
  exact ⟨e', h1, h2⟩

/-- C62, `to_nnf`, for specifications without exclusive or (with it the pass is wrong already
on trees, `C04_nnf_xor_fails`). -/
theorem C62_to_nnf_partial {P : Lab → Nat → Prop} {f : α → Ast} (hf : AtomsPlain P f) {h h' : Heap Lab} {n n' fuel ft pt : Nat}
    (hb : h.Below n) (ha : h.Acyclic) (hft : ft < n) (hpt : pt < n) (hp : toNnfG fuel ft pt (h, n) = some (h', n')) :
    h'.Below n' ∧ h'.Acyclic ∧ ∀ x < n, ∀ l k e, h.Specifies f x l k e → Nowhere isXor e →
      ∃ e', h'.Specifies f x l k e' ∧ Equiv e' e := by
  have hi := prePass_ok (nnf_ok hf) hb ha hft hpt hp
  refine ⟨hi.below, hi.acyclic, fun x hx l k e hs hg => ?_⟩
  obtain ⟨e', h1, _, h2⟩ := specifies_of_inv hf relOk_noXor hi hx hs hg
  exact ⟨e', h1, h2⟩

/-- C62, `multi_operators_to_binary`.  Sums and products inside atoms have at most two
operands; longer ones are rewritten too, which the temporal-level formulas here do not
show. -/
theorem C62_to_binary_partial {f : α → Ast} (hf : AtomsPlain twoOperands f) {h h' : Heap Lab} {n n' fuel ft pt : Nat}
    (hb : h.Below n) (ha : h.Acyclic) (hft : ft < n) (hpt : pt < n) (hp : toBinaryG fuel ft pt (h, n) = some (h', n')) :
    h'.Below n' ∧ h'.Acyclic ∧ ∀ x < n, ∀ l k e, h.Specifies f x l k e → ∃ e', h'.Specifies f x l k e' ∧ Equiv e' e := by
  have hi := postPass_ok (binary_ok hf) hb ha hft hpt hp
  refine ⟨hi.below, hi.acyclic, fun x hx l k e hs => ?_⟩
  obtain ⟨e', h1, _, h2⟩ := specifies_of_inv hf relOk_equiv hi hx hs trivial
  exact ⟨e', h1, h2⟩

/-- C62, `flatten_multi_operators`, for atoms without sums and products (those are flattened
too). -/
theorem C62_flatten_partial {f : α → Ast} (hf : AtomsPlain noSums f) {h h' : Heap Lab} {n n' fuel ft pt : Nat}
    (hb : h.Below n) (ha : h.Acyclic) (hft : ft < n) (hpt : pt < n) (hp : flattenG fuel ft pt (h, n) = some (h', n')) :
    h'.Below n' ∧ h'.Acyclic ∧ ∀ x < n, ∀ l k e, h.Specifies f x l k e → ∃ e', h'.Specifies f x l k e' ∧ Equiv e' e := by
  have hi := postPass_ok (flatten_ok hf) hb ha hft hpt hp
  refine ⟨hi.below, hi.acyclic, fun x hx l k e hs => ?_⟩
  obtain ⟨e', h1, _, h2⟩ := specifies_of_inv hf relOk_equiv hi hx hs trivial
  exact ⟨e', h1, h2⟩

/-- C62, `remove_extended_operators` (which first makes operators binary). -/
theorem C62_remove_extended_partial {f : α → Ast} (hf : AtomsPlain twoOperands f) {h h' : Heap Lab} {n n' fuel ft pt : Nat}
    (hb : h.Below n) (ha : h.Acyclic) (hft : ft < n) (hpt : pt < n) (hp : removeExtendedG fuel ft pt (h, n) = some (h', n')) :
    h'.Below n' ∧ h'.Acyclic ∧ ∀ x < n, ∀ l k e, h.Specifies f x l k e → ∃ e', h'.Specifies f x l k e' ∧ Equiv e' e := by
  unfold removeExtendedG at hp
  rw [Option.bind_eq_some_iff] at hp
  obtain ⟨⟨h1, n1⟩, hp1, hp2⟩ := hp
  have h1i := postPass_ok (binary_ok hf) hb ha hft hpt hp1
  have h2i := postPass_ok (ext_ok hf) h1i.below h1i.acyclic (lt_of_lt_of_le hft h1i.le) (lt_of_lt_of_le hpt h1i.le) hp2
  have hi := h1i.trans h2i
  refine ⟨hi.below, hi.acyclic, fun x hx l k e hs => ?_⟩
  obtain ⟨e', h1, _, h2⟩ := specifies_of_inv hf relOk_equiv hi hx hs trivial
  exact ⟨e', h1, h2⟩

/-- C62, `remove_release_operators`. -/
theorem C62_remove_release {P : Lab → Nat → Prop} {f : α → Ast} (hf : AtomsPlain P f) {h h' : Heap Lab} {n n' fuel ft pt : Nat}
    (hb : h.Below n) (ha : h.Acyclic) (hft : ft < n) (hpt : pt < n) (hp : removeReleaseG fuel ft pt (h, n) = some (h', n')) :
    h'.Below n' ∧ h'.Acyclic ∧ ∀ x < n, ∀ l k e, h.Specifies f x l k e → ∃ e', h'.Specifies f x l k e' ∧ Equiv e' e := by
  have hi := postPass_ok (release_ok hf) hb ha hft hpt hp
  refine ⟨hi.below, hi.acyclic, fun x hx l k e hs => ?_⟩
  obtain ⟨e', h1, _, h2⟩ := specifies_of_inv hf relOk_equiv hi hx hs trivial
  exact ⟨e', h1, h2⟩

/-- C62, `optimize_rewrites`, which compares operands by their text, on the specifications
for which it is right on trees (`C01_optimize_str_partial`): ordered intervals, two operands,
and no `==` between a formula and a truth value. -/
theorem C62_optimize_rewrites_partial {P : Lab → Nat → Prop} {f : α → Ast} (hf : AtomsPlain P f) (hsep : AtomsSeparate f)
    (hdes : ∀ a, Desugared false (f a)) {h h' : Heap Lab} {n n' fuel ft pt : Nat}
    (hb : h.Below n) (ha : h.Acyclic) (hft : ft < n) (hpt : pt < n) (hp : optimizeG fuel ft pt (h, n) = some (h', n')) :
    h'.Below n' ∧ h'.Acyclic ∧ ∀ x < n, ∀ l k e, h.Specifies f x l k e →
      Nowhere isDisordered e → Nowhere isNonBinary e → Nowhere isConstEqual e →
      ∃ e', h'.Specifies f x l k e' ∧ Equiv e' e := by
  have hk : KeySound (str f) := fun p q hp hq h => by rw [C17_str_separates hsep hdes p q hp hq h]; exact Equiv.refl q
  have hi := postPass_ok (opt_ok hf hk fuel) hb ha hft hpt hp
  refine ⟨hi.below, hi.acyclic, fun x hx l k e hs h1 h2 h3 => ?_⟩
  obtain ⟨e', h4, _, h5⟩ := specifies_of_inv hf relOk_opt hi hx hs (h1.or (h2.or h3))
  exact ⟨e', h4, h5.equiv⟩

/-! ### A graph with shared nodes -/

/-- Two specifications that share `d = G[0,3] x`: `a: d && d` and `b: !d`. -/
def gpHeap : Heap Lab where
  lab
    | 1 => .formula "a" 0 | 2 => .formula "b" 1 | 3 => .op .and | 4 => .op .neg | 5 => .tmp .G 0 3 | 6 => .name "x" | _ => .specSet
  kids
    | 0 => [1, 2] | 1 => [3] | 2 => [4] | 3 => [5, 5] | 4 => [5] | 5 => [6] | _ => []
  pars
    | 1 => [0] | 2 => [0] | 3 => [1] | 4 => [2] | 5 => [3, 4] | 6 => [5] | _ => []

/-- `d` -/
def gpD : Expr Bool := .glob 0 3 (.atom true)

theorem gpHeap_ok : gpHeap.Below 8 ∧ gpHeap.Acyclic ∧ gpHeap.Specifies exAtom 1 "a" 0 (.and [gpD, gpD]) ∧
    gpHeap.Specifies exAtom 2 "b" 1 (.neg gpD) := by
  refine ⟨⟨?_, ?_⟩, ?_, ⟨8, rfl⟩, ⟨8, rfl⟩⟩
  · intro p c hc
    match p, hc with
    | 0, hc | 1, hc | 2, hc | 3, hc | 4, hc | 5, hc =>
      simp only [gpHeap, List.mem_cons, List.not_mem_nil, or_false] at hc
      omega
    | _ + 6, hc => simp [gpHeap] at hc
  · intro p hp
    match p, hp with
    | p + 8, _ => rfl
  · intro x
    match x with
    | 0 | 1 | 2 | 3 | 4 | 5 | 6 => exact ⟨_, 8, rfl⟩
    | n + 7 => exact ⟨.node .specSet [], 1, rfl⟩

theorem exAtom_plain : AtomsPlain (fun l k => twoOperands l k ∧ noSums l k) exAtom := by
  have leaf : ∀ l : Lab, l.logical = false → twoOperands l 0 ∧ noSums l 0 →
      (Tree.node l []).All (fun l k => l.logical = false ∧ twoOperands l k ∧ noSums l k) :=
    fun l h1 h2 => .node ⟨h1, h2⟩ (by simp)
  intro a
  cases a
  · refine ⟨.node ⟨rfl, by simp [twoOperands], by simp [noSums]⟩ fun t ht => ?_, by simp [exAtom]⟩
    simp only [List.mem_cons, List.not_mem_nil, or_false] at ht
    rcases ht with rfl | rfl
    · exact leaf _ rfl ⟨by simp [twoOperands], by simp [noSums]⟩
    · exact leaf _ rfl ⟨by simp [twoOperands], by simp [noSums]⟩
  · exact ⟨leaf _ rfl ⟨by simp [twoOperands], by simp [noSums]⟩, by simp [exAtom]⟩

/-- The passes end on it; the shared node is replaced once and stays shared. -/
example : (toBnfG 40 0 7 (gpHeap, 8)).map (fun s => (s.1.kids 3, s.1.kids 4, s.2)) = some ([11, 11], [11], 12) := by decide +kernel
example : (toNnfG 40 0 7 (gpHeap, 8)).isSome = true := by decide +kernel
example : (removeExtendedG 40 0 7 (gpHeap, 8)).map (fun s => (s.1.kids 3, s.1.kids 4)) = some ([9, 9], [9]) := by decide +kernel
example : (optimizeG 40 0 7 (gpHeap, 8)).isSome = true := by decide +kernel
example : (flattenG 40 0 7 (gpHeap, 8)).isSome = true := by decide +kernel
example : (removeReleaseG 40 0 7 (gpHeap, 8)).isSome = true := by decide +kernel

end R2U2
