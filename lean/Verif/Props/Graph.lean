import Verif.Lemmas.Cse
import Verif.Props.Printing
/-
C48: traversal of the object graph.  C16: common sub-expression elimination.
-/
namespace R2U2
open Heap
variable {L : Type}

/-- C48.  On every acyclic graph `postorder` ends, whatever is shared; it yields exactly the
nodes reachable from the start nodes, each once, and each after all of its children. -/
theorem C48_postorder (h : Heap L) (ha : h.Acyclic) (roots : List Nat) :
    ∃ out N, (∀ fuel, N ≤ fuel → postorder fuel h roots = some out) ∧
      out.Nodup ∧ (∀ x, x ∈ out ↔ Reachable h roots x) ∧
      ∀ pre x suf, out = pre ++ x :: suf → ∀ c ∈ h.kids x, c ∈ pre := by
  obtain ⟨tr, hd, hr⟩ := ha.rank
  obtain ⟨U, hU1, hU2⟩ := ha.finite roots
  let visit : Heap L → Unit → Nat → Option (Heap L × Unit) := fun h _ _ => some (h, ())
  let I : Walk L Unit → Prop := fun w => WInv (fun x => (tr x).size) roots w ∧ w.heap = h ∧
    (∀ b x, (b, x) ∈ w.stack → Reachable h roots x) ∧ (∀ x ∈ w.out, Reachable h roots x) ∧
    ∀ pre x suf, w.out = pre ++ x :: suf → ∀ c ∈ h.kids x, c ∈ pre
  have hstep : ∀ w w', I w → w.stack ≠ [] → walkStep visit w = some w' → I w' := by
    rintro w w' ⟨h1, h2, h3, h4, h5⟩ hne hst
    rcases walkStep_cases hne hst with ⟨x, st, hs, hvis, rfl⟩ | ⟨x, st, hs, hvis, rfl⟩ |
      ⟨x, st, h', a', hs, hvis, rfl⟩
    · exact ⟨h1.skip hs hvis, h2, fun b y hy => h3 b y (by rw [hs]; exact List.mem_cons_of_mem _ hy), h4, h5⟩
    · refine ⟨h1.expand hs hvis, h2, ?_, h4, h5⟩
      intro b y hy
      have hx := h3 false x (by rw [hs]; exact List.mem_cons_self)
      simp only [List.mem_append, List.mem_map, Prod.mk.injEq, List.mem_cons] at hy
      rcases hy with ⟨c, hc, _, rfl⟩ | ⟨_, rfl⟩ | hy
      · exact .kid hx (h2 ▸ hc)
      · exact hx
      · exact h3 b y (by rw [hs]; exact List.mem_cons_of_mem _ hy)
    · simp only [visit, Option.some.injEq, Prod.mk.injEq] at hvis
      obtain ⟨rfl, _⟩ := hvis
      refine ⟨h1.yield hs fun p c hc => ⟨h1.rankKids p c hc, .inl hc⟩, h2,
        fun b y hy => h3 b y (by rw [hs]; exact List.mem_cons_of_mem _ hy), ?_, ?_⟩
      · intro y hy
        rcases List.mem_append.1 hy with hy | hy
        · exact h4 y hy
        · rw [List.mem_singleton.1 hy]; exact h3 true x (by rw [hs]; exact List.mem_cons_self)
      · intro pre y suf hy c hc
        rcases List.append_eq_append_iff.1 hy with ⟨as, e1, e2⟩ | ⟨bs, e1, e2⟩
        · cases as with
          | nil =>
            simp only [List.nil_append, List.cons.injEq] at e2
            rw [e1, List.append_nil]
            rw [← e2.1] at hc
            exact h1.kids_out hs (h2 ▸ hc)
          | cons a as => simp at e2
        · cases bs with
          | nil =>
            simp only [List.nil_append, List.cons.injEq] at e2
            rw [List.append_nil] at e1
            rw [e2.1] at hc
            rw [← e1]
            exact h1.kids_out hs (h2 ▸ hc)
          | cons b bs =>
            simp only [List.cons_append, List.cons.injEq] at e2
            exact h5 pre y bs (by rw [e1, e2.1]) c hc
  have hstart : I (start h roots ()) := by
    refine ⟨WInv.start hr roots (), rfl, ?_, by simp [start], by simp [start]⟩
    intro b x hx
    simp only [start, List.mem_reverse, List.mem_map, Prod.mk.injEq] at hx
    obtain ⟨r, hr', _, rfl⟩ := hx
    exact .root hr'
  have hRU : ∀ x, Reachable h roots x → x ∈ U := by
    intro x hx
    induction hx with
    | root h => exact hU1 _ h
    | kid _ hc ih => exact hU2 _ ih _ hc
  let n := (start h roots ()).stack.length + todo (fun x => (h.kids x).length) U [] + 1
  obtain ⟨w', hw'⟩ := walk_total (visit := visit) (deg := fun x => (h.kids x).length) (U := U) hstep
    (fun w x st _ _ => rfl) (fun w hi x => by rw [hi.2.1]) (fun w hi b x hx => hRU x (hi.2.2.1 b x hx))
    n _ hstart (by simp only [n, Heap.start]; omega)
  obtain ⟨⟨h1, h2, h3, h4, h5⟩, hnil⟩ := walk_inv hstep n _ _ hstart hw'
  refine ⟨w'.out, n, ?_, ?_, ?_, h5⟩
  · intro fuel hf
    simp only [postorder, Option.map_eq_some_iff]
    exact ⟨w', walk_mono (fun _ _ _ _ h => h) hf hw', rfl⟩
  · have := h1.nodup
    rw [hnil] at this
    simpa [grays] using this
  · intro x
    exact ⟨h4 x, fun hx => h1.reachable hnil (h2 ▸ hx)⟩

/-- A graph with sharing: node 2 is a child of both 0 and 1; node 0 has it twice. -/
def exHeap : Heap String where
  lab := fun x => if x = 0 then "and" else if x = 1 then "not" else if x = 2 then "G" else "p"
  kids := fun x => if x = 0 then [1, 2, 2] else if x = 1 then [2] else if x = 2 then [3] else []
  pars := fun x => if x = 1 then [0] else if x = 2 then [0, 1] else if x = 3 then [2] else []

theorem exHeap_acyclic : exHeap.Acyclic := by
  have h3 : ∀ x, exHeap.kids x = [] → exHeap.Denotes x (.node (exHeap.lab x) []) := fun x hx =>
    denotes_node.2 ⟨rfl, by rw [hx]; exact .nil⟩
  have h2 : exHeap.Denotes 2 _ := denotes_node.2 ⟨rfl, .cons (h3 3 rfl) .nil⟩
  have h1 : exHeap.Denotes 1 _ := denotes_node.2 ⟨rfl, .cons h2 .nil⟩
  have h0 : exHeap.Denotes 0 _ := denotes_node.2 ⟨rfl, .cons h1 (.cons h2 (.cons h2 .nil))⟩
  intro x
  by_cases e0 : x = 0
  · exact ⟨_, e0 ▸ h0⟩
  by_cases e1 : x = 1
  · exact ⟨_, e1 ▸ h1⟩
  by_cases e2 : x = 2
  · exact ⟨_, e2 ▸ h2⟩
  exact ⟨_, h3 x (by simp [exHeap, e0, e1, e2])⟩

example : postorder 20 exHeap [0] = some [3, 2, 1, 0] := by decide

/-! ### Common sub-expression elimination -/

theorem formula_text_ne_expr {l : String} {n : Nat} {c e : Ast} (hl : IsIdent l) (he : Desugared true e)
    (h : prefixStr (.node (.formula l n) [c]) = prefixStr e) : False := by
  simp only [prefixStr] at h
  obtain ⟨⟨d, ds, h1, h2, h3⟩, _⟩ := hl
  have hchar : ∀ x ∈ l.toList, isIdentChar x = true := by
    intro x hx
    rw [h1, List.mem_cons] at hx
    rcases hx with rfl | hx
    · exact identStart_identChar h2
    · exact h3 x hx
  rcases desugared_view he with ⟨l', rfl, hl'⟩ | ⟨l', cs, rfl, hl', _, _⟩ | ⟨c', rfl, _, _⟩
  · rw [prefix_leaf hl'] at h
    have := leafTxt_free hl' ' ' (by rw [← h]; simp)
    revert this; decide
  · rw [prefix_sym hl'] at h
    refine word_paren (w := l.toList) ?_ (by rw [h1]; simp) h
    intro x hx
    exact (Free.stop3 (w := [x]) (fun y hy => by rw [List.mem_singleton.1 hy]; exact ident_free (hchar x hx))) x (by simp)
  · simp only [prefixStr] at h
    obtain ⟨_, h4⟩ := split_word (p := fun x => x == ':' || x == '(')
      (w := l.toList) (w' := ['A', 't', 'o', 'm', 'i', 'c'])
      (by
        intro x hx
        have := hchar x hx
        simp only [Bool.or_eq_false_iff, beq_eq_false_iff_ne]
        constructor <;> rintro rfl <;> revert this <;> decide)
      (by intro x hx; revert x; decide) (headIn_cons (by decide)) (headIn_cons (by decide)) h
    simp at h4

theorem sub_desugared {b : Bool} {s t : Ast} (h : Tree.Sub s t) : Desugared b t → Desugared b s := by
  induction h with
  | kid hc => exact fun hd => desugared_kids hd _ hc
  | deep hc _ ih => exact fun hd => ih (desugared_kids hd _ hc)

theorem sub_specSet {specs : List Ast} (hs : IsSpecSet specs) {s : Ast} (h : Tree.Sub s (.node .specSet specs)) :
    s ∈ specs ∨ Desugared true s := by
  cases h with
  | kid hc => exact .inl hc
  | deep hc h =>
    obtain ⟨l, n, e, rfl, _, he⟩ := hs.formulas _ hc
    right
    cases h with
    | kid hc => rw [List.mem_singleton.1 hc]; exact he
    | deep hc h => rw [List.mem_singleton.1 hc] at h; exact sub_desugared h he

/-- Below a specification set, the text `optimize_cse` uses determines the expression. -/
theorem specSet_keyOk {specs : List Ast} (hs : IsSpecSet specs) : KeyOk prefixStr (.node .specSet specs) := by
  intro s s' h h' hk
  rcases sub_specSet hs h with h | h <;> rcases sub_specSet hs h' with h' | h'
  · obtain ⟨l, n, e, rfl, hl, he⟩ := hs.formulas _ h
    obtain ⟨l', n', e', rfl, hl', he'⟩ := hs.formulas _ h'
    obtain ⟨rfl, rfl⟩ := C17_formula_unambiguous l l' n n' e e' hl hl' he he' hk
    rw [(hs.labels _ _ _ _ _ h h').1]
  · obtain ⟨l, n, e, rfl, hl, he⟩ := hs.formulas _ h
    exact (formula_text_ne_expr hl h' hk).elim
  · obtain ⟨l', n', e', rfl, hl', he'⟩ := hs.formulas _ h'
    exact (formula_text_ne_expr hl' h hk.symm).elim
  · exact C17_repr_unambiguous s s' h h' hk

theorem kid_not_self {h : Heap L} {tr : Nat → Tree L} (hd : ∀ x, h.Denotes x (tr x)) {root : Nat} {x : Nat}
    (hx : Reachable h [root] x) (hne : x ≠ root) : ∃ c ∈ h.kids root, Reachable h [c] x := by
  induction hx with
  | root h => exact absurd (List.mem_singleton.1 h) hne
  | @kid p c hp hc ih =>
    by_cases hpr : p = root
    · subst hpr; exact ⟨c, hc, .root (List.mem_singleton.2 rfl)⟩
    · obtain ⟨d, hd', hr⟩ := ih hpr
      exact ⟨d, hd', .kid hr hc⟩

theorem reach_mono {h : Heap L} {r r' : List Nat} (hr : ∀ x ∈ r, x ∈ r') {x : Nat} (hx : Reachable h r x) :
    Reachable h r' x := by
  induction hx with
  | root h => exact .root (hr _ h)
  | kid _ hc ih => exact .kid ih hc

/-- C16.  For every program graph (arbitrary sharing, also between the two sets) whose parent
sets are accurate: `optimize_cse` ends, every node denotes the very expression it denoted
before (so every specification has the verdicts it had), and afterwards, in each of the
two specification sets, two different nodes never denote the same expression. -/
theorem C16_cse (h : Heap Lab) (ha : h.Acyclic) (hp : h.ParentsKnown) (ft pt : Nat) (hne : ft ≠ pt)
    (hft : h.pars ft = []) (hpt : h.pars pt = []) (fts pts : List Ast)
    (hdf : h.Denotes ft (.node .specSet fts)) (hdp : h.Denotes pt (.node .specSet pts))
    (hsf : IsSpecSet fts) (hsp : IsSpecSet pts)
    (hdisj : ∀ l n e n' e', Tree.node (Lab.formula l n) [e] ∈ fts →
      Tree.node (Lab.formula l n') [e'] ∈ pts → False) :
    ∃ h' N, (∀ fuel, N ≤ fuel → optimizeCse prefixStr fuel h ft pt = some h') ∧
      (∀ x t, h.Denotes x t ↔ h'.Denotes x t) ∧
      (∀ x y t, Reachable h' [ft] x → Reachable h' [ft] y → h'.Denotes x t → h'.Denotes y t → x = y) ∧
      (∀ x y t, Reachable h' [pt] x → Reachable h' [pt] y → h'.Denotes x t → h'.Denotes y t → x = y) := by
  obtain ⟨tr, hd, _⟩ := ha.rank
  have hl : Live h [] := ⟨fun _ _ _ _ => by simp, fun p _ c hc => hp p c hc⟩
  have hkf : KeyOk prefixStr (tr ft) := by rw [(hd ft).unique hdf]; exact specSet_keyOk hsf
  have hkp : KeyOk prefixStr (tr pt) := by rw [(hd pt).unique hdp]; exact specSet_keyOk hsp
  -- the future-time pass
  obtain ⟨n1, h1, e1⟩ := cse_total hd hl (List.not_mem_nil (a := ft)) hkf
  obtain ⟨D1, F1⟩ := cse_spec hd hl (List.not_mem_nil (a := ft)) hft hkf e1
  have hptR : ¬ Reachable h [ft] pt := by
    intro hr
    cases hr with
    | root h1 => exact hne (List.mem_singleton.1 h1).symm
    | kid _ hc => have := hp _ _ hc; rw [hpt] at this; simp at this
  have hptD : pt ∉ D1 := fun hd1 => (F1.deadHi pt hd1).elim (by simp) hptR
  -- the past-time pass
  obtain ⟨n2, h2, e2⟩ := cse_total F1.den F1.live hptD hkp
  obtain ⟨D2, F2⟩ := cse_spec F1.den F1.live hptD (F1.parsNil pt hpt hptR) hkp e2
  refine ⟨h2, max n1 n2, ?_, ?_, ?_, ?_⟩
  · intro fuel hf
    simp only [optimizeCse]
    rw [cse_mono (by omega : n1 ≤ fuel) e1]
    exact cse_mono (by omega : n2 ≤ fuel) e2
  · intro x t
    constructor
    · intro hx; rw [hx.unique (hd x)]; exact F2.den x
    · intro hx; rw [hx.unique (F2.den x)]; exact hd x
  · -- formulas of the future-time set are out of reach of the second pass
    have hout : ∀ f ∈ h1.kids ft, ¬ Reachable h1 [pt] f := by
      intro f hf hr
      have hdft := F1.den ft
      rw [(hd ft).unique hdf, denotes_node] at hdft
      obtain ⟨t, ht, hft'⟩ := forall2_mem_left hdft.2 hf
      obtain ⟨l, n, e, rfl, _, _⟩ := hsf.formulas _ ht
      have htr : tr f = .node (.formula l n) [e] := (F1.den f).unique hft'
      rcases reach_sub F1.den hr with rfl | hs
      · rw [(hd f).unique hdp] at htr; simp at htr
      · rw [(hd pt).unique hdp, htr] at hs
        rcases sub_specSet hsp hs with h | h
        · exact hdisj _ _ _ _ _ ht h
        · simp [Desugared] at h
    have hk2 : h2.kids ft = h1.kids ft := F2.kidsOut ft hout
    have hsh := F2.keep (h1.kids ft) (fun f hf => ⟨F1.kidsLive f hf, hout f hf⟩) (by
      intro x y hx hy hxy
      have up : ∀ z, Reachable h1 (h1.kids ft) z → Reachable h1 [ft] z := by
        intro z hz
        induction hz with
        | root h => exact .kid (.root (List.mem_singleton.2 rfl)) h
        | kid _ hc ih => exact .kid ih hc
      exact F1.shared x y (up x hx) (up y hy) hxy)
    intro x y t hx hy hxt hyt
    have hxy : tr x = tr y := ((F2.den x).unique hxt).trans ((F2.den y).unique hyt).symm
    have down : ∀ z, Reachable h2 [ft] z → z ≠ ft → Reachable h2 (h1.kids ft) z := by
      intro z hz hzne
      obtain ⟨c, hc, hr⟩ := kid_not_self F2.den hz hzne
      exact reach_mono (fun a ha => by rw [List.mem_singleton.1 ha]; exact hk2 ▸ hc) hr
    by_cases hxf : x = ft
    · by_cases hyf : y = ft
      · rw [hxf, hyf]
      · have := ((reach_sub F2.den hy).resolve_left hyf).size_lt
        rw [← hxy, hxf] at this; omega
    · by_cases hyf : y = ft
      · have := ((reach_sub F2.den hx).resolve_left hxf).size_lt
        rw [hxy, hyf] at this; omega
      · exact hsh x y (down x hx hxf) (down y hy hyf) hxy
  · intro x y t hx hy hxt hyt
    exact F2.shared x y hx hy (((F2.den x).unique hxt).trans ((F2.den y).unique hyt).symm)

/-! A program meeting the hypotheses: future-time formulas `a: x && x`, `b: !x` with three nodes
for `x`, and a past-time formula `c: x` that shares one of them. -/

def exLab : Nat → Lab
  | 0 => .specSet | 1 => .formula "a" 0 | 2 => .formula "b" 1 | 3 => .op .and | 4 => .op .neg
  | 8 => .specSet | 9 => .formula "c" 2 | _ => .name "x"
def exKids : Nat → List Nat
  | 0 => [1, 2] | 1 => [3] | 2 => [4] | 3 => [5, 6] | 4 => [7] | 8 => [9] | 9 => [7] | _ => []
def exPars : Nat → List Nat
  | 1 => [0] | 2 => [0] | 3 => [1] | 4 => [2] | 5 => [3] | 6 => [3] | 7 => [4, 9] | 9 => [8] | _ => []
def exProg : Heap Lab := ⟨exLab, exKids, exPars⟩

def exTree : Nat → Ast
  | 0 => .node .specSet [.node (.formula "a" 0) [.node (.op .and) [.node (.name "x") [], .node (.name "x") []]],
      .node (.formula "b" 1) [.node (.op .neg) [.node (.name "x") []]]]
  | 1 => .node (.formula "a" 0) [.node (.op .and) [.node (.name "x") [], .node (.name "x") []]]
  | 2 => .node (.formula "b" 1) [.node (.op .neg) [.node (.name "x") []]]
  | 3 => .node (.op .and) [.node (.name "x") [], .node (.name "x") []]
  | 4 => .node (.op .neg) [.node (.name "x") []]
  | 8 => .node .specSet [.node (.formula "c" 2) [.node (.name "x") []]]
  | 9 => .node (.formula "c" 2) [.node (.name "x") []]
  | _ => .node (.name "x") []

theorem ident_a : IsIdent "a" := ⟨⟨'a', [], by decide, by decide, by simp⟩, by decide, by decide⟩
theorem ident_b : IsIdent "b" := ⟨⟨'b', [], by decide, by decide, by simp⟩, by decide, by decide⟩
theorem ident_c : IsIdent "c" := ⟨⟨'c', [], by decide, by decide, by simp⟩, by decide, by decide⟩

theorem exProg_denotes : ∀ x, exProg.Denotes x (exTree x)
  | 0 => ⟨4, rfl⟩ | 1 => ⟨3, rfl⟩ | 2 => ⟨3, rfl⟩ | 3 => ⟨2, rfl⟩ | 4 => ⟨2, rfl⟩ | 5 => ⟨1, rfl⟩
  | 6 => ⟨1, rfl⟩ | 7 => ⟨1, rfl⟩ | 8 => ⟨3, rfl⟩ | 9 => ⟨2, rfl⟩ | n + 10 => ⟨1, by simp [unfold, collect, exProg, exLab, exKids, exTree]⟩

example : exProg.Acyclic ∧ exProg.ParentsKnown ∧ exProg.pars 0 = [] ∧ exProg.pars 8 = [] ∧
    IsSpecSet (exTree 0).kids ∧ IsSpecSet (exTree 8).kids := by
  refine ⟨fun x => ⟨_, exProg_denotes x⟩, ?_, rfl, rfl, ⟨?_, ?_⟩, ⟨?_, ?_⟩⟩
  · intro p c hc
    match p, hc with
    | 0, hc | 1, hc | 2, hc | 3, hc | 4, hc | 8, hc | 9, hc =>
      simp only [exProg, exKids, List.mem_cons, List.not_mem_nil, or_false] at hc
      rcases hc with rfl | rfl <;> simp [exProg, exPars]
    | 5, hc | 6, hc | 7, hc | _ + 10, hc => simp [exProg, exKids] at hc
  · intro f hf
    simp only [exTree, Tree.kids, List.mem_cons, List.not_mem_nil, or_false] at hf
    rcases hf with rfl | rfl
    · exact ⟨_, _, _, rfl, ident_a, by simp [Desugared, DesugaredL, ident_x]⟩
    · exact ⟨_, _, _, rfl, ident_b, by simp [Desugared, DesugaredL, ident_x]⟩
  · intro l n e n' e' h1 h2
    simp only [exTree, Tree.kids, List.mem_cons, List.not_mem_nil, or_false, Tree.node.injEq, Lab.formula.injEq,
      List.cons.injEq, and_true] at h1 h2
    rcases h1 with ⟨⟨rfl, rfl⟩, rfl⟩ | ⟨⟨rfl, rfl⟩, rfl⟩ <;> rcases h2 with ⟨⟨h, rfl⟩, rfl⟩ | ⟨⟨h, rfl⟩, rfl⟩ <;>
      first | exact ⟨rfl, rfl⟩ | exact absurd h (by decide)
  · intro f hf
    simp only [exTree, Tree.kids, List.mem_singleton] at hf
    subst hf
    exact ⟨_, _, _, rfl, ident_c, by simp [Desugared, ident_x]⟩
  · intro l n e n' e' h1 h2
    simp only [exTree, Tree.kids, List.mem_singleton, Tree.node.injEq, Lab.formula.injEq,
      List.cons.injEq, and_true] at h1 h2
    obtain ⟨⟨rfl, rfl⟩, rfl⟩ := h1
    obtain ⟨⟨_, rfl⟩, rfl⟩ := h2
    exact ⟨rfl, rfl⟩

/-- The three nodes for `x` become one, in the past-time set too. -/
example : (optimizeCse prefixStr 40 exProg 0 8).map (fun h => (h.kids 3, h.kids 4, h.kids 9)) =
    some ([5, 5], [5], [5]) := by decide +kernel

end R2U2
