import Verif.Lemmas.CompileChain
import Verif.Model.Compile
import Verif.Props.EndToEnd
import Verif.Props.Atomics
/-
From the graph the passes leave to a program the monitor gets right.
-/
namespace R2U2
open Heap Expr GraphPass
variable {α : Type}

/-! ### Signals as atoms -/

theorem signalAtoms_plain (nm : α → String) : AtomsPlain twoOperands (signalAtoms nm) := by
  intro a
  refine ⟨.node ⟨rfl, by simp [twoOperands]⟩ (by simp), ?_⟩
  intro v ts h
  simp [signalAtoms] at h

theorem signalAtoms_separate {nm : α → String} (hnm : Function.Injective nm) : AtomsSeparate (signalAtoms nm) := by
  intro a e h
  cases e <;> simp [toAst, signalAtoms] at h
  rw [hnm h]

theorem signalAtoms_desugared {nm : α → String} (hid : ∀ a, IsIdent (nm a)) (a : α) : Desugared false (signalAtoms nm a) := by
  simp [signalAtoms, Desugared, hid a]

/-! ### Parts of formulas -/

/-- `d` occurs in `e`. -/
inductive Part (e : Expr α) : Expr α → Prop
  | self : Part e e
  | kid {d c} : Part e d → c ∈ d.children → Part e c

theorem Part.nowhere {e d : Expr α} (h : Part e d) {bad : Expr α → Prop} (he : Nowhere bad e) : Nowhere bad d := by
  induction h with
  | self => exact he
  | kid _ hc ih => exact ih.child hc

theorem Part.span {e d : Expr α} (h : Part e d) (past : Bool) : span past d ≤ span past e := by
  induction h with
  | self => exact le_refl _
  | kid _ hc ih => exact le_trans (span_child hc) ih

/-- What `x` is in a graph of a specification set. -/
inductive Kind (h : Heap Lab) (f : α → Ast) (r : Nat) (specs : List (SpecOf α)) (x : Nat) : Prop
  | top : x = r → Kind h f r specs x
  | spec (s c) : s ∈ specs → h.lab x = .formula s.1 s.2.1 → h.kids x = [c] → h.Denotes c (s.2.2.toAst f) → x ∈ h.kids r → Kind h f r specs x
  | expr (s e) : s ∈ specs → Part s.2.2 e → h.Denotes x (e.toAst f) → Kind h f r specs x

theorem denotes_child {h : Heap Lab} {nm : α → String} {x c : Nat} {e : Expr α} (hd : h.Denotes x (e.toAst (signalAtoms nm))) (hc : c ∈ h.kids x) :
    ∃ d ∈ e.children, h.Denotes c (d.toAst (signalAtoms nm)) := by
  by_cases hat : ∃ a, e = .atom a
  · obtain ⟨a, rfl⟩ := hat
    simp only [toAst, signalAtoms] at hd
    rw [denotes_node] at hd
    rw [List.forall₂_nil_right_iff.1 hd.2] at hc
    simp at hc
  · obtain ⟨l, hl⟩ := toAst_node (f := signalAtoms nm) e (fun a h => hat ⟨a, h⟩)
    rw [hl e rfl, denotes_node] at hd
    obtain ⟨t, ht, hdc⟩ := forall2_mem_left hd.2 hc
    obtain ⟨d, hm, rfl⟩ := List.mem_map.1 ht
    exact ⟨d, hm, hdc⟩

theorem reach_kind {h : Heap Lab} {nm : α → String} {r x : Nat} {specs : List (SpecOf α)} (hh : h.Holds (signalAtoms nm) r specs)
    (hr : Reachable h [r] x) : Kind h (signalAtoms nm) r specs x := by
  induction hr with
  | root h => exact .top (List.mem_singleton.1 h)
  | @kid p c _ hc ih =>
    cases ih with
    | top hp =>
      subst hp
      unfold Heap.Holds at hh
      rw [denotes_node] at hh
      obtain ⟨t, ht, hd⟩ := forall2_mem_left hh.2 hc
      obtain ⟨s, hs, rfl⟩ := List.mem_map.1 ht
      rw [denotes_node] at hd
      obtain ⟨hl, hk⟩ := hd
      generalize hks : h.kids c = ks at hk
      cases hk with
      | cons h1 h2 =>
        cases h2
        exact .spec s _ hs hl.symm hks h1 hc
    | spec s c' hs hl hk hd =>
      rw [hk] at hc
      rw [List.mem_singleton.1 hc]
      exact .expr s _ hs .self hd
    | expr s e hs hp hd =>
      obtain ⟨d, hm, hdc⟩ := denotes_child hd hc
      exact .expr s d hs (hp.kid hm) hdc

/-- A node the monitor gets right, as the expression it stands for. -/
inductive Good (past : Bool) (h : Heap Lab) (nm : α → String) (x : Nat) : Expr α → Prop
  | atom (a) : h.lab x = .name (nm a) → h.kids x = [] → Good past h nm x (.atom a)
  | const (b) : h.lab x = .lit (.bool b) → h.kids x = [] → Good past h nm x (.const b)
  | neg (d c) : h.lab x = .op .neg → h.kids x = [c] → h.Denotes c (d.toAst (signalAtoms nm)) → ¬ isConst d → Good past h nm x (.neg d)
  | and (d d' c c') : h.lab x = .op .and → h.kids x = [c, c'] → h.Denotes c (d.toAst (signalAtoms nm)) →
      h.Denotes c' (d'.toAst (signalAtoms nm)) → ¬ isConst d → ¬ isConst d' → Good past h nm x (.and [d, d'])
  | or (d d' c c') : h.lab x = .op .or → h.kids x = [c, c'] → h.Denotes c (d.toAst (signalAtoms nm)) →
      h.Denotes c' (d'.toAst (signalAtoms nm)) → ¬ isConst d → ¬ isConst d' → Good past h nm x (.or [d, d'])
  | iff (d d' c c') : h.lab x = .op .iff → h.kids x = [c, c'] → h.Denotes c (d.toAst (signalAtoms nm)) →
      h.Denotes c' (d'.toAst (signalAtoms nm)) → ¬ isConst d → ¬ isConst d' → Good past h nm x (.iff d d')
  | untl (lb ub d d' c c') : past = false → h.lab x = .tmp .U lb ub → h.kids x = [c, c'] → h.Denotes c (d.toAst (signalAtoms nm)) →
      h.Denotes c' (d'.toAst (signalAtoms nm)) → lb ≤ ub → ¬ isConst d' → Good past h nm x (.untl lb ub d d')
  | rel (lb ub d d' c c') : past = false → h.lab x = .tmp .R lb ub → h.kids x = [c, c'] → h.Denotes c (d.toAst (signalAtoms nm)) →
      h.Denotes c' (d'.toAst (signalAtoms nm)) → lb ≤ ub → ¬ isConst d' → Good past h nm x (.rel lb ub d d')
  | since (lb ub d' c c') : past = true → h.lab x = .tmp .S lb ub → h.kids x = [c, c'] → h.Denotes c ((Expr.const true).toAst (signalAtoms nm)) →
      h.Denotes c' (d'.toAst (signalAtoms nm)) → lb ≤ ub → ¬ isConst d' → Good past h nm x (.since lb ub (.const true) d')
  | trig (lb ub d' c c') : past = true → h.lab x = .tmp .T lb ub → h.kids x = [c, c'] → h.Denotes c ((Expr.const false).toAst (signalAtoms nm)) →
      h.Denotes c' (d'.toAst (signalAtoms nm)) → lb ≤ ub → ¬ isConst d' → Good past h nm x (.trig lb ub (.const false) d')

theorem Good.notTop {past : Bool} {h : Heap Lab} {nm : α → String} {x : Nat} {e : Expr α} (hg : Good past h nm x e) : h.lab x ≠ .specSet := by
  cases hg <;> simp_all

/-- What the passes leave of a formula. -/
structure Final (past : Bool) (e : Expr α) : Prop where
  plain : Nowhere (odd past) e
  basic : Nowhere isExtended e
  narrow : Nowhere isWide e

theorem Final.part {past : Bool} {e d : Expr α} (h : Final past e) (hp : Part e d) : Final past d :=
  ⟨hp.nowhere h.plain, hp.nowhere h.basic, hp.nowhere h.narrow⟩

theorem forall₂_two {A B : Type} {R : A → B → Prop} {l : List A} {b b' : B} (h : List.Forall₂ R l [b, b']) :
    ∃ a a', l = [a, a'] ∧ R a b ∧ R a' b' := by
  cases h with
  | cons h1 h2 => cases h2 with
    | cons h3 h4 => cases h4; exact ⟨_, _, rfl, h1, h3⟩

theorem forall₂_one {A B : Type} {R : A → B → Prop} {l : List A} {b : B} (h : List.Forall₂ R l [b]) :
    ∃ a, l = [a] ∧ R a b := by
  cases h with
  | cons h1 h2 => cases h2; exact ⟨_, rfl, h1⟩

theorem Final.good {past : Bool} {e : Expr α} (h : Final past e) {g : Heap Lab} {nm : α → String} {x : Nat}
    (hd : g.Denotes x (e.toAst (signalAtoms nm))) : Good past g nm x e := by
  have h1 := (nowhere_iff.1 h.plain).1
  have h2 := (nowhere_iff.1 h.basic).1
  have h3 := (nowhere_iff.1 h.narrow).1
  cases e
  case atom a =>
    simp only [toAst, signalAtoms] at hd
    rw [denotes_node] at hd
    exact .atom a hd.1.symm (List.forall₂_nil_right_iff.1 hd.2)
  case const b =>
    simp only [toAst] at hd
    rw [denotes_node] at hd
    exact .const b hd.1.symm (List.forall₂_nil_right_iff.1 hd.2)
  case neg d =>
    simp only [toAst] at hd
    rw [denotes_node] at hd
    obtain ⟨c, hk, hc⟩ := forall₂_one hd.2
    exact .neg d c hd.1.symm hk hc h1
  case and cs =>
    simp only [odd, not_or, not_lt, not_exists, not_and] at h1
    simp only [isWide, children, not_lt] at h3
    match cs, h1, h3 with
    | [d, d'], h1, _ =>
      simp only [toAst, toAstL] at hd
      rw [denotes_node] at hd
      obtain ⟨c, c', hk, hc, hc'⟩ := forall₂_two hd.2
      exact .and d d' c c' hd.1.symm hk hc hc' (h1.2 d (by simp)) (h1.2 d' (by simp))
    | [], h1, _ => simp at h1
    | [_], h1, _ => simp at h1
    | _ :: _ :: _ :: _, _, h3 => simp at h3
  case or cs =>
    simp only [odd, not_or, not_lt, not_exists, not_and] at h1
    simp only [isWide, children, not_lt] at h3
    match cs, h1, h3 with
    | [d, d'], h1, _ =>
      simp only [toAst, toAstL] at hd
      rw [denotes_node] at hd
      obtain ⟨c, c', hk, hc, hc'⟩ := forall₂_two hd.2
      exact .or d d' c c' hd.1.symm hk hc hc' (h1.2 d (by simp)) (h1.2 d' (by simp))
    | [], h1, _ => simp at h1
    | [_], h1, _ => simp at h1
    | _ :: _ :: _ :: _, _, h3 => simp at h3
  case iff d d' =>
    simp only [odd, not_or] at h1
    simp only [toAst] at hd
    rw [denotes_node] at hd
    obtain ⟨c, c', hk, hc, hc'⟩ := forall₂_two hd.2
    exact .iff d d' c c' hd.1.symm hk hc hc' h1.1 h1.2
  case untl lb ub d d' =>
    simp only [odd, not_or, not_lt, Bool.not_eq_true] at h1
    simp only [toAst] at hd
    rw [denotes_node] at hd
    obtain ⟨c, c', hk, hc, hc'⟩ := forall₂_two hd.2
    exact .untl lb ub d d' c c' h1.1 hd.1.symm hk hc hc' h1.2.1 h1.2.2
  case rel lb ub d d' =>
    simp only [odd, not_or, not_lt, Bool.not_eq_true] at h1
    simp only [toAst] at hd
    rw [denotes_node] at hd
    obtain ⟨c, c', hk, hc, hc'⟩ := forall₂_two hd.2
    exact .rel lb ub d d' c c' h1.1 hd.1.symm hk hc hc' h1.2.1 h1.2.2
  case since lb ub d d' =>
    simp only [odd, not_or, not_lt, Bool.not_eq_false, not_not] at h1
    obtain ⟨g1, g2, rfl, g4⟩ := h1
    simp only [toAst] at hd
    rw [denotes_node] at hd
    obtain ⟨c, c', hk, hc, hc'⟩ := forall₂_two hd.2
    exact .since lb ub d' c c' g1 hd.1.symm hk hc hc' g2 g4
  case trig lb ub d d' =>
    simp only [odd, not_or, not_lt, Bool.not_eq_false, not_not] at h1
    obtain ⟨g1, g2, rfl, g4⟩ := h1
    simp only [toAst] at hd
    rw [denotes_node] at hd
    obtain ⟨c, c', hk, hc, hc'⟩ := forall₂_two hd.2
    exact .trig lb ub d' c c' g1 hd.1.symm hk hc hc' g2 g4
  case equal => exact absurd trivial h1
  all_goals exact absurd trivial h2

/-! ### Other labels -/

theorem relabel_reach {L M : Type} {g : Nat → L → M} {h : Heap L} {rs : List Nat} {x : Nat} :
    Reachable (h.relabel g) rs x ↔ Reachable h rs x := by
  constructor
  · intro hr
    induction hr with
    | root h => exact .root h
    | kid _ hc ih => exact .kid ih hc
  · intro hr
    induction hr with
    | root h => exact .root h
    | kid _ hc ih => exact .kid ih hc

theorem relabel_acyclic {L M : Type} {g : Nat → L → M} {h : Heap L} (ha : h.Acyclic) : (h.relabel g).Acyclic := by
  intro x
  obtain ⟨t, ht⟩ := ha x
  induction t using Tree.childInduction generalizing x with
  | h l ts ih =>
    rw [denotes_node] at ht
    have : ∀ (ks : List Nat) (ts' : List (Tree L)), (∀ t ∈ ts', t ∈ ts) → List.Forall₂ h.Denotes ks ts' → ∃ us, List.Forall₂ (h.relabel g).Denotes ks us := by
      intro ks ts' hm hk
      induction hk with
      | nil => exact ⟨[], .nil⟩
      | @cons k t ks ts' h1 _ ih' =>
        obtain ⟨us, hus⟩ := ih' fun t ht => hm t (by simp [ht])
        obtain ⟨u, hu⟩ := ih t (hm t (by simp)) k h1
        exact ⟨u :: us, .cons hu hus⟩
    obtain ⟨us, hus⟩ := this _ ts (fun _ h => h) ht.2
    exact ⟨.node (g x (h.lab x)) us, denotes_node.2 ⟨rfl, hus⟩⟩

open Classical in
/-- The span of the expression at `x`. -/
noncomputable def spanAt (g : Heap Lab) (nm : α → String) (past : Bool) (x : Nat) : Nat :=
  if h : ∃ e : Expr α, g.Denotes x (e.toAst (signalAtoms nm)) then span past h.choose else 0

theorem spanAt_eq {g : Heap Lab} {nm : α → String} (hnm : Function.Injective nm) {past : Bool} {x : Nat} {e : Expr α}
    (hd : g.Denotes x (e.toAst (signalAtoms nm))) : spanAt g nm past x = span past e := by
  have h : ∃ e : Expr α, g.Denotes x (e.toAst (signalAtoms nm)) := ⟨e, hd⟩
  unfold spanAt
  rw [dif_pos h, toAst_inj (signalAtoms_separate hnm) _ _ (h.choose_spec.unique hd)]

/-- The program of the back end and the formulas it was made from. -/
structure Linked (nm : α → String) (b : BackEnd) (g : Heap Lab) (fs ps : List (SpecOf α)) (P : BProg) : Prop where
  inj : Function.Injective nm
  heap : P.heap = g.relabel (toBNode b.ty b.sid b.bits)
  bz : P.bz = false
  acyclic : g.Acyclic
  future : g.Holds (signalAtoms nm) P.ft fs
  past : g.Holds (signalAtoms nm) P.pt ps
  ffin : ∀ s ∈ fs, Final false s.2.2 ∧ ¬ isConst s.2.2
  pfin : ∀ s ∈ ps, Final true s.2.2 ∧ ¬ isConst s.2.2
  apart : Apart g P.ft P.pt
  numbers : ((fs ++ ps).map (·.2.1)).Nodup
  ids : ∀ x, (∃ i, P.atomicId x = some i) ↔ P.Live x ∧ ∃ t s, P.heap.lab x = .signal t s
  idv : ∀ x i a, P.atomicId x = some i → g.lab x = .name (nm a) → i = (b.sid (nm a)).toNat

namespace Linked
variable {nm : α → String} {b : BackEnd} {g : Heap Lab} {fs ps : List (SpecOf α)} {P : BProg}

theorem lab (L : Linked nm b g fs ps P) (x : Nat) : P.heap.lab x = toBNode b.ty b.sid b.bits x (g.lab x) := by rw [L.heap]; rfl
theorem kids (L : Linked nm b g fs ps P) (x : Nat) : P.heap.kids x = g.kids x := by rw [L.heap]; rfl
theorem reach (L : Linked nm b g fs ps P) {r x : Nat} : P.heap.Reachable [r] x ↔ g.Reachable [r] x := by rw [L.heap]; exact relabel_reach

/-- A live node is one of the two sets, a specification or a part of a formula. -/
inductive At (g : Heap Lab) (nm : α → String) (P : BProg) (fs ps : List (SpecOf α)) (x : Nat) : Prop
  | top : g.lab x = .specSet → At g nm P fs ps x
  | spec (past : Bool) (s c) : s ∈ (if past then ps else fs) → g.lab x = .formula s.1 s.2.1 → g.kids x = [c] →
      g.Denotes c (s.2.2.toAst (signalAtoms nm)) → x ∈ g.kids (if past then P.pt else P.ft) → At g nm P fs ps x
  | expr (past : Bool) (s e) : s ∈ (if past then ps else fs) → Part s.2.2 e → Final past e → g.Denotes x (e.toAst (signalAtoms nm)) → At g nm P fs ps x

theorem top_lab {f : α → Ast} {r : Nat} {specs : List (SpecOf α)} (h : g.Holds f r specs) : g.lab r = .specSet := by
  unfold Heap.Holds at h
  rw [denotes_node] at h
  exact h.1.symm

theorem kid_at {f : α → Ast} {r z : Nat} {specs : List (SpecOf α)} (h : g.Holds f r specs) (hz : z ∈ g.kids r) :
    ∃ (i : Nat) (s : SpecOf α), (g.kids r)[i]? = some z ∧ specs[i]? = some s ∧ g.lab z = .formula s.1 s.2.1 := by
  unfold Heap.Holds at h
  rw [denotes_node] at h
  obtain ⟨i, hi⟩ := List.getElem?_of_mem hz
  have hlen := h.2.length_eq
  obtain ⟨hlt, hi'⟩ := List.getElem?_eq_some_iff.1 hi
  have hlt' : i < specs.length := by simpa [hlen] using hlt
  have hr := (List.forall₂_iff_get.1 h.2).2 i hlt (by simpa using hlt')
  simp only [List.get_eq_getElem, List.getElem_map] at hr
  rw [denotes_node] at hr
  rw [← hi']
  exact ⟨i, specs[i], by simp [hlt], by simp [hlt'], hr.1.symm⟩

theorem at_live (L : Linked nm b g fs ps P) {x : Nat} (hx : P.Live x) : At g nm P fs ps x := by
  rcases hx with hx | hx
  · cases reach_kind L.future (L.reach.1 hx) with
    | top h => subst h; exact .top (top_lab L.future)
    | spec s c h1 h2 h3 h4 h5 => exact .spec false s c h1 h2 h3 h4 h5
    | expr s e h1 h2 h3 => exact .expr false s e h1 h2 ((L.ffin s h1).1.part h2) h3
  · cases reach_kind L.past (L.reach.1 hx) with
    | top h => subst h; exact .top (top_lab L.past)
    | spec s c h1 h2 h3 h4 h5 => exact .spec true s c h1 h2 h3 h4 h5
    | expr s e h1 h2 h3 => exact .expr true s e h1 h2 ((L.pfin s h1).1.part h2) h3

theorem spec_fin (L : Linked nm b g fs ps P) {past : Bool} {s : SpecOf α} (h : s ∈ (if past then ps else fs)) :
    Final past s.2.2 ∧ ¬ isConst s.2.2 := by
  cases past
  · exact L.ffin s h
  · exact L.pfin s h

theorem live_kid (L : Linked nm b g fs ps P) {x c : Nat} (hx : P.Live x) (hc : c ∈ g.kids x) : P.Live c := by
  rcases hx with h | h
  · exact .inl (.kid h (by rw [L.kids]; exact hc))
  · exact .inr (.kid h (by rw [L.kids]; exact hc))

theorem varies (L : Linked nm b g fs ps P) {c : Nat} {d : Expr α} (hd : g.Denotes c (d.toAst (signalAtoms nm))) (h : ¬ isConst d) :
    P.Varies c := by
  unfold BProg.Varies
  rw [L.lab]
  have : ∀ b, g.lab c ≠ .lit (.bool b) := by
    intro b hb
    cases d <;> simp only [toAst, signalAtoms] at hd <;> rw [denotes_node] at hd <;> have h1 := hd.1 <;> rw [hb] at h1 <;> simp at h1
    exact h trivial
  cases hl : g.lab c <;> simp only [toBNode, BNode.isBoolConst]
  rename_i v
  cases v <;> try rfl
  exact absurd hl (this _)

theorem constant (L : Linked nm b g fs ps P) {c : Nat} {v : Bool} (hd : g.Denotes c ((Expr.const v).toAst (signalAtoms nm))) :
    P.heap.lab c = .bool v := by
  simp only [toAst] at hd
  rw [denotes_node] at hd
  rw [L.lab, ← hd.1]; rfl

theorem ready (L : Linked nm b g fs ps P) : P.Ready where
  acyclic := by rw [L.heap]; exact relabel_acyclic L.acyclic
  ftSet := by rw [L.lab, top_lab L.future]; rfl
  ptSet := by rw [L.lab, top_lab L.past]; rfl
  arity := by
    intro x hx o t hl ho
    rw [L.lab] at hl
    cases L.at_live hx with
    | top h => rw [h] at hl; simp [toBNode] at hl
    | spec past s c h1 h2 h3 h4 h5 => rw [h2] at hl; simp [toBNode] at hl
    | expr past s e h1 h2 h3 h4 =>
      cases h3.good h4 <;> rename_i h _ <;> simp_all [toBNode] <;> (obtain ⟨rfl, _⟩ := hl; simp [OpK.isLogical] at ho)
  atomsBz := by rw [L.bz]; simp
  atomsNo := by
    intro _ x hx
    obtain ⟨i, hi⟩ := Option.ne_none_iff_exists'.1 hx
    exact ((L.ids x).1 ⟨i, hi⟩).2

theorem separate (L : Linked nm b g fs ps P) : P.Separate :=
  fun x h1 h2 => absurd (L.reach.1 h2) (L.apart x (L.reach.1 h1))

theorem atomic (L : Linked nm b g fs ps P) {x : Nat} {a : α} (hx : P.Live x) (hl : g.lab x = .name (nm a)) :
    P.atomicId x = some (b.sid (nm a)).toNat := by
  obtain ⟨i, hi⟩ := (L.ids x).2 ⟨hx, _, _, by rw [L.lab, hl]; rfl⟩
  rw [hi, L.idv x i a hi hl]

theorem engine (L : Linked nm b g fs ps P) (x : Nat) : P.engine x = (toBNode b.ty b.sid b.bits x (g.lab x)).engine false := by
  unfold BProg.engine; rw [L.bz, L.lab]

theorem covered (L : Linked nm b g fs ps P) : P.Covered := by
  intro p c hp he hc
  have hcl := L.live_kid hp (by rw [← L.kids]; exact hc)
  cases L.at_live hcl with
  | top h =>
    rw [L.kids] at hc
    exfalso
    cases L.at_live hp with
    | top h' => rw [L.engine, h'] at he; simp [toBNode, BNode.engine] at he
    | spec past s c' h1 h2 h3 h4 h5 =>
      rw [h3] at hc
      rw [List.mem_singleton.1 hc] at h
      exact ((L.spec_fin h1).1.good h4).notTop h
    | expr past s e h1 h2 h3 h4 =>
      obtain ⟨d, hm, hd⟩ := denotes_child h4 hc
      exact ((h3.part (Part.self.kid hm)).good hd).notTop h
  | spec past s c' h1 h2 h3 h4 h5 => right; right; rw [L.engine, h2]; rfl
  | expr past s e h1 h2 h3 h4 =>
    cases h3.good h4 with
    | atom a hl _ => right; left; rw [L.atomic hcl hl]; simp
    | const v hl _ => left; rw [L.lab, hl]; rfl
    | _ => right; right; rw [L.engine]; simp_all [toBNode, BNode.engine, OpK.isLogical]

/-- An operand of a node of the temporal engine is a part of a formula, and so is the node unless it is a specification. -/
theorem operand (L : Linked nm b g fs ps P) {x c : Nat} (hx : P.Live x) (he : P.engine x = .tl) (hc : c ∈ P.heap.kids x) :
    ∃ (past : Bool) (s : SpecOf α) (d : Expr α), s ∈ (if past then ps else fs) ∧ Part s.2.2 d ∧ Final past d ∧ g.Denotes c (d.toAst (signalAtoms nm)) ∧
      (((P.heap.lab x).isFormula = true ∧ g.kids x = [c] ∧ d = s.2.2 ∧ P.heap.lab x = .formula s.2.1) ∨
        ((P.heap.lab x).isFormula = false ∧ ∃ e, Part s.2.2 e ∧ Final past e ∧ Good past g nm x e ∧ g.Denotes x (e.toAst (signalAtoms nm)) ∧ d ∈ e.children)) := by
  rw [L.kids] at hc
  cases L.at_live hx with
  | top h' => rw [L.engine, h'] at he; simp [toBNode, BNode.engine] at he
  | spec past s c' h1 h2 h3 h4 h5 =>
    rw [h3] at hc
    rw [← List.mem_singleton.1 hc] at h4 h3
    exact ⟨past, s, _, h1, .self, (L.spec_fin h1).1, h4, .inl ⟨by rw [L.lab, h2]; rfl, h3, rfl, by rw [L.lab, h2]; rfl⟩⟩
  | expr past s e h1 h2 h3 h4 =>
    obtain ⟨d, hm, hd⟩ := denotes_child h4 hc
    have hg := h3.good h4
    refine ⟨past, s, d, h1, h2.kid hm, h3.part (Part.self.kid hm), hd, .inr ⟨?_, e, h2, h3, hg, h4, hm⟩⟩
    rw [L.lab]
    cases hg <;> simp_all [toBNode, BNode.isFormula]

theorem span_kid (L : Linked nm b g fs ps P) {x c : Nat} {e d : Expr α} (hx : g.Denotes x (e.toAst (signalAtoms nm)))
    (hc : g.Denotes c (d.toAst (signalAtoms nm))) (hm : d ∈ e.children) (past : Bool) : spanAt g nm past c ≤ spanAt g nm past x := by
  rw [spanAt_eq L.inj hx, spanAt_eq L.inj hc]
  exact span_child hm

/-- The program is one the monitor gets right. -/
theorem monitorable (L : Linked nm b g fs ps P) (k : Nat) (hf : ∀ s ∈ fs, span false s.2.2 ≤ k) (hp : ∀ s ∈ ps, span true s.2.2 ≤ k) :
    P.Monitorable (fun x => -(spanAt g nm true x : Int)) (fun x => -(spanAt g nm true x : Int)) (fun x => (spanAt g nm false x : Int)) k where
  supported := by
    intro x hx he
    unfold BProg.Supported
    rw [L.kids, L.lab]
    cases L.at_live hx with
    | top h' => rw [L.engine, h'] at he; simp [toBNode, BNode.engine] at he
    | spec past s c' h1 h2 h3 h4 h5 =>
      rw [h2, h3]
      exact L.varies h4 (L.spec_fin h1).2
    | expr past s e h1 h2 h3 h4 =>
      have nb : ∀ {c d : Expr α} {y : Nat} {v : Bool}, g.Denotes y (d.toAst (signalAtoms nm)) → ¬ isConst d → P.heap.lab y ≠ .bool v := by
        intro c d y v hd hc hl
        have := L.varies hd hc
        unfold BProg.Varies at this
        rw [hl] at this; simp [BNode.isBoolConst] at this
      cases h3.good h4 with
      | atom a hl hk => rw [L.engine, hl] at he; simp [toBNode, BNode.engine] at he
      | const v hl hk => rw [hl, hk]; trivial
      | neg d c hl hk hd hc => rw [hl, hk]; exact L.varies hd hc
      | and d d' c c' hl hk hd hd' hc hc' =>
        rw [hl, hk]
        refine ⟨.inl (L.varies hd hc), fun y hy => ?_⟩
        simp only [List.mem_cons, List.not_mem_nil, or_false] at hy
        rcases hy with rfl | rfl
        · exact nb (c := d) hd hc
        · exact nb (c := d) hd' hc'
      | or d d' c c' hl hk hd hd' hc hc' =>
        rw [hl, hk]
        refine ⟨.inl (L.varies hd hc), fun y hy => ?_⟩
        simp only [List.mem_cons, List.not_mem_nil, or_false] at hy
        rcases hy with rfl | rfl
        · exact nb (c := d) hd hc
        · exact nb (c := d) hd' hc'
      | iff d d' c c' hl hk hd hd' hc hc' => rw [hl, hk]; exact .inl (L.varies hd hc)
      | untl lb ub d d' c c' hp hl hk hd hd' hi hc' => rw [hl, hk]; exact ⟨hi, L.varies hd' hc'⟩
      | rel lb ub d d' c c' hp hl hk hd hd' hi hc' => rw [hl, hk]; exact ⟨hi, L.varies hd' hc'⟩
      | since lb ub d' c c' hp hl hk hd hd' hi hc' => rw [hl, hk]; exact ⟨hi, L.constant hd, L.varies hd' hc'⟩
      | trig lb ub d' c c' hp hl hk hd hd' hi hc' => rw [hl, hk]; exact ⟨hi, L.constant hd, L.varies hd' hc'⟩
  top := by
    intro x c hx he hc
    obtain ⟨past, s, d, h1, h2, h3, h4, _⟩ := L.operand hx he hc
    rw [L.lab]
    cases h3.good h4 <;> simp_all [toBNode, BNode.isFormula]
  numbers := by
    intro x y n hx hy hlx hly
    have one : ∀ z, P.Live z → P.heap.lab z = .formula n → ∃ (past : Bool) (s : SpecOf α), s ∈ (if past then ps else fs) ∧ s.2.1 = n ∧
        g.lab z = .formula s.1 s.2.1 ∧ z ∈ g.kids (if past then P.pt else P.ft) := by
      intro z hz hl
      rw [L.lab] at hl
      cases L.at_live hz with
      | top h => rw [h] at hl; simp [toBNode] at hl
      | spec past s c h1 h2 h3 h4 h5 =>
        rw [h2] at hl
        simp only [toBNode, BNode.formula.injEq] at hl
        exact ⟨past, s, h1, hl, h2, h5⟩
      | expr past s e h1 h2 h3 h4 => cases h3.good h4 <;> simp_all [toBNode]
    obtain ⟨p1, s1, a1, a2, a3, a4⟩ := one x hx hlx
    obtain ⟨p2, s2, b1, b2, b3, b4⟩ := one y hy hly
    have holds : ∀ p : Bool, g.Holds (signalAtoms nm) (if p then P.pt else P.ft) (if p then ps else fs) := by
      intro p; cases p
      · exact L.future
      · exact L.past
    obtain ⟨i, t, c1, c2, c3⟩ := kid_at (holds p1) a4
    obtain ⟨j, u, d1, d2, d3⟩ := kid_at (holds p2) b4
    have e1 : t.2.1 = n := by rw [a3] at c3; simp only [Lab.formula.injEq] at c3; rw [← c3.2]; exact a2
    have e2 : u.2.1 = n := by rw [b3] at d3; simp only [Lab.formula.injEq] at d3; rw [← d3.2]; exact b2
    have hnd := L.numbers
    rw [List.map_append, List.nodup_append] at hnd
    obtain ⟨n1, n2, n3⟩ := hnd
    have same : ∀ l : List (SpecOf α), (l.map (·.2.1)).Nodup → l[i]? = some t → l[j]? = some u → i = j := by
      intro l hl h1 h2
      obtain ⟨hi, h1⟩ := List.getElem?_eq_some_iff.1 h1
      obtain ⟨hj, h2⟩ := List.getElem?_eq_some_iff.1 h2
      refine (List.Nodup.getElem_inj_iff hl (hi := by simpa using hi) (hj := by simpa using hj)).1 ?_
      simp only [List.getElem_map, h1, h2, e1, e2]
    cases p1 <;> cases p2
    · have := same fs n1 c2 d2
      subst this
      exact Option.some.inj (c1.symm.trans d1)
    · exact absurd (e1.trans e2.symm) (n3 _ (List.mem_map_of_mem (List.mem_of_getElem? c2)) _ (List.mem_map_of_mem (List.mem_of_getElem? d2)))
    · exact absurd (e2.trans e1.symm) (n3 _ (List.mem_map_of_mem (List.mem_of_getElem? d2)) _ (List.mem_map_of_mem (List.mem_of_getElem? c2)))
    · have := same ps n2 c2 d2
      subst this
      exact Option.some.inj (c1.symm.trans d1)
  leaf := by intro x _; simp
  soon := by
    intro x c hx he hnf hc
    obtain ⟨past, s, d, h1, h2, h3, h4, h5⟩ := L.operand hx he hc
    rcases h5 with ⟨h5, _⟩ | ⟨_, e, g1, g2, g3, g4, g5⟩
    · rw [h5] at hnf; cases hnf
    · rw [spanAt_eq L.inj h4, spanAt_eq L.inj g4]
      have hsp := span_child (past := true) g5
      unfold BProg.soonBy
      rw [L.lab]
      cases g3 <;> simp_all [toBNode, span, children] <;> rcases g5 with rfl | rfl <;> (try simp only [span]) <;> omega
  late := by
    intro x c hx he hnf hc
    obtain ⟨past, s, d, h1, h2, h3, h4, h5⟩ := L.operand hx he hc
    rcases h5 with ⟨h5, _⟩ | ⟨_, e, g1, g2, g3, g4, g5⟩
    · rw [h5] at hnf; cases hnf
    · rw [spanAt_eq L.inj h4, spanAt_eq L.inj g4]
      have hsp := span_child (past := false) g5
      unfold BProg.lateBy
      rw [L.lab]
      cases g3 <;> simp_all [toBNode, span, children] <;> rcases g5 with rfl | rfl <;> (try simp only [span]) <;> omega
  calm := fun x _ => .inl (le_refl _)
  consts := by
    intro x v c hx he hpast hb hbc hc
    have hc' := (List.mem_filter.1 hc).1
    obtain ⟨past, s, d, h1, h2, h3, h4, h5⟩ := L.operand hx he hc'
    rcases h5 with ⟨h5, h6, _⟩ | ⟨_, e, g1, g2, g3, g4, g5⟩
    · rw [L.kids, h6] at hb
      rw [List.mem_singleton.1 hb] at hbc
      have := (List.mem_filter.1 hc).2
      rw [hbc] at this; simp at this
    · rw [spanAt_eq L.inj h4]
      cases past
      · rw [show span true d = 0 from span_other (past := false) d h3.plain]; simp
      · exfalso
        have hnv : ¬ P.Varies v := by unfold BProg.Varies; rw [hbc]; simp
        rw [L.kids] at hb
        cases g3 with
        | atom a hl hk => rw [hk] at hb; simp at hb
        | const v hl hk => rw [hk] at hb; simp at hb
        | neg d c hl hk hd hc => rw [hk] at hb; rw [List.mem_singleton.1 hb] at hnv; exact hnv (L.varies hd hc)
        | and d d' c c' hl hk hd hd' hc hc' =>
          rw [hk] at hb
          simp only [List.mem_cons, List.not_mem_nil, or_false] at hb
          rcases hb with rfl | rfl
          · exact hnv (L.varies hd hc)
          · exact hnv (L.varies hd' hc')
        | or d d' c c' hl hk hd hd' hc hc' =>
          rw [hk] at hb
          simp only [List.mem_cons, List.not_mem_nil, or_false] at hb
          rcases hb with rfl | rfl
          · exact hnv (L.varies hd hc)
          · exact hnv (L.varies hd' hc')
        | iff d d' c c' hl hk hd hd' hc hc' =>
          rw [hk] at hb
          simp only [List.mem_cons, List.not_mem_nil, or_false] at hb
          rcases hb with rfl | rfl
          · exact hnv (L.varies hd hc)
          · exact hnv (L.varies hd' hc')
        | untl lb ub d d' c c' hp hl hk hd hd' hi hc' => cases hp
        | rel lb ub d d' c c' hp hl hk hd hd' hi hc' => cases hp
        | since lb ub d' c c' hp hl hk hd hd' hi hc' => exact hpast ⟨lb, ub, .inl (by rw [L.lab, hl]; rfl)⟩
        | trig lb ub d' c c' hp hl hk hd hd' hi hc' => exact hpast ⟨lb, ub, .inr (by rw [L.lab, hl]; rfl)⟩
  room := by
    intro x c hx he hc
    have hc' := (List.mem_filter.1 hc).1
    obtain ⟨past, s, d, h1, h2, h3, h4, h5⟩ := L.operand hx he hc'
    have bound : ∀ {p : Bool}, span p s.2.2 ≤ k → span p d ≤ k := fun h => le_trans (h2.span _) h
    have all : ∀ y ∈ P.heap.kids x, ∃ d', Final past d' ∧ Part s.2.2 d' ∧ g.Denotes y (d'.toAst (signalAtoms nm)) := by
      intro y hy
      rw [L.kids] at hy
      rcases h5 with ⟨_, h6, _⟩ | ⟨_, e, g1, g2, g3, g4, g5⟩
      · rw [h6] at hy; rw [List.mem_singleton.1 hy]; exact ⟨d, h3, h2, h4⟩
      · obtain ⟨d', hm, hd⟩ := denotes_child g4 hy
        exact ⟨d', g2.part (Part.self.kid hm), g1.kid hm, hd⟩
    apply C55_enough_slots
    · rw [spanAt_eq L.inj h4]
      cases past
      · rw [show span true d = 0 from span_other (past := false) d h3.plain]; simp
      · have := bound (hp s h1); omega
    · intro y hy
      obtain ⟨d', f1, f2, f3⟩ := all y hy
      rw [spanAt_eq L.inj h4, spanAt_eq L.inj f3]
      cases past
      · rw [show span true d = 0 from span_other (past := false) d h3.plain]
        have := le_trans (f2.span false) (hf s h1)
        omega
      · rw [show span false d' = 0 from span_other (past := true) d' f1.plain]
        have := bound (hp s h1); omega

/-- The formula of a node, over the inputs of the monitor. -/
theorem says_expr (L : Linked nm b g fs ps P) (e : Expr α) : ∀ {past : Bool} {x : Nat}, P.Live x → Final past e → g.Denotes x (e.toAst (signalAtoms nm)) →
    ∃ e2 : Expr Nat, P.Says x e2 ∧ ∀ (tr : Nat → Nat → Prop) (i : Nat), sat tr e2 i ↔ sat (fun t a => tr t (b.sid (nm a)).toNat) e i := by
  induction e using childInduction with
  | h e ih =>
    intro past x hx hfin hden
    have sub : ∀ {d : Expr α} {c : Nat}, d ∈ e.children → c ∈ g.kids x → g.Denotes c (d.toAst (signalAtoms nm)) → ∃ e2 : Expr Nat, P.Says c e2 ∧
        ∀ (tr : Nat → Nat → Prop) (i : Nat), sat tr e2 i ↔ sat (fun t a => tr t (b.sid (nm a)).toNat) d i :=
      fun hm hc hdc => ih _ hm (L.live_kid hx hc) (hfin.part (Part.self.kid hm)) hdc
    have hlab := L.lab x
    have hkids := L.kids x
    cases hfin.good hden with
    | atom a hl hk => exact ⟨_, .atom (L.atomic hx hl), fun tr i => by simp [sat]⟩
    | const v hl hk => exact ⟨_, .const (by rw [hlab, hl]; rfl), fun tr i => by simp [sat]⟩
    | neg d c hl hk hd hc =>
      obtain ⟨e1, a1, a2⟩ := sub (by simp [children]) (by rw [hk]; simp) hd
      exact ⟨_, .neg (by rw [hlab, hl]; rfl) (by rw [hkids, hk]) a1, fun tr i => by simp [sat, a2]⟩
    | and d d' c c' hl hk hd hd' hc hc' =>
      obtain ⟨e1, a1, a2⟩ := sub (by simp [children]) (by rw [hk]; simp) hd
      obtain ⟨e2, b1, b2⟩ := sub (by simp [children]) (by rw [hk]; simp) hd'
      exact ⟨_, .and (by rw [hlab, hl]; rfl) (by rw [hkids, hk]) a1 b1, fun tr i => by simp [sat, satAll, a2, b2]⟩
    | or d d' c c' hl hk hd hd' hc hc' =>
      obtain ⟨e1, a1, a2⟩ := sub (by simp [children]) (by rw [hk]; simp) hd
      obtain ⟨e2, b1, b2⟩ := sub (by simp [children]) (by rw [hk]; simp) hd'
      exact ⟨_, .or (by rw [hlab, hl]; rfl) (by rw [hkids, hk]) a1 b1, fun tr i => by simp [sat, satAny, a2, b2]⟩
    | iff d d' c c' hl hk hd hd' hc hc' =>
      obtain ⟨e1, a1, a2⟩ := sub (by simp [children]) (by rw [hk]; simp) hd
      obtain ⟨e2, b1, b2⟩ := sub (by simp [children]) (by rw [hk]; simp) hd'
      exact ⟨_, .iff (by rw [hlab, hl]; rfl) (by rw [hkids, hk]) a1 b1, fun tr i => by simp [sat, a2, b2]⟩
    | untl lb ub d d' c c' hp hl hk hd hd' hi hc' =>
      obtain ⟨e1, a1, a2⟩ := sub (by simp [children]) (by rw [hk]; simp) hd
      obtain ⟨e2, b1, b2⟩ := sub (by simp [children]) (by rw [hk]; simp) hd'
      exact ⟨_, .untl (by rw [hlab, hl]; rfl) (by rw [hkids, hk]) a1 b1, fun tr i => by simp [sat, a2, b2]⟩
    | rel lb ub d d' c c' hp hl hk hd hd' hi hc' =>
      obtain ⟨e1, a1, a2⟩ := sub (by simp [children]) (by rw [hk]; simp) hd
      obtain ⟨e2, b1, b2⟩ := sub (by simp [children]) (by rw [hk]; simp) hd'
      exact ⟨_, .rel (by rw [hlab, hl]; rfl) (by rw [hkids, hk]) a1 b1, fun tr i => by simp [sat, a2, b2]⟩
    | since lb ub d' c c' hp hl hk hd hd' hi hc' =>
      obtain ⟨e1, a1, a2⟩ := sub (by simp [children]) (by rw [hk]; simp) hd
      obtain ⟨e2, b1, b2⟩ := sub (by simp [children]) (by rw [hk]; simp) hd'
      exact ⟨_, .since (by rw [hlab, hl]; rfl) (by rw [hkids, hk]) a1 b1, fun tr i => by simp only [sat, a2, b2]⟩
    | trig lb ub d' c c' hp hl hk hd hd' hi hc' =>
      obtain ⟨e1, a1, a2⟩ := sub (by simp [children]) (by rw [hk]; simp) hd
      obtain ⟨e2, b1, b2⟩ := sub (by simp [children]) (by rw [hk]; simp) hd'
      exact ⟨_, .trig (by rw [hlab, hl]; rfl) (by rw [hkids, hk]) a1 b1, fun tr i => by simp only [sat, a2, b2]⟩

/-- The booleanizer has nothing to do. -/
theorem noCells (L : Linked nm b g fs ps P) (x : Nat) : ¬ P.NeedsCell x := by
  rintro ⟨hx, he, _⟩
  rw [L.engine] at he
  cases L.at_live hx with
  | top h => rw [h] at he; simp [toBNode, BNode.engine] at he
  | spec past s c h1 h2 h3 h4 h5 => rw [h2] at he; simp [toBNode, BNode.engine] at he
  | expr past s e h1 h2 h3 h4 => cases h3.good h4 <;> simp_all [toBNode, BNode.engine, OpK.isLogical]

/-- Where the formula of a specification is. -/
theorem spec_node (L : Linked nm b g fs ps P) {past : Bool} {s : SpecOf α} (hs : s ∈ (if past then ps else fs)) :
    ∃ x c, P.Live x ∧ P.heap.lab x = .formula s.2.1 ∧ P.heap.kids x = [c] ∧ P.Live c ∧ g.Denotes c (s.2.2.toAst (signalAtoms nm)) := by
  have key : ∀ r, g.Holds (signalAtoms nm) r (if past then ps else fs) → (∀ z, P.heap.Reachable [r] z → P.Live z) →
      ∃ x c, P.Live x ∧ P.heap.lab x = .formula s.2.1 ∧ P.heap.kids x = [c] ∧ P.Live c ∧ g.Denotes c (s.2.2.toAst (signalAtoms nm)) := by
    intro r hh hlive
    unfold Heap.Holds at hh
    rw [denotes_node] at hh
    obtain ⟨x, hx, hd⟩ := forall2_mem_left hh.2.flip (List.mem_map_of_mem (f := fun s : SpecOf α => Tree.node (Lab.formula s.1 s.2.1) [s.2.2.toAst (signalAtoms nm)]) hs)
    have hd : g.Denotes x _ := hd
    rw [denotes_node] at hd
    obtain ⟨c, hk, hc⟩ := forall₂_one hd.2
    have hxl : P.Live x := hlive x (.kid .self (by rw [L.kids]; exact hx))
    exact ⟨x, c, hxl, by rw [L.lab, ← hd.1]; rfl, by rw [L.kids, hk], L.live_kid hxl (by rw [hk]; simp), hc⟩
  cases past
  · exact key P.ft L.future fun z hz => .inl hz
  · exact key P.pt L.past fun z hz => .inr hz

end Linked

/-! ### Packing -/

theorem packU32_fits {v : Int} {s : List Nat} (h : packU32 v = some s) : 0 ≤ v ∧ v < 2 ^ 32 := by
  unfold packU32 at h
  split at h
  · assumption
  · cases h

theorem packTl_fits {i : TlInstr} {s : List Nat} (h : packTl i = some s) : (Instr.tl i).Fits := by
  unfold packTl at h
  split at h
  · rename_i a b c h1 h2 h3
    have := packU32_fits h1
    have := packU32_fits h2
    have := packU32_fits h3
    simp only [Instr.Fits, fits]
    omega
  · cases h

theorem packAll_mem {is : List Instr} {s : List Nat} (h : packAll is = some s) : ∀ i ∈ is, ∃ b, packInstr i = some b := by
  induction is generalizing s with
  | nil => simp
  | cons i is ih =>
    unfold packAll at h
    split at h
    · rename_i b bs h1 h2
      intro j hj
      rcases List.mem_cons.1 hj with rfl | hj
      · exact ⟨b, h1⟩
      · exact ih h2 j hj
    · cases h

theorem assemble_fits {A : BProg.Assembly} {aux s : List Nat} (h : assembleBytes A.instrs aux = some s) :
    (∀ i ∈ A.ft, (Instr.tl i).Fits) ∧ (∀ i ∈ A.pt, (Instr.tl i).Fits) ∧ ∀ i ∈ A.cg, (Instr.cg i).Fits := by
  unfold assembleBytes at h
  rw [Option.map_eq_some_iff] at h
  obtain ⟨s', h, _⟩ := h
  have hm := packAll_mem h
  refine ⟨fun i hi => ?_, fun i hi => ?_, fun i hi => ?_⟩
  · obtain ⟨b, hb⟩ := hm (.tl i) (by simp [BProg.Assembly.instrs, hi])
    simp only [packInstr, Option.map_eq_some_iff] at hb
    obtain ⟨b', hb, _⟩ := hb
    exact packTl_fits hb
  · obtain ⟨b, hb⟩ := hm (.tl i) (by simp [BProg.Assembly.instrs, hi])
    simp only [packInstr, Option.map_eq_some_iff] at hb
    obtain ⟨b', hb, _⟩ := hb
    exact packTl_fits hb
  · obtain ⟨b, hb⟩ := hm (.cg i) (by simp [BProg.Assembly.instrs, hi])
    simp only [packInstr, packCg, Option.map_map, Option.map_eq_some_iff] at hb
    obtain ⟨b', hb, _⟩ := hb
    have := packTl_fits hb
    simpa [Instr.Fits] using this


variable {nm : α → String} {b : BackEnd} {g : Heap Lab} {fs ps : List (SpecOf α)} {P : BProg}

theorem Linked.signal (L : Linked nm b g fs ps P) {x : Nat} {t : Bool} {s : Int} (hl : P.Live x) (hs : P.heap.lab x = .signal t s) :
    ∃ c, g.lab x = .name (nm c) := by
  rw [L.lab] at hs
  cases L.at_live hl with
  | top h => rw [h] at hs; cases hs
  | spec past s c h1 h2 h3 h4 h5 => rw [h2] at hs; cases hs
  | expr past s e h1 h2 h3 h4 =>
    cases e <;> simp only [toAst, signalAtoms] at h4 <;> rw [denotes_node] at h4 <;> rw [← h4.1] at hs ⊢ <;> first | exact ⟨_, rfl⟩ | cases hs

theorem Linked.ahead_le (L : Linked nm b g fs ps P) {k : Nat} (hk : ∀ s ∈ ps, span true s.2.2 ≤ k) {x : Nat} (hl : P.Live x) :
    spanAt g nm true x ≤ k := by
  have none : (∀ e : Expr α, ¬ g.Denotes x (e.toAst (signalAtoms nm))) → spanAt g nm true x ≤ k := by
    intro hn
    unfold spanAt
    rw [dif_neg (by rintro ⟨e, he⟩; exact hn e he)]; exact Nat.zero_le _
  have labs : ∀ e : Expr α, g.Denotes x (e.toAst (signalAtoms nm)) → g.lab x ≠ .specSet ∧ ∀ l k, g.lab x ≠ .formula l k := by
    intro e he
    cases e <;> simp only [toAst, signalAtoms] at he <;> rw [denotes_node] at he <;> rw [← he.1] <;> simp
  cases L.at_live hl with
  | top h => exact none fun e he => (labs e he).1 h
  | spec past s c h1 h2 h3 h4 h5 => exact none fun e he => (labs e he).2 _ _ h2
  | expr past s e h1 h2 h3 h4 =>
    rw [spanAt_eq L.inj h4]
    cases past
    · rw [show span true e = 0 from span_other (past := false) e h3.plain]; exact Nat.zero_le _
    · exact le_trans (h2.span true) (hk s h1)

end R2U2
