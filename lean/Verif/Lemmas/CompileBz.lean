import Verif.Lemmas.Link
import Verif.Spec.CompileBz
import Verif.Model.CompileBz
import Verif.Props.Arena
import Verif.Props.Booleanizer
/-
From the graph the passes leave, through `compute_atomics`, to a program the monitor gets right.
-/
namespace R2U2
open Heap Expr GraphPass
variable {α : Type}

/-! ### Parts of atoms -/

theorem Tree.Within.all {L : Type} {P : L → Nat → Prop} {s t : Tree L} (h : Tree.Within s t) (ha : t.All P) : s.All P := by
  induction h with
  | self => exact ha
  | kid hc _ ih => cases ha with | node _ h => exact ih (h _ hc)

theorem Tree.Within.trans {L : Type} {r s t : Tree L} (h : Tree.Within r s) (h' : Tree.Within s t) : Tree.Within r t := by
  induction h' with
  | self => exact h
  | kid hc _ ih => exact .kid hc ih

theorem Tree.Within.sub {L : Type} {c t : Tree L} {l : L} {ts : List (Tree L)} (h : Tree.Within (.node l ts) t) (hc : c ∈ ts) : Tree.Within c t :=
  Tree.Within.trans (.kid hc .self) h

theorem Tree.Within.desugared {s t : Ast} (h : Tree.Within s t) (hd : Desugared false t) : Desugared false s := by
  induction h with
  | self => exact hd
  | kid hc _ ih => exact ih (desugared_kids hd _ hc)

/-- An expression the booleanizer computes. -/
inductive Inner : Ast → Prop
  | name (s) : Inner (.node (.name s) [])
  | int (i) : Inner (.node (.lit (.int i)) [])
  | float (s) : Inner (.node (.lit (.float s)) [])
  | op (o ts) : o.isLogical = false → ts.length ∈ o.bzArity → Inner (.node (.op o) ts)

theorem inner_of {s : Ast} (ha : s.All fun l k => l.logical = false ∧ bzOperands l k) (hd : Desugared false s) : Inner s := by
  cases ha with
  | @node l ts h1 h2 =>
    cases l with
    | lit v =>
      cases v with
      | bool b => simp [Lab.logical] at h1
      | int i => simp only [Desugared] at hd; subst hd; exact .int i
      | float x => simp only [Desugared] at hd; rw [hd.2]; exact .float x
    | name x => simp only [Desugared] at hd; rw [hd.2]; exact .name x
    | op o => exact .op o ts (by cases o <;> simp_all [Lab.logical, OpK.isLogical]) (h1.2 o rfl)
    | tmp => simp [Lab.logical] at h1
    | atomic =>
      match ts, hd with
      | [], hd => simp [Desugared] at hd
      | [c], hd => simp [Desugared] at hd
      | _ :: _ :: _, hd => simp [Desugared] at hd
    | _ => simp [Desugared] at hd

theorem two_of_bz {l : Lab} {k : Nat} (h : bzOperands l k) : twoOperands l k := by
  rintro (rfl | rfl)
  · have := h _ rfl; simp only [OpK.bzArity, List.mem_singleton] at this; omega
  · have := h _ rfl; simp only [OpK.bzArity, List.mem_singleton] at this; omega

theorem Tree.All.mono {L : Type} {P Q : L → Nat → Prop} (hpq : ∀ l k, P l k → Q l k) {t : Tree L} (h : t.All P) : t.All Q := by
  induction h with
  | node h1 _ ih => exact .node (hpq _ _ h1) ih

theorem plain_two {f : α → Ast} (h : AtomsPlain bzOperands f) : AtomsPlain twoOperands f :=
  fun a => ⟨(h a).1.mono fun _ _ h => ⟨h.1, two_of_bz h.2⟩, (h a).2⟩

/-- What `x` is in a graph of a specification set. -/
inductive KindF (h : Heap Lab) (f : α → Ast) (r : Nat) (specs : List (SpecOf α)) (x : Nat) : Prop
  | top : x = r → KindF h f r specs x
  | spec (s c) : s ∈ specs → h.lab x = .formula s.1 s.2.1 → h.kids x = [c] → h.Denotes c (s.2.2.toAst f) → x ∈ h.kids r → KindF h f r specs x
  | expr (s e) : s ∈ specs → Part s.2.2 e → (∀ a, e ≠ .atom a) → h.Denotes x (e.toAst f) → KindF h f r specs x
  | inner (a t) : Tree.Within t (f a) → h.Denotes x t → KindF h f r specs x

theorem KindF.of_expr {h : Heap Lab} {f : α → Ast} {r x : Nat} {specs : List (SpecOf α)} {s : SpecOf α} {e : Expr α} (hs : s ∈ specs)
    (hp : Part s.2.2 e) (hd : h.Denotes x (e.toAst f)) : KindF h f r specs x := by
  by_cases hat : ∃ a, e = .atom a
  · obtain ⟨a, rfl⟩ := hat
    exact .inner a _ .self hd
  · exact .expr s e hs hp (fun a h => hat ⟨a, h⟩) hd

theorem reach_kindF {h : Heap Lab} {f : α → Ast} {r x : Nat} {specs : List (SpecOf α)} (hh : h.Holds f r specs)
    (hr : Reachable h [r] x) : KindF h f r specs x := by
  induction hr with
  | root h => exact .top (List.mem_singleton.1 h)
  | @kid p c _ hc ih =>
    cases ih with
    | top hp =>
      subst hp
      unfold Heap.Holds at hh
      rw [denotes_node] at hh
      obtain ⟨t, ht, hd⟩ := forall2_mem_left hh.2 hc
      obtain ⟨s, hs, rfl⟩ := List.mem_map.1 ht
      rw [denotes_node] at hd
      obtain ⟨hl, hk⟩ := hd
      obtain ⟨c', hk, hd⟩ := forall₂_one hk
      exact .spec s _ hs hl.symm hk hd hc
    | spec s c' hs hl hk hd =>
      rw [hk] at hc
      rw [List.mem_singleton.1 hc]
      exact .of_expr hs .self hd
    | expr s e hs hp hat hd =>
      obtain ⟨l, hl⟩ := toAst_node (f := f) e hat
      rw [hl e rfl, denotes_node] at hd
      obtain ⟨t, ht, hdc⟩ := forall2_mem_left hd.2 hc
      obtain ⟨d, hm, rfl⟩ := List.mem_map.1 ht
      exact .of_expr hs (hp.kid hm) hdc
    | inner a t hw hd =>
      obtain ⟨l, ts⟩ := t
      rw [denotes_node] at hd
      obtain ⟨t, ht, hdc⟩ := forall2_mem_left hd.2 hc
      exact .inner a t (hw.sub ht) hdc

/-! ### The program -/

/-- The graph the passes leave, and what `compute_atomics` makes of it. -/
structure Made (f : α → Ast) (b : BackEnd) (g : Heap Lab) (n0 ft pt : Nat) (fs ps : List (SpecOf α)) (fuel : Nat) (h : Heap BNode) (a : AtomState) : Prop where
  plain : AtomsPlain bzOperands f
  sep : AtomsSeparate f
  des : ∀ a, Desugared false (f a)
  below : g.Below n0
  acyclic : g.Acyclic
  ft_lt : ft < n0
  pt_lt : pt < n0
  apart : Apart g ft pt
  future : g.Holds f ft fs
  past : g.Holds f pt ps
  between : ∃ D, Between g n0 D ft pt
  ffin : ∀ s ∈ fs, Final false s.2.2 ∧ ¬ isConst s.2.2
  pfin : ∀ s ∈ ps, Final true s.2.2 ∧ ¬ isConst s.2.2
  numbers : ((fs ++ ps).map (·.2.1)).Nodup
  done : computeAtomics fuel true (g.relabel (toBNode b.ty b.sid b.bits)) ft pt n0 = some (h, a)

namespace Made
variable {f : α → Ast} {b : BackEnd} {g : Heap Lab} {n0 ft pt : Nat} {fs ps : List (SpecOf α)} {fuel : Nat} {h : Heap BNode} {a : AtomState}

/-- The graph as the back end sees it. -/
abbrev seen (b : BackEnd) (g : Heap Lab) : Heap BNode := g.relabel (toBNode b.ty b.sid b.bits)

/-- The program before `compute_atomics`. -/
abbrev before (b : BackEnd) (g : Heap Lab) (ft pt : Nat) : BProg := ⟨seen b g, b.bpd, b.wpd, ft, pt, true, fun _ => none⟩

/-- The program after `compute_atomics`. -/
abbrev prog (b : BackEnd) (ft pt : Nat) (h : Heap BNode) (a : AtomState) : BProg := ⟨h, b.bpd, b.wpd, ft, pt, true, fun x => a.ids.lookup x⟩

/-- What a node of the graph is, in either set. -/
theorem kind (M : Made f b g n0 ft pt fs ps fuel h a) {x : Nat} (hx : (seen b g).InProgram ft pt x) :
    ∃ past : Bool, KindF g f (if past then pt else ft) (if past then ps else fs) x := by
  rcases hx with hx | hx
  · exact ⟨false, reach_kindF M.future (relabel_reach.1 hx)⟩
  · exact ⟨true, reach_kindF M.past (relabel_reach.1 hx)⟩

theorem inner (M : Made f b g n0 ft pt fs ps fuel h a) {c : α} {t : Ast} (hw : Tree.Within t (f c)) : Inner t :=
  inner_of (hw.all (M.plain c).1) (hw.desugared (M.des c))

theorem top_lab {r : Nat} {specs : List (SpecOf α)} (h : g.Holds f r specs) : g.lab r = .specSet := by
  unfold Heap.Holds at h
  rw [denotes_node] at h
  exact h.1.symm

theorem root_lab (M : Made f b g n0 ft pt fs ps fuel h a) (past : Bool) : g.lab (if past then pt else ft) = .specSet := by
  cases past
  · exact top_lab M.future
  · exact top_lab M.past

theorem fin (M : Made f b g n0 ft pt fs ps fuel h a) {past : Bool} {s : SpecOf α} (hs : s ∈ (if past then ps else fs)) :
    Final past s.2.2 ∧ ¬ isConst s.2.2 := by
  cases past
  · exact M.ffin s hs
  · exact M.pfin s hs

/-- Labels of formulas the passes leave. -/
theorem final_lab {past : Bool} {e : Expr α} (hf : Final past e) (hat : ∀ a, e ≠ .atom a) : ∃ l ts, e.toAst f = .node l ts ∧ l.logical = true := by
  have h1 := (nowhere_iff.1 hf.plain).1
  cases e <;> simp only [toAst] <;> first | exact absurd rfl (hat _) | exact ⟨_, _, rfl, rfl⟩ | exact absurd trivial h1

theorem seen_logical {x : Nat} (hl : (g.lab x).logical = true) : ((seen b g).lab x).engine true = .tl := by
  show (toBNode b.ty b.sid b.bits x (g.lab x)).engine true = .tl
  cases hg : g.lab x <;> rw [hg] at hl <;> simp [Lab.logical] at hl
  · rename_i v; cases v <;> simp_all [toBNode, BNode.engine]
  · rename_i o; cases o <;> simp_all [toBNode, BNode.engine, OpK.isLogical]
  · simp [toBNode, BNode.engine]

theorem seen_inner {x : Nat} {t : Ast} (ht : Inner t) (hd : g.Denotes x t) : ((seen b g).lab x).engine true = .bz := by
  show (toBNode b.ty b.sid b.bits x (g.lab x)).engine true = .bz
  cases ht <;> rw [denotes_node] at hd <;> rw [← hd.1] <;> simp_all [toBNode, BNode.engine]

theorem seen_atom (M : Made f b g n0 ft pt fs ps fuel h a) {x : Nat} {c : α} (hd : g.Denotes x (f c)) : ((seen b g).lab x).isConst = false := by
  show (toBNode b.ty b.sid b.bits x (g.lab x)).isConst = false
  have h1 := M.inner (c := c) .self
  have h2 := (M.plain c).2
  generalize f c = t at *
  cases h1 with
  | name s => rw [denotes_node] at hd; rw [← hd.1]; rfl
  | int i => exact absurd rfl (h2 _ _)
  | float i => exact absurd rfl (h2 _ _)
  | op o ts _ _ => rw [denotes_node] at hd; rw [← hd.1]; rfl

theorem denotes_lab {x : Nat} {t : Ast} {l : Lab} {ts : List Ast} (hd : g.Denotes x t) (ht : t = .node l ts) : g.lab x = l := by
  subst ht
  rw [denotes_node] at hd
  exact hd.1.symm

theorem seen_final {past : Bool} {e : Expr α} (hf : Final past e) (hat : ∀ a, e ≠ .atom a) {x : Nat} (hd : g.Denotes x (e.toAst f)) :
    ((seen b g).lab x).engine true = .tl := by
  obtain ⟨l, ts, h1, h2⟩ := final_lab (f := f) hf hat
  exact seen_logical (by rw [denotes_lab hd h1]; exact h2)

theorem reach_root {D : List Nat} {r x : Nat} (hb : Live g D) (hr : ∀ c ∈ g.kids r, c ∉ D) (hx : Reachable g [r] x) : x = r ∨ x ∉ D := by
  induction hx with
  | root h => exact .inl (List.mem_singleton.1 h)
  | kid _ hc ih =>
    rcases ih with rfl | ih
    · exact .inr (hr _ hc)
    · exact .inr (hb.refs _ ih _ hc)

theorem fresh (M : Made f b g n0 ft pt fs ps fuel h a) : Fresh (seen b g) n0 ft pt where
  known := by
    intro p c hp he hc
    obtain ⟨D, hb⟩ := M.between
    have key : ∀ r, g.lab r = .specSet → (∀ c ∈ g.kids r, c ∉ D) → Reachable g [r] p → p ∈ g.pars c := by
      intro r hr hk hrp
      rcases reach_root hb.live hk hrp with rfl | h1
      · have : (toBNode b.ty b.sid b.bits p (g.lab p)).engine true = .tl := he
        rw [hr] at this; simp [toBNode, BNode.engine] at this
      · exact hb.live.parents p h1 c hc
    rcases hp with hp | hp
    · exact key ft (M.root_lab false) (fun c hc => (hb.ft.kids c hc).1) (relabel_reach.1 hp)
    · exact key pt (M.root_lab true) (fun c hc => (hb.pt.kids c hc).1) (relabel_reach.1 hp)
  kids := by
    intro p c hc
    refine ⟨?_, M.below.kids p c hc⟩
    by_contra hp
    rw [show (seen b g).kids p = [] from M.below.none p (by omega)] at hc
    simp at hc
  noAtomic := by
    intro x hx
    show toBNode b.ty b.sid b.bits x (g.lab x) ≠ _
    obtain ⟨past, hk⟩ := M.kind hx
    cases hk with
    | top hr => rw [hr, M.root_lab past]; simp [toBNode]
    | spec s c hs hl => rw [hl]; simp [toBNode]
    | expr s e hs hp hat hd =>
      intro hcon
      have := seen_final (b := b) ((M.fin hs).1.part hp) hat hd
      rw [show (seen b g).lab x = .atomic from hcon] at this
      simp [BNode.engine] at this
    | inner c t hw hd =>
      have := M.inner hw
      cases this <;> rw [denotes_node] at hd <;> rw [← hd.1] <;> simp [toBNode]

theorem inv (M : Made f b g n0 ft pt fs ps fuel h a) : AInv ((seen b g).InProgram ft pt) (seen b g) n0 h a (fun x => (seen b g).InProgram ft pt x) :=
  computeAtomics_inv M.fresh M.ft_lt M.pt_lt M.done

/-- Where a live node comes from. -/
theorem origin (M : Made f b g n0 ft pt fs ps fuel h a) {x : Nat} (hx : (prog b ft pt h a).Live x) :
    (x < n0 ∧ (seen b g).InProgram ft pt x) ∨ (n0 ≤ x ∧ x < a.next) := by
  rcases hx with hx | hx
  · rcases M.inv.reach M.fresh.on M.ft_lt hx with ⟨h1, h2⟩ | ⟨h1, h2, _⟩
    · exact .inl ⟨h1, .inl h2⟩
    · exact .inr ⟨h1, h2⟩
  · rcases M.inv.reach M.fresh.on M.pt_lt hx with ⟨h1, h2⟩ | ⟨h1, h2, _⟩
    · exact .inl ⟨h1, .inr h2⟩
    · exact .inr ⟨h1, h2⟩

theorem lab (M : Made f b g n0 ft pt fs ps fuel h a) {x : Nat} (hx : x < n0) : h.lab x = toBNode b.ty b.sid b.bits x (g.lab x) :=
  M.inv.labOld x (.inl hx)

theorem kids_same (M : Made f b g n0 ft pt fs ps fuel h a) {x : Nat} (hx : x < n0) (he : ((seen b g).lab x).engine true ≠ .tl) :
    h.kids x = g.kids x := by
  have := M.inv.edges x hx
  have aux : ∀ l l' : List Nat, List.Forall₂ (Stands (seen b g) n0 h a.next x) l l' → l' = l := by
    intro l l' hl
    induction hl with
    | nil => rfl
    | cons h1 _ ih =>
      rcases h1 with rfl | ⟨_, _, _, h1⟩
      · rw [ih]
      · exact absurd h1 he
  exact aux _ _ this

/-- Node `x` of the program stands for formula `d`. -/
def Sh (f : α → Ast) (g : Heap Lab) (n0 : Nat) (h : Heap BNode) (a : AtomState) (x : Nat) (d : Expr α) : Prop :=
  (x < n0 ∧ ((∀ c, d ≠ .atom c) ∧ ∃ past, Final past d) ∧ g.Denotes x (d.toAst f)) ∨
    ∃ c y, d = .atom c ∧ n0 ≤ x ∧ x < a.next ∧ h.kids x = [y] ∧ g.Denotes y (f c)

theorem uniq (M : Made f b g n0 ft pt fs ps fuel h a) (x : Nat) (e e' : Expr α) (h1 : Sh f g n0 h a x e) (h2 : Sh f g n0 h a x e') : e = e' := by
  rcases h1 with ⟨a1, a2, a3⟩ | ⟨c, y, rfl, a1, a2, a3, a4⟩
  · rcases h2 with ⟨b1, b2, b3⟩ | ⟨c, y, rfl, b1, b2, b3, b4⟩
    · exact toAst_inj M.sep _ _ (a3.unique b3)
    · omega
  · rcases h2 with ⟨b1, b2, b3⟩ | ⟨c', y', rfl, b1, b2, b3, b4⟩
    · omega
    · rw [a3] at b3
      obtain rfl : y = y' := by simpa using b3
      exact toAst_inj M.sep (.atom c) (.atom c') (by simpa only [toAst] using a4.unique b4)

/-- The operands of a temporal or logical node. -/
theorem operand_sh (M : Made f b g n0 ft pt fs ps fuel h a) {past : Bool} {x y y' : Nat} {d : Expr α} (hx : x < n0)
    (hin : (seen b g).InProgram ft pt x) (he : ((seen b g).lab x).engine true = .tl) (hy : y ∈ g.kids x) (hy' : y' ∈ h.kids x)
    (hs : Stands (seen b g) n0 h a.next x y y') (hf : Final past d) (hd : g.Denotes y (d.toAst f)) : Sh f g n0 h a y' d := by
  have hyl : y < n0 := M.below.kids x y hy
  have hyin : (seen b g).InProgram ft pt y := M.fresh.on.closed x y hin hy
  rcases hs with rfl | ⟨h1, h2, h3, h4⟩
  · refine .inl ⟨hyl, ⟨?_, past, hf⟩, hd⟩
    rintro c rfl
    simp only [toAst] at hd
    exact M.inv.done y' hyin hyl (seen_inner (M.inner (c := c) .self) hd) (M.seen_atom hd) x hx hin he hy'
  · by_cases hat : ∃ c, d = .atom c
    · obtain ⟨c, rfl⟩ := hat
      exact .inr ⟨c, y, rfl, h1, h2, h3, hd⟩
    · exfalso
      obtain ⟨_, c, hc1, hc2, hc3, hc4, _⟩ := M.inv.labNew y' h1 h2
      rw [h3] at hc2
      obtain rfl : y = c := by simpa using hc2
      rw [seen_final hf (fun c h => hat ⟨c, h⟩) hd] at hc3
      cases hc3

theorem operands_sh (M : Made f b g n0 ft pt fs ps fuel h a) {past : Bool} {x : Nat} (hx : x < n0)
    (hin : (seen b g).InProgram ft pt x) (he : ((seen b g).lab x).engine true = .tl) {ds : List (Expr α)} (hf : ∀ d ∈ ds, Final past d)
    (hd : List.Forall₂ g.Denotes (g.kids x) (ds.map (toAst f))) : List.Forall₂ (Sh f g n0 h a) (h.kids x) ds := by
  have hst : List.Forall₂ (Stands (seen b g) n0 h a.next x) (g.kids x) (h.kids x) := M.inv.edges x hx
  have aux : ∀ (l l' : List Nat) (ds : List (Expr α)), (∀ y ∈ l, y ∈ g.kids x) → (∀ y ∈ l', y ∈ h.kids x) → (∀ d ∈ ds, Final past d) →
      List.Forall₂ (Stands (seen b g) n0 h a.next x) l l' → List.Forall₂ g.Denotes l (ds.map (toAst f)) → List.Forall₂ (Sh f g n0 h a) l' ds := by
    intro l l' ds h1 h2 h3 h4 h5
    induction h4 generalizing ds with
    | nil => cases ds <;> simp at h5 ⊢
    | cons s1 _ ih =>
      cases ds with
      | nil => simp at h5
      | cons d ds =>
        simp only [List.map_cons] at h5
        cases h5 with
        | cons d1 d2 =>
          exact .cons (M.operand_sh hx hin he (h1 _ (by simp)) (h2 _ (by simp)) s1 (h3 d (by simp)) d1)
            (ih ds (fun y hy => h1 y (by simp [hy])) (fun y hy => h2 y (by simp [hy])) (fun d hd => h3 d (by simp [hd])) d2)
  exact aux _ _ _ (fun _ h => h) (fun _ h => h) hf hst hd

theorem lookup_new (M : Made f b g n0 ft pt fs ps fuel h a) {x : Nat} (h1 : n0 ≤ x) (h2 : x < a.next) : a.ids.lookup x = some (x - n0) := by
  rw [M.inv.ids, lookup_ids, if_pos]
  have := M.inv.next
  omega

theorem shape (M : Made f b g n0 ft pt fs ps fuel h a) (past : Bool) (x : Nat) (e : Expr α) (hx : (prog b ft pt h a).Live x)
    (hs : Sh f g n0 h a x e) (hf : Final past e) : LGood past (prog b ft pt h a) (Sh f g n0 h a) x e := by
  rcases hs with ⟨a1, ⟨a2, -⟩, a3⟩ | ⟨c, y, rfl, a1, a2, a3, a4⟩
  · have hin : (seen b g).InProgram ft pt x := by
      rcases M.origin hx with h1 | h1
      · exact h1.2
      · omega
    have he : ((seen b g).lab x).engine true = .tl := seen_final hf a2 a3
    have hkids : List.Forall₂ (Sh f g n0 h a) (h.kids x) e.children := by
      obtain ⟨l, hl⟩ := toAst_node (f := f) e a2
      have := a3
      rw [hl e rfl, denotes_node] at this
      exact M.operands_sh a1 hin he (fun d hd => hf.part (Part.self.kid hd)) this.2
    have hlab := M.lab a1
    have h1 := (nowhere_iff.1 hf.plain).1
    have h2 := (nowhere_iff.1 hf.basic).1
    have h3 := (nowhere_iff.1 hf.narrow).1
    cases e
    case atom c => exact absurd rfl (a2 c)
    case const v =>
      simp only [toAst] at a3
      rw [denotes_lab a3 rfl] at hlab
      exact .const v hlab (List.forall₂_nil_right_iff.1 hkids)
    case neg d =>
      simp only [toAst] at a3
      rw [denotes_lab a3 rfl] at hlab
      obtain ⟨c, hk, hc⟩ := forall₂_one hkids
      exact .neg _ d c hlab hk hc h1
    case and cs =>
      simp only [odd, not_or, not_lt, not_exists, not_and] at h1
      simp only [isWide, children, not_lt] at h3
      match cs, h1, h3 with
      | [d, d'], h1, _ =>
        simp only [toAst] at a3
        rw [denotes_lab a3 rfl] at hlab
        obtain ⟨c, c', hk, hc, hc'⟩ := forall₂_two hkids
        exact .and _ d d' c c' hlab hk hc hc' (h1.2 d (by simp)) (h1.2 d' (by simp))
      | [], h1, _ => simp at h1
      | [_], h1, _ => simp at h1
      | _ :: _ :: _ :: _, _, h3 => simp at h3
    case or cs =>
      simp only [odd, not_or, not_lt, not_exists, not_and] at h1
      simp only [isWide, children, not_lt] at h3
      match cs, h1, h3 with
      | [d, d'], h1, _ =>
        simp only [toAst] at a3
        rw [denotes_lab a3 rfl] at hlab
        obtain ⟨c, c', hk, hc, hc'⟩ := forall₂_two hkids
        exact .or _ d d' c c' hlab hk hc hc' (h1.2 d (by simp)) (h1.2 d' (by simp))
      | [], h1, _ => simp at h1
      | [_], h1, _ => simp at h1
      | _ :: _ :: _ :: _, _, h3 => simp at h3
    case iff d d' =>
      simp only [odd, not_or] at h1
      simp only [toAst] at a3
      rw [denotes_lab a3 rfl] at hlab
      obtain ⟨c, c', hk, hc, hc'⟩ := forall₂_two hkids
      exact .iff _ d d' c c' hlab hk hc hc' h1.1 h1.2
    case untl lb ub d d' =>
      simp only [odd, not_or, not_lt, Bool.not_eq_true] at h1
      simp only [toAst] at a3
      rw [denotes_lab a3 rfl] at hlab
      obtain ⟨c, c', hk, hc, hc'⟩ := forall₂_two hkids
      exact .untl lb ub d d' c c' h1.1 hlab hk hc hc' h1.2.1 h1.2.2
    case rel lb ub d d' =>
      simp only [odd, not_or, not_lt, Bool.not_eq_true] at h1
      simp only [toAst] at a3
      rw [denotes_lab a3 rfl] at hlab
      obtain ⟨c, c', hk, hc, hc'⟩ := forall₂_two hkids
      exact .rel lb ub d d' c c' h1.1 hlab hk hc hc' h1.2.1 h1.2.2
    case since lb ub d d' =>
      simp only [odd, not_or, not_lt, Bool.not_eq_false, not_not] at h1
      obtain ⟨g1, g2, rfl, g4⟩ := h1
      simp only [toAst] at a3
      rw [denotes_lab a3 rfl] at hlab
      obtain ⟨c, c', hk, hc, hc'⟩ := forall₂_two hkids
      exact .since lb ub d' c c' g1 hlab hk hc hc' g2 g4
    case trig lb ub d d' =>
      simp only [odd, not_or, not_lt, Bool.not_eq_false, not_not] at h1
      obtain ⟨g1, g2, rfl, g4⟩ := h1
      simp only [toAst] at a3
      rw [denotes_lab a3 rfl] at hlab
      obtain ⟨c, c', hk, hc, hc'⟩ := forall₂_two hkids
      exact .trig lb ub d' c c' g1 hlab hk hc hc' g2 g4
    case equal => exact absurd trivial h1
    all_goals exact absurd trivial h2
  · have hl := (M.inv.labNew x a1 a2).1
    refine .atom c (x - n0) (M.lookup_new a1 a2) ?_ ?_ ?_
    · simp [BProg.engine, hl, BNode.engine]
    · simp [hl, BNode.isBoolConst]
    · simp [hl, BNode.isFormula]

theorem root_kids (M : Made f b g n0 ft pt fs ps fuel h a) (past : Bool) : h.kids (if past then pt else ft) = g.kids (if past then pt else ft) := by
  refine M.kids_same ?_ ?_
  · cases past
    · exact M.ft_lt
    · exact M.pt_lt
  · show (toBNode b.ty b.sid b.bits _ (g.lab _)).engine true ≠ .tl
    rw [M.root_lab past]; simp [toBNode, BNode.engine]

/-- The formula of a specification. -/
theorem spec_sh (M : Made f b g n0 ft pt fs ps fuel h a) {past : Bool} {s : SpecOf α} {x c : Nat} (hs : s ∈ (if past then ps else fs))
    (hx : x < n0) (hin : (seen b g).InProgram ft pt x) (hl : g.lab x = .formula s.1 s.2.1) (hk : g.kids x = [c]) (hd : g.Denotes c (s.2.2.toAst f)) :
    h.lab x = .formula s.2.1 ∧ ∃ c', h.kids x = [c'] ∧ Sh f g n0 h a c' s.2.2 := by
  have hlab := M.lab hx
  rw [hl] at hlab
  refine ⟨hlab, ?_⟩
  have := M.operands_sh (past := past) (ds := [s.2.2]) hx hin (by
    show (toBNode b.ty b.sid b.bits x (g.lab x)).engine true = .tl
    rw [hl]; rfl) (by simpa using (M.fin hs).1) (by rw [hk]; exact .cons hd .nil)
  exact forall₂_one this

theorem link (M : Made f b g n0 ft pt fs ps fuel h a) : Link (prog b ft pt h a) (Sh f g n0 h a) fs ps where
  uniq := M.uniq
  shape := M.shape
  ffin := M.ffin
  pfin := M.pfin
  numbers := M.numbers
  tl := by
    intro x hx he
    rcases M.origin hx with ⟨h1, hin⟩ | ⟨h1, h2⟩
    · have he : ((seen b g).lab x).engine true = .tl := by
        rw [← M.inv.labOld x (.inl h1)]; exact he
      obtain ⟨past, hk⟩ := M.kind hin
      cases hk with
      | top hr =>
        have : (toBNode b.ty b.sid b.bits x (g.lab x)).engine true = .tl := he
        rw [hr, M.root_lab past] at this; simp [toBNode, BNode.engine] at this
      | spec s c hs hl hk hd hm =>
        obtain ⟨hlab, c', hk', hsh⟩ := M.spec_sh hs h1 hin hl hk hd
        exact .spec past s c' hs hlab hk' hsh (by show x ∈ h.kids _; rw [M.root_kids past]; exact hm)
      | expr s e hs hp hat hd => exact .expr past s e hs hp ((M.fin hs).1.part hp) (.inl ⟨h1, ⟨hat, past, (M.fin hs).1.part hp⟩, hd⟩)
      | inner c t hw hd => rw [seen_inner (M.inner hw) hd] at he; cases he
    · have := (M.inv.labNew x h1 h2).1
      simp [BProg.engine, this, BNode.engine] at he
  shown := by
    intro x e hx hs
    rcases hs with ⟨a1, ⟨a2, past0, hfin⟩, a3⟩ | ⟨c, y, rfl, _⟩
    · right
      have hin : (seen b g).InProgram ft pt x := by
        rcases M.origin hx with h1 | h1
        · exact h1.2
        · omega
      obtain ⟨l, ts, l1, l2⟩ := final_lab (f := f) hfin a2
      have hl := denotes_lab a3 l1
      obtain ⟨past, hk⟩ := M.kind hin
      cases hk with
      | top hr => rw [hr, M.root_lab past] at hl; subst hl; simp [Lab.logical] at l2
      | spec s c hs hl' hk hd hm => rw [hl'] at hl; subst hl; simp [Lab.logical] at l2
      | expr s e' hs hp hat hd =>
        obtain rfl : e' = e := toAst_inj M.sep _ _ (hd.unique a3)
        exact ⟨past, s, hs, hp, (M.fin hs).1.part hp⟩
      | inner c t hw hd =>
        have h1 := seen_inner (b := b) (M.inner hw) hd
        rw [seen_final hfin a2 a3] at h1
        cases h1
    · exact .inl ⟨c, rfl⟩
  slot := by
    intro past z hz
    have hz : z ∈ h.kids (if past then pt else ft) := hz
    show ∃ i s, (h.kids (if past then pt else ft))[i]? = some z ∧ _
    rw [M.root_kids past] at hz ⊢
    have hh : g.Holds f (if past then pt else ft) (if past then ps else fs) := by
      cases past
      · exact M.future
      · exact M.past
    have hzl : z < n0 := M.below.kids _ _ hz
    unfold Heap.Holds at hh
    rw [denotes_node] at hh
    obtain ⟨i, hi, rfl⟩ := List.mem_iff_getElem.1 hz
    have hi' : i < (if past then ps else fs).length := by have := hh.2.length_eq; simp only [List.length_map] at this; omega
    have := hh.2.get hi (by simpa using hi')
    simp only [List.get_eq_getElem, List.getElem_map] at this
    refine ⟨i, (if past then ps else fs)[i], List.getElem?_eq_getElem hi, List.getElem?_eq_getElem hi', ?_⟩
    show h.lab _ = _
    rw [M.lab hzl, denotes_lab this rfl]
    rfl
  node := by
    intro past s hs
    have hh : g.Holds f (if past then pt else ft) (if past then ps else fs) := by
      cases past
      · exact M.future
      · exact M.past
    unfold Heap.Holds at hh
    rw [denotes_node] at hh
    obtain ⟨x, hx, hd⟩ := forall2_mem_left hh.2.flip (List.mem_map_of_mem (f := fun s : SpecOf α => Tree.node (Lab.formula s.1 s.2.1) [s.2.2.toAst f]) hs)
    have hd : g.Denotes x _ := hd
    rw [denotes_node] at hd
    obtain ⟨c, hk, hc⟩ := forall₂_one hd.2
    have hin : (seen b g).InProgram ft pt x := by
      cases past
      · exact .inl (.kid .self hx)
      · exact .inr (.kid .self hx)
    have hlive : (prog b ft pt h a).Live x := by
      rw [← M.root_kids past] at hx
      cases past
      · exact .inl (.kid .self hx)
      · exact .inr (.kid .self hx)
    obtain ⟨hlab, c', hk', hsh⟩ := M.spec_sh hs (M.below.kids _ _ hx) hin hd.1.symm hk hc
    exact ⟨x, c', hlive, hlab, hk', Link.live_kid hlive (by show c' ∈ h.kids x; rw [hk']; simp), hsh⟩

/-! ### What the code generator asks for -/

theorem typed (M : Made f b g n0 ft pt fs ps fuel h a) : (before b g ft pt).Typed := by
  intro p c hp he hc
  have hp : (seen b g).InProgram ft pt p := hp
  have he : ((seen b g).lab p).engine true = .tl := he
  have hc : c ∈ g.kids p := hc
  show (toBNode b.ty b.sid b.bits c (g.lab c)).isBoolConst = true ∨ ((toBNode b.ty b.sid b.bits c (g.lab c)).isConst = false ∧
    ((toBNode b.ty b.sid b.bits c (g.lab c)).engine true = .tl ∨ (toBNode b.ty b.sid b.bits c (g.lab c)).engine true = .bz))
  have key : ∀ (past : Bool) (d : Expr α), Final past d → g.Denotes c (d.toAst f) →
      (toBNode b.ty b.sid b.bits c (g.lab c)).isBoolConst = true ∨ ((toBNode b.ty b.sid b.bits c (g.lab c)).isConst = false ∧
        ((toBNode b.ty b.sid b.bits c (g.lab c)).engine true = .tl ∨ (toBNode b.ty b.sid b.bits c (g.lab c)).engine true = .bz)) := by
    intro past d hf hd
    by_cases hat : ∃ k, d = .atom k
    · obtain ⟨k, rfl⟩ := hat
      simp only [toAst] at hd
      exact .inr ⟨M.seen_atom hd, .inr (seen_inner (M.inner (c := k) .self) hd)⟩
    · have h1 := seen_final (b := b) hf (fun a h => hat ⟨a, h⟩) hd
      obtain ⟨l, ts, l1, l2⟩ := final_lab (f := f) hf (fun a h => hat ⟨a, h⟩)
      rw [denotes_lab hd l1]
      cases l <;> simp [Lab.logical] at l2
      · rename_i v; cases v <;> simp_all [toBNode, BNode.isBoolConst]
      · rename_i o; cases o <;> simp_all [toBNode, BNode.engine, OpK.isLogical, BNode.isConst]
      · simp [toBNode, BNode.engine, BNode.isConst]
  obtain ⟨past, hk⟩ := M.kind hp
  cases hk with
  | top hr =>
    have : (toBNode b.ty b.sid b.bits p (g.lab p)).engine true = .tl := he
    rw [hr, M.root_lab past] at this; simp [toBNode, BNode.engine] at this
  | spec s c' hs hl hk hd hm =>
    rw [hk] at hc
    rw [← List.mem_singleton.1 hc] at hd
    exact key past _ (M.fin hs).1 hd
  | expr s e hs hp' hat hd =>
    obtain ⟨l, hl⟩ := toAst_node (f := f) e hat
    rw [hl e rfl, denotes_node] at hd
    obtain ⟨t, ht, hdc⟩ := forall2_mem_left hd.2 hc
    obtain ⟨d, hm, rfl⟩ := List.mem_map.1 ht
    exact key past d (((M.fin hs).1.part hp').part (Part.self.kid hm)) hdc
  | inner k t hw hd => rw [seen_inner (M.inner hw) hd] at he; cases he

theorem ready (M : Made f b g n0 ft pt fs ps fuel h a) :
    (prog b ft pt h a).Ready ∧ (prog b ft pt h a).Covered ∧ (prog b ft pt h a).Separate := by
  obtain ⟨h1, h2, h3⟩ := C54_ready (before b g ft pt) n0 fuel rfl M.fresh M.ft_lt M.pt_lt (relabel_acyclic M.acyclic)
    (by show toBNode b.ty b.sid b.bits ft (g.lab ft) = _; rw [top_lab M.future]; rfl)
    (by show toBNode b.ty b.sid b.bits pt (g.lab pt) = _; rw [top_lab M.past]; rfl) (by
      intro x o t hx hl ho
      obtain ⟨past, hk⟩ := M.kind hx
      have hl : toBNode b.ty b.sid b.bits x (g.lab x) = .op o t := hl
      show (g.kids x).length ∈ _
      cases hk with
      | top hr => rw [hr, M.root_lab past] at hl; cases hl
      | spec s c hs hl' => rw [hl'] at hl; cases hl
      | expr s e hs hp hat hd =>
        have := seen_final (b := b) ((M.fin hs).1.part hp) hat hd
        rw [show (seen b g).lab x = .op o t from hl] at this
        simp [BNode.engine, ho] at this
      | inner c t hw hd =>
        have hi := M.inner hw
        cases hi with
        | name | int | float => rw [denotes_node] at hd; rw [← hd.1] at hl; cases hl
        | op o' ts h1 h2 =>
          rw [denotes_node] at hd
          rw [← hd.1] at hl
          simp only [toBNode, BNode.op.injEq] at hl
          rw [hd.2.length_eq, ← hl.1]
          exact h2) M.typed h a M.done
  refine ⟨h1, h2, h3 ?_⟩
  intro x h4 h5
  exact absurd (relabel_reach.1 h5) (M.apart x (relabel_reach.1 h4))

/-- What a node of the booleanizer is. -/
theorem cell (M : Made f b g n0 ft pt fs ps fuel h a) {x : Nat} (hx : (prog b ft pt h a).Live x) (he : (prog b ft pt h a).engine x = .bz)
    (hl : h.lab x ≠ .atomic) : x < n0 ∧ ∃ c t, Tree.Within t (f c) ∧ g.Denotes x t := by
  rcases M.origin hx with ⟨h1, hin⟩ | ⟨h1, h2⟩
  · refine ⟨h1, ?_⟩
    have he : ((seen b g).lab x).engine true = .bz := by
      rw [← M.inv.labOld x (.inl h1)]; exact he
    obtain ⟨past, hk⟩ := M.kind hin
    cases hk with
    | top hr =>
      have : (toBNode b.ty b.sid b.bits x (g.lab x)).engine true = .bz := he
      rw [hr, M.root_lab past] at this; simp [toBNode, BNode.engine] at this
    | spec s c hs hl' =>
      have : (toBNode b.ty b.sid b.bits x (g.lab x)).engine true = .bz := he
      rw [hl'] at this; simp [toBNode, BNode.engine] at this
    | expr s e hs hp hat hd =>
      rw [seen_final ((M.fin hs).1.part hp) hat hd] at he
      cases he
    | inner c t hw hd => exact ⟨c, t, hw, hd⟩
  · exact absurd (M.inv.labNew x h1 h2).1 hl

/-- What an atomic is. -/
theorem atomic (M : Made f b g n0 ft pt fs ps fuel h a) {x : Nat} (hx : (prog b ft pt h a).Live x) (hl : h.lab x = .atomic) :
    ∃ c y, n0 ≤ x ∧ x < a.next ∧ y < n0 ∧ h.kids x = [y] ∧ g.Denotes y (f c) ∧ Sh f g n0 h a x (.atom c) := by
  have hnew : n0 ≤ x ∧ x < a.next := by
    rcases M.origin hx with ⟨h1, hin⟩ | h1
    · rw [M.inv.labOld x (.inl h1)] at hl
      exact absurd hl (M.fresh.noAtomic x hin)
    · exact h1
  obtain ⟨_, y, y1, y2, y3, y4, y5⟩ := M.inv.labNew x hnew.1 hnew.2
  have hpar : ∃ p, (prog b ft pt h a).Live p ∧ x ∈ h.kids p := by
    rcases hx with hx | hx
    · cases hx with
      | root hr => have := M.ft_lt; rw [List.mem_singleton.1 hr] at hnew; exact absurd hnew.1 (by show ¬ n0 ≤ ft; omega)
      | kid hp hc => exact ⟨_, .inl hp, hc⟩
    · cases hx with
      | root hr => have := M.pt_lt; rw [List.mem_singleton.1 hr] at hnew; exact absurd hnew.1 (by show ¬ n0 ≤ pt; omega)
      | kid hp hc => exact ⟨_, .inr hp, hc⟩
  obtain ⟨p, hp, hc⟩ := hpar
  have hpl : p < n0 ∧ (seen b g).InProgram ft pt p := by
    rcases M.origin hp with h1 | ⟨h1, h2⟩
    · exact h1
    · obtain ⟨_, z, z1, z2, _⟩ := M.inv.labNew p h1 h2
      rw [z2] at hc
      have := List.mem_singleton.1 hc
      omega
  have he : ((seen b g).lab p).engine true = .tl := by
    by_contra hn
    rw [M.kids_same hpl.1 hn] at hc
    have := M.below.kids p x hc
    omega
  have htl : (prog b ft pt h a).engine p = .tl := by
    show (h.lab p).engine true = .tl
    rw [M.inv.labOld p (.inl hpl.1)]; exact he
  obtain ⟨past, s, d, q1, q2, q3, q4, _⟩ := M.link.operand hp htl hc
  have q5 := q4
  rcases q4 with ⟨r1, _⟩ | ⟨c, y', rfl, r1, r2, r3, r4⟩
  · omega
  · exact ⟨c, y', hnew.1, hnew.2, by rw [y2] at r3; have := List.singleton_inj.1 r3; omega, r3, r4, q5⟩

/-! ### Values -/

variable {F : Type} {ops : FloatOps F} {ty : Ast → Bool} {σ : Nat → Nat → Cell F}

/-- A node has the value of the expression it stands for. -/
theorem value (M : Made f b g n0 ft pt fs ps fuel h a) (hty : TypedAs f ty b.ty g) {t : Nat} {e : Ast} {v : Cell F}
    (hv : Ast.Value ops ty b.bits (fun t s => σ t (b.sid s).toNat) t e v) : ∀ {c : α} {x : Nat}, Tree.Within e (f c) → x < n0 → g.Denotes x e →
      (prog b ft pt h a).Value ops σ t x v := by
  have facts : ∀ {c : α} {x : Nat} {l : Lab} {ts : List Ast}, Tree.Within (.node l ts) (f c) → x < n0 → g.Denotes x (.node l ts) →
      h.lab x = toBNode b.ty b.sid b.bits x l ∧ b.ty x = ty (.node l ts) ∧ List.Forall₂ g.Denotes (h.kids x) ts ∧ ∀ y ∈ h.kids x, y < n0 := by
    intro c x l ts hw hx hd
    have h1 : ((seen b g).lab x).engine true ≠ .tl := by rw [seen_inner (M.inner hw) hd]; simp
    refine ⟨by rw [M.lab hx, denotes_lab hd rfl], hty x _ c hd hw, ?_, ?_⟩
    · rw [M.kids_same hx h1]
      rw [denotes_node] at hd
      exact hd.2
    · intro y hy
      rw [M.kids_same hx h1] at hy
      exact M.below.kids x y hy
  induction hv with
  | sigI h1 h2 =>
    intro c x hw hx hd
    obtain ⟨q1, q2, q3, q4⟩ := facts hw hx hd
    exact .sigI (s := b.sid _) (by show h.lab x = _; rw [q1]; simp only [toBNode, q2, h1]) h2
  | sigF h1 h2 =>
    intro c x hw hx hd
    obtain ⟨q1, q2, q3, q4⟩ := facts hw hx hd
    exact .sigF (s := b.sid _) (by show h.lab x = _; rw [q1]; simp only [toBNode, q2, h1]) h2
  | int => intro c x hw hx hd; exact .int (facts hw hx hd).1
  | float => intro c x hw hx hd; exact .float (facts hw hx hd).1
  | int1 h1 _ h3 ih =>
    intro c x hw hx hd
    obtain ⟨q1, q2, q3, q4⟩ := facts hw hx hd
    obtain ⟨y, hk, hy⟩ := forall₂_one q3
    exact .int1 (c := y) (by show h.lab x = _; rw [q1]; simp only [toBNode, q2, h1]) hk (ih (hw.sub (by simp)) (q4 y (by rw [hk]; simp)) hy) h3
  | int2 h1 _ _ h3 ih ih' =>
    intro c x hw hx hd
    obtain ⟨q1, q2, q3, q4⟩ := facts hw hx hd
    obtain ⟨y, y', hk, hy, hy'⟩ := forall₂_two q3
    exact .int2 (c := y) (d := y') (by show h.lab x = _; rw [q1]; simp only [toBNode, q2, h1]) hk (ih (hw.sub (by simp)) (q4 y (by rw [hk]; simp)) hy)
      (ih' (hw.sub (by simp)) (q4 y' (by rw [hk]; simp)) hy') h3
  | flt1 h1 _ h3 ih =>
    intro c x hw hx hd
    obtain ⟨q1, q2, q3, q4⟩ := facts hw hx hd
    obtain ⟨y, hk, hy⟩ := forall₂_one q3
    exact .flt1 (c := y) (by show h.lab x = _; rw [q1]; simp only [toBNode, q2, h1]) hk (ih (hw.sub (by simp)) (q4 y (by rw [hk]; simp)) hy) h3
  | flt2 h1 _ _ h3 ih ih' =>
    intro c x hw hx hd
    obtain ⟨q1, q2, q3, q4⟩ := facts hw hx hd
    obtain ⟨y, y', hk, hy, hy'⟩ := forall₂_two q3
    exact .flt2 (c := y) (d := y') (by show h.lab x = _; rw [q1]; simp only [toBNode, q2, h1]) hk (ih (hw.sub (by simp)) (q4 y (by rw [hk]; simp)) hy)
      (ih' (hw.sub (by simp)) (q4 y' (by rw [hk]; simp)) hy') h3
  | first _ ih =>
    intro c x hw hx hd
    obtain ⟨q1, q2, q3, q4⟩ := facts hw hx hd
    obtain ⟨y, y', hk, hy, hy'⟩ := forall₂_two q3
    exact .first (c := y) (d := y') q1 hk (ih (hw.sub (by simp)) (q4 y (by rw [hk]; simp)) hy)
  | next _ ih =>
    intro c x hw hx hd
    obtain ⟨q1, q2, q3, q4⟩ := facts hw hx hd
    obtain ⟨y, y', hk, hy, hy'⟩ := forall₂_two q3
    exact .next (c := y) (d := y') q1 hk (ih (hw.sub (by simp)) (q4 y' (by rw [hk]; simp)) hy')

theorem defined (M : Made f b g n0 ft pt fs ps fuel h a) (hty : TypedAs f ty b.ty g) {t : Nat}
    (hv : ∀ c e, Tree.Within e (f c) → ∃ v, Ast.Value ops ty b.bits (fun t s => σ t (b.sid s).toNat) t e v)
    (hb : ∀ c, ∃ i, Ast.Value ops ty b.bits (fun t s => σ t (b.sid s).toNat) t (f c) (.int i)) : (prog b ft pt h a).BzDefined ops σ t where
  value := by
    intro x hx hl
    obtain ⟨h1, c, e, hw, hd⟩ := M.cell hx.1 hx.2.1 hl
    obtain ⟨v, hv⟩ := hv c e hw
    exact ⟨v, M.value hty hv hw h1 hd⟩
  atom := by
    intro x hx hl
    obtain ⟨c, y, _, _, h1, hk, hd, _⟩ := M.atomic hx.1 hl
    obtain ⟨i, hi⟩ := hb c
    exact ⟨y, [], i, hk, M.value hty hi .self h1 hd⟩

theorem atom_true (M : Made f b g n0 ft pt fs ps fuel h a) (hty : TypedAs f ty b.ty g) {t : Nat}
    (hb : ∀ c, ∃ i, Ast.Value ops ty b.bits (fun t s => σ t (b.sid s).toNat) t (f c) (.int i)) {x i : Nat} {c : α}
    (hx : (prog b ft pt h a).Live x) (hs : Sh f g n0 h a x (.atom c)) (hi : a.ids.lookup x = some i) :
    (prog b ft pt h a).AtomTrue ops σ t i ↔ ∃ j, j ≠ 0 ∧ Ast.Value ops ty b.bits (fun t s => σ t (b.sid s).toNat) t (f c) (.int j) := by
  rcases hs with ⟨_, ⟨h1, _⟩, _⟩ | ⟨c', y, hc, h1, h2, h3, h4⟩
  · exact absurd rfl (h1 c)
  · cases hc
    obtain ⟨_, y', y1, y2, _⟩ := M.inv.labNew x h1 h2
    rw [h3] at y2
    obtain rfl : y = y' := by simpa using y2
    obtain ⟨inj, _, _, lab, _⟩ := C20_distinct _ n0 ft pt fuel M.fresh M.ft_lt M.pt_lt h a M.done
    constructor
    · rintro ⟨x', z, zs, j, n1, n2, n3, n4, n5, n6⟩
      obtain rfl : x' = x := inj x' x i n3 hi
      have n4 : h.kids x' = z :: zs := n4
      rw [h3] at n4
      obtain ⟨rfl, _⟩ := List.cons_eq_cons.1 n4
      obtain ⟨j', hj'⟩ := hb c
      have := C49_value_unique _ _ _ n5 (M.value hty hj' .self y1 h4)
      cases this
      exact ⟨j, n6, hj'⟩
    · rintro ⟨j, hj, hv⟩
      exact ⟨x, y, [], j, ⟨hx, by simp [BProg.engine, lab x i hi, BNode.engine], by simp [lab x i hi, BNode.isConst]⟩, lab x i hi, hi, h3,
        M.value hty hv .self y1 h4, hj⟩

theorem flat (M : Made f b g n0 ft pt fs ps fuel h a) {signals : Nat} (hA : BzAtoms f b.sid b.bits signals) : (prog b ft pt h a).FlatPrev := by
  intro x t c d hx hl hk
  have hl : h.lab x = .op .prev t := hl
  have hk : h.kids x = [c, d] := hk
  obtain ⟨h1, k, e, hw, hd⟩ := M.cell hx.1 hx.2.1 (by show h.lab x ≠ _; rw [hl]; simp)
  have hin := M.inner hw
  have he := seen_inner (b := b) hin hd
  rw [M.kids_same h1 (by rw [he]; simp)] at hk
  rw [M.lab h1] at hl
  cases hin with
  | name | int | float => rw [denotes_lab hd rfl] at hl; cases hl
  | op o ts o1 o2 =>
    rw [denotes_lab hd rfl] at hl
    simp only [toBNode, BNode.op.injEq] at hl
    obtain ⟨rfl, _⟩ := hl
    rw [denotes_node, hk] at hd
    have hd2 := hd.2
    match ts, hd2 with
    | [s1, s2], .cons d1 (.cons d2 .nil) =>
      have hc : c < n0 := M.below.kids x c (by rw [hk]; simp)
      have hdl : d < n0 := M.below.kids x d (by rw [hk]; simp)
      obtain ⟨p1, p2⟩ := hA.prevs k s1 s2 hw
      refine ⟨?_, fun t' hcon => p2 ?_⟩
      · rcases p1 with ⟨i, rfl⟩ | ⟨i, rfl⟩
        · exact .inl ⟨i, by show h.lab c = _; rw [M.lab hc, denotes_lab d1 rfl]; rfl⟩
        · exact .inr ⟨b.bits i, by show h.lab c = _; rw [M.lab hc, denotes_lab d1 rfl]; rfl⟩
      · have hcon : h.lab d = .op .prev t' := hcon
        obtain ⟨l2, ts2⟩ := s2
        rw [M.lab hdl, denotes_lab d2 rfl] at hcon
        have hi2 := M.inner (c := k) (hw.sub (c := .node l2 ts2) (by simp))
        cases hi2 <;> simp only [toBNode, BNode.op.injEq, reduceCtorEq] at hcon
        rw [hcon.1]; rfl

/-- The bounds have room. -/
theorem room (M : Made f b g n0 ft pt fs ps fuel h a) (hA : BzAtoms f b.sid b.bits b.signals) (A : BProg.Assembly) :
    (prog b ft pt h a).BzFits A (computeBounds true b.signals (a.ids.map (·.2)) A).bzLimits where
  cells := le_refl _
  signals := by
    intro x t s hx hl
    have hl : h.lab x = .signal t s := hl
    obtain ⟨h1, k, e, hw, hd⟩ := M.cell hx.1 hx.2.1 (by show h.lab x ≠ _; rw [hl]; simp)
    rw [M.lab h1] at hl
    have hin := M.inner hw
    cases hin <;> rw [denotes_lab hd rfl] at hl <;> simp only [toBNode, BNode.signal.injEq, reduceCtorEq] at hl
    have := hA.signals k _ hw
    rw [hl.2] at this
    refine ⟨this.1, ?_⟩
    show s.toNat < b.signals
    omega
  atomics := by
    intro x hx hl
    obtain ⟨c, y, h1, h2, _⟩ := M.atomic hx.1 hl
    exact ⟨_, M.lookup_new h1 h2, C21_atomics_partial _ n0 ft pt fuel M.fresh M.ft_lt M.pt_lt h a M.done b.signals A x _ (M.lookup_new h1 h2)⟩
  own := by
    intro x y i _ _ _ _ hx hy
    exact (C20_distinct _ n0 ft pt fuel M.fresh M.ft_lt M.pt_lt h a M.done).1 x y i hx hy

/-- The instructions fit the binary. -/
theorem bzFits (M : Made f b g n0 ft pt fs ps fuel h a) (hA : BzAtoms f b.sid b.bits b.signals) {scq : Nat → Option (Int × Int)} {A : BProg.Assembly}
    (hg : BProg.genAssembly fuel (prog b ft pt h a) scq = some A) {aux bytes : List Nat} (hb : assembleBytes A.instrs aux = some bytes) :
    ∀ i ∈ A.bz, (Instr.bz i).Fits := by
  obtain ⟨r1, r2, r3⟩ := M.ready
  obtain ⟨cell, _, _, hm, _⟩ := BProg.C53_code _ r1 r3 r2 fuel scq A hg
  intro i hi
  obtain ⟨x, hx, hmean⟩ := hm i hi
  have hpack : ∃ p, packBz i = some p := by
    unfold assembleBytes at hb
    rw [Option.map_eq_some_iff] at hb
    obtain ⟨s', hb, _⟩ := hb
    obtain ⟨p, hp⟩ := packAll_mem hb (.bz i) (by simp [BProg.Assembly.instrs, hi])
    simp only [packInstr, Option.map_eq_some_iff] at hp
    obtain ⟨p', hp, _⟩ := hp
    exact ⟨p', hp⟩
  obtain ⟨p, hp⟩ := hpack
  unfold packBz at hp
  split at hp
  · rename_i p1 p2 p3 e1 e2 e3
    have f2 := packU32_fits e2
    have f3 := packU32_fits e3
    refine ⟨by simp only [fits]; omega, by simp only [fits]; omega, ?_⟩
    have small : ∀ v, i.op ≠ .iconst → i.op ≠ .fconst → i.a = .int v → i.op ≠ .fconst ∧ (if i.op = .iconst then 0 ≤ v else -(2 ^ 31) ≤ v) ∧ v < 2 ^ 31 := by
      intro v h1 h2 h3
      rw [h3] at e1
      simp only [packArg, if_neg h1, Option.map_eq_some_iff] at e1
      obtain ⟨q, hq, _⟩ := e1
      unfold packI32 at hq
      split at hq
      · rename_i hv
        exact ⟨h2, by rw [if_neg h1]; exact hv.1, hv.2⟩
      · cases hq
    have nofc : ∀ o t k, bzOperator o t = some k → k ≠ .iconst ∧ k ≠ .fconst := by
      intro o t k hk
      cases o <;> cases t <;> simp [bzOperator] at hk <;> subst hk <;> simp
    have hlab : h.lab x ≠ .atomic → x < n0 ∧ ∃ c t, Tree.Within t (f c) ∧ g.Denotes x t := M.cell hx.1 hx.2.1
    obtain ⟨id, op, v, w⟩ := i
    clear hi hp e2 e3 f2 f3
    unfold BProg.BzMeans at hmean
    split at hmean <;> try simp only [BzInstr.mk.injEq] at hmean
    · obtain ⟨_, rfl, rfl, _⟩ := hmean; exact small _ (by simp) (by simp) rfl
    · obtain ⟨_, rfl, rfl, _⟩ := hmean; exact small _ (by simp) (by simp) rfl
    · rename_i v' hl
      obtain ⟨_, rfl, rfl, _⟩ := hmean
      have hl : h.lab x = .int v' := hl
      obtain ⟨h1, k, e, hw, hd⟩ := hlab (by rw [hl]; simp)
      rw [M.lab h1] at hl
      have hin := M.inner hw
      cases hin <;> rw [denotes_lab hd rfl] at hl <;> simp only [toBNode, BNode.int.injEq, reduceCtorEq] at hl
      subst hl
      have := hA.ints k _ hw
      exact ⟨by simp, by simpa using this.1, this.2⟩
    · rename_i v' hl
      obtain ⟨_, rfl, rfl, _⟩ := hmean
      have hl : h.lab x = .float v' := hl
      obtain ⟨h1, k, e, hw, hd⟩ := hlab (by rw [hl]; simp)
      rw [M.lab h1] at hl
      have hin := M.inner hw
      cases hin <;> rw [denotes_lab hd rfl] at hl <;> simp only [toBNode, BNode.float.injEq, reduceCtorEq] at hl
      subst hl
      have := hA.floats k _ hw
      exact ⟨rfl, this.1, this.2⟩
    · obtain ⟨_, rfl, rfl, _⟩ := hmean; exact small _ (by simp) (by simp) rfl
    · obtain ⟨_, rfl, rfl, _⟩ := hmean; exact small _ (by simp) (by simp) rfl
    · obtain ⟨_, rfl, rfl, _⟩ := hmean; exact small _ (by simp) (by simp) rfl
    · obtain ⟨_, rfl, rfl, _⟩ := hmean; exact small _ (by simp) (by simp) rfl
    · obtain ⟨k, hk, _, rfl, rfl, _⟩ := hmean; exact small _ (nofc _ _ _ hk).1 (nofc _ _ _ hk).2 rfl
    · obtain ⟨k, hk, _, rfl, rfl, _⟩ := hmean; exact small _ (nofc _ _ _ hk).1 (nofc _ _ _ hk).2 rfl
  · cases hp

end Made

open GraphPass in
/-- The passes leave a graph in order. -/
theorem compile_between {f : α → Ast} (hf : AtomsPlain twoOperands f) (hsep : AtomsSeparate f)
    (hdes : ∀ a, Desugared false (f a)) {o : CliOpts} {h h' : Heap Lab} {n n' fuel ft pt : Nat} {fs ps : List (SpecOf α)}
    (hp : Program f h n ft pt fs ps) (hfs : ∀ s ∈ fs, Fit o false s.2.2) (hps : ∀ s ∈ ps, Fit o true s.2.2)
    (hc : compileG o fuel ft pt (h, n) = some (h', n')) : ∃ D, Between h' n' D ft pt := by
  have hrwF : o.rewrite = true → ∀ s ∈ fs, Nowhere (rwBad false) s.2.2 := fun hr s hs => rwBad_of (hfs s hs).plain ((hfs s hs).rewritable hr)
  have hrwP : o.rewrite = true → ∀ s ∈ ps, Nowhere (rwBad true) s.2.2 := fun hr s hs => rwBad_of (hps s hs).plain ((hps s hs).rewritable hr)
  have hrw : o.rewrite = true → ∀ s ∈ fs ++ ps, Nowhere isDisordered s.2.2 ∧ Nowhere isNonBinary s.2.2 ∧ Nowhere isConstEqual s.2.2 := by
    intro hr s hs
    have : Nowhere optBad s.2.2 := by
      rcases List.mem_append.1 hs with h | h
      · exact rwBad_opt (hrwF hr s h)
      · exact rwBad_opt (hrwP hr s h)
    exact ⟨this.mono fun _ h => .inl h, this.mono fun _ h => .inr (.inl h), this.mono fun _ h => .inr (.inr h)⟩
  unfold compileG at hc
  simp only [Option.bind_eq_some_iff, Prod.exists] at hc
  obtain ⟨h1, n1, e1, h2, n2, e2, h3, n3, e3, h4, n4, e4, e5⟩ := hc
  obtain ⟨D2, fs2, ps2, st2, fr2, sf2, sp2, set1, set2, hdisj⟩ := before_cse hf hsep hdes hp hrw e1 e2
  have s3 : ∃ D3, Stage f h3 n3 D3 ft pt fs2 ps2 := by
    split at e3
    · simp only [Option.map_eq_some_iff, Prod.mk.injEq] at e3
      obtain ⟨h3', e3, rfl, rfl⟩ := e3
      obtain ⟨D3, hb, hd⟩ := cse_step st2.between fr2 hp.ne st2.future st2.past set1 set2 hdisj e3
      exact ⟨D3, hb, (hd _ _).1 st2.future, (hd _ _).1 st2.past⟩
    · cases e3; exact ⟨D2, st2⟩
  obtain ⟨D3, st3⟩ := s3
  obtain ⟨D4, fs4, ps4, k4, _⟩ := binary_stage hf st3 e4
  obtain ⟨D5, fs5, ps5, k5, _⟩ := extended_stage hf k4.stage e5
  exact ⟨D5, k5.stage.between⟩

end R2U2
