import Verif.Lemmas.GraphTidy
import Verif.Model.Pipeline
import Verif.Props.Graph
import Mathlib.Data.List.Nodup
/-
The passes of the command line tool one after another, on the object graph.
-/
namespace R2U2
open Heap Expr GraphPass
variable {α : Type}

/-! ### Trees and shapes -/

theorem denotes_all {h : Heap Lab} {Q : Lab → Nat → Prop} : ∀ {t : Ast} {x : Nat}, h.Denotes x t →
    (Shaped Q h [x] ↔ t.All Q) := by
  intro t
  induction t using Tree.childInduction with
  | h l ts ih =>
    intro x hx
    rw [denotes_node] at hx
    obtain ⟨rfl, hk⟩ := hx
    constructor
    · intro hs
      refine .node (by rw [← hk.length_eq]; exact hs x .self) fun t ht => ?_
      obtain ⟨c, hc, hd⟩ := forall2_mem_left hk.flip ht
      exact (ih t ht hd).1 fun z hz => hs z ((Reachable.kid .self hc).trans hz)
    · rintro ⟨h1, h2⟩ z hz
      by_cases hzx : z = x
      · subst hzx; rw [hk.length_eq]; exact h1
      · have : ∃ c ∈ h.kids x, Reachable h [c] z := by
          clear hk h1 h2
          induction hz with
          | root h => exact absurd (List.mem_singleton.1 h) hzx
          | @kid p c hp hc ih' =>
            by_cases hpr : p = x
            · subst hpr; exact ⟨c, hc, .self⟩
            · obtain ⟨d, hd', hr⟩ := ih' hpr
              exact ⟨d, hd', .kid hr hc⟩
        obtain ⟨c, hc, hr⟩ := this
        obtain ⟨t, ht, hd⟩ := forall2_mem_left hk hc
        exact (ih t ht hd).2 (h2 t ht) z hr

theorem Tree.All.kids {L : Type} {P : L → Nat → Prop} {t : Tree L} (h : t.All P) : ∀ c ∈ t.kids, c.All P := by
  cases h with | node _ h => exact h

theorem toAst_nowhere {f : α → Ast} {Q : Lab → Nat → Prop} {bad : Expr α → Prop}
    (hbad : ∀ e, bad e → ∃ l, (e.toAst f = .node l (e.children.map (toAst f)) ∧ ¬ Q l e.children.length)) (e : Expr α) :
    (e.toAst f).All Q → Nowhere bad e := by
  induction e using childInduction with
  | h e ih =>
    intro ha
    refine ⟨e, fun hb => ?_, fun c hc => ih c hc ?_⟩
    · obtain ⟨l, h1, h2⟩ := hbad e hb
      rw [h1] at ha
      cases ha with | node h3 _ => exact h2 (by simpa using h3)
    · by_cases hat : ∃ a, e = .atom a
      · obtain ⟨a, rfl⟩ := hat; simp [children] at hc
      · obtain ⟨l', hl'⟩ := toAst_node (f := f) e (fun a h => hat ⟨a, h⟩)
        rw [hl' e rfl] at ha
        exact ha.kids _ (List.mem_map_of_mem hc)

theorem toAst_extended {f : α → Ast} {e : Expr α} (h : (e.toAst f).All fun l _ => l.extended = false) : Nowhere isExtended e := by
  refine toAst_nowhere (fun e hb => ?_) e h
  cases e <;> simp only [isExtended] at hb <;> exact ⟨_, rfl, by simp [Lab.extended]⟩

theorem toAst_wide {f : α → Ast} {e : Expr α} (h : (e.toAst f).All atMostTwo) : Nowhere isWide e := by
  refine toAst_nowhere (fun e hb => ?_) e h
  cases e <;> simp [isWide, children] at hb
  · exact ⟨_, by simp only [toAst, toAstL_eq]; rfl, by simp [atMostTwo, children]; omega⟩
  · exact ⟨_, by simp only [toAst, toAstL_eq]; rfl, by simp [atMostTwo, children]; omega⟩

theorem toAst_empty {f : α → Ast} {e : Expr α} (h : (e.toAst f).All hasOperands) : Nowhere isEmptyOp e := by
  refine toAst_nowhere (fun e hb => ?_) e h
  cases e <;> simp only [isEmptyOp] at hb
  · subst hb; exact ⟨_, rfl, by simp [hasOperands, children]⟩
  · subst hb; exact ⟨_, rfl, by simp [hasOperands, children]⟩

theorem desugared_operands {b : Bool} (t : Ast) : Desugared b t → t.All hasOperands := by
  induction t using Tree.childInduction with
  | h l ts ih =>
    intro hd
    have hk : ∀ c ∈ ts, c.All hasOperands := fun c hc => ih c hc (desugared_kids hd c hc)
    refine .node ?_ hk
    unfold hasOperands
    split
    · simp only [Desugared] at hd; simpa using hd.1
    · simp only [Desugared] at hd; simpa using hd.1
    · trivial

theorem desugared_of_all {f : α → Ast} (hd : ∀ a, Desugared false (f a)) (e : Expr α) :
    Nowhere isEmptyOp e → Desugared false (toAst f e) := by
  induction e using childInduction with
  | h e ih =>
    intro h
    obtain ⟨hb, hc⟩ := nowhere_iff.1 h
    have ih' : ∀ c ∈ e.children, Desugared false (toAst f c) := fun c hc' => ih c hc' (hc c hc')
    cases e <;> simp only [children, List.mem_cons, List.not_mem_nil, or_false, forall_eq_or_imp,
      forall_eq] at ih' <;> simp only [toAst] <;>
      first
      | exact hd _
      | (simp [Desugared, DesugaredL, ih']; done)
      | (simp only [Desugared]
         rename_i cs
         refine ⟨?_, ?_⟩
         · rintro h0
           rw [toAstL_eq, List.map_eq_nil_iff] at h0
           exact hb h0
         · rw [toAstL_eq, desugaredL_iff]
           simpa using ih')

theorem desugared_true (t : Ast) : Desugared false t → Desugared true t := by
  induction t using Tree.childInduction with
  | h l ts ih =>
    intro hd
    have hk : ∀ c ∈ ts, Desugared true c := fun c hc => ih c hc (desugared_kids hd c hc)
    have hL := desugaredL_iff.2 hk
    cases l with
    | lit v => cases v <;> simpa [Desugared] using hd
    | name s => simpa [Desugared] using hd
    | op o => simp only [Desugared] at hd ⊢; exact ⟨hd.1, hL⟩
    | tmp o lb ub => simp only [Desugared] at hd ⊢; exact ⟨hd.1, hL⟩
    | atomic =>
      match ts, hd with
      | [], hd => simp [Desugared] at hd
      | [c], hd => simp [Desugared] at hd
      | _ :: _ :: _, hd => simp [Desugared] at hd
    | _ => simp [Desugared] at hd

theorem nonBinary_empty {e : Expr α} (h : Nowhere isNonBinary e) : Nowhere isEmptyOp e :=
  h.mono (fun e hb => by
    cases e <;> simp only [isEmptyOp] at hb
    all_goals subst hb; simp [isNonBinary])

/-! ### Specification sets -/

/-- A specification set after a pass. -/
theorem holds_of_inv {P : Lab → Nat → Prop} {f : α → Ast} (hf : AtomsPlain P f) {good : Expr α → Prop}
    {Rl : Expr α → Expr α → Prop} (hR : RelOk good Rl) {h h' : Heap Lab} {n n' : Nat}
    (hi : PassInv (fun t t' => t.label.frame = false ∧ Keeps P f good Rl t t') h n h' n')
    {r : Nat} {specs : List (SpecOf α)} (hr : r < n) (hs : h.Holds f r specs) (he : ∀ s ∈ specs, good s.2.2) :
    ∃ specs', h'.Holds f r specs' ∧
      List.Forall₂ (fun s s' => s'.1 = s.1 ∧ s'.2.1 = s.2.1 ∧ good s'.2.2 ∧ Rl s.2.2 s'.2.2) specs specs' := by
  obtain ⟨t', hd, hc⟩ := hi.cong r hr _ hs
  obtain ⟨h1, h2⟩ := cong_label (fun _ _ h => h.1) hc rfl
  obtain ⟨l', ts⟩ := t'
  simp only [Tree.label, Tree.kids] at h1 h2
  subst h1
  suffices ∃ specs' : List (SpecOf α), ts = (specs'.map fun s => Tree.node (Lab.formula s.1 s.2.1) [s.2.2.toAst f]) ∧
      List.Forall₂ (fun s s' => s'.1 = s.1 ∧ s'.2.1 = s.2.1 ∧ good s'.2.2 ∧ Rl s.2.2 s'.2.2) specs specs' by
    obtain ⟨specs', rfl, h4⟩ := this
    exact ⟨specs', hd, h4⟩
  clear hd hc hs
  induction specs generalizing ts with
  | nil => cases h2; exact ⟨[], rfl, .nil⟩
  | cons s specs ih =>
    simp only [List.map_cons] at h2
    cases h2 with
    | @cons _ t _ ts a b =>
      obtain ⟨specs', rfl, h4⟩ := ih (fun s hs => he s (List.mem_cons_of_mem _ hs)) _ b
      obtain ⟨h1, h2⟩ := cong_label (fun _ _ h => h.1) a rfl
      obtain ⟨l', ts⟩ := t
      simp only [Tree.label, Tree.kids] at h1 h2
      subst h1
      cases h2 with
      | cons a' b' =>
        cases b'
        obtain ⟨e', g', rfl, r'⟩ := (cong_keeps hf hR (fun _ _ h => h.2) a').2 s.2.2 (he s List.mem_cons_self) rfl
        exact ⟨(s.1, s.2.1, e') :: specs', rfl, .cons ⟨rfl, rfl, g', r'⟩ h4⟩

theorem Heap.SameSpecs.refl (specs : List (SpecOf α)) : SameSpecs specs specs :=
  List.forall₂_same.2 fun _ _ => ⟨rfl, rfl, Equiv.refl _⟩

theorem Heap.SameSpecs.trans {a b c : List (SpecOf α)} (h1 : SameSpecs a b) (h2 : SameSpecs b c) : SameSpecs a c := by
  unfold SameSpecs at *
  induction h1 generalizing c with
  | nil => cases h2; exact .nil
  | cons x _ ih =>
    cases h2 with
    | cons y ys => exact .cons ⟨y.1.trans x.1, y.2.1.trans x.2.1, y.2.2.trans x.2.2⟩ (ih ys)

theorem Heap.SameSpecs.labels {a b : List (SpecOf α)} (h : SameSpecs a b) : b.map (·.1) = a.map (·.1) := by
  unfold SameSpecs at h
  induction h with
  | nil => rfl
  | cons x _ ih => simp only [List.map_cons, ih, x.1]

/-! ### Program graphs between passes -/

/-- A program graph between two passes: `D` are the nodes that have been replaced. -/
structure Between (h : Heap Lab) (n : Nat) (D : List Nat) (ft pt : Nat) : Prop where
  below : h.Below n
  acyclic : h.Acyclic
  live : Live h D
  lt : ∀ d ∈ D, d < n
  ft : IsRoot (fun l => l.frame = true) h n D ft
  pt : IsRoot (fun l => l.frame = true) h n D pt

/-- The sets themselves have not been replaced. -/
structure TopsFresh (h : Heap Lab) (D : List Nat) (ft pt : Nat) : Prop where
  ftD : ft ∉ D
  ptD : pt ∉ D
  ftP : h.pars ft = []
  ptP : h.pars pt = []

theorem pass_step {P : Lab → Nat → Prop} {f : α → Ast} (hf : AtomsPlain P f) {good : Expr α → Prop}
    {Rl : Expr α → Expr α → Prop} (hR : RelOk good Rl) {rule : Rule Lab}
    (hrule : RuleOk rule (fun t t' => t.label.frame = false ∧ Keeps P f good Rl t t')) {N Q : Lab → Nat → Prop}
    (hS : RuleShape rule (fun l => l.frame = true) N Q) {h h' : Heap Lab} {n n' fuel ft pt : Nat} {D : List Nat}
    (hb : Between h n D ft pt) (hp : postPass rule fuel ft pt (h, n) = some (h', n')) :
    ∃ D', Between h' n' D' ft pt ∧ (TopsFresh h D ft pt → TopsFresh h' D' ft pt) ∧
      Left (fun l => l.frame = true) N h n D h' n' D' ∧ Shaped Q h' [ft] ∧ Shaped Q h' [pt] ∧
      ∀ r < n, ∀ specs : List (SpecOf α), h.Holds f r specs → (∀ s ∈ specs, good s.2.2) →
        ∃ specs', h'.Holds f r specs' ∧
          List.Forall₂ (fun s s' => s'.1 = s.1 ∧ s'.2.1 = s.2.1 ∧ good s'.2.2 ∧ Rl s.2.2 s'.2.2) specs specs' := by
  have hi := postPass_ok hrule hb.below hb.acyclic hb.ft.lt hb.pt.lt hp
  obtain ⟨D', hL, h1, h2⟩ := postPass_left hrule hS hb.below hb.acyclic hb.live hb.lt hb.ft hb.pt hp
  refine ⟨D', ⟨hi.below, hi.acyclic, hL.live, hL.lt, (hL.root hb.below hb.ft).1, (hL.root hb.below hb.pt).1⟩, fun hF => ⟨?_, ?_, ?_, ?_⟩,
    hL, h1, h2, fun r hr specs hs he => holds_of_inv hf hR hi hr hs he⟩
  · intro hd
    rcases hL.frame _ hd with h3 | h3
    · exact hF.ftD h3
    · rw [hL.lab _ hb.ft.lt] at h3; exact h3 hb.ft.frame
  · intro hd
    rcases hL.frame _ hd with h3 | h3
    · exact hF.ptD h3
    · rw [hL.lab _ hb.pt.lt] at h3; exact h3 hb.pt.frame
  · exact hL.pars _ hb.ft.lt hF.ftP
  · exact hL.pars _ hb.pt.lt hF.ptP

/-! ### Common sub-expressions -/

theorem Below.replace {h : Heap Lab} {n x y : Nat} (hb : h.Below n) (hy : y < n) : (h.replace x y).Below n := by
  constructor
  · intro p c hc
    rcases mem_replace_kids hc with h1 | ⟨rfl, _⟩
    · exact hb.kids p c h1
    · exact hy
  · intro p hp
    have := hb.none p hp
    unfold Heap.replace
    split
    · exact this
    · simp only; split <;> simp [this]

theorem assoc_mem {κ β : Type} [DecidableEq κ] {k : κ} {v : β} : ∀ {l : List (κ × β)}, l.lookup k = some v → (k, v) ∈ l
  | [], h => by simp at h
  | (k', v') :: l, h => by
      rw [List.lookup_cons] at h
      split at h
      · rename_i he
        have := eq_of_beq he
        subst this; cases h
        exact List.mem_cons_self
      · exact List.mem_cons_of_mem _ (assoc_mem h)

theorem cse_below {κ : Type} [DecidableEq κ] {key : Ast → κ} {h h' : Heap Lab} {n root fuel : Nat} (hb : h.Below n) (hr : root < n)
    (hc : cse key fuel h root = some h') : h'.Below n := by
  simp only [cse, Option.map_eq_some_iff] at hc
  obtain ⟨w', h1, rfl⟩ := hc
  have := walk_inv (I := fun w : Walk Lab (List (κ × Nat)) => w.heap.Below n ∧ (∀ e ∈ w.stack, e.2 < n) ∧ ∀ e ∈ w.acc, e.2 < n)
    (by
      rintro w w1 ⟨h2, h3, h4⟩ hne hst
      rcases walkStep_cases hne hst with ⟨x, st, hs, hv, rfl⟩ | ⟨x, st, hs, hv, rfl⟩ | ⟨x, st, h', a', hs, hv, rfl⟩
      · refine ⟨h2, fun e he => h3 e (by rw [hs]; exact List.mem_cons_of_mem _ he), h4⟩
      · refine ⟨h2, fun e he => ?_, h4⟩
        simp only [List.mem_append, List.mem_map, List.mem_cons] at he
        rcases he with ⟨c, hc, rfl⟩ | rfl | he
        · exact h2.kids _ _ hc
        · exact h3 (false, x) (by rw [hs]; exact List.mem_cons_self)
        · exact h3 _ (by rw [hs]; exact List.mem_cons_of_mem _ he)
      · have hst' : ∀ e ∈ st, e.2 < n := fun e he => h3 e (by rw [hs]; exact List.mem_cons_of_mem _ he)
        have hx : x < n := h3 (true, x) (by rw [hs]; exact List.mem_cons_self)
        unfold cseVisit at hv
        split at hv
        · cases hv
        · split at hv
          · rename_i y hy
            cases hv
            refine ⟨Below.replace h2 ?_, hst', h4⟩
            exact h4 _ (assoc_mem hy)
          · cases hv
            refine ⟨h2, hst', fun e he => ?_⟩
            rcases List.mem_cons.1 he with rfl | he
            · exact hx
            · exact h4 e he) fuel _ w' (by
      refine ⟨hb, ?_, by simp [Heap.start]⟩
      simp [Heap.start, hr]) h1
  exact this.1.1

theorem Heap.Below.reach {L : Type} {h : Heap L} {n r x : Nat} (hb : h.Below n) (hr : r < n) (hx : Reachable h [r] x) : x < n := by
  cases hx with
  | root h => rw [List.mem_singleton.1 h]; exact hr
  | kid _ hc => exact hb.kids _ _ hc

theorem cse_step {h h' : Heap Lab} {n ft pt fuel : Nat} {D : List Nat} (hb : Between h n D ft pt) (hF : TopsFresh h D ft pt) (hne : ft ≠ pt)
    {fts pts : List Ast} (hdf : h.Denotes ft (.node .specSet fts)) (hdp : h.Denotes pt (.node .specSet pts))
    (hsf : IsSpecSet fts) (hsp : IsSpecSet pts)
    (hdisj : ∀ l n e n' e', Tree.node (Lab.formula l n) [e] ∈ fts → Tree.node (Lab.formula l n') [e'] ∈ pts → False)
    (hc : optimizeCse prefixStr fuel h ft pt = some h') :
    ∃ D', Between h' n D' ft pt ∧ ∀ x t, h.Denotes x t ↔ h'.Denotes x t := by
  simp only [optimizeCse, Option.bind_eq_some_iff] at hc
  obtain ⟨h1, e1, e2⟩ := hc
  obtain ⟨tr, hd, _⟩ := hb.acyclic.rank
  have hkf : KeyOk prefixStr (tr ft) := by rw [(hd ft).unique hdf]; exact specSet_keyOk hsf
  have hkp : KeyOk prefixStr (tr pt) := by rw [(hd pt).unique hdp]; exact specSet_keyOk hsp
  obtain ⟨D1, F1⟩ := cse_spec hd hb.live hF.ftD hF.ftP hkf e1
  have hlive : ∀ x, Reachable h [ft] x → x ∉ D := by
    intro x hx
    induction hx with
    | root h => rw [List.mem_singleton.1 h]; exact hF.ftD
    | kid _ hc ih => exact hb.live.refs _ ih _ hc
  have hptR : ¬ Reachable h [ft] pt := by
    intro hr
    cases hr with
    | root h1 => exact hne (List.mem_singleton.1 h1).symm
    | kid hp hc => have := hb.live.parents _ (hlive _ hp) _ hc; rw [hF.ptP] at this; simp at this
  have hptD : pt ∉ D1 := fun hd1 => (F1.deadHi pt hd1).elim hF.ptD hptR
  obtain ⟨D2, F2⟩ := cse_spec F1.den F1.live hptD (F1.parsNil pt hF.ptP hptR) hkp e2
  have hb1 := cse_below hb.below hb.ft.lt e1
  have hb2 := cse_below hb1 hb.pt.lt e2
  have hform : ∀ (h2 : Heap Lab) (r : Nat) (ts : List Ast), (∀ x, h2.Denotes x (tr x)) → tr r = .node .specSet ts → IsSpecSet ts →
      ∀ c ∈ h2.kids r, ∃ l k e, tr c = .node (.formula l k) [e] ∧ tr c ∈ ts := by
    intro h2 r ts hd2 hr hs c hc
    have hdr := hd2 r
    rw [hr, denotes_node] at hdr
    obtain ⟨t, ht, hct⟩ := forall2_mem_left hdr.2 hc
    obtain ⟨l, k, e, rfl, _, _⟩ := hs.formulas _ ht
    have := (hd2 c).unique hct
    exact ⟨l, k, e, this, this ▸ ht⟩
  have hlab : ∀ (h2 : Heap Lab) (x : Nat), (∀ x, h2.Denotes x (tr x)) → h2.lab x = (tr x).label := by
    intro h2 x hd2
    have := hd2 x
    cases ht : tr x with
    | node l ts => rw [ht, denotes_node] at this; exact this.1.symm
  have htf := (hd ft).unique hdf
  have htp := (hd pt).unique hdp
  have hout : ∀ f ∈ h1.kids ft, ¬ Reachable h1 [pt] f := by
    intro f hf hr
    obtain ⟨l, k, e, htr, hmem⟩ := hform h1 ft fts F1.den htf hsf f hf
    rcases reach_sub F1.den hr with rfl | hs
    · rw [htp] at htr; simp at htr
    · rw [htp] at hs
      rcases sub_specSet hsp hs with h | h
      · rw [htr] at h hmem; exact hdisj _ _ _ _ _ hmem h
      · rw [htr] at h; simp [Desugared] at h
  have hk2 : h'.kids ft = h1.kids ft := F2.kidsOut ft hout
  refine ⟨D2, ⟨hb2, fun x => ⟨_, F2.den x⟩, F2.live, ?_, ⟨hb.ft.lt, ?_, ?_⟩, ⟨hb.pt.lt, ?_, ?_⟩⟩, ?_⟩
  · intro d hd2
    rcases F2.deadHi d hd2 with h2 | h2
    · rcases F1.deadHi d h2 with h3 | h3
      · exact hb.lt d h3
      · exact hb.below.reach hb.ft.lt h3
    · exact hb1.reach hb.pt.lt h2
  · rw [hlab h' ft F2.den, htf]; rfl
  · intro c hc
    obtain ⟨l, k, e, htr, _⟩ := hform h' ft fts F2.den htf hsf c hc
    rw [hk2] at hc
    refine ⟨fun hcD => ?_, by rw [hlab h' c F2.den, htr]; rfl⟩
    rcases F2.deadHi c hcD with h2 | h2
    · exact F1.kidsLive c hc h2
    · exact hout c hc h2
  · rw [hlab h' pt F2.den, htp]; rfl
  · intro c hc
    obtain ⟨l, k, e, htr, _⟩ := hform h' pt pts F2.den htp hsp c hc
    exact ⟨F2.kidsLive c hc, by rw [hlab h' c F2.den, htr]; rfl⟩
  · intro x t
    constructor
    · intro hx; rw [hx.unique (hd x)]; exact F2.den x
    · intro hx; rw [hx.unique (F2.den x)]; exact hd x

/-! ### Stages -/

/-- Both sets hold their specifications. -/
structure Stage (f : α → Ast) (h : Heap Lab) (n : Nat) (D : List Nat) (ft pt : Nat) (fs ps : List (SpecOf α)) : Prop where
  between : Between h n D ft pt
  future : h.Holds f ft fs
  past : h.Holds f pt ps

/-- The stages before and after a pass. -/
structure Kept (f : α → Ast) (h : Heap Lab) (n : Nat) (D : List Nat) (ft pt : Nat) (fs ps : List (SpecOf α))
    (h' : Heap Lab) (n' : Nat) (D' : List Nat) (fs' ps' : List (SpecOf α)) : Prop where
  stage : Stage f h' n' D' ft pt fs' ps'
  fresh : TopsFresh h D ft pt → TopsFresh h' D' ft pt
  fsame : SameSpecs fs fs'
  psame : SameSpecs ps ps'
  fops : Shaped hasOperands h [ft] → Shaped hasOperands h' [ft]
  pops : Shaped hasOperands h [pt] → Shaped hasOperands h' [pt]

theorem Kept.trans {f : α → Ast} {h h1 h2 : Heap Lab} {n n1 n2 : Nat} {D D1 D2 : List Nat} {ft pt : Nat}
    {fs ps fs1 ps1 fs2 ps2 : List (SpecOf α)} (a : Kept f h n D ft pt fs ps h1 n1 D1 fs1 ps1)
    (b : Kept f h1 n1 D1 ft pt fs1 ps1 h2 n2 D2 fs2 ps2) : Kept f h n D ft pt fs ps h2 n2 D2 fs2 ps2 :=
  ⟨b.stage, fun h => b.fresh (a.fresh h), a.fsame.trans b.fsame, a.psame.trans b.psame, fun h => b.fops (a.fops h),
    fun h => b.pops (a.pops h)⟩

theorem Kept.refl {f : α → Ast} {h : Heap Lab} {n : Nat} {D : List Nat} {ft pt : Nat}
    {fs ps : List (SpecOf α)} (a : Stage f h n D ft pt fs ps) : Kept f h n D ft pt fs ps h n D fs ps :=
  ⟨a, id, .refl _, .refl _, id, id⟩

theorem sameSpecs_of {P : Expr α → Prop} {fs fs' : List (SpecOf α)}
    (h : List.Forall₂ (fun s s' => s'.1 = s.1 ∧ s'.2.1 = s.2.1 ∧ P s'.2.2 ∧ Equiv s'.2.2 s.2.2) fs fs') : SameSpecs fs fs' := by
  unfold SameSpecs
  exact h.imp fun _ _ h => ⟨h.1, h.2.1, h.2.2.2⟩

theorem equiv_stage {P : Lab → Nat → Prop} {f : α → Ast} (hf : AtomsPlain P f) {rule : Rule Lab}
    (hrule : RuleOk rule (EquivStep P f)) {N Q : Lab → Nat → Prop} (hS : RuleShape rule (fun l => l.frame = true) N Q)
    (hN : ∀ l k, N l k → hasOperands l k)
    {h h' : Heap Lab} {n n' fuel ft pt : Nat} {D : List Nat} {fs ps : List (SpecOf α)} (hs : Stage f h n D ft pt fs ps)
    (hp : postPass rule fuel ft pt (h, n) = some (h', n')) :
    ∃ D' fs' ps', Kept f h n D ft pt fs ps h' n' D' fs' ps' ∧ Shaped Q h' [ft] ∧ Shaped Q h' [pt] ∧
      ∀ (Q' : Lab → Nat → Prop), (∀ l k, N l k → Q' l k) → ∀ r < n, Shaped Q' h [r] → Shaped Q' h' [r] := by
  obtain ⟨D', hb, hfr, hL, h1, h2, h3⟩ := pass_step hf relOk_equiv hrule hS hs.between hp
  obtain ⟨fs', h4, h5⟩ := h3 ft hs.between.ft.lt fs hs.future (fun _ _ => trivial)
  obtain ⟨ps', h6, h7⟩ := h3 pt hs.between.pt.lt ps hs.past (fun _ _ => trivial)
  have hsh : ∀ (Q' : Lab → Nat → Prop), (∀ l k, N l k → Q' l k) → ∀ r < n, Shaped Q' h [r] → Shaped Q' h' [r] :=
    fun Q' hQ r hr => hL.shaped Q' [r] hQ (by simpa using hr)
  exact ⟨D', fs', ps', ⟨⟨hb, h4, h6⟩, hfr, sameSpecs_of (P := fun _ => True) h5, sameSpecs_of (P := fun _ => True) h7, hsh _ hN _ hs.between.ft.lt, hsh _ hN _ hs.between.pt.lt⟩,
    h1, h2, hsh⟩

theorem binary_operands {l : Lab} {k : Nat} (h : multiArity l = true ∧ k = 2) : hasOperands l k := by
  obtain ⟨h1, rfl⟩ := h
  rcases multi_iff.1 h1 with rfl | rfl | rfl | rfl <;> simp [hasOperands]

theorem binary_stage {f : α → Ast} (hf : AtomsPlain twoOperands f)
    {h h' : Heap Lab} {n n' fuel ft pt : Nat} {D : List Nat} {fs ps : List (SpecOf α)} (hs : Stage f h n D ft pt fs ps)
    (hp : toBinaryG fuel ft pt (h, n) = some (h', n')) :
    ∃ D' fs' ps', Kept f h n D ft pt fs ps h' n' D' fs' ps' ∧ Shaped atMostTwo h' [ft] ∧ Shaped atMostTwo h' [pt] := by
  obtain ⟨D', fs', ps', h1, h2, h3, _⟩ := equiv_stage hf (binary_ok hf) binary_shape (fun _ _ => binary_operands) hs hp
  exact ⟨D', fs', ps', h1, h2, h3⟩

theorem extended_stage {f : α → Ast} (hf : AtomsPlain twoOperands f)
    {h h' : Heap Lab} {n n' fuel ft pt : Nat} {D : List Nat} {fs ps : List (SpecOf α)} (hs : Stage f h n D ft pt fs ps)
    (hp : removeExtendedG fuel ft pt (h, n) = some (h', n')) :
    ∃ D' fs' ps', Kept f h n D ft pt fs ps h' n' D' fs' ps' ∧
      (Shaped atMostTwo h' [ft] ∧ Shaped atMostTwo h' [pt]) ∧
      Shaped (fun l _ => l.extended = false) h' [ft] ∧ Shaped (fun l _ => l.extended = false) h' [pt] := by
  unfold removeExtendedG at hp
  rw [Option.bind_eq_some_iff] at hp
  obtain ⟨⟨h1, n1⟩, hp1, hp2⟩ := hp
  obtain ⟨D1, fs1, ps1, k1, a1, a2⟩ := binary_stage hf hs hp1
  obtain ⟨D2, fs2, ps2, k2, b1, b2, b3⟩ := equiv_stage hf (ext_ok hf) ext_shape (fun _ _ h => h.2.2) k1.stage hp2
  exact ⟨D2, fs2, ps2, k1.trans k2, ⟨b3 _ (fun _ _ h => h.2.1) _ k1.stage.between.ft.lt a1,
    b3 _ (fun _ _ h => h.2.1) _ k1.stage.between.pt.lt a2⟩, b1, b2⟩

theorem holds_shaped {f : α → Ast} {h : Heap Lab} {r : Nat} {specs : List (SpecOf α)} (hh : h.Holds f r specs) {Q : Lab → Nat → Prop} :
    (Shaped Q h [r] → ∀ s ∈ specs, (s.2.2.toAst f).All Q) ∧
    (Q .specSet specs.length → (∀ l k, Q (.formula l k) 1) → (∀ s ∈ specs, (s.2.2.toAst f).All Q) → Shaped Q h [r]) := by
  constructor
  · intro hs s hm
    have := ((denotes_all hh).1 hs).kids _ (List.mem_map_of_mem (f := fun s : SpecOf α => Tree.node (Lab.formula s.1 s.2.1) [s.2.2.toAst f]) hm)
    exact this.kids _ (by simp [Tree.kids])
  · intro h1 h2 h3
    refine (denotes_all hh).2 (.node (by simpa using h1) fun t ht => ?_)
    obtain ⟨s, hm, rfl⟩ := List.mem_map.1 ht
    refine .node (h2 _ _) fun t ht => ?_
    rw [List.mem_singleton.1 ht]
    exact h3 s hm

theorem operands_shaped {f : α → Ast} (hd : ∀ a, Desugared false (f a)) {h : Heap Lab} {r : Nat} {specs : List (SpecOf α)}
    (hh : h.Holds f r specs) (hs : ∀ s ∈ specs, Nowhere isEmptyOp s.2.2) : Shaped hasOperands h [r] :=
  (holds_shaped hh).2 trivial (fun _ _ => trivial) fun s hm => desugared_operands _ (desugared_of_all hd _ (hs s hm))

theorem isSpecSet_of {f : α → Ast} (hd : ∀ a, Desugared false (f a)) {specs : List (SpecOf α)} (hi : ∀ s ∈ specs, IsIdent s.1)
    (hn : (specs.map (·.1)).Nodup) (hs : ∀ s ∈ specs, Nowhere isEmptyOp s.2.2) :
    IsSpecSet (specs.map fun s => Tree.node (Lab.formula s.1 s.2.1) [s.2.2.toAst f]) where
  formulas t ht := by
    obtain ⟨s, hm, rfl⟩ := List.mem_map.1 ht
    exact ⟨_, _, _, rfl, hi s hm, desugared_true _ (desugared_of_all hd _ (hs s hm))⟩
  labels l n e n' e' h1 h2 := by
    obtain ⟨s, hm, h3⟩ := List.mem_map.1 h1
    obtain ⟨s', hm', h4⟩ := List.mem_map.1 h2
    simp only [Tree.node.injEq, Lab.formula.injEq, List.cons.injEq, and_true] at h3 h4
    have : s = s' := List.inj_on_of_nodup_map hn hm hm' (by rw [h3.1.1, h4.1.1])
    subst this
    exact ⟨h3.1.2.symm.trans h4.1.2, h3.2.symm.trans h4.2⟩

theorem Program.start {f : α → Ast} {h : Heap Lab} {n ft pt : Nat} {fs ps : List (SpecOf α)} (hp : Program f h n ft pt fs ps) :
    Stage f h n [] ft pt fs ps ∧ TopsFresh h [] ft pt := by
  have root : ∀ r specs, r < n → h.Holds f r specs → IsRoot (fun l => l.frame = true) h n [] r := by
    intro r specs hr hh
    unfold Heap.Holds at hh
    rw [denotes_node] at hh
    refine ⟨hr, by rw [← hh.1]; rfl, fun c hc => ⟨by simp, ?_⟩⟩
    obtain ⟨t, ht, hd⟩ := forall2_mem_left hh.2 hc
    obtain ⟨s, _, rfl⟩ := List.mem_map.1 ht
    rw [denotes_node] at hd
    rw [← hd.1]; rfl
  exact ⟨⟨⟨hp.below, hp.acyclic, ⟨fun _ _ _ _ => by simp, fun p _ c hc => hp.parents p c hc⟩, by simp, root _ _ hp.ft_lt hp.future,
    root _ _ hp.pt_lt hp.past⟩, hp.future, hp.past⟩, ⟨by simp, by simp, hp.ft_top, hp.pt_top⟩⟩

/-- The program when common sub-expressions are looked for. -/
theorem before_cse {f : α → Ast} (hf : AtomsPlain twoOperands f) (hsep : AtomsSeparate f)
    (hdes : ∀ a, Desugared false (f a)) {o : CliOpts} {h h1 h2 : Heap Lab} {n n1 n2 fuel ft pt : Nat} {fs ps : List (SpecOf α)}
    (hp : Program f h n ft pt fs ps)
    (hrw : o.rewrite = true → ∀ s ∈ fs ++ ps, Nowhere isDisordered s.2.2 ∧ Nowhere isNonBinary s.2.2 ∧ Nowhere isConstEqual s.2.2)
    (e1 : (if o.rewrite then optimizeG fuel ft pt (h, n) else some (h, n)) = some (h1, n1))
    (e2 : (if o.extops then some (h1, n1) else removeExtendedG fuel ft pt (h1, n1)) = some (h2, n2)) :
    ∃ D2 fs2 ps2, Stage f h2 n2 D2 ft pt fs2 ps2 ∧ TopsFresh h2 D2 ft pt ∧ SameSpecs fs fs2 ∧ SameSpecs ps ps2 ∧
      IsSpecSet (fs2.map fun s => Tree.node (Lab.formula s.1 s.2.1) [s.2.2.toAst f]) ∧
      IsSpecSet (ps2.map fun s => Tree.node (Lab.formula s.1 s.2.1) [s.2.2.toAst f]) ∧
      ∀ l k e k' e', Tree.node (Lab.formula l k) [e] ∈ (fs2.map fun s => Tree.node (Lab.formula s.1 s.2.1) [s.2.2.toAst f]) →
        Tree.node (Lab.formula l k') [e'] ∈ (ps2.map fun s => Tree.node (Lab.formula s.1 s.2.1) [s.2.2.toAst f]) → False := by
  obtain ⟨hs0, hF0⟩ := hp.start
  have hk : KeySound (str f) := fun p q hp hq h => by rw [C17_str_separates hsep hdes p q hp hq h]; exact Equiv.refl q
  -- rewriting
  have s1 : ∃ D1 fs1 ps1, Stage f h1 n1 D1 ft pt fs1 ps1 ∧ TopsFresh h1 D1 ft pt ∧ SameSpecs fs fs1 ∧ SameSpecs ps ps1 ∧
      ∀ s ∈ fs1 ++ ps1, Nowhere isEmptyOp s.2.2 := by
    split at e1
    · rename_i hr
      have hgood : ∀ s ∈ fs ++ ps, Nowhere optBad s.2.2 := fun s hm => by
        obtain ⟨a, b, c⟩ := hrw hr s hm
        exact a.or (b.or c)
      obtain ⟨D1, hb, hfr, _, _, _, hh⟩ := pass_step hf relOk_opt (opt_ok hf hk fuel) (opt_shape fuel) hs0.between e1
      obtain ⟨fs1, a1, a2⟩ := hh ft hp.ft_lt fs hp.future fun s hm => hgood s (List.mem_append_left _ hm)
      obtain ⟨ps1, b1, b2⟩ := hh pt hp.pt_lt ps hp.past fun s hm => hgood s (List.mem_append_right _ hm)
      have back : ∀ (as bs : List (SpecOf α)), List.Forall₂ (fun s s' => s'.1 = s.1 ∧ s'.2.1 = s.2.1 ∧ Nowhere optBad s'.2.2 ∧
          OptRel s.2.2 s'.2.2) as bs → ∀ s ∈ bs, Nowhere isEmptyOp s.2.2 := by
        intro as bs hab s hm
        obtain ⟨_, _, hr⟩ := forall2_mem_left hab.flip hm
        exact nonBinary_empty (hr.2.2.1.mono fun _ h => .inr (.inl h))
      refine ⟨D1, fs1, ps1, ⟨hb, a1, b1⟩, hfr hF0, ?_, ?_, fun s hm => ?_⟩
      · exact a2.imp fun _ _ h => ⟨h.1, h.2.1, h.2.2.2.equiv⟩
      · exact b2.imp fun _ _ h => ⟨h.1, h.2.1, h.2.2.2.equiv⟩
      · rcases List.mem_append.1 hm with hm | hm
        · exact back _ _ a2 s hm
        · exact back _ _ b2 s hm
    · cases e1
      exact ⟨[], fs, ps, hs0, hF0, .refl _, .refl _, hp.operands⟩
  obtain ⟨D1, fs1, ps1, st1, fr1, sf1, sp1, op1⟩ := s1
  -- removing extended operators
  have s2 : ∃ D2 fs2 ps2, Kept f h1 n1 D1 ft pt fs1 ps1 h2 n2 D2 fs2 ps2 := by
    split at e2
    · cases e2; exact ⟨_, _, _, Kept.refl st1⟩
    · obtain ⟨D2, fs2, ps2, k, _⟩ := extended_stage hf st1 e2
      exact ⟨D2, fs2, ps2, k⟩
  obtain ⟨D2, fs2, ps2, k2⟩ := s2
  have ne2f : ∀ s ∈ fs2, Nowhere isEmptyOp s.2.2 := fun s hm => toAst_empty ((holds_shaped k2.stage.future).1
    (k2.fops (operands_shaped hdes st1.future fun s hm => op1 s (List.mem_append_left _ hm))) s hm)
  have ne2p : ∀ s ∈ ps2, Nowhere isEmptyOp s.2.2 := fun s hm => toAst_empty ((holds_shaped k2.stage.past).1
    (k2.pops (operands_shaped hdes st1.past fun s hm => op1 s (List.mem_append_right _ hm))) s hm)
  have lf2 := (sf1.trans k2.fsame).labels
  have lp2 := (sp1.trans k2.psame).labels
  have hlab : ((fs2 ++ ps2).map (·.1)).Nodup := by rw [List.map_append, lf2, lp2, ← List.map_append]; exact hp.labels
  have hid : ∀ s ∈ fs2 ++ ps2, IsIdent s.1 := by
    intro s hm
    have h5 : s.1 ∈ (fs ++ ps).map (·.1) := by
      rw [List.map_append, ← lf2, ← lp2, ← List.map_append]; exact List.mem_map_of_mem hm
    obtain ⟨s', hm', h6⟩ := List.mem_map.1 h5
    rw [← h6]; exact hp.idents s' hm'
  rw [List.map_append] at hlab
  obtain ⟨n1, n2, n3⟩ := List.nodup_append.1 hlab
  refine ⟨D2, fs2, ps2, k2.stage, k2.fresh fr1, sf1.trans k2.fsame, sp1.trans k2.psame,
    isSpecSet_of hdes (fun s hm => hid s (List.mem_append_left _ hm)) n1 ne2f,
    isSpecSet_of hdes (fun s hm => hid s (List.mem_append_right _ hm)) n2 ne2p, ?_⟩
  intro l k e k' e' h1 h2
  obtain ⟨s, hm, h3⟩ := List.mem_map.1 h1
  obtain ⟨s', hm', h4⟩ := List.mem_map.1 h2
  simp only [Tree.node.injEq, Lab.formula.injEq] at h3 h4
  exact n3 s.1 (List.mem_map_of_mem hm) s'.1 (List.mem_map_of_mem hm') (h3.1.1.trans h4.1.1.symm)

end R2U2
