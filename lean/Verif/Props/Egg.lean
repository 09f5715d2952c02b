import Verif.Lemmas.Relink
import Verif.Props.Backend
import Verif.Spec.Graph
/-
C41, C42, C57, C58: equality saturation.
-/
namespace R2U2
open Eqsat

variable {α : Type}

/-! ### C41: the rules -/

/-- C41.  Every rule in the files handed to the e-graph engine, whichever of the files are
switched on, relates two terms with the same truth value at every time of every trace, and
yields a term whose intervals are again `0 ≤ lb ≤ ub`. -/
theorem C41_rules (o : EggOptions) (l r : Egg) (h : o.rule l r) (hl : l.WF) :
    r.WF ∧ ∀ (v : Trace Nat) (i : Nat), l.sem v i ↔ r.sem v i :=
  EggOptions.rule_sound h hl

/-- C41.  Whatever term ends up in the class of the exported formula - after any number of rule
applications, merges and congruence steps, in any order, with any choice of rule files - the
formula read back from that term can be formed, is equivalent to the original formula, and has
proper intervals. -/
theorem C41_extracted (atomId : α → Nat) (atomOf : Nat → Option α)
    (hm : ∀ a, atomOf (atomId a) = some a) (signalNamed : Nat → Option α) (o : EggOptions)
    (e : Expr α) (hd : Nowhere isDisordered e) (t u : Egg) (he : toEgg atomId e = some t)
    (h : EqG o.rule t t u) (hu : ∀ n, u ≠ .var n) :
    ∃ e', importEgg atomOf signalNamed (print u) = some e' ∧
      (∀ (π : Trace α) (i : Nat), sat π e i ↔ sat π e' i) ∧ Nowhere isDisordered e' := by
  rw [importEgg_print _ _ u hu]
  exact extracted_equiv hm hd he h

/-- All five files. -/
def allRules : EggOptions := ⟨true, true, true, true, true⟩

/-- The rules need proper intervals: on `[1,0]` the rule `G[b0,b1] false ↦ false` is wrong. -/
theorem C41_disordered_fails : ∃ l r, allRules.rule l r ∧
    ¬ ∀ (v : Trace Nat) (i : Nat), l.sem v i ↔ r.sem v i := by
  refine ⟨_, _, .inr (.inr (.inr (.inl ⟨rfl, .global_false 1 0⟩))), fun h => ?_⟩
  have := (h (fun _ _ => False) 0).1
  simp only [Egg.sem] at this
  exact absurd (this fun j p q => absurd (Int.le_trans p q) (by decide)) (by simp)

/-- `G[0,3] (F[2,2] a0) && (!a0 || a1)` is exported; `G[2,5] a0 && (a0 -> a1)` ends up in its
class, and is read back. -/
example : ∃ t u : Egg,
    toEgg (fun n : Nat => n) (.and [.glob 0 3 (.fut 2 2 (.atom 0)), .or [.neg (.atom 0), .atom 1]]) =
        some t ∧
      EqG allRules.rule t t u ∧ (∀ n, u ≠ .var n) ∧
      importEgg some (fun _ => none) (print u) =
        some (.and [.glob 2 5 (.atom 0), .imp (.atom 0) (.atom 1)]) := by
  refine ⟨_, .and2 (.global 2 5 (.var 0)) (.implies (.var 0) (.var 1)), rfl, ?_, by simp, rfl⟩
  have hr := EqG.root (R := allRules.rule)
    (root := .and2 (.global 0 3 (.future 2 2 (.var 0))) (.or2 (.not (.var 0)) (.var 1)))
  refine .congr hr rfl rfl ?_
  have h1 := EqG.sub hr (c := .global 0 3 (.future 2 2 (.var 0))) (by simp [Egg.children])
  have h2 := EqG.sub hr (c := .or2 (.not (.var 0)) (.var 1)) (by simp [Egg.children])
  rintro (_ | _ | k) c d hc hd <;> simp only [Egg.children, List.getElem?_cons_zero,
    List.getElem?_cons_succ, List.getElem?_nil, Option.some.injEq, reduceCtorEq] at hc hd
  · subst hc; subst hd
    exact .rule h1 (.inr (.inr (.inr (.inr ⟨rfl, .global_future 0 3 2 (.var 0)⟩))))
  · subst hc; subst hd
    exact .rule h2 (.inr (.inr (.inr (.inr ⟨rfl, .implies' (.var 0) (.var 1)⟩))))

/-! ### C42: export and import -/

/-- C42, except for formulas that are a single atom.  If a formula can be exported, what the
e-graph engine prints for the exported term is read back as exactly that formula. -/
theorem C42_round_trip_partial (atomId : α → Nat) (atomOf : Nat → Option α)
    (hm : ∀ a, atomOf (atomId a) = some a) (signalNamed : Nat → Option α) (e : Expr α) (t : Egg)
    (he : toEgg atomId e = some t) (ha : ∀ a, e ≠ .atom a) :
    importEgg atomOf signalNamed (print t) = some e := by
  rw [importEgg_print]
  · exact replace_export hm e t he
  · rintro n rfl
    have := replace_export hm e _ he
    simp only [ofEgg, replaceAtoms, Option.bind_eq_bind, Option.pure_def, Option.bind_eq_some_iff,
      Option.some.injEq] at this
    obtain ⟨a, _, rfl⟩ := this
    exact ha a rfl

/-- Two different formulas are never exported as the same term. -/
theorem C42_injective (atomId : α → Nat) (hinj : ∀ a b, atomId a = atomId b → a = b)
    (e e' : Expr α) (t : Egg) (h : toEgg atomId e = some t) (h' : toEgg atomId e' = some t) :
    e = e' := by
  classical
  let atomOf : Nat → Option α := fun n => if h : ∃ a, atomId a = n then some h.choose else none
  have hm : ∀ a, atomOf (atomId a) = some a := by
    intro a
    have hx : ∃ b, atomId b = atomId a := ⟨a, rfl⟩
    simp only [atomOf, hx, dite_true, Option.some.injEq]
    exact hinj _ _ hx.choose_spec
  have h1 := replace_export hm e t h
  have h2 := replace_export hm e' t h'
  rw [h1, Option.some.injEq] at h2
  exact h2

/-- Which formulas are exported: those built from constants, atoms, `!`, `->`, `<->`, `G`, `F`,
`U`, `R`, and `&&`, `||` with two to four operands. -/
inductive isExportable : Expr α → Prop
  | const (b) : isExportable (.const b)
  | atom (a) : isExportable (.atom a)
  | neg (e) : isExportable (.neg e)
  | imp (l r) : isExportable (.imp l r)
  | iff (l r) : isExportable (.iff l r)
  | fut (lb ub e) : isExportable (.fut lb ub e)
  | glob (lb ub e) : isExportable (.glob lb ub e)
  | untl (lb ub l r) : isExportable (.untl lb ub l r)
  | rel (lb ub l r) : isExportable (.rel lb ub l r)
  | and (cs) : 2 ≤ cs.length → cs.length ≤ 4 → isExportable (.and cs)
  | or (cs) : 2 ≤ cs.length → cs.length ≤ 4 → isExportable (.or cs)

theorem isExportable_and (cs : List (Expr α)) :
    isExportable (.and cs) ↔ 2 ≤ cs.length ∧ cs.length ≤ 4 :=
  ⟨by rintro ⟨⟩; exact ⟨‹_›, ‹_›⟩, fun h => .and _ h.1 h.2⟩

theorem isExportable_or (cs : List (Expr α)) :
    isExportable (.or cs) ↔ 2 ≤ cs.length ∧ cs.length ≤ 4 :=
  ⟨by rintro ⟨⟩; exact ⟨‹_›, ‹_›⟩, fun h => .or _ h.1 h.2⟩

mutual
theorem export_total (atomId : α → Nat) : ∀ (e : Expr α),
    (toEgg atomId e).isSome ↔ Nowhere (fun x => ¬ isExportable x) e
  | .const b => by
      rw [nw_iff_children]; simp [toEgg, Expr.children, isExportable.const b]
  | .atom a => by
      rw [nw_iff_children]; simp [toEgg, Expr.children, isExportable.atom a]
  | .neg e => by
      have := export_total atomId e
      rw [nw_iff_children]
      simp only [isExportable.neg e, Expr.children, List.mem_singleton, forall_eq, not_true,
        not_false_eq_true, true_and, ← this, toEgg]
      cases toEgg atomId e <;> simp
  | .fut lb ub e => by
      have := export_total atomId e
      rw [nw_iff_children]
      simp only [isExportable.fut lb ub e, Expr.children, List.mem_singleton, forall_eq, not_true,
        not_false_eq_true, true_and, ← this, toEgg]
      cases toEgg atomId e <;> simp
  | .glob lb ub e => by
      have := export_total atomId e
      rw [nw_iff_children]
      simp only [isExportable.glob lb ub e, Expr.children, List.mem_singleton, forall_eq, not_true,
        not_false_eq_true, true_and, ← this, toEgg]
      cases toEgg atomId e <;> simp
  | .imp l r => by
      have h1 := export_total atomId l
      have h2 := export_total atomId r
      rw [nw_iff_children]
      simp only [isExportable.imp l r, Expr.children, List.mem_cons, List.not_mem_nil, or_false,
        forall_eq_or_imp, forall_eq, not_true, not_false_eq_true, true_and, ← h1, ← h2, toEgg]
      cases toEgg atomId l <;> cases toEgg atomId r <;> simp
  | .iff l r => by
      have h1 := export_total atomId l
      have h2 := export_total atomId r
      rw [nw_iff_children]
      simp only [isExportable.iff l r, Expr.children, List.mem_cons, List.not_mem_nil, or_false,
        forall_eq_or_imp, forall_eq, not_true, not_false_eq_true, true_and, ← h1, ← h2, toEgg]
      cases toEgg atomId l <;> cases toEgg atomId r <;> simp
  | .untl lb ub l r => by
      have h1 := export_total atomId l
      have h2 := export_total atomId r
      rw [nw_iff_children]
      simp only [isExportable.untl lb ub l r, Expr.children, List.mem_cons, List.not_mem_nil, or_false,
        forall_eq_or_imp, forall_eq, not_true, not_false_eq_true, true_and, ← h1, ← h2, toEgg]
      cases toEgg atomId l <;> cases toEgg atomId r <;> simp
  | .rel lb ub l r => by
      have h1 := export_total atomId l
      have h2 := export_total atomId r
      rw [nw_iff_children]
      simp only [isExportable.rel lb ub l r, Expr.children, List.mem_cons, List.not_mem_nil, or_false,
        forall_eq_or_imp, forall_eq, not_true, not_false_eq_true, true_and, ← h1, ← h2, toEgg]
      cases toEgg atomId l <;> cases toEgg atomId r <;> simp
  | .and cs => by
      have h1 := exportL_total atomId cs
      rw [nw_iff_children]
      simp only [isExportable_and, Expr.children, not_not, ← h1, toEgg]
      cases h : toEggL atomId cs with
      | none => simp
      | some ts =>
          have hl := exportL_length atomId cs ts h
          simp only [Option.bind_eq_bind, Option.bind_some, Option.isSome_some, and_true, ← hl]
          match ts with
          | [] => simp
          | [_] => simp
          | [a, b] => simp
          | [a, b, c] => simp
          | [a, b, c, d] => simp
          | _ :: _ :: _ :: _ :: _ :: _ => simp
  | .or cs => by
      have h1 := exportL_total atomId cs
      rw [nw_iff_children]
      simp only [isExportable_or, Expr.children, not_not, ← h1, toEgg]
      cases h : toEggL atomId cs with
      | none => simp
      | some ts =>
          have hl := exportL_length atomId cs ts h
          simp only [Option.bind_eq_bind, Option.bind_some, Option.isSome_some, and_true, ← hl]
          match ts with
          | [] => simp
          | [_] => simp
          | [a, b] => simp
          | [a, b, c] => simp
          | [a, b, c, d] => simp
          | _ :: _ :: _ :: _ :: _ :: _ => simp
  | .xor l r => by
      rw [nw_iff_children]
      exact ⟨fun h => by simp [toEgg] at h, fun h => absurd (fun hx => by cases hx) h.1⟩
  | .equal l r => by
      rw [nw_iff_children]
      exact ⟨fun h => by simp [toEgg] at h, fun h => absurd (fun hx => by cases hx) h.1⟩
  | .once lb ub e => by
      rw [nw_iff_children]
      exact ⟨fun h => by simp [toEgg] at h, fun h => absurd (fun hx => by cases hx) h.1⟩
  | .hist lb ub e => by
      rw [nw_iff_children]
      exact ⟨fun h => by simp [toEgg] at h, fun h => absurd (fun hx => by cases hx) h.1⟩
  | .since lb ub l r => by
      rw [nw_iff_children]
      exact ⟨fun h => by simp [toEgg] at h, fun h => absurd (fun hx => by cases hx) h.1⟩
  | .trig lb ub l r => by
      rw [nw_iff_children]
      exact ⟨fun h => by simp [toEgg] at h, fun h => absurd (fun hx => by cases hx) h.1⟩
theorem exportL_total (atomId : α → Nat) : ∀ (es : List (Expr α)),
    (toEggL atomId es).isSome ↔ ∀ c ∈ es, Nowhere (fun x => ¬ isExportable x) c
  | [] => by simp [toEggL]
  | e :: es => by
      have h1 := export_total atomId e
      have h2 := exportL_total atomId es
      simp only [List.mem_cons, forall_eq_or_imp, ← h1, ← h2, toEggL]
      cases toEgg atomId e <;> cases toEggL atomId es <;> simp
theorem exportL_length (atomId : α → Nat) : ∀ (es : List (Expr α)) (ts : List Egg),
    toEggL atomId es = some ts → ts.length = es.length
  | [], ts, h => by simp only [toEggL, Option.some.injEq] at h; subst h; rfl
  | e :: es, ts, h => by
      simp only [toEggL, Option.bind_eq_bind, Option.pure_def, Option.bind_eq_some_iff,
        Option.some.injEq] at h
      obtain ⟨a, ha, as, has, rfl⟩ := h
      simp [exportL_length atomId es as has]
end

/-- C42.  Exactly these formulas are exported; for any other the engine rejects the file and the
formula is kept as it is. -/
theorem C42_exported (atomId : α → Nat) (e : Expr α) :
    (∃ t, toEgg atomId e = some t) ↔ Nowhere (fun x => ¬ isExportable x) e := by
  rw [← export_total atomId e, Option.isSome_iff_exists]

/-- C42 fails for a formula that is a single atom, or is simplified to one: the result is the
declared signal that happens to be *named* `aN`.  Here the program has two atoms, atom 0 and
atom 1, and atom 1 is a signal the user called `a0`: `F[0,0] (atom 0)` comes back as atom 1. -/
theorem C42_root_fails : ∃ (atomId : Nat → Nat) (atomOf signalNamed : Nat → Option Nat)
    (e e' : Expr Nat) (t u : Egg),
    (∀ a, atomOf (atomId a) = some a) ∧ toEgg atomId e = some t ∧ EqG allRules.rule t t u ∧
      importEgg atomOf signalNamed (print u) = some e' ∧ ¬ Equiv e e' := by
  refine ⟨id, some, fun n => if n = 0 then some 1 else none, .fut 0 0 (.atom 0), .atom 1, _, .var 0,
    fun _ => rfl, rfl, ?_, rfl, ?_⟩
  · exact .rule .root (.inr (.inr (.inr (.inr ⟨rfl, .future_zero (.var 0)⟩))))
  · intro h
    have := (h (fun _ a => a = 0) 0).1
    simp only [sat] at this
    exact absurd (this ⟨0, by omega, by omega, trivial⟩) (by decide)

/-- With no signal of that name the import fails: a formula that is one atom is lost. -/
theorem C42_root_rejected : ∃ (e : Expr Nat) (t : Egg), toEgg id e = some t ∧
    importEgg (some : Nat → Option Nat) (fun _ => none) (print t) = none :=
  ⟨.atom 0, .var 0, rfl, rfl⟩

example : toEgg id (.untl 1 4 (.and [.atom 0, .atom 1, .neg (.atom 2)]) (.rel 0 3 (.const true) (.atom 0))) =
    some (.until 1 4 (.and3 (.var 0) (.var 1) (.not (.var 2))) (.release 0 3 (.bool true) (.var 0))) ∧
    importEgg (some : Nat → Option Nat) (fun _ => none) (print (.until 1 4 (.and3 (.var 0) (.var 1) (.not (.var 2)))
      (.release 0 3 (.bool true) (.var 0)))) =
    some (.untl 1 4 (.and [.atom 0, .atom 1, .neg (.atom 2)]) (.rel 0 3 (.const true) (.atom 0))) :=
  ⟨rfl, rfl⟩

/-! ### C57: ILP extraction -/

/-- C57.  Take any e-graph whose root class represents only terms that saturation equates with
the exported formula, and any solution of the solver's constraints.  Building the formula from
the active nodes ends; the result is represented by the root class, is equivalent to the original
formula, has proper intervals, and has no `->`, `G` or `F` unless these are allowed. -/
theorem C57_extraction (atomId : α → Nat) (atomOf : Nat → Option α)
    (hm : ∀ a, atomOf (atomId a) = some a) (o : EggOptions)
    (e : Expr α) (hd : Nowhere isDisordered e) (orig : Egg) (he : toEgg atomId e = some orig)
    (G : EGraph) (hG : ∀ t, G.Rep G.root t → EqG o.rule orig orig t) (ha : G.Arities)
    (extended : Bool) (s : Sol) (hs : G.Feasible extended s) :
    ∃ (t : Egg) (e' : Expr α) (N : Nat), (∀ fuel, N ≤ fuel → G.build s fuel G.root = some t) ∧
      G.Rep G.root t ∧ replaceAtoms atomOf (ofEgg t) = some e' ∧
      (∀ (π : Trace α) (i : Nat), sat π e i ↔ sat π e' i) ∧ Nowhere isDisordered e' ∧
      (extended = false → Nowhere isExtended e') := by
  obtain ⟨t, h1, h2, h3⟩ := EGraph.build_ok hs ha (s.order G.root + 1) G.root (by omega) hs.root
  obtain ⟨e', h4, h5, h6⟩ := extracted_equiv hm hd he (hG t h2)
  exact ⟨t, e', _, h1, h2, h4, h5, h6, fun hx => (import_shape t e' h4).2 (h3 hx)⟩

/-- A cyclic e-graph: saturating `F[0,0] a0` puts `F[0,0]` of the class into the class of `a0`. -/
def loopGraph : EGraph where
  nodes := fun c => if c = 0 then [⟨.future 0 0, [0]⟩, ⟨.var 0, []⟩] else []
  root := 0

/-- The solution that picks `a0`. -/
def loopSol : Sol := ⟨fun c => if c = 0 then 1 else 0, fun c k => if c = 0 ∧ k = 1 then 1 else 0,
  fun c => if c = 0 then 1 else 0⟩

theorem loopGraph_rep {c : Nat} {t : Egg} (h : loopGraph.Rep c t) :
    EqG allRules.rule (.future 0 0 (.var 0)) (.future 0 0 (.var 0)) t := by
  induction h with
  | @node c n ts t hn hl hk ht ih =>
      have hroot := EqG.root (R := allRules.rule) (root := .future 0 0 (.var 0))
      have hvar : EqG allRules.rule (.future 0 0 (.var 0)) (.future 0 0 (.var 0)) (.var 0) :=
        .rule hroot (.inr (.inr (.inr (.inr ⟨rfl, .future_zero (.var 0)⟩))))
      by_cases hc : c = 0
      · simp only [loopGraph, hc, if_true, List.mem_cons, List.not_mem_nil, or_false] at hn
        rcases hn with rfl | rfl
        · match ts, hl with
          | [u], _ =>
              cases ht
              have := ih 0 0 u rfl rfl
              exact .congr hroot rfl rfl (by
                rintro (_ | k) c d p q <;> simp only [Egg.children, List.getElem?_cons_zero,
                  List.getElem?_cons_succ, List.getElem?_nil, Option.some.injEq, reduceCtorEq] at p q
                subst p; subst q
                exact .trans (.symm hvar) this)
        · match ts, hl with
          | [], _ =>
              cases ht
              exact hvar
      · simp [loopGraph, hc] at hn

theorem loopGraph_feasible : loopGraph.Feasible false loopSol where
  node_binary c k := by simp only [loopSol]; split <;> omega
  cls_binary c := by simp only [loopSol]; split <;> omega
  root := rfl
  ext _ c k n hn hx := by
    by_cases hc : c = 0
    · subst hc
      match k, hn with
      | 0, _ => rfl
      | 1, hn =>
          simp only [loopGraph, if_true, List.getElem?_cons_succ, List.getElem?_cons_zero,
            Option.some.injEq] at hn
          subst hn; simp [EOp.extended] at hx
      | k + 2, hn => simp [loopGraph] at hn
    · simp [loopGraph, hc] at hn
  children c k n hn := by
    by_cases hc : c = 0
    · subst hc
      match k, hn with
      | 0, _ => simp [loopSol]
      | 1, hn =>
          simp only [loopGraph, if_true, List.getElem?_cons_succ, List.getElem?_cons_zero,
            Option.some.injEq] at hn
          subst hn; rfl
      | k + 2, hn => simp [loopGraph] at hn
    · simp [loopGraph, hc] at hn
  sum c := by
    by_cases hc : c = 0
    · subst hc; rfl
    · simp [loopGraph, loopSol, hc]
  order c k n hn d hd := by
    by_cases hc : c = 0
    · subst hc
      match k, hn with
      | 0, _ => simp [loopSol]
      | 1, hn =>
          simp only [loopGraph, if_true, List.getElem?_cons_succ, List.getElem?_cons_zero,
            Option.some.injEq] at hn
          subst hn; simp at hd
      | k + 2, hn => simp [loopGraph] at hn
    · simp [loopGraph, hc] at hn

theorem loopGraph_arities : loopGraph.Arities := by
  intro c n hn
  by_cases hc : c = 0
  · simp only [loopGraph, hc, if_true, List.mem_cons, List.not_mem_nil, or_false] at hn
    rcases hn with rfl | rfl <;> rfl
  · simp [loopGraph, hc] at hn

/-- The hypotheses of `C57_extraction` hold of it, and the result is `a0`. -/
example : loopGraph.build loopSol 2 0 = some (.var 0) ∧
    ∃ (t : Egg) (e' : Expr Nat) (N : Nat),
      (∀ fuel, N ≤ fuel → loopGraph.build loopSol fuel loopGraph.root = some t) ∧
      loopGraph.Rep loopGraph.root t ∧ replaceAtoms some (ofEgg t) = some e' ∧
      (∀ (π : Trace Nat) (i : Nat), sat π (.fut 0 0 (.atom 0)) i ↔ sat π e' i) ∧
      Nowhere isDisordered e' ∧ (false = false → Nowhere isExtended e') :=
  ⟨by decide +kernel, C57_extraction id some (fun _ => rfl) allRules _
    (by rw [nw_iff_children]
        simp [isDisordered, Expr.children, nw_iff_children (e := Expr.atom 0)]) _ rfl
    loopGraph (fun _ => loopGraph_rep) loopGraph_arities false loopSol loopGraph_feasible⟩

/-! ### C58: queues after equality saturation -/

/-- `f0: a0 && (a1 U[0,10] a2)` and `f1: !a0`, over three atomics 6, 7, 8. -/
def eqsatProg : PGraph where
  heap :=
    { lab := fun | 0 => .specSet | 1 => .formula 0 | 2 => .formula 1 | 3 => .op .and false
                 | 4 => .temp .U 0 10 | 5 => .op .neg false | 6 | 7 | 8 => .atomic
                 | 9 => .signal true 0 | 10 => .signal true 1 | 11 => .signal true 2 | _ => .specSet
      kids := fun | 0 => [1, 2] | 1 => [3] | 2 => [5] | 3 => [6, 4] | 4 => [7, 8] | 5 => [6]
                  | 6 => [9] | 7 => [10] | 8 => [11] | _ => []
      pars := fun | 1 => [0] | 2 => [0] | 3 => [1] | 4 => [3] | 5 => [2] | 6 => [3, 5] | 7 => [4]
                  | 8 => [4] | 9 => [6] | 10 => [7] | 11 => [8] | _ => [] }
  bpd := fun _ => 0
  wpd := fun | 1 => 10 | 3 => 10 | 4 => 10 | _ => 0
  next := 13

/-- One formula, `(a0 && (a1 U[0,10] a2)) || !a0`. -/
def eqsatProg1 : PGraph where
  heap :=
    { lab := fun | 0 => .specSet | 1 => .formula 0 | 2 => .op .or false | 3 => .op .and false
                 | 4 => .temp .U 0 10 | 5 => .op .neg false | 6 | 7 | 8 => .atomic
                 | 9 => .signal true 0 | 10 => .signal true 1 | 11 => .signal true 2 | _ => .specSet
      kids := fun | 0 => [1] | 1 => [2] | 2 => [3, 5] | 3 => [6, 4] | 4 => [7, 8] | 5 => [6]
                  | 6 => [9] | 7 => [10] | 8 => [11] | _ => []
      pars := fun | 1 => [0] | 2 => [1] | 3 => [2] | 4 => [3] | 5 => [2] | 6 => [3, 5] | 7 => [4]
                  | 8 => [4] | 9 => [6] | 10 => [7] | 11 => [8] | _ => [] }
  bpd := fun _ => 0
  wpd := fun | 1 => 10 | 2 => 10 | 3 => 10 | 4 => 10 | _ => 0
  next := 13

/-- The program of a graph, with specification sets 0 and 12 and atomics 6, 7, 8. -/
def eqsatB (g : PGraph) : BProg where
  heap := g.heap
  bpd := g.bpd
  wpd := g.wpd
  ft := 0
  pt := 12
  bz := true
  atomicId := fun x => if x = 6 ∨ x = 7 ∨ x = 8 then some (x - 6) else none

/-- The two formulas of `eqsatProg`, as the engine prints them back unchanged. -/
def eqsatT1 : Egg := .and2 (.var 0) (.until 0 10 (.var 1) (.var 2))
def eqsatT2 : Egg := .not (.var 0)

/-- `eqsatProg` after both formulas have been through the engine and been re-imported. -/
def eqsatOut : Option PGraph :=
  (PGraph.greedyReplace 100 (6 + ·) eqsatT1 3 eqsatProg).bind
    (PGraph.greedyReplace 100 (6 + ·) eqsatT2 5)

theorem eqsatOut_some : eqsatOut.isSome := by decide +kernel
theorem eqsatProg_some : ((eqsatB eqsatProg).computeScq 100 0).isSome := by decide +kernel
theorem eqsatOut_scq : ((eqsatB (eqsatOut.get eqsatOut_some)).computeScq 100 0).isSome := by
  decide +kernel

/-- C58 fails with greedy extraction when two formulas share an atomic: importing the second
formula makes the atomic forget the operators of the first.  Here both formulas come back
unchanged.  Before, the queue of `a0` has the eleven slots it needs beside `a1 U[0,10] a2`;
after, `a0` and an until with worst-case delay 10 are still operands of one `&&` of the program,
but the queue of `a0` has one slot. -/
theorem C58_greedy_fails : ∃ g s s' p x c,
    eqsatOut = some g ∧
    (eqsatB eqsatProg).computeScq 100 0 = some s ∧ s.scq 6 = some (0, 11) ∧
    (eqsatB g).computeScq 100 0 = some s' ∧ Heap.Reachable g.heap (eqsatB g).specs p ∧
    x ∈ g.heap.kids p ∧ c ∈ g.heap.kids p ∧ c ≠ x ∧
    s'.scq x = some (0, 1) ∧ g.wpd c - g.bpd x + 1 = 11 := by
  refine ⟨eqsatOut.get eqsatOut_some, ((eqsatB eqsatProg).computeScq 100 0).get eqsatProg_some,
    ((eqsatB (eqsatOut.get eqsatOut_some)).computeScq 100 0).get eqsatOut_scq, 17, 6, 16, by simp, by simp,
    by decide +kernel, by simp, ?_, by decide +kernel, by decide +kernel, by decide,
    by decide +kernel, by decide +kernel⟩
  exact .kid (p := 1) (.root (by decide +kernel)) (by decide +kernel)

/-- `eqsatProg1` after its formula has been rebuilt by the ILP extraction. -/
def eqsatOut1 : PGraph :=
  PGraph.ilpReplace (6 + ·) (.or2 (.and2 (.var 0) (.until 0 10 (.var 1) (.var 2))) (.not (.var 0))) 2
    eqsatProg1

theorem eqsatProg1_some : ((eqsatB eqsatProg1).computeScq 100 0).isSome := by decide +kernel
theorem eqsatOut1_some : ((eqsatB eqsatOut1).computeScq 100 0).isSome := by decide +kernel

/-- C58 fails with ILP extraction within a single formula: each occurrence of an atom clears the
parents that earlier occurrences recorded.  `(a0 && (a1 U[0,10] a2)) || !a0` is rebuilt as it
was, but the queue of `a0` shrinks from eleven slots to one. -/
theorem C58_ilp_fails : ∃ s s' p x c,
    (eqsatB eqsatProg1).computeScq 100 0 = some s ∧ s.scq 6 = some (0, 11) ∧
    (eqsatB eqsatOut1).computeScq 100 0 = some s' ∧
    Heap.Reachable eqsatOut1.heap (eqsatB eqsatOut1).specs p ∧
    x ∈ eqsatOut1.heap.kids p ∧ c ∈ eqsatOut1.heap.kids p ∧ c ≠ x ∧
    s'.scq x = some (0, 1) ∧ eqsatOut1.wpd c - eqsatOut1.bpd x + 1 = 11 := by
  refine ⟨((eqsatB eqsatProg1).computeScq 100 0).get eqsatProg1_some,
    ((eqsatB eqsatOut1).computeScq 100 0).get eqsatOut1_some, 14, 6, 13, by simp, by decide +kernel, by simp, ?_, by decide +kernel, by decide +kernel,
    by decide, by decide +kernel, by decide +kernel⟩
  exact .kid (p := 16) (.kid (p := 1) (.root (by decide +kernel)) (by decide +kernel))
    (by decide +kernel)

/-- C58 for greedy extraction, limited to the operators of the formula imported last: once the
formula is replaced, every operand of each of its operators has a queue with enough slots for the
delay to the operands next to it.  Missing (and false, see `C58_greedy_fails`): the operators of
formulas imported earlier. -/
theorem C58_greedy_partial (fuel : Nat) (atomNode : Nat → Nat) (t : Egg) (old : Nat) (g g' : PGraph)
    (hg : g.Ok) (hold : old < g.next) (h : PGraph.greedyReplace fuel atomNode t old g = some g')
    (P : BProg) (hP : P.heap = g'.heap) (ha : P.heap.Acyclic) (k : Int) (hk : 0 ≤ k) :
    ∃ s N, (∀ fuel, N ≤ fuel → P.computeScq fuel k = some s) ∧
      ∀ x, NeedsQueue P x → (P.heap.lab x).isBoolConst = false →
        ∃ lo hi, s.scq x = some (lo, hi) ∧ 1 ≤ hi - lo ∧
          ((P.heap.lab x).isFormula = false → ∀ p c, g.next ≤ p → p < g'.next →
            x ∈ P.heap.kids p → c ∈ P.heap.kids p → c ≠ x →
            P.wpd c - P.bpd x + 1 ≤ hi - lo) := by
  obtain ⟨s, N, h1, h2⟩ := C19_known P ha k hk
  refine ⟨s, N, h1, fun x hx hb => ?_⟩
  obtain ⟨lo, hi, h3, h4, h5⟩ := h2 x hx hb
  refine ⟨lo, hi, h3, h4, fun hf p c hp hq hxp => h5 hf p c ?_ hxp⟩
  rw [hP] at hxp ⊢
  exact PGraph.greedy_linked fuel atomNode t old g g' hg hold h p hp hq x hxp

theorem eqsatProg_ok : eqsatProg.Ok where
  dom
    | 0 | 1 | 2 | 3 | 4 | 5 | 6 | 7 | 8 | 9 | 10 | 11 | 12 => fun h => absurd h (by decide)
    | _ + 13 => fun _ => rfl
  low := by
    intro p c hc
    match p, hc with
    | 0, hc | 1, hc | 2, hc | 3, hc | 4, hc | 5, hc | 6, hc | 7, hc | 8, hc =>
      simp only [eqsatProg, List.mem_cons, List.not_mem_nil, or_false] at hc ⊢
      omega
    | 9, hc | 10, hc | 11, hc | _ + 12, hc => simp [eqsatProg] at hc
  acyclic
    | 0 => ⟨_, 6, rfl⟩ | 1 => ⟨_, 5, rfl⟩ | 2 => ⟨_, 5, rfl⟩ | 3 => ⟨_, 4, rfl⟩ | 4 => ⟨_, 3, rfl⟩
    | 5 => ⟨_, 3, rfl⟩ | 6 => ⟨_, 2, rfl⟩ | 7 => ⟨_, 2, rfl⟩ | 8 => ⟨_, 2, rfl⟩ | 9 => ⟨_, 1, rfl⟩
    | 10 => ⟨_, 1, rfl⟩ | 11 => ⟨_, 1, rfl⟩ | _ + 12 => ⟨_, 1, rfl⟩
  leaf
    | 0 | 1 | 2 | 3 | 4 | 5 | 6 | 7 | 8 => fun _ _ h => by simp [eqsatProg] at h
    | 9 | 10 | 11 | _ + 12 => fun _ _ _ => rfl

theorem eqsatImport_some : (PGraph.greedyReplace 100 (6 + ·) eqsatT1 3 eqsatProg).isSome := by
  decide +kernel

/-- `eqsatProg` with its first formula imported. -/
def eqsatImport : PGraph := (PGraph.greedyReplace 100 (6 + ·) eqsatT1 3 eqsatProg).get eqsatImport_some

/-- The hypotheses are met by the import of the first formula of `eqsatProg`: the `&&` is node 17,
its operands are the atomic 6 and the until 16, and the atomic gets eleven slots. -/
example : PGraph.greedyReplace 100 (6 + ·) eqsatT1 3 eqsatProg = some eqsatImport ∧ eqsatProg.Ok ∧
    3 < eqsatProg.next ∧ eqsatProg.next ≤ 17 ∧ 17 < eqsatImport.next ∧
    eqsatImport.heap.kids 17 = [6, 16] ∧ (eqsatB eqsatImport).heap.Acyclic ∧
    ((eqsatB eqsatImport).computeScq 100 0).map (fun s => s.scq 6) = some (some (0, 11)) := by
  refine ⟨by simp [eqsatImport], eqsatProg_ok, by decide, by decide, by decide +kernel,
    by decide +kernel, ?_, by decide +kernel⟩
  intro x
  match x with
  | 0 | 1 | 2 | 3 | 4 | 5 | 6 | 7 | 8 | 9 | 10 | 11 | 12 | 13 | 14 | 15 | 16 | 17 => exact ⟨_, 7, rfl⟩
  | _ + 18 => exact ⟨_, 1, rfl⟩

end R2U2
