import Verif.Lemmas.FrontEnd
import Verif.Props.Compile
/-
C65: from the text of a program to the verdicts of the monitor.
-/
namespace R2U2
open Heap Expr GraphPass

theorem isEmptyOp_odd {α : Type} {past : Bool} {e : Expr α} (h : isEmptyOp e) : odd past e := by
  cases e <;> simp_all [isEmptyOp, odd]

theorem forall2_with {A B : Type} {R : A → B → Prop} {P : B → Prop} {as : List A} {bs : List B} (h : List.Forall₂ R as bs) (hb : ∀ b ∈ bs, P b) :
    List.Forall₂ (fun a b => R a b ∧ P b) as bs := by
  induction h with
  | nil => exact .nil
  | cons h _ ih => exact .cons ⟨h, hb _ (by simp)⟩ (ih fun b m => hb b (by simp [m]))

/-- What the text of a program gives the back end: a program as C64 and C67 ask for, with distinct numbers, whose formulas mean what the
specifications of the text do. -/
theorem text_program {F : Type} {I : Interp F} {flt : String → String} {mission : Int} {text : List Char} {secs : List C2po.Section}
    (hparse : C2po.parse flt mission text = some secs)
    {Γ₀ Γ : TcCtx} {fuel₀ : Nat} {secs' : List Sec} {fsrc psrc : List (String × Nat × Src)}
    (hfront : frontEnd Γ₀ fuel₀ secs = some ((secs', Γ), fsrc, psrc))
    (hI : I.Fits Γ.scalarDecls) (hD : Γ.scalarDecls.Apart)
    {N : Scope} (hN : N.Declares (fun s d => nameOf (secs', Γ) s = some d) Γ.scalarDecls)
    (hr : ∀ past, ∀ s ∈ specsOf past secs', ∀ e ∈ s.exprs, e.Proper Γ.scalarDecls N (nameOf (secs', Γ)))
    {S : List String} {fs ps : List (SpecOf {s : String // s ∈ S})}
    (hf : Src.toSpecs S fsrc = some fs) (hp : Src.toSpecs S psrc = some ps)
    {o : CliOpts} {h : Heap Lab} {n ft pt : Nat} (hm : InMemory h n ft pt fsrc psrc)
    (hfs : ∀ s ∈ fs, Fit o false s.2.2) (hps : ∀ s ∈ ps, Fit o true s.2.2) :
    Program (signalAtoms Subtype.val) h n ft pt fs ps ∧ ((fs ++ ps).map (·.2.1)).Nodup ∧
    ∀ (ρ : Env F) (π : Trace {s : String // s ∈ S}), ρ.Fits Γ.scalarDecls Scope.empty → ρ.Respects (fun s d => nameOf (secs', Γ) s = some d) I →
      (∀ (s : {s : String // s ∈ S}) i, ∃ b, ρ.sig s.1 i = .bool b ∧ (b = true ↔ π i s)) →
      List.Forall₂ (fun (v : Nat × (Nat → Bool)) f => v.1 = f.2.1 ∧ ∀ i, (v.2 i = true ↔ sat π f.2.2 i)) ((specsOf true secs').flatMap (Spec.verdicts I ρ)) fs ∧
      List.Forall₂ (fun (v : Nat × (Nat → Bool)) f => v.1 = f.2.1 ∧ ∀ i, (v.2 i = true ↔ sat π f.2.2 i)) ((specsOf false secs').flatMap (Spec.verdicts I ρ)) ps := by
  simp only [frontEnd, Option.bind_eq_some_iff, Option.map_eq_some_iff, Prod.exists, Prod.mk.injEq] at hfront
  obtain ⟨_, _, k1, _, k2, _, k3, ⟨q1, q2⟩, q3, q4⟩ := hfront
  rw [q1, q2] at k1
  rw [q1, q2, q3] at k2
  rw [q1, q2, q4] at k3
  obtain ⟨f1, f2, f3, f4⟩ := set_verdicts' hI hD rfl hN rfl rfl (hr true) k2 hf
  obtain ⟨p1, p2, p3, p4⟩ := set_verdicts' hI hD rfl hN rfl rfl (hr false) k3 hp
  have trees : ∀ {src : List (String × Nat × Src)} {qs : List (SpecOf {s : String // s ∈ S})},
      List.Forall₂ (fun (s : String × Nat × Src) f => s.1 = f.1 ∧ s.2.1 = f.2.1 ∧ C2po.toAst s.2.2 = f.2.2.toAst (signalAtoms Subtype.val)) src qs →
      (src.map fun s => Tree.node (Lab.formula s.1 s.2.1) [C2po.toAst s.2.2]) =
        (qs.map fun s => Tree.node (Lab.formula s.1 s.2.1) [s.2.2.toAst (signalAtoms Subtype.val)]) ∧ src.map (·.1) = qs.map (·.1) := by
    intro src qs hq
    induction hq with
    | nil => exact ⟨rfl, rfl⟩
    | cons a _ ih => exact ⟨by simp only [List.map_cons, ih.1, a.1, a.2.1, a.2.2], by simp only [List.map_cons, ih.2, a.1]⟩
  have hlab : (fsrc ++ psrc).map (·.1) = (fs ++ ps).map (·.1) := by rw [List.map_append, List.map_append, (trees f3).2, (trees p3).2]
  have hprog : Program (signalAtoms Subtype.val) h n ft pt fs ps := {
    below := hm.below
    acyclic := hm.acyclic
    parents := hm.parents
    ft_lt := hm.ft_lt
    pt_lt := hm.pt_lt
    ne := hm.ne
    ft_top := hm.ft_top
    pt_top := hm.pt_top
    future := by rw [Holds, ← (trees f3).1]; exact hm.future
    past := by rw [Holds, ← (trees p3).1]; exact hm.past
    idents := by
      intro s hs
      have : s.1 ∈ (fsrc ++ psrc).map (·.1) := by rw [hlab]; exact List.mem_map_of_mem hs
      obtain ⟨s', h1, h2⟩ := List.mem_map.1 this
      rw [← h2]
      exact hm.idents s' h1
    labels := by rw [← hlab]; exact hm.labels
    operands := by
      intro s hs
      rcases List.mem_append.1 hs with hs | hs
      · exact Nowhere.mono (fun _ => isEmptyOp_odd) (hfs s hs).plain
      · exact Nowhere.mono (fun _ => isEmptyOp_odd) (hps s hs).plain }
  have hnum : ((fs ++ ps).map (·.2.1)).Nodup := by
    rw [List.map_append, f2, p2, f1, p1, ← List.flatMap_append]
    refine (specsOf_numbers secs').nodup_iff.2 ?_
    rw [checkProgram_numbers k1, List.flatMap_map]
    simp only [toSec_numbers]
    exact C2po.C61_distinct flt mission text secs hparse
  exact ⟨hprog, hnum, fun ρ π h1 h2 h3 => ⟨f4 ρ π h1 h2 h3, p4 ρ π h1 h2 h3⟩⟩

/-- C65.  The text of a program is parsed, type-checked and desugared; the formulas, in memory, go through the passes the
options choose and are assembled.  The monitor built with the bounds written with the binary loads it, and at every time step of every
run, for every specification of the text (three formulas for a contract) what it reports under the specification's number is what the
specification as written means on the inputs, the input at index `sid s` being the signal `s`.  Future-time verdicts come within the number
of steps the desugared formula looks ahead, past-time ones at once.

Definitions are expanded on trees here, which is what expansion on the graph amounts to (`C30_trees_partial`); `ρ` gives every name
the value of what it stands for.

Partial: programs without comparisons of arrays (see C29), the expressions as in C56, all signals used are Boolean; and what C64 leaves
out.  How the trees become the graph `h` is not modelled: `h` is any graph that holds the formulas. -/
theorem C65_text_to_verdicts_partial {F : Type} {I : Interp F} {flt : String → String} {mission : Int} {text : List Char} {secs : List C2po.Section}
    (hparse : C2po.parse flt mission text = some secs)
    {Γ₀ Γ : TcCtx} {fuel₀ : Nat} {secs' : List Sec} {fsrc psrc : List (String × Nat × Src)}
    (hfront : frontEnd Γ₀ fuel₀ secs = some ((secs', Γ), fsrc, psrc))
    (hI : I.Fits Γ.scalarDecls) (hD : Γ.scalarDecls.Apart)
    {N : Scope} (hN : N.Declares (fun s d => nameOf (secs', Γ) s = some d) Γ.scalarDecls)
    (hr : ∀ past, ∀ s ∈ specsOf past secs', ∀ e ∈ s.exprs, e.Proper Γ.scalarDecls N (nameOf (secs', Γ)))
    {S : List String} (hS : ∀ s ∈ S, IsIdent s) {fs ps : List (SpecOf {s : String // s ∈ S})}
    (hf : Src.toSpecs S fsrc = some fs) (hp : Src.toSpecs S psrc = some ps)
    {o : CliOpts} {b : BackEnd} {h : Heap Lab} {n ft pt fuel : Nat} (hm : InMemory h n ft pt fsrc psrc) (hx : Apart h ft pt)
    (hfs : ∀ s ∈ fs, Fit o false s.2.2) (hps : ∀ s ∈ ps, Fit o true s.2.2)
    (hkf : ∀ s ∈ fs, span false s.2.2 ≤ b.slack) (hkp : ∀ s ∈ ps, span true s.2.2 ≤ b.slack)
    (hsid : ∀ s ∈ S, 0 ≤ b.sid s) {bytes : List Nat} {bounds : Bounds}
    (hc : compileBinary o b fuel ft pt (h, n) = some (bytes, bounds)) (hat : ∀ s ∈ S, b.sid s < bounds.maxAtomics) :
    ∃ es stop F0 bound, (∀ fuel, bound ≤ fuel → loadBinary fuel bytes = some (es, stop)) ∧
      Flat.start bounds.limits (LoadEv.configs es) (LoadEv.tlTable es) = some F0 ∧
      ∀ fuel, bound ≤ fuel → ∀ (inp : Nat → Nat → Bool) (T : Nat), T + b.slack < 2 ^ 31 →
        ∃ M, F0.run (LoadEv.tlTable es) fuel inp T = some M ∧
          ∀ ρ : Env F, ρ.Fits Γ.scalarDecls Scope.empty → ρ.Respects (fun s d => nameOf (secs', Γ) s = some d) I →
            (∀ s ∈ S, ∀ t, ρ.sig s t = .bool (inp t (b.sid s).toNat)) →
            List.Forall₂ (fun v f => v.1 = f.2.1 ∧ Answers (fun t => v.2 t = true) (M.reports v.1) ∧
                ∀ t, t + span false f.2.2 < T → ∃ u ∈ M.reports v.1, t ≤ u.time)
              ((specsOf true secs').flatMap (Spec.verdicts I ρ)) fs ∧
            List.Forall₂ (fun v f => v.1 = f.2.1 ∧ Answers (fun t => v.2 t = true) (M.reports v.1) ∧
                ∀ t, t < T → ∃ u ∈ M.reports v.1, t ≤ u.time)
              ((specsOf false secs').flatMap (Spec.verdicts I ρ)) ps := by
  obtain ⟨hprog, hnum, hv⟩ := text_program hparse hfront hI hD hN hr hf hp hm hfs hps
  obtain ⟨es, stop, F0, bound, c1, c2, c3⟩ := C64_compile_and_run_partial (nm := Subtype.val) Subtype.val_injective (fun a => hS a.1 a.2) hprog hx hnum
    hfs hps hkf hkp (fun a => hsid a.1 a.2) hc (fun a => hat a.1 a.2)
  refine ⟨es, stop, F0, bound, c1, c2, fun fuel hfuel inp T hT => ?_⟩
  obtain ⟨M, d1, d2, d3⟩ := c3 fuel hfuel inp T hT
  refine ⟨M, d1, fun ρ hρ hres hsig => ?_⟩
  have hπ : ∀ (s : {s : String // s ∈ S}) (i : Nat), ∃ c, ρ.sig s.1 i = .bool c ∧ (c = true ↔ inp i (b.sid s.1).toNat = true) :=
    fun s i => ⟨_, hsig s.1 s.2 i, Iff.rfl⟩
  obtain ⟨f4, p4⟩ := hv ρ (fun t a => inp t (b.sid a.1).toNat = true) hρ hres hπ
  refine ⟨(forall2_with f4 d2).imp ?_, (forall2_with p4 d3).imp ?_⟩
  all_goals
    rintro v f ⟨⟨a1, a2⟩, a3, a4⟩
    rw [a1]
    refine ⟨rfl, ?_, a4⟩
    rw [funext fun t => propext (a2 t)]
    exact a3

/-- C30 on trees: expansion on the graph puts, where an expression was, the expression with every name replaced by the
expansion of what it stands for. -/
theorem C30_trees_partial {P : XProg} {D : Decls} {Γ : Scope} (hP : P.Parsed) (hc : P.NotCircular) (ha : P.NoAlias) (hD : P.Checked D Γ)
    {δ : String → Option Src} (hδ : ∀ s d, δ s = some d ↔ P.Means s d) :
    ∃ h N, (∀ fuel, N ≤ fuel → P.expand fuel = some h) ∧
      ∀ (p i c n : Nat) (e e' : Src), P.heap.Reachable [P.ft, P.pt] p → (P.heap.kids p)[i]? = some c → P.heap.Reads c e →
        e.expandTree δ n = some e' → ∃ c', (h.kids p)[i]? = some c' ∧ h.Reads c' e' := by
  obtain ⟨h, N, h1, _, _⟩ := XProg.expand_total hP hc ha hD
  refine ⟨h, N, h1, ?_⟩
  intro p i c n e e' hp hi he hx
  have hl : P.Listed p := XProg.reachable_mono (by simp) hp
  obtain ⟨c', e2, h4, h5, h6⟩ := XProg.expand_reads hP hc ha hD (h1 N (Nat.le_refl _)) hl hi he
  have h7 : Src.Expands P.Means e e' := by
    have hr : (fun s d => δ s = some d) = P.Means := funext fun s => funext fun d => propext (hδ s d)
    rw [← hr]; exact expandTree_expands n e hx
  have hu : e' = e2 := Src.Expands.unique (δ := P.Means) (fun _ _ _ a b => XProg.means_unique a b) h7 h6
  subst hu
  exact ⟨c', h4, h5⟩

/-! ### A program, from its text to its verdicts -/

/-- An aggregation, a definition, a contract, and a past-time specification. -/
def feText : List Char :=
  "INPUT x, y: bool; DEFINE d := x && y; FTSPEC a: foreach(s: {x, y})(G[0,2] s); c: d => F[1,3] y; PTSPEC p: O[0,2] y;".toList

namespace FE

def sig (s : String) : Src := .node (.sig s) .bool []
def var (s : String) : Src := .node (.var s) .bool []
def G (e : Src) : Src := .node (.tmp .G 0 2) .bool [e]
def both (e e' : Src) : Src := .node (.op .and) .bool [e, e']
def specA : Src := .node (.agg .each "s") .bool [.node .array (.arr .bool 2) [sig "x", sig "y"], G (var "s")]
def defD : Src := both (sig "x") (sig "y")
def Fy : Src := .node (.tmp .F 1 3) .bool [sig "y"]
def Oy : Src := .node (.tmp .O 0 2) .bool [sig "y"]

/-- The program after type checking. -/
def secs : List Sec := [.input [(["x", "y"], .bool)], .define [("d", defD)],
  .spec true [.formula "a" 0 specA, .contract "c" 1 2 3 (var "d") Fy], .spec false [.formula "p" 4 Oy]]
def ctx : TcCtx := { signals := [("y", .bool), ("x", .bool)], vars := [("s", .bool)], definitions := [("d", defD)], specs := ["p", "a"], contracts := ["c"] }

/-- The formulas. -/
def fsrc : List (String × Nat × Src) := [("a", 0, both (G (sig "x")) (G (sig "y"))), ("__c_active__", 1, defD),
  ("__c_valid__", 2, .node (.op .imp) .bool [defD, Fy]), ("__c_verified__", 3, both defD Fy)]
def psrc : List (String × Nat × Src) := [("p", 4, Oy)]

open C2po in
/-- What the parser makes of the text. -/
def parsed : List C2po.Section := [.input [(["x", "y"], .bool)],
  .define [("d", mkOp .and [.node (.sig "x") .none [], .node (.sig "y") .none []])],
  .spec true [.formula "a" 0 (mkAgg .each "s" [mkArray [.node (.sig "x") .none [], .node (.sig "y") .none []], mkTmp .G 0 2 [.node (.var "s") .none []]]),
    .contract "c" 1 2 3 (.node (.var "d") .none []) (mkTmp .F 1 3 [.node (.sig "y") .none []])],
  .spec false [.formula "p" 4 (mkTmp .O 0 2 [.node (.sig "y") .none []])]]

set_option maxRecDepth 100000 in
theorem parse_eq : C2po.parse id (-1) feText = some parsed := by rfl
theorem check_eq : Tc.checkProgram {} (parsed.map (·.toSec)) = some (secs, ctx) := by rfl
theorem future_eq : desugarSet (secs, ctx) 30 (specsOf true secs) = some fsrc := by rfl
theorem past_eq : desugarSet (secs, ctx) 30 (specsOf false secs) = some psrc := by rfl
theorem front : frontEnd {} 30 parsed = some ((secs, ctx), fsrc, psrc) := by
  rw [frontEnd, check_eq, Option.bind_some, future_eq, Option.bind_some, past_eq]; rfl

/-- The defined names. -/
def names : Scope := fun s => if s = "d" ∨ s = "a" ∨ s = "p" then some .bool else none

theorem nameOf_eq (s : String) : nameOf (secs, ctx) s =
    if s = "d" then some defD else if s = "p" then some Oy else if s = "a" then some specA else none := by
  unfold nameOf
  simp only [ctx, List.lookup, formulaTable, secs, List.flatMap_cons, List.flatMap_nil, List.append_nil, List.nil_append, List.reverse_cons, List.reverse_nil, List.cons_append]
  by_cases h1 : s = "d"
  · subst h1; rfl
  · by_cases h2 : s = "p"
    · subst h2; rfl
    · by_cases h3 : s = "a"
      · subst h3; rfl
      · have e1 : (s == "d") = false := by simpa using h1
        have e2 : (s == "p") = false := by simpa using h2
        have e3 : (s == "a") = false := by simpa using h3
        simp [e1, e2, e3, h1, h2, h3]

theorem sort_x {Γ : Scope} : HasSort ctx.scalarDecls Γ (sig "x") .bool := .sig rfl rfl
theorem sort_y {Γ : Scope} : HasSort ctx.scalarDecls Γ (sig "y") .bool := .sig rfl rfl
theorem sort_D {Γ : Scope} : HasSort ctx.scalarDecls Γ defD .bool := by
  refine .op (ts := [.bool, .bool]) rfl ?_ rfl
  intro i c t hc ht
  rcases i with _ | _ | i <;> simp at hc ht
  · subst hc; subst ht; exact sort_x
  · subst hc; subst ht; exact sort_y
theorem sort_A {Γ : Scope} : HasSort ctx.scalarDecls Γ specA .bool := by
  refine .agg (t := .bool) (.array ?_) (.tmp ?_) (.inl rfl)
  · intro c hc
    simp only [List.mem_cons, List.not_mem_nil, or_false] at hc
    rcases hc with rfl | rfl
    · exact sort_x
    · exact sort_y
  · intro c hc
    simp only [List.mem_singleton] at hc
    subst hc
    exact .var rfl rfl
theorem sort_F {Γ : Scope} : HasSort ctx.scalarDecls Γ Fy .bool := .tmp fun c hc => by
  simp only [List.mem_singleton] at hc; subst hc; exact sort_y
theorem sort_O {Γ : Scope} : HasSort ctx.scalarDecls Γ Oy .bool := .tmp fun c hc => by
  simp only [List.mem_singleton] at hc; subst hc; exact sort_y

theorem declares : names.Declares (fun s d => nameOf (secs, ctx) s = some d) ctx.scalarDecls where
  scope s := by
    simp only [names, nameOf_eq]
    split_ifs <;> simp_all
  sorts s e t he ht := by
    simp only [nameOf_eq] at he
    simp only [names] at ht
    split_ifs at ht he <;> simp at ht he <;> subst ht <;> subst he
    · exact sort_D
    · exact sort_O
    · exact sort_A
  fresh s e he := by
    simp only [nameOf_eq] at he
    split_ifs at he <;> simp at he <;> subst he <;>
      simp [Src.bound, Src.boundL, defD, Oy, specA, both, sig, G, var, names]
  enums s ty _ := by
    simp only [Src.enumVal]
    split <;> rfl

theorem proper {e e' : Src} (h1 : HasSort ctx.scalarDecls names e .bool) (h2 : e.bound = [] ∨ e.bound = ["s"]) (h3 : e.expandTree (nameOf (secs, ctx)) 10 = some e')
    (h4 : Src.Scoped e') (h5 : Src.PicksLiterals [] e') : e.Proper ctx.scalarDecls names (nameOf (secs, ctx)) where
  sort := h1
  fresh := by rcases h2 with h | h <;> rw [h] <;> simp [names]
  scopes n a ha := expandTree_unique h3 ha ▸ h4
  picks n a ha := expandTree_unique h3 ha ▸ h5

theorem proper_all : ∀ ft, ∀ s ∈ specsOf ft secs, ∀ e ∈ s.exprs, e.Proper ctx.scalarDecls names (nameOf (secs, ctx)) := by
  have pA : specA.Proper ctx.scalarDecls names (nameOf (secs, ctx)) := proper sort_A (.inr rfl) (e' := specA) rfl
    (by simp [Src.Scoped, Src.Every, Src.EveryL, specA, Src.kind, Src.kids, Src.bound, Src.boundL, sig, G, var])
    (by simp [Src.PicksLiterals, Src.Every, Src.EveryL, specA, Src.kind, sig, G, var])
  have pD : (var "d").Proper ctx.scalarDecls names (nameOf (secs, ctx)) := proper (.var rfl rfl) (.inl rfl) (e' := defD) rfl
    (by simp [Src.Scoped, Src.Every, Src.EveryL, defD, both, Src.kind, Src.kids, sig])
    (by simp [Src.PicksLiterals, Src.Every, Src.EveryL, defD, both, Src.kind, sig])
  have pF : Fy.Proper ctx.scalarDecls names (nameOf (secs, ctx)) := proper sort_F (.inl rfl) (e' := Fy) rfl
    (by simp [Src.Scoped, Src.Every, Src.EveryL, Fy, Src.kind, Src.kids, sig])
    (by simp [Src.PicksLiterals, Src.Every, Src.EveryL, Fy, Src.kind, sig])
  have pO : Oy.Proper ctx.scalarDecls names (nameOf (secs, ctx)) := proper sort_O (.inl rfl) (e' := Oy) rfl
    (by simp [Src.Scoped, Src.Every, Src.EveryL, Oy, Src.kind, Src.kids, sig])
    (by simp [Src.PicksLiterals, Src.Every, Src.EveryL, Oy, Src.kind, sig])
  intro ft s hs e he
  cases ft
  · simp [specsOf, secs] at hs
    subst hs
    simp only [Spec.exprs, List.mem_singleton] at he
    subst he; exact pO
  · simp [specsOf, secs] at hs
    rcases hs with rfl | rfl
    · simp only [Spec.exprs, List.mem_singleton] at he
      subst he; exact pA
    · simp only [Spec.exprs, List.mem_cons, List.not_mem_nil, or_false] at he
      rcases he with rfl | rfl
      · exact pD
      · exact pF

/-- The formulas in memory; the definition and the guarantee are shared. -/
def labs : List Lab := [.specSet, .formula "a" 0, .op .and, .tmp .G 0 2, .name "x", .tmp .G 0 2, .name "y",
  .formula "__c_active__" 1, .op .and, .name "x", .name "y", .formula "__c_valid__" 2, .op .imp, .tmp .F 1 3, .name "y",
  .formula "__c_verified__" 3, .op .and, .specSet, .formula "p" 4, .tmp .O 0 2, .name "y"]
def kidss : List (List Nat) := [[1, 7, 11, 15], [2], [3, 5], [4], [], [6], [], [8], [9, 10], [], [], [12], [8, 13], [14], [], [16], [8, 13], [18], [19], [20], []]
def parss : List (List Nat) := [[], [0], [1], [2], [3], [2], [5], [0], [7, 12, 16], [8], [8], [0], [11], [12, 16], [13], [0], [15], [], [17], [18], [19]]
def heap : Heap Lab := ⟨fun x => labs.getD x .specSet, fun x => kidss.getD x [], fun x => parss.getD x []⟩

theorem kids_ge {x : Nat} (h : 21 ≤ x) : heap.kids x = [] := by
  show kidss.getD x [] = []
  rw [List.getD_eq_getElem?_getD, List.getElem?_eq_none (by simpa [kidss] using h)]; rfl

theorem kid_lt {p c : Nat} (hc : c ∈ heap.kids p) : p < 21 := by
  by_contra h
  rw [kids_ge (by omega)] at hc
  cases hc

theorem ident {s : String} {c : Char} {cs : List Char} (h : s.toList = c :: cs) (h1 : isIdentStart c = true) (h2 : ∀ d ∈ cs, isIdentChar d = true)
    (h3 : s.toList ≠ ['t', 'r', 'u', 'e']) (h4 : s.toList ≠ ['f', 'a', 'l', 's', 'e']) : IsIdent s := ⟨⟨c, cs, h, h1, h2⟩, h3, h4⟩

theorem inMemory : InMemory heap 21 0 17 fsrc psrc where
  below := by
    refine ⟨?_, fun p hp => kids_ge hp⟩
    intro p c hc
    have hp := kid_lt hc
    have : ∀ p < 21, ∀ c ∈ heap.kids p, c < 21 := by decide
    exact this p hp c hc
  acyclic := by
    intro x
    by_cases hx : x < 21
    · interval_cases x <;> exact ⟨_, 8, rfl⟩
    · exact ⟨.node (heap.lab x) [], 1, by simp only [Heap.unfold, kids_ge (not_lt.1 hx), List.map_nil]; rfl⟩
  parents := by
    intro p c hc
    have hp := kid_lt hc
    have : ∀ p < 21, ∀ c ∈ heap.kids p, p ∈ heap.pars c := by decide
    exact this p hp c hc
  ft_lt := by decide
  pt_lt := by decide
  ne := by decide
  ft_top := rfl
  pt_top := rfl
  future := ⟨8, rfl⟩
  past := ⟨8, rfl⟩
  idents := by
    intro s hs
    simp only [fsrc, psrc, List.cons_append, List.nil_append, List.mem_cons, List.not_mem_nil, or_false] at hs
    rcases hs with rfl | rfl | rfl | rfl | rfl <;> exact ident rfl (by decide) (by decide) (by decide) (by decide)
  labels := by decide

theorem apart : Apart heap 0 17 := by
  intro x h1 h2
  have a1 : x ≤ 16 := by
    clear h2
    induction h1 with
    | root h => simp at h; omega
    | @kid p c _ hc ih =>
      have : ∀ p ≤ 16, ∀ c ∈ heap.kids p, c ≤ 16 := by decide
      exact this p ih c hc
  have a2 : 17 ≤ x := by
    clear h1 a1
    induction h2 with
    | root h => simp at h; omega
    | @kid p c _ hc ih =>
      have := kid_lt hc
      have : ∀ p < 21, 17 ≤ p → ∀ c ∈ heap.kids p, 17 ≤ c := by decide
      exact this p (kid_lt hc) ih c hc
  omega

/-- The signals. -/
abbrev names' : List String := ["x", "y"]
abbrev At := {s : String // s ∈ names'}
def X : Expr At := Expr.atom ⟨"x", by simp⟩
def Y : Expr At := Expr.atom ⟨"y", by simp⟩
def fs : List (SpecOf At) := [("a", 0, .and [.glob 0 2 X, .glob 0 2 Y]), ("__c_active__", 1, .and [X, Y]),
  ("__c_valid__", 2, .imp (.and [X, Y]) (.fut 1 3 Y)), ("__c_verified__", 3, .and [.and [X, Y], .fut 1 3 Y])]
def ps : List (SpecOf At) := [("p", 4, .once 0 2 Y)]

theorem fs_eq : Src.toSpecs names' fsrc = some fs := by rfl
theorem ps_eq : Src.toSpecs names' psrc = some ps := by rfl

def back : BackEnd := ⟨fun _ => false, fun _ => 0, fun _ => 0, fun s => if s = "x" then 0 else 1, fun _ => 0, 2, 3, []⟩

theorem nowhere_f {p : Expr At → Prop} (hX : ¬ p X) (hY : ¬ p Y) (h1 : ¬ p (.glob 0 2 X)) (h2 : ¬ p (.glob 0 2 Y)) (h3 : ¬ p (.and [.glob 0 2 X, .glob 0 2 Y]))
    (h4 : ¬ p (.and [X, Y])) (h5 : ¬ p (.fut 1 3 Y)) (h6 : ¬ p (.imp (.and [X, Y]) (.fut 1 3 Y))) (h7 : ¬ p (.and [.and [X, Y], .fut 1 3 Y])) :
    ∀ s ∈ fs, Nowhere p s.2.2 := by
  have x : Nowhere p X := ⟨_, hX, by simp [X, children]⟩
  have y : Nowhere p Y := ⟨_, hY, by simp [Y, children]⟩
  have g : Nowhere p (.glob 0 2 X) := ⟨_, h1, by simp [children, x]⟩
  have g' : Nowhere p (.glob 0 2 Y) := ⟨_, h2, by simp [children, y]⟩
  have a : Nowhere p (.and [X, Y]) := ⟨_, h4, by simp [children, x, y]⟩
  have f : Nowhere p (.fut 1 3 Y) := ⟨_, h5, by simp [children, y]⟩
  intro s hs
  simp only [fs, List.mem_cons, List.not_mem_nil, or_false] at hs
  rcases hs with rfl | rfl | rfl | rfl
  · exact ⟨_, h3, by simp [children, g, g']⟩
  · exact a
  · exact ⟨_, h6, by simp [children, a, f]⟩
  · exact ⟨_, h7, by simp [children, a, f]⟩

theorem fit_f : ∀ s ∈ fs, Fit ⟨true, false, true⟩ false s.2.2 := by
  intro s hs
  refine ⟨nowhere_f ?_ ?_ ?_ ?_ ?_ ?_ ?_ ?_ ?_ s hs, ?_, fun _ => nowhere_f ?_ ?_ ?_ ?_ ?_ ?_ ?_ ?_ ?_ s hs⟩
  case refine_10 =>
    simp only [fs, List.mem_cons, List.not_mem_nil, or_false] at hs
    rcases hs with rfl | rfl | rfl | rfl <;> simp [isConst]
  all_goals simp [odd, isConst, rough, X, Y]

theorem fit_p : ∀ s ∈ ps, Fit ⟨true, false, true⟩ true s.2.2 := by
  intro s hs
  simp only [ps, List.mem_cons, List.not_mem_nil, or_false] at hs
  subst hs
  refine ⟨⟨_, ?_, ?_⟩, by simp [isConst], fun _ => ⟨_, ?_, ?_⟩⟩
  · simp [odd, isConst, Y]
  · simp only [children, List.mem_singleton]; rintro c rfl; exact ⟨_, by simp [odd, Y], by simp [children, Y]⟩
  · simp [rough]
  · simp only [children, List.mem_singleton]; rintro c rfl; exact ⟨_, by simp [rough, Y], by simp [children, Y]⟩

/-- No structures, no enumerations. -/
def interp : Interp Unit := { demoInterp with structs := [], enums := [] }

/-- The environment of a run: signals are inputs, names have the values of what they stand for. -/
def sigs (inp : Nat → Nat → Bool) : Env Unit := ⟨fun s t => .bool (inp t (back.sid s).toNat), fun _ _ => .err⟩
def env (inp : Nat → Nat → Bool) : Env Unit where
  sig := (sigs inp).sig
  var s t := match nameOf (secs, ctx) s with
    | some e => e.sem interp (sigs inp) t
    | none => .err

theorem env_respects (inp : Nat → Nat → Bool) : (env inp).Respects (fun s d => nameOf (secs, ctx) s = some d) interp := by
  intro s e he i
  have h1 : (env inp).var s i = e.sem interp (sigs inp) i := by simp only [env, he]
  rw [h1]
  rw [nameOf_eq] at he
  split_ifs at he <;> simp at he <;> subst he <;> rfl

theorem env_fits (inp : Nat → Nat → Bool) : (env inp).Fits ctx.scalarDecls Scope.empty where
  sig := by
    intro s t i h
    have : t = .bool := by
      simp only [TcCtx.scalarDecls, TcCtx.decls, ctx, List.lookup] at h
      split at h
      · simpa [Typ.sort] using h.symm
      · split at h
        · simpa [Typ.sort] using h.symm
        · cases h
    subst this
    exact .bool
  var := by simp [Scope.empty]

/-- All the hypotheses of C65 hold of this text, with rewriting and common subexpressions on; so the monitor reports, under
numbers 0 to 4, what the specifications of the text mean. -/
example : C2po.parse id (-1) feText = some parsed ∧ frontEnd {} 30 parsed = some ((secs, ctx), fsrc, psrc) ∧
    ∃ bytes bounds, compileBinary ⟨true, false, true⟩ back 100 0 17 (heap, 21) = some (bytes, bounds) ∧
      ∃ es stop F0 bound, (∀ fuel, bound ≤ fuel → loadBinary fuel bytes = some (es, stop)) ∧
        Flat.start bounds.limits (LoadEv.configs es) (LoadEv.tlTable es) = some F0 ∧
        ∀ fuel, bound ≤ fuel → ∀ (inp : Nat → Nat → Bool) (T : Nat), T + 3 < 2 ^ 31 →
          ∃ M, F0.run (LoadEv.tlTable es) fuel inp T = some M ∧
            Answers (fun t => (specA.sem interp (env inp) t).isTrue = true) (M.reports 0) ∧
            Answers (fun t => inp t 0 = true ∧ inp t 1 = true) (M.reports 1) ∧
            Answers (fun t => (Oy.sem interp (env inp) t).isTrue = true) (M.reports 4) ∧
            ∀ t, t + 2 < T → ∃ u ∈ M.reports 0, t ≤ u.time := by
  refine ⟨parse_eq, front, ?_⟩
  have hm : (compileBinary ⟨true, false, true⟩ back 100 0 17 (heap, 21)).map (fun r => r.2.maxAtomics) = some 2 := by decide +kernel
  obtain ⟨⟨bytes, bounds⟩, hr, hb⟩ := Option.map_eq_some_iff.1 hm
  refine ⟨bytes, bounds, hr, ?_⟩
  obtain ⟨es, stop, F0, bound, c1, c2, c3⟩ := C65_text_to_verdicts_partial (I := interp) (b := back) parse_eq front ⟨rfl, rfl, fun _ _ _ _ _ _ => .err⟩
    (by intro s n ms hs hm; simp [TcCtx.scalarDecls, TcCtx.decls, ctx] at hm) declares proper_all
    (by
      intro s hs
      simp only [List.mem_cons, List.not_mem_nil, or_false] at hs
      rcases hs with rfl | rfl <;> exact ident rfl (by decide) (by decide) (by decide) (by decide))
    fs_eq ps_eq inMemory apart fit_f fit_p
    (by intro s hs; simp only [fs, List.mem_cons, List.not_mem_nil, or_false] at hs; rcases hs with rfl | rfl | rfl | rfl <;> simp [span, spanL, back, X, Y])
    (by intro s hs; simp only [ps, List.mem_cons, List.not_mem_nil, or_false] at hs; subst hs; simp [span, back, Y])
    (by decide) hr (by dsimp only at hb; rw [hb]; decide)
  refine ⟨es, stop, F0, bound, c1, c2, fun fuel hfuel inp T hT => ?_⟩
  obtain ⟨M, d1, d2⟩ := c3 fuel hfuel inp T hT
  obtain ⟨d3, d4⟩ := d2 (env inp) (env_fits inp) (env_respects inp) (fun s _ t => rfl)
  have v1 : (specsOf true secs).flatMap (Spec.verdicts interp (env inp)) =
      [(0, fun t => (specA.sem interp (env inp) t).isTrue), (1, fun t => ((var "d").sem interp (env inp) t).isTrue),
       (2, fun t => !((var "d").sem interp (env inp) t).isTrue || (Fy.sem interp (env inp) t).isTrue),
       (3, fun t => ((var "d").sem interp (env inp) t).isTrue && (Fy.sem interp (env inp) t).isTrue)] := rfl
  have v2 : (specsOf false secs).flatMap (Spec.verdicts interp (env inp)) = [(4, fun t => (Oy.sem interp (env inp) t).isTrue)] := rfl
  rw [v1] at d3
  rw [v2] at d4
  simp only [fs, ps, List.forall₂_cons] at d3 d4
  refine ⟨M, d1, d3.1.2.1, ?_, d4.1.2.1, ?_⟩
  · have hd : (fun t => ((var "d").sem interp (env inp) t).isTrue = true) = fun t => inp t 0 = true ∧ inp t 1 = true := by
      funext t
      have : ((var "d").sem interp (env inp) t).isTrue = (inp t 0 && (inp t 1 && true)) := rfl
      rw [this]
      simp
    exact hd ▸ d3.2.1.2.1
  · exact d3.1.2.2

end FE

end R2U2
