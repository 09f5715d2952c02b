import Verif.Spec.FrontEnd
import Verif.Props.Desugar
import Verif.Props.Grammar
import Verif.Lemmas.Expand
/-
From desugared source formulas to formulas of the temporal logic.
-/
namespace R2U2
namespace Src
open Val
variable {S : List String} {F : Type}

mutual
/-- Reading a formula does not change the tree. -/
theorem toExpr_toAst : ∀ (e : Src) {e' : Expr {s : String // s ∈ S}}, toExpr S e = some e' → e'.toAst (signalAtoms Subtype.val) = C2po.toAst e
  | .node k ty cs, e', h => by
    cases k with
    | lit v =>
      cases v with
      | bool b => cases cs with
        | nil => simp only [toExpr, Option.some.injEq] at h; subst h; simp [Expr.toAst, C2po.toAst]
        | cons => simp [toExpr] at h
      | int _ => simp [toExpr] at h
      | float _ => simp [toExpr] at h
    | sig s => cases cs with
      | nil =>
        simp only [toExpr] at h
        split_ifs at h with hs
        cases h
        simp [Expr.toAst, C2po.toAst, signalAtoms]
      | cons => simp [toExpr] at h
    | op o =>
      simp only [toExpr, Option.bind_eq_some_iff] at h
      obtain ⟨ds, hd, h⟩ := h
      have ih := toExprL_toAst cs hd
      simp only [C2po.toAst]
      rw [← ih]
      unfold mkOp at h
      split at h <;> cases h <;> simp [Expr.toAst, Expr.toAstL]
    | tmp o lb ub =>
      simp only [toExpr, Option.bind_eq_some_iff] at h
      obtain ⟨ds, hd, h⟩ := h
      have ih := toExprL_toAst cs hd
      simp only [C2po.toAst]
      rw [← ih]
      unfold mkTmp at h
      split at h <;> cases h <;> simp [Expr.toAst, Expr.toAstL]
    | _ => simp [toExpr] at h
theorem toExprL_toAst : ∀ (cs : List Src) {ds : List (Expr {s : String // s ∈ S})}, toExprL S cs = some ds →
    Expr.toAstL (signalAtoms Subtype.val) ds = C2po.toAstL cs
  | [], ds, h => by simp only [toExprL, Option.some.injEq] at h; subst h; rfl
  | c :: cs, ds, h => by
    simp only [toExprL, Option.bind_eq_some_iff, Option.map_eq_some_iff] at h
    obtain ⟨c', hc, ds', hd, rfl⟩ := h
    simp [Expr.toAstL, C2po.toAstL, toExpr_toAst c hc, toExprL_toAst cs hd]
end

theorem forall2_one {A B : Type} {R : A → B → Prop} {ps : List A} {b : B} (h : List.Forall₂ R ps [b]) : ∃ p, ps = [p] ∧ R p b := by
  cases h with
  | cons h h' => cases h'; exact ⟨_, rfl, h⟩

theorem forall2_two {A B : Type} {R : A → B → Prop} {ps : List A} {b c : B} (h : List.Forall₂ R ps [b, c]) :
    ∃ p q, ps = [p, q] ∧ R p b ∧ R q c := by
  cases h with
  | cons h h' =>
    obtain ⟨q, rfl, h2⟩ := forall2_one h'
    exact ⟨_, _, rfl, h, h2⟩

/-- A temporal operator of the source language, when the operands are known. -/
theorem evalTmp_sat {α : Type} {π : Trace α} {o : TmpK} {lb ub : Nat} {es : List (Expr α)} {e : Expr α} {ps : List (Nat → Bool)}
    (hp : List.Forall₂ (fun p e => ∀ j, (p j = true ↔ sat π e j)) ps es) (h : mkTmp lb ub o es = some e) (i : Nat) :
    evalTmp o lb ub i ps = true ↔ sat π e i := by
  have ahead : ∀ j, j ∈ List.range' (i + lb) (ub + 1 - lb) ↔ i + lb ≤ j ∧ j ≤ i + ub := by
    intro j; rw [List.mem_range'_1]; omega
  have back : ∀ j, j ∈ (List.range (i + 1)).filter (fun j => decide (i ≤ j + ub) && decide (j + lb ≤ i)) ↔ (i ≤ j + ub ∧ j + lb ≤ i) := by
    intro j; simp only [List.mem_filter, List.mem_range, Bool.and_eq_true, decide_eq_true_eq]; omega
  unfold mkTmp at h
  split at h <;> cases h
  · obtain ⟨p, rfl, h1⟩ := forall2_one hp
    simp only [evalTmp, List.any_eq_true, ahead, h1, sat, and_assoc]
  · obtain ⟨p, rfl, h1⟩ := forall2_one hp
    simp only [evalTmp, List.all_eq_true, ahead, h1, sat, and_imp]
  · obtain ⟨l, r, rfl, h1, h2⟩ := forall2_two hp
    simp only [evalTmp, List.any_eq_true, List.all_eq_true, ahead, h1, h2, sat, and_assoc, Bool.and_eq_true, decide_eq_true_eq, and_imp]
    refine exists_congr fun j => and_congr_right fun a => and_congr_right fun b => and_congr_right fun _ => ?_
    exact ⟨fun h k hk hj => h k hk (by omega) hj, fun h k hk _ hj => h k hk hj⟩
  · obtain ⟨l, r, rfl, h1, h2⟩ := forall2_two hp
    simp only [evalTmp, List.any_eq_true, List.all_eq_true, ahead, h1, h2, sat, and_assoc, Bool.and_eq_true, Bool.or_eq_true, decide_eq_true_eq, and_imp]
    refine forall_congr' fun j => forall_congr' fun a => forall_congr' fun b => ?_
    rw [or_iff_not_imp_left]
    refine imp_congr_right fun _ => exists_congr fun k => ?_
    exact ⟨fun ⟨a, _, b, c⟩ => ⟨a, b, c⟩, fun ⟨a, b, c⟩ => ⟨a, by omega, b, c⟩⟩
  · obtain ⟨p, rfl, h1⟩ := forall2_one hp
    simp only [evalTmp, List.any_eq_true, back, h1, sat, and_assoc]
  · obtain ⟨p, rfl, h1⟩ := forall2_one hp
    simp only [evalTmp, List.all_eq_true, back, h1, sat, and_imp]
  · obtain ⟨l, r, rfl, h1, h2⟩ := forall2_two hp
    simp only [evalTmp, List.any_eq_true, List.all_eq_true, back, h1, h2, sat, and_assoc, Bool.and_eq_true, decide_eq_true_eq, List.mem_range]
    refine exists_congr fun j => and_congr_right fun a => and_congr_right fun b => and_congr_right fun _ => ?_
    exact ⟨fun h k hk hj => h k (by omega) hk, fun h k hk hj => h k hj (by omega)⟩
  · obtain ⟨l, r, rfl, h1, h2⟩ := forall2_two hp
    simp only [evalTmp, List.any_eq_true, List.all_eq_true, back, h1, h2, sat, Bool.and_eq_true, Bool.or_eq_true, decide_eq_true_eq, and_imp, List.mem_range]
    refine forall_congr' fun j => forall_congr' fun a => forall_congr' fun b => ?_
    rw [or_iff_not_imp_left]
    refine imp_congr_right fun _ => exists_congr fun k => ?_
    exact ⟨fun ⟨a, b, c⟩ => ⟨b, by omega, c⟩, fun ⟨a, b, c⟩ => ⟨by omega, a, c⟩⟩

/-- A connective of the source language, when the operands are known. -/
theorem evalOp_sat {α : Type} {π : Trace α} {I : Interp F} {o : OpK} {es : List (Expr α)} {e : Expr α} {vs : List (Val F)} {i : Nat}
    (hp : List.Forall₂ (fun v e => ∃ b, v = .bool b ∧ (b = true ↔ sat π e i)) vs es) (h : mkOp o es = some e) :
    ∃ b, evalOp I o vs = .bool b ∧ (b = true ↔ sat π e i) := by
  unfold mkOp at h
  split at h <;> cases h
  · refine ⟨_, rfl, ?_⟩
    simp only [sat]
    induction hp with
    | nil => simp [satAll]
    | cons h _ ih =>
      obtain ⟨b, rfl, hb⟩ := h
      simp only [List.all_cons, Bool.and_eq_true, Val.isTrue, ih, satAll, hb]
  · refine ⟨_, rfl, ?_⟩
    simp only [sat]
    induction hp with
    | nil => simp [satAny]
    | cons h _ ih =>
      obtain ⟨b, rfl, hb⟩ := h
      simp only [List.any_cons, Bool.or_eq_true, Val.isTrue, ih, satAny, hb]
  · obtain ⟨_, rfl, b, rfl, h1⟩ := forall2_one hp
    refine ⟨_, rfl, ?_⟩
    simp only [Val.isTrue, sat, ← h1]
    cases b <;> decide
  all_goals
    obtain ⟨_, _, rfl, ⟨b, rfl, h1⟩, ⟨c, rfl, h2⟩⟩ := forall2_two hp
    refine ⟨_, rfl, ?_⟩
    simp only [Val.isTrue, sat, Val.cmp, Val.icmp, ← h1, ← h2]
    cases b <;> cases c <;> decide

theorem mkOp_prev {α : Type} {es : List (Expr α)} : mkOp .prev es = none := by
  unfold mkOp; split <;> first | rfl | simp_all

mutual
/-- A formula read as one of the temporal logic says the same. -/
theorem toExpr_sat {I : Interp F} {ρ : Env F} {π : Trace {s : String // s ∈ S}} (hρ : ∀ (s : {s : String // s ∈ S}) i, ∃ b, ρ.sig s.1 i = .bool b ∧ (b = true ↔ π i s)) :
    ∀ (e : Src) {e' : Expr {s : String // s ∈ S}}, toExpr S e = some e' → ∀ i, ∃ b, sem I e ρ i = .bool b ∧ (b = true ↔ sat π e' i)
  | .node k ty cs, e', h => by
    intro i
    cases k with
    | lit v =>
      cases v with
      | bool b => cases cs with
        | nil => simp only [toExpr, Option.some.injEq] at h; subst h; exact ⟨b, by simp [sem, evalK], by simp [sat]⟩
        | cons => simp [toExpr] at h
      | int _ => simp [toExpr] at h
      | float _ => simp [toExpr] at h
    | sig s => cases cs with
      | nil =>
        simp only [toExpr] at h
        split_ifs at h with hs
        cases h
        simpa [sem, evalK, sat] using hρ ⟨s, hs⟩ i
      | cons => simp [toExpr] at h
    | op o =>
      simp only [toExpr, Option.bind_eq_some_iff] at h
      obtain ⟨ds, hd, h⟩ := h
      have ih := toExprL_sat hρ cs hd (I := I)
      have ho : o ≠ .prev := by rintro rfl; rw [mkOp_prev] at h; cases h
      have : sem I (.node (.op o) ty cs) ρ i = evalOp I o ((semL I cs).map (· ρ i)) := by
        rw [sem]
        cases o <;> first | rfl | exact absurd rfl ho
      rw [this]
      refine evalOp_sat ?_ h
      rw [List.forall₂_map_left_iff]
      exact ih.imp fun _ _ h => h i
    | tmp o lb ub =>
      simp only [toExpr, Option.bind_eq_some_iff] at h
      obtain ⟨ds, hd, h⟩ := h
      have ih := toExprL_sat hρ cs hd (I := I)
      refine ⟨_, by rw [sem]; rfl, evalTmp_sat ?_ h i⟩
      rw [List.forall₂_map_left_iff]
      refine ih.imp fun d e h j => ?_
      obtain ⟨b, h1, h2⟩ := h j
      show (d ρ j).isTrue = true ↔ _
      rw [h1]; exact h2
    | _ => simp [toExpr] at h
theorem toExprL_sat {I : Interp F} {ρ : Env F} {π : Trace {s : String // s ∈ S}} (hρ : ∀ (s : {s : String // s ∈ S}) i, ∃ b, ρ.sig s.1 i = .bool b ∧ (b = true ↔ π i s)) :
    ∀ (cs : List Src) {ds : List (Expr {s : String // s ∈ S})}, toExprL S cs = some ds →
      List.Forall₂ (fun (d : Den F) e => ∀ i, ∃ b, d ρ i = .bool b ∧ (b = true ↔ sat π e i)) (semL I cs) ds
  | [], ds, h => by simp only [toExprL, Option.some.injEq] at h; subst h; exact .nil
  | c :: cs, ds, h => by
    simp only [toExprL, Option.bind_eq_some_iff, Option.map_eq_some_iff] at h
    obtain ⟨c', hc, ds', hd, rfl⟩ := h
    exact .cons (toExpr_sat hρ c hc) (toExprL_sat hρ cs hd)
end

end Src

theorem mapM_forall2 {A B : Type} {f : A → Option B} : ∀ {as : List A} {bs : List B}, as.mapM f = some bs → List.Forall₂ (fun a b => f a = some b) as bs
  | [], bs, h => by simp at h; subst h; exact .nil
  | a :: as, bs, h => by
    simp only [List.mapM_cons, Option.bind_eq_bind, Option.bind_eq_some_iff, Option.pure_def, Option.some.injEq] at h
    obtain ⟨b, hb, cs, hc, rfl⟩ := h
    exact .cons hb (mapM_forall2 hc)

/-! ### Numbers -/

/-- The numbers of a section. -/
def Sec.numbers : Sec → List Nat
  | .spec _ ss => ss.flatMap C2po.numbersOf
  | _ => []

theorem toSec_numbers (s : C2po.Section) : s.toSec.numbers = s.numbers := by cases s <;> rfl

theorem checkSpec_numbers {Γ Γ' : TcCtx} {s s' : Spec} (h : Tc.checkSpec Γ s = some (s', Γ')) : C2po.numbersOf s' = C2po.numbersOf s := by
  cases s with
  | formula l n e =>
    simp only [Tc.checkSpec, Option.bind_eq_some_iff] at h
    obtain ⟨_, _, h⟩ := h
    split_ifs at h
    cases h; rfl
  | contract l n1 n2 n3 a g =>
    simp only [Tc.checkSpec, Option.bind_eq_some_iff] at h
    obtain ⟨_, _, _, _, h⟩ := h
    split_ifs at h
    cases h; rfl

theorem specifications_numbers : ∀ {ss ss' : List Spec} {st : List String × TcCtx} {Γ' : TcCtx}, Tc.specifications st ss = some (ss', Γ') →
    ss'.flatMap C2po.numbersOf = ss.flatMap C2po.numbersOf
  | [], ss', st, Γ', h => by simp only [Tc.specifications, Option.some.injEq, Prod.mk.injEq] at h; obtain ⟨rfl, _⟩ := h; rfl
  | s :: ss, ss', st, Γ', h => by
    simp only [Tc.specifications] at h
    split_ifs at h
    simp only [Option.bind_eq_some_iff, Option.map_eq_some_iff, Prod.exists, Prod.mk.injEq] at h
    obtain ⟨s1, Γ1, h1, ss1, Γ2, h2, rfl, rfl⟩ := h
    rw [List.flatMap_cons, List.flatMap_cons, checkSpec_numbers h1, specifications_numbers h2]

theorem checkSection_numbers {s s' : Sec} {Γ Γ' : TcCtx} (h : Tc.checkSection Γ s = some (s', Γ')) : s'.numbers = s.numbers := by
  cases s <;> simp only [Tc.checkSection, Option.map_eq_some_iff, Prod.exists, Prod.mk.injEq] at h
  case spec ft ss =>
    obtain ⟨ss', Γ1, h1, rfl, rfl⟩ := h
    exact specifications_numbers h1
  case input => obtain ⟨_, _, _, rfl, _⟩ := h; rfl
  case define => obtain ⟨_, _, _, rfl, _⟩ := h; rfl
  case struct => obtain ⟨_, _, rfl, _⟩ := h; rfl
  case enum => obtain ⟨_, _, rfl, _⟩ := h; rfl

theorem checkProgram_numbers : ∀ {ss ss' : List Sec} {Γ Γ' : TcCtx}, Tc.checkProgram Γ ss = some (ss', Γ') →
    ss'.flatMap Sec.numbers = ss.flatMap Sec.numbers
  | [], ss', Γ, Γ', h => by simp only [Tc.checkProgram, Option.some.injEq, Prod.mk.injEq] at h; obtain ⟨rfl, _⟩ := h; rfl
  | s :: ss, ss', Γ, Γ', h => by
    simp only [Tc.checkProgram, Option.bind_eq_some_iff, Option.map_eq_some_iff, Prod.exists, Prod.mk.injEq] at h
    obtain ⟨s1, Γ1, h1, ss1, Γ2, h2, rfl, rfl⟩ := h
    rw [List.flatMap_cons, List.flatMap_cons, checkSection_numbers h1, checkProgram_numbers h2]

theorem specsOf_cons (ft : Bool) (s : Sec) (ss : List Sec) : specsOf ft (s :: ss) = specsOf ft [s] ++ specsOf ft ss := by
  simp [specsOf]

theorem specsOf_numbers : ∀ secs : List Sec,
    ((specsOf true secs ++ specsOf false secs).flatMap C2po.numbersOf).Perm (secs.flatMap Sec.numbers)
  | [] => by simp [specsOf]
  | s :: ss => by
    have ih := specsOf_numbers ss
    rw [List.flatMap_append] at ih
    rw [List.flatMap_append, specsOf_cons true, specsOf_cons false, List.flatMap_append, List.flatMap_append, List.flatMap_cons]
    have hs : ((specsOf true [s]).flatMap C2po.numbersOf ++ (specsOf false [s]).flatMap C2po.numbersOf) = s.numbers := by
      cases s with
      | spec f ss => cases f <;> simp [specsOf, Sec.numbers]
      | _ => simp [specsOf, Sec.numbers]
    rw [← hs]
    refine List.Perm.trans ?_ (List.Perm.append_left _ ih)
    simp only [List.append_assoc]
    refine List.Perm.append_left _ ?_
    rw [← List.append_assoc, ← List.append_assoc]
    exact List.Perm.append_right _ List.perm_append_comm

theorem resolve_numbers (ss : List Spec) : (Src.resolveContracts ss).flatMap C2po.numbersOf = ss.flatMap C2po.numbersOf := by
  rw [Src.resolveContracts, List.flatMap_assoc]
  refine congrArg (ss.flatMap ·) (funext fun s => ?_)
  cases s <;> rfl

/-! ### One specification set -/

theorem Src.Readable.withTy {D : Decls} {e : Src} (h : e.Readable D) (ty : Typ) : (e.withTy ty).Readable D := by
  obtain ⟨k, ty0, cs⟩ := e
  obtain ⟨h1, h2, h3⟩ := h
  refine ⟨?_, ?_, ?_⟩
  · show HasSort D Scope.empty (.node k ty cs) .bool
    cases h1 with
    | bool => exact .bool
    | sig a b => exact .sig a b
    | var _ b => simp [Scope.empty] at b
    | index a b => exact .index a b
    | access a b c d => exact .access a b c d
    | agg a b c => exact .agg a b c
    | aggN a b c d => exact .aggN a b c d
    | op a b c => exact .op a b c
    | tmp a => exact .tmp a
  · exact h2
  · exact h3

theorem Src.Readable.two {D : Decls} {o : OpK} {ty : Typ} {a g : Src} (ha : a.Readable D) (hg : g.Readable D) (ho : o.sort D.arrays [.bool, .bool] = some .bool) :
    (Src.node (.op o) ty [a, g]).Readable D := by
  refine ⟨.op (ts := [.bool, .bool]) rfl ?_ ho, ?_, ?_⟩
  · intro i c t hc ht
    rcases i with _ | _ | i <;> simp at hc ht
    · subst hc; subst ht; exact ha.1
    · subst hc; subst ht; exact hg.1
  · exact ⟨trivial, ha.2.1, hg.2.1, trivial⟩
  · exact ⟨trivial, ha.2.2, hg.2.2, trivial⟩

theorem resolve_readable {D : Decls} {ss : List Spec} (h : ∀ s ∈ ss, ∀ e ∈ s.exprs, e.Readable D) :
    ∀ s ∈ Src.resolveContracts ss, ∀ e ∈ s.exprs, e.Readable D := by
  intro s hs e he
  simp only [Src.resolveContracts, List.mem_flatMap] at hs
  obtain ⟨s0, h0, hs⟩ := hs
  cases s0 with
  | formula l n e0 =>
    simp only [Spec.resolve, List.mem_singleton] at hs
    subst hs
    exact h _ h0 e he
  | contract l n1 n2 n3 a g =>
    have ha := h _ h0 a (by simp [Spec.exprs])
    have hg := h _ h0 g (by simp [Spec.exprs])
    simp only [Spec.resolve, List.mem_cons, List.not_mem_nil, or_false] at hs
    rcases hs with rfl | rfl | rfl <;> simp only [Spec.exprs, List.mem_singleton] at he <;> subst he
    · exact ha.withTy _
    · exact ha.two hg (by simp [OpK.sort])
    · exact ha.two hg (by simp [OpK.sort])

theorem readable_boolean {D : Decls} {ss : List Spec} (h : ∀ s ∈ ss, ∀ e ∈ s.exprs, e.Readable D) : ∀ s ∈ ss, s.Boolean D := by
  intro s hs
  cases s with
  | formula => trivial
  | contract l n1 n2 n3 a g => exact ⟨(h _ hs a (by simp [Spec.exprs])).1, (h _ hs g (by simp [Spec.exprs])).1⟩

/-- The formulas of a specification set, through `desugar` and read as formulas of the temporal logic: number by number the
verdict streams the specifications ask for. -/
theorem set_verdicts {F : Type} {D : Decls} {I : Interp F} (hI : I.Fits D) (hD : D.Apart) (ha : D.arrays = false) {S : List String} {fuel : Nat}
    {ss : List Spec} (hr : ∀ s ∈ ss, ∀ e ∈ s.exprs, e.Readable D) {src : List (String × Nat × Src)}
    (hd : (Src.resolveContracts ss).mapM (desugarSpec I.structs I.enums fuel) = some src)
    {fs : List (Heap.SpecOf {s : String // s ∈ S})} (hf : Src.toSpecs S src = some fs) :
    src.map (·.2.1) = ss.flatMap C2po.numbersOf ∧ fs.map (·.2.1) = src.map (·.2.1) ∧
    List.Forall₂ (fun (s : String × Nat × Src) f => s.1 = f.1 ∧ s.2.1 = f.2.1 ∧ C2po.toAst s.2.2 = f.2.2.toAst (signalAtoms Subtype.val)) src fs ∧
    ∀ (ρ : Env F) (π : Trace {s : String // s ∈ S}), ρ.Fits D Scope.empty → (∀ (s : {s : String // s ∈ S}) i, ∃ b, ρ.sig s.1 i = .bool b ∧ (b = true ↔ π i s)) →
      List.Forall₂ (fun (v : Nat × (Nat → Bool)) f => v.1 = f.2.1 ∧ ∀ i, (v.2 i = true ↔ sat π f.2.2 i)) (ss.flatMap (Spec.verdicts I ρ)) fs := by
  have h1 := mapM_forall2 hd
  have h2 := mapM_forall2 hf
  have hr' := resolve_readable hr
  have hc := fun ρ => C27_contracts hI ss (readable_boolean hr) ρ
  rw [← resolve_numbers]
  refine ⟨?_, ?_, ?_, ?_⟩
  · clear hd hf h2 hr' hc
    generalize Src.resolveContracts ss = rs at h1
    induction h1 with
    | nil => rfl
    | @cons s q _ _ h _ ih =>
      rw [List.map_cons, List.flatMap_cons, ih]
      cases s with
      | contract => simp [desugarSpec] at h
      | formula l n e =>
        simp only [desugarSpec, Option.map_eq_some_iff] at h
        obtain ⟨e', _, rfl⟩ := h
        rfl
  · clear hd hf h1 hr' hc
    induction h2 with
    | nil => rfl
    | cons h _ ih =>
      simp only [Option.map_eq_some_iff] at h
      obtain ⟨e', _, rfl⟩ := h
      rw [List.map_cons, List.map_cons, ih]
  · refine h2.imp fun s f h => ?_
    simp only [Option.map_eq_some_iff] at h
    obtain ⟨e', he, rfl⟩ := h
    exact ⟨rfl, rfl, (Src.toExpr_toAst _ he).symm⟩
  · intro ρ π hρ hπ
    rw [← (hc ρ).2]
    clear hd hf hc hr
    generalize Src.resolveContracts ss = rs at h1 hr' ⊢
    induction h1 generalizing fs with
    | nil => cases h2; exact .nil
    | @cons s q ss' qs h _ ih =>
      cases h2 with
      | @cons _ f _ fs' hf hfs =>
        have hs := hr' s (by simp)
        rw [List.flatMap_cons]
        cases s with
        | contract => simp [desugarSpec] at h
        | formula l n e =>
          simp only [desugarSpec, Option.map_eq_some_iff] at h
          obtain ⟨e', h3, rfl⟩ := h
          simp only [Option.map_eq_some_iff] at hf
          obtain ⟨e'', h4, rfl⟩ := hf
          obtain ⟨h5, h6, h7⟩ := hs e (by simp [Spec.exprs])
          obtain ⟨_, _, h8⟩ := C56_desugar_partial hI hD ha h5 (by rfl) h6 h7 h3
          refine .cons ⟨rfl, fun i => ?_⟩ (ih hfs fun s hs => hr' s (by simp [hs]))
          obtain ⟨b, h9, h10⟩ := Src.toExpr_sat hπ e' h4 (I := I) i
          show (Src.sem I e ρ i).isTrue = true ↔ _
          rw [← h10, ← h8 ρ hρ i, h9]
          rfl

/-! ### Names -/

mutual
theorem expandTree_expands {δ : String → Option Src} : ∀ (n : Nat) (e : Src) {e' : Src}, e.expandTree δ n = some e' → Src.Expands (fun s d => δ s = some d) e e'
  | 0, _, _, h => by simp [Src.expandTree] at h
  | n + 1, .node k ty cs, e', h => by
    rw [Src.expandTree] at h
    cases hd : k.stands δ with
    | some d =>
      simp only [hd] at h
      split_ifs at h with hc
      rw [List.isEmpty_iff] at hc
      subst hc
      cases k with
      | var s => exact .ref hd (expandTree_expands n d h)
      | _ => cases hd
    | none =>
      simp only [hd] at h
      simp only [Option.map_eq_some_iff] at h
      obtain ⟨cs', hc, rfl⟩ := h
      obtain ⟨h1, h2⟩ := expandTreeL_expands n cs hc
      refine .node ?_ h1 h2
      rintro s d rfl hs
      rw [SK.stands, hs] at hd
      cases hd
theorem expandTreeL_expands {δ : String → Option Src} : ∀ (n : Nat) (cs : List Src) {cs' : List Src}, Src.expandTreeL δ n cs = some cs' →
    cs.length = cs'.length ∧ ∀ (i : Nat) (c c' : Src), cs[i]? = some c → cs'[i]? = some c' → Src.Expands (fun s d => δ s = some d) c c'
  | n, [], cs', h => by
    have : cs' = [] := by cases n <;> simp [Src.expandTreeL] at h <;> exact h
    subst this; simp
  | 0, _ :: _, _, h => by simp [Src.expandTreeL] at h
  | n + 1, c :: cs, cs', h => by
    simp only [Src.expandTreeL, Option.bind_eq_some_iff, Option.map_eq_some_iff] at h
    obtain ⟨c', hc, ds, hd, rfl⟩ := h
    obtain ⟨h1, h2⟩ := expandTreeL_expands n cs hd
    refine ⟨by simp [h1], ?_⟩
    intro i a a' ha ha'
    cases i with
    | zero => simp at ha ha'; subst ha; subst ha'; exact expandTree_expands n c hc
    | succ i => exact h2 i a a' (by simpa using ha) (by simpa using ha')
end

theorem expandTree_unique {δ : String → Option Src} {n m : Nat} {e a b : Src} (h1 : e.expandTree δ n = some a) (h2 : e.expandTree δ m = some b) : a = b :=
  (expandTree_expands n e h1).unique (fun _ _ _ h h' => by rw [h] at h'; exact Option.some.inj h') (expandTree_expands m e h2)

/-- Expanding names: well-formed, and the same value where every name has the value of what it stands for. -/
theorem expandTree_keeps {F : Type} {δ : String → Option Src} {D : Decls} {N : Scope} (hN : N.Declares (fun s d => δ s = some d) D) {n : Nat} {e e' : Src}
    (he : e.Proper D N δ) (h : e.expandTree δ n = some e') :
    e'.Readable D ∧ ∀ (I : Interp F), I.Fits D → ∀ ρ : Env F, ρ.Respects (fun s d => δ s = some d) I → ∀ i, e'.sem I ρ i = e.sem I ρ i := by
  obtain ⟨h1, h2⟩ := Src.expands_keep' (F := F) hN (expandTree_expands n e h) N .bool he.sort (fun _ _ => rfl) he.fresh
  rw [Scope.without_self] at h1
  exact ⟨⟨h1, he.scopes n e' h, he.picks n e' h⟩, fun I hI ρ hρ i => h2 I hI ρ ρ (.inl hρ) rfl (fun _ _ => rfl) i⟩

/-- A specification set with names. -/
theorem set_verdicts' {F : Type} {D : Decls} {N : Scope} {I : Interp F} (hI : I.Fits D) (hD : D.Apart) (ha : D.arrays = false) {p : List Sec × TcCtx}
    (hN : N.Declares (fun s d => nameOf p s = some d) D) (hst : p.2.structs = D.structs) (hen : p.2.enums = D.enums) {S : List String} {fuel : Nat}
    {ss : List Spec} (hr : ∀ s ∈ ss, ∀ e ∈ s.exprs, e.Proper D N (nameOf p)) {src : List (String × Nat × Src)}
    (hd : desugarSet p fuel ss = some src) {fs : List (Heap.SpecOf {s : String // s ∈ S})} (hf : Src.toSpecs S src = some fs) :
    src.map (·.2.1) = ss.flatMap C2po.numbersOf ∧ fs.map (·.2.1) = src.map (·.2.1) ∧
    List.Forall₂ (fun (s : String × Nat × Src) f => s.1 = f.1 ∧ s.2.1 = f.2.1 ∧ C2po.toAst s.2.2 = f.2.2.toAst (signalAtoms Subtype.val)) src fs ∧
    ∀ (ρ : Env F) (π : Trace {s : String // s ∈ S}), ρ.Fits D Scope.empty → ρ.Respects (fun s d => nameOf p s = some d) I →
      (∀ (s : {s : String // s ∈ S}) i, ∃ b, ρ.sig s.1 i = .bool b ∧ (b = true ↔ π i s)) →
      List.Forall₂ (fun (v : Nat × (Nat → Bool)) f => v.1 = f.2.1 ∧ ∀ i, (v.2 i = true ↔ sat π f.2.2 i)) (ss.flatMap (Spec.verdicts I ρ)) fs := by
  simp only [desugarSet, Option.bind_eq_some_iff] at hd
  obtain ⟨ss', h1, h2⟩ := hd
  rw [hst, hen, ← hI.structs, ← hI.enums] at h2
  replace h1 := mapM_forall2 h1
  have key : (∀ s ∈ ss', ∀ e ∈ s.exprs, e.Readable D) ∧ ss'.flatMap C2po.numbersOf = ss.flatMap C2po.numbersOf ∧
      ∀ ρ : Env F, ρ.Respects (fun s d => nameOf p s = some d) I → ss'.flatMap (Spec.verdicts I ρ) = ss.flatMap (Spec.verdicts I ρ) := by
    clear h2 hf
    induction h1 with
    | nil => exact ⟨by simp, rfl, fun _ _ => rfl⟩
    | @cons s s' _ _ h _ ih =>
      obtain ⟨i1, i2, i3⟩ := ih fun s hs => hr s (by simp [hs])
      have hs := hr s (by simp)
      have one : (∀ e ∈ s'.exprs, e.Readable D) ∧ C2po.numbersOf s' = C2po.numbersOf s ∧
          ∀ ρ : Env F, ρ.Respects (fun s d => nameOf p s = some d) I → Spec.verdicts I ρ s' = Spec.verdicts I ρ s := by
        cases s with
        | formula l n e =>
          simp only [expandSpec, Option.map_eq_some_iff] at h
          obtain ⟨e', h3, rfl⟩ := h
          obtain ⟨h4, h5⟩ := expandTree_keeps (F := F) hN (hs e (by simp [Spec.exprs])) h3
          refine ⟨by simpa [Spec.exprs] using h4, rfl, fun ρ hρ => ?_⟩
          simp only [Spec.verdicts, h5 I hI ρ hρ]
        | contract l n1 n2 n3 a g =>
          simp only [expandSpec, Option.bind_eq_some_iff, Option.map_eq_some_iff] at h
          obtain ⟨a', h3, g', h3', rfl⟩ := h
          obtain ⟨h4, h5⟩ := expandTree_keeps (F := F) hN (hs a (by simp [Spec.exprs])) h3
          obtain ⟨h4', h5'⟩ := expandTree_keeps (F := F) hN (hs g (by simp [Spec.exprs])) h3'
          refine ⟨by simpa [Spec.exprs] using ⟨h4, h4'⟩, rfl, fun ρ hρ => ?_⟩
          simp only [Spec.verdicts, h5 I hI ρ hρ, h5' I hI ρ hρ]
      refine ⟨?_, by rw [List.flatMap_cons, List.flatMap_cons, one.2.1, i2], fun ρ hρ => by rw [List.flatMap_cons, List.flatMap_cons, one.2.2 ρ hρ, i3 ρ hρ]⟩
      intro t ht
      rcases List.mem_cons.1 ht with rfl | ht
      · exact one.1
      · exact i1 t ht
  obtain ⟨k1, k2, k3⟩ := key
  obtain ⟨g1, g2, g3, g4⟩ := set_verdicts hI hD ha k1 h2 hf
  refine ⟨g1.trans k2, g2, g3, fun ρ π hρ hres hπ => ?_⟩
  rw [← k3 ρ hres]
  exact g4 ρ π hρ hπ

end R2U2
