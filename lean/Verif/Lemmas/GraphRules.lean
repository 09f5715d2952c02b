import Verif.Lemmas.GraphPass
import Verif.Lemmas.Rewrite
import Verif.Lemmas.Transform
import Verif.Props.Printing
/-
The rules of the passes on the object graph agree with the rules on trees.
-/
namespace R2U2
open Heap Expr GraphPass
variable {α : Type}

/-- Labels of specifications. -/
def Lab.frame : Lab → Bool
  | .formula .. | .contract .. | .specSet => true
  | _ => false

/-- Atoms are kept, and a temporal-level expression becomes a related one. -/
def Keeps (P : Lab → Nat → Prop) (f : α → Ast) (good : Expr α → Prop) (Rl : Expr α → Expr α → Prop) (t t' : Ast) : Prop :=
  (t.All (fun l k => l.logical = false ∧ P l k) → t' = t) ∧
  ∀ e, good e → t = e.toAst f → ∃ e', good e' ∧ t' = e'.toAst f ∧ Rl e e'

/-- What is needed of the relation on temporal-level expressions. -/
structure RelOk (good : Expr α → Prop) (Rl : Expr α → Expr α → Prop) : Prop where
  refl : ∀ e, good e → Rl e e
  trans : ∀ a b c, Rl a b → Rl b c → Rl a c
  child : ∀ e c, good e → c ∈ e.children → good c
  congr : ∀ e e', good e → e.shape = e'.shape → List.Forall₂ (fun c c' => good c' ∧ Rl c c') e.children e'.children →
    good e' ∧ Rl e e'

theorem toAst_node {f : α → Ast} (e : Expr α) (h : ∀ a, e ≠ .atom a) : ∃ l, ∀ e' : Expr α, e.shape = e'.shape →
    e'.toAst f = .node l (e'.children.map (toAst f)) := by
  refine ⟨(toAst (fun _ => .node .specSet []) e).label, fun e' he => ?_⟩
  cases e
  case atom a => exact absurd rfl (h a)
  all_goals
    cases e' <;> simp only [shape, reduceCtorEq] at he <;> (try cases he) <;>
      simp only [toAst, children, toAstL_eq, List.map_cons, List.map_nil, Tree.label]

/-- A node can be rebuilt with other children. -/
theorem exists_children (e : Expr α) (cs' : List (Expr α)) (hlen : e.children.length = cs'.length) :
    ∃ e' : Expr α, e.shape = e'.shape ∧ e'.children = cs' := by
  cases e <;> simp only [children, List.length_cons, List.length_nil] at hlen
  case atom a => exact ⟨.atom a, rfl, by rw [List.eq_nil_of_length_eq_zero hlen.symm]; rfl⟩
  case const b => exact ⟨.const b, rfl, by rw [List.eq_nil_of_length_eq_zero hlen.symm]; rfl⟩
  case and cs => exact ⟨.and cs', by simp [shape, hlen], rfl⟩
  case or cs => exact ⟨.or cs', by simp [shape, hlen], rfl⟩
  case neg => match cs', hlen with | [a], _ => exact ⟨.neg a, rfl, rfl⟩
  case fut lb ub _ => match cs', hlen with | [a], _ => exact ⟨.fut lb ub a, rfl, rfl⟩
  case glob lb ub _ => match cs', hlen with | [a], _ => exact ⟨.glob lb ub a, rfl, rfl⟩
  case once lb ub _ => match cs', hlen with | [a], _ => exact ⟨.once lb ub a, rfl, rfl⟩
  case hist lb ub _ => match cs', hlen with | [a], _ => exact ⟨.hist lb ub a, rfl, rfl⟩
  case xor => match cs', hlen with | [a, b], _ => exact ⟨.xor a b, rfl, rfl⟩
  case imp => match cs', hlen with | [a, b], _ => exact ⟨.imp a b, rfl, rfl⟩
  case iff => match cs', hlen with | [a, b], _ => exact ⟨.iff a b, rfl, rfl⟩
  case equal => match cs', hlen with | [a, b], _ => exact ⟨.equal a b, rfl, rfl⟩
  case untl lb ub _ _ => match cs', hlen with | [a, b], _ => exact ⟨.untl lb ub a b, rfl, rfl⟩
  case rel lb ub _ _ => match cs', hlen with | [a, b], _ => exact ⟨.rel lb ub a b, rfl, rfl⟩
  case since lb ub _ _ => match cs', hlen with | [a, b], _ => exact ⟨.since lb ub a b, rfl, rfl⟩
  case trig lb ub _ _ => match cs', hlen with | [a, b], _ => exact ⟨.trig lb ub a b, rfl, rfl⟩

theorem cong_trans_list {S : Ast → Ast → Prop} : ∀ {as bs cs : List Ast}, List.Forall₂ (Cong S) as bs →
    List.Forall₂ (Cong S) bs cs → List.Forall₂ (Cong S) as cs
  | _, _, _, .nil, .nil => .nil
  | _, _, _, .cons a as, .cons b bs => .cons (a.trans b) (cong_trans_list as bs)

theorem cong_keeps {P : Lab → Nat → Prop} {f : α → Ast} (hf : AtomsPlain P f) {good : Expr α → Prop}
    {Rl : Expr α → Expr α → Prop} (hR : RelOk good Rl) {S : Ast → Ast → Prop} (hS : ∀ t t', S t t' → Keeps P f good Rl t t') :
    ∀ {t t'}, Cong S t t' → Keeps P f good Rl t t' := by
  intro t t' h
  refine Cong.rec (motive_1 := fun t t' _ => Keeps P f good Rl t t')
    (motive_2 := fun ts ts' _ => List.Forall₂ (Keeps P f good Rl) ts ts') ?_ ?_ ?_ ?_ ?_ ?_ h
  · intro t; exact ⟨fun _ => rfl, fun e he ht => ⟨e, he, ht, hR.refl e he⟩⟩
  · intro t u h; exact hS t u h
  · intro t u v _ _ h1 h2
    refine ⟨fun ha => ?_, fun e he ht => ?_⟩
    · have := h1.1 ha
      subst this
      exact h2.1 ha
    · obtain ⟨e1, g1, t1, r1⟩ := h1.2 e he ht
      obtain ⟨e2, g2, t2, r2⟩ := h2.2 e1 g1 t1
      exact ⟨e2, g2, t2, hR.trans _ _ _ r1 r2⟩
  · intro l ts us _ hk
    have hall : (Tree.node l ts).All (fun l k => l.logical = false ∧ P l k) → Tree.node l us = Tree.node l ts := by
      rintro ⟨_, ha⟩
      congr 1
      have : ∀ {as bs : List Ast}, List.Forall₂ (Keeps P f good Rl) as bs →
          (∀ t ∈ as, t.All (fun l k => l.logical = false ∧ P l k)) → bs = as := by
        intro as bs hab
        induction hab with
        | nil => intro _; rfl
        | cons h _ ih =>
          intro ha
          rw [h.1 (ha _ List.mem_cons_self), ih fun t ht => ha t (List.mem_cons_of_mem _ ht)]
      exact this hk ha
    refine ⟨hall, fun e he ht => ?_⟩
    by_cases hat : ∃ a, e = .atom a
    · obtain ⟨a, rfl⟩ := hat
      have : Tree.node l ts = f a := ht
      rw [hall (this ▸ (hf a).1)]
      exact ⟨_, he, ht, hR.refl _ he⟩
    · obtain ⟨l', hl'⟩ := toAst_node (f := f) e (fun a h => hat ⟨a, h⟩)
      have h1 := ht.trans (hl' e rfl)
      simp only [Tree.node.injEq] at h1
      obtain ⟨rfl, rfl⟩ := h1
      have : ∀ (cs : List (Expr α)) (us : List Ast), (∀ c ∈ cs, good c) →
          List.Forall₂ (Keeps P f good Rl) (cs.map (toAst f)) us →
          ∃ cs', us = cs'.map (toAst f) ∧ List.Forall₂ (fun c c' => good c' ∧ Rl c c') cs cs' := by
        intro cs
        induction cs with
        | nil => intro us _ h; cases h; exact ⟨[], rfl, .nil⟩
        | cons c cs ih =>
          intro us hg h
          cases h with
          | cons h1 h2 =>
            obtain ⟨cs', rfl, h3⟩ := ih _ (fun c hc => hg c (List.mem_cons_of_mem _ hc)) h2
            obtain ⟨c', g', rfl, r'⟩ := h1.2 c (hg c List.mem_cons_self) rfl
            exact ⟨c' :: cs', rfl, .cons ⟨g', r'⟩ h3⟩
      obtain ⟨cs', rfl, h3⟩ := this e.children us (fun c hc => hR.child e c he hc) hk
      obtain ⟨e', hs, hc⟩ := exists_children e cs' h3.length_eq
      subst hc
      obtain ⟨g', r'⟩ := hR.congr e e' he hs h3
      exact ⟨e', g', (hl' e' hs).symm, r'⟩
  · exact .nil
  · intro a b l1 l2 _ _ h1 h2; exact .cons h1 h2

/-- Nothing happens to a label the rules do not touch. -/
theorem cong_label {S : Ast → Ast → Prop} (hS : ∀ t t', S t t' → t.label.frame = false) {t t' : Ast} (h : Cong S t t')
    (hl : t.label.frame = true) : t'.label = t.label ∧ List.Forall₂ (Cong S) t.kids t'.kids := by
  have hrefl : ∀ ts : List Ast, List.Forall₂ (Cong S) ts ts := fun ts => List.forall₂_same.2 fun t _ => .refl t
  refine Cong.rec (motive_1 := fun t t' _ => t.label.frame = true → t'.label = t.label ∧ List.Forall₂ (Cong S) t.kids t'.kids)
    (motive_2 := fun ts ts' _ => List.Forall₂ (Cong S) ts ts') ?_ ?_ ?_ ?_ ?_ ?_ h hl
  · intro t _; exact ⟨rfl, hrefl _⟩
  · intro t u h hl; rw [hS t u h] at hl; cases hl
  · intro t u v _ _ h1 h2 hl
    obtain ⟨a1, a2⟩ := h1 hl
    obtain ⟨b1, b2⟩ := h2 (by rw [a1]; exact hl)
    refine ⟨b1.trans a1, ?_⟩
    exact cong_trans_list a2 b2
  · intro l ts us h _ _; exact ⟨rfl, h⟩
  · exact .nil
  · intro a b l1 l2 h1 _ _ h4; exact .cons h1 h4

/-- From the graph to specifications. -/
theorem specifies_of_inv {P : Lab → Nat → Prop} {f : α → Ast} (hf : AtomsPlain P f) {good : Expr α → Prop}
    {Rl : Expr α → Expr α → Prop} (hR : RelOk good Rl) {h h' : Heap Lab} {n n' : Nat}
    (hi : PassInv (fun t t' => t.label.frame = false ∧ Keeps P f good Rl t t') h n h' n')
    {x : Nat} {l : String} {k : Nat} {e : Expr α} (hx : x < n) (hs : h.Specifies f x l k e) (he : good e) :
    ∃ e', h'.Specifies f x l k e' ∧ good e' ∧ Rl e e' := by
  obtain ⟨t', hd, hc⟩ := hi.cong x hx _ hs
  obtain ⟨h1, h2⟩ := cong_label (fun _ _ h => h.1) hc rfl
  obtain ⟨l', ts⟩ := t'
  simp only [Tree.label, Tree.kids] at h1 h2
  subst h1
  cases h2 with
  | cons a b =>
    cases b
    obtain ⟨e', g', rfl, r'⟩ := (cong_keeps hf hR (fun _ _ h => h.2) a).2 e he rfl
    exact ⟨e', hd, g', r'⟩

/-! ### Reading nodes -/

theorem tr_node {h : Heap Lab} {tr : Nat → Ast} (hd : ∀ z, h.Denotes z (tr z)) (x : Nat) :
    tr x = .node (h.lab x) ((h.kids x).map tr) := by
  refine (hd x).unique (denotes_node.2 ⟨rfl, ?_⟩)
  induction h.kids x with
  | nil => exact .nil
  | cons c cs ih => exact .cons (hd c) ih

theorem map_one {tr : Nat → Ast} {xs : List Nat} {t : Ast} (h : xs.map tr = [t]) : ∃ a, xs = [a] ∧ tr a = t := by
  match xs, h with
  | [a], h => exact ⟨a, rfl, by simpa using h⟩

theorem map_two {tr : Nat → Ast} {xs : List Nat} {t u : Ast} (h : xs.map tr = [t, u]) :
    ∃ a b, xs = [a, b] ∧ tr a = t ∧ tr b = u := by
  match xs, h with
  | [a, b], h => exact ⟨a, b, rfl, by simpa using h⟩

/-- What a node with the tree of `e` looks like. -/
def View (h : Heap Lab) (tr : Nat → Ast) (f : α → Ast) (x : Nat) : Expr α → Prop
  | .atom _ => (h.lab x).logical = false ∧ ∀ v, h.lab x ≠ .lit v
  | .const b => h.lab x = .lit (.bool b)
  | .neg e => h.lab x = .op .neg ∧ ∃ a, h.kids x = [a] ∧ tr a = e.toAst f
  | .and cs => h.lab x = .op .and ∧ (h.kids x).map tr = cs.map (toAst f)
  | .or cs => h.lab x = .op .or ∧ (h.kids x).map tr = cs.map (toAst f)
  | .xor l r => h.lab x = .op .xor ∧ ∃ a b, h.kids x = [a, b] ∧ tr a = l.toAst f ∧ tr b = r.toAst f
  | .imp l r => h.lab x = .op .imp ∧ ∃ a b, h.kids x = [a, b] ∧ tr a = l.toAst f ∧ tr b = r.toAst f
  | .iff l r => h.lab x = .op .iff ∧ ∃ a b, h.kids x = [a, b] ∧ tr a = l.toAst f ∧ tr b = r.toAst f
  | .equal l r => h.lab x = .op .eq ∧ ∃ a b, h.kids x = [a, b] ∧ tr a = l.toAst f ∧ tr b = r.toAst f
  | .fut lb ub e => h.lab x = .tmp .F lb ub ∧ ∃ a, h.kids x = [a] ∧ tr a = e.toAst f
  | .glob lb ub e => h.lab x = .tmp .G lb ub ∧ ∃ a, h.kids x = [a] ∧ tr a = e.toAst f
  | .once lb ub e => h.lab x = .tmp .O lb ub ∧ ∃ a, h.kids x = [a] ∧ tr a = e.toAst f
  | .hist lb ub e => h.lab x = .tmp .H lb ub ∧ ∃ a, h.kids x = [a] ∧ tr a = e.toAst f
  | .untl lb ub l r => h.lab x = .tmp .U lb ub ∧ ∃ a b, h.kids x = [a, b] ∧ tr a = l.toAst f ∧ tr b = r.toAst f
  | .rel lb ub l r => h.lab x = .tmp .R lb ub ∧ ∃ a b, h.kids x = [a, b] ∧ tr a = l.toAst f ∧ tr b = r.toAst f
  | .since lb ub l r => h.lab x = .tmp .S lb ub ∧ ∃ a b, h.kids x = [a, b] ∧ tr a = l.toAst f ∧ tr b = r.toAst f
  | .trig lb ub l r => h.lab x = .tmp .T lb ub ∧ ∃ a b, h.kids x = [a, b] ∧ tr a = l.toAst f ∧ tr b = r.toAst f

theorem view {P : Lab → Nat → Prop} {f : α → Ast} (hf : AtomsPlain P f) {h : Heap Lab} {tr : Nat → Ast}
    (hd : ∀ z, h.Denotes z (tr z)) {x : Nat} {e : Expr α} (hx : tr x = e.toAst f) : View h tr f x e := by
  rw [tr_node hd] at hx
  cases e
  case atom a =>
    simp only [toAst] at hx
    obtain ⟨h1, h2⟩ := hf a
    rw [← hx] at h1 h2
    obtain ⟨h3, _⟩ := h1
    exact ⟨h3.1, fun v hv => h2 v _ (by rw [hv])⟩
  case and cs => simp only [toAst, toAstL_eq, Tree.node.injEq] at hx; exact hx
  case or cs => simp only [toAst, toAstL_eq, Tree.node.injEq] at hx; exact hx
  case const b => simp only [toAst, Tree.node.injEq] at hx; exact hx.1
  all_goals
    simp only [toAst, Tree.node.injEq] at hx
    first
    | exact ⟨hx.1, map_one hx.2⟩
    | exact ⟨hx.1, map_two hx.2⟩

theorem under_kid {L : Type} {h : Heap L} {x i a : Nat} (hk : h.kid x i = some a) : h.Under x a := by
  refine ⟨a, ?_, .self⟩
  unfold Heap.kid at hk
  exact List.mem_of_getElem? hk

theorem under_kids {L : Type} {h : Heap L} {x a : Nat} (hk : a ∈ h.kids x) : h.Under x a := ⟨a, hk, .self⟩

theorem Heap.Under.down {L : Type} {h : Heap L} {x a b : Nat} (hu : h.Under x a) (hb : h.Under a b) : h.Under x b := by
  obtain ⟨k, hk, hr⟩ := hu
  obtain ⟨k', hk', hr'⟩ := hb
  exact ⟨k, hk, (Reachable.kid hr hk').trans hr'⟩

/-- Every old node of the piece satisfies `Q`. -/
structure Bud.OldsIn {L : Type} (Q : Nat → Prop) (b : Bud L) : Prop where
  mem : ∀ o ∈ b.olds, Q o

structure Bud.OldsInL {L : Type} (Q : Nat → Prop) (bs : List (Bud L)) : Prop where
  mem : ∀ b ∈ bs, b.OldsIn Q

theorem oldsIn_old {L : Type} {Q : Nat → Prop} {x : Nat} (h : Q x) : (Bud.old x : Bud L).OldsIn Q := by
  constructor; intro o ho; simp only [Bud.olds, List.mem_singleton] at ho; rw [ho]; exact h

theorem oldsIn_new {L : Type} {Q : Nat → Prop} {l : L} {cs : List (Bud L)} (h : Bud.OldsInL Q cs) : (Bud.new l cs).OldsIn Q := by
  constructor
  intro o ho
  simp only [Bud.olds, Bud.oldsL_eq, List.mem_flatMap] at ho
  obtain ⟨c, hc, ho⟩ := ho
  exact (h.mem c hc).mem o ho

theorem oldsIn_cons {L : Type} {Q : Nat → Prop} {c : Bud L} {cs : List (Bud L)} (h : c.OldsIn Q) (h' : Bud.OldsInL Q cs) :
    Bud.OldsInL Q (c :: cs) := by
  constructor
  intro d hd
  rcases List.mem_cons.1 hd with rfl | hd
  · exact h
  · exact h'.mem d hd

theorem oldsIn_nil {L : Type} {Q : Nat → Prop} : Bud.OldsInL (L := L) Q [] := ⟨by simp⟩

theorem oldsIn_map {L : Type} {Q : Nat → Prop} {xs : List Nat} {g : Nat → Bud L} (h : ∀ x ∈ xs, (g x).OldsIn Q) :
    Bud.OldsInL Q (xs.map g) := by
  constructor
  intro d hd
  obtain ⟨x, hx, rfl⟩ := List.mem_map.1 hd
  exact h x hx

/-- How the conditions on a rule are established. -/
theorem ruleOk {P : Lab → Nat → Prop} {f : α → Ast} {good : Expr α → Prop} {Rl : Expr α → Expr α → Prop} {rule : Rule Lab}
    (olds : ∀ {h x b}, rule h x = some (some b) → b.OldsIn (h.Under x))
    (lab : ∀ {h x b}, rule h x = some (some b) → (h.lab x).frame = false)
    (plain : ∀ {h x b}, rule h x = some (some b) → (h.lab x).logical = false → P (h.lab x) (h.kids x).length →
      (∀ c ∈ h.kids x, (h.lab c).logical = false) → False)
    (expr : ∀ {h x b tr} {e : Expr α}, (∀ z, h.Denotes z (tr z)) → tr x = e.toAst f → good e → rule h x = some (some b) →
      (∀ a, e ≠ .atom a) → ∃ e', good e' ∧ b.read tr = e'.toAst f ∧ Rl e e') (hf : AtomsPlain P f) :
    RuleOk rule (fun t t' => t.label.frame = false ∧ Keeps P f good Rl t t') := by
  have hpl : ∀ {h : Heap Lab} {x : Nat} {b : Bud Lab} {tr : Nat → Ast}, (∀ z, h.Denotes z (tr z)) → rule h x = some (some b) →
      (tr x).All (fun l k => l.logical = false ∧ P l k) → False := by
    intro h x b tr hd hr ha
    rw [tr_node hd] at ha
    obtain ⟨h1, h2⟩ := ha
    refine plain hr h1.1 (by simpa using h1.2) fun c hc => ?_
    have := h2 (tr c) (List.mem_map_of_mem hc)
    rw [tr_node hd] at this
    obtain ⟨h3, _⟩ := this
    exact h3.1
  refine ⟨fun hr => (olds hr).mem, fun {h x b tr} hd hr => ⟨?_, fun ha => (hpl hd hr ha).elim, fun e he hx => ?_⟩⟩
  · rw [tr_node hd]; exact lab hr
  · by_cases hat : ∃ a, e = .atom a
    · obtain ⟨a, rfl⟩ := hat
      exact (hpl hd hr (by rw [hx]; exact (hf a).1)).elim
    · exact expr hd hx he hr fun a h => hat ⟨a, h⟩


macro "olds_in" : tactic => `(tactic| (
  (repeat' first
    | apply oldsIn_old
    | apply oldsIn_new
    | apply oldsIn_cons
    | apply oldsIn_nil
    | (apply oldsIn_map; intro _ _)); all_goals (
  first
    | assumption
    | exact under_kid (by assumption)
    | exact under_kids (by assumption)
    | exact (under_kid (by assumption)).down (under_kid (by assumption))
    | exact (under_kid (by assumption)).down (under_kids (by assumption))
    | exact ((under_kid (by assumption)).down (under_kid (by assumption))).down (under_kid (by assumption)))))

theorem bnf_olds {h : Heap Lab} {x : Nat} {b : Bud Lab} (hr : bnfRule h x = some (some b)) : b.OldsIn (h.Under x) := by
  unfold bnfRule at hr
  split at hr
  all_goals
    simp only [Option.bind_eq_bind, Option.bind_eq_some_iff, Option.some.injEq, reduceCtorEq] at hr
  all_goals
    (first | subst hr | obtain ⟨_, _, rfl⟩ := hr | obtain ⟨_, _, _, _, rfl⟩ := hr); olds_in

theorem nnf_olds {h : Heap Lab} {x : Nat} {b : Bud Lab} (hr : nnfRuleG h x = some (some b)) : b.OldsIn (h.Under x) := by
  unfold nnfRuleG at hr
  split at hr
  case h_1 =>
    simp only [Option.bind_eq_bind, Option.bind_eq_some_iff] at hr
    obtain ⟨_, _, hr⟩ := hr
    split at hr
    all_goals
      simp only [Option.bind_eq_bind, Option.bind_eq_some_iff, Option.some.injEq, reduceCtorEq] at hr
    all_goals
      (first | subst hr | obtain ⟨_, _, rfl⟩ := hr | obtain ⟨_, _, _, _, rfl⟩ := hr); olds_in
  all_goals
    simp only [Option.bind_eq_bind, Option.bind_eq_some_iff, Option.some.injEq, reduceCtorEq] at hr
  all_goals
    (first | subst hr | obtain ⟨_, _, rfl⟩ := hr | obtain ⟨_, _, _, _, rfl⟩ := hr); olds_in

theorem ext_olds {h : Heap Lab} {x : Nat} {b : Bud Lab} (hr : extRule h x = some (some b)) : b.OldsIn (h.Under x) := by
  unfold extRule at hr
  split at hr
  all_goals
    simp only [Option.bind_eq_bind, Option.bind_eq_some_iff, Option.some.injEq, reduceCtorEq] at hr
  all_goals
    (first | subst hr | obtain ⟨_, _, rfl⟩ := hr | obtain ⟨_, _, _, _, rfl⟩ := hr); olds_in

theorem release_olds {h : Heap Lab} {x : Nat} {b : Bud Lab} (hr : releaseRule h x = some (some b)) : b.OldsIn (h.Under x) := by
  unfold releaseRule at hr
  split at hr
  all_goals
    simp only [Option.bind_eq_bind, Option.bind_eq_some_iff, Option.some.injEq, reduceCtorEq] at hr
  all_goals
    (first | subst hr | obtain ⟨_, _, rfl⟩ := hr | obtain ⟨_, _, _, _, rfl⟩ := hr); olds_in
end R2U2
