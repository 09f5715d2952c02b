import Verif.Lemmas.Printing
import Verif.Props.Rewrite
import Verif.Props.Delay
/-
C17: textual keys are unambiguous; C01 with the real key.
-/
namespace R2U2
open Expr Rewrite
variable {α : Type}

/-- C17 for `repr`, the key of `optimize_cse`: two desugared expressions with the
same text are the same expression. -/
theorem C17_repr_unambiguous (s t : Ast) (hs : Desugared true s) (ht : Desugared true t)
    (h : prefixStr s = prefixStr t) : s = t :=
  (prefix_unique s hs t ht [] [] (headIn_nil _) (headIn_nil _) (by rw [h])).1

/-- C17 for `str`, the key of `optimize_rewrites` (which runs before `Atomic`
wrappers are introduced). -/
theorem C17_str_unambiguous (s t : Ast) (hs : Desugared false s) (ht : Desugared false t)
    (h : infixStr s = infixStr t) : s = t :=
  (infix_unique s hs t ht [] [] (headIn_nil _) (headIn_nil _) (by rw [h])).1

theorem ident_no_colon {s : String} (h : IsIdent s) : Free (fun c => c == ':') s.toList := by
  obtain ⟨⟨d, ds, h1, h2, h3⟩, _⟩ := h
  intro c hc
  rw [h1, List.mem_cons] at hc
  have : isIdentChar c = true := by
    rcases hc with rfl | hc
    · exact identStart_identChar h2
    · exact h3 c hc
  simp only [beq_eq_false_iff_ne]
  rintro rfl
  revert this; decide

/-- C17 for whole specifications: the label and the expression are both recovered from
the text, so specifications with different labels are never merged. -/
theorem C17_formula_unambiguous (l l' : String) (n n' : Nat) (e e' : Ast)
    (hl : IsIdent l) (hl' : IsIdent l') (he : Desugared true e) (he' : Desugared true e')
    (h : prefixStr (.node (.formula l n) [e]) = prefixStr (.node (.formula l' n') [e'])) :
    l = l' ∧ e = e' := by
  simp only [prefixStr] at h
  obtain ⟨h1, h2⟩ := split_word (ident_no_colon hl) (ident_no_colon hl') (headIn_cons (by decide))
    (headIn_cons (by decide)) h
  simp only [List.cons.injEq, true_and] at h2
  exact ⟨String.toList_inj.1 h1, C17_repr_unambiguous e e' he he' h2⟩

/-- Concrete names for the examples. -/
theorem ident_x : IsIdent "x" := ⟨⟨'x', [], by decide, by decide, by simp⟩, by decide, by decide⟩
theorem ident_y : IsIdent "y" := ⟨⟨'y', [], by decide, by decide, by simp⟩, by decide, by decide⟩

/-- A non-trivial expression meeting the hypotheses, and its two texts:
`G[0,10] (x > -5)` with the comparison wrapped as an atomic. -/
example :
    let e : Ast := .node (.tmp .G 0 10) [.node .atomic
      [.node (.op .gt) [.node (.name "x") [], .node (.lit (.int (-5))) []]]]
    Desugared true e ∧ prefixStr e = "(G[0,10] Atomic((> x -5)))".toList ∧
      infixStr e = "(G[0,10] (x > -5))".toList := by
  refine ⟨by simp [Desugared, DesugaredL, ident_x], ?_, ?_⟩ <;>
    simp [prefixStr, prefixArgs, infixStr, infixJoin, tmpSym, natStr, litStr, intStr, OpK.sym, TmpK.letter,
      Nat.digitChar]

example : Desugared false (.node (.op .prev) [.node (.name "x") [], .node (.lit (.bool true)) []]) := by
  simp [Desugared, DesugaredL, ident_x]

/-- The key does not separate a specification set from its only specification
(the set is the traversal root, has no parents, and replacing it has no effect on any
specification). -/
theorem C17_fails_on_singleton_set (l : String) (n : Nat) (e : Ast) :
    prefixStr (.node .specSet [.node (.formula l n) [e]]) = prefixStr (.node (.formula l n) [e]) := by
  simp [prefixStr, prefixJoin, prefixArgs]

/-- Before desugaring the key is ambiguous: the count of a set aggregation is not
printed, so `foratleast(s : {x}, 1)(s)` and `foratleast(s : {x}, 2)(s)` have the same text. -/
theorem C17_fails_on_aggregation_count (v : String) (set num num' bind body : Ast) :
    prefixStr (.node (.agg .atLeast v) [set, num, bind, body]) =
      prefixStr (.node (.agg .atLeast v) [set, num', bind, body]) := by
  simp [prefixStr]

/-- Atom trees are not the trees of other temporal-level expressions. -/
def AtomsSeparate (f : α → Ast) : Prop := ∀ (a : α) (e : Expr α), toAst f e = f a → e = .atom a

theorem toAstL_eq (f : α → Ast) (cs : List (Expr α)) : toAstL f cs = cs.map (toAst f) := by
  induction cs with
  | nil => rfl
  | cons c cs ih => simp [toAstL, ih]

theorem map_inj_of {f : Expr α → Ast} : ∀ {l m : List (Expr α)},
    (∀ c ∈ l, ∀ d, f c = f d → c = d) → l.map f = m.map f → l = m
  | [], [], _, _ => rfl
  | [], _ :: _, _, h => by simp at h
  | _ :: _, [], _, h => by simp at h
  | a :: l, b :: m, hl, h => by
    simp only [List.map_cons, List.cons.injEq] at h
    rw [hl a (by simp) b h.1, map_inj_of (fun c hc => hl c (by simp [hc])) h.2]

theorem toAst_inj {f : α → Ast} (hf : AtomsSeparate f) (e : Expr α) :
    ∀ e', toAst f e = toAst f e' → e = e' := by
  induction e using childInduction with
  | h e ih =>
    intro e' h
    by_cases ha : ∃ a, e = .atom a
    · obtain ⟨a, rfl⟩ := ha
      exact (hf a e' h.symm).symm
    by_cases ha' : ∃ a, e' = .atom a
    · obtain ⟨a, rfl⟩ := ha'
      exact hf a e h
    cases e <;> cases e' <;>
      first
      | (exact absurd ⟨_, rfl⟩ ha)
      | (exact absurd ⟨_, rfl⟩ ha')
      | (simp [toAst] at h; done)
      | (simp only [toAst, Tree.node.injEq, Lab.tmp.injEq, Lab.lit.injEq, Lit.bool.injEq,
          List.cons.injEq, true_and, and_true] at h
         simp only [children, List.mem_cons, List.not_mem_nil, or_false, forall_eq_or_imp, forall_eq] at ih
         first
         | (subst h; rfl)
         | (rw [ih _ h]; done)
         | (rw [ih.1 _ h.1, ih.2 _ h.2]; done)
         | (obtain ⟨⟨rfl, rfl⟩, h⟩ := h; rw [ih _ h]; done)
         | (obtain ⟨⟨rfl, rfl⟩, h, h'⟩ := h; rw [ih.1 _ h, ih.2 _ h']; done)
         | (rw [toAstL_eq, toAstL_eq] at h; rw [map_inj_of ih h]))

theorem toAst_desugared {f : α → Ast} (hd : ∀ a, Desugared false (f a)) (e : Expr α) :
    Nowhere isNonBinary e → Desugared false (toAst f e) := by
  induction e using childInduction with
  | h e ih =>
    intro h
    obtain ⟨hb, hc⟩ := nowhere_iff.1 h
    have ih' : ∀ c ∈ e.children, Desugared false (toAst f c) := fun c hc' => ih c hc' (hc c hc')
    cases e <;> simp only [children, List.mem_cons, List.not_mem_nil, or_false, forall_eq_or_imp,
      forall_eq] at ih' <;> simp only [toAst] <;>
      first
      | exact hd _
      | (simp [Desugared, DesugaredL, ih']; done)
      | (simp only [Desugared]
         rename_i cs
         refine ⟨?_, ?_⟩
         · rintro h0
           rw [toAstL_eq, List.map_eq_nil_iff] at h0
           subst h0
           simp [isNonBinary] at hb
         · rw [toAstL_eq, desugaredL_iff]
           simpa using ih')

/-- Python's `str` separates temporal-level expressions. -/
theorem C17_str_separates {f : α → Ast} (hf : AtomsSeparate f) (hd : ∀ a, Desugared false (f a)) :
    KeyInj (str f) := by
  intro p q hp hq h
  exact toAst_inj hf p q (C17_str_unambiguous _ _ (toAst_desugared hd p hp) (toAst_desugared hd q hq) h)

/-- C01 with the text the code compares operands by, instead of an abstract key: the command
succeeds and the result has the same verdict at every time of every trace. -/
theorem C01_optimize_str_partial {f : α → Ast} (hf : AtomsSeparate f)
    (hd : ∀ a, Desugared false (f a)) (e : Expr α)
    (hord : Nowhere isDisordered e) (hbin : Nowhere isNonBinary e) (heq : Nowhere isConstEqual e) :
    ∃ e', optimize (str f) e = some e' ∧ Equiv e' e :=
  C01_optimize_verdicts_partial (str f)
    (fun p q hp hq h => by rw [C17_str_separates hf hd p q hp hq h]; exact Equiv.refl q) e hord hbin heq

/-- C01 + C15 + C52 with the real key: the documented finite-trace verdict is kept on every
trace long enough to decide the specification the user wrote. -/
theorem C01_optimize_str_finite_partial {f : α → Ast} (hf : AtomsSeparate f)
    (hd : ∀ a, Desugared false (f a)) (e : Expr α) (hp : Nowhere isPast e)
    (hord : Nowhere isDisordered e) (hbin : Nowhere isNonBinary e) (heq : Nowhere isConstEqual e) :
    ∃ e', optimize (str f) e = some e' ∧
      ∀ (π : FinTrace α) (i : Nat), (i : Int) + wpd e < π.len → (satFin π e' i ↔ satFin π e i) :=
  C01_optimize_finite_partial (str f) (C17_str_separates hf hd) e hp hord hbin heq

/-- Atoms as a mix of signals and comparisons: the hypotheses on atoms are met. -/
def exAtom : Bool → Ast
  | true => .node (.name "x") []
  | false => .node (.op .gt) [.node (.name "y") [], .node (.lit (.int 5)) []]

theorem exAtom_separate : AtomsSeparate exAtom ∧ ∀ a, Desugared false (exAtom a) := by
  constructor
  · intro a e h
    cases e <;> cases a <;> (try (simp [toAst, exAtom] at h; done))
    all_goals
      rename_i b
      cases b <;> first | rfl | (simp [toAst, exAtom] at h)
  · intro a
    cases a <;> simp [exAtom, Desugared, DesugaredL, ident_x, ident_y]

end R2U2
