import Verif.Spec.Grammar
import Verif.Lemmas.GrammarProgram
import Verif.Lemmas.Spelling
/-
C59: the parser accepts the programs of the language and no other text, and what it returns is what they mean.
C61: specifications are numbered in the order of the text.
-/
namespace R2U2
namespace C2po

/-- C59.  A text is accepted if and only if its tokens are a program, and the result is what the grammar says the program means:
operators bind in the order of the table and group to the left, a name declared as an input in an earlier section is a signal,
members of enumerations and specifications get their numbers in the order of the text. -/
theorem C59_exact (flt : String → String) (mission : Int) (s : List Char) (ss : List Section) :
    parse flt mission s = some ss ↔ IsProgram mission [] 0 (lex flt s) ss :=
  parse_iff flt mission s ss

/-- No program has two meanings. -/
theorem C59_unambiguous {mission : Int} {lits : List String} {n : Nat} {ts : List Tok} {ss ss' : List Section}
    (h : IsProgram mission lits n ts ss) (h' : IsProgram mission lits n ts ss') : ss = ss' :=
  Option.some.inj ((sections_of h _ (Nat.le_refl _)).symm.trans (sections_of h' _ (Nat.le_refl _)))

/-- No expression has two meanings. -/
theorem C59_unambiguous_expr {mission : Int} {lits : List String} {ts : List Tok} {e e' : Src}
    (h : IsExpr lits mission ts e) (h' : IsExpr lits mission ts e') : e = e' := by
  have h1 := (expr_semi (us := []) h).symm.trans (expr_semi (us := []) h')
  simpa using h1

/-- Tokens with blanks, tabs or line breaks between them are read one by one.

Missing: identifiers that start with `prev`, see `C59_prev_fails`. -/
theorem C59_tokens_partial (flt : String → String) (ws : List (List Char × Tok × List Char))
    (h : ∀ x ∈ ws, Spells flt x.1 x.2.1 ∧ ¬ PrevWord x.2.1 ∧ Gap x.2.2) :
    lex flt (ws.flatMap fun x => x.1 ++ x.2.2) = ws.map fun x => x.2.1 :=
  lex_spaced ws h

/-- A line break ends a token: lines are read one after another. -/
theorem C59_lines (flt : String → String) (s t : List Char) : lex flt (s ++ '\n' :: t) = lex flt s ++ lex flt t :=
  lex_line flt s t

/-- From `--` to the end of the line is a comment: a program means the same with and without it. -/
theorem C59_comment (flt : String → String) (mission : Int) (s c t : List Char) (h : '\n' ∉ c) :
    parse flt mission (s ++ '\n' :: '-' :: '-' :: (c ++ '\n' :: t)) = parse flt mission (s ++ '\n' :: t) := by
  have h1 : lex flt (s ++ '\n' :: '-' :: '-' :: (c ++ '\n' :: t)) = lex flt (s ++ '\n' :: t) := by
    have h2 : '-' :: '-' :: (c ++ '\n' :: t) = ('-' :: '-' :: c) ++ '\n' :: t := rfl
    rw [lex_line, h2, lex_line, lex_comment flt c h, List.nil_append, lex_line]
  rw [parse, parse, h1]

/-- A program with most of the grammar in it, and what the parser makes of it. -/
example : parse id 9 "INPUT a, b: bool; -- comment
    ENUM E: {p, q: 7, r}; DEFINE c := x[1] + 2 * -y << 1;".toList =
    some [.input [(["a", "b"], .bool)],
      .enum [("E", [("p", mkLit (.int 0)), ("q", mkLit (.int 7)), ("r", mkLit (.int 1))])],
      .define [("c", mkOp .shl [mkOp .add [.node (.index 1) .none [.node (.var "x") .none []],
        mkOp .mul [mkLit (.int 2), mkOp .sub [.node (.var "y") .none []]]], mkLit (.int 1)])]] := by
  set_option maxRecDepth 100000 in rfl

example : parse id 9 "INPUT a, b: bool; FTSPEC a && !b || c -> G[0,5] a U[2] b == 3; l: foreach(v : {a, b})(v) => F[1,M] a;".toList =
    some [.input [(["a", "b"], .bool)],
      .spec true [
        .formula "__f0__" 0 (mkOp .imp [
          mkOp .or [mkOp .and [.node (.sig "a") .none [], mkOp .neg [.node (.sig "b") .none []]], .node (.var "c") .none []],
          mkTmp .U 0 2 [mkTmp .G 0 5 [.node (.sig "a") .none []], mkOp .eq [.node (.sig "b") .none [], mkLit (.int 3)]]]),
        .contract "l" 1 2 3
          (mkAgg .each "v" [mkArray [.node (.sig "a") .none [], .node (.sig "b") .none []], .node (.var "v") .none []])
          (mkTmp .F 1 9 [.node (.sig "a") .none []])]] := by
  set_option maxRecDepth 100000 in rfl

/-- Without a mission time `M` is rejected. -/
example : parse id (-1) "FTSPEC F[1,M] a;".toList = none := rfl

/-- `a && b || c` means `(a && b) || c`, whatever `a`, `b` and `c` stand for. -/
example : IsExpr [] 0 [.sym "a", .op .and, .sym "b", .op .or, .sym "c"]
    (mkOp .or [mkOp .and [.node (.var "a") .none [], .node (.var "b") .none []], .node (.var "c") .none []]) :=
  ⟨_, _, .infix (n := 2) (t := [.sym "a", .op .and, .sym "b"]) .or (by decide)
    (.infix (n := 3) (t := [.sym "a"]) .and (by decide) (.name "a" (by simp)) (.name "b" (by simp)) (by decide) (by decide))
    (.name "c" (by simp)) (by decide) (by decide)⟩

/-- The tokens of `a := -2 ;`. -/
example : ∃ ws : List (List Char × Tok × List Char), (∀ x ∈ ws, Spells id x.1 x.2.1 ∧ ¬ PrevWord x.2.1 ∧ Gap x.2.2) ∧
    (ws.flatMap fun x => x.1 ++ x.2.2) = "a := -2 ;\n".toList ∧ ws.map (fun x => x.2.1) = [.sym "a", .assign, .num (-2), .semi] := by
  have hs : ∀ c : Char, (c = ' ' ∨ c = '\n') → Gap [c] := by
    rintro c (rfl | rfl) <;> exact ⟨by simp, by simp⟩
  refine ⟨[("a".toList, .sym "a", [' ']), (":=".toList, .assign, [' ']), ("-2".toList, .num (-2), [' ']), (";".toList, .semi, ['\n'])],
    ?_, rfl, rfl⟩
  intro x hx
  simp only [List.mem_cons, List.not_mem_nil, or_false] at hx
  rcases hx with rfl | rfl | rfl | rfl
  · exact ⟨.name (w := ['a']) ⟨'a', [], rfl, .inl (by decide), by simp⟩ (by decide +kernel), show ¬ "prev".toList <+: "a".toList by decide, hs _ (.inl rfl)⟩
  · exact ⟨.mark (p := (":=", .assign)) (by decide +kernel), by simp [PrevWord], hs _ (.inl rfl)⟩
  · exact ⟨.neg 2 (by decide), by simp [PrevWord], hs _ (.inl rfl)⟩
  · exact ⟨.mark (p := (";", .semi)) (by decide +kernel), by simp [PrevWord], hs _ (.inr rfl)⟩

/-- An identifier may start with `prev` according to the documentation.  It is read as the operator and another identifier, and the
program is rejected, whatever type and whatever mission time. -/
theorem C59_prev_fails : ∃ w t, Spells id w t ∧ lex id (w ++ [' ']) ≠ [t] ∧
    ∀ mission, parse id mission ("INPUT ".toList ++ w ++ ": bool; FTSPEC ".toList ++ w ++ ";".toList) = none := by
  refine ⟨"previous".toList, .sym "previous",
    .name (w := "previous".toList) ⟨'p', "revious".toList, rfl, .inl (by decide), ?_⟩ (by decide +kernel), by decide +kernel, fun _ => rfl⟩
  have : ∀ d ∈ "revious".toList, isStart d = true := by decide
  exact fun d hd => .inl ((letter_iff d).2 (this d hd))

/-- A minus sign followed by a digit is part of the number: of the same tokens with and without a blank after the minus, one
is accepted and the other is not. -/
theorem C59_minus_fails : (∃ ss, parse id (-1) "INPUT x: int; FTSPEC x - 1 == 0;".toList = some ss) ∧
    parse id (-1) "INPUT x: int; FTSPEC x -1 == 0;".toList = none ∧ parse id (-1) "INPUT x: int; FTSPEC x-1 == 0;".toList = none :=
  ⟨⟨_, rfl⟩, rfl, rfl⟩

/-- And `-1 pow 2` is not the opposite of `1 pow 2`, as `-x pow 2` is not either: the sign binds more tightly than any operator. -/
example : parse id (-1) "DEFINE a := -1 pow 2; b := -x pow 2;".toList =
    some [.define [("a", mkOp .pow [mkLit (.int (-1)), mkLit (.int 2)]), ("b", mkOp .pow [mkOp .sub [.node (.var "x") .none []], mkLit (.int 2)])]] := rfl

/-- Characters that belong to no token are skipped; the text is accepted as if they were not there. -/
theorem C59_illegal_fails : (∃ ss, parse id (-1) "FTSPEC a && $b?;".toList = some ss) ∧
    parse id (-1) "FTSPEC a && $b?;".toList = parse id (-1) "FTSPEC a && b;".toList :=
  ⟨⟨_, rfl⟩, rfl⟩

/-- An array without elements, which the grammar has a rule for, is never accepted. -/
theorem C59_empty_array_fails (flt : String → String) (mission : Int) :
    parse flt mission "DEFINE a := {};".toList = none := rfl

/-! ### C61 -/

/-- The numbers of a specification. -/
def numbersOf : Spec → List Nat
  | .formula _ n _ => [n]
  | .contract _ a b c _ _ => [a, b, c]

def Section.numbers : Section → List Nat
  | .spec _ ss => ss.flatMap numbersOf
  | _ => []

theorem specs_numbers {mission : Int} {lits : List String} {n k : Nat} {ts : List Tok} {ss : List Spec} (h : IsSpecs lits mission n ts ss k) :
    n ≤ k ∧ ss.flatMap numbersOf = List.range' n (k - n) := by
  induction h with
  | nil n => simp
  | @cons n k m t u s ss hs _ ih =>
    obtain ⟨h1, h2⟩ := ih
    rw [List.flatMap_cons, h2]
    cases hs with
    | plain _ =>
      refine ⟨by omega, ?_⟩
      have : m - n = 1 + (m - (n + 1)) := by omega
      rw [this, ← List.range'_append_1]; rfl
    | label _ _ =>
      refine ⟨by omega, ?_⟩
      have : m - n = 1 + (m - (n + 1)) := by omega
      rw [this, ← List.range'_append_1]; rfl
    | contract _ _ _ =>
      refine ⟨by omega, ?_⟩
      have : m - n = 3 + (m - (n + 3)) := by omega
      rw [this, ← List.range'_append_1]; rfl

theorem program_numbers {mission : Int} {lits : List String} {n : Nat} {ts : List Tok} {ss : List Section} (h : IsProgram mission lits n ts ss) :
    ss.flatMap Section.numbers = List.range' n (ss.flatMap Section.numbers).length := by
  induction h with
  | nil => rfl
  | input _ _ _ ih | define _ _ _ ih | struct _ _ _ ih | enum _ _ _ ih => simpa [Section.numbers] using ih
  | ftspec _ hs _ ih | ptspec _ hs _ ih =>
    obtain ⟨h1, h2⟩ := specs_numbers hs
    simp only [List.flatMap_cons, Section.numbers, List.length_append, h2, List.length_range']
    rw [← List.range'_append_1, Nat.add_sub_cancel' h1, ← ih]

/-- C61.  The specifications of a program, in all its sections, are numbered 0, 1, 2, ... in the order of the text, three numbers for a
contract. -/
theorem C61_numbers (flt : String → String) (mission : Int) (s : List Char) (ss : List Section) (h : parse flt mission s = some ss) :
    ∃ k, ss.flatMap Section.numbers = List.range k :=
  ⟨_, by rw [List.range_eq_range']; exact program_numbers ((parse_iff ..).1 h)⟩

/-- So no two specifications share a number. -/
theorem C61_distinct (flt : String → String) (mission : Int) (s : List Char) (ss : List Section) (h : parse flt mission s = some ss) :
    (ss.flatMap Section.numbers).Nodup := by
  obtain ⟨k, hk⟩ := C61_numbers flt mission s ss h
  rw [hk]
  exact List.nodup_range

/-- The name of a specification. -/
def labelOf : Spec → String
  | .formula l _ _ => l
  | .contract l _ _ _ _ _ => l

/-- The name of a specification with no label can be the label of another one: labels do not identify specifications. -/
theorem C61_labels_fail : ∃ ss, parse id (-1) "FTSPEC __f1__: a; b;".toList = some [.spec true ss] ∧ ¬ (ss.map labelOf).Nodup :=
  ⟨_, rfl, by decide +kernel⟩

end C2po
end R2U2
