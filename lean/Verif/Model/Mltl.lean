import Verif.Model.Printing
import Verif.Model.TypeCheck
/-
Model of the MLTL standard format: `to_mltl_std` (cpt.py:2187-2240) writes it, `MLTLLexer` and `MLTLParser`
(parse_mltl.py:7-263) read it.

Texts are lists of characters.  `\d`-like classes in the lexer are spelled `[0-9]`, so digits are ASCII.
-/
namespace R2U2
namespace Mltl

/-! ### Writing -/

/-- What is written between two operands (cpt.py:2222-2230) for `&&` and `||`. -/
def sepAnd : List Char := [' ', '&', ' ']
def sepOr : List Char := [' ', '|', ' ']

/-- An operator with one operand (cpt.py:2206-2214). -/
def wrap1 (sym c : List Char) : List Char := '(' :: (sym ++ ' ' :: (c ++ [')']))

/-- Two operands (cpt.py:2215-2232). -/
def wrap2 (sym l r : List Char) : List Char := '(' :: (l ++ ' ' :: (sym ++ ' ' :: (r ++ [')'])))

/-- `separator.join(texts)`. -/
def joined (sep : List Char) : List (List Char) → List Char
  | [] => []
  | [c] => c
  | c :: d :: cs => c ++ (sep ++ joined sep (d :: cs))

/-- An operator with any number of operands: one operand takes the branch for unary operators, with the two-character
symbol.  (There is no operator without operands: the constructor takes the maximum of their delays, cpt.py:526.) -/
def wrapN (sym sep : List Char) : List (List Char) → Option (List Char)
  | [] => none
  | [c] => some (wrap1 sym c)
  | cs => some ('(' :: (joined sep cs ++ [')']))

mutual
/-- The text of a formula (cpt.py:2199-2237); `none` is the error.  `id` is `context.atomic_id_map`; atoms are the
leaves of the formula, including comparisons, which the code finds in the map before it looks at their operator. -/
def text {α : Type} (id : α → Option Nat) : Expr α → Option (List Char)
  | .const true => some ['t', 'r', 'u', 'e', ' ']
  | .const false => some ['f', 'a', 'l', 's', 'e', ' ']
  | .atom a => (id a).map fun n => 'a' :: natStr n
  | .neg e => (text id e).map (wrap1 OpK.neg.sym)
  | .and cs => (textL id cs).bind (wrapN OpK.and.sym sepAnd)
  | .or cs => (textL id cs).bind (wrapN OpK.or.sym sepOr)
  | .xor l r => (text id l).bind fun s => (text id r).map (wrap2 OpK.xor.sym s)
  | .imp l r => (text id l).bind fun s => (text id r).map (wrap2 OpK.imp.sym s)
  | .iff l r => (text id l).bind fun s => (text id r).map (wrap2 OpK.iff.sym s)
  | .equal _ _ => none
  | .fut lb ub e => (text id e).map (wrap1 (tmpSym .F lb ub))
  | .glob lb ub e => (text id e).map (wrap1 (tmpSym .G lb ub))
  | .untl lb ub l r => (text id l).bind fun s => (text id r).map (wrap2 (tmpSym .U lb ub) s)
  | .rel lb ub l r => (text id l).bind fun s => (text id r).map (wrap2 (tmpSym .R lb ub) s)
  | .once lb ub e => (text id e).map (wrap1 (tmpSym .O lb ub))
  | .hist lb ub e => (text id e).map (wrap1 (tmpSym .H lb ub))
  | .since lb ub l r => (text id l).bind fun s => (text id r).map (wrap2 (tmpSym .S lb ub) s)
  | .trig lb ub l r => (text id l).bind fun s => (text id r).map (wrap2 (tmpSym .T lb ub) s)
def textL {α : Type} (id : α → Option Nat) : List (Expr α) → Option (List (List Char))
  | [] => some []
  | c :: cs => (text id c).bind fun s => (textL id cs).map (s :: ·)
end

/-- `to_mltl_std` (cpt.py:2187-2240) on the formulas `program.get_specs()`, in order; contracts are `none`. -/
def exported {α : Type} (id : α → Option Nat) : List (Option (Expr α)) → Option (List Char)
  | [] => some []
  | none :: es => exported id es
  | some e :: es => (text id e).bind fun s => (exported id es).map fun t => s ++ '\n' :: t

/-! ### Reading: tokens -/

/-- The tokens (parse_mltl.py:9-47). -/
inductive Tok where
  | neg | and | or | imp | iff | newline | num (n : Nat) | comma | lbrack | rbrack | lparen | rparen | mission
  | tl (k : TmpK) | tru | fls | atomic (n : Nat)
  deriving DecidableEq

def isDig (c : Char) : Bool := '0' ≤ c && c ≤ '9'

/-- `int(text)` of a text of digits. -/
def decimal (ds : List Char) : Nat := ds.foldl (fun n d => n * 10 + (d.toNat - 48)) 0

/-- `[1-9][0-9]*|0` (parse_mltl.py:28) at the start of the text: the value and the rest. -/
def numeral : List Char → Option (Nat × List Char)
  | [] => none
  | c :: cs =>
      if c = '0' then some (0, cs)
      else if isDig c then some (decimal (c :: cs.takeWhile isDig), cs.dropWhile isDig)
      else none

/-- `.*\n`: what follows the end of the line, if there is one. -/
def afterLine : List Char → Option (List Char)
  | [] => none
  | c :: cs => if c = '\n' then some cs else afterLine cs

/-- One step of the lexer at a non-empty text (parse_mltl.py:7-61): the token, if any, and the rest.  Blanks, comments and
illegal characters give none; an illegal character is logged and skipped, which does not fail the parse. -/
def lexOne (c : Char) (cs : List Char) : Option Tok × List Char :=
  match c with
  | '!' => (some .neg, cs)
  | '&' => (some .and, cs)
  | '|' => (some .or, cs)
  | '-' => match cs with
      | '>' :: r => (some .imp, r)
      | _ => (none, cs)
  | '<' => match cs with
      | '-' :: '>' :: r => (some .iff, r)
      | _ => (none, cs)
  | '\n' => (some .newline, cs)
  | ',' => (some .comma, cs)
  | '[' => (some .lbrack, cs)
  | ']' => (some .rbrack, cs)
  | '(' => (some .lparen, cs)
  | ')' => (some .rparen, cs)
  | 'M' => (some .mission, cs)
  | 'G' => (some (.tl .G), cs)
  | 'F' => (some (.tl .F), cs)
  | 'H' => (some (.tl .H), cs)
  | 'O' => (some (.tl .O), cs)
  | 'U' => (some (.tl .U), cs)
  | 'R' => (some (.tl .R), cs)
  | 'S' => (some (.tl .S), cs)
  | 'T' => (some (.tl .T), cs)
  | 't' => match cs with
      | 'r' :: 'u' :: 'e' :: r => (some .tru, r)
      | _ => (none, cs)
  | 'f' => match cs with
      | 'a' :: 'l' :: 's' :: 'e' :: r => (some .fls, r)
      | _ => (none, cs)
  | 'a' => match numeral cs with
      | some (n, r) => (some (.atomic n), r)
      | none => (none, cs)
  | '#' => match afterLine cs with
      | some r => (none, r)
      | none => (none, cs)
  | c => match numeral (c :: cs) with
      | some (n, r) => (some (.num n), r)
      | none => (none, cs)

/-- `lexer.tokenize` with at most `n` steps. -/
def lexN : Nat → List Char → List Tok
  | 0, _ => []
  | _, [] => []
  | n + 1, c :: cs => (lexOne c cs).1.toList ++ lexN n (lexOne c cs).2

/-- `lexer.tokenize`: every step consumes a character. -/
def lex (s : List Char) : List Tok := lexN s.length s

/-! ### Reading: formulas

sly makes an LALR parser from the productions, all of the form `expr OP expr`, `OP expr`, `( expr )` or a leaf, with
conflicts decided by the precedence table (parse_mltl.py:66-74).  Such a parser keeps a stack of operators that wait for
their last operand; before it shifts a binary operator, it reduces the waiting ones that bind more tightly or, all
associating to the left, as tightly. -/

/-- The prefix operators and the binary ones. -/
inductive Op1 where
  | neg | tmp (k : TmpK) (lb ub : Nat)
inductive Op2 where
  | imp | iff | or | and | tmp (k : TmpK) (lb ub : Nat)

/-- The precedence table (parse_mltl.py:67-74): a production has the precedence of its last terminal. -/
def Op2.level : Op2 → Nat
  | .imp | .iff => 1
  | .or => 2
  | .and => 3
  | .tmp .. => 4
def prefixLevel : Nat := 5

/-- What waits on the stack. -/
inductive Frame where
  | paren
  | pre (o : Op1)
  | bin (l : Expr Nat) (o : Op2)

/-- The parser's state: the stack, the expression on top of it, if there is one, the flags `is_ft` and `is_pt`, and the
formulas so far.  Atomic `aN` is the signal with number `N` (parse_mltl.py:116-119). -/
structure PState where
  frames : List Frame := []
  cur : Option (Expr Nat) := none
  ft : Bool := false
  pt : Bool := false
  specs : List (Expr Nat) := []

/-- `is_ft = True`, an error if `is_pt`, and the other way round (parse_mltl.py:166-240). -/
def mark (k : TmpK) (ft pt : Bool) : Option (Bool × Bool) :=
  if k.future then (if pt then none else some (true, pt)) else (if ft then none else some (ft, true))

/-- The productions for prefix operators (parse_mltl.py:142-144, 164-203); the other four letters have none. -/
def mk1 (ft pt : Bool) (e : Expr Nat) : Op1 → Option (Expr Nat × Bool × Bool)
  | .neg => some (.neg e, ft, pt)
  | .tmp .G lb ub => (mark .G ft pt).map (.glob lb ub e, ·)
  | .tmp .F lb ub => (mark .F ft pt).map (.fut lb ub e, ·)
  | .tmp .H lb ub => (mark .H ft pt).map (.hist lb ub e, ·)
  | .tmp .O lb ub => (mark .O ft pt).map (.once lb ub e, ·)
  | .tmp _ _ _ => none

/-- The productions for binary operators (parse_mltl.py:146-161, 205-243). -/
def mk2 (ft pt : Bool) (l r : Expr Nat) : Op2 → Option (Expr Nat × Bool × Bool)
  | .imp => some (.imp l r, ft, pt)
  | .iff => some (.iff l r, ft, pt)
  | .or => some (.or [l, r], ft, pt)
  | .and => some (.and [l, r], ft, pt)
  | .tmp .U lb ub => (mark .U ft pt).map (.untl lb ub l r, ·)
  | .tmp .R lb ub => (mark .R ft pt).map (.rel lb ub l r, ·)
  | .tmp .S lb ub => (mark .S ft pt).map (.since lb ub l r, ·)
  | .tmp .T lb ub => (mark .T ft pt).map (.trig lb ub l r, ·)
  | .tmp _ _ _ => none

/-- Reductions before a token of precedence `lvl`. -/
def reduce (lvl : Nat) (ft pt : Bool) (e : Expr Nat) : List Frame → Option (List Frame × Expr Nat × Bool × Bool)
  | .pre o :: fs =>
      if lvl ≤ prefixLevel then (mk1 ft pt e o).bind fun r => reduce lvl r.2.1 r.2.2 r.1 fs
      else some (.pre o :: fs, e, ft, pt)
  | .bin l o :: fs =>
      if lvl ≤ o.level then (mk2 ft pt l e o).bind fun r => reduce lvl r.2.1 r.2.2 r.1 fs
      else some (.bin l o :: fs, e, ft, pt)
  | fs => some (fs, e, ft, pt)

/-- A leaf. -/
def PState.leaf (st : PState) (e : Expr Nat) : Option PState :=
  match st.cur with
  | none => some { st with cur := some e }
  | some _ => none

/-- A prefix operator or an opening bracket. -/
def PState.opening (st : PState) (f : Frame) : Option PState :=
  match st.cur with
  | none => some { st with frames := f :: st.frames }
  | some _ => none

/-- A binary operator. -/
def PState.between (st : PState) (o : Op2) : Option PState :=
  st.cur.bind fun e => (reduce o.level st.ft st.pt e st.frames).map fun r =>
    { st with frames := .bin r.2.1 o :: r.1, cur := none, ft := r.2.2.1, pt := r.2.2.2 }

/-- A closing bracket (parse_mltl.py:246-248). -/
def PState.close (st : PState) : Option PState :=
  st.cur.bind fun e => (reduce 0 st.ft st.pt e st.frames).bind fun r =>
    match r.1 with
    | .paren :: fs => some { st with frames := fs, cur := some r.2.1, ft := r.2.2.1, pt := r.2.2.2 }
    | _ => none

/-- The end of a line (parse_mltl.py:136-139). -/
def PState.line (st : PState) : Option PState :=
  st.cur.bind fun e => (reduce 0 st.ft st.pt e st.frames).bind fun r =>
    match r.1 with
    | [] => some { frames := [], cur := none, ft := r.2.2.1, pt := r.2.2.2, specs := st.specs ++ [r.2.1] }
    | _ => none

/-- `bound` (parse_mltl.py:271-280). -/
def bound (mission : Int) : Tok → Option Nat
  | .num n => some n
  | .mission => if mission < 0 then none else some mission.toNat
  | _ => none

/-- A temporal operator with its interval: the binary ones follow an expression, the others do not. -/
def PState.temporal (st : PState) (k : TmpK) (lb ub : Nat) : Option PState :=
  match k with
  | .U | .R | .S | .T => st.between (.tmp k lb ub)
  | _ => st.opening (.pre (.tmp k lb ub))

/-- The parser on a list of tokens; `none` is a syntax error or a failed check. -/
def parseFrom (mission : Int) : PState → List Tok → Option PState
  | st, [] => some st
  | st, .tl k :: .lbrack :: b :: .rbrack :: ts =>                       -- parse_mltl.py:262-264
      (bound mission b).bind fun ub => (st.temporal k 0 ub).bind fun st => parseFrom mission st ts
  | st, .tl k :: .lbrack :: a :: .comma :: b :: .rbrack :: ts =>         -- parse_mltl.py:267-269
      (bound mission a).bind fun lb => (bound mission b).bind fun ub =>
      (st.temporal k lb ub).bind fun st => parseFrom mission st ts
  | st, .neg :: ts => (st.opening (.pre .neg)).bind fun st => parseFrom mission st ts
  | st, .and :: ts => (st.between .and).bind fun st => parseFrom mission st ts
  | st, .or :: ts => (st.between .or).bind fun st => parseFrom mission st ts
  | st, .imp :: ts => (st.between .imp).bind fun st => parseFrom mission st ts
  | st, .iff :: ts => (st.between .iff).bind fun st => parseFrom mission st ts
  | st, .newline :: ts => st.line.bind fun st => parseFrom mission st ts
  | st, .lparen :: ts => (st.opening .paren).bind fun st => parseFrom mission st ts
  | st, .rparen :: ts => st.close.bind fun st => parseFrom mission st ts
  | st, .tru :: ts => (st.leaf (.const true)).bind fun st => parseFrom mission st ts
  | st, .fls :: ts => (st.leaf (.const false)).bind fun st => parseFrom mission st ts
  | st, .atomic n :: ts => (st.leaf (.atom n)).bind fun st => parseFrom mission st ts
  | _, _ :: _ => none

/-- `parse_mltl` (parse_mltl.py:283-304): whether the formulas make a past-time section, and the formulas, numbered from 0.
The text must end after a whole line. -/
def parse (mission : Int) (s : List Char) : Option (Bool × List (Expr Nat)) :=
  (parseFrom mission {} (lex s)).bind fun st =>
    match st.frames, st.cur with
    | [], none => some (st.pt, st.specs)
    | _, _ => none

end Mltl
end R2U2
