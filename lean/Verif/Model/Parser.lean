import Verif.Model.Source
import Verif.Model.Printing
import Verif.Model.TypeCheck
/-
Model of the C2PO lexer and parser (parse_c2po.py:7-709), from the text of a file to the sections of a program.

Texts are lists of characters.  Digits are ASCII (`\d` in the pattern for decimals also matches other digits).
`flt` stands for `str(float(text))`: what Python prints for the number a decimal denotes.  Locations are left out.
-/
namespace R2U2
namespace C2po

/-! ### Tokens -/

inductive Kw where
  | struct | enum | input | define | ftspec | ptspec
  deriving DecidableEq

/-- The tokens (parse_c2po.py:9-17).  `op` stands for the logical, bitwise, relational and arithmetic operators and `prev`. -/
inductive Tok where
  | kw (k : Kw) | agg (k : AggK) | tau | tl (k : TmpK) | mission | tru | fls | op (o : OpK)
  | assign | gives | sym (s : String) | dec (s : String) | num (i : Int)
  | semi | colon | dot | ddot | comma | lbrack | rbrack | lbrace | rbrace | lparen | rparen
  deriving DecidableEq

def isDig (c : Char) : Bool := '0' ≤ c && c ≤ '9'
def isStart (c : Char) : Bool := ('a' ≤ c && c ≤ 'z') || ('A' ≤ c && c ≤ 'Z') || c == '_'
def isWord (c : Char) : Bool := isStart c || isDig c

/-- `int(text)` of a text of digits. -/
def natVal (ds : List Char) : Nat := ds.foldl (fun n d => n * 10 + (d.toNat - 48)) 0

/-- `\d*\.\d+` (parse_c2po.py:25) at the start of a text: the matched text and the rest. -/
def decimal (cs : List Char) : Option (List Char × List Char) :=
  match cs.dropWhile isDig with
  | '.' :: r =>
      match r.takeWhile isDig with
      | [] => none
      | d :: ds => some (cs.takeWhile isDig ++ '.' :: d :: ds, r.dropWhile isDig)
  | _ => none

/-- `[1-9][0-9]*` (parse_c2po.py:26) at the start of a text: the value and the rest. -/
def positive : List Char → Option (Nat × List Char)
  | [] => none
  | c :: cs =>
      if c ≠ '0' ∧ isDig c then some (natVal (c :: cs.takeWhile isDig), cs.dropWhile isDig)
      else none

/-- `DECIMAL` or else `NUMERAL` (parse_c2po.py:25-26) at the start of a text.  `-0` is not a numeral. -/
def number (flt : String → String) : List Char → Option (Tok × List Char)
  | '-' :: cs =>
      match decimal cs with
      | some (t, r) => some (.dec (flt (String.ofList ('-' :: t))), r)
      | none => (positive cs).map fun p => (.num (-p.1), p.2)
  | cs =>
      match decimal cs with
      | some (t, r) => some (.dec (flt (String.ofList t)), r)
      | none =>
          match cs with
          | '0' :: r => some (.num 0, r)
          | _ => (positive cs).map fun p => (.num p.1, p.2)

/-- The remapped symbols (parse_c2po.py:77-103). -/
def keywords : List (String × Tok) :=
  [("STRUCT", .kw .struct), ("ENUM", .kw .enum), ("INPUT", .kw .input), ("DEFINE", .kw .define),
   ("FTSPEC", .kw .ftspec), ("PTSPEC", .kw .ptspec),
   ("foreach", .agg .each), ("forsome", .agg .some), ("forexactly", .agg .exactly), ("foratleast", .agg .atLeast),
   ("foratmost", .agg .atMost), ("TAU", .tau), ("pow", .op .pow), ("sqrt", .op .sqrt), ("abs", .op .abs), ("xor", .op .xor),
   ("G", .tl .G), ("F", .tl .F), ("H", .tl .H), ("O", .tl .O), ("U", .tl .U), ("R", .tl .R), ("S", .tl .S), ("T", .tl .T),
   ("M", .mission), ("true", .tru), ("false", .fls)]

/-- `SYMBOL` (parse_c2po.py:62, 77-103). -/
def word (cs : List Char) : Tok :=
  (keywords.lookup (String.ofList cs)).getD (.sym (String.ofList cs))

/-- One step of the lexer at a non-empty text (parse_c2po.py:19-74, 105-115): the token, if any, and the rest.  The patterns are
tried in the order of their definition.  Blanks, newlines, comments and illegal characters give no token; an illegal
character is logged and skipped, which does not fail the parse. -/
def lexOne (flt : String → String) (c : Char) (cs : List Char) : Option Tok × List Char :=
  match number flt (c :: cs) with
  | some r => (some r.1, r.2)
  | none =>
    match c with
    | '-' => match cs with
        | '-' :: r => (none, r.dropWhile (· ≠ '\n'))
        | '>' :: r => (some (.op .imp), r)
        | _ => (some (.op .sub), cs)
    | '!' => match cs with
        | '=' :: r => (some (.op .ne), r)
        | _ => (some (.op .neg), cs)
    | '&' => match cs with
        | '&' :: r => (some (.op .and), r)
        | _ => (some (.op .bitAnd), cs)
    | '|' => match cs with
        | '|' :: r => (some (.op .or), r)
        | _ => (some (.op .bitOr), cs)
    | '<' => match cs with
        | '-' :: '>' :: r => (some (.op .iff), r)
        | '<' :: r => (some (.op .shl), r)
        | '=' :: r => (some (.op .le), r)
        | _ => (some (.op .lt), cs)
    | '>' => match cs with
        | '>' :: r => (some (.op .shr), r)
        | '=' :: r => (some (.op .ge), r)
        | _ => (some (.op .gt), cs)
    | '=' => match cs with
        | '=' :: r => (some (.op .eq), r)
        | '>' :: r => (some .gives, r)
        | _ => (none, cs)
    | ':' => match cs with
        | '=' :: r => (some .assign, r)
        | _ => (some .colon, cs)
    | '.' => match cs with
        | '.' :: r => (some .ddot, r)
        | _ => (some .dot, cs)
    | '≠' => (some (.op .ne), cs)
    | '¬' => (some (.op .neg), cs)
    | '∧' => (some (.op .and), cs)
    | '∨' => (some (.op .or), cs)
    | '→' => (some (.op .imp), cs)
    | '↔' => (some (.op .iff), cs)
    | '≥' => (some (.op .ge), cs)
    | '≤' => (some (.op .le), cs)
    | '~' => (some (.op .bitNeg), cs)
    | '^' => (some (.op .bitXor), cs)
    | '+' => (some (.op .add), cs)
    | '*' => (some (.op .mul), cs)
    | '•' => (some (.op .mul), cs)
    | '⋅' => (some (.op .mul), cs)
    | '/' => (some (.op .div), cs)
    | '÷' => (some (.op .div), cs)
    | '%' => (some (.op .mod), cs)
    | ';' => (some .semi, cs)
    | ',' => (some .comma, cs)
    | '[' => (some .lbrack, cs)
    | ']' => (some .rbrack, cs)
    | '{' => (some .lbrace, cs)
    | '}' => (some .rbrace, cs)
    | '(' => (some .lparen, cs)
    | ')' => (some .rparen, cs)
    | c =>
        if isStart c then
          match c, cs with
          | 'p', 'r' :: 'e' :: 'v' :: r => (some (.op .prev), r)        -- parse_c2po.py:59, before `SYMBOL`
          | c, cs => (some (word (c :: cs.takeWhile isWord)), cs.dropWhile isWord)
        else (none, cs)

/-- `lexer.tokenize` with at most `n` steps. -/
def lexN (flt : String → String) : Nat → List Char → List Tok
  | 0, _ => []
  | _, [] => []
  | n + 1, c :: cs => (lexOne flt c cs).1.toList ++ lexN flt n (lexOne flt c cs).2

/-- `lexer.tokenize`: every step consumes a character. -/
def lex (flt : String → String) (s : List Char) : List Tok := lexN flt s.length s

/-! ### Nodes as their constructors make them -/

/-- The type an operator's constructor gives the node (cpt.py:557-768). -/
def opTyp : OpK → Typ
  | .bitAnd | .bitOr | .bitXor | .bitNeg | .shl | .shr | .mod | .count | .min | .max => .int
  | .eq | .ne | .gt | .lt | .ge | .le | .and | .or | .xor | .imp | .iff | .neg => .bool
  | .add | .sub | .mul | .div | .pow | .sqrt | .abs | .prev => .none

/-- The same for temporal operators (cpt.py:770-855): `Trigger` gives none. -/
def tmpTyp : TmpK → Typ
  | .T => .none
  | _ => .bool

def mkLit (v : Lit) : Src := .node (.lit v) (Tc.litTyp v) []
def mkOp (o : OpK) (cs : List Src) : Src := .node (.op o) (opTyp o) cs
def mkTmp (k : TmpK) (lb ub : Nat) (cs : List Src) : Src := .node (.tmp k lb ub) (tmpTyp k) cs
def mkAgg (k : AggK) (v : String) (cs : List Src) : Src := .node (.agg k v) .bool cs
def mkCall (f : String) (cs : List Src) : Src := .node (.call f) .none cs
def mkArray (cs : List Src) : Src := .node .array .none cs

/-- `SYMBOL` as an expression (parse_c2po.py:633-638): a signal if it was declared as one earlier in the text. -/
def mkName (lits : List String) (s : String) : Src := if s ∈ lits then .node (.sig s) .none [] else .node (.var s) .none []

/-! ### Expressions

sly makes an LALR parser, conflicts decided by the precedence table (parse_c2po.py:122-138).  Such a parser keeps a stack of
what waits for its last operand; before it shifts a binary operator it reduces what binds more tightly or, all binary
operators associating to the left, as tightly. -/

/-- The precedence of the tokens that stand between two operands. -/
def infixLevel : OpK → Option Nat
  | .imp | .xor | .iff => some 1
  | .or => some 2
  | .and => some 3
  | .bitOr => some 6
  | .bitXor => some 7
  | .bitAnd => some 8
  | .eq | .ne => some 9
  | .gt | .lt | .ge | .le => some 10
  | .shl | .shr => some 11
  | .add | .sub => some 12
  | .mul | .div | .mod | .pow => some 13
  | _ => none

/-- A prefix operator: `!`, `~`, `-` (parse_c2po.py:470-480) or temporal (parse_c2po.py:584-598). -/
inductive Pre where
  | op (o : OpK) | tmp (k : TmpK) (lb ub : Nat)
/-- A binary operator (parse_c2po.py:495-581) with its precedence, or a temporal one (parse_c2po.py:601-615). -/
inductive Bin where
  | op (o : OpK) (lvl : Nat) | tmp (k : TmpK) (lb ub : Nat)

def Pre.level : Pre → Nat
  | .op _ => 14
  | .tmp .. => 5
def Bin.level : Bin → Nat
  | .op _ l => l
  | .tmp .. => 4
def Pre.mk : Pre → Src → Src
  | .op o, e => mkOp o [e]
  | .tmp k lb ub, e => mkTmp k lb ub [e]
def Bin.mk : Bin → Src → Src → Src
  | .op o _, l, r => mkOp o [l, r]
  | .tmp k lb ub, l, r => mkTmp k lb ub [l, r]

/-- What waits on the stack. -/
inductive Frame where
  | paren
  | pre (o : Pre)
  | bin (l : Src) (o : Bin)
  | brace (done : List Src)                          -- `{ e, ...` (parse_c2po.py:397-409)
  | call (f : String) (done : List Src)              -- `f( e, ...` (parse_c2po.py:443-447)
  | fn (o : OpK)                                     -- `sqrt(`, `abs(` (parse_c2po.py:482-488)
  | prevFst | prevSnd (a : Src)                      -- `prev( a, ` (parse_c2po.py:490-492)
  | aggSet (k : AggK) (v : String)                   -- `foreach( v : ` (parse_c2po.py:416-441)
  | aggNum (k : AggK) (v : String) (set : Src)
  | aggBody (k : AggK) (v : String) (first : List Src)

/-- Reductions before a token of precedence `lvl`. -/
def reduce (lvl : Nat) (e : Src) : List Frame → Src × List Frame
  | .pre o :: fs => if lvl ≤ o.level then reduce lvl (o.mk e) fs else (e, .pre o :: fs)
  | .bin l o :: fs => if lvl ≤ o.level then reduce lvl (o.mk l e) fs else (e, .bin l o :: fs)
  | fs => (e, fs)

/-- `bound` (parse_c2po.py:664-683); `none` if the parser's status becomes false. -/
def bound (mission : Int) : Tok → Option Nat
  | .num i => if i < 0 then none else some i.toNat
  | .mission => if mission < 0 then none else some mission.toNat
  | _ => none

/-- An interval (parse_c2po.py:655-662). -/
def interval (mission : Int) : List Tok → Option (Nat × Nat × List Tok)
  | .lbrack :: b :: .rbrack :: ts => (bound mission b).map fun ub => (0, ub, ts)
  | .lbrack :: a :: .comma :: b :: .rbrack :: ts =>
      (bound mission a).bind fun lb => (bound mission b).map fun ub => (lb, ub, ts)
  | _ => none

/-- Temporal operators with one operand. -/
def unary : TmpK → Bool
  | .G | .F | .H | .O => true
  | _ => false
/-- Set aggregations with a number. -/
def counted : AggK → Bool
  | .each | .some => false
  | _ => true

/-- What stands where an operand is expected. -/
inductive Head where
  | leaf (e : Src) | push (f : Frame)

def operand (lits : List String) (mission : Int) : List Tok → Option (Head × List Tok)
  | .lparen :: ts => some (.push .paren, ts)                                        -- parse_c2po.py:618-620
  | .lbrace :: .rbrace :: _ => none                       -- parse_c2po.py:412-414: `ln` is not defined, an exception
  | .lbrace :: ts => some (.push (.brace []), ts)
  | .op .neg :: ts => some (.push (.pre (.op .neg)), ts)
  | .op .bitNeg :: ts => some (.push (.pre (.op .bitNeg)), ts)
  | .op .sub :: ts => some (.push (.pre (.op .sub)), ts)
  | .op .sqrt :: .lparen :: ts => some (.push (.fn .sqrt), ts)
  | .op .abs :: .lparen :: ts => some (.push (.fn .abs), ts)
  | .op .prev :: .lparen :: ts => some (.push .prevFst, ts)
  | .agg k :: .lparen :: .sym v :: .colon :: ts => some (.push (.aggSet k v), ts)
  | .tl k :: ts => if unary k then (interval mission ts).map fun i => (.push (.pre (.tmp k i.1 i.2.1)), i.2.2) else none
  | .sym f :: .lparen :: .rparen :: ts => some (.leaf (mkCall f []), ts)            -- parse_c2po.py:450-452
  | .sym f :: .lparen :: ts => some (.push (.call f []), ts)
  | .sym s :: ts => some (.leaf (mkName lits s), ts)
  | .tru :: ts => some (.leaf (mkLit (.bool true)), ts)                             -- parse_c2po.py:623-652
  | .fls :: ts => some (.leaf (mkLit (.bool false)), ts)
  | .tau :: ts => some (.leaf (.node .tau .none []), ts)
  | .num i :: ts => some (.leaf (mkLit (.int i)), ts)
  | .dec s :: ts => some (.leaf (mkLit (.float s)), ts)
  | _ => none

/-- What may follow an operand.  `parens` is `)` with `(` after it. -/
inductive Closer where
  | paren | parens | comma | brace
inductive Tail where
  | bin (o : Bin) | post (k : SK) | close (c : Closer)

/-- What a closer makes of the operand before it and the top of the stack: an expression, or a frame for the next operand. -/
def Closer.on (e : Src) : Closer → Frame → Option (Sum Src Frame)
  | .paren, .paren => some (.inl e)
  | .paren, .call f done => some (.inl (mkCall f (done ++ [e])))
  | .paren, .fn o => some (.inl (mkOp o [e]))
  | .paren, .prevSnd a => some (.inl (mkOp .prev [a, e]))
  | .paren, .aggBody k v first => some (.inl (mkAgg k v (first ++ [e])))
  | .parens, .aggSet k v => if counted k then none else some (.inr (.aggBody k v [e]))
  | .parens, .aggNum k v set => some (.inr (.aggBody k v [set, e]))
  | .comma, .brace done => some (.inr (.brace (done ++ [e])))
  | .comma, .call f done => some (.inr (.call f (done ++ [e])))
  | .comma, .prevFst => some (.inr (.prevSnd e))
  | .comma, .aggSet k v => if counted k then some (.inr (.aggNum k v e)) else none
  | .brace, .brace done => some (.inl (mkArray (done ++ [e])))
  | _, _ => none

/-- The tokens after an operand; what is left to the statement gives `none`. -/
def after (mission : Int) : List Tok → Option (Tail × List Tok)
  | .op o :: ts => (infixLevel o).map fun l => (.bin (.op o l), ts)
  | .tl k :: ts => if unary k then none else (interval mission ts).map fun i => (.bin (.tmp k i.1 i.2.1), i.2.2)
  | .dot :: .sym m :: ts => some (.post (.access m), ts)                             -- parse_c2po.py:455-457
  | .lbrack :: .num i :: .rbrack :: ts => some (.post (.index i), ts)                -- parse_c2po.py:460-462
  | .lbrack :: .num i :: .ddot :: .num j :: .rbrack :: ts => some (.post (.slice i j), ts)   -- parse_c2po.py:465-467
  | .rparen :: .lparen :: ts => some (.close .parens, ts)
  | .rparen :: ts => some (.close .paren, ts)
  | .comma :: ts => some (.close .comma, ts)
  | .rbrace :: ts => some (.close .brace, ts)
  | _ => none

/-- The parser inside an expression: the stack, the operand on top of it, if there is one, and the tokens.  At most `n` steps.
The result is the expression and the tokens of the statement after it. -/
def exprN (lits : List String) (mission : Int) : Nat → List Frame → Option Src → List Tok → Option (Src × List Tok)
  | 0, _, _, _ => none
  | n + 1, fs, none, ts => (operand lits mission ts).bind fun h =>
      match h.1 with
      | .leaf e => exprN lits mission n fs (some e) h.2
      | .push f => exprN lits mission n (f :: fs) none h.2
  | n + 1, fs, some e, ts =>
      match after mission ts with
      | none => match (reduce 0 e fs).2 with
          | [] => some ((reduce 0 e fs).1, ts)
          | _ => none
      | some (.bin o, us) => exprN lits mission n (.bin (reduce o.level e fs).1 o :: (reduce o.level e fs).2) none us
      | some (.post k, us) => exprN lits mission n fs (some (.node k .none [e])) us
      | some (.close c, us) => match (reduce 0 e fs).2 with
          | [] => some ((reduce 0 e fs).1, ts)
          | f :: gs => (c.on (reduce 0 e fs).1 f).bind fun r =>
              match r with
              | .inl e' => exprN lits mission n gs (some e') us
              | .inr f' => exprN lits mission n (f' :: gs) none us

/-- An expression at the start of the tokens. -/
def expr (lits : List String) (mission : Int) (ts : List Tok) : Option (Src × List Tok) :=
  exprN lits mission (ts.length + 1) [] none ts

/-! ### Statements and sections -/

/-- `p` again and again until the tokens start with a keyword, `}` or nothing; at most `n` times. -/
def many {A : Type} (p : List Tok → Option (A × List Tok)) : Nat → List Tok → Option (List A × List Tok)
  | _, [] => some ([], [])
  | _, .kw k :: ts => some ([], .kw k :: ts)
  | _, .rbrace :: ts => some ([], .rbrace :: ts)
  | 0, _ => none
  | n + 1, ts => (p ts).bind fun r => (many p n r.2).map fun q => (r.1 :: q.1, q.2)

/-- `symbol_list` (parse_c2po.py:297-303). -/
def symbolList : List Tok → List String × List Tok
  | .comma :: .sym s :: ts => (s :: (symbolList ts).1, (symbolList ts).2)
  | ts => ([], ts)

/-- The brackets after a type's name (parse_c2po.py:317-332). -/
def typeSuffix (t : Typ) : List Tok → Option (Typ × List Tok)
  | .lbrack :: .rbrack :: ts => typeSuffix (.arr t (-1)) ts
  | .lbrack :: .num i :: .rbrack :: ts => if i < 0 then none else typeSuffix (.arr t i) ts
  | ts => some (t, ts)

/-- A type's name (parse_c2po.py:305-315). -/
def baseType (s : String) : Typ :=
  if s = "bool" then .bool else if s = "int" then .int else if s = "float" then .float else .struct s

/-- `variable_declaration` (parse_c2po.py:293-295). -/
def declaration : List Tok → Option ((List String × Typ) × List Tok)
  | .sym s :: ts =>
      match (symbolList ts).2 with
      | .colon :: .sym t :: us => (typeSuffix (baseType t) us).bind fun r =>
          match r.2 with
          | .semi :: vs => some ((s :: (symbolList ts).1, r.1), vs)
          | _ => none
      | _ => none
  | _ => none

/-- `struct` (parse_c2po.py:204-215). -/
def structDef : List Tok → Option ((String × List (List String × Typ)) × List Tok)
  | .sym s :: .colon :: .lbrace :: ts => (many declaration ts.length ts).bind fun r =>
      match r.2 with
      | .rbrace :: .semi :: us => some ((s, r.1), us)
      | _ => none
  | _ => none

/-- A member of an enumeration without the comma (parse_c2po.py:251-265). -/
def enumMember (lits : List String) (mission : Int) : List Tok → Option ((String × Option Src) × List Tok)
  | .sym s :: .colon :: ts => (expr lits mission ts).map fun r => ((s, some r.1), r.2)
  | .sym s :: ts => some ((s, none), ts)
  | _ => none

/-- The members up to the closing brace. -/
def enumMembers (lits : List String) (mission : Int) : Nat → List Tok → Option (List (String × Option Src) × List Tok)
  | 0, _ => none
  | n + 1, ts => (enumMember lits mission ts).bind fun r =>
      match r.2 with
      | .comma :: us => (enumMembers lits mission n us).map fun q => (r.1 :: q.1, q.2)
      | .rbrace :: .semi :: us => some ([r.1], us)
      | _ => none

/-- Members without a value get the next number, counting only those (parse_c2po.py:229-241). -/
def enumValues : Nat → List (String × Option Src) → List (String × Src)
  | _, [] => []
  | n, (s, some e) :: ms => (s, e) :: enumValues n ms
  | n, (s, none) :: ms => (s, mkLit (.int n)) :: enumValues (n + 1) ms

/-- `enum` (parse_c2po.py:229-241). -/
def enumDef (lits : List String) (mission : Int) : List Tok → Option ((String × List (String × Src)) × List Tok)
  | .sym s :: .colon :: .lbrace :: ts => (enumMembers lits mission ts.length ts).map fun r => ((s, enumValues 0 r.1), r.2)
  | _ => none

/-- `definition` (parse_c2po.py:346-348). -/
def definition (lits : List String) (mission : Int) : List Tok → Option ((String × Src) × List Tok)
  | .sym s :: .assign :: ts => (expr lits mission ts).bind fun r =>
      match r.2 with
      | .semi :: us => some ((s, r.1), us)
      | _ => none
  | _ => none

/-- A specification without its numbers. -/
inductive RawSpec where
  | formula (label : Option String) (e : Src)
  | contract (label : String) (a g : Src)

/-- `spec` (parse_c2po.py:368-395). -/
def spec (lits : List String) (mission : Int) : List Tok → Option (RawSpec × List Tok)
  | .sym s :: .colon :: ts => (expr lits mission ts).bind fun r =>
      match r.2 with
      | .semi :: us => some (.formula (some s) r.1, us)
      | .gives :: us => (expr lits mission us).bind fun q =>
          match q.2 with
          | .semi :: vs => some (.contract s r.1 q.1, vs)
          | _ => none
      | _ => none
  | ts => (expr lits mission ts).bind fun r =>
      match r.2 with
      | .semi :: us => some (.formula none r.1, us)
      | _ => none

/-- `fresh_label` (parse_c2po.py:160-162). -/
def freshLabel (n : Nat) : String := String.ofList (['_', '_', 'f'] ++ natStr n ++ ['_', '_'])

/-- The numbers of the specifications (parse_c2po.py:368-395), from `n` on, and the next number. -/
def numberSpecs : Nat → List RawSpec → List Spec × Nat
  | n, [] => ([], n)
  | n, .formula l e :: ss => (.formula (l.getD (freshLabel n)) n e :: (numberSpecs (n + 1) ss).1, (numberSpecs (n + 1) ss).2)
  | n, .contract l a g :: ss => (.contract l n (n + 1) (n + 2) a g :: (numberSpecs (n + 3) ss).1, (numberSpecs (n + 3) ss).2)

/-- A section of a program, as parsed. -/
inductive Section where
  | input (decls : List (List String × Typ))
  | define (defs : List (String × Src))
  | struct (defs : List (String × List (List String × Typ)))
  | enum (defs : List (String × List (String × Src)))
  | spec (ft : Bool) (specs : List Spec)

def isArr : Typ → Bool
  | .arr _ _ => true
  | _ => false

/-- `literals` after an input section (parse_c2po.py:267-283): the declared names, without arrays. -/
def declaredLits (ds : List (List String × Typ)) : List String :=
  (ds.filter fun d => !isArr d.2).flatMap (·.1)

/-- At least one. -/
def some1 {A : Type} : Option (List A × List Tok) → Option (List A × List Tok)
  | some ([], _) => none
  | r => r

/-- A section: at least one entry (parse_c2po.py:192-202, 217-227, 267-291, 334-366).  `lits` are the declared signals, `n` the next number of
a specification. -/
def sectionOf (mission : Int) (lits : List String) (n : Nat) (ts : List Tok) : Kw → Option ((Section × List String × Nat) × List Tok)
  | .input => (some1 (many declaration ts.length ts)).map fun r => ((.input r.1, declaredLits r.1 ++ lits, n), r.2)
  | .define => (some1 (many (definition lits mission) ts.length ts)).map fun r => ((.define r.1, lits, n), r.2)
  | .struct => (some1 (many structDef ts.length ts)).map fun r => ((.struct r.1, lits, n), r.2)
  | .enum => (some1 (many (enumDef lits mission) ts.length ts)).map fun r => ((.enum r.1, lits, n), r.2)
  | .ftspec => (some1 (many (spec lits mission) ts.length ts)).map fun r =>
      ((.spec true (numberSpecs n r.1).1, lits, (numberSpecs n r.1).2), r.2)
  | .ptspec => (some1 (many (spec lits mission) ts.length ts)).map fun r =>
      ((.spec false (numberSpecs n r.1).1, lits, (numberSpecs n r.1).2), r.2)

/-- `section` (parse_c2po.py:164-190), at most `k` of them. -/
def sections (mission : Int) : Nat → List String → Nat → List Tok → Option (List Section)
  | _, _, _, [] => some []
  | k + 1, lits, n, .kw w :: ts => (sectionOf mission lits n ts w).bind fun r =>
      (sections mission k r.1.2.1 r.1.2.2 r.2).map (r.1.1 :: ·)
  | _, _, _, _ => none

/-- `parse_c2po` (parse_c2po.py:686-709) on the contents of the file. -/
def parse (flt : String → String) (mission : Int) (s : List Char) : Option (List Section) :=
  sections mission (lex flt s).length [] 0 (lex flt s)

end C2po
end R2U2
