import Verif.Model.Parser
/-
How the tokens of the C2PO language are spelled, stated apart from the lexer.
-/
namespace R2U2
namespace C2po

def Letter (c : Char) : Prop := ('a' ≤ c ∧ c ≤ 'z') ∨ ('A' ≤ c ∧ c ≤ 'Z') ∨ c = '_'
def Digit (c : Char) : Prop := '0' ≤ c ∧ c ≤ '9'

/-- The form of identifiers (compiler/docs/user/language.md, Identifiers): `[a-zA-Z_][a-zA-Z0-9_]*`. -/
def Identifier (w : List Char) : Prop := ∃ c cs, w = c :: cs ∧ Letter c ∧ ∀ d ∈ cs, Letter d ∨ Digit d

/-- The words with a meaning of their own. -/
def reserved : List (String × Tok) :=
  [("STRUCT", .kw .struct), ("ENUM", .kw .enum), ("INPUT", .kw .input), ("DEFINE", .kw .define),
   ("FTSPEC", .kw .ftspec), ("PTSPEC", .kw .ptspec),
   ("foreach", .agg .each), ("forsome", .agg .some), ("forexactly", .agg .exactly), ("foratleast", .agg .atLeast),
   ("foratmost", .agg .atMost), ("pow", .op .pow), ("sqrt", .op .sqrt), ("abs", .op .abs), ("xor", .op .xor), ("prev", .op .prev),
   ("G", .tl .G), ("F", .tl .F), ("H", .tl .H), ("O", .tl .O), ("U", .tl .U), ("R", .tl .R), ("S", .tl .S), ("T", .tl .T),
   ("M", .mission), ("true", .tru), ("false", .fls), ("TAU", .tau)]

/-- The operators and punctuation marks. -/
def marks : List (String × Tok) :=
  [("!", .op .neg), ("¬", .op .neg), ("&&", .op .and), ("∧", .op .and), ("||", .op .or), ("∨", .op .or), ("->", .op .imp),
   ("→", .op .imp), ("<->", .op .iff), ("↔", .op .iff), ("~", .op .bitNeg), ("&", .op .bitAnd), ("|", .op .bitOr), ("^", .op .bitXor),
   ("<<", .op .shl), (">>", .op .shr), ("==", .op .eq), ("!=", .op .ne), ("≠", .op .ne), (">=", .op .ge), ("≥", .op .ge),
   ("<=", .op .le), ("≤", .op .le), (">", .op .gt), ("<", .op .lt), ("+", .op .add), ("-", .op .sub), ("*", .op .mul), ("•", .op .mul),
   ("⋅", .op .mul), ("/", .op .div), ("÷", .op .div), ("%", .op .mod), (":=", .assign), ("=>", .gives), (";", .semi), (":", .colon),
   (".", .dot), ("..", .ddot), (",", .comma), ("[", .lbrack), ("]", .rbrack), ("{", .lbrace), ("}", .rbrace), ("(", .lparen),
   (")", .rparen)]

/-- `Spells flt w t`: the text `w` spells the token `t`.  `flt` is what Python makes of the text of a number with a decimal point. -/
inductive Spells (flt : String → String) : List Char → Tok → Prop
  | reserved {p : String × Tok} : p ∈ reserved → Spells flt p.1.toList p.2
  | mark {p : String × Tok} : p ∈ marks → Spells flt p.1.toList p.2
  | name {w : List Char} : Identifier w → (∀ p ∈ C2po.reserved, p.1 ≠ String.ofList w) → Spells flt w (.sym (String.ofList w))
  | nat (n : Nat) : Spells flt (natStr n) (.num n)
  | neg (n : Nat) : n ≠ 0 → Spells flt ('-' :: natStr n) (.num (-n))
  | dec {ds es : List Char} : (∀ d ∈ ds, Digit d) → (∀ d ∈ es, Digit d) → es ≠ [] →
      Spells flt (ds ++ '.' :: es) (.dec (flt (String.ofList (ds ++ '.' :: es))))
  | negDec {ds es : List Char} : (∀ d ∈ ds, Digit d) → (∀ d ∈ es, Digit d) → es ≠ [] →
      Spells flt ('-' :: (ds ++ '.' :: es)) (.dec (flt (String.ofList ('-' :: (ds ++ '.' :: es)))))

/-- Blanks, tabs and line breaks, at least one. -/
def Gap (g : List Char) : Prop := g ≠ [] ∧ ∀ c ∈ g, c = ' ' ∨ c = '\t' ∨ c = '\n'

/-- The token is an identifier that starts with `prev`. -/
def PrevWord : Tok → Prop
  | .sym s => "prev".toList <+: s.toList
  | _ => False

end C2po
end R2U2
