import Verif.Model.Tree
/-
What the texts of the symbols and numbers of a parsed, desugared program look
like.  Follows the lexer (parse_c2po.py:8-108).
-/
namespace R2U2

def isIdentStart (c : Char) : Bool := c.isAlpha || c == '_'
def isIdentChar (c : Char) : Bool := c.isAlphanum || c == '_'

/-- An identifier `[a-zA-Z_][a-zA-Z0-9_]*` (parse_c2po.py:65) other than the
keywords `true` and `false`. -/
def IsIdent (s : String) : Prop :=
  (∃ c cs, s.toList = c :: cs ∧ isIdentStart c = true ∧ ∀ d ∈ cs, isIdentChar d = true) ∧
    s.toList ≠ ['t', 'r', 'u', 'e'] ∧ s.toList ≠ ['f', 'a', 'l', 's', 'e']

/-- The text Python gives for a finite float: digits, sign, point, exponent;
starts with a digit or sign, and has a point or an exponent. -/
def IsFloatText (s : String) : Prop :=
  (∃ c cs, s.toList = c :: cs ∧ (c.isDigit = true ∨ c = '-')) ∧
    (∀ c ∈ s.toList, c.isDigit = true ∨ c = '-' ∨ c = '+' ∨ c = '.' ∨ c = 'e') ∧
    ('.' ∈ s.toList ∨ 'e' ∈ s.toList)

mutual
/-- A desugared expression (no sets, structs, calls, contracts; cf.
`is_desugared`, cpt.py:2263-2281) with lexically valid symbols.  `atomics` says
whether `Atomic` wrappers are allowed. -/
def Desugared (atomics : Bool) : Ast → Prop
  | .node (.lit (.float s)) cs => IsFloatText s ∧ cs = []
  | .node (.lit _) cs => cs = []
  | .node (.name s) cs => IsIdent s ∧ cs = []
  | .node (.op _) cs => cs ≠ [] ∧ DesugaredL atomics cs
  | .node (.tmp _ _ _) cs => cs ≠ [] ∧ DesugaredL atomics cs
  | .node .atomic [c] => atomics = true ∧ Desugared atomics c
  | .node _ _ => False
def DesugaredL (atomics : Bool) : List Ast → Prop
  | [] => True
  | c :: cs => Desugared atomics c ∧ DesugaredL atomics cs
end

/-- A specification set of a desugared program (contracts resolved): its members are
formulas with lexically valid labels, and a label stands for one formula. -/
structure IsSpecSet (specs : List Ast) : Prop where
  formulas : ∀ f ∈ specs, ∃ l n e, f = .node (.formula l n) [e] ∧ IsIdent l ∧ Desugared true e
  labels : ∀ l n e n' e', Tree.node (Lab.formula l n) [e] ∈ specs → Tree.node (Lab.formula l n') [e'] ∈ specs →
    n = n' ∧ e = e'

end R2U2
