import Verif.Model.Tree
import Verif.Model.Cpt
import Mathlib.Data.Nat.Digits.Defs
/-
Model of the two textual renderings of an expression,
`to_prefix_str` (cpt.py:2089-2185, Python's `repr`) and `to_infix_str`
(cpt.py:1961-2087, Python's `str`).  Texts are lists of characters.

The Python functions run an explicit stack and, in the prefix case, keep a
trailing blank that the next closing bracket overwrites (`s[:-1] + ") "`); the
model is the resulting text by recursion on the tree, without that blank.
-/
namespace R2U2

/-- Python's `str` of a non-negative integer. -/
def natStr (n : Nat) : List Char :=
  if n = 0 then ['0'] else ((Nat.digits 10 n).map Nat.digitChar).reverse

/-- Python's `str` of an integer. -/
def intStr (i : Int) : List Char :=
  if i < 0 then '-' :: natStr i.natAbs else natStr i.natAbs

/-- `expr.symbol.lower()` of a `Constant` (cpt.py:152, 1969, 2097). -/
def litStr : Lit → List Char
  | .bool true => ['t', 'r', 'u', 'e']
  | .bool false => ['f', 'a', 'l', 's', 'e']
  | .int i => intStr i
  | .float s => s.toList

/-- Enum values of `OperatorKind` (cpt.py:426-478). -/
def OpK.sym : OpK → List Char
  | .bitAnd => ['&'] | .bitOr => ['|'] | .bitXor => ['^'] | .bitNeg => ['~']
  | .shl => ['<', '<'] | .shr => ['>', '>']
  | .add => ['+'] | .sub => ['-'] | .mul => ['*'] | .div => ['/'] | .mod => ['%']
  | .pow => ['p', 'o', 'w'] | .sqrt => ['s', 'q', 'r', 't'] | .abs => ['a', 'b', 's']
  | .eq => ['=', '='] | .ne => ['!', '='] | .gt => ['>'] | .lt => ['<']
  | .ge => ['>', '='] | .le => ['<', '=']
  | .and => ['&', '&'] | .or => ['|', '|'] | .xor => ['x', 'o', 'r'] | .imp => ['-', '>']
  | .iff => ['<', '-', '>'] | .neg => ['!']
  | .count => ['c', 'o', 'u', 'n', 't'] | .prev => ['p', 'r', 'e', 'v']
  | .min => ['m', 'i', 'n'] | .max => ['m', 'a', 'x']

/-- Enum values of the temporal kinds (cpt.py:463-472). -/
def TmpK.letter : TmpK → Char
  | .G => 'G' | .F => 'F' | .U => 'U' | .R => 'R' | .H => 'H' | .O => 'O' | .S => 'S' | .T => 'T'

/-- `f"{operator.value}[{lb},{ub}]"` (cpt.py:781). -/
def tmpSym (o : TmpK) (lb ub : Nat) : List Char :=
  o.letter :: '[' :: (natStr lb ++ ',' :: (natStr ub ++ [']']))

/-- Enum values of `SetAggregationKind` (cpt.py:334-339). -/
def AggK.sym : AggK → List Char
  | .each => ['f', 'o', 'r', 'e', 'a', 'c', 'h']
  | .some => ['f', 'o', 'r', 's', 'o', 'm', 'e']
  | .exactly => ['f', 'o', 'r', 'e', 'x', 'a', 'c', 't', 'l', 'y']
  | .atLeast => ['f', 'o', 'r', 'a', 't', 'l', 'e', 'a', 's', 't']
  | .atMost => ['f', 'o', 'r', 'a', 't', 'm', 'o', 's', 't']

mutual
/-- `to_prefix_str(expr, with_internal_labels=True)` (cpt.py:2089-2185); this is
`repr(expr)` (cpt.py:127-128), the key of `optimize_cse`.  Nodes with an
impossible number of children give the empty text. -/
def prefixStr : Ast → List Char
  | .node (.lit v) _ => litStr v
  | .node (.name s) _ => s.toList
  | .node (.op o) cs => '(' :: (o.sym ++ (prefixArgs cs ++ [')']))
  | .node (.tmp o lb ub) cs => '(' :: (tmpSym o lb ub ++ (prefixArgs cs ++ [')']))
  | .node .atomic [c] => ['A', 't', 'o', 'm', 'i', 'c'] ++ '(' :: (prefixStr c ++ [')'])
  | .node (.call f) cs => '(' :: (f.toList ++ (prefixArgs cs ++ [')']))
  | .node (.struct s _) cs => '(' :: (s.toList ++ (prefixArgs cs ++ [')']))
  | .node (.access m) [c] => prefixStr c ++ '.' :: m.toList
  | .node .array cs => '{' :: (prefixJoin cs ++ ['}'])
  | .node (.index i) [c] => prefixStr c ++ '[' :: (intStr i ++ [']'])
  | .node (.slice a b) [c] => prefixStr c ++ '[' :: (intStr a ++ '.' :: '.' :: (intStr b ++ [']']))
  | .node (.agg k v) [set, _, body] =>
      '(' :: (k.sym ++ [' ', '('] ++ v.toList ++ [' ', ':', ' '] ++ prefixStr set ++ [')', ' '] ++
        prefixStr body ++ [')'])
  | .node (.agg k v) [set, _, _, body] =>
      '(' :: (k.sym ++ [' ', '('] ++ v.toList ++ [' ', ':', ' '] ++ prefixStr set ++ [')', ' '] ++
        prefixStr body ++ [')'])
  | .node (.formula l _) [c] => l.toList ++ ':' :: ' ' :: prefixStr c
  | .node (.contract l _ _ _) [a, g] =>
      l.toList ++ [':', ' '] ++ prefixStr a ++ [' ', ' ', '=', '>', ' '] ++ prefixStr g
  | .node .specSet cs => prefixJoin cs
  | .node _ _ => []
/-- operands, each preceded by a blank -/
def prefixArgs : List Ast → List Char
  | [] => []
  | c :: cs => ' ' :: (prefixStr c ++ prefixArgs cs)
/-- operands separated by blanks -/
def prefixJoin : List Ast → List Char
  | [] => []
  | c :: cs => prefixStr c ++ prefixArgs cs
end

/-- `is_internal_label` (cpt.py:1065-1071): `^__.*__$`; labels have no line breaks. -/
def internalLabel (l : String) : Bool :=
  ['_', '_'].isPrefixOf l.toList && ['_', '_'].isSuffixOf (l.toList.drop 2)

mutual
/-- `to_infix_str(expr)` (cpt.py:1961-2087); this is `str(expr)` (cpt.py:124-125),
the text `optimize_rewrites` compares operands by.  The closing mark is all that is printed of an operator, a call, a
structure or an array without operands. -/
def infixStr : Ast → List Char
  | .node (.lit v) _ => litStr v
  | .node (.name s) _ => s.toList
  | .node (.op _) [] => [')']
  | .node (.op .count) cs => OpK.count.sym ++ '(' :: (infixJoin [',', ' '] cs ++ [')'])
  | .node (.op o) [c] => '(' :: (o.sym ++ ' ' :: (infixStr c ++ [')']))
  | .node (.op .prev) [a, b] => OpK.prev.sym ++ '(' :: (infixStr a ++ ',' :: (infixStr b ++ [')']))
  | .node (.op o) cs => '(' :: (infixJoin (' ' :: (o.sym ++ [' '])) cs ++ [')'])
  | .node (.tmp ..) [] => [')']
  | .node (.tmp o lb ub) [c] => '(' :: (tmpSym o lb ub ++ ' ' :: (infixStr c ++ [')']))
  | .node (.tmp o lb ub) cs => '(' :: (infixJoin (' ' :: (tmpSym o lb ub ++ [' '])) cs ++ [')'])
  | .node .atomic [c] => infixStr c
  | .node (.call _) [] => [')']
  | .node (.call f) cs => f.toList ++ '(' :: (infixJoin [',', ' '] cs ++ [')'])
  | .node (.struct ..) [] => [')']
  | .node (.struct s _) cs => s.toList ++ '(' :: (infixJoin [',', ' '] cs ++ [')'])
  | .node (.access m) [c] => infixStr c ++ '.' :: m.toList
  | .node .array [] => ['}']
  | .node .array cs => '{' :: (infixJoin [',', ' '] cs ++ ['}'])
  | .node (.index i) [c] => infixStr c ++ '[' :: (intStr i ++ [']'])
  | .node (.slice a b) [c] => infixStr c ++ '[' :: (intStr a ++ '.' :: '.' :: (intStr b ++ [']']))
  | .node (.agg k v) [set, _, body] =>
      k.sym ++ '(' :: (v.toList ++ [' ', ':', ' '] ++ infixStr set ++ [')', '('] ++
        infixStr body ++ [')'])
  | .node (.agg k v) [set, _, _, body] =>
      k.sym ++ '(' :: (v.toList ++ [' ', ':', ' '] ++ infixStr set ++ [')', '('] ++
        infixStr body ++ [')'])
  | .node (.formula l _) [c] => (if internalLabel l then [] else l.toList ++ [':', ' ']) ++ (infixStr c ++ [';'])
  | .node (.contract l _ _ _) [a, g] =>
      l.toList ++ [':', ' '] ++ infixStr a ++ [' ', '=', '>', ' '] ++ infixStr g ++ [';']
  | .node _ _ => []
/-- operands separated by `sep` -/
def infixJoin (sep : List Char) : List Ast → List Char
  | [] => []
  | [c] => infixStr c
  | c :: d :: cs => infixStr c ++ (sep ++ infixJoin sep (d :: cs))
end


namespace Expr
variable {α : Type}
mutual
/-- The parse tree of a temporal-level expression, given the parse trees of its
atoms: which `OperatorKind` each constructor of `Expr` stands for
(cpt.py:664-855). -/
def toAst (f : α → Ast) : Expr α → Ast
  | .const b => .node (.lit (.bool b)) []
  | .atom a => f a
  | .neg e => .node (.op .neg) [toAst f e]
  | .and cs => .node (.op .and) (toAstL f cs)
  | .or cs => .node (.op .or) (toAstL f cs)
  | .xor l r => .node (.op .xor) [toAst f l, toAst f r]
  | .imp l r => .node (.op .imp) [toAst f l, toAst f r]
  | .iff l r => .node (.op .iff) [toAst f l, toAst f r]
  | .equal l r => .node (.op .eq) [toAst f l, toAst f r]
  | .fut lb ub e => .node (.tmp .F lb ub) [toAst f e]
  | .glob lb ub e => .node (.tmp .G lb ub) [toAst f e]
  | .untl lb ub l r => .node (.tmp .U lb ub) [toAst f l, toAst f r]
  | .rel lb ub l r => .node (.tmp .R lb ub) [toAst f l, toAst f r]
  | .once lb ub e => .node (.tmp .O lb ub) [toAst f e]
  | .hist lb ub e => .node (.tmp .H lb ub) [toAst f e]
  | .since lb ub l r => .node (.tmp .S lb ub) [toAst f l, toAst f r]
  | .trig lb ub l r => .node (.tmp .T lb ub) [toAst f l, toAst f r]
def toAstL (f : α → Ast) : List (Expr α) → List Ast
  | [] => []
  | c :: cs => toAst f c :: toAstL f cs
end

/-- `str(expr)` of a temporal-level expression. -/
def str (f : α → Ast) (e : Expr α) : List Char := infixStr (toAst f e)

end Expr
end R2U2
