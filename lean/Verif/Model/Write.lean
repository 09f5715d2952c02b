import Verif.Model.Parser
/-
Model of `write_c2po` (serialize.py:4-11): the text of a program, `str(program)`.
-/
namespace R2U2
namespace C2po

mutual
/-- The parse tree of a source expression, with the classes `to_infix_str` tells apart.  A set aggregation has the `Bind`
dummy before its last child (cpt.py:353-366); `CurrentTimestamp` has the symbol `TAU` (cpt.py:181-194). -/
def toAst : Src → Ast
  | .node (.lit v) _ _ => .node (.lit v) []
  | .node .tau _ _ => .node (.name "TAU") []
  | .node (.sig s) _ _ => .node (.name s) []
  | .node (.var s) _ _ => .node (.name s) []
  | .node .array _ cs => .node .array (toAstL cs)
  | .node (.index i) _ cs => .node (.index i) (toAstL cs)
  | .node (.slice a b) _ cs => .node (.slice a b) (toAstL cs)
  | .node (.struct s ms) _ cs => .node (.struct s ms.zipIdx) (toAstL cs)
  | .node (.access m) _ cs => .node (.access m) (toAstL cs)
  | .node (.call f) _ cs => .node (.call f) (toAstL cs)
  | .node (.agg k v) _ [set, body] => .node (.agg k v) [toAst set, .node (.bind v) [], toAst body]
  | .node (.agg k v) _ [set, n, body] => .node (.agg k v) [toAst set, toAst n, .node (.bind v) [], toAst body]
  | .node (.agg k v) _ cs => .node (.agg k v) (toAstL cs)
  | .node (.op o) _ cs => .node (.op o) (toAstL cs)
  | .node (.tmp k lb ub) _ cs => .node (.tmp k lb ub) (toAstL cs)
def toAstL : List Src → List Ast
  | [] => []
  | c :: cs => toAst c :: toAstL cs
end

/-- `str(expr)` (cpt.py:124-125). -/
def text (e : Src) : List Char := infixStr (toAst e)

/-- Python's `sep.join(texts)`. -/
def joinWith (sep : List Char) : List (List Char) → List Char
  | [] => []
  | [t] => t
  | t :: u :: ts => t ++ (sep ++ joinWith sep (u :: ts))

/-- `str(type)` (types.py:42-43, 117-120). -/
def typText : Typ → List Char
  | .none => "NoType".toList
  | .bool => "bool".toList
  | .int => "int".toList
  | .float => "float".toList
  | .struct s => s.toList
  | .enum s => s.toList
  | .contract => "contract".toList
  | .arr t size => typText t ++ '[' :: ((if size ≥ 0 then intStr size else []) ++ [']'])

/-- `VariableDeclaration.__str__` (cpt.py:1168-1169). -/
def declText (d : List String × Typ) : List Char := joinWith [','] (d.1.map String.toList) ++ ':' :: ' ' :: typText d.2

/-- `StructDefinition.__str__` (cpt.py:1136-1138). -/
def structText (d : String × List (List String × Typ)) : List Char :=
  d.1.toList ++ ':' :: ' ' :: '{' :: (joinWith [' '] (d.2.map fun x => declText x ++ [';']) ++ ['}'])

/-- `Definition.__str__` (cpt.py:1182-1183). -/
def defText (d : String × Src) : List Char := d.1.toList ++ ' ' :: ':' :: '=' :: ' ' :: text d.2

/-- `EnumDefinition.__str__` (cpt.py:1156-1158). -/
def enumText (d : String × List (String × Src)) : List Char :=
  d.1.toList ++ ':' :: ' ' :: '{' :: (joinWith [' '] (d.2.map fun x => defText x ++ [',']) ++ ['}'])

/-- `str` of a formula or a contract (cpt.py:2064-2082). -/
def specText : Spec → List Char
  | .formula l n e => infixStr (.node (.formula l n) [toAst e])
  | .contract l a b c e g => infixStr (.node (.contract l a b c) [toAst e, toAst g])

/-- The sections' `__str__` (cpt.py:1196-1198, 1218-1220, 1240-1242, 1264-1266, 1291-1300). -/
def sectionText : Section → List Char
  | .input ds => "INPUT\n\t".toList ++ joinWith ['\n', '\t'] (ds.map fun d => declText d ++ [';'])
  | .define ds => "DEFINE\n\t".toList ++ joinWith ['\n', '\t'] (ds.map fun d => defText d ++ [';'])
  | .struct ds => "STRUCT\n\t".toList ++ joinWith ['\n', '\t'] (ds.map fun d => structText d ++ [';'])
  | .enum ds => "ENUM\n\t".toList ++ joinWith ['\n', '\t'] (ds.map fun d => enumText d ++ [';'])
  | .spec true ss => "FTSPEC\n\t".toList ++ joinWith ['\n', '\t'] (ss.map specText)
  | .spec false ss => "PTSPEC\n\t".toList ++ joinWith ['\n', '\t'] (ss.map specText)

/-- `Program.__str__` (cpt.py:1419-1420), what `write_c2po` writes (serialize.py:4-11). -/
def written (ss : List Section) : List Char := joinWith ['\n'] (ss.map sectionText)

end C2po
end R2U2
