import Verif.Spec.Grammar
import Verif.Spec.Lexical
/-
Which programs can be written and read back, stated apart from the printer and the parser.
-/
namespace R2U2
namespace C2po

mutual
/-- Every node of the expression has the property. -/
def Everywhere (p : Src → Prop) : Src → Prop
  | .node k t cs => p (.node k t cs) ∧ EverywhereL p cs
def EverywhereL (p : Src → Prop) : List Src → Prop
  | [] => True
  | c :: cs => Everywhere p c ∧ EverywhereL p cs
end

/-- The expression is an operator written in parentheses of its own: any but `prev`. -/
def Grouped : Src → Prop
  | .node (.op o) _ _ => o ≠ .prev
  | .node (.tmp ..) _ _ => True
  | _ => False

/-- The node can be written and read back.

Not so: numbers that Python does not print as digits with a decimal point, calls without arguments, `sqrt` and `abs` of what is not
written in parentheses, aggregations with a number. -/
def Portable (flt : String → String) : Src → Prop
  | .node (.lit (.float s)) _ _ => Spells flt s.toList (.dec s)
  | .node (.call _) _ [] => False
  | .node (.op .sqrt) _ [c] => Grouped c
  | .node (.op .abs) _ [c] => Grouped c
  | .node (.agg k _) _ _ => k ∈ [AggK.each, .some]
  | _ => True

def PortableExpr (flt : String → String) (e : Src) : Prop := Everywhere (Portable flt) e

/-- A label that starts and ends with two underscores. -/
def Internal (l : String) : Prop := ∃ w, l.toList = '_' :: '_' :: (w ++ ['_', '_'])

/-- A specification can be written and read back: besides its expressions, a label of the form `__...__` must be the one the parser would
choose. -/
def PortableSpec (flt : String → String) : Spec → Prop
  | .formula l n e => (Internal l → l = nameless n) ∧ PortableExpr flt e
  | .contract _ _ _ _ a g => PortableExpr flt a ∧ PortableExpr flt g

/-- A section can be written and read back.  Enumerations cannot. -/
def PortableSection (flt : String → String) : Section → Prop
  | .input _ => True
  | .struct _ => True
  | .define ds => ∀ d ∈ ds, PortableExpr flt d.2
  | .enum _ => False
  | .spec _ ss => ∀ s ∈ ss, PortableSpec flt s

end C2po
end R2U2
