import Verif.Model.Parser
import Verif.Model.TypeCheck
import Verif.Model.Write
/-
The front end of the compiler put together: from the text of a program to the desugared formulas.
-/
namespace R2U2

/-- The value of an enumeration member as the type checker takes it (type_check.py:655): an integer constant.  (Truth values
are accepted there, too; they are not here.) -/
def Src.intConst : Src → Option Int
  | .node (.lit (.int n)) _ _ => some n
  | _ => none

/-- A parsed section as the type checker reads it: the members of structures one by one (`struct`,
parse_c2po.py:204-216), the values of enumeration members. -/
def C2po.Section.toSec : C2po.Section → Sec
  | .input ds => .input ds
  | .define ds => .define ds
  | .struct ds => .struct (ds.map fun d => (d.1, d.2.flatMap fun m => m.1.map (·, m.2)))
  | .enum ds => .enum (ds.map fun d => (d.1, d.2.map fun m => (m.1, m.2.intConst)))
  | .spec ft ss => .spec ft ss

/-- The future-time or the past-time specifications of a program, in the order of the sections (`Program.__init__`,
cpt.py:1312-1323). -/
def specsOf (ft : Bool) (secs : List Sec) : List Spec :=
  secs.flatMap fun
    | .spec f ss => if f = ft then ss else []
    | _ => []

/-- What a node is replaced by, if it is a name. -/
def SK.stands (δ : String → Option Src) : SK → Option Src
  | .var s => δ s
  | _ => none

mutual
/-- `e` with every name replaced by the expansion of what it stands for: `expand_definitions` (desugar.py:4-23), on trees instead of
the shared graph; see `C30_trees_partial`.  `none` is also running out of fuel. -/
def Src.expandTree (δ : String → Option Src) : Nat → Src → Option Src
  | 0, _ => none
  | n + 1, .node k ty cs =>
      match k.stands δ with
      | some d => if cs.isEmpty then Src.expandTree δ n d else none
      | none => (Src.expandTreeL δ n cs).map (.node k ty ·)
def Src.expandTreeL (δ : String → Option Src) : Nat → List Src → Option (List Src)
  | _, [] => some []
  | 0, _ :: _ => none
  | n + 1, c :: cs => (Src.expandTree δ n c).bind fun c' => (Src.expandTreeL δ n cs).map (c' :: ·)
end

/-- `context.specifications` (type_check.py:19, cpt.py:1557-1558): formulas by label, later ones first. -/
def formulaTable (secs : List Sec) : Tbl Src :=
  (secs.flatMap fun
    | .spec _ ss => ss.flatMap fun
        | .formula l _ e => [(l, e)]
        | .contract .. => []
    | _ => []).reverse

/-- What a name stands for after type checking (desugar.py:17-20): a definition, or else a specification. -/
def nameOf (p : List Sec × TcCtx) (s : String) : Option Src :=
  match p.2.definitions.lookup s with
  | some d => some d
  | none => (formulaTable p.1).lookup s

/-- A specification with its definitions expanded. -/
def expandSpec (δ : String → Option Src) (fuel : Nat) : Spec → Option Spec
  | .formula l n e => (e.expandTree δ fuel).map (.formula l n ·)
  | .contract l n1 n2 n3 a g => (a.expandTree δ fuel).bind fun a => (g.expandTree δ fuel).map fun g => .contract l n1 n2 n3 a g

/-- One specification after `desugar` (desugar.py:429-445), definitions expanded and contracts resolved. -/
def desugarSpec (T : Structs) (E : Enums) (fuel : Nat) : Spec → Option (String × Nat × Src)
  | .formula l n e => (Src.desugar true T E fuel e).map (l, n, ·)
  | .contract .. => none

/-- `desugar` (desugar.py:429-445) on one specification set: formulas with their labels and numbers. -/
def desugarSet (p : List Sec × TcCtx) (fuel : Nat) (ss : List Spec) : Option (List (String × Nat × Src)) :=
  (ss.mapM (expandSpec (nameOf p) fuel)).bind fun ss =>
    (Src.resolveContracts ss).mapM (desugarSpec p.2.structs p.2.enums fuel)

/-- `type_check` and `desugar` on the sections (main.py:312-317): the checked program, and the formulas of the two specification
sets. -/
def frontEnd (Γ : TcCtx) (fuel : Nat) (secs : List C2po.Section) :
    Option ((List Sec × TcCtx) × List (String × Nat × Src) × List (String × Nat × Src)) :=
  (Tc.checkProgram Γ (secs.map (·.toSec))).bind fun p =>
  (desugarSet p fuel (specsOf true p.1)).bind fun fs =>
  (desugarSet p fuel (specsOf false p.1)).map fun ps => (p, fs, ps)

namespace Src
variable {S : List String}

/-- The connectives and temporal operators, by class. -/
def mkOp {α : Type} : OpK → List (Expr α) → Option (Expr α)
  | .and, cs => some (.and cs)
  | .or, cs => some (.or cs)
  | .neg, [a] => some (.neg a)
  | .xor, [a, b] => some (.xor a b)
  | .imp, [a, b] => some (.imp a b)
  | .iff, [a, b] => some (.iff a b)
  | .eq, [a, b] => some (.equal a b)
  | _, _ => none

def mkTmp {α : Type} (lb ub : Nat) : TmpK → List (Expr α) → Option (Expr α)
  | .F, [a] => some (.fut lb ub a)
  | .G, [a] => some (.glob lb ub a)
  | .U, [a, b] => some (.untl lb ub a b)
  | .R, [a, b] => some (.rel lb ub a b)
  | .O, [a] => some (.once lb ub a)
  | .H, [a] => some (.hist lb ub a)
  | .S, [a, b] => some (.since lb ub a b)
  | .T, [a, b] => some (.trig lb ub a b)
  | _, _ => none

mutual
/-- A formula over the signals `S`, read as one of the temporal logic: the same tree, see `toExpr_toAst`. -/
def toExpr (S : List String) : Src → Option (Expr {s : String // s ∈ S})
  | .node (.lit (.bool b)) _ [] => some (.const b)
  | .node (.sig s) _ [] => if h : s ∈ S then some (.atom ⟨s, h⟩) else none
  | .node (.op o) _ cs => (toExprL S cs).bind (mkOp o)
  | .node (.tmp o lb ub) _ cs => (toExprL S cs).bind (mkTmp lb ub o)
  | _ => none
def toExprL (S : List String) : List Src → Option (List (Expr {s : String // s ∈ S}))
  | [] => some []
  | c :: cs => (toExpr S c).bind fun c' => (toExprL S cs).map (c' :: ·)
end

/-- The specifications so read. -/
def toSpecs (S : List String) (ss : List (String × Nat × Src)) : Option (List (String × Nat × Expr {s : String // s ∈ S})) :=
  ss.mapM fun s => (toExpr S s.2.2).map (s.1, s.2.1, ·)

end Src
end R2U2
