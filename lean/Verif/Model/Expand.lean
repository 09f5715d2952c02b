import Verif.Model.Heap
import Verif.Model.Source
/-
Model of `expand_definitions` (desugar.py:4-23) on the object graph of a parsed and type-checked program.
-/
namespace R2U2

/-- What a node of the graph is: an expression with its class and type (Model/Source), a specification
(cpt.py:1053-1102), or one of the two specification sets (cpt.py:1108-1116).  `Bind` nodes, which have no
children and are not yielded by traversals, are left out. -/
inductive XNode where
  | expr (k : SK) (ty : Typ)
  | formula (num : Nat)
  | contract (n1 n2 n3 : Nat)
  | specSet

/-- A program: the graph, `context.definitions` (name and expression node), `context.specifications` (label and
formula node), and the two specification sets. -/
structure XProg where
  heap : Heap XNode
  defs : List (String × Nat)
  specs : List (String × Nat)
  ft : Nat
  pt : Nat

/-- `new.type = self.type` (cpt.py:104). -/
def XNode.retype (new self : XNode) : XNode :=
  match new, self with
  | .expr k _, .expr _ ty => .expr k ty
  | n, _ => n

/-- `self.replace(new)` with the assignment of the type (cpt.py:87-104). -/
def replaceTyped (h : Heap XNode) (self new : Nat) : Heap XNode :=
  if self = new then h
  else { h.replace self new with lab := fun z => if z = new then (h.lab z).retype (h.lab self) else h.lab z }

/-- What a node is replaced by (desugar.py:14-20), if it is a variable with a name that is defined.  `get_expr`
is the first child of a formula (cpt.py:1062-1063). -/
def XProg.target (P : XProg) (h : Heap XNode) (x : Nat) : Option Nat :=
  match h.lab x with
  | .expr (.var s) _ =>
      match P.defs.lookup s with
      | some d => some d
      | none => (P.specs.lookup s).bind fun f => (h.kids f).head?
  | _ => none

/-- The body of the loop (desugar.py:14-20). -/
def XProg.expandOne (P : XProg) (h : Heap XNode) (x : Nat) : Heap XNode :=
  match P.target h x with
  | some y => replaceTyped h x y
  | none => h

/-- `expand_definitions` (desugar.py:4-23): the nodes of all definitions, then of the program, are listed before
anything is replaced.  Two nested aggregations over the same name make the traversal raise `KeyError`
(cpt.py:1624-1627); this is not modelled. -/
def XProg.expand (P : XProg) (fuel : Nat) : Option (Heap XNode) :=
  (Heap.collect ((P.defs.map (·.2)).map fun d => P.heap.postorder fuel [d])).bind fun ds =>
  (P.heap.postorder fuel [P.ft]).bind fun a =>
  (P.heap.postorder fuel [P.pt]).map fun b =>
    (ds.flatten ++ (a ++ b)).foldl P.expandOne P.heap

end R2U2
