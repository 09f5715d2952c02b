import Verif.Model.Egg
import Verif.Model.Backend
/-
Model of ILP extraction from an e-graph (`/repo/compiler/c2po/egraph.py`) and of how the
extracted formula is linked into the program graph (`build_expr_` in egraph.py, `parse` in
parse_egglog_output.py).

Gurobi is not modelled: a *solution* is any assignment that meets the constraints.  The delay
and cost variables only enter the objective and are left out, as is the test `X == 1` on
floating-point values (the solution is integral here).
-/
namespace R2U2

/-- The operator of an e-node (egraph.py:84-92): `op`, `interval`, `string`, `value`. -/
inductive EOp where
  | bool (b : Bool) | var (n : Nat) | not | implies | equiv
  | and2 | and3 | and4 | or2 | or3 | or4
  | global (lb ub : Int) | future (lb ub : Int) | until (lb ub : Int) | release (lb ub : Int)
  deriving DecidableEq

/-- `is_extended_operator` (egraph.py:94-95). -/
def EOp.extended : EOp → Bool
  | .implies | .global _ _ | .future _ _ => true
  | _ => false

/-- The term with this operator and these operands (egraph.py:578-655); `none`: wrong number of
operands. -/
def EOp.mk : EOp → List Egg → Option Egg
  | .bool b, [] => some (.bool b)
  | .var n, [] => some (.var n)
  | .not, [a] => some (.not a)
  | .implies, [a, b] => some (.implies a b)
  | .equiv, [a, b] => some (.equiv a b)
  | .and2, [a, b] => some (.and2 a b)
  | .and3, [a, b, c] => some (.and3 a b c)
  | .and4, [a, b, c, d] => some (.and4 a b c d)
  | .or2, [a, b] => some (.or2 a b)
  | .or3, [a, b, c] => some (.or3 a b c)
  | .or4, [a, b, c, d] => some (.or4 a b c d)
  | .global lb ub, [a] => some (.global lb ub a)
  | .future lb ub, [a] => some (.future lb ub a)
  | .until lb ub, [a, b] => some (.until lb ub a b)
  | .release lb ub, [a, b] => some (.release lb ub a b)
  | _, _ => none

/-- The number of operands. -/
def EOp.arity : EOp → Nat
  | .bool _ | .var _ => 0
  | .not | .global _ _ | .future _ _ => 1
  | .implies | .equiv | .and2 | .or2 | .until _ _ | .release _ _ => 2
  | .and3 | .or3 => 3
  | .and4 | .or4 => 4

/-- `ENode` (egraph.py:84-92): an operator over classes. -/
structure ENode where
  op : EOp
  kids : List Nat
  deriving DecidableEq

/-- `EGraph` (egraph.py:245-262): the nodes of every class (`eclasses`), and the root class. -/
structure EGraph where
  nodes : Nat → List ENode
  root : Nat

/-- Values of the solver's variables: `eclass(c)`, `enode(n)` for the node at a position of a
class, and `eclass_order(c)`. -/
structure Sol where
  cls : Nat → Nat
  node : Nat → Nat → Nat
  order : Nat → Nat

namespace EGraph

/-- The constraints of `build_gurobi_model_` (egraph.py:326-525) on the class, node and order
variables. -/
structure Feasible (G : EGraph) (extended : Bool) (s : Sol) : Prop where
  /-- `vtype=GRB.BINARY` (352, 359) -/
  node_binary : ∀ (c k : Nat), s.node c k ≤ 1
  cls_binary : ∀ (c : Nat), s.cls c ≤ 1
  /-- 387-389 -/
  root : s.cls G.root = 1
  /-- 391-394 -/
  ext : extended = false → ∀ (c k : Nat) (n : ENode), (G.nodes c)[k]? = some n →
    n.op.extended = true → s.node c k = 0
  /-- 396-403 -/
  children : ∀ (c k : Nat) (n : ENode), (G.nodes c)[k]? = some n →
    s.node c k * n.kids.length = s.node c k * (n.kids.map s.cls).sum
  /-- 405-411 -/
  sum : ∀ (c : Nat), s.cls c = ((List.range (G.nodes c).length).map (s.node c)).sum
  /-- 519-525 -/
  order : ∀ (c k : Nat) (n : ENode), (G.nodes c)[k]? = some n → ∀ (d : Nat), d ∈ n.kids →
    (s.node c k * s.order d : Int) ≤ (s.order c : Int) - 1

/-- `build_repr_map_` (egraph.py:548-568): the active node of an active class. -/
def repr (G : EGraph) (s : Sol) (c : Nat) : Option ENode :=
  if s.cls c = 1 then
    ((List.range (G.nodes c).length).find? (fun k => s.node c k = 1)).bind fun k => (G.nodes c)[k]?
  else none

/-- `build_expr_recur` (egraph.py:577-657) from the representative of a class; `none`: a
`KeyError`, or the recursion does not end. -/
def build (G : EGraph) (s : Sol) : Nat → Nat → Option Egg
  | 0, _ => none
  | fuel + 1, c => do
      let n ← G.repr s c
      n.op.mk (← n.kids.mapM (G.build s fuel))

end EGraph

/-! ### Linking the extracted formula into the program graph -/

/-- The program graph with the recorded delays, and the next free node number. -/
structure PGraph where
  heap : Heap BNode
  bpd : Nat → Int
  wpd : Nat → Int
  next : Nat

namespace PGraph

/-- A new node (cpt.py:31-56): its children learn about it. -/
def alloc (g : PGraph) (lab : BNode) (kids : List Nat) (bpd wpd : Int) : PGraph × Nat :=
  ({ heap :=
      { lab := fun x => if x = g.next then lab else g.heap.lab x
        kids := fun x => if x = g.next then kids else g.heap.kids x
        pars := fun x => if x ∈ kids then g.heap.pars x ++ [g.next] else g.heap.pars x }
     bpd := fun x => if x = g.next then bpd else g.bpd x
     wpd := fun x => if x = g.next then wpd else g.wpd x
     next := g.next + 1 }, g.next)

/-- A new logical operator, with the delays of cpt.py:526-527. -/
def logical (g : PGraph) (o : OpK) (kids : List Nat) : PGraph × Nat :=
  g.alloc (.op o false) kids (Expr.minL (kids.map g.bpd)) (Expr.maxL (kids.map g.wpd))

/-- A new future-time operator, with the delays of cpt.py:782-783. -/
def temporal (g : PGraph) (o : TmpK) (lb ub : Int) (kids : List Nat) : PGraph × Nat :=
  g.alloc (.temp o lb.natAbs ub.natAbs) kids (Expr.minL (kids.map g.bpd) + lb)
    (Expr.maxL (kids.map g.wpd) + ub)

/-- The nodes of a term, given what is done at a `Var` (operands are built from left to right
before the operator, in both importers). -/
def build (leaf : PGraph → Nat → PGraph × Nat) : Egg → PGraph → PGraph × Nat
  | .bool b, g => g.alloc (.bool b) [] 0 0
  | .var n, g => leaf g n
  | .not a, g =>
      let (g, x) := build leaf a g; g.logical .neg [x]
  | .implies a b, g =>
      let (g, x) := build leaf a g; let (g, y) := build leaf b g; g.logical .imp [x, y]
  | .equiv a b, g =>
      let (g, x) := build leaf a g; let (g, y) := build leaf b g; g.logical .iff [x, y]
  | .and2 a b, g =>
      let (g, x) := build leaf a g; let (g, y) := build leaf b g; g.logical .and [x, y]
  | .and3 a b c, g =>
      let (g, x) := build leaf a g; let (g, y) := build leaf b g; let (g, z) := build leaf c g
      g.logical .and [x, y, z]
  | .and4 a b c d, g =>
      let (g, x) := build leaf a g; let (g, y) := build leaf b g; let (g, z) := build leaf c g
      let (g, w) := build leaf d g; g.logical .and [x, y, z, w]
  | .or2 a b, g =>
      let (g, x) := build leaf a g; let (g, y) := build leaf b g; g.logical .or [x, y]
  | .or3 a b c, g =>
      let (g, x) := build leaf a g; let (g, y) := build leaf b g; let (g, z) := build leaf c g
      g.logical .or [x, y, z]
  | .or4 a b c d, g =>
      let (g, x) := build leaf a g; let (g, y) := build leaf b g; let (g, z) := build leaf c g
      let (g, w) := build leaf d g; g.logical .or [x, y, z, w]
  | .global lb ub a, g =>
      let (g, x) := build leaf a g; g.temporal .G lb ub [x]
  | .future lb ub a, g =>
      let (g, x) := build leaf a g; g.temporal .F lb ub [x]
  | .until lb ub a b, g =>
      let (g, x) := build leaf a g; let (g, y) := build leaf b g; g.temporal .U lb ub [x, y]
  | .release lb ub a b, g =>
      let (g, x) := build leaf a g; let (g, y) := build leaf b g; g.temporal .R lb ub [x, y]

/-- `Var` in `build_expr_recur` (egraph.py:580-597): the atomic node itself, whose set of
parents is cleared. -/
def clearLeaf (atomNode : Nat → Nat) (g : PGraph) (n : Nat) : PGraph × Nat :=
  ({ g with heap := { g.heap with
      pars := fun x => if x = atomNode n then [] else g.heap.pars x } }, atomNode n)

/-- ILP extraction: build the term and replace the old formula by it (egraph.py:570-659,
eqsat.py:560-563). -/
def ilpReplace (atomNode : Nat → Nat) (t : Egg) (old : Nat) (g : PGraph) : PGraph :=
  let (g, new) := build (clearLeaf atomNode) t g
  { g with heap := g.heap.replace old new }

/-- `Var` in the parser (parse_egglog_output.py:136-142): a new `Signal` called `aN` (the number
stands for the name). -/
def signalLeaf (g : PGraph) (n : Nat) : PGraph × Nat :=
  g.alloc (.signal false n) [] 0 0

/-- The loop body of parse_egglog_output.py:183-199 at a node: a signal of the output is replaced
by the atomic it names, and the atomic forgets the parents that are not part of the output. -/
def relink (atomNode : Nat → Nat) (inUse : List Nat) (h : Heap BNode) (x : Nat) : Heap BNode :=
  match h.lab x with
  | .signal _ n =>
      let a := atomNode n.toNat
      let h' := h.replace x a
      { h' with pars := fun c => if c = a then (h'.pars c).filter (fun p => decide (p ∈ inUse))
                                 else h'.pars c }
  | _ => h

/-- Greedy extraction: parse egglog's output into the graph, link the atomics and replace the old
formula (parse_egglog_output.py:173-204, eqsat.py:560-563). -/
def greedyReplace (fuel : Nat) (atomNode : Nat → Nat) (t : Egg) (old : Nat) (g : PGraph) :
    Option PGraph := do
  let (g, new) := build signalLeaf t g
  let inUse ← Heap.postorder fuel g.heap [new]
  let w ← Heap.walk (fun h (_ : Unit) x => some (relink atomNode inUse h x, ())) fuel
    (Heap.start g.heap [new] ())
  pure { g with heap := w.heap.replace old new }

end PGraph
end R2U2
