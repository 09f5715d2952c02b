import Verif.Model.Tree
/-
Model of the object graph behind a C2PO program: expression nodes with child
lists and parent sets (cpt.py:31-60), in-place replacement (cpt.py:87-104), the
generator `postorder` (cpt.py:1609-1641) and common sub-expression elimination
(cse.py).

A node is identified by a number, standing for Python's `id`.  A traversal is
interleaved with what its consumer does to the heap after each `yield`, as in
Python.  Loops take a fuel argument; `none` means the fuel ran out (the theorems
show that enough fuel exists and that the result does not depend on it).
-/
namespace R2U2

/-- The heap: label, `children` and `parents` of every node (cpt.py:47-56).
The set of parents is a list read as a set. -/
structure Heap (L : Type) where
  lab : Nat → L
  kids : Nat → List Nat
  pars : Nat → List Nat

namespace Heap
variable {L : Type}

/-- `self.replace(new)` (cpt.py:87-104): every parent's `children[i]` that is
`self` becomes `new`; `new` gets the parents; `self` is removed from its
children's parents.  (`replacement` and `type` are not modelled.) -/
def replace (h : Heap L) (self new : Nat) : Heap L :=
  if self = new then h else
  { lab := h.lab
    kids := fun p =>
      if p ∈ h.pars self then (h.kids p).map (fun c => if c = self then new else c) else h.kids p
    pars := fun c =>
      let ps := if c = new then h.pars c ++ h.pars self else h.pars c
      if c ∈ h.kids self then ps.filter (fun p => decide (p ≠ self)) else ps }

/-- All results, if every one is there. -/
def collect {β : Type} : List (Option β) → Option (List β)
  | [] => some []
  | o :: os =>
      match o, collect os with
      | some t, some ts => some (t :: ts)
      | _, _ => none

/-- The expression tree a node denotes: what a recursive reading of the graph
(`repr`, cpt.py:2089-2185) sees. -/
def unfold : Nat → Heap L → Nat → Option (Tree L)
  | 0, _, _ => none
  | n + 1, h, x => (collect ((h.kids x).map (unfold n h))).map (.node (h.lab x))

/-- State of a traversal (cpt.py:1613-1614) together with the heap and the state
`σ` of its consumer. -/
structure Walk (L σ : Type) where
  heap : Heap L
  stack : List (Bool × Nat)
  visited : List Nat
  out : List Nat
  acc : σ

/-- One iteration of `while len(stack) > 0` (cpt.py:1621-1641), including the
consumer's reaction to a `yield`.  Set aggregations and their `Bind` nodes
(1624-1630) are not modelled: traversals of desugared programs have none. -/
def walkStep {σ : Type} (visit : Heap L → σ → Nat → Option (Heap L × σ)) (w : Walk L σ) :
    Option (Walk L σ) :=
  match w.stack with
  | [] => some w
  | (true, x) :: st =>                                     -- 1631-1633
      (visit w.heap w.acc x).map fun (h, a) =>
        { heap := h, stack := st, visited := w.visited, out := w.out ++ [x], acc := a }
  | (false, x) :: st =>
      if x ∈ w.visited then some { w with stack := st }     -- 1634-1635
      else some { w with                                    -- 1637-1641
        stack := (w.heap.kids x).map (fun c => (false, c)) ++ (true, x) :: st
        visited := x :: w.visited }

/-- The traversal loop. -/
def walk {σ : Type} (visit : Heap L → σ → Nat → Option (Heap L × σ)) : Nat → Walk L σ → Option (Walk L σ)
  | 0, _ => none
  | n + 1, w =>
      if w.stack.isEmpty then some w
      else match walkStep visit w with
        | none => none
        | some w' => walk visit n w'

/-- Initial state for `postorder(start, context)` (cpt.py:1616-1619). -/
def start {σ : Type} (h : Heap L) (roots : List Nat) (a : σ) : Walk L σ :=
  { heap := h, stack := (roots.map (fun r => (false, r))).reverse, visited := [], out := [], acc := a }

/-- `list(postorder(roots))`: the consumer leaves the heap alone. -/
def postorder (fuel : Nat) (h : Heap L) (roots : List Nat) : Option (List Nat) :=
  (walk (fun h (_ : Unit) _ => some (h, ())) fuel (start h roots ())).map (·.out)

/-- `_optimize_cse(expr)` (cse.py:13-21): `expr_map` maps the text of a node to the
first node with that text. -/
def cseVisit {κ : Type} [DecidableEq κ] (key : Tree L → κ) (fuel : Nat) (h : Heap L)
    (m : List (κ × Nat)) (x : Nat) : Option (Heap L × List (κ × Nat)) :=
  match unfold fuel h x with
  | none => none
  | some t =>
      match m.lookup (key t) with
      | some y => some (h.replace x y, m)
      | none => some (h, (key t, x) :: m)

/-- One of the two loops of `optimize_cse` (cse.py:23-29): a fresh map and a
traversal of one specification set. -/
def cse {κ : Type} [DecidableEq κ] (key : Tree L → κ) (fuel : Nat) (h : Heap L) (root : Nat) :
    Option (Heap L) :=
  (walk (cseVisit key fuel) fuel (start h [root] [])).map (·.heap)

/-- `optimize_cse` (cse.py:4-32): future-time set, then past-time set. -/
def optimizeCse {κ : Type} [DecidableEq κ] (key : Tree L → κ) (fuel : Nat) (h : Heap L)
    (ft pt : Nat) : Option (Heap L) :=
  (cse key fuel h ft).bind fun h' => cse key fuel h' pt

end Heap
end R2U2
