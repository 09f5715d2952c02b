/-
Model of the C2PO parse tree (`/repo/compiler/c2po/cpt.py`) at the level of the
temporal-logic engine: logical and temporal operators over opaque atoms.
-/

namespace R2U2

/-- Temporal-logic level expressions.

Models `Constant` (Boolean, cpt.py:148-166), `Signal`/`Atomic` leaves
(cpt.py:214-219, 758-768), `Operator` with the logical kinds (cpt.py:454-460,
513-756), `EQUAL` between Boolean operands (cpt.py:447, 664-667) and
`TemporalOperator` (cpt.py:770-855).

Simplifications: leaves are opaque atoms `α` (booleanizer sub-expressions are
modelled separately); expressions are trees, the in-place sharing of Python
objects is modelled separately; `&&`/`||` are n-ary as in the code, the other
operators have the arity their constructors give them; interval bounds are
naturals (the grammar only produces non-negative numerals). -/
inductive Expr (α : Type) where
  | const (b : Bool)
  | atom (a : α)
  | neg (e : Expr α)
  | and (cs : List (Expr α))
  | or (cs : List (Expr α))
  | xor (l r : Expr α)
  | imp (l r : Expr α)
  | iff (l r : Expr α)
  | equal (l r : Expr α)
  | fut (lb ub : Nat) (e : Expr α)
  | glob (lb ub : Nat) (e : Expr α)
  | untl (lb ub : Nat) (l r : Expr α)
  | rel (lb ub : Nat) (l r : Expr α)
  | once (lb ub : Nat) (e : Expr α)
  | hist (lb ub : Nat) (e : Expr α)
  | since (lb ub : Nat) (l r : Expr α)
  | trig (lb ub : Nat) (l r : Expr α)

namespace Expr
variable {α : Type}

/-- Direct children, as in `Expression.children` (cpt.py:47-56). -/
def children : Expr α → List (Expr α)
  | .const _ | .atom _ => []
  | .neg e => [e]
  | .and cs | .or cs => cs
  | .xor l r | .imp l r | .iff l r | .equal l r => [l, r]
  | .fut _ _ e | .glob _ _ e | .once _ _ e | .hist _ _ e => [e]
  | .untl _ _ l r | .rel _ _ l r | .since _ _ l r | .trig _ _ l r => [l, r]

/-- The same node with `g` applied to every direct child: what a node looks like
after each of its `children[i]` has been replaced (cpt.py:93-96). -/
def mapChildren (g : Expr α → Expr α) : Expr α → Expr α
  | .const b => .const b
  | .atom a => .atom a
  | .neg e => .neg (g e)
  | .and cs => .and (cs.map g)
  | .or cs => .or (cs.map g)
  | .xor l r => .xor (g l) (g r)
  | .imp l r => .imp (g l) (g r)
  | .iff l r => .iff (g l) (g r)
  | .equal l r => .equal (g l) (g r)
  | .fut lb ub e => .fut lb ub (g e)
  | .glob lb ub e => .glob lb ub (g e)
  | .untl lb ub l r => .untl lb ub (g l) (g r)
  | .rel lb ub l r => .rel lb ub (g l) (g r)
  | .once lb ub e => .once lb ub (g e)
  | .hist lb ub e => .hist lb ub (g e)
  | .since lb ub l r => .since lb ub (g l) (g r)
  | .trig lb ub l r => .trig lb ub (g l) (g r)

/-- `max([c.wpd for c in children])` (cpt.py:526, 783).  Python raises on an
empty list; operators always have at least one child, the value for `[]` is
irrelevant. -/
def maxL : List Int → Int
  | [] => 0
  | [x] => x
  | x :: y :: xs => max x (maxL (y :: xs))

/-- `min([c.bpd for c in children])` (cpt.py:527, 782). -/
def minL : List Int → Int
  | [] => 0
  | [x] => x
  | x :: y :: xs => min x (minL (y :: xs))

mutual
/-- Best-case propagation delay as set by the constructors: leaves 0
(cpt.py:42), logical operators cpt.py:527, future-time cpt.py:782,
`Historical`/`Once` cpt.py:824,834, `Since`/`Trigger` cpt.py:844,853. -/
def bpd : Expr α → Int
  | .const _ | .atom _ => 0
  | .neg e => bpd e
  | .and cs | .or cs => minL (bpdL cs)
  | .xor l r | .imp l r | .iff l r | .equal l r => min (bpd l) (bpd r)
  | .fut lb _ e | .glob lb _ e => bpd e + lb
  | .untl lb _ l r | .rel lb _ l r => min (bpd l) (bpd r) + lb
  | .once _ ub e | .hist _ ub e => bpd e - ub
  | .since lb _ l r | .trig lb _ l r => min (bpd l) (bpd r) - lb
def bpdL : List (Expr α) → List Int
  | [] => []
  | c :: cs => bpd c :: bpdL cs
end

mutual
/-- Worst-case propagation delay as set by the constructors: leaves 0
(cpt.py:43), logical operators cpt.py:526, future-time cpt.py:783,
`Historical`/`Once` cpt.py:825,835 (which read the operand's *bpd*),
`Since`/`Trigger` cpt.py:845,854. -/
def wpd : Expr α → Int
  | .const _ | .atom _ => 0
  | .neg e => wpd e
  | .and cs | .or cs => maxL (wpdL cs)
  | .xor l r | .imp l r | .iff l r | .equal l r => max (wpd l) (wpd r)
  | .fut _ ub e | .glob _ ub e => wpd e + ub
  | .untl _ ub l r | .rel _ ub l r => max (wpd l) (wpd r) + ub
  | .once lb _ e | .hist lb _ e => bpd e - lb
  | .since lb _ l r | .trig lb _ l r => max (wpd l) (wpd r) - lb
def wpdL : List (Expr α) → List Int
  | [] => []
  | c :: cs => wpd c :: wpdL cs
end

mutual
/-- A bottom-up pass: every node is visited after its children and handed to
`f`, whose result replaces it.  Models
`for expr in program.postorder(context): ... expr.replace(new)`
(cpt.py:1388-1394, 1609-1641, 87-104) on tree-shaped programs: when a node is
yielded its children have already been replaced. -/
def post (f : Expr α → Expr α) : Expr α → Expr α
  | .const b => f (.const b)
  | .atom a => f (.atom a)
  | .neg e => f (.neg (post f e))
  | .and cs => f (.and (postL f cs))
  | .or cs => f (.or (postL f cs))
  | .xor l r => f (.xor (post f l) (post f r))
  | .imp l r => f (.imp (post f l) (post f r))
  | .iff l r => f (.iff (post f l) (post f r))
  | .equal l r => f (.equal (post f l) (post f r))
  | .fut lb ub e => f (.fut lb ub (post f e))
  | .glob lb ub e => f (.glob lb ub (post f e))
  | .untl lb ub l r => f (.untl lb ub (post f l) (post f r))
  | .rel lb ub l r => f (.rel lb ub (post f l) (post f r))
  | .once lb ub e => f (.once lb ub (post f e))
  | .hist lb ub e => f (.hist lb ub (post f e))
  | .since lb ub l r => f (.since lb ub (post f l) (post f r))
  | .trig lb ub l r => f (.trig lb ub (post f l) (post f r))
def postL (f : Expr α → Expr α) : List (Expr α) → List (Expr α)
  | [] => []
  | c :: cs => post f c :: postL f cs
end

mutual
/-- Bottom-up pass whose step may raise (`none`): the command aborts with an
error as soon as one step raises (command.py:217-231). -/
def postM (f : Expr α → Option (Expr α)) : Expr α → Option (Expr α)
  | .const b => f (.const b)
  | .atom a => f (.atom a)
  | .neg e => do f (.neg (← postM f e))
  | .and cs => do f (.and (← postML f cs))
  | .or cs => do f (.or (← postML f cs))
  | .xor l r => do f (.xor (← postM f l) (← postM f r))
  | .imp l r => do f (.imp (← postM f l) (← postM f r))
  | .iff l r => do f (.iff (← postM f l) (← postM f r))
  | .equal l r => do f (.equal (← postM f l) (← postM f r))
  | .fut lb ub e => do f (.fut lb ub (← postM f e))
  | .glob lb ub e => do f (.glob lb ub (← postM f e))
  | .untl lb ub l r => do f (.untl lb ub (← postM f l) (← postM f r))
  | .rel lb ub l r => do f (.rel lb ub (← postM f l) (← postM f r))
  | .once lb ub e => do f (.once lb ub (← postM f e))
  | .hist lb ub e => do f (.hist lb ub (← postM f e))
  | .since lb ub l r => do f (.since lb ub (← postM f l) (← postM f r))
  | .trig lb ub l r => do f (.trig lb ub (← postM f l) (← postM f r))
def postML (f : Expr α → Option (Expr α)) : List (Expr α) → Option (List (Expr α))
  | [] => some []
  | c :: cs => do
      let c' ← postM f c
      let cs' ← postML f cs
      return c' :: cs'
end

end Expr
end R2U2
