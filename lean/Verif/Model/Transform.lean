import Verif.Model.Cpt
/-
Model of `/repo/compiler/c2po/transform.py`.
Each `…Step` is the body of the traversal loop applied to one visited node; the
pass itself is `Expr.post …Step` (postorder) or `nnfPass` (preorder).
-/

namespace R2U2
namespace Transform
open Expr
variable {α : Type}

/-- Body of the loop of `to_bnf` (transform.py:12-111). -/
def bnfStep : Expr α → Expr α
  -- p || q = !(!p && !q)                                   (16-26)
  | .or cs => .neg (.and (cs.map .neg))
  -- p -> q = !(p && !q)                                    (27-38)
  | .imp l r => .neg (.and [l, .neg r])
  -- p xor q = !(!p && !q) && !(p && q)                     (39-62)
  | .xor l r => .and [.neg (.and [.neg l, .neg r]), .neg (.and [l, r])]
  -- F p = True U p                                         (63-76)
  | .fut lb ub e => .untl lb ub (.const true) e
  -- G p = !(True U !p)                                     (77-93)
  | .glob lb ub e => .neg (.untl lb ub (.const true) (.neg e))
  -- p R q = !(!p U !q)                                     (94-111)
  | .rel lb ub l r => .neg (.untl lb ub (.neg l) (.neg r))
  | e => e

/-- `to_bnf` (transform.py:5-114). -/
def toBnf (e : Expr α) : Expr α := post bnfStep e

/-- Body of the loop of `to_nnf` (transform.py:135-299): the node that replaces
the visited one. -/
def nnfRule : Expr α → Expr α
  | .neg (.neg p) => p                                            -- 139-141
  | .neg (.or cs) => .and (cs.map .neg)                           -- 142-152
  | .neg (.and cs) => .or (cs.map .neg)                           -- 153-163
  | .neg (.imp l r) => .and [l, .neg r]                           -- 164-173
  -- the code builds (!p && q) && (p && !q)                          174-191
  | .neg (.xor l r) => .and [.and [.neg l, r], .and [l, .neg r]]
  | .neg (.iff l r) => .or [.and [l, .neg r], .and [.neg l, r]]   -- 192-209
  | .neg (.fut lb ub e) => .glob lb ub (.neg e)                   -- 210-222
  | .neg (.glob lb ub e) => .fut lb ub (.neg e)                   -- 223-235
  | .neg (.untl lb ub l r) => .rel lb ub (.neg l) (.neg r)        -- 236-253
  | .neg (.rel lb ub l r) => .untl lb ub (.neg l) (.neg r)        -- 254-271
  | .imp l r => .or [.neg l, r]                                   -- 272-281
  | .xor l r => .or [.and [l, .neg r], .and [.neg l, r]]          -- 282-299
  | e => e

/-- The preorder traversal of `to_nnf` (transform.py:135, cpt.py:1643-1669):
the visited node is replaced, then the traversal continues with the *children
of the replacement* (cpt.py:1663-1669); the replacement itself is not visited
again.  `n` is a recursion budget; `nnf` below supplies enough of it
(`Props` proves the unbounded recursion equation).

Simplification: on trees.  The xor/equivalence cases create shared sub-objects
in Python; each occurrence is rewritten separately here. -/
def nnfPass : Nat → Expr α → Expr α
  | 0, e => e
  | n + 1, e => mapChildren (nnfPass n) (nnfRule e)

mutual
/-- A bound on the number of levels `to_nnf` descends. -/
def nnfDepth : Expr α → Nat
  | .const _ | .atom _ => 1
  | .neg e => nnfDepth e + 1
  | .and cs | .or cs => nnfDepthL cs + 1
  | .xor l r | .iff l r => max (nnfDepth l) (nnfDepth r) + 3
  | .imp l r => max (nnfDepth l) (nnfDepth r) + 2
  | .equal l r => max (nnfDepth l) (nnfDepth r) + 1
  | .fut _ _ e | .glob _ _ e | .once _ _ e | .hist _ _ e => nnfDepth e + 1
  | .untl _ _ l r | .rel _ _ l r | .since _ _ l r | .trig _ _ l r =>
      max (nnfDepth l) (nnfDepth r) + 1
def nnfDepthL : List (Expr α) → Nat
  | [] => 0
  | c :: cs => max (nnfDepth c) (nnfDepthL cs)
end

/-- `to_nnf` (transform.py:125-302). -/
def toNnf (e : Expr α) : Expr α := nnfPass (nnfDepth e) e

/-- `type(expr)(expr.loc, expr.operator, [new, child], …)` repeated
(transform.py:324-331): the first two operands, then one more at a time up to
the last but one, then the last. -/
def binarize (mk : List (Expr α) → Expr α) (c0 c1 c2 : Expr α) (rest : List (Expr α)) : Expr α :=
  let ops := c2 :: rest
  let new := (ops.dropLast).foldl (fun acc c => mk [acc, c]) (mk [c0, c1])
  mk [new, ops.getLast (by simp [ops])]

/-- Body of the loop of `multi_operators_to_binary` (transform.py:318-333).
`+` and `*` are below the temporal-logic level, see the booleanizer model. -/
def binaryStep : Expr α → Expr α
  | .and (c0 :: c1 :: c2 :: rest) => binarize .and c0 c1 c2 rest
  | .or (c0 :: c1 :: c2 :: rest) => binarize .or c0 c1 c2 rest
  | e => e

/-- `multi_operators_to_binary` (transform.py:313-336). -/
def toBinary (e : Expr α) : Expr α := post binaryStep e

/-- `MAX_ARITY` (transform.py:351). -/
def maxArity : Nat := 4

/-- The child-collection loop (transform.py:359-364); `same` returns the
children of an operand with the same operator. -/
def flattenChildren (same : Expr α → Option (List (Expr α))) :
    List (Expr α) → List (Expr α) → List (Expr α)
  | acc, [] => acc
  | acc, c :: cs =>
    match same c with
    | some gs =>
      if acc.length < maxArity then flattenChildren same (acc ++ gs) cs
      else flattenChildren same (acc ++ [c]) cs
    | none => flattenChildren same (acc ++ [c]) cs

def andChildren : Expr α → Option (List (Expr α))
  | .and cs => some cs
  | _ => none

def orChildren : Expr α → Option (List (Expr α))
  | .or cs => some cs
  | _ => none

/-- Body of the loop of `flatten_multi_operators` (transform.py:353-367). -/
def flattenStep : Expr α → Expr α
  | .and cs => .and (flattenChildren andChildren [] cs)
  | .or cs => .or (flattenChildren orChildren [] cs)
  | e => e

/-- `flatten_multi_operators` (transform.py:347-370). -/
def flatten (e : Expr α) : Expr α := post flattenStep e

/-- Body of the loop of `remove_extended_operators` (transform.py:395-485). -/
def extStep : Expr α → Expr α
  | .xor l r => .neg (.iff l r)                              -- 399-412
  | .imp l r => .or [.neg l, r]                              -- 413-421
  | .fut lb ub e => .untl lb ub (.const true) e              -- 422-437
  | .glob lb ub e => .rel lb ub (.const false) e             -- 438-453
  | .once lb ub e => .since lb ub (.const true) e            -- 454-469
  | .hist lb ub e => .trig lb ub (.const false) e            -- 470-485
  | e => e

/-- `remove_extended_operators` (transform.py:381-488): first makes operators
binary (392), then the loop. -/
def removeExtended (e : Expr α) : Expr α := post extStep (toBinary e)

/-- `expr.children.sort(key=lambda child: child.wpd)` (transform.py:507):
Python's sort is stable, as is `List.mergeSort`. -/
def sortByKey (key : Expr α → Int) (cs : List (Expr α)) : List (Expr α) :=
  cs.mergeSort (fun a b => decide (key a ≤ key b))

/-- Body of the loop of `sort_operands_by_pd` (transform.py:503-507) on the
commutative operators (cpt.py:941-954).  `key` reads the `wpd` attribute. -/
def sortStep (key : Expr α → Int) : Expr α → Expr α
  | .and cs => .and (sortByKey key cs)
  | .or cs => .or (sortByKey key cs)
  | .xor l r => if key l ≤ key r then .xor l r else .xor r l
  | .iff l r => if key l ≤ key r then .iff l r else .iff r l
  | .equal l r => if key l ≤ key r then .equal l r else .equal r l
  | e => e

/-- `sort_operands_by_pd` (transform.py:499-510). -/
def sortOperands (key : Expr α → Int) (e : Expr α) : Expr α := post (sortStep key) e

/-- Body of the loop of `remove_release_operators` (transform.py:526-543). -/
def releaseStep : Expr α → Expr α
  | .rel lb ub l r => .neg (.untl lb ub (.neg l) (.neg r))
  | e => e

/-- `remove_release_operators` (transform.py:521-546). -/
def removeRelease (e : Expr α) : Expr α := post releaseStep e

end Transform
end R2U2
