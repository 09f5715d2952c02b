import Verif.Model.Heap
import Verif.Model.Printing
import Verif.Model.Transform
/-
Model of the transformation passes of `/repo/compiler/c2po/transform.py` and
`/repo/compiler/c2po/rewrite.py` on the object graph they really work on: nodes are
shared (a definition used twice is one object), new nodes are created, visited nodes
are replaced in place while the traversal runs.

`Verif.Model.Transform` and `Verif.Model.Rewrite` model the same passes on trees.
-/
namespace R2U2

/-- A piece of graph a pass builds (`cpt.Operator.LogicalAnd(expr.loc, [...])`): `old x` is
the existing node `x`, `new l cs` a new node. -/
inductive Bud (L : Type) where
  | old (x : Nat)
  | new (l : L) (cs : List (Bud L))

namespace Heap
variable {L : Type}

/-- `Expression.__init__` (cpt.py:47-56): node `n` gets its label and children and is added
to the parents of each child. -/
def add (h : Heap L) (n : Nat) (l : L) (xs : List Nat) : Heap L where
  lab := fun p => if p = n then l else h.lab p
  kids := fun p => if p = n then xs else h.kids p
  pars := fun c => (if c = n then [] else h.pars c) ++ (if c ∈ xs then [n] else [])

mutual
/-- Builds a piece of graph, operands first.  `n` is the next unused identity; the result is
the heap, the next unused identity and the node.  Simplification: identities of objects that
have been freed are not used again. -/
def grow : Bud L → Heap L → Nat → Heap L × Nat × Nat
  | .old x, h, n => (h, n, x)
  | .new l cs, h, n =>
      let r := growL cs h n
      (r.1.add r.2.1 l r.2.2, r.2.1 + 1, r.2.1)
/-- The operands, from left to right. -/
def growL : List (Bud L) → Heap L → Nat → Heap L × Nat × List Nat
  | [], h, n => (h, n, [])
  | c :: cs, h, n =>
      let r := grow c h n
      let s := growL cs r.1 r.2.1
      (s.1, s.2.1, r.2.2 :: s.2.2)
end

/-- What a pass decides at a node: an exception (`none`), leave it (`some none`), or
`expr.replace(new)` (`some (some new)`). -/
abbrev Rule (L : Type) := Heap L → Nat → Option (Option (Bud L))

/-- The body of a pass's loop. -/
def ruleVisit (rule : Rule L) (h : Heap L) (n : Nat) (x : Nat) : Option (Heap L × Nat) :=
  match rule h x with
  | none => none
  | some none => some (h, n)
  | some (some b) =>
      let r := grow b h n
      some (r.1.replace x r.2.2, r.2.1)

/-- `for expr in postorder(root, context): …` with the rule as the body. -/
def postRule (rule : Rule L) (fuel : Nat) (root : Nat) (s : Heap L × Nat) : Option (Heap L × Nat) :=
  (walk (ruleVisit rule) fuel (start s.1 [root] s.2)).map fun w => (w.heap, w.acc)

/-- `for expr in program.postorder(context): …` (cpt.py:1388-1394): the future-time set, then
the past-time set. -/
def postPass (rule : Rule L) (fuel : Nat) (ft pt : Nat) (s : Heap L × Nat) : Option (Heap L × Nat) :=
  (postRule rule fuel ft s).bind (postRule rule fuel pt)

/-- State of a `preorder` traversal (cpt.py:1647-1648): stack, visited identities, the
`replacement` attributes (cpt.py:59, 103), heap and next unused identity. -/
structure PreState (L : Type) where
  stack : List Nat
  visited : List Nat
  repl : List (Nat × Nat)
  heap : Heap L
  next : Nat

/-- One iteration of `while len(stack) > 0` (cpt.py:1655-1669) with the rule as the body of
the consumer.  The traversal goes on with the children of `expr.replacement`, if there is
one. -/
def preStep (rule : Rule L) (w : PreState L) : Option (PreState L) :=
  match w.stack with
  | [] => some w
  | x :: st =>
      if x ∈ w.visited then some { w with stack := st }                  -- 1658-1659
      else match rule w.heap x with                                       -- 1661
        | none => none
        | some o =>
            let (h, n, m) := match o with
              | none => (w.heap, w.next, w.repl)
              | some b =>
                  let r := grow b w.heap w.next
                  -- replacing a node by itself does nothing (cpt.py:90-91)
                  (r.1.replace x r.2.2, r.2.1, if x = r.2.2 then w.repl else (x, r.2.2) :: w.repl)
            let cur := (m.lookup x).getD x                                -- 1664
            some { stack := h.kids cur ++ st, visited := cur :: w.visited, repl := m, heap := h, next := n }

/-- The loop. -/
def preWalk (rule : Rule L) : Nat → PreState L → Option (PreState L)
  | 0, _ => none
  | n + 1, w =>
      if w.stack.isEmpty then some w
      else match preStep rule w with
        | none => none
        | some w' => preWalk rule n w'

/-- `for expr in preorder(root, context): …`. -/
def preRule (rule : Rule L) (fuel : Nat) (root : Nat) (w : PreState L) : Option (PreState L) :=
  preWalk rule fuel { w with stack := [root], visited := [] }

/-- `for expr in program.preorder(context): …` (cpt.py:1396-1402).  Simplification: no node
has a `replacement` from an earlier pass (such nodes have lost their parents). -/
def prePass (rule : Rule L) (fuel : Nat) (ft pt : Nat) (s : Heap L × Nat) : Option (Heap L × Nat) :=
  ((preRule rule fuel ft ⟨[], [], [], s.1, s.2⟩).bind (preRule rule fuel pt)).map fun w => (w.heap, w.next)

/-- `expr.children[i]`; `none` is an `IndexError`. -/
def kid (h : Heap L) (x i : Nat) : Option Nat := (h.kids x)[i]?

end Heap

/-! ### New nodes -/

namespace Bud
/-- `cpt.Constant(loc, b)` (cpt.py:148-166) -/
def cst (b : Bool) : Bud Lab := .new (.lit (.bool b)) []
/-- `cpt.Operator.LogicalNegate` (cpt.py:748-756) -/
def neg (p : Bud Lab) : Bud Lab := .new (.op .neg) [p]
/-- `cpt.Operator.LogicalAnd` (cpt.py:706-711) -/
def and (ps : List (Bud Lab)) : Bud Lab := .new (.op .and) ps
/-- `cpt.Operator.LogicalOr` (cpt.py:714-717) -/
def or (ps : List (Bud Lab)) : Bud Lab := .new (.op .or) ps
/-- `cpt.Operator.LogicalIff` (cpt.py:726-737) -/
def iff (p q : Bud Lab) : Bud Lab := .new (.op .iff) [p, q]
/-- the constructors of `cpt.TemporalOperator` (cpt.py:786-855) -/
def tmp (o : TmpK) (lb ub : Nat) (ps : List (Bud Lab)) : Bud Lab := .new (.tmp o lb ub) ps
end Bud

namespace GraphPass
open Heap Bud

/-! ### The passes of transform.py -/

/-- Body of the loop of `to_bnf` (transform.py:12-111). -/
def bnfRule : Rule Lab := fun h x =>
  match h.lab x with
  | .op .or =>                                                        -- 16-26
      some (some (neg (and ((h.kids x).map fun c => neg (.old c)))))
  | .op .imp => do                                                    -- 27-38
      let l ← h.kid x 0
      let r ← h.kid x 1
      some (some (neg (and [.old l, neg (.old r)])))
  | .op .xor => do                                                    -- 39-62
      let l ← h.kid x 0
      let r ← h.kid x 1
      some (some (and [neg (and [neg (.old l), neg (.old r)]), neg (and [.old l, .old r])]))
  | .tmp .F lb ub => do                                               -- 63-76
      let p ← h.kid x 0
      some (some (tmp .U lb ub [cst true, .old p]))
  | .tmp .G lb ub => do                                               -- 77-93
      let p ← h.kid x 0
      some (some (neg (tmp .U lb ub [cst true, neg (.old p)])))
  | .tmp .R lb ub => do                                               -- 94-111
      let l ← h.kid x 0
      let r ← h.kid x 1
      some (some (neg (tmp .U lb ub [neg (.old l), neg (.old r)])))
  | _ => some none

/-- Body of the loop of `to_nnf` (transform.py:135-299). -/
def nnfRuleG : Rule Lab := fun h x =>
  match h.lab x with
  | .op .neg => do
      let a ← h.kid x 0
      match h.lab a with
      | .op .neg => do                                                -- 139-141
          let p ← h.kid a 0
          some (some (.old p))
      | .op .or => some (some (and ((h.kids a).map fun c => neg (.old c))))   -- 142-152
      | .op .and => some (some (or ((h.kids a).map fun c => neg (.old c))))   -- 153-163
      | .op .imp => do                                                -- 164-173
          let l ← h.kid a 0
          let r ← h.kid a 1
          some (some (and [.old l, neg (.old r)]))
      | .op .xor => do                                                -- 174-191
          let l ← h.kid a 0
          let r ← h.kid a 1
          some (some (and [and [neg (.old l), .old r], and [.old l, neg (.old r)]]))
      | .op .iff => do                                                -- 192-209
          let l ← h.kid a 0
          let r ← h.kid a 1
          some (some (or [and [.old l, neg (.old r)], and [neg (.old l), .old r]]))
      | .tmp .F lb ub => do                                           -- 210-222
          let p ← h.kid a 0
          some (some (tmp .G lb ub [neg (.old p)]))
      | .tmp .G lb ub => do                                           -- 223-235
          let p ← h.kid a 0
          some (some (tmp .F lb ub [neg (.old p)]))
      | .tmp .U lb ub => do                                           -- 236-253
          let l ← h.kid a 0
          let r ← h.kid a 1
          some (some (tmp .R lb ub [neg (.old l), neg (.old r)]))
      | .tmp .R lb ub => do                                           -- 254-271
          let l ← h.kid a 0
          let r ← h.kid a 1
          some (some (tmp .U lb ub [neg (.old l), neg (.old r)]))
      | _ => some none
  | .op .imp => do                                                    -- 272-281
      let l ← h.kid x 0
      let r ← h.kid x 1
      some (some (or [neg (.old l), .old r]))
  | .op .xor => do                                                    -- 282-299
      let l ← h.kid x 0
      let r ← h.kid x 1
      some (some (or [and [.old l, neg (.old r)], and [neg (.old l), .old r]]))
  | _ => some none

/-- `is_multi_arity_operator` (cpt.py:956-962). -/
def multiArity : Lab → Bool
  | .op .and | .op .or | .op .add | .op .mul => true
  | _ => false

/-- The chain of two-operand nodes built by `multi_operators_to_binary`
(transform.py:324-331): the first two operands, then one more at a time up to the last but
one, then the last. -/
def chain (l : Lab) (c0 c1 c2 : Nat) (rest : List Nat) : Bud Lab :=
  let ops := c2 :: rest
  .new l [(ops.dropLast).foldl (fun acc c => .new l [acc, .old c]) (.new l [.old c0, .old c1]),
    .old (ops.getLast (by simp [ops]))]

/-- Body of the loop of `multi_operators_to_binary` (transform.py:318-333). -/
def binaryRule : Rule Lab := fun h x =>
  if multiArity (h.lab x) then
    match h.kids x with
    | c0 :: c1 :: c2 :: rest => some (some (chain (h.lab x) c0 c1 c2 rest))
    | _ => some none
  else some none

/-- The child-collection loop of `flatten_multi_operators` (transform.py:359-364). -/
def flatKids (h : Heap Lab) (l : Lab) : List Nat → List Nat → List Nat
  | acc, [] => acc
  | acc, c :: cs =>
      if h.lab c = l ∧ acc.length < Transform.maxArity then flatKids h l (acc ++ h.kids c) cs
      else flatKids h l (acc ++ [c]) cs

/-- Body of the loop of `flatten_multi_operators` (transform.py:353-367). -/
def flattenRule : Rule Lab := fun h x =>
  if multiArity (h.lab x) then
    some (some (.new (h.lab x) ((flatKids h (h.lab x) [] (h.kids x)).map .old)))
  else some none

/-- Body of the loop of `remove_extended_operators` (transform.py:395-485). -/
def extRule : Rule Lab := fun h x =>
  match h.lab x with
  | .op .xor => do                                                    -- 399-412
      let l ← h.kid x 0
      let r ← h.kid x 1
      some (some (neg (iff (.old l) (.old r))))
  | .op .imp => do                                                    -- 413-421
      let l ← h.kid x 0
      let r ← h.kid x 1
      some (some (or [neg (.old l), .old r]))
  | .tmp .F lb ub => do                                               -- 422-437
      let p ← h.kid x 0
      some (some (tmp .U lb ub [cst true, .old p]))
  | .tmp .G lb ub => do                                               -- 438-453
      let p ← h.kid x 0
      some (some (tmp .R lb ub [cst false, .old p]))
  | .tmp .O lb ub => do                                               -- 454-469
      let p ← h.kid x 0
      some (some (tmp .S lb ub [cst true, .old p]))
  | .tmp .H lb ub => do                                               -- 470-485
      let p ← h.kid x 0
      some (some (tmp .T lb ub [cst false, .old p]))
  | _ => some none

/-- Body of the loop of `remove_release_operators` (transform.py:526-543). -/
def releaseRule : Rule Lab := fun h x =>
  match h.lab x with
  | .tmp .R lb ub => do
      let l ← h.kid x 0
      let r ← h.kid x 1
      some (some (neg (tmp .U lb ub [neg (.old l), neg (.old r)])))
  | _ => some none

/-! ### optimize_rewrites -/

/-- `str(expr)`: the text of a node (cpt.py:124-125).  `fuel` bounds the depth of the graph. -/
def text (fuel : Nat) (h : Heap Lab) (x : Nat) : Option (List Char) := (unfold fuel h x).map infixStr

/-- `!p` (rewrite.py:13-48). -/
def optNeg (h : Heap Lab) (x : Nat) : Option (Option (Bud Lab)) := do
  let a ← h.kid x 0
  match h.lab a with
  | .lit v => some (some (cst (if v = .bool true then false else true)))   -- 15-21
  | .op .neg => do                                                    -- 22-24
      let p ← h.kid a 0
      some (some (.old p))
  | .tmp .G l u => do                                                 -- 25-36
      let b ← h.kid a 0
      if h.lab b = .op .neg then do
        let p ← h.kid b 0
        some (some (tmp .F l u [.old p]))
      else some none
  | .tmp .F l u => do                                                 -- 37-48
      let b ← h.kid a 0
      if h.lab b = .op .neg then do
        let p ← h.kid b 0
        some (some (tmp .G l u [.old p]))
      else some none
  | _ => some none

/-- `l == r` (rewrite.py:49-59). -/
def optEqual (h : Heap Lab) (x : Nat) : Option (Option (Bud Lab)) := do
  let l ← h.kid x 0
  let r ← h.kid x 1
  match h.lab l, h.lab r with
  | .lit _, .lit _ => some none                                       -- 52-53
  | .lit (.bool _), _ => some (some (.old r))                         -- 54-56
  | _, .lit (.bool _) => some (some (.old l))                         -- 57-59
  | _, _ => some none

/-- `G[lb,ub] p` (rewrite.py:60-95). -/
def optGlob (lb ub : Nat) (h : Heap Lab) (x : Nat) : Option (Option (Bud Lab)) := do
  let a ← h.kid x 0
  let dflt : Option (Bud Lab) := if lb = 0 ∧ ub = 0 then some (.old a) else none   -- 64-66
  match h.lab a with
  | .lit v => some (if v = .bool true then some (cst true) else dflt)   -- 67-75
  | .tmp .G l u => do                                                 -- 76-82
      let p ← h.kid a 0
      some (some (tmp .G (lb + l) (ub + u) [.old p]))
  | .tmp .F l u => do                                                 -- 83-95
      let p ← h.kid a 0
      if lb = ub then some (some (tmp .F (lb + l) (ub + u) [.old p]))
      else if l = u then some (some (tmp .G (lb + l) (ub + u) [.old p]))
      else some dflt
  | _ => some dflt

/-- `F[lb,ub] p` (rewrite.py:96-131). -/
def optFut (lb ub : Nat) (h : Heap Lab) (x : Nat) : Option (Option (Bud Lab)) := do
  let a ← h.kid x 0
  let dflt : Option (Bud Lab) := if lb = 0 ∧ ub = 0 then some (.old a) else none   -- 100-102
  match h.lab a with
  | .lit v => some (if v = .bool true then dflt else some (cst false))   -- 103-111
  | .tmp .F l u => do                                                 -- 112-118
      let p ← h.kid a 0
      some (some (tmp .F (lb + l) (ub + u) [.old p]))
  | .tmp .G l u => do                                                 -- 119-131
      let p ← h.kid a 0
      if lb = ub then some (some (tmp .G (lb + l) (ub + u) [.old p]))
      else if l = u then some (some (tmp .F (lb + l) (ub + u) [.old p]))
      else some dflt
  | _ => some dflt

/-- Two intervals of the same operator `o` over operands with the same text, joined into one
(rewrite.py:150-163, 240-253). -/
def joined (o : TmpK) (lb1 ub1 lb2 ub2 p : Nat) : Option (Bud Lab) :=
  if lb1 ≤ lb2 ∧ ub1 ≥ ub2 then some (tmp o lb1 ub1 [.old p])
  else if lb2 ≤ lb1 ∧ ub2 ≥ ub1 then some (tmp o lb2 ub2 [.old p])
  else if lb1 ≤ lb2 ∧ lb2 ≤ ub1 + 1 then some (tmp o lb1 (max ub1 ub2) [.old p])
  else if lb2 ≤ lb1 ∧ lb1 ≤ ub2 + 1 then some (tmp o lb2 (max ub1 ub2) [.old p])
  else none

/-- The common part of two intervals taken out (rewrite.py:165-178, 257-270). -/
def factored (o : TmpK) (c : OpK) (lb1 ub1 p lb2 ub2 q : Nat) : Bud Lab :=
  let lb3 := min lb1 lb2
  let ub3 := lb3 + min (ub1 - lb1) (ub2 - lb2)
  tmp o lb3 ub3 [.new (.op c) [tmp o (lb1 - lb3) (ub1 - ub3) [.old p], tmp o (lb2 - lb3) (ub2 - ub3) [.old q]]]

/-- `l && r` (rewrite.py:132-221). -/
def optAnd (fuel : Nat) (h : Heap Lab) (x : Nat) : Option (Option (Bud Lab)) := do
  let l ← h.kid x 0
  let r ← h.kid x 1
  match h.lab l, h.lab r with
  | .tmp .G lb1 ub1, .tmp .G lb2 ub2 => do                            -- 136-178
      let p ← h.kid l 0
      let q ← h.kid r 0
      let sp ← text fuel h p
      let sq ← text fuel h q
      if sp = sq then some (joined .G lb1 ub1 lb2 ub2 p)
      else some (some (factored .G .and lb1 ub1 p lb2 ub2 q))
  | .tmp .F lb1 ub1, .tmp .F lb2 ub2 => do                            -- 179-200
      let p ← h.kid l 0
      let q ← h.kid r 0
      let sp ← text fuel h p
      let sq ← text fuel h q
      if sp = sq then
        if lb1 ≤ lb2 ∧ ub1 ≥ ub2 then some (some (tmp .F lb2 ub2 [.old p]))
        else if lb2 ≤ lb1 ∧ ub2 ≥ ub1 then some (some (tmp .F lb1 ub1 [.old p]))
        else some none
      else some none
  | .tmp .U l1 u1, .tmp .U l2 u2 => do                                -- 201-221
      let p ← h.kid l 0
      let q ← h.kid l 1
      let r' ← h.kid r 0
      let s ← h.kid r 1
      let sq ← text fuel h q
      let ss ← text fuel h s
      if sq = ss ∧ l1 = l2 then some (some (tmp .U l1 (min u1 u2) [and [.old p, .old r'], .old q]))
      else some none
  | _, _ => some none

/-- `l || r` (rewrite.py:222-293). -/
def optOr (fuel : Nat) (h : Heap Lab) (x : Nat) : Option (Option (Bud Lab)) := do
  let l ← h.kid x 0
  let r ← h.kid x 1
  match h.lab l, h.lab r with
  | .tmp .F lb1 ub1, .tmp .F lb2 ub2 => do                            -- 226-270
      let p ← h.kid l 0
      let q ← h.kid r 0
      let sp ← text fuel h p
      let sq ← text fuel h q
      if sp = sq then some (joined .F lb1 ub1 lb2 ub2 p)
      else some (some (factored .F .or lb1 ub1 p lb2 ub2 q))
  | .tmp .G lb1 ub1, .tmp .G lb2 ub2 => do                            -- 271-293
      let p ← h.kid l 0
      let q ← h.kid r 0
      let sp ← text fuel h p
      let sq ← text fuel h q
      if sp = sq then
        if lb1 ≥ lb2 ∧ ub1 ≤ ub2 then some (some (tmp .G lb1 ub1 [.old p]))
        else if lb2 ≥ lb1 ∧ ub2 ≤ ub1 then some (some (tmp .G lb2 ub2 [.old p]))
        else some none
      else some none
  | _, _ => some none

/-- Body of the loop of `optimize_rewrites` (rewrite.py:10-299). -/
def optRule (fuel : Nat) : Rule Lab := fun h x =>
  match h.lab x with
  | .op .neg => optNeg h x
  | .op .eq => optEqual h x
  | .tmp .G lb ub => optGlob lb ub h x
  | .tmp .F lb ub => optFut lb ub h x
  | .op .and => optAnd fuel h x
  | .op .or => optOr fuel h x
  | _ => some none

/-! ### The passes -/

/-- `to_bnf` (transform.py:5-114). -/
def toBnfG (fuel ft pt : Nat) := postPass bnfRule fuel ft pt
/-- `to_nnf` (transform.py:125-302). -/
def toNnfG (fuel ft pt : Nat) := prePass nnfRuleG fuel ft pt
/-- `multi_operators_to_binary` (transform.py:313-336). -/
def toBinaryG (fuel ft pt : Nat) := postPass binaryRule fuel ft pt
/-- `flatten_multi_operators` (transform.py:347-370). -/
def flattenG (fuel ft pt : Nat) := postPass flattenRule fuel ft pt
/-- `remove_extended_operators` (transform.py:381-488). -/
def removeExtendedG (fuel ft pt : Nat) (s : Heap Lab × Nat) : Option (Heap Lab × Nat) :=
  (toBinaryG fuel ft pt s).bind (postPass extRule fuel ft pt)
/-- `remove_release_operators` (transform.py:521-546). -/
def removeReleaseG (fuel ft pt : Nat) := postPass releaseRule fuel ft pt
/-- `optimize_rewrites` (rewrite.py:4-302). -/
def optimizeG (fuel ft pt : Nat) := postPass (optRule fuel) fuel ft pt

end GraphPass
end R2U2
