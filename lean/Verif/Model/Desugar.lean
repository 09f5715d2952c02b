import Verif.Model.Source
/-
Model of `/repo/compiler/c2po/desugar.py` on expression trees.  Definition expansion, which works on the
shared object graph, is in Model/Expand.lean.

The passes here see the program as trees.  After definition expansion a definition's object may hang below
several parents; every pass treats a node as a function of the node alone and replaces it below all of its
parents at once, so an object's occurrences all become the same tree.
-/
namespace R2U2
namespace Src

/-- `convert_function_calls_to_structs`, one node (desugar.py:39-61). -/
def callToStruct (T : Structs) : Src → Option Src
  | .node (.call f) ty cs =>
      match T.lookup f with
      | some ms => some (.node (.struct f (ms.map (·.1))) ty cs)
      | none => some (.node (.call f) ty cs)
  | e => some e

/-- `resolve_enum_references`, one node (desugar.py:78-85).  `context.enums[expr.type.symbol][expr.symbol]`
raises if there is no such enumeration or member.  A node's `symbol` is looked at: variables and signals have
their name, the other nodes of enumeration type symbols no member can have. -/
def enumRef (E : Enums) : Src → Option Src
  | .node k ty cs =>
      match ty, (match k with | .var s => some s | .sig s => some s | _ => none) with
      | .enum n, some s =>
          if E.any (fun p => p.2.any (fun m => m.1 == s)) then
            ((E.lookup n).bind (fun ms => ms.lookup s)).map fun v => .node (.lit (.int v)) ty []
          else some (.node k ty cs)
      | _, _ => some (.node k ty cs)

/-- The index of a structure member (`Struct.get_member`, cpt.py:282-297). -/
def memberIdx (ms : List String) (m : String) : Option Nat :=
  if ms.idxOf m < ms.length then some (ms.idxOf m) else none

/-- `resolve_struct_accesses`, one node (desugar.py:309-325, and the same function nested at 160-176).  An
unknown member or a missing argument raises.  The member keeps its own type. -/
def structAcc : Src → Option Src
  | .node (.access m) ty [.node (.struct s ms) ty' cs'] =>
      (memberIdx ms m).bind fun i => cs'[i]?
  | e => some e

/-- Python's `array.children[i]`: a negative index counts from the end. -/
def pyIndex (cs : List Src) (i : Int) : Option Src :=
  if 0 ≤ i then cs[i.toNat]? else if 0 ≤ cs.length + i then cs[(cs.length + i).toNat]? else none

/-- The `children[i]` for `i` in `range(a, b+1)` (desugar.py:379-382). -/
def pySlice (cs : List Src) (a b : Int) : Option (List Src) :=
  (List.range (b + 1 - a).toNat).mapM fun (k : Nat) => pyIndex cs (a + (k : Int))

/-- `resolve_array_accesses`, one node (desugar.py:345-384).  Whatever the array operand is, its `children`
are indexed.  A slice out of bounds is reported, sets `context.status`, which nothing reads, and is left in place
(369-372); with `strict` the run stops here, as it does for an index out of bounds. -/
def arrayAcc (strict : Bool) : Src → Option Src
  | .node (.index i) ty [.node k (.arr m n) cs] =>
      if i ≥ n then none else (pyIndex cs i).map (·.withTy ty)
  | .node (.index _) _ _ => none
  | .node (.slice a b) ty [.node k (.arr m n) cs] =>
      if a ≥ n ∨ b ≥ n then if strict then none else some (.node (.slice a b) ty [.node k (.arr m n) cs])
      else (pySlice cs a b).map fun cs' => .node .array ty cs'
  | .node (.slice _ _) _ _ => none
  | e => some e

mutual
/-- `rename` (cpt.py:1778-1792): every variable named `v` in a copy of the expression becomes `r`, which gets
the variable's type (`replace`) unless the expression is the variable itself.  Variables are compared by name
(cpt.py:202-203). -/
def renameIn (v : String) (r : Src) : Src → Src
  | .node k ty cs => if k = .var v then r.withTy ty else .node k ty (renameL v r cs)
def renameL (v : String) (r : Src) : List Src → List Src
  | [] => []
  | c :: cs => renameIn v r c :: renameL v r cs
end

def rename (v : String) (r e : Src) : Src :=
  if e.kind = .var v then r else renameIn v r e

/-- The body instantiated with each member of the set. -/
def instances (v : String) (set body : Src) : List Src := set.kids.map fun e => rename v e body

/-- `unroll_set_aggregation`, the replacement of one node (desugar.py:178-288): accesses in the set are
resolved, the set's `children` substituted for the variable, and accesses in the result resolved.  `replace`
gives the result the type of the aggregation. -/
def unrollOne : Src → Option Src
  | .node (.agg k v) ty [set, body] =>
      (postM structAcc set).bind fun set =>
        match k with
        | .each => (postML structAcc (instances v set body)).map fun cs => .node (.op .and) ty cs
        | .some => (postML structAcc (instances v set body)).map fun cs => .node (.op .or) ty cs
        | _ => none   -- 218-220: no number
  | .node (.agg k v) ty [set, num, body] =>
      (postM structAcc set).bind fun set =>
        (postML structAcc (instances v set body)).bind fun cs =>
        (postM structAcc num).bind fun num =>
          let sum : Src := .node (.op .add) .int cs
          match k with
          | .exactly => some (.node (.op .eq) ty [sum, num])
          | .atLeast => some (.node (.op .ge) ty [sum, num])
          | .atMost => some (.node (.op .le) ty [sum, num])
          | .each => some (.node (.op .and) ty cs)
          | .some => some (.node (.op .or) ty cs)
  | e => some e

mutual
/-- `unroll_set_aggregation` (desugar.py:155-288): a pre-order walk that goes on into a node's replacement
(cpt.py:1643-1669).  An operator without operands cannot be built (`max([])` raises, cpt.py:526), so an empty
set is an error.  `none` is also running out of fuel. -/
def unrollAgg : Nat → Src → Option Src
  | 0, _ => none
  | n + 1, e =>
      (unrollOne e).bind fun e' =>
        match e.kind, e'.kids with
        | .agg .., [] => none
        | _, cs => (unrollAggL n cs).map fun cs' => .node e'.kind e'.ty cs'
def unrollAggL : Nat → List Src → Option (List Src)
  | _, [] => some []
  | 0, _ :: _ => none
  | n + 1, c :: cs => (unrollAgg n c).bind fun c' => (unrollAggL n cs).bind fun cs' => some (c' :: cs')
end

/-- `is_relational_operator` (cpt.py:985-993). -/
def _root_.R2U2.OpK.isRel : OpK → Bool
  | .eq | .ne | .gt | .lt | .ge | .le => true
  | _ => false

/-- `unroll_array_accesses`, the replacement of one node (desugar.py:402-416).  The operators put on the
elements have no type (`NoType`, cpt.py:519).  A right-hand array that is too short raises. -/
def unrollCmp : Src → Option Src
  | .node (.op o) ty [.node .array ty1 cs, .node .array ty2 ds] =>
      if o.isRel then
        if cs.length ≤ ds.length then
          some (.node (.op .and) ty (List.zipWith (fun c d => .node (.op o) .none [c, d]) cs ds))
        else none
      else some (.node (.op o) ty [.node .array ty1 cs, .node .array ty2 ds])
  | e => some e

mutual
/-- `unroll_array_accesses` (desugar.py:401-416), pre-order.  Comparing empty arrays builds an operator
without operands, which raises. -/
def unrollArr : Nat → Src → Option Src
  | 0, _ => none
  | n + 1, e =>
      (unrollCmp e).bind fun e' =>
        match e'.kind, e'.kids with
        | .op .and, [] => none
        | _, cs => (unrollArrL n cs).map fun cs' => .node e'.kind e'.ty cs'
def unrollArrL : Nat → List Src → Option (List Src)
  | _, [] => some []
  | 0, _ :: _ => none
  | n + 1, c :: cs => (unrollArr n c).bind fun c' => (unrollArrL n cs).bind fun cs' => some (c' :: cs')
end

/-- A specification (cpt.py:1053-1102). -/
inductive _root_.R2U2.Spec where
  | formula (label : String) (num : Nat) (e : Src)
  | contract (label : String) (n1 n2 n3 : Nat) (assume guarantee : Src)

/-- `resolve_contracts` and `replace_spec` (desugar.py:105-138, cpt.py:1362-1369): a contract's three formulas
take its place. -/
def _root_.R2U2.Spec.resolve : Spec → List Spec
  | .contract l n1 n2 n3 a g =>
      [ .formula ("__" ++ l ++ "_active__") n1 (a.withTy .bool),
        .formula ("__" ++ l ++ "_valid__") n2 (.node (.op .imp) .bool [a, g]),
        .formula ("__" ++ l ++ "_verified__") n3 (.node (.op .and) .bool [a, g]) ]
  | s => [s]

def resolveContracts (specs : List Spec) : List Spec := specs.flatMap Spec.resolve

/-- The passes of `desugar` on one specification's expression, after definition expansion
(desugar.py:429-445); contracts have been resolved.  With `strict`, a run that reports an error is one that
fails. -/
def desugar (strict : Bool) (T : Structs) (E : Enums) (fuel : Nat) (e : Src) : Option Src := do
  let e ← postM (callToStruct T) e
  let e ← postM (enumRef E) e
  let e ← postM structAcc e
  let e ← postM (arrayAcc strict) e
  let e ← unrollAgg fuel e
  let e ← postM structAcc e
  let e ← unrollArr fuel e
  postM structAcc e

/-- `is_desugared` (cpt.py:2273-2290) for one expression: none of these classes is left.  (`ArraySlice` and
`Variable` are not in the list.) -/
def isDesugared (e : Src) : Bool :=
  !e.any fun x => match x.kind with
    | .struct .. | .call _ | .array | .access _ | .index _ | .agg .. => true
    | _ => false

end Src
end R2U2
