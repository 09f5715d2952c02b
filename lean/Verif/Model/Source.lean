import Verif.Model.Tree
/-
Source-level C2PO expressions as the parser builds them: every expression class of
`/repo/compiler/c2po/cpt.py`, each node with its `type` attribute.
-/
namespace R2U2

/-- `Type` and its subclasses (types.py:30-118).  `is_const` is left out: nothing outside the type
checker reads it, and there it only feeds other `is_const`s. -/
inductive Typ where
  | none | bool | int | float
  | struct (s : String)
  | enum (s : String)
  | contract
  | arr (member : Typ) (size : Int)   -- size -1: not given
  deriving DecidableEq, Repr

/-- `Type.__eq__` and its overrides (types.py:38-41, 78-81, 90-93, 109-116): two array types are equal
if one of the sizes is not given. -/
def Typ.eqv : Typ → Typ → Bool
  | .arr m s, .arr m' s' => m.eqv m' && !(decide (s > -1) && decide (s' > -1) && decide (s ≠ s'))
  | .none, .none | .bool, .bool | .int, .int | .float, .float | .contract, .contract => true
  | .struct s, .struct s' => decide (s = s')
  | .enum s, .enum s' => decide (s = s')
  | _, _ => false

/-- `is_integer_type` (types.py:126-127). -/
def Typ.isInteger : Typ → Bool
  | .int | .bool | .enum _ => true
  | _ => false

def Typ.isEnum : Typ → Bool
  | .enum _ => true
  | _ => false

/-- Node classes with their data (cpt.py:148-424, 513-855).  `MissionTime` and the symbolic classes, which
only equivalence-checking input has, and `Atomic`, which is added later, are left out. -/
inductive SK where
  | lit (v : Lit)                            -- cpt.py:148-166
  | tau                                      -- cpt.py:181-194
  | sig (s : String)                         -- cpt.py:214-220
  | var (s : String)                         -- cpt.py:196-212
  | array                                    -- cpt.py:241-244
  | index (i : Int)                          -- cpt.py:259-269
  | slice (a b : Int)                        -- cpt.py:246-257
  | struct (s : String) (ms : List String)   -- cpt.py:271-297; member `ms[i]` is child `i`
  | access (m : String)                      -- cpt.py:299-306
  | call (f : String)                        -- cpt.py:308-313
  | agg (k : AggK) (v : String)              -- cpt.py:341-424
  | op (o : OpK)                             -- cpt.py:513-756
  | tmp (o : TmpK) (lb ub : Nat)             -- cpt.py:770-855
  deriving DecidableEq

/-- An expression node: class, `type`, `children`.  The children of a set aggregation are the set, the
number if it has one, and the body; the `Bind` dummy (cpt.py:315-332), which has no children and marks
where the variable is bound during traversal, is left out. -/
inductive Src where
  | node (k : SK) (ty : Typ) (cs : List Src)

namespace Src

def kind : Src → SK
  | .node k _ _ => k

def ty : Src → Typ
  | .node _ t _ => t

def kids : Src → List Src
  | .node _ _ cs => cs

/-- `new.type = t`. -/
def withTy (t : Typ) : Src → Src
  | .node k _ cs => .node k t cs

mutual
/-- Does a predicate on nodes hold somewhere in the tree? -/
def any (p : Src → Bool) : Src → Bool
  | .node k ty cs => p (.node k ty cs) || anyL p cs
def anyL (p : Src → Bool) : List Src → Bool
  | [] => false
  | c :: cs => any p c || anyL p cs
end

mutual
/-- A bottom-up pass over a tree: `for expr in program.postorder(context): ... expr.replace(new)`
(cpt.py:1609-1641, 87-104).  A node is visited after its children were replaced; `none` is an exception or an
error return. -/
def postM (f : Src → Option Src) : Src → Option Src
  | .node k ty cs => (postML f cs).bind fun cs' => f (.node k ty cs')
def postML (f : Src → Option Src) : List Src → Option (List Src)
  | [] => some []
  | c :: cs => (postM f c).bind fun c' => (postML f cs).bind fun cs' => some (c' :: cs')
end

end Src

/-- A structure's members with their types, per structure name (`context.structs`, cpt.py:1436). -/
abbrev Structs := List (String × List (String × Typ))

/-- An enumeration's members with the integers they stand for, per enumeration name (`context.enums`). -/
abbrev Enums := List (String × List (String × Int))

end R2U2
