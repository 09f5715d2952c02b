/-
The full parse tree of C2PO (`/repo/compiler/c2po/cpt.py`): every expression
class, with the node data that is not a child.
-/
namespace R2U2

/-- A node label with its list of children. -/
inductive Tree (L : Type) where
  | node (l : L) (cs : List (Tree L))

namespace Tree
variable {L : Type}

def label : Tree L → L
  | .node l _ => l

def kids : Tree L → List (Tree L)
  | .node _ cs => cs

end Tree

/-- `OperatorKind` (cpt.py:426-478) without the eight temporal kinds.
`ARITHMETIC_NEGATE` has the same enum value as `ARITHMETIC_SUBTRACT`, so Python
makes it an alias of it (cpt.py:437,441): one constructor `sub`. -/
inductive OpK where
  | bitAnd | bitOr | bitXor | bitNeg | shl | shr
  | add | sub | mul | div | mod | pow | sqrt | abs
  | eq | ne | gt | lt | ge | le
  | and | or | xor | imp | iff | neg
  | count | prev | min | max
  deriving DecidableEq, Repr

/-- The temporal `OperatorKind`s (cpt.py:463-472). -/
inductive TmpK where
  | G | F | U | R | H | O | S | T
  deriving DecidableEq, Repr

/-- `SetAggregationKind` (cpt.py:334-339). -/
inductive AggK where
  | each | some | exactly | atLeast | atMost
  deriving DecidableEq, Repr

/-- The value of a `Constant` (cpt.py:148-166).  A float is kept as the text
Python's `str` gives for it (cpt.py:152). -/
inductive Lit where
  | bool (b : Bool) | int (i : Int) | float (s : String)
  deriving DecidableEq, Repr

/-- Node classes of cpt.py with their data.

`name` stands for `Variable`, `Signal`, `CurrentTimestamp`, `MissionTime` and
`SymbolicIntervalVariable`, which are all printed as their symbol
(cpt.py:1971-1972, 2099-2100): in a type-checked program a symbol determines
which of them it is.  `Bind` carries the bound variable (cpt.py:315-332). -/
inductive Lab where
  | lit (v : Lit)                        -- cpt.py:148-166
  | name (s : String)                    -- cpt.py:168-240
  | op (o : OpK)                         -- cpt.py:513-756
  | tmp (o : TmpK) (lb ub : Nat)         -- cpt.py:770-855
  | atomic                               -- cpt.py:758-768
  | call (f : String)                    -- cpt.py:308-313
  | struct (s : String) (members : List (String × Nat))  -- cpt.py:271-297
  | access (m : String)                  -- cpt.py:299-306
  | array                                -- cpt.py:241-244
  | index (i : Int)                      -- cpt.py:259-269
  | slice (a b : Int)                    -- cpt.py:246-257
  | agg (k : AggK) (v : String)          -- cpt.py:341-424
  | bind (v : String)                    -- cpt.py:315-332
  | formula (label : String) (num : Nat) -- cpt.py:1053-1071
  | contract (label : String) (n1 n2 n3 : Nat) -- cpt.py:1073-1098
  | specSet                              -- cpt.py:1108-1122
  deriving DecidableEq

/-- A C2PO expression. -/
abbrev Ast := Tree Lab

end R2U2
