import Verif.Model.Heap
/-
Model of the middle end of C2PO: what a node carries after type checking and
desugaring, `compute_scq_sizes` (scq.py) and `compute_atomics` (atomics.py).
-/
namespace R2U2

/-- `types.R2U2Engine`. -/
inductive Engine where
  | none | bz | tl
  deriving DecidableEq, Repr

/-- A node of a typed, desugared program: the class and the attributes the back end
reads.  A `Constant` is split by the type of its value (cpt.py:154-166); `isInt`
is `types.is_integer_type` of the type the code generator looks at
(assemble.py:413, 438, 451-454); a float is the 64-bit pattern `struct.pack("d")`
writes. -/
inductive BNode where
  | specSet                                   -- cpt.py:1108-1122
  | formula (num : Nat)                       -- cpt.py:1053-1071
  | bool (b : Bool)                           -- cpt.py:148-166
  | int (i : Int)
  | float (bits : Nat)
  | signal (isInt : Bool) (sid : Int)         -- cpt.py:211-216
  | tau                                       -- cpt.py:180-194
  | atomic                                    -- cpt.py:758-768
  | op (o : OpK) (isInt : Bool)               -- cpt.py:513-756
  | temp (o : TmpK) (lb ub : Nat)             -- cpt.py:770-855
  deriving DecidableEq, Repr

/-- `is_logical_operator` on operator kinds (cpt.py:995-1003). -/
def OpK.isLogical : OpK → Bool
  | .and | .or | .xor | .imp | .iff | .neg => true
  | _ => false

/-- The `engine` attribute: 163-166 for constants, 186, 529-532, 761, 1060 of cpt.py,
and type_check.py:74-75 for signals (`bz` is `context.enable_booleanizer`). -/
def BNode.engine (bz : Bool) : BNode → Engine
  | .specSet => .none
  | .formula _ => .tl
  | .bool _ => .tl
  | .int _ => .bz
  | .float _ => .bz
  | .signal _ _ => if bz then .bz else .none
  | .tau => .bz
  | .atomic => .bz
  | .op o _ => if o.isLogical then .tl else .bz
  | .temp _ _ _ => .tl

/-- `isinstance(expr, cpt.Constant)` -/
def BNode.isConst : BNode → Bool
  | .bool _ | .int _ | .float _ => true
  | _ => false

/-- `isinstance(expr, cpt.Formula)` -/
def BNode.isFormula : BNode → Bool
  | .formula _ => true
  | _ => false

/-- `isinstance(expr, cpt.Constant) and types.is_bool_type(expr.type)` -/
def BNode.isBoolConst : BNode → Bool
  | .bool _ => true
  | _ => false

/-- A program as the back end sees it: the object graph, the recorded delay
attributes of every node (cpt.py:42-43), the two specification sets
(cpt.py:1340 ff.), the booleanizer switch and `context.atomic_id_map`. -/
structure BProg where
  heap : Heap BNode
  bpd : Nat → Int
  wpd : Nat → Int
  ft : Nat
  pt : Nat
  bz : Bool
  atomicId : Nat → Option Nat

namespace BProg

/-- `expr.engine` -/
def engine (P : BProg) (x : Nat) : Engine := (P.heap.lab x).engine P.bz

/-- `program.get_specs()` (cpt.py:1371-1372): future-time specifications, then
past-time ones. -/
def specs (P : BProg) : List Nat := P.heap.kids P.ft ++ P.heap.kids P.pt

/-- `expr.get_siblings()` (cpt.py:61-70), as a list read as a set. -/
def siblings (P : BProg) (x : Nat) : List Nat :=
  (P.heap.pars x).flatMap fun p => (P.heap.kids p).filter (· ≠ x)

/-- `max([sibling.wpd for sibling in expr.get_siblings()] + [0])` (scq.py:42) -/
def maxWpd (P : BProg) (x : Nat) : Int :=
  ((P.siblings x).map P.wpd).foldr max 0

/-- The size `compute_scq_sizes` gives a node, if it gives one (scq.py:18-43);
`k` is the option `scq_constant`. -/
def scqSize (P : BProg) (k : Int) (x : Nat) : Option Int :=
  if (P.heap.lab x).isFormula then some (1 + k)
  else if P.engine x ≠ .tl ∧ P.atomicId x = none then none
  else if (P.heap.lab x).isBoolConst then some 0
  else some (max (P.maxWpd x - P.bpd x) 0 + 1 + k)

/-- The running state of `compute_scq_sizes`: `total_scq_size` and the `scq`
attribute of every node, `none` if it was not assigned. -/
structure ScqState where
  total : Int
  scq : Nat → Option (Int × Int)

/-- One iteration of the loop (scq.py:14-48). -/
def scqStep (P : BProg) (k : Int) (s : ScqState) (x : Nat) : ScqState :=
  match P.scqSize k x with
  | none => s
  | some n =>
      { total := s.total + n
        scq := fun y => if y = x then some (s.total + n - n, s.total + n) else s.scq y }

/-- `compute_scq_sizes` (scq.py:5-65). -/
def computeScq (fuel : Nat) (P : BProg) (k : Int) : Option ScqState :=
  (Heap.postorder fuel P.heap P.specs).map fun order =>
    order.foldl (P.scqStep k) { total := 0, scq := fun _ => none }

end BProg

/-! ### compute_atomics -/

/-- State of `compute_atomics`: `context.atomic_id_map` (newest entry first), `aid`
(atomics.py:19), and the number for the next node object created. -/
structure AtomState where
  ids : List (Nat × Nat)
  aid : Nat
  next : Nat

/-- `new = cpt.Atomic(expr.loc, expr)` and `replace_expr_parents(expr, new, tl_parents)`
(atomics.py:11-17, 54-55; the `Atomic` constructor adds itself to its child's
parents, cpt.py:50-56). -/
def insertAtomic (h : Heap BNode) (x new : Nat) (tlp : List Nat) : Heap BNode where
  lab := fun y => if y = new then .atomic else h.lab y
  kids := fun y =>
    if y = new then [x]
    else if y ∈ tlp then (h.kids y).map (fun c => if c = x then new else c)
    else h.kids y
  pars := fun y => if y = new then tlp else if y = x then h.pars x ++ [new] else h.pars y

/-- The body of the loop of `compute_atomics` (atomics.py:21-63).  A node object is
never a key of `atomic_id_map` before it is created (57-59 cannot happen). -/
def atomVisit (bz : Bool) (h : Heap BNode) (a : AtomState) (x : Nat) :
    Option (Heap BNode × AtomState) :=
  let l := h.lab x
  if l.engine bz = .tl ∨ l.isConst = true ∨ (a.ids.lookup x).isSome then some (h, a)
  else if bz = false then
    match l with
    | .signal _ sid =>
        if sid < 0 then some (h, { a with ids := (x, a.aid) :: a.ids, aid := a.aid + 1 })
        else some (h, { a with ids := (x, sid.toNat) :: a.ids })
    | _ => some (h, a)
  else if l = .atomic then some (h, a)
  else
    let tlp := (h.pars x).filter fun p => decide ((h.lab p).engine bz = .tl)
    if l.engine bz ≠ .bz ∨ tlp = [] then some (h, a)
    else some (insertAtomic h x a.next tlp,
      { ids := (a.next, a.aid) :: a.ids, aid := a.aid + 1, next := a.next + 1 })

/-- `compute_atomics` (atomics.py:4-74) on a context without atomics: the future-time
set, then the past-time set (`program.postorder`, cpt.py:1388-1394). -/
def computeAtomics (fuel : Nat) (bz : Bool) (h : Heap BNode) (ft pt next : Nat) :
    Option (Heap BNode × AtomState) :=
  (Heap.walk (atomVisit bz) fuel (Heap.start h [ft] ⟨[], 0, next⟩)).bind fun w =>
    (Heap.walk (atomVisit bz) fuel (Heap.start w.heap [pt] w.acc)).map fun w' => (w'.heap, w'.acc)

end R2U2
