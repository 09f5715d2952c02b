import Verif.Model.Heap
import Verif.Model.TypeCheck
/-
Model of what `push` and `pop` save and restore (main.py:196-202): the objects of a program, the context, and their
copies (cpt.py:1124-1431, 1433-1607, 1671-1776).

Expression nodes live in one heap, as in Python; the program and the context refer to them by number.  A context owns
its dictionaries, so these are values here; the list `context.assembly` is an object contexts may share
(cpt.py:1584-1586), so it is referred to by number.
-/
namespace R2U2

/-- The classes of nodes that are copied in different ways (cpt.py:1671-1771). -/
inductive CClass where
  | signal | atomic | slice | formula (label : String) | contract (label : String) | specSet | other
  deriving DecidableEq

/-- A node: its class, and the attributes that are copied as they are (`copy_attrs`, cpt.py:115-128, and the
arguments of the constructors). -/
structure CLab where
  cls : CClass
  attrs : String := ""
  deriving DecidableEq

/-- The heap of nodes and the number of the next object. -/
structure Mem where
  heap : Heap CLab
  next : Nat

/-- Making a node (cpt.py:31-57): children learn their new parent. -/
def Mem.alloc (m : Mem) (l : CLab) (ks : List Nat) : Mem :=
  { heap :=
      { lab := fun z => if z = m.next then l else m.heap.lab z
        kids := fun z => if z = m.next then ks else m.heap.kids z
        pars := fun z => if z ∈ ks then m.next :: m.heap.pars z else if z = m.next then [] else m.heap.pars z }
    next := m.next + 1 }

/-- `Context` (cpt.py:1433-1478).  Structures, statistics and the bounds and constraints of an equivalence
specification are opaque. -/
structure CCtx where
  definitions : Tbl Nat := []
  structs : Tbl String := []
  enums : Tbl (Tbl Int) := []
  signals : Tbl Typ := []
  variables' : Tbl Typ := []
  specifications : Tbl Nat := []
  contracts : Tbl Nat := []
  atomicId : List (Nat × Nat) := []
  atomicExpr : List (Nat × Nat) := []
  boundVars : Tbl Nat := []
  signalMapping : Tbl Nat := []
  trace : List String := []
  assembly : Nat := 0
  binary : List Nat := []
  r2u2Output : String := ""
  equiv : String := ""
  stats : String := ""
  isFt : Bool := false
  hasFt : Bool := false
  hasPt : Bool := false
  status : Bool := true
  traceLength : Int := -1
  missionTime : Int := -1
  bz : Bool := false
  scriptFile : String := ""
  specFile : String := ""
  traceFile : String := ""
  mapFile : String := ""
  egglogPath : Option String := none
  smtPath : Option String := none
  r2u2CPath : Option String := none
  r2u2BinPath : Option String := none

/-- `Context.clear` (cpt.py:1494-1518), except for the list of assembly, which is emptied in place. -/
def CCtx.clear (c : CCtx) : CCtx :=
  { c with
    definitions := [], structs := [], signals := [], variables' := [], specifications := [], contracts := []
    atomicId := [], atomicExpr := [], boundVars := [], binary := [], equiv := "", stats := ""
    traceLength := -1, isFt := false, hasFt := false, hasPt := false, status := true, specFile := "" }

/-- `Context.get_symbols` (cpt.py:1520-1530). -/
def CCtx.symbols (c : CCtx) : List String :=
  c.definitions.map (·.1) ++ c.structs.map (·.1) ++ c.enums.map (·.1) ++ c.signals.map (·.1) ++ c.variables'.map (·.1) ++
    c.specifications.map (·.1) ++ c.contracts.map (·.1) ++ c.boundVars.map (·.1)

/-- `Context.deepcopy` (cpt.py:1564-1607): a new context and its assignments. -/
def CCtx.copy (c : CCtx) : CCtx :=
  { definitions := c.definitions, structs := c.structs, signals := c.signals, variables' := c.variables'
    specifications := c.specifications, contracts := c.contracts, atomicId := c.atomicId, atomicExpr := c.atomicExpr
    boundVars := c.boundVars, signalMapping := c.signalMapping, assembly := c.assembly, trace := c.trace
    binary := c.binary, equiv := c.equiv, stats := c.stats, traceLength := c.traceLength, isFt := c.isFt
    hasFt := c.hasFt, hasPt := c.hasPt, status := c.status, specFile := c.specFile, traceFile := c.traceFile
    mapFile := c.mapFile, egglogPath := c.egglogPath, smtPath := c.smtPath, missionTime := c.missionTime, bz := c.bz
    scriptFile := c.scriptFile }

/-- The sections of a program (cpt.py:1192-1305): declared signals, definitions and specifications with the nodes of
their expressions. -/
inductive CSec where
  | structs (defs : Tbl String)
  | enums (defs : Tbl (Tbl Int))
  | inputs (decls : List (String × Typ))
  | defines (defs : List (String × Nat))
  | specs (ft : Bool) (specs : List Nat)

/-- `Program` (cpt.py:1310-1338): the sections, the nodes of the two specification sets, and the flags.  The list
`definitions` holds the definitions of the sections. -/
structure CProg where
  sections : List CSec := []
  ft : Nat
  pt : Nat
  scqSize : Int := -1
  dummy : Bool := false
  typed : Bool := false

/-- Memory, context, and the memo of `deepcopy_expr`. -/
structure CopySt where
  mem : Mem
  ctx : CCtx
  memo : List (Nat × Nat) := []

/-- Recording the copy of an atomic node (cpt.py:1684-1687, 1694-1697). -/
def CCtx.mapAtomic (c : CCtx) (new id : Nat) : CCtx :=
  { c with atomicId := (new, id) :: c.atomicId, atomicExpr := (id, new) :: c.atomicExpr.filter fun e => e.1 != id }

/-- The maps of atomics after a node `x` with label `l` was copied to `new` (cpt.py:1681-1697); an atomic node that is
not in the map raises `KeyError`, and array slices are not handled (cpt.py:1766-1767). -/
def CCtx.copied (c : CCtx) (l : CLab) (x new : Nat) : Option CCtx :=
  match l.cls with
  | .atomic => (c.atomicId.lookup x).map fun i => c.mapAtomic new i
  | .signal => if c.bz then some c else
      match c.atomicId.lookup x with
      | some i => some (c.mapAtomic new i)
      | none => some c
  | .slice => none
  | _ => some c

/-- The body of the loop of `deepcopy_expr` (cpt.py:1677-1769).  `Bind` nodes are part of their aggregation. -/
def CopySt.node (s : CopySt) (x : Nat) : Option CopySt :=
  if (s.memo.lookup x).isSome then some s
  else
    (Heap.collect ((s.mem.heap.kids x).map fun k => s.memo.lookup k)).bind fun ks =>
    (s.ctx.copied (s.mem.heap.lab x) x s.mem.next).map fun c =>
      { mem := s.mem.alloc (s.mem.heap.lab x) ks, ctx := c, memo := (x, s.mem.next) :: s.memo }

def CopySt.nodes (s : CopySt) : List Nat → Option CopySt
  | [] => some s
  | x :: xs => (s.node x).bind fun s => CopySt.nodes s xs

/-- `expr.deepcopy(context)` (cpt.py:130-131, 1671-1771): a traversal with an empty memo.  The nodes are listed first:
copying changes no child list the traversal reads. -/
def copyExpr (fuel : Nat) (m : Mem) (c : CCtx) (x : Nat) : Option (Mem × CCtx × Nat) :=
  (m.heap.postorder fuel [x]).bind fun xs =>
  (CopySt.nodes ⟨m, c, []⟩ xs).bind fun s =>
  (s.memo.lookup x).map fun y => (s.mem, s.ctx, y)

def copyExprs (fuel : Nat) (m : Mem) (c : CCtx) : List Nat → Option (Mem × CCtx × List Nat)
  | [] => some (m, c, [])
  | x :: xs => (copyExpr fuel m c x).bind fun (m, c, y) => (copyExprs fuel m c xs).map fun (m, c, ys) => (m, c, y :: ys)

/-- `context.add_formula`, `context.add_contract` (cpt.py:1285-1289). -/
def CCtx.addSpec (c : CCtx) (m : Mem) (x : Nat) : CCtx :=
  match (m.heap.lab x).cls with
  | .formula l => { c with specifications := c.specifications.set l x }
  | .contract l => { c with contracts := c.contracts.set l x }
  | _ => c

/-- `deepcopy` of a section (cpt.py:1203-1291), which adds what it declares to the given context. -/
def copySection (fuel : Nat) (m : Mem) (c : CCtx) : CSec → Option (Mem × CCtx × CSec)
  | .structs ds => some (m, { c with structs := ds.foldl (fun d e => d.set e.1 e.2) c.structs }, .structs ds)
  | .enums ds => some (m, { c with enums := ds.foldl (fun d e => d.set e.1 e.2) c.enums }, .enums ds)
  | .inputs ds => some (m, { c with signals := ds.foldl (fun d e => d.set e.1 e.2) c.signals }, .inputs ds)
  | .defines ds =>
      (copyExprs fuel m c (ds.map (·.2))).map fun (m, c, ys) =>
        let new := (ds.map (·.1)).zip ys
        (m, { c with definitions := new.foldl (fun d e => d.set e.1 e.2) c.definitions }, .defines new)
  | .specs ft xs =>
      (copyExprs fuel m c xs).map fun (m, c, ys) => (m, ys.foldl (fun c y => c.addSpec m y) c, .specs ft ys)

def copySections (fuel : Nat) (m : Mem) (c : CCtx) : List CSec → Option (Mem × CCtx × List CSec)
  | [] => some (m, c, [])
  | s :: ss => (copySection fuel m c s).bind fun (m, c, s) =>
      (copySections fuel m c ss).map fun (m, c, ss) => (m, c, s :: ss)

/-- The specifications of the sections of one kind (cpt.py:1317-1323). -/
def CSec.specsOf (ft : Bool) : CSec → List Nat
  | .specs b xs => if b = ft then xs else []
  | _ => []

/-- `Program(loc, sections)` (cpt.py:1313-1338). -/
def makeProgram (m : Mem) (ss : List CSec) : Mem × CProg :=
  let m1 := m.alloc ⟨.specSet, ""⟩ (ss.flatMap (CSec.specsOf true))
  let m2 := m1.alloc ⟨.specSet, ""⟩ (ss.flatMap (CSec.specsOf false))
  (m2, { sections := ss, ft := m.next, pt := m1.next })

/-- `Program.deepcopy` (cpt.py:1425-1431). -/
def copyProgram (fuel : Nat) (m : Mem) (c : CCtx) (p : CProg) : Option (Mem × CCtx × CProg) :=
  (copySections fuel m c p.sections).map fun (m, c, ss) =>
    let (m, q) := makeProgram m ss
    (m, c, { q with scqSize := p.scqSize, dummy := p.dummy, typed := p.typed })

/-- The console (main.py:99-111) with the objects it can reach. -/
structure World where
  mem : Mem
  lists : Nat → List String := fun _ => []
  nextList : Nat := 1
  prog : CProg
  ctx : CCtx
  stack : List (CProg × CCtx) := []

/-- `push_state` (main.py:196-198): the program is copied in the current context, then that context
(cpt.py:1773-1776). -/
def World.push (fuel : Nat) (w : World) : Option World :=
  (copyProgram fuel w.mem w.ctx w.prog).map fun (m, c, p) =>
    { w with mem := m, ctx := c, stack := (p, c.copy) :: w.stack }

/-- `pop_state` (main.py:200-202). -/
def World.pop (w : World) : Option World :=
  match w.stack with
  | [] => none
  | s :: st => some { w with prog := s.1, ctx := s.2, stack := st }

/-- `context.clear()` on the current context, with its list of assembly (cpt.py:1508). -/
def World.clear (w : World) : World :=
  { w with ctx := w.ctx.clear, lists := fun a => if a = w.ctx.assembly then [] else w.lists a }

/-- `parse_c2po` on a file whose parse gives the sections `ss` over new nodes (parse_c2po.py:686-708); `build` makes
the nodes. -/
def World.parse (w : World) (file : String) (build : Mem → Mem × List CSec) : World :=
  let w := w.clear
  let (m, ss) := build w.mem
  let (m, p) := makeProgram m ss
  { w with mem := m, prog := p, ctx := { w.ctx with specFile := file } }

/-- `assemble` as far as the context is concerned (assemble.py:1073-1074): a new list. -/
def World.assemble (w : World) (code : List String) (binary : List Nat) : World :=
  { w with
    lists := fun a => if a = w.nextList then code else w.lists a
    nextList := w.nextList + 1
    ctx := { w.ctx with assembly := w.nextList, binary := binary } }

/-- Replacing the children of a node (cpt.py:87-104): what every pass that rewrites the program does.  The
parents of the children are left out. -/
def World.setKids (w : World) (x : Nat) (ks : List Nat) : World :=
  { w with mem := { w.mem with heap := { w.mem.heap with kids := fun z => if z = x then ks else w.mem.heap.kids z } } }

/-- `Context.clear` (cpt.py:1494-1518) on the part of the context the type checker uses. -/
def Tc.clear (Γ : TcCtx) : TcCtx :=
  { Γ with signals := [], vars := [], definitions := [], structs := [], specs := [], contracts := [], bound := [], ft := false }

end R2U2
