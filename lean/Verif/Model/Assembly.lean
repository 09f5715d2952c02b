import Verif.Model.Backend
/-
Model of the code generator, `gen_assembly` and its helpers (assemble.py:402-832).
-/
namespace R2U2

/-- `BZOperator` (assemble.py:30-71). -/
inductive BzOp where
  | none | iload | fload | iconst | fconst | store | bwneg | bwand | bwor | bwxor
  | ieq | feq | ineq | fneq | igt | fgt | igte | fgte | ilt | flt | ilte | flte
  | ineg | fneg | iadd | fadd | isub | fsub | imul | fmul | idiv | fdiv | mod
  | ipow | fpow | isqrt | fsqrt | iabs | fabs | prev | ts
  deriving DecidableEq, Repr

/-- `BZ_OPERATOR_MAP` (assemble.py:84-118); a missing key is `none`. -/
def bzOperator : OpK → Bool → Option BzOp
  | .bitNeg, true => some .bwneg
  | .bitAnd, true => some .bwand
  | .bitOr, true => some .bwor
  | .bitXor, true => some .bwxor
  | .add, true => some .iadd
  | .add, false => some .fadd
  | .sub, true => some .isub
  | .sub, false => some .fsub
  | .mul, true => some .imul
  | .mul, false => some .fmul
  | .div, true => some .idiv
  | .div, false => some .fdiv
  | .mod, true => some .mod
  | .pow, true => some .ipow
  | .pow, false => some .fpow
  | .sqrt, true => some .isqrt
  | .sqrt, false => some .fsqrt
  | .abs, true => some .iabs
  | .abs, false => some .fabs
  | .prev, true => some .prev
  | .prev, false => some .prev
  | .eq, true => some .ieq
  | .eq, false => some .feq
  | .ne, true => some .ineq
  | .ne, false => some .fneq
  | .gt, true => some .igt
  | .gt, false => some .fgt
  | .ge, true => some .igte
  | .ge, false => some .fgte
  | .lt, true => some .ilt
  | .lt, false => some .flt
  | .le, true => some .ilte
  | .le, false => some .flte
  | _, _ => none

/-- `FTOperator` and `PTOperator` (assemble.py:167-182, 209-223); the two share the
codes of their common members. -/
inductive TlOp where
  | nop | config | load | ret | eventually | global | until | release
  | once | hist | since | trigger | not | and | or | implies | equiv | xor
  deriving DecidableEq, Repr

/-- `TLOperandType` (assemble.py:161-165). -/
inductive OperandT where
  | direct | atomic | subformula | none
  deriving DecidableEq, Repr

/-- The first operand of a booleanizer instruction: an integer, or the bit pattern of
a float (assemble.py:411-424). -/
inductive BzArg where
  | int (i : Int) | float (bits : Nat)
  deriving DecidableEq, Repr

/-- `BZInstruction` (assemble.py:316-334). -/
structure BzInstr where
  id : Nat
  op : BzOp
  a : BzArg
  b : Nat
  deriving DecidableEq, Repr

/-- `TLInstruction` (assemble.py:337-367). -/
structure TlInstr where
  id : Nat
  op : TlOp
  t1 : OperandT
  v1 : Int
  t2 : OperandT
  v2 : Int
  deriving DecidableEq, Repr

/-- `CGInstruction` (assemble.py:370-384): `temp` is `CGType.TEMP`, otherwise
`CGType.SCQ`. -/
structure CgInstr where
  temp : Bool
  instr : TlInstr
  deriving DecidableEq, Repr

/-- A Python `dict` from nodes: entries in insertion order. -/
abbrev Dict (β : Type) := List (Nat × β)

/-- `d[k] = v`: an existing key keeps its place. -/
def Dict.set {β : Type} (k : Nat) (v : β) : Dict β → Dict β
  | [] => [(k, v)]
  | (k', v') :: d => if k' = k then (k, v) :: d else (k', v') :: Dict.set k v d

/-- `d[k] = d.pop(k)`: the entry moves to the end. -/
def Dict.toEnd {β : Type} (k : Nat) (d : Dict β) : Dict β :=
  match d.lookup k with
  | none => d
  | some v => d.filter (fun e => decide (e.1 ≠ k)) ++ [(k, v)]

namespace BProg

/-- `gen_bz_instruction` (assemble.py:402-476); `none` where Python raises an
exception (missing key, missing operator). -/
def genBz (P : BProg) (d : Dict BzInstr) (x : Nat) : Option BzInstr :=
  match P.heap.lab x with
  | .signal isInt sid => some ⟨d.length, if isInt then .iload else .fload, .int sid, 0⟩   -- 410-416
  | .int i => some ⟨d.length, .iconst, .int i, 0⟩                                       -- 418-421
  | .float v => some ⟨d.length, .fconst, .float v, 0⟩                                   -- 422-425
  | .tau => some ⟨d.length, .ts, .int 0, 0⟩                                             -- 426-429
  | .atomic =>                                                                          -- 430-433
      match P.heap.kids x with
      | [] => none
      | c :: _ => (d.lookup c).map fun i =>
          ⟨d.length, .store, .int i.id, (P.atomicId x).getD 0⟩
  | .op o isInt =>
      match P.heap.kids x with
      | [c] =>                                                                          -- 434-446
          match d.lookup c, (if o = .sub then some (if isInt then .ineg else .fneg) else bzOperator o isInt) with
          | some i, some k => some ⟨d.length, k, .int i.id, 0⟩
          | _, _ => none
      | [c, c'] =>                                                                      -- 447-457
          match d.lookup c, d.lookup c', bzOperator o isInt with
          | some i, some i', some k => some ⟨d.length, k, .int i.id, i'.id⟩
          | _, _, _ => none
      | _ => (bzOperator o isInt).map fun k => ⟨d.length, k, .int 0, 0⟩                 -- 458-464
  | _ => none

/-- `gen_tl_operand` (assemble.py:479-492).  `none`: no operand.  (A float constant,
which no type-checked temporal operator has, is read as its bit pattern.) -/
def tlOperand (P : BProg) (d : Dict TlInstr) : Option Nat → OperandT × Int
  | none => (.none, 0)
  | some c =>
      match P.heap.lab c with
      | .bool b => (.direct, if b then 1 else 0)
      | .int i => (.direct, i)
      | .float v => (.direct, v)
      | _ =>
          match d.lookup c with
          | some i => (.subformula, i.id)
          | none => (.none, 0)

/-- The operator map of the pass: `FT_OPERATOR_MAP` (assemble.py:196-207) if `past` is
false, `PT_OPERATOR_MAP` (239-251) otherwise. -/
def tlOperator (past : Bool) : BNode → Option TlOp
  | .op .neg _ => some .not
  | .op .and _ => some .and
  | .op .or _ => some .or
  | .op .imp _ => some .implies
  | .op .iff _ => some .equiv
  | .op .xor _ => some .xor
  | .temp .G _ _ => if past then none else some .global
  | .temp .F _ _ => if past then none else some .eventually
  | .temp .U _ _ => if past then none else some .until
  | .temp .R _ _ => if past then none else some .release
  | .temp .O _ _ => if past then some .once else none
  | .temp .H _ _ => if past then some .hist else none
  | .temp .S _ _ => if past then some .since else none
  | .temp .T _ _ => if past then some .trigger else none
  | _ => none

/-- `gen_ft_instruction` (assemble.py:495-550) and `gen_pt_instruction` (553-603);
`offset` is 0 in the first.  `none`: an error is reported or an exception raised.  A
formula over a constant has no instruction for its operand, so 503-505 and the
missing key of 562 both give `none`. -/
def genTl (P : BProg) (past : Bool) (offset : Nat) (d : Dict TlInstr) (x : Nat) : Option TlInstr :=
  match P.heap.lab x with
  | .formula num =>
      match P.heap.kids x with
      | [] => none
      | c :: _ =>
          if (P.heap.lab c).isConst then none
          else (d.lookup c).map fun i =>
            ⟨d.length + offset, .ret, .subformula, i.id, .direct, num⟩
  | l =>
      match tlOperator past l, P.heap.kids x with
      | some o, [] => some ⟨d.length + offset, o, .none, 0, .none, 0⟩
      | some o, [c] =>
          let r := P.tlOperand d (some c)
          some ⟨d.length + offset, o, r.1, r.2, .none, 0⟩
      | some o, [c, c'] =>
          let r := P.tlOperand d (some c)
          let r' := P.tlOperand d (some c')
          some ⟨d.length + offset, o, r.1, r.2, r'.1, r'.2⟩
      | _, _ => none

/-- `expr.scq[1] - expr.scq[0]` (the attribute starts as `(-1, -1)`, cpt.py:44). -/
def queueLen (scq : Nat → Option (Int × Int)) (x : Nat) : Int :=
  match scq x with
  | some (lo, hi) => hi - lo
  | none => 0

/-- `gen_ft_scq_instructions` (assemble.py:606-661), `gen_pt_scq_instructions`
(664-719): the records configuring queue `id` for node `x`. -/
def genScq (P : BProg) (scq : Nat → Option (Int × Int)) (id x : Nat) : List CgInstr :=
  match P.heap.lab x with
  | .temp _ lb ub =>
      [⟨false, ⟨id, .config, .atomic, queueLen scq x, .atomic, 0⟩⟩,
       ⟨true, ⟨id, .config, .subformula, lb, .subformula, ub⟩⟩]
  | _ => [⟨false, ⟨id, .config, .atomic, queueLen scq x, .none, 0⟩⟩]

/-- The local variables of `gen_assembly` (assemble.py:722-728). -/
structure AsmState where
  bzs : Dict BzInstr
  fts : Dict TlInstr
  pts : Dict TlInstr
  cgs : Dict (List CgInstr)
  ftScqs : Nat

/-- `expr.has_only_tl_parents()` (cpt.py:106-113) -/
def onlyTlParents (P : BProg) (x : Nat) : Bool :=
  (P.heap.pars x).all fun p => decide (P.engine p = .tl)

/-- The body of the first loop (assemble.py:732-765). -/
def ftStep (P : BProg) (scq : Nat → Option (Int × Int)) (s : AsmState) (x : Nat) : Option AsmState :=
  if x = P.ft then some s
  else
    let s1 := match P.atomicId x with
      | none => s
      | some a => { s with
          fts := s.fts.set x ⟨s.fts.length, .load, .atomic, a, .none, 0⟩
          cgs := s.cgs.set x (P.genScq scq s.fts.length x)
          ftScqs := s.ftScqs + 1 }
    if (P.heap.lab x).isConst ∧ P.onlyTlParents x then some s1
    else match P.engine x with
      | .bz => (P.genBz s1.bzs x).map fun i => { s1 with bzs := s1.bzs.set x i }
      | .tl => (P.genTl false 0 s1.fts x).map fun i => { s1 with
          fts := s1.fts.set x i
          cgs := s1.cgs.set x (P.genScq scq i.id x)
          ftScqs := s1.ftScqs + 1 }
      | .none => some s1

/-- The body of the second loop (assemble.py:767-798). -/
def ptStep (P : BProg) (scq : Nat → Option (Int × Int)) (s : AsmState) (x : Nat) : Option AsmState :=
  if x = P.pt then some s
  else
    let s1 := match P.atomicId x with
      | none => s
      | some a => { s with
          pts := s.pts.set x ⟨s.pts.length + s.ftScqs, .load, .atomic, a, .none, 0⟩
          cgs := s.cgs.set x (P.genScq scq (s.pts.length + s.ftScqs) x) }
    if (P.heap.lab x).isConst ∧ P.onlyTlParents x then some s1
    else match P.engine x with
      | .bz => (P.genBz s1.bzs x).map fun i => { s1 with bzs := s1.bzs.set x i }
      | .tl => (P.genTl true s1.ftScqs s1.pts x).map fun i => { s1 with
          pts := s1.pts.set x i
          cgs := s1.cgs.set x (P.genScq scq i.id x) }
      | .none => some s1

/-- A loop that may fail. -/
def foldOpt {σ : Type} (f : σ → Nat → Option σ) : List Nat → σ → Option σ
  | [], s => some s
  | x :: xs, s => (f s x).bind (foldOpt f xs)

/-- Moving the previous-value instructions to the end (assemble.py:802-804). -/
def movePrev (d : Dict BzInstr) : Dict BzInstr :=
  (d.map (·.1)).foldl
    (fun d k => if (d.lookup k).map (·.op) = some .prev then Dict.toEnd k d else d) d

/-- The `while` loop moving `TEMP` records to the end (assemble.py:808-816): `n` is
`end_of_instructions - idx`, `pre` the list before `idx`, `suf` the list from `idx`. -/
def moveTemps : Nat → List CgInstr → List CgInstr → List CgInstr
  | 0, pre, suf => pre ++ suf
  | _ + 1, pre, [] => pre
  | n + 1, pre, c :: suf =>
      if c.temp then moveTemps n pre (suf ++ [c]) else moveTemps n (pre ++ [c]) suf

/-- The result of `gen_assembly`, by kind (assemble.py:827-832). -/
structure Assembly where
  bz : List BzInstr
  ft : List TlInstr
  pt : List TlInstr
  cg : List CgInstr
  deriving DecidableEq

/-- `gen_assembly` (assemble.py:721-832), given the `scq` attributes. -/
def genAssembly (fuel : Nat) (P : BProg) (scq : Nat → Option (Int × Int)) : Option Assembly :=
  match Heap.postorder fuel P.heap [P.ft], Heap.postorder fuel P.heap [P.pt] with
  | some o1, some o2 =>
      (foldOpt (P.ftStep scq) o1 ⟨[], [], [], [], 0⟩).bind fun s1 =>
        (foldOpt (P.ptStep scq) o2 s1).map fun s =>
          let cg := (s.cgs.map (·.2)).flatten
          { bz := (movePrev s.bzs).map (·.2)
            ft := s.fts.map (·.2)
            pt := s.pts.map (·.2)
            cg := moveTemps cg.length [] cg }
  | _, _ => none

end BProg
end R2U2
