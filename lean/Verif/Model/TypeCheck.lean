import Verif.Model.Desugar
/-
Model of `/repo/compiler/c2po/type_check.py`.

Checking an expression gives the expression with the types written into it and the changed context; `none` is
an error or an exception.  The parser makes a new object for every occurrence, so expressions are trees here.
An error in one section does not keep the next ones from being checked, but the program is rejected then; the
model stops at the first error.
-/
namespace R2U2

/-- Python dictionaries. -/
abbrev Tbl (A : Type) := List (String × A)

def Tbl.set {A : Type} (d : Tbl A) (k : String) (a : A) : Tbl A := (k, a) :: d.filter fun e => e.1 != k
def Tbl.del {A : Type} (d : Tbl A) (k : String) : Tbl A := d.filter fun e => e.1 != k
def Tbl.has {A : Type} (d : Tbl A) (k : String) : Bool := (d.lookup k).isSome

/-- `Type.symbol` and `str` of a type (types.py:30-118). -/
def Typ.str : Typ → String
  | .none => "NoType"
  | .bool => "bool"
  | .int => "int"
  | .float => "float"
  | .struct s => s
  | .enum s => s
  | .contract => "contract"
  | .arr m n => m.str ++ (if 0 ≤ n then "[" ++ toString n ++ "]" else "[]")

def Typ.symbol : Typ → String
  | .arr m _ => m.str ++ "[]"
  | t => t.str

/-- The part of `Context` the type checker uses (cpt.py:1433-1478), with the configured integer type
(types.py:60-65). -/
structure TcCtx where
  signals : Tbl Typ := []
  vars : Tbl Typ := []
  definitions : Tbl Src := []
  structs : Structs := []
  enums : Enums := []
  specs : List String := []
  contracts : List String := []
  bound : Tbl Typ := []
  ft : Bool := false
  bz : Bool := false
  width : Nat := 32
  signed : Bool := true

/-- `is_future_time_operator` (cpt.py:1016-1022). -/
def TmpK.future : TmpK → Bool
  | .G | .F | .U | .R => true
  | _ => false

/-- `is_logical_operator` (cpt.py:1006-1014). -/
def OpK.logical : OpK → Bool
  | .and | .or | .xor | .imp | .iff | .neg => true
  | _ => false

/-- `is_bitwise_operator` (cpt.py:963-969). -/
def OpK.bitwise : OpK → Bool
  | .bitAnd | .bitOr | .bitXor | .bitNeg => true
  | _ => false

/-- `is_arithmetic_operator` (cpt.py:971-982).  Subtraction and negation have the same symbol and are one
operator here. -/
def OpK.arithmetic : OpK → Bool
  | .add | .sub | .mul | .div | .mod | .pow | .sqrt | .abs => true
  | _ => false

namespace Tc

/-- The type of a constant (cpt.py:154-161). -/
def litTyp : Lit → Typ
  | .bool _ => .bool
  | .int _ => .int
  | .float _ => .float

/-- The representability test (type_check.py:38-47); `bit_length() ≤ n` says that the absolute value is below
`2 ^ n`. -/
def representable (Γ : TcCtx) : Lit → Bool
  | .int n => decide (n.natAbs < 2 ^ (Γ.width - if Γ.signed then 1 else 0))
  | _ => true

/-- The type of a signal node (type_check.py:61-80).  Without the booleanizer, looking a structure or array type
up in a set of types raises (types.py:72-81 defines `__eq__` without `__hash__`). -/
def signal (Γ : TcCtx) (s : String) : Option Typ :=
  (Γ.signals.lookup s).bind fun t =>
    if Γ.bz then some t
    else match t with
      | .int | .float | .enum _ | .struct _ | .arr .. => none
      | t => some t

/-- The type of a variable node (type_check.py:81-122). -/
def varTyp (Γ : TcCtx) (s : String) : Option Typ :=
  match Γ.bound.lookup s with
  | some (.arr m _) => some m
  | some _ => none
  | none =>
  match Γ.vars.lookup s with
  | some t => some t
  | none =>
  match Γ.definitions.lookup s with
  | some d => some d.ty
  | none =>
    if Tbl.has Γ.structs s then none
    else if Tbl.has Γ.enums s then none
    else if s ∈ Γ.specs then some .bool
    else if s ∈ Γ.contracts then none
    else if Γ.enums.any fun e => Tbl.has e.2 s then some (.enum s)
    else none

/-- `ArrayExpression`, `ArrayIndex` literally (not behind a name). -/
def isArrayNode : Src → Bool
  | .node .array _ _ => true
  | .node (.slice ..) _ _ => true
  | _ => false

/-- `isinstance(rhs, Constant) and rhs.value == 0` (type_check.py:418-425). -/
def zero : Src → Bool
  | .node (.lit (.int 0)) _ _ => true
  | .node (.lit (.bool false)) _ _ => true
  | .node (.lit (.float s)) _ _ => s = "0.0" || s = "-0.0"
  | _ => false

/-- The test of an exponent of an integer (type_check.py:437-453).  (The sign of a float exponent does not
matter: the operands must have the same type.) -/
def exponentOk (Γ : TcCtx) : Src → Bool
  | .node (.lit (.int n)) _ _ => decide (0 ≤ n)
  | .node (.lit _) _ _ => true
  | .node .tau _ _ => true
  | _ => !Γ.signed

/-- Arithmetic operators (type_check.py:398-470). -/
def arith (Γ : TcCtx) (o : OpK) (cs : List Src) : Option Typ :=
  match cs with
  | [] => none
  | c :: _ =>
    if !Γ.bz then none
    else if o = .div ∧ ((cs[1]?).map zero).getD true then none
    else if o = .sqrt ∧ c.ty.eqv .int then none
    else if o = .pow ∧ c.ty.eqv .int ∧ !((cs[1]?).map (exponentOk Γ)).getD false then none
    else if cs.all fun d => !isArrayNode d && d.ty.eqv c.ty then some c.ty
    else none

/-- Bitwise operators (type_check.py:371-397). -/
def bits (Γ : TcCtx) (cs : List Src) : Option Typ :=
  match cs with
  | [] => none
  | c :: _ =>
    if !Γ.bz then none
    else if cs.all fun d => !isArrayNode d && d.ty.eqv c.ty && d.ty.isInteger then some c.ty
    else none

/-- Is this the type of a bare enumeration member, which gets its enumeration from what it is compared with? -/
def unresolved (Γ : TcCtx) (t : Typ) : Bool := t.isEnum && !Tbl.has Γ.enums t.symbol

/-- Is the name of type `m` a member of the enumeration that type `e` names? -/
def memberOf (Γ : TcCtx) (m e : Typ) : Bool := ((Γ.enums.lookup e.symbol).map fun ms => Tbl.has ms m.symbol).getD false

/-- Comparisons (type_check.py:471-515): the operands, with the type of a bare enumeration member filled in. -/
def compare (Γ : TcCtx) (o : OpK) (cs : List Src) : Option (List Src) :=
  match cs with
  | [l, r] =>
    if !Γ.bz && !(o = .eq || o = .ne) then none
    else
      (if unresolved Γ l.ty && Tbl.has Γ.enums r.ty.symbol then
          if memberOf Γ l.ty r.ty then some (l.withTy r.ty, r) else none
        else if unresolved Γ r.ty && Tbl.has Γ.enums l.ty.symbol then
          if memberOf Γ r.ty l.ty then some (l, r.withTy l.ty) else none
        else if unresolved Γ l.ty && unresolved Γ r.ty then none
        else some (l, r)).bind fun p =>
      if p.1.ty.eqv p.2.ty then some [p.1, p.2] else none
  | _ => none

/-- `isinstance(e, Constant)`. -/
def isLit : Src → Bool
  | .node (.lit _) _ _ => true
  | _ => false

/-- The definition an initial value stands for (type_check.py:559-560). -/
def initial (Γ : TcCtx) (c : Src) : Src :=
  match c with
  | .node (.var s) _ _ => (Γ.definitions.lookup s).getD c
  | _ => c

/-- `prev` (type_check.py:529-577). -/
def previous (Γ : TcCtx) (cs : List Src) : Option (List Src × Typ) :=
  match cs with
  | [c, d] =>
    (if unresolved Γ c.ty && Tbl.has Γ.enums d.ty.symbol then
        if memberOf Γ c.ty d.ty then some (c.withTy d.ty) else none
      else if Tbl.has Γ.enums c.ty.symbol then none
      else if unresolved Γ c.ty && unresolved Γ d.ty then none
      else if c.ty.eqv d.ty then some c else none).bind fun c' =>
    let i := initial Γ c'
    if !isLit i && !i.ty.isEnum then none
    else if [c', d].any fun x => x.any fun y => y.kind = .op .prev then none
    else some ([c', d], i.ty)
  | _ => none

/-- One node whose operands have been checked; aggregations are below (type_check.py:35-577). -/
def node (Γ : TcCtx) (k : SK) (cs : List Src) : Option (Src × TcCtx) :=
  match k, cs with
  | .lit v, cs => if representable Γ v then some (.node k (litTyp v) cs, Γ) else none
  | .tau, cs => some (.node k .int cs, Γ)
  | .sig s, cs => (signal Γ s).map fun t => (.node k t cs, Γ)
  | .var s, cs => (varTyp Γ s).map fun t => (.node k t cs, Γ)
  | .array, cs =>
      let t := (cs.getLast?.map (·.ty)).getD .none
      if cs.all fun c => c.ty.eqv t then some (.node k (.arr t cs.length) cs, Γ) else none
  | .slice a b, [c] =>
      match c.ty with
      | .arr m n =>
          if ((a.natAbs : Int) > n ∨ (b.natAbs : Int) > n) ∧ n > -1 then none
          else if a.natAbs > b.natAbs then none
          else some (.node (.slice a.natAbs b.natAbs) (.arr m (b.natAbs - a.natAbs + 1)) [c], Γ)
      | _ => none
  | .index i, [c] =>
      match c.ty with
      | .arr m n =>
          if (i.natAbs : Int) > n ∧ n > -1 then none
          else
            -- 188-197: for a name, an entry of `signals` is overwritten and deleted
            let Γ' := match c with
              | .node (.var s) _ _ => { Γ with signals := Γ.signals.del (s ++ "[" ++ toString i.natAbs ++ "]") }
              | _ => Γ
            some (.node (.index i.natAbs) m [c], Γ')
      | _ => none
  | .access m, [c] =>
      (Γ.structs.lookup c.ty.symbol).bind fun fs => (fs.lookup m).map fun t => (.node k t [c], Γ)
  | .call f, cs | .struct f _, cs =>
      (Γ.structs.lookup f).bind fun fs =>
        if (fs.zip cs).all fun p => p.1.2.eqv p.2.ty then some (.node k (.struct f) cs, Γ) else none
  | .tmp o lb ub, cs =>
      if cs.all (fun c => c.ty.eqv .bool) && (o.future == Γ.ft) && decide (lb ≤ ub) then some (.node k .bool cs, Γ) else none
  | .op o, cs =>
      if o = .min ∨ o = .max then
        if cs.all fun c => c.ty.eqv .int then some (.node k .int cs, Γ) else none
      else if o.bitwise then (bits Γ cs).map fun t => (.node k t cs, Γ)
      else if o.arithmetic then (arith Γ o cs).map fun t => (.node k t cs, Γ)
      else if o.isRel then (compare Γ o cs).map fun cs' => (.node k .bool cs', Γ)
      else if o.logical then
        if cs.all fun c => c.ty.eqv .bool then some (.node k .bool cs, Γ) else none
      else if o = .prev then (previous Γ cs).map fun p => (.node k p.2 p.1, Γ)
      else none
  | _, _ => none

/-- `del context.bound_vars[v]` (cpt.py:1625) raises if it is not there. -/
def unbind (Γ : TcCtx) (v : String) : Option TcCtx :=
  if Γ.bound.has v then some { Γ with bound := Γ.bound.del v } else none

/-- A set aggregation whose operands have been checked (type_check.py:253-295). -/
def aggregation (Γ : TcCtx) (k : AggK) (v : String) (set : Src) (num : Option Src) (body : Src) : Option TcCtx :=
  match set.ty with
  | .arr m _ =>
      let numOk := match k with
        | .each | .some => true
        | _ => Γ.bz && (num.map (·.ty.isInteger)).getD false
      if numOk && body.ty.eqv .bool then some { Γ with vars := Γ.vars.set v m } else none
  | _ => none

mutual
/-- `type_check_expr` on an expression (type_check.py:5-579), in the order of `postorder`, which binds and unbinds
the variables of aggregations (cpt.py:1609-1641). -/
def check (Γ : TcCtx) : Src → Option (Src × TcCtx)
  | .node (.agg k v) _ [set, body] =>
      (check Γ set).bind fun (set, Γ) =>
      (check { Γ with bound := Γ.bound.set v set.ty } body).bind fun (body, Γ) =>
      (unbind Γ v).bind fun Γ =>
      (aggregation Γ k v set Option.none body).map fun Γ => (.node (.agg k v) .bool [set, body], Γ)
  | .node (.agg k v) _ [set, num, body] =>
      (check Γ set).bind fun (set, Γ) =>
      (check Γ num).bind fun (num, Γ) =>
      (check { Γ with bound := Γ.bound.set v set.ty } body).bind fun (body, Γ) =>
      (unbind Γ v).bind fun Γ =>
      (aggregation Γ k v set (some num) body).map fun Γ => (.node (.agg k v) .bool [set, num, body], Γ)
  | .node k _ cs => (checkL Γ cs).bind fun (cs, Γ) => node Γ k cs
def checkL (Γ : TcCtx) : List Src → Option (List Src × TcCtx)
  | [] => some ([], Γ)
  | c :: cs => (check Γ c).bind fun (c, Γ) => (checkL Γ cs).bind fun (cs, Γ) => some (c :: cs, Γ)
end

/-- `type_check_expr` on a specification (type_check.py:10-34). -/
def checkSpec (Γ : TcCtx) : Spec → Option (Spec × TcCtx)
  | .formula l n e =>
      (check Γ e).bind fun (e, Γ) =>
        if e.ty = .bool then some (.formula l n e, { Γ with specs := l :: Γ.specs }) else none
  | .contract l n1 n2 n3 a g =>
      (check Γ a).bind fun (a, Γ) => (check Γ g).bind fun (g, Γ) =>
        if a.ty = .bool ∧ g.ty = .bool then some (.contract l n1 n2 n3 a g, { Γ with contracts := l :: Γ.contracts }) else none

end Tc

def Spec.label : Spec → String
  | .formula l .. => l
  | .contract l .. => l

/-- The sections of a program (cpt.py:1118-1270).  The value of an enumeration member is `none` if it is not an
integer constant. -/
inductive Sec where
  | input (decls : List (List String × Typ))
  | define (defs : List (String × Src))
  | struct (defs : List (String × List (String × Typ)))
  | enum (defs : List (String × List (String × Option Int)))
  | spec (ft : Bool) (specs : List Spec)

namespace Tc

/-- `Context.get_symbols` (cpt.py:1520-1530). -/
def symbols (Γ : TcCtx) : List String :=
  Γ.definitions.map (·.1) ++ Γ.structs.map (·.1) ++ Γ.enums.map (·.1) ++ Γ.signals.map (·.1) ++ Γ.vars.map (·.1) ++
    Γ.specs ++ Γ.contracts ++ Γ.bound.map (·.1)

/-- One declared signal (type_check.py:586-622): the names so far in the section, and the context.  An array
becomes a definition, an array of signals; the result of checking those signals is not looked at. -/
def declare (st : List String × TcCtx) (s : String) (t : Typ) : Option (List String × TcCtx) :=
  let (seen, Γ) := st
  if s ∈ seen then none
  else
    let t := if Tbl.has Γ.enums t.symbol then .enum t.symbol else t
    let Γ := { Γ with signals := Γ.signals.set s t }
    match t with
    | .arr m n =>
        let names := (List.range n.toNat).map fun (i : Nat) => s ++ "[" ++ toString i ++ "]"
        some (s :: seen, { Γ with
          definitions := Γ.definitions.set s (.node .array t (names.map fun e => .node (.sig e) m []))
          signals := names.foldl (fun d e => d.set e m) Γ.signals })
    | _ => some (s :: seen, Γ)

def declareAll (st : List String × TcCtx) (t : Typ) : List String → Option (List String × TcCtx)
  | [] => some st
  | s :: ss => (declare st s t).bind fun st => declareAll st t ss

def inputs (st : List String × TcCtx) : List (List String × Typ) → Option (List String × TcCtx)
  | [] => some st
  | d :: ds => (declareAll st d.2 d.1).bind fun st => inputs st ds

/-- The definitions of a section (type_check.py:623-636). -/
def defines (st : List String × TcCtx) : List (String × Src) → Option (List (String × Src) × TcCtx)
  | [] => some ([], st.2)
  | (s, e) :: ds =>
      if s ∈ st.1 then none
      else (check st.2 e).bind fun (e, Γ) =>
        (defines (s :: st.1, { Γ with definitions := Γ.definitions.set s e }) ds).map fun (ds, Γ) => ((s, e) :: ds, Γ)

/-- The structures of a section (type_check.py:637-647). -/
def structures (st : List String × TcCtx) : List (String × List (String × Typ)) → Option TcCtx
  | [] => some st.2
  | (s, fs) :: ds =>
      if s ∈ st.1 then none
      else structures (s :: st.1, { st.2 with structs := Tbl.set st.2.structs s fs }) ds

/-- The enumerations of a section (type_check.py:648-669). -/
def enumerations (Γ : TcCtx) : List (String × List (String × Option Int)) → Option TcCtx
  | [] => some Γ
  | (s, ms) :: ds =>
      if s ∈ symbols Γ then none
      else if ms.any fun m => m.2.isNone || decide (m.1 ∈ symbols Γ) || m.1 == s then none
      else enumerations { Γ with enums := Tbl.set Γ.enums s (ms.map fun m => (m.1, m.2.getD 0)) } ds

/-- The specifications of a section (type_check.py:670-688). -/
def specifications (st : List String × TcCtx) : List Spec → Option (List Spec × TcCtx)
  | [] => some ([], st.2)
  | s :: ss =>
      if s.label ≠ "" ∧ s.label ∈ st.1 then none
      else (checkSpec st.2 s).bind fun (s', Γ) =>
        (specifications (s.label :: st.1, Γ) ss).map fun (ss', Γ) => (s' :: ss', Γ)

/-- `type_check_section` (type_check.py:581-690), called with an empty set of symbols. -/
def checkSection (Γ : TcCtx) : Sec → Option (Sec × TcCtx)
  | .input ds => (inputs ([], Γ) ds).map fun st => (.input ds, st.2)
  | .define ds => (defines ([], Γ) ds).map fun (ds, Γ) => (.define ds, Γ)
  | .struct ds => (structures ([], Γ) ds).map fun Γ => (.struct ds, Γ)
  | .enum ds => (enumerations Γ ds).map fun Γ => (.enum ds, Γ)
  | .spec ft ss => (specifications ([], { Γ with ft := ft }) ss).map fun (ss, Γ) => (.spec ft ss, Γ)

/-- `type_check` (type_check.py:692-711). -/
def checkProgram (Γ : TcCtx) : List Sec → Option (List Sec × TcCtx)
  | [] => some ([], Γ)
  | s :: ss => (checkSection Γ s).bind fun (s, Γ) => (checkProgram Γ ss).map fun (ss, Γ) => (s :: ss, Γ)

end Tc
end R2U2
