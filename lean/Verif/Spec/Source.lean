import Verif.Model.Desugar
import Mathlib.Data.List.Forall2
/-
What source-level expressions mean, independent of the compiler passes: the value of an expression at a
time, for given input signals and given values of the names in scope.
-/
namespace R2U2

/-- Values: Booleans, integers (also enumeration members), floats, arrays, structures with named members.
`err`: reading a member or element that is not there. -/
inductive Val (F : Type) where
  | bool (b : Bool)
  | int (n : Int)
  | flt (x : F)
  | arr (vs : List (Val F))
  | struct (fs : List (String × Val F))
  | err

/-- What the input signals and the names in scope stand for: a value at every time. -/
structure Env (F : Type) where
  sig : String → Nat → Val F
  var : String → Nat → Val F

/-- The environment with the name `v` standing for `d`. -/
def Env.bind {F : Type} (ρ : Env F) (v : String) (d : Nat → Val F) : Env F :=
  { ρ with var := fun s => if s = v then d else ρ.var s }

/-- The declarations of a program, and the arithmetic of the target: what floats and the operators not
mentioned below do.  Integers here do not overflow. -/
structure Interp (F : Type) where
  structs : Structs
  enums : Enums
  ofText : String → F
  fcmp : OpK → F → F → Bool
  arith : OpK → List (Val F) → Val F

namespace Val
variable {F : Type}

def isTrue : Val F → Bool
  | .bool b => b
  | _ => false

/-- Booleans count as 0 and 1. -/
def toInt : Val F → Int
  | .bool b => if b then 1 else 0
  | .int n => n
  | _ => 0

/-- An integer with the property `p`. -/
def isInt (v : Val F) (p : Int → Bool) : Bool :=
  match v with
  | .int n => p n
  | _ => false

def isFlt : Val F → Bool
  | .flt _ => true
  | _ => false

def items : Val F → List (Val F)
  | .arr vs => vs
  | _ => []

/-- Element `n` of an array. -/
def nth (v : Val F) (n : Nat) : Val F := (v.items[n]?).getD .err

/-- Member `m` of a structure. -/
def member (v : Val F) (m : String) : Val F :=
  match v with
  | .struct fs => (fs.lookup m).getD .err
  | _ => .err

/-- Integer comparisons. -/
def icmp : OpK → Int → Int → Bool
  | .eq, a, b => decide (a = b)
  | .lt, a, b => decide (a < b)
  | .gt, a, b => decide (b < a)
  | .le, a, b => decide (a ≤ b)
  | .ge, a, b => decide (b ≤ a)
  | _, _, _ => false

mutual
/-- `a == b`, `a < b`, `a > b`, `a <= b`, `a >= b`.  Two arrays compare if they have the same length and all
their elements compare. -/
def cmp (I : Interp F) (o : OpK) : Val F → Val F → Bool
  | .arr as, .arr bs => cmpL I o as bs
  | .flt x, .flt y => I.fcmp o x y
  | .bool a, .bool b => icmp o (if a then 1 else 0) (if b then 1 else 0)
  | .int a, .int b => icmp o a b
  | _, _ => false
def cmpL (I : Interp F) (o : OpK) : List (Val F) → List (Val F) → Bool
  | [], [] => true
  | a :: as, b :: bs => cmp I o a b && cmpL I o as bs
  | _, _ => false
end

/-- The value of a non-temporal operator other than `prev`.  `a != b` is the negation of `a == b`. -/
def evalOp (I : Interp F) (o : OpK) (vs : List (Val F)) : Val F :=
  match o, vs with
  | .and, vs => .bool (vs.all isTrue)
  | .or, vs => .bool (vs.any isTrue)
  | .neg, [a] => .bool (!a.isTrue)
  | .xor, [a, b] => .bool (a.isTrue != b.isTrue)
  | .imp, [a, b] => .bool (!a.isTrue || b.isTrue)
  | .iff, [a, b] => .bool (a.isTrue == b.isTrue)
  | .ne, [a, b] => .bool (!cmp I .eq a b)
  | .eq, [a, b] => .bool (cmp I .eq a b)
  | .lt, [a, b] => .bool (cmp I .lt a b)
  | .gt, [a, b] => .bool (cmp I .gt a b)
  | .le, [a, b] => .bool (cmp I .le a b)
  | .ge, [a, b] => .bool (cmp I .ge a b)
  | .add, vs => if vs.any isFlt then I.arith .add vs else .int (vs.map toInt).sum
  | o, vs => I.arith o vs

/-- The value of a temporal operator at time `i`, given when its operands hold. -/
def evalTmp (o : TmpK) (lb ub : Nat) (i : Nat) (ps : List (Nat → Bool)) : Bool :=
  let ahead := List.range' (i + lb) (ub + 1 - lb)                            -- i+lb .. i+ub
  let back := (List.range (i + 1)).filter fun j => i ≤ j + ub && j + lb ≤ i   -- the part of i-ub .. i-lb that exists
  match o, ps with
  | .F, [p] => ahead.any p
  | .G, [p] => ahead.all p
  | .U, [l, r] => ahead.any fun j => r j && ahead.all fun k => decide (k < j) → l k
  | .R, [l, r] => ahead.all fun j => r j || ahead.any fun k => decide (k < j) && l k
  | .O, [p] => back.any p
  | .H, [p] => back.all p
  | .S, [l, r] => back.any fun j => r j && (List.range (i + 1 - lb)).all fun k => decide (j < k) → l k
  | .T, [l, r] => back.all fun j => r j || (List.range (i + 1 - lb)).any fun k => decide (j < k) && l k
  | _, _ => false

end Val

/-- The value of an expression, as a function of the environment and the time. -/
abbrev Den (F : Type) := Env F → Nat → Val F

namespace Src
variable {F : Type}

/-- The enumeration member a name stands for. -/
def enumVal (E : Enums) (ty : Typ) (s : String) : Option Int :=
  match ty with
  | .enum n => (E.lookup n).bind fun ms => ms.lookup s
  | _ => none

/-- An aggregation `k(v : set, num)(body)` at time `i`: in how many of the members of the set, and of how
many, the body holds, where `v` stands for the member. -/
def evalAgg (k : AggK) (v : String) (set : Den F) (num : Option (Den F)) (body : Den F) : Den F := fun ρ i =>
  let size := (set ρ i).items.length
  let holds (n : Nat) : Bool := (body (ρ.bind v fun j => (set ρ j).nth n) i).isTrue
  let count : Int := ((List.range size).filter holds).length
  match k, num with
  | .each, _ => .bool (decide (∀ n < size, holds n = true))
  | .some, _ => .bool (decide (∃ n < size, holds n = true))
  | .exactly, some m => .bool ((m ρ i).isInt fun n => decide (count = n))
  | .atLeast, some m => .bool ((m ρ i).isInt fun n => decide (count ≥ n))
  | .atMost, some m => .bool ((m ρ i).isInt fun n => decide (count ≤ n))
  | _, none => .err

/-- The value of a node, given the meanings of its children. -/
def evalK (I : Interp F) (k : SK) (ty : Typ) (ds : List (Den F)) : Den F := fun ρ i =>
  match k, ds with
  | .lit (.bool b), _ => .bool b
  | .lit (.int n), _ => .int n
  | .lit (.float s), _ => .flt (I.ofText s)
  | .tau, _ => .int i
  | .sig s, _ => ρ.sig s i
  | .var s, _ => match enumVal I.enums ty s with | some v => .int v | none => ρ.var s i
  | .array, ds => .arr (ds.map (· ρ i))
  | .index n, [a] => if 0 ≤ n then (a ρ i).nth n.toNat else .err
  | .slice m n, [a] => .arr ((List.range (n + 1 - m).toNat).map fun (k : Nat) =>
      if 0 ≤ m then (a ρ i).nth (m.toNat + k) else .err)
  | .struct _ ms, ds => .struct (ms.zip (ds.map (· ρ i)))
  | .call f, ds => match I.structs.lookup f with
      | some ms => .struct ((ms.map (·.1)).zip (ds.map (· ρ i)))
      | none => .err
  | .access m, [s] => (s ρ i).member m
  | .agg k v, [set, body] => evalAgg k v set none body ρ i
  | .agg k v, [set, num, body] => evalAgg k v set (some num) body ρ i
  | .op .prev, [c, d] => match i with | 0 => c ρ 0 | j + 1 => d ρ j
  | .op o, ds => Val.evalOp I o (ds.map (· ρ i))
  | .tmp o lb ub, ds => .bool (Val.evalTmp o lb ub i (ds.map fun d => fun j => (d ρ j).isTrue))
  | _, _ => .err

mutual
/-- The value of an expression. -/
def sem (I : Interp F) : Src → Den F
  | .node k ty cs => evalK I k ty (semL I cs)
def semL (I : Interp F) : List Src → List (Den F)
  | [] => []
  | c :: cs => sem I c :: semL I cs
end

end Src

/-- The sorts of expressions: Booleans, numbers (integers, enumeration members, floats), arrays, structures. -/
inductive Ty where
  | bool | num
  | arr (t : Ty)
  | struct (s : String)
  deriving DecidableEq

/-- The sort of a declared type. -/
def Typ.sort : Typ → Option Ty
  | .bool => some .bool
  | .int | .float | .enum _ => some .num
  | .struct s => some (.struct s)
  | .arr m _ => m.sort.map .arr
  | .none | .contract => Option.none

def Ty.scalar : Ty → Bool
  | .bool | .num => true
  | _ => false

/-- Which operators take what: `some r`, the sort of the result.  `arrays`: may arrays and structures be
compared? -/
def OpK.sort (arrays : Bool) (o : OpK) (ts : List Ty) : Option Ty :=
  match o, ts with
  | .and, ts | .or, ts => if ts.all (· = .bool) then some .bool else none
  | .neg, [.bool] => some .bool
  | .xor, [.bool, .bool] | .imp, [.bool, .bool] | .iff, [.bool, .bool] => some .bool
  | .eq, [a, b] | .ne, [a, b] | .lt, [a, b] | .gt, [a, b] | .le, [a, b] | .ge, [a, b] =>
      if a = b ∧ (a.scalar ∨ arrays) then some .bool else none
  | .add, ts => if ts.all (·.scalar) then some .num else none
  | .prev, [a, b] => if a = b ∧ a.scalar then some a else none
  | .bitAnd, ts | .bitOr, ts | .bitXor, ts | .bitNeg, ts =>
      if ts.all (· = .bool) then some .bool else if ts.all (· = .num) then some .num else none
  | .sub, ts | .mul, ts | .div, ts | .mod, ts | .pow, ts | .sqrt, ts | .abs, ts
  | .min, ts | .max, ts | .count, ts | .shl, ts | .shr, ts => if ts.all (· = .num) then some .num else none
  | _, _ => none

/-- What a program declares: structures, enumerations, and its (scalar) signals; and whether it may compare
arrays. -/
structure Decls where
  structs : Structs
  enums : Enums
  sigs : String → Option Ty
  arrays : Bool := true

/-- No signal is named like an enumeration member. -/
def Decls.Apart (D : Decls) : Prop :=
  ∀ s n ms, D.sigs s ≠ none → (n, ms) ∈ D.enums → ∀ m ∈ ms, m.1 ≠ s

/-- Names in scope with their sorts. -/
abbrev Scope := String → Option Ty

def Scope.bind (Γ : Scope) (v : String) (t : Ty) : Scope := fun s => if s = v then some t else Γ s

def Scope.empty : Scope := fun _ => none

/-- Well-formed source expressions: operands have the sorts their operator takes, names are in scope, members
exist.  Array sizes play no role. -/
inductive HasSort (D : Decls) : Scope → Src → Ty → Prop
  | bool {Γ b ty} : HasSort D Γ (.node (.lit (.bool b)) ty []) .bool
  | int {Γ n ty} : HasSort D Γ (.node (.lit (.int n)) ty []) .num
  | float {Γ s ty} : HasSort D Γ (.node (.lit (.float s)) ty []) .num
  | tau {Γ ty} : HasSort D Γ (.node .tau ty []) .num
  | sig {Γ s ty t} : D.sigs s = some t → t.scalar → HasSort D Γ (.node (.sig s) ty []) t
  | enum {Γ s ty v} : Src.enumVal D.enums ty s = some v → HasSort D Γ (.node (.var s) ty []) .num
  | var {Γ s ty t} : Src.enumVal D.enums ty s = none → Γ s = some t → HasSort D Γ (.node (.var s) ty []) t
  | array {Γ ty cs t} : (∀ c ∈ cs, HasSort D Γ c t) → HasSort D Γ (.node .array ty cs) (.arr t)
  | index {Γ n ty a t} : 0 ≤ n → HasSort D Γ a (.arr t) → HasSort D Γ (.node (.index n) ty [a]) t
  | slice {Γ m n ty a t} : 0 ≤ m → HasSort D Γ a (.arr t) → HasSort D Γ (.node (.slice m n) ty [a]) (.arr t)
  | struct {Γ f ms fs ty cs} {ts : List Ty} : D.structs.lookup f = some fs → ms = fs.map (·.1) → fs.map (·.2.sort) = ts.map some →
      cs.length = ts.length → (∀ (i : Nat) (c : Src) (t : Ty), cs[i]? = some c → ts[i]? = some t → HasSort D Γ c t) →
      HasSort D Γ (.node (.struct f ms) ty cs) (.struct f)
  | call {Γ f fs ty cs} {ts : List Ty} : D.structs.lookup f = some fs → fs.map (·.2.sort) = ts.map some →
      cs.length = ts.length → (∀ (i : Nat) (c : Src) (t : Ty), cs[i]? = some c → ts[i]? = some t → HasSort D Γ c t) →
      HasSort D Γ (.node (.call f) ty cs) (.struct f)
  | access {Γ m ty c f fs mt t} : HasSort D Γ c (.struct f) → D.structs.lookup f = some fs → fs.lookup m = some mt →
      mt.sort = some t → HasSort D Γ (.node (.access m) ty [c]) t
  | agg {Γ k v ty set body t} : HasSort D Γ set (.arr t) → HasSort D (Γ.bind v t) body .bool →
      k = .each ∨ k = .some → HasSort D Γ (.node (.agg k v) ty [set, body]) .bool
  | aggN {Γ k v ty set num body t} : HasSort D Γ set (.arr t) → HasSort D Γ num .num →
      HasSort D (Γ.bind v t) body .bool → k = .exactly ∨ k = .atLeast ∨ k = .atMost →
      HasSort D Γ (.node (.agg k v) ty [set, num, body]) .bool
  | op {Γ o ty cs t} {ts : List Ty} : cs.length = ts.length →
      (∀ (i : Nat) (c : Src) (t : Ty), cs[i]? = some c → ts[i]? = some t → HasSort D Γ c t) →
      o.sort D.arrays ts = some t → HasSort D Γ (.node (.op o) ty cs) t
  | tmp {Γ o lb ub ty cs} : (∀ c ∈ cs, HasSort D Γ c .bool) → HasSort D Γ (.node (.tmp o lb ub) ty cs) .bool

/-- A value is of a sort, or missing. -/
inductive Val.Ok {F : Type} (D : Decls) : Val F → Ty → Prop
  | err {t} : Ok D .err t
  | bool {b} : Ok D (.bool b) .bool
  | int {n} : Ok D (.int n) .num
  | flt {x} : Ok D (.flt x) .num
  | arr {vs t} : (∀ v ∈ vs, Ok D v t) → Ok D (.arr vs) (.arr t)
  | struct {s decl fs} : D.structs.lookup s = some decl →
      (∀ (m : String) (v : Val F) (mt : Typ) (t : Ty), fs.lookup m = some v → decl.lookup m = some mt → mt.sort = some t → Ok D v t) →
      Ok D (.struct fs) (.struct s)

/-- The interpretation goes with the declarations, and its operators keep to the sorts. -/
structure Interp.Fits {F : Type} (I : Interp F) (D : Decls) : Prop where
  structs : I.structs = D.structs
  enums : I.enums = D.enums
  arith : ∀ (o : OpK) (vs : List (Val F)) (ts : List Ty) (t : Ty), o.sort D.arrays ts = some t →
    List.Forall₂ (Val.Ok D) vs ts → Val.Ok D (I.arith o vs) t

/-- The environment gives signals and names in scope values of their sorts. -/
structure Env.Fits {F : Type} (ρ : Env F) (D : Decls) (Γ : Scope) : Prop where
  sig : ∀ s t i, D.sigs s = some t → Val.Ok D (ρ.sig s i) t
  var : ∀ s t i, Γ s = some t → Val.Ok D (ρ.var s i) t

namespace Src

mutual
/-- A property holds of every node of an expression. -/
def Every (p : Src → Prop) : Src → Prop
  | .node k ty cs => p (.node k ty cs) ∧ EveryL p cs
def EveryL (p : Src → Prop) : List Src → Prop
  | [] => True
  | c :: cs => Every p c ∧ EveryL p cs
end

mutual
/-- The names the aggregations in an expression bind. -/
def bound : Src → List String
  | .node k _ cs => (match k with | .agg _ v => [v] | _ => []) ++ boundL cs
def boundL : List Src → List String
  | [] => []
  | c :: cs => bound c ++ boundL cs
end

/-- No set of an aggregation contains an aggregation, and no aggregation is below one that binds the same
name. -/
def Scoped : Src → Prop := Every fun e => match e.kind, e.kids with
  | .agg _ v, set :: rest => bound set = [] ∧ v ∉ boundL rest
  | _, _ => True

/-- No array accesses, calls and enumeration members are left. -/
def Resolved (E : Enums) : Src → Prop := Every fun e => match e.kind with
  | .index _ | .slice .. | .call _ => False
  | .var s => enumVal E e.ty s = none
  | _ => True

/-- Data given by literals and member accesses: no names (other than enumeration members), no array accesses.
What is below operators and aggregations does not matter. -/
inductive Literal (E : Enums) : Src → Prop
  | lit {v ty cs} : Literal E (.node (.lit v) ty cs)
  | tau {ty cs} : Literal E (.node .tau ty cs)
  | sig {s ty cs} : Literal E (.node (.sig s) ty cs)
  | enum {s ty cs v} : enumVal E ty s = some v → Literal E (.node (.var s) ty cs)
  | agg {k v ty cs} : Literal E (.node (.agg k v) ty cs)
  | op {o ty cs} : Literal E (.node (.op o) ty cs)
  | tmp {o lb ub ty cs} : Literal E (.node (.tmp o lb ub) ty cs)
  | array {ty cs} : (∀ c ∈ cs, Literal E c) → Literal E (.node .array ty cs)
  | struct {s ms ty cs} : (∀ c ∈ cs, Literal E c) → Literal E (.node (.struct s ms) ty cs)
  | call {f ty cs} : (∀ c ∈ cs, Literal E c) → Literal E (.node (.call f) ty cs)
  | access {m ty cs} : (∀ c ∈ cs, Literal E c) → Literal E (.node (.access m) ty cs)

/-- Arrays whose elements can be picked: literals, arrays of such, and elements and slices of such. -/
inductive Pickable (E : Enums) : Src → Prop
  | literal {e} : Literal E e → Pickable E e
  | array {ty cs} : (∀ c ∈ cs, Pickable E c) → Pickable E (.node .array ty cs)
  | index {i ty cs} : (∀ c ∈ cs, Pickable E c) → Pickable E (.node (.index i) ty cs)
  | slice {a b ty cs} : (∀ c ∈ cs, Pickable E c) → Pickable E (.node (.slice a b) ty cs)

/-- Elements are picked from pickable arrays only. -/
def PicksLiterals (E : Enums) : Src → Prop := Every fun e => match e.kind with
  | .index _ | .slice .. => ∀ c ∈ e.kids, Pickable E c
  | _ => True

/-- Two arrays of the same shape: as long as each other, and so for their elements if those are arrays. -/
inductive Alike : Src → Src → Prop
  | arrays {ty ty' cs ds} : cs.length = ds.length →
      (∀ (i : Nat) (c d : Src), cs[i]? = some c → ds[i]? = some d → Alike c d) →
      Alike (.node .array ty cs) (.node .array ty' ds)
  | other {a b} : a.kind ≠ .array ∨ b.kind ≠ .array → Alike a b

/-- Only arrays of the same shape are compared, and not with `!=`. -/
def ComparesAlike : Src → Prop := Every fun e => ∀ (o : OpK) (a b : Src), e.kind = .op o → e.kids = [a, b] → o.isRel →
  Alike a b ∧ (o = .ne → a.kind ≠ .array ∨ b.kind ≠ .array)

/-- Only literals, inputs, operators and temporal operators. -/
def Plain : Src → Prop := Every fun e => match e.kind with
  | .lit _ | .tau | .sig _ | .op _ | .tmp .. => True
  | _ => False

end Src

/-- The verdict streams a specification asks for, by formula number: a formula gives its own, a contract of an
assumption and a guarantee gives whether it is active, valid, and verified. -/
def Spec.verdicts {F : Type} (I : Interp F) (ρ : Env F) : Spec → List (Nat × (Nat → Bool))
  | .formula _ n e => [(n, fun i => (e.sem I ρ i).isTrue)]
  | .contract _ n1 n2 n3 a g =>
      let A i := (a.sem I ρ i).isTrue
      let G i := (g.sem I ρ i).isTrue
      [(n1, A), (n2, fun i => !A i || G i), (n3, fun i => A i && G i)]

/-- The assumptions and guarantees are Boolean. -/
def Spec.Boolean (D : Decls) : Spec → Prop
  | .formula .. => True
  | .contract _ _ _ _ a g => HasSort D Scope.empty a .bool ∧ HasSort D Scope.empty g .bool

end R2U2
