import Verif.Model.TypeCheck
import Verif.Spec.Source
/-
What type checking is to establish.
-/
namespace R2U2

/-- What the configuration allows.  Integer constants are representable in the configured width, signed or not; without the
booleanizer there is no arithmetic, no bitwise operator, no order comparison and no counting aggregation. -/
def SK.Allowed (bz : Bool) (width : Nat) (signed : Bool) : SK → Prop
  | .lit (.int n) => if signed then -2 ^ (width - 1) ≤ n ∧ n < 2 ^ (width - 1) else n < 2 ^ width
  | .op o => o ∈ [.add, .sub, .mul, .div, .mod, .pow, .sqrt, .abs, .bitAnd, .bitOr, .bitXor, .bitNeg, .lt, .le, .gt, .ge] → bz = true
  | .agg k _ => k ∉ [.each, .some] → bz = true
  | _ => True

namespace Src

/-- Every interval is in order. -/
def Ordered : Src → Prop := Every fun e => match e.kind with
  | .tmp _ lb ub => lb ≤ ub
  | _ => True

/-- Only future-time operators, or only past-time operators. -/
def Tense (ft : Bool) : Src → Prop := Every fun e => match e.kind with
  | .tmp o _ _ => (o = .G ∨ o = .F ∨ o = .U ∨ o = .R) ↔ ft = true
  | _ => True

/-- Operands of logical and temporal operators are typed as Booleans. -/
def BooleanOperands : Src → Prop := Every fun e => match e.kind with
  | .tmp .. => ∀ c ∈ e.kids, c.ty = .bool
  | .op o => (o = .and ∨ o = .or ∨ o = .xor ∨ o = .imp ∨ o = .iff ∨ o = .neg) → ∀ c ∈ e.kids, c.ty = .bool
  | _ => True

/-- Everywhere in the expression is what the configuration allows. -/
def Configured (bz : Bool) (width : Nat) (signed : Bool) : Src → Prop := Every fun e => e.kind.Allowed bz width signed

mutual
/-- The names an expression uses that no aggregation around them binds. -/
def free : Src → List String
  | .node (.var s) _ cs => s :: freeL cs
  | .node (.agg _ v) _ [set, body] => free set ++ (free body).filter (· ≠ v)
  | .node (.agg _ v) _ [set, num, body] => free set ++ (free num ++ (free body).filter (· ≠ v))
  | .node _ _ cs => freeL cs
def freeL : List Src → List String
  | [] => []
  | c :: cs => free c ++ freeL cs
end

/-- What type checking does not look at.  The expression is one the parser can make: leaves have no operands,
operators the right number.  Types are names of enumerations exactly if they are enumeration types, so that bare
members have got their enumeration.  Structures are made of as many values as they have members, arithmetic is
done on numbers, `prev` on scalars, aggregations count to a number, members are taken of structures, signals are
scalars. -/
def Sensible (T : Structs) (E : Enums) : Src → Prop := Every fun e =>
  e.ty.sort ≠ none ∧ (E.lookup e.ty.symbol ≠ none ↔ e.ty.isEnum = true) ∧
  match e.kind with
  | .lit _ | .tau | .var _ => e.kids = []
  | .sig _ => e.kids = [] ∧ ∀ t, e.ty.sort = some t → t.scalar = true
  | .access _ => ∀ c ∈ e.kids, ∃ f, c.ty = .struct f
  | .struct f ms => ∀ fs, T.lookup f = some fs → e.kids.length = fs.length ∧ ms = fs.map (·.1) ∧ ∀ m ∈ fs, m.2.sort ≠ none
  | .call f => ∀ fs, T.lookup f = some fs → e.kids.length = fs.length ∧ ∀ m ∈ fs, m.2.sort ≠ none
  | .agg k _ => (k = .each ∨ k = .some → e.kids.length = 2) ∧ ∀ a n b, e.kids = [a, n, b] → n.ty ≠ .bool
  | .op o => (o = .xor ∨ o = .imp ∨ o = .iff → e.kids.length = 2) ∧ (o = .neg → e.kids.length = 1) ∧
      (o ∈ [.add, .sub, .mul, .div, .mod, .pow, .sqrt, .abs] → ∀ c ∈ e.kids, c.ty.sort = some .num) ∧
      (o = .prev → ∀ c ∈ e.kids, c.ty.sort = e.ty.sort ∧ ∀ t, c.ty.sort = some t → t.scalar = true)
  | _ => True

end Src

/-- The sorts of what is declared. -/
def TcCtx.decls (Γ : TcCtx) : Decls where
  structs := Γ.structs
  enums := Γ.enums
  sigs := fun s => (Γ.signals.lookup s).bind Typ.sort

/-- The sorts of the names a program has given: variables, definitions, specifications. -/
def TcCtx.names (Γ : TcCtx) : Scope := fun s =>
  match Γ.vars.lookup s with
  | some t => t.sort
  | none =>
    match Γ.definitions.lookup s with
    | some d => d.ty.sort
    | none => if s ∈ Γ.specs then some .bool else none

/-- The expressions of a specification. -/
def Spec.exprs : Spec → List Src
  | .formula _ _ e => [e]
  | .contract _ _ _ _ a g => [a, g]

/-- The expressions of a section. -/
def Sec.exprs : Sec → List Src
  | .define ds => ds.map (·.2)
  | .spec _ ss => ss.flatMap Spec.exprs
  | _ => []

/-- The names a section declares: signals, definitions, structures, enumerations, specifications (if they have a
label); enumeration members apart. -/
def Sec.declared : Sec → List String
  | .input ds => ds.flatMap (·.1)
  | .define ds => ds.map (·.1)
  | .struct ds => ds.map (·.1)
  | .enum ds => ds.map (·.1)
  | .spec _ ss => (ss.map (·.label)).filter (· ≠ "")

/-- The enumeration members a section declares. -/
def Sec.members : Sec → List String
  | .enum ds => ds.flatMap fun d => d.2.map (·.1)
  | _ => []

end R2U2
