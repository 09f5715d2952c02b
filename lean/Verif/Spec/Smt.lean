import Verif.Model.Smt
import Verif.Spec.Semantics
import Verif.Spec.Shapes
/-
Specification for the SMT encodings (C38-C40, C43): what the terms mean in SMT-LIB, when a
script is satisfiable, and what it means for a formula to be satisfiable.
-/
namespace R2U2
variable {α : Type}

/-- Some trace satisfies the formula at the first time step. -/
def Satisfiable (e : Expr α) : Prop := ∃ π : Trace α, sat π e 0

/-! ### SMT-LIB semantics -/

/-- Bit vectors (SMT-LIB theory FixedSizeBitVectors). -/
def BvTerm.eval (w : Nat) (env : α → BitVec w) : BvTerm α → BitVec w
  | .lit n => BitVec.ofNat w n
  | .var a => env a
  | .bvnot t => ~~~ (t.eval w env)
  | .bvand t u => t.eval w env &&& u.eval w env
  | .bvor t u => t.eval w env ||| u.eval w env
  | .bvxnor t u => ~~~ (t.eval w env ^^^ u.eval w env)
  | .bvshl t u => t.eval w env <<< (u.eval w env).toNat

def BvAssert.holds (w : Nat) (env : α → BitVec w) : BvAssert α → Prop
  | .bit t p => (t.eval w env).extractLsb' p 1 = 1#1
  | .nonzero t => 0 < (t.eval w env).toNat

/-- `(check-sat)` should answer `sat`: some value of the declared constants makes the
assertion true. -/
def BvScript.satisfiable (s : BvScript α) : Prop :=
  ∃ env : α → BitVec s.width, s.assertion.holds s.width env

/-- Values of the integer variables in scope. -/
structure IntEnv where
  k : Int
  len : Int
  i : Int
  j : Int

def IntTerm.eval (ρ : IntEnv) : IntTerm → Int
  | .k => ρ.k
  | .len => ρ.len
  | .i => ρ.i
  | .j => ρ.j
  | .num n => n
  | .add s t => s.eval ρ + t.eval ρ

/-- Binding a quantified variable. -/
def IntEnv.bind (ρ : IntEnv) (x : QVar) (v : Int) : IntEnv :=
  match x with
  | .i => { ρ with i := v }
  | .j => { ρ with j := v }

mutual
/-- Truth of a term under an interpretation `F` of the declared functions. -/
def LiaTerm.holds (F : α → Int → Prop) : LiaTerm α → IntEnv → Prop
  | .bool b, _ => b = true
  | .sig a t, ρ => F a (t.eval ρ)
  | .gt s t, ρ => s.eval ρ > t.eval ρ
  | .le s t, ρ => s.eval ρ ≤ t.eval ρ
  | .lt s t, ρ => s.eval ρ < t.eval ρ
  | .not t, ρ => ¬ t.holds F ρ
  | .and ts, ρ => LiaTerm.holdsAll F ts ρ
  | .or ts, ρ => LiaTerm.holdsAny F ts ρ
  | .imp s t, ρ => s.holds F ρ → t.holds F ρ
  | .eq s t, ρ => (s.holds F ρ ↔ t.holds F ρ)
  | .all x t, ρ => ∀ v : Int, t.holds F (ρ.bind x v)
  | .ex x t, ρ => ∃ v : Int, t.holds F (ρ.bind x v)
  | .call f t, ρ => f.holds F { k := t.eval ρ, len := ρ.len, i := 0, j := 0 }
def LiaTerm.holdsAll (F : α → Int → Prop) : List (LiaTerm α) → IntEnv → Prop
  | [], _ => True
  | t :: ts, ρ => t.holds F ρ ∧ LiaTerm.holdsAll F ts ρ
def LiaTerm.holdsAny (F : α → Int → Prop) : List (LiaTerm α) → IntEnv → Prop
  | [], _ => False
  | t :: ts, ρ => t.holds F ρ ∨ LiaTerm.holdsAny F ts ρ
end

/-- `(check-sat)` should answer `sat`: some interpretation of the declared functions, and of
`len` when it is declared, makes `(f 0 len)` true. -/
def LiaScript.satisfiable (s : LiaScript α) : Prop :=
  ∃ (F : α → Int → Prop) (len : Int), (∀ l, s.len = some l → len = l) ∧
    s.body.holds F { k := 0, len := len, i := 0, j := 0 }

/-! ### Traces that end -/

mutual
/-- `e` at time `i` of a trace with the times `0, …, n-1` only: F and U need a time that
exists, G and R only constrain times that exist. -/
def satCut (n : Nat) (π : Trace α) : Expr α → Nat → Prop
  | .const b, _ => b = true
  | .atom a, i => π i a
  | .neg e, i => ¬ satCut n π e i
  | .and cs, i => satCutAll n π cs i
  | .or cs, i => satCutAny n π cs i
  | .xor l r, i => ¬ (satCut n π l i ↔ satCut n π r i)
  | .imp l r, i => satCut n π l i → satCut n π r i
  | .iff l r, i => (satCut n π l i ↔ satCut n π r i)
  | .equal l r, i => (satCut n π l i ↔ satCut n π r i)
  | .fut lb ub e, i => ∃ j, i + lb ≤ j ∧ j ≤ i + ub ∧ j < n ∧ satCut n π e j
  | .glob lb ub e, i => ∀ j, i + lb ≤ j → j ≤ i + ub → j < n → satCut n π e j
  | .untl lb ub l r, i =>
      ∃ j, i + lb ≤ j ∧ j ≤ i + ub ∧ j < n ∧ satCut n π r j ∧
        ∀ k, i + lb ≤ k → k < j → satCut n π l k
  | .rel lb ub l r, i =>
      ∀ j, i + lb ≤ j → j ≤ i + ub → j < n → ¬ satCut n π r j →
        ∃ k, i + lb ≤ k ∧ k < j ∧ satCut n π l k
  | .once lb ub e, i => ∃ j, i ≤ j + ub ∧ j + lb ≤ i ∧ satCut n π e j
  | .hist lb ub e, i => ∀ j, i ≤ j + ub → j + lb ≤ i → satCut n π e j
  | .since lb ub l r, i =>
      ∃ j, i ≤ j + ub ∧ j + lb ≤ i ∧ satCut n π r j ∧ ∀ k, j < k → k + lb ≤ i → satCut n π l k
  | .trig lb ub l r, i =>
      ∀ j, i ≤ j + ub → j + lb ≤ i → ¬ satCut n π r j → ∃ k, j < k ∧ k + lb ≤ i ∧ satCut n π l k
def satCutAll (n : Nat) (π : Trace α) : List (Expr α) → Nat → Prop
  | [], _ => True
  | c :: cs, i => satCut n π c i ∧ satCutAll n π cs i
def satCutAny (n : Nat) (π : Trace α) : List (Expr α) → Nat → Prop
  | [], _ => False
  | c :: cs, i => satCut n π c i ∨ satCutAny n π cs i
end

/-- Some non-empty trace that may end satisfies the formula at its first time step. -/
def CutSatisfiable (e : Expr α) : Prop := ∃ (n : Nat) (π : Trace α), 0 < n ∧ satCut n π e 0

/-- Some finite trace satisfies the formula in the documented semantics (`satFin`). -/
def FinSatisfiable (e : Expr α) : Prop := ∃ π : FinTrace α, satFin π e 0

/-! ### Fragments -/

/-- The formulas the bit-vector encoding supports: constants, signals, `!`, `&&` and `||` with
at least two operands, `<->`, F, G and U. -/
inductive BvFormula : Expr α → Prop
  | const (b) : BvFormula (.const b)
  | atom (a) : BvFormula (.atom a)
  | neg {e} : BvFormula e → BvFormula (.neg e)
  | and {cs} : 2 ≤ cs.length → (∀ c ∈ cs, BvFormula c) → BvFormula (.and cs)
  | or {cs} : 2 ≤ cs.length → (∀ c ∈ cs, BvFormula c) → BvFormula (.or cs)
  | iff {l r} : BvFormula l → BvFormula r → BvFormula (.iff l r)
  | fut {lb ub e} : BvFormula e → BvFormula (.fut lb ub e)
  | glob {lb ub e} : BvFormula e → BvFormula (.glob lb ub e)
  | untl {lb ub l r} : BvFormula l → BvFormula r → BvFormula (.untl lb ub l r)

/-- The formulas the QF_UFLIA encoding supports: no xor, R or past-time operators. -/
def isNotQf : Expr α → Prop
  | .xor _ _ | .rel _ _ _ _ | .once _ _ _ | .hist _ _ _ | .since _ _ _ _ | .trig _ _ _ _ => True
  | _ => False

/-- The formulas the UFLIA encoding supports: no xor or past-time operators. -/
def isNotLia : Expr α → Prop
  | .xor _ _ | .once _ _ _ | .hist _ _ _ | .since _ _ _ _ | .trig _ _ _ _ => True
  | _ => False

/-- `&&` or `||` with other than two operands, or a Boolean `==`. -/
def isOddLength : Expr α → Prop
  | .and cs | .or cs => cs.length ≠ 2
  | .equal _ _ => True
  | _ => False

/-- F over the interval `[0,0]` or `[1,1]`. -/
def isShortFut : Expr α → Prop
  | .fut lb ub _ => lb = ub ∧ ub ≤ 1
  | _ => False

end R2U2
