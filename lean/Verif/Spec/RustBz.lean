import Verif.Model.RustBz
import Verif.Model.Engine
import Verif.Spec.Rust
import Verif.Spec.CompileBz
import Mathlib.Algebra.Order.Group.Unbundled.Abs
/-
Vocabulary for the statements about the booleanizer of the Rust monitor.
-/
namespace R2U2
namespace Rs
variable {F : Type}

/-- The operations the two monitors compute in the same way: all but the comparisons of floats, where the tolerance is applied
differently, integer powers and integer square roots, for which C goes through floating point. -/
def sameInBoth : BzOp → Bool
  | .feq | .fneq | .fgt | .fgte | .flt | .flte | .ipow | .isqrt => false
  | _ => true

/-- The Rust state `s` holds the values of the C state `m`, floats being written in C as `ι` says, and no overflow is flagged. -/
structure Agrees {G : Type} (ι : F → G) (m : R2U2.BzMon G) (s : BzMon F) : Prop where
  int : ∀ a v, m.vals a = .int v → s.i a = v
  flt : ∀ a v, m.vals a = .flt v → v = ι (s.f a)
  atoms : s.atoms = m.atoms
  time : s.time = m.time
  calm : s.overflow = false

/-- The same inputs, for C and for Rust. -/
def SameSignals (sig : Nat → Cell F) (sig' : Signals F) : Prop :=
  ∀ k, (∀ v, sig k = .int v → (sig' k).1 = v) ∧ ∀ v, sig k = .flt v → (sig' k).2 = v

/-- The same, with floats written in C as `ι` says. -/
def SameVia {G : Type} (ι : F → G) (sig : Nat → Cell G) (sig' : Signals F) : Prop :=
  ∀ k, (∀ v, sig k = .int v → (sig' k).1 = v) ∧ ∀ v, sig k = .flt v → v = ι (sig' k).2

/-- On the operations `ok`, and on numbers written as `ι` says, C with `c` computes what Rust does with `ops`. -/
structure LikeC {G : Type} (ι : F → G) (c : FloatOps G) (ops : Ops F) (ok : BzOp → Bool) : Prop where
  ofBits : ∀ n, c.ofBits n = ι (ops.ofBits n)
  neg : ∀ a, c.neg (ι a) = ι (ops.neg a)
  sqrt : ∀ a, c.sqrt (ι a) = ι (ops.sqrt a)
  abs : ∀ a, (if c.lt (ι a) c.zero then c.mul c.minusOne (ι a) else ι a) = ι (fabs ops a)
  add : ∀ a b, c.add (ι a) (ι b) = ι (ops.add a b)
  sub : ∀ a b, c.sub (ι a) (ι b) = ι (ops.sub a b)
  mul : ∀ a b, c.mul (ι a) (ι b) = ι (ops.mul a b)
  div : ∀ a b, c.div (ι a) (ι b) = ι (ops.div a b)
  pow : ∀ a b, c.pow (ι a) (ι b) = ι (ops.pow a b)
  eq : ok .feq = true → ∀ a b, R2U2.BzMon.feq c (ι a) (ι b) = Rs.feq ops a b
  ne : ok .fneq = true → ∀ a b, (!R2U2.BzMon.feq c (ι a) (ι b)) = Rs.fneq ops a b
  gt : ok .fgt = true → ∀ a b, c.lt (ι b) (ι a) = Rs.fgt ops a b
  ge : ok .fgte = true → ∀ a b, c.lt (c.sub (ι b) c.eps) (ι a) = Rs.fgte ops a b
  lt : ok .flt = true → ∀ a b, c.lt (ι a) (ι b) = Rs.flt ops a b
  le : ok .flte = true → ∀ a b, c.lt (ι a) (c.add (ι b) c.eps) = Rs.flte ops a b
  ipow : ok .ipow = true → ∀ a b v, c.ipow a b = some v → intPow a b = (v, false)
  isqrt : ok .isqrt = true → ∀ a v, c.isqrt a = some v → intSqrt a = v

/-- The nearest 32-bit integer. -/
def clamp (v : Int) : Int := max imin (min v imax)

/-- What the operation is in the integers; nothing where it has no value, and nothing for a negative base or exponent of a power and for
`-2³¹ mod -1` (see C77). -/
def exact : BzOp → Int → Int → Option Int
  | .iadd, a, b => some (a + b)
  | .isub, a, b => some (a - b)
  | .imul, a, b => some (a * b)
  | .idiv, a, b => if b = 0 then none else some (a.tdiv b)
  | .mod, a, b => if b = 0 ∨ (a = imin ∧ b = -1) then none else some (a.tmod b)
  | .ipow, a, b => if 0 ≤ a ∧ 0 ≤ b then some (a ^ b.toNat) else none
  | .ineg, a, _ => some (-a)
  | .iabs, a, _ => some |a|
  | _, _, _ => none

/-- A 32-bit integer. -/
def Word (v : Int) : Prop := imin ≤ v ∧ v ≤ imax

/-- How far two numbers are apart. -/
def distance (ops : Ops F) (a b : F) : F :=
  if ops.lt (ops.sub a b) ops.zero then ops.mul ops.minusOne (ops.sub a b) else ops.sub a b

/-- Floats without not-a-number values: a linear order. -/
structure Ordered (ops : Ops F) : Prop where
  le : ∀ a b, ops.le a b = !ops.lt b a
  irrefl : ∀ a, ops.lt a a = false
  asymm : ∀ a b, ops.lt a b = true → ops.lt b a = false
  total : ∀ a b, ops.lt a b = false → ops.lt b a = false → a = b
  /-- a number differs from itself by no more than the tolerance -/
  zero : ∀ a, ops.lt ops.eps (distance ops a a) = false

/-- Atoms in which comparisons are of integers, and powers and roots are of floats. -/
def CommonAtoms {α : Type} (f : α → Ast) (ty : Ast → Bool) : Prop :=
  ∀ a o ts, Tree.Within (.node (.op o) ts) (f a) →
    (o ∈ [OpK.eq, .ne, .gt, .ge, .lt, .le] → ty (.node (.op o) ts) = true) ∧ (o ∈ [OpK.pow, .sqrt] → ty (.node (.op o) ts) = false)

end Rs
end R2U2
