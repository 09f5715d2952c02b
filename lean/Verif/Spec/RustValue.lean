import Verif.Spec.RustBz
/-
The values of numeric expressions as the Rust monitor computes them.
-/
namespace R2U2
variable {F : Type}

/-- The Rust monitor on one integer: as in C, but the square root is rounded down, and that of a negative number is 0. -/
def OpK.rsInt1 (ops : Rs.Ops F) : OpK → Int → Option Int
  | .sqrt, a => some (Nat.sqrt a.toNat)
  | o, a => o.int1 ops.toFloatOps a

/-- On two integers: as in C, but powers are exact. -/
def OpK.rsInt2 (ops : Rs.Ops F) : OpK → Int → Int → Option Int
  | .pow, a, b => if 0 ≤ b ∧ b < 2 ^ 31 then int32 (a ^ b.toNat) else none
  | o, a, b => o.int2 ops.toFloatOps a b

/-- On two floats: as in C, but the comparisons are those of the numbers up to the tolerance. -/
noncomputable def OpK.rsFlt2 (ops : Rs.Ops F) : OpK → F → F → Option (Cell F)
  | .eq, a, b => some (.int (if ops.le (Rs.distance ops a b) ops.eps = true then 1 else 0))
  | .ne, a, b => some (.int (if ops.lt ops.eps (Rs.distance ops a b) = true then 1 else 0))
  | .gt, a, b => some (.int (if ops.lt b a = true ∧ ops.lt ops.eps (Rs.distance ops a b) = true then 1 else 0))
  | .ge, a, b => some (.int (if ops.lt b a = true ∨ ops.le (Rs.distance ops a b) ops.eps = true then 1 else 0))
  | .lt, a, b => some (.int (if ops.lt a b = true ∧ ops.lt ops.eps (Rs.distance ops a b) = true then 1 else 0))
  | .le, a, b => some (.int (if ops.lt a b = true ∨ ops.le (Rs.distance ops a b) ops.eps = true then 1 else 0))
  | o, a, b => o.flt2 ops.toFloatOps a b

/-- `Ast.Value` for the Rust monitor: the value of an expression at time `t`, on the input history `σ` by signal names. -/
inductive Ast.RsValue (ops : Rs.Ops F) (ty : Ast → Bool) (bits : String → Nat) (σ : Nat → String → Cell F) : Nat → Ast → Cell F → Prop
  | sigI {t s v} : ty (.node (.name s) []) = true → σ t s = .int v → RsValue ops ty bits σ t (.node (.name s) []) (.int v)
  | sigF {t s v} : ty (.node (.name s) []) = false → σ t s = .flt v → RsValue ops ty bits σ t (.node (.name s) []) (.flt v)
  | int {t v} : RsValue ops ty bits σ t (.node (.lit (.int v)) []) (.int v)
  | float {t s} : RsValue ops ty bits σ t (.node (.lit (.float s)) []) (.flt (ops.ofBits (bits s)))
  | int1 {t o c a v} : ty (.node (.op o) [c]) = true → RsValue ops ty bits σ t c (.int a) → o.rsInt1 ops a = some v →
      RsValue ops ty bits σ t (.node (.op o) [c]) (.int v)
  | int2 {t o c d a b v} : ty (.node (.op o) [c, d]) = true → RsValue ops ty bits σ t c (.int a) → RsValue ops ty bits σ t d (.int b) →
      o.rsInt2 ops a b = some v → RsValue ops ty bits σ t (.node (.op o) [c, d]) (.int v)
  | flt1 {t o c a v} : ty (.node (.op o) [c]) = false → RsValue ops ty bits σ t c (.flt a) → o.flt1 ops.toFloatOps a = some v →
      RsValue ops ty bits σ t (.node (.op o) [c]) v
  | flt2 {t o c d a b v} : ty (.node (.op o) [c, d]) = false → RsValue ops ty bits σ t c (.flt a) → RsValue ops ty bits σ t d (.flt b) →
      o.rsFlt2 ops a b = some v → RsValue ops ty bits σ t (.node (.op o) [c, d]) v
  /-- `prev(c, d)` is `c` at first, then the value of `d` one step ago -/
  | first {c d v} : RsValue ops ty bits σ 0 c v → RsValue ops ty bits σ 0 (.node (.op .prev) [c, d]) v
  | next {t c d v} : RsValue ops ty bits σ t d v → RsValue ops ty bits σ (t + 1) (.node (.op .prev) [c, d]) v

/-- `b` is as far from `a` as `a` from `b`.  This holds of the machine's numbers, also of those that are not numbers. -/
def Rs.Symmetric (ops : Rs.Ops F) : Prop :=
  ∀ a b, ops.le (Rs.distance ops a b) ops.eps = ops.le (Rs.distance ops b a) ops.eps ∧
    ops.lt ops.eps (Rs.distance ops a b) = ops.lt ops.eps (Rs.distance ops b a)

/-- Atoms without `!=` between floats. -/
def Rs.NoFloatNe {α : Type} (f : α → Ast) (ty : Ast → Bool) : Prop :=
  ∀ a ts, Tree.Within (.node (.op .ne) ts) (f a) → ty (.node (.op .ne) ts) = true

end R2U2
