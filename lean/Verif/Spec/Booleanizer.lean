import Verif.Model.Booleanizer
import Verif.Spec.Assembly
/-
The values of the non-temporal part of a specification, independent of cells and instruction order.
-/
namespace R2U2

/-- Values are integers (also booleans, as 0 and 1) and floats.  The meaning of an operator on integers;
`none` where C leaves the result undefined (division by zero, results that do not fit 32 bits). -/
def OpK.int1 {F : Type} (ops : FloatOps F) : OpK → Int → Option Int
  | .bitNeg, a => some (~~~ BitVec.ofInt 32 a).toInt
  | .sub, a => int32 (-a)
  | .sqrt, a => ops.isqrt a
  | .abs, a => if 0 ≤ a then some a else int32 (-a)
  | _, _ => none

def OpK.int2 {F : Type} (ops : FloatOps F) : OpK → Int → Int → Option Int
  | .bitAnd, a, b => some (BitVec.ofInt 32 a &&& BitVec.ofInt 32 b).toInt
  | .bitOr, a, b => some (BitVec.ofInt 32 a ||| BitVec.ofInt 32 b).toInt
  | .bitXor, a, b => some (BitVec.ofInt 32 a ^^^ BitVec.ofInt 32 b).toInt
  | .add, a, b => int32 (a + b)
  | .sub, a, b => int32 (a - b)
  | .mul, a, b => int32 (a * b)
  | .div, a, b => if b = 0 then none else int32 (a.tdiv b)
  | .mod, a, b => if b = 0 ∨ int32 (a.tdiv b) = none then none else some (a - b * a.tdiv b)
  | .pow, a, b => ops.ipow a b
  | .eq, a, b => some (if a = b then 1 else 0)
  | .ne, a, b => some (if a = b then 0 else 1)
  | .gt, a, b => some (if b < a then 1 else 0)
  | .ge, a, b => some (if b ≤ a then 1 else 0)
  | .lt, a, b => some (if a < b then 1 else 0)
  | .le, a, b => some (if a ≤ b then 1 else 0)
  | _, _, _ => none

def OpK.flt1 {F : Type} (ops : FloatOps F) : OpK → F → Option (Cell F)
  | .sub, a => some (.flt (ops.neg a))
  | .sqrt, a => some (.flt (ops.sqrt a))
  | .abs, a => some (.flt (if ops.lt a ops.zero then ops.mul ops.minusOne a else a))
  | _, _ => none

/-- Floats are equal if they differ by less than the tolerance. -/
def Near {F : Type} (ops : FloatOps F) (a b : F) : Prop :=
  (ops.lt b a = true ∧ ops.lt (ops.sub a b) ops.eps = true) ∨ (ops.lt b a = false ∧ ops.lt (ops.sub b a) ops.eps = true)

open Classical in
noncomputable def OpK.flt2 {F : Type} (ops : FloatOps F) : OpK → F → F → Option (Cell F)
  | .add, a, b => some (.flt (ops.add a b))
  | .sub, a, b => some (.flt (ops.sub a b))
  | .mul, a, b => some (.flt (ops.mul a b))
  | .div, a, b => some (.flt (ops.div a b))
  | .pow, a, b => some (.flt (ops.pow a b))
  | .eq, a, b => some (.int (if Near ops a b then 1 else 0))
  | .ne, a, b => some (.int (if Near ops a b then 0 else 1))
  | .gt, a, b => some (.int (if ops.lt b a = true then 1 else 0))
  | .ge, a, b => some (.int (if ops.lt (ops.sub b ops.eps) a = true then 1 else 0))
  | .lt, a, b => some (.int (if ops.lt a b = true then 1 else 0))
  | .le, a, b => some (.int (if ops.lt a (ops.add b ops.eps) = true then 1 else 0))
  | _, _, _ => none

/-- The value of node `x` at time `t` on the input history `σ`. -/
inductive BProg.Value {F : Type} (P : BProg) (ops : FloatOps F) (σ : Nat → Nat → Cell F) : Nat → Nat → Cell F → Prop
  | sigI {t x s v} : P.heap.lab x = .signal true s → σ t s.toNat = .int v → Value P ops σ t x (.int v)
  | sigF {t x s v} : P.heap.lab x = .signal false s → σ t s.toNat = .flt v → Value P ops σ t x (.flt v)
  | int {t x v} : P.heap.lab x = .int v → Value P ops σ t x (.int v)
  | float {t x b} : P.heap.lab x = .float b → Value P ops σ t x (.flt (ops.ofBits b))
  | tau {t x} : P.heap.lab x = .tau → Value P ops σ t x (.int (min t (2 ^ 31 - 1)))
  | int1 {t x o c a v} : P.heap.lab x = .op o true → P.heap.kids x = [c] → Value P ops σ t c (.int a) →
      o.int1 ops a = some v → Value P ops σ t x (.int v)
  | int2 {t x o c d a b v} : P.heap.lab x = .op o true → P.heap.kids x = [c, d] → Value P ops σ t c (.int a) →
      Value P ops σ t d (.int b) → o.int2 ops a b = some v → Value P ops σ t x (.int v)
  | flt1 {t x o c a v} : P.heap.lab x = .op o false → P.heap.kids x = [c] → Value P ops σ t c (.flt a) →
      o.flt1 ops a = some v → Value P ops σ t x v
  | flt2 {t x o c d a b v} : P.heap.lab x = .op o false → P.heap.kids x = [c, d] → Value P ops σ t c (.flt a) →
      Value P ops σ t d (.flt b) → o.flt2 ops a b = some v → Value P ops σ t x v
  /-- `prev(c, d)` is `c` at first, then the value of `d` one step ago -/
  | first {x ty c d v} : P.heap.lab x = .op .prev ty → P.heap.kids x = [c, d] → Value P ops σ 0 c v → Value P ops σ 0 x v
  | next {t x ty c d v} : P.heap.lab x = .op .prev ty → P.heap.kids x = [c, d] → Value P ops σ t d v →
      Value P ops σ (t + 1) x v

/-- The initial value of every `prev` of the program is a constant, and no `prev` is applied directly to a `prev` (type_check.py:526-576
asks for this, but before definitions are expanded; see `C49_nested_prev_fails`). -/
def BProg.FlatPrev (P : BProg) : Prop :=
  ∀ x ty c d, P.NeedsCell x → P.heap.lab x = .op .prev ty → P.heap.kids x = [c, d] →
    ((∃ v, P.heap.lab c = .int v) ∨ ∃ b, P.heap.lab c = .float b) ∧ ∀ ty', P.heap.lab d ≠ .op .prev ty'

/-- Every needed value exists at time `t`: no division by zero, no overflow, signals of their declared types. -/
structure BProg.BzDefined {F : Type} (P : BProg) (ops : FloatOps F) (σ : Nat → Nat → Cell F) (t : Nat) : Prop where
  value : ∀ x, P.NeedsCell x → P.heap.lab x ≠ .atomic → ∃ v, P.Value ops σ t x v
  atom : ∀ x, P.NeedsCell x → P.heap.lab x = .atomic → ∃ c cs b, P.heap.kids x = c :: cs ∧ P.Value ops σ t c (.int b)

/-- The program fits the monitor's arrays: a cell per instruction, its signals, its atomics; and the atomics have identifiers
of their own. -/
structure BProg.BzFits (P : BProg) (A : BProg.Assembly) (lim : BzLimits) : Prop where
  cells : A.bz.length ≤ lim.cells
  signals : ∀ x ty s, P.NeedsCell x → P.heap.lab x = .signal ty s → 0 ≤ s ∧ s.toNat < lim.signals
  atomics : ∀ x, P.NeedsCell x → P.heap.lab x = .atomic → ∃ a, P.atomicId x = some a ∧ a < lim.atomics
  own : ∀ x y a, P.NeedsCell x → P.NeedsCell y → P.heap.lab x = .atomic → P.heap.lab y = .atomic →
    P.atomicId x = some a → P.atomicId y = some a → x = y

end R2U2
