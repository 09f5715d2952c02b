import Verif.Spec.Compile
import Verif.Spec.Booleanizer
/-
Vocabulary for the statement about compiling and running a program whose atoms are comparisons of numbers.
-/
namespace R2U2
variable {α : Type}

/-- `s` is `t` or an operand of something in `t`. -/
inductive Tree.Within {L : Type} (s : Tree L) : Tree L → Prop
  | self : Within s s
  | kid {l ts c} : c ∈ ts → Within s c → Within s (.node l ts)

/-- The value of an expression at time `t`, on the input history `σ` by signal names.  `ty` says which expressions are computed with
integers; `bits` reads floating point literals. -/
inductive Ast.Value {F : Type} (ops : FloatOps F) (ty : Ast → Bool) (bits : String → Nat) (σ : Nat → String → Cell F) :
    Nat → Ast → Cell F → Prop
  | sigI {t s v} : ty (.node (.name s) []) = true → σ t s = .int v → Value ops ty bits σ t (.node (.name s) []) (.int v)
  | sigF {t s v} : ty (.node (.name s) []) = false → σ t s = .flt v → Value ops ty bits σ t (.node (.name s) []) (.flt v)
  | int {t v} : Value ops ty bits σ t (.node (.lit (.int v)) []) (.int v)
  | float {t s} : Value ops ty bits σ t (.node (.lit (.float s)) []) (.flt (ops.ofBits (bits s)))
  | int1 {t o c a v} : ty (.node (.op o) [c]) = true → Value ops ty bits σ t c (.int a) → o.int1 ops a = some v →
      Value ops ty bits σ t (.node (.op o) [c]) (.int v)
  | int2 {t o c d a b v} : ty (.node (.op o) [c, d]) = true → Value ops ty bits σ t c (.int a) → Value ops ty bits σ t d (.int b) →
      o.int2 ops a b = some v → Value ops ty bits σ t (.node (.op o) [c, d]) (.int v)
  | flt1 {t o c a v} : ty (.node (.op o) [c]) = false → Value ops ty bits σ t c (.flt a) → o.flt1 ops a = some v →
      Value ops ty bits σ t (.node (.op o) [c]) v
  | flt2 {t o c d a b v} : ty (.node (.op o) [c, d]) = false → Value ops ty bits σ t c (.flt a) → Value ops ty bits σ t d (.flt b) →
      o.flt2 ops a b = some v → Value ops ty bits σ t (.node (.op o) [c, d]) v
  /-- `prev(c, d)` is `c` at first, then the value of `d` one step ago -/
  | first {c d v} : Value ops ty bits σ 0 c v → Value ops ty bits σ 0 (.node (.op .prev) [c, d]) v
  | next {t c d v} : Value ops ty bits σ t d v → Value ops ty bits σ (t + 1) (.node (.op .prev) [c, d]) v

/-- An operator has the number of operands its instruction has. -/
def bzOperands (l : Lab) (k : Nat) : Prop := ∀ o, l = .op o → k ∈ o.bzArity

/-- Atoms the booleanizer computes: operators with the operands their instructions have, integer literals from 0 to 2³¹ - 1, floating point literals
the binary can hold, signals with an index in the signal buffer, `prev` with a constant to start from and not of another `prev`. -/
structure BzAtoms (f : α → Ast) (sid : String → Int) (bits : String → Nat) (signals : Nat) : Prop where
  plain : AtomsPlain bzOperands f
  ints : ∀ a i, Tree.Within (.node (.lit (.int i)) []) (f a) → 0 ≤ i ∧ i < 2 ^ 31
  floats : ∀ a s, Tree.Within (.node (.lit (.float s)) []) (f a) → bits s < 2 ^ 64 ∧ bits s % 2 ^ 32 < 2 ^ 31
  signals : ∀ a s, Tree.Within (.node (.name s) []) (f a) → 0 ≤ sid s ∧ sid s < signals
  prevs : ∀ a c d, Tree.Within (.node (.op .prev) [c, d]) (f a) →
    ((∃ i, c = .node (.lit (.int i)) []) ∨ ∃ s, c = .node (.lit (.float s)) []) ∧ d.label ≠ .op .prev

/-- Every node of the graph that stands for part of an atom has the type of that expression. -/
def TypedAs (f : α → Ast) (ty : Ast → Bool) (b : Nat → Bool) (g : Heap Lab) : Prop :=
  ∀ x s a, g.Denotes x s → Tree.Within s (f a) → b x = ty s

end R2U2
