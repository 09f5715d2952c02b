import Verif.Model.Assembly
import Verif.Spec.Semantics
import Verif.Spec.Graph
import Verif.Spec.Monitor
import Verif.Spec.Assembly
/-
What the compiled program should answer: the formula a node of the compiler's graph stands for,
and the assumptions under which the monitor gets it right.
-/
namespace R2U2
namespace BProg

/-- Node `x` stands for the formula `e` over atomics. -/
inductive Says (P : BProg) : Nat → Expr Nat → Prop
  | atom {x a} : P.atomicId x = some a → Says P x (.atom a)
  | const {x b} : P.heap.lab x = .bool b → Says P x (.const b)
  | neg {x t c e} : P.heap.lab x = .op .neg t → P.heap.kids x = [c] → Says P c e → Says P x (.neg e)
  | and {x t c d e f} : P.heap.lab x = .op .and t → P.heap.kids x = [c, d] → Says P c e → Says P d f → Says P x (.and [e, f])
  | or {x t c d e f} : P.heap.lab x = .op .or t → P.heap.kids x = [c, d] → Says P c e → Says P d f → Says P x (.or [e, f])
  | iff {x t c d e f} : P.heap.lab x = .op .iff t → P.heap.kids x = [c, d] → Says P c e → Says P d f → Says P x (.iff e f)
  | untl {x lb ub c d e f} : P.heap.lab x = .temp .U lb ub → P.heap.kids x = [c, d] → Says P c e → Says P d f →
      Says P x (.untl lb ub e f)
  | rel {x lb ub c d e f} : P.heap.lab x = .temp .R lb ub → P.heap.kids x = [c, d] → Says P c e → Says P d f →
      Says P x (.rel lb ub e f)
  | since {x lb ub c d e f} : P.heap.lab x = .temp .S lb ub → P.heap.kids x = [c, d] → Says P c e → Says P d f →
      Says P x (.since lb ub e f)
  | trig {x lb ub c d e f} : P.heap.lab x = .temp .T lb ub → P.heap.kids x = [c, d] → Says P c e → Says P d f →
      Says P x (.trig lb ub e f)

/-- `c` is not a boolean constant. -/
def Varies (P : BProg) (c : Nat) : Prop := (P.heap.lab c).isBoolConst = false

/-- Part of a specification. -/
def Live (P : BProg) (x : Nat) : Prop := P.heap.Reachable [P.ft] x ∨ P.heap.Reachable [P.pt] x

/-- The operators and operands the engine gets right: negation, binary conjunction,
disjunction and equivalence, until and release, once (compiled to `true S[lb,ub] d`) and historically
(`false T[lb,ub] d`); and no operator whose value a constant operand decides
(`C45_constants_fail`).  The general since and trigger are not right (`C45_since_fails`). -/
def Supported (P : BProg) (x : Nat) : Prop :=
  match P.heap.lab x, P.heap.kids x with
  | .bool _, _ => True
  | .formula _, [c] => P.Varies c
  | .op .neg _, [c] => P.Varies c
  | .op .and _, [c, d] => (P.Varies c ∨ P.Varies d) ∧ ∀ b ∈ [c, d], P.heap.lab b ≠ .bool false
  | .op .or _, [c, d] => (P.Varies c ∨ P.Varies d) ∧ ∀ b ∈ [c, d], P.heap.lab b ≠ .bool true
  | .op .iff _, [c, d] => P.Varies c ∨ P.Varies d
  | .temp .U lb ub, [_, d] => lb ≤ ub ∧ P.Varies d
  | .temp .R lb ub, [_, d] => lb ≤ ub ∧ P.Varies d
  | .temp .S lb ub, [c, d] => lb ≤ ub ∧ P.heap.lab c = .bool true ∧ P.Varies d
  | .temp .T lb ub, [c, d] => lb ≤ ub ∧ P.heap.lab c = .bool false ∧ P.Varies d
  | _, _ => False

/-- Since and trigger. -/
def Past (P : BProg) (x : Nat) : Prop := ∃ lb ub, P.heap.lab x = .temp .S lb ub ∨ P.heap.lab x = .temp .T lb ub

/-- How much later than its operands an operator can know its value at the earliest: at `s + soonBy x` if
they are known for `s`. -/
def soonBy (P : BProg) (x : Nat) : Int :=
  match P.heap.lab x with
  | .temp .U lb _ | .temp .R lb _ => lb
  | .temp .S _ ub | .temp .T _ ub => -ub
  | _ => 0

/-- How much later than its operands an operator knows its value at the latest. -/
def lateBy (P : BProg) (x : Nat) : Int :=
  match P.heap.lab x with
  | .temp .U _ ub | .temp .R _ ub => ub
  | .temp .S lb _ | .temp .T lb _ => -lb
  | _ => 0

/-- The operands of `x` that need a queue. -/
def operands (P : BProg) (x : Nat) : List Nat := (P.heap.kids x).filter fun c => !(P.heap.lab c).isBoolConst

/-- `x` only ever gets new verdicts in the first pass of a time step: it is an atomic, follows one such
operand, or has operands whose delays leave no room for more. -/
inductive Steady (P : BProg) (ahead lag : Nat → Int) : Nat → Prop
  | atom {x} : P.atomicId x ≠ none → Steady P ahead lag x
  | one {x c} : ¬ P.Past x → (∀ d ∈ P.operands x, d = c) → Steady P ahead lag c → Steady P ahead lag x
  | exact {x} : ¬ P.Past x → (∀ c ∈ P.operands x, ∀ d ∈ P.operands x, max (lag d) 0 ≤ ahead c) → Steady P ahead lag x

/-- How many slots the queue of `c` has beside the one for its newest verdict. -/
def slots (P : BProg) (k : Int) (c : Nat) : Int := max (P.maxWpd c - P.bpd c) 0 + k

/-- The queue of operand `c` of `x` does not overflow when verdicts come in bursts: it is the only one `x`
reads; or it holds all changes of the value of `c` until the slowest operand, or the slowest *other*
operand if `c` never has two verdicts in one time step, has caught up. -/
def NoBurst (P : BProg) (ahead turn lag : Nat → Int) (k : Int) (x c : Nat) : Prop :=
  (¬ P.Past x ∧ ∀ d ∈ P.operands x, d = c) ∨ (∀ d ∈ P.heap.kids x, max (lag d) 0 ≤ turn c + P.slots k c) ∨
    ((∀ o lb ub, P.heap.lab x ≠ .temp o lb ub) ∧ P.Steady ahead lag c ∧
      ∀ d ∈ P.heap.kids x, d ≠ c → max (lag d) 0 ≤ turn c + P.slots k c)

/-- A program the monitor gets right with `k` extra slots per queue.  `ahead x` bounds how early the
value of `x` is known: at time step `s + ahead x` for time `s`; for past-time operators this may be negative.  `turn x` bounds
how early a change of the value of `x` is known, and `lag x` how late a value is known.  For programs without past-time operators
`ahead` and `turn` can be the recorded best-case delay, and `lag` the recorded worst-case delay. -/
structure Monitorable (P : BProg) (ahead turn lag : Nat → Int) (k : Int) : Prop where
  supported : ∀ x, P.Live x → P.engine x = .tl → P.Supported x
  /-- formulas are not operands -/
  top : ∀ x c, P.Live x → P.engine x = .tl → c ∈ P.heap.kids x → (P.heap.lab c).isFormula = false
  numbers : ∀ x y n, P.Live x → P.Live y → P.heap.lab x = .formula n → P.heap.lab y = .formula n → x = y
  leaf : ∀ x, P.atomicId x ≠ none ∨ (P.heap.lab x).isBoolConst = true → ahead x ≤ 0
  soon : ∀ x c, P.Live x → P.engine x = .tl → (P.heap.lab x).isFormula = false → c ∈ P.heap.kids x →
    ahead x ≤ ahead c + P.soonBy x
  /-- the worst-case delays are bounds -/
  late : ∀ x c, P.Live x → P.engine x = .tl → (P.heap.lab x).isFormula = false → c ∈ P.heap.kids x →
    max (lag c) 0 + P.lateBy x ≤ max (lag x) 0
  /-- changes come with a new verdict, from a change of an operand or, for a once or
  historically, from a change of its operand at one end of the interval -/
  calm : ∀ x, P.Live x → turn x ≤ ahead x ∨
    (P.engine x = .tl ∧ (∀ o lb ub, P.heap.lab x ≠ .temp o lb ub) ∧ ∀ c ∈ P.operands x, turn x ≤ turn c) ∨
    (∃ lb ub, (P.heap.lab x = .temp .S lb ub ∨ P.heap.lab x = .temp .T lb ub) ∧ ∀ c ∈ P.operands x,
      turn x + lb ≤ ahead c ∨ (turn x + ub ≤ turn c ∧ turn x + lb ≤ 0))
  /-- beside a constant, no operand is known ahead of time (`C45_ahead_fails`) -/
  consts : ∀ x b c, P.Live x → P.engine x = .tl → ¬ P.Past x → b ∈ P.heap.kids x → (P.heap.lab b).isBoolConst = true →
    c ∈ P.operands x → 0 ≤ ahead c
  room : ∀ x c, P.Live x → P.engine x = .tl → c ∈ P.operands x → P.NoBurst ahead turn lag k x c

end BProg
end R2U2
