import Verif.Model.Monitor
/-
What a monitor's answers should be, independent of queues and passes.
-/
namespace R2U2

/-- The list of verdicts a formula was given, oldest first, is right about `V` (the times at
which the formula holds): times increase, and verdict number `k` gives the
value of `V` at every time after verdict `k - 1` and up to its own time. -/
structure Answers (V : Nat → Prop) (h : List Verdict) : Prop where
  sorted : h.Pairwise (fun u v => u.time < v.time)
  value : ∀ (k : Nat) (v : Verdict) (s : Nat), h[k]? = some v → (∀ (j : Nat) (u : Verdict), j < k → h[j]? = some u → u.time < s) → s ≤ v.time →
    (V s ↔ v.truth = true)

/-- The first time the list says nothing about. -/
def endOf (h : List Verdict) : Nat :=
  match h.getLast? with
  | none => 0
  | some v => v.time + 1

/-- The value of an operand: a constant, or another instruction. -/
def argOf (V : Nat → Nat → Prop) : Option OperandT → Nat → Nat → Prop
  | some .direct, v, _ => v ≠ 0
  | some .subformula, v, t => V v t
  | _, _, _ => False

/-- The meaning of instruction `i` with interval `[lb, ub]` at time `t`, given the values
`V` of the other instructions and the atomics `tr` (docs/Preliminaries/mltl.md:12-26). -/
def TlRec.holds (i : TlRec) (lb ub : Nat) (tr : Nat → Nat → Bool) (V : Nat → Nat → Prop) (t : Nat) :
    Prop :=
  let a := argOf V i.t1 i.v1
  let b := argOf V i.t2 i.v2
  match i.opcode with
  | some .load => tr t i.v1 = true
  | some .ret => a t
  | some .not => ¬ a t
  | some .and => a t ∧ b t
  | some .or => a t ∨ b t
  | some .equiv => a t ↔ b t
  | some .until => ∃ j, t + lb ≤ j ∧ j ≤ t + ub ∧ b j ∧ ∀ k, t + lb ≤ k → k < j → a k
  | some .release => ∀ j, t + lb ≤ j → j ≤ t + ub → b j ∨ ∃ k, t + lb ≤ k ∧ k < j ∧ a k
  | some .since => ∃ j, t ≤ j + ub ∧ j + lb ≤ t ∧ b j ∧ ∀ k, j < k → k + lb ≤ t → a k
  | some .trigger => ∀ j, t ≤ j + ub → j + lb ≤ t → b j ∨ ∃ k, j < k ∧ k + lb ≤ t ∧ a k
  | _ => False

/-- The verdicts reported for formula number `f`. -/
def Mon.reports (m : Mon) (f : Nat) : List Verdict :=
  (m.out.filter fun x => x.1 = f).map (·.2)

/-! ### Programs -/

/-- An operand. -/
inductive Arg where
  | const (b : Bool)
  | atom (a : Nat)
  | sub (c : Nat)

/-- The opcodes with two operands. -/
def TlRec.binary (r : TlRec) : Bool :=
  match r.opcode with
  | some .and | some .or | some .equiv | some .until | some .release | some .since | some .trigger => true
  | _ => false

/-- Operand `k` (`false`: the first); an instruction with one operand counts as having it
twice. -/
def TlRec.arg (r : TlRec) (k : Bool) : Option Arg :=
  match (if k && r.binary then r.t2 else r.t1), (if k && r.binary then r.v2 else r.v1) with
  | some .direct, v => some (.const (decide (v ≠ 0)))
  | some .atomic, v => some (.atom v)
  | some .subformula, v => some (.sub v)
  | _, _ => none

/-- Until or release. -/
def TlRec.temporal (r : TlRec) : Bool :=
  match r.opcode with
  | some .until | some .release => true
  | _ => false

/-- Since or trigger. -/
def TlRec.past (r : TlRec) : Bool :=
  match r.opcode with
  | some .since | some .trigger => true
  | _ => false

/-- The instruction at index `i` is one the future-time part of a specification compiles to:
operands come earlier, and a constant operand is not one that decides the value of the
instruction alone (such instructions make the monitor loop, `C45_constants_fail`). -/
def TlRec.Future (r : TlRec) (i : Nat) : Prop :=
  r.mem = i ∧ (∀ k c, r.arg k = some (.sub c) → c < i) ∧
  match r.opcode with
  | some .load => ∃ a, r.arg false = some (.atom a)
  | some .ret | some .not => ∃ c, r.arg false = some (.sub c)
  | some .and => (∃ k c, r.arg k = some (.sub c)) ∧
      ∀ k, (∃ c, r.arg k = some (.sub c)) ∨ r.arg k = some (.const true)
  | some .or => (∃ k c, r.arg k = some (.sub c)) ∧
      ∀ k, (∃ c, r.arg k = some (.sub c)) ∨ r.arg k = some (.const false)
  | some .equiv => (∃ k c, r.arg k = some (.sub c)) ∧
      ∀ k, (∃ c, r.arg k = some (.sub c)) ∨ ∃ b, r.arg k = some (.const b)
  | some .until | some .release => (∃ c, r.arg true = some (.sub c)) ∧
      ((∃ c, r.arg false = some (.sub c)) ∨ ∃ b, r.arg false = some (.const b))
  | _ => False

/-- The instruction at index `i` is one a once or historically compiles to: `true S[lb,ub] b`
or `false T[lb,ub] b`.  The general since and trigger are not right (`C45_since_fails`). -/
def TlRec.Past (r : TlRec) (i : Nat) : Prop :=
  r.mem = i ∧ (∀ k c, r.arg k = some (.sub c) → c < i) ∧ (∃ c, r.arg true = some (.sub c)) ∧
  match r.opcode with
  | some .since => r.arg false = some (.const true)
  | some .trigger => r.arg false = some (.const false)
  | _ => False

/-- A program, the lengths and intervals it is configured with, and the bounds `B` and
`W` on how soon and how late its verdicts come: a past-time instruction may know its value before
the time it is about, so `B` may be negative.  `C` bounds how soon a change of value is
known. -/
structure Setup where
  prog : List TlRec
  len : Nat → Nat
  lb : Nat → Nat
  ub : Nat → Nat
  B : Nat → Int
  C : Nat → Int
  W : Nat → Nat
  /-- the instructions the theorem is about -/
  own : Nat → Prop
  /-- instructions that produce verdicts in the first pass of a time step only -/
  first : Nat → Prop
  /-- which of the two monitors runs the program -/
  lang : Lang := .c

namespace Setup

def argB (S : Setup) : Option Arg → Int
  | some (.sub c) => S.B c
  | _ => 0

def argW (S : Setup) : Option Arg → Nat
  | some (.sub c) => S.W c
  | _ => 0

/-- The largest delay of an operand. -/
def opW (S : Setup) (r : TlRec) : Nat := max (S.argW (r.arg false)) (S.argW (r.arg true))

/-- `c` is the only instruction `r` reads. -/
def alone (r : TlRec) (c : Nat) : Prop := ∀ k c', r.arg k = some (.sub c') → c' = c

/-- The queue of `c` is long enough for its reader `r`, which has it as operand `k`: it
is the only one `r` reads, and `r` is no past-time operator; or it has room for everything between the earliest time of
a change of `c` and the latest time of a verdict of any operand; or, where `r` is
no temporal operator and `c` produces verdicts in the first pass only, for everything between
the earliest time of a change of `c` and the latest time of the *other* operand. -/
def Room (S : Setup) (r : TlRec) (k : Bool) (c : Nat) : Prop :=
  (alone r c ∧ r.past = false) ∨ S.opW r + 1 ≤ S.C c + S.len c ∨
    (r.temporal = false ∧ r.past = false ∧ S.first c ∧ S.argW (r.arg (!k)) + 1 ≤ S.C c + S.len c)

/-- The assumptions on a program and its configuration, for the instructions in `own`. -/
structure Ok (S : Setup) : Prop where
  handled : ∀ (i : Nat) (r : TlRec), S.prog[i]? = some r → S.own i → r.Future i ∨ r.Past i
  closed : ∀ (i : Nat) (r : TlRec), S.prog[i]? = some r → S.own i → ∀ k c, r.arg k = some (.sub c) →
    S.own c
  /-- each instruction has its own queue -/
  mem : ∀ (i : Nat) (r : TlRec), S.prog[i]? = some r → r.mem = i
  /-- no two of the instructions that report use the same formula number -/
  number : ∀ (i j : Nat) (r s : TlRec), S.prog[i]? = some r → S.prog[j]? = some s → S.own i →
    r.opcode = some .ret → s.opcode = some .ret → r.v2 = s.v2 → i = j
  noRet : ∀ (i c : Nat) (r s : TlRec) k, S.prog[i]? = some r → S.own i → r.arg k = some (.sub c) →
    S.prog[c]? = some s → s.opcode ≠ some .ret
  pos : ∀ i, S.own i → 0 < S.len i
  interval : ∀ (i : Nat) (r : TlRec), S.prog[i]? = some r → S.own i →
    r.temporal = true ∨ r.past = true → S.lb i ≤ S.ub i
  soon : ∀ (i : Nat) (r : TlRec), S.prog[i]? = some r → S.own i → ∀ k,
    S.B i ≤ S.argB (r.arg k) + (if r.temporal then S.lb i else 0) - (if r.past then S.ub i else 0)
  late : ∀ (i : Nat) (r : TlRec), S.prog[i]? = some r → S.own i → ∀ k,
    S.argW (r.arg k) + (if r.temporal then S.ub i else 0) ≤ S.W i + (if r.past then S.lb i else 0)
  /-- changes come from a new verdict, from a change of an operand or, for a once or
  historically, from a change of its operand at one end of the interval -/
  calm : ∀ (i : Nat) (r : TlRec), S.prog[i]? = some r → S.own i → S.C i ≤ S.B i ∨
    (r.temporal = false ∧ r.past = false ∧ r.opcode ≠ some .load ∧
      ∀ k c, r.arg k = some (.sub c) → S.C i ≤ S.C c) ∨
    (r.past = true ∧ ∀ c, r.arg true = some (.sub c) →
      S.C i + S.lb i ≤ S.B c ∨ (S.C i + S.ub i ≤ S.C c ∧ S.C i + S.lb i ≤ 0))
  /-- beside a constant, no operand is known ahead of time (such instructions make the monitor loop,
  `C45_ahead_fails`) -/
  consts : ∀ (i : Nat) (r : TlRec), S.prog[i]? = some r → S.own i → r.past = false →
    ∀ k k' b c, r.arg k = some (.const b) → r.arg k' = some (.sub c) → 0 ≤ S.B c
  room : ∀ (i : Nat) (r : TlRec), S.prog[i]? = some r → S.own i → ∀ k c, r.arg k = some (.sub c) →
    S.Room r k c
  firsts : ∀ (i : Nat) (r : TlRec), S.prog[i]? = some r → S.own i → S.first i → r.past = false ∧
    ∀ k c, r.arg k = some (.sub c) → (alone r c ∧ S.first c) ∨ S.opW r ≤ S.B c

/-- `V` gives every instruction under consideration its meaning. -/
def Means (S : Setup) (tr : Nat → Nat → Bool) (V : Nat → Nat → Prop) : Prop :=
  ∀ i r, S.prog[i]? = some r → S.own i → ∀ t, V i t ↔ r.holds (S.lb i) (S.ub i) tr V t

/-- `k` time steps from the start. -/
def run (S : Setup) (fuel : Nat) (tr : Nat → Nat → Bool) (k : Nat) : Option Mon :=
  Mon.run S.prog fuel tr k (Mon.init S.prog S.len S.lb S.ub S.lang)

end Setup

end R2U2
