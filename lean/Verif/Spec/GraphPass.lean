import Verif.Spec.Graph
import Verif.Model.Printing
import Verif.Spec.Semantics
import Verif.Spec.Shapes
import Verif.Spec.Printable
/-
Vocabulary for statements about the passes on the object graph.
-/
namespace R2U2
namespace Heap
variable {L : Type}

/-- Every identity in use is below `n`. -/
structure Below (h : Heap L) (n : Nat) : Prop where
  kids : ∀ p c, c ∈ h.kids p → c < n
  none : ∀ p, n ≤ p → h.kids p = []

/-- `z` is strictly below `x` in the graph. -/
def Under (h : Heap L) (x z : Nat) : Prop := ∃ k ∈ h.kids x, Reachable h [k] z

/-- Node `x` is a specification with label `l` and number `k` whose formula is the
temporal-level expression `e`, its atoms being the expressions `f`. -/
def Specifies {α : Type} (h : Heap Lab) (f : α → Ast) (x : Nat) (l : String) (k : Nat) (e : Expr α) : Prop :=
  h.Denotes x (.node (.formula l k) [e.toAst f])

/-- One specification: label, number, formula. -/
abbrev SpecOf (α : Type) := String × Nat × Expr α

/-- Node `r` is the specification set with the specifications `specs`, in this order. -/
def Holds {α : Type} (h : Heap Lab) (f : α → Ast) (r : Nat) (specs : List (SpecOf α)) : Prop :=
  h.Denotes r (.node .specSet (specs.map fun s => .node (.formula s.1 s.2.1) [s.2.2.toAst f]))

/-- The same specifications in the same order: labels and numbers are kept, formulas have
the same verdicts. -/
def SameSpecs {α : Type} (specs specs' : List (SpecOf α)) : Prop :=
  List.Forall₂ (fun s s' => s'.1 = s.1 ∧ s'.2.1 = s.2.1 ∧ Equiv s'.2.2 s.2.2) specs specs'

/-- Every node that can be reached from `roots` has a label and a number of operands that
satisfy `Q`. -/
def Shaped (Q : L → Nat → Prop) (h : Heap L) (roots : List Nat) : Prop :=
  ∀ z, Reachable h roots z → Q (h.lab z) (h.kids z).length

end Heap

/-- `P` holds of the label and the number of children of every node. -/
inductive Tree.All {L : Type} (P : L → Nat → Prop) : Tree L → Prop
  | node {l ts} : P l ts.length → (∀ t ∈ ts, Tree.All P t) → Tree.All P (.node l ts)

/-- Labels of the logic: connectives, temporal operators, truth values. -/
def Lab.logical : Lab → Bool
  | .op .neg | .op .and | .op .or | .op .xor | .op .imp | .op .iff => true
  | .tmp .. => true
  | .lit (.bool _) => true
  | _ => false

/-- Sums and products have at most two operands. -/
def twoOperands (l : Lab) (k : Nat) : Prop := l = .op .add ∨ l = .op .mul → k ≤ 2

/-- There are no sums and products. -/
def noSums (l : Lab) (_ : Nat) : Prop := l ≠ .op .add ∧ l ≠ .op .mul

/-- The atoms are comparisons, signals and the like: no logic inside, no bare literals, and
`P` holds of all of their nodes. -/
def AtomsPlain {α : Type} (P : Lab → Nat → Prop) (f : α → Ast) : Prop :=
  ∀ a, (f a).All (fun l k => l.logical = false ∧ P l k) ∧ ∀ v ts, f a ≠ .node (.lit v) ts

/-- What `to_bnf` removes. -/
def Lab.bnfGone : Lab → Bool
  | .op .or | .op .imp | .op .xor | .tmp .F _ _ | .tmp .G _ _ | .tmp .R _ _ => true
  | _ => false

/-- What `remove_extended_operators` removes. -/
def Lab.extended : Lab → Bool
  | .op .imp | .op .xor | .tmp .F _ _ | .tmp .G _ _ | .tmp .O _ _ | .tmp .H _ _ => true
  | _ => false

/-- What `remove_release_operators` removes. -/
def Lab.release : Lab → Bool
  | .tmp .R _ _ => true
  | _ => false

/-- `&&`, `||`, `+` and `*` have at most two operands. -/
def atMostTwo (l : Lab) (k : Nat) : Prop := l = .op .and ∨ l = .op .or ∨ l = .op .add ∨ l = .op .mul → k ≤ 2

/-- An operator has operands. -/
def hasOperands (l : Lab) (k : Nat) : Prop :=
  match l with
  | .op _ | .tmp .. => k ≠ 0
  | _ => True

/-- The passes look at the first operands of a node: there are as many as they look at.
`strict`: `optimize_rewrites` also looks at two operands of `&&`, `||` and `==`. -/
def Lab.fits (strict : Bool) : Lab → Nat → Prop
  | .op .neg, k => 1 ≤ k
  | .op .xor, k | .op .imp, k | .op .iff, k => 2 ≤ k
  | .op .and, k | .op .or, k | .op .eq, k => strict = true → 2 ≤ k
  | .tmp .F _ _, k | .tmp .G _ _, k | .tmp .O _ _, k | .tmp .H _ _, k => 1 ≤ k
  | .tmp .U _ _, k | .tmp .R _ _, k | .tmp .S _ _, k | .tmp .T _ _, k => 2 ≤ k
  | _, _ => True

/-- `&&` or `||` without operands -/
def Expr.isEmptyOp {α : Type} : Expr α → Prop
  | .and cs | .or cs => cs = []
  | _ => False

/-- A desugared program in memory: two specification sets that nothing refers to, nodes
possibly shared, parent links in place, every specification with its own label. -/
structure Program {α : Type} (f : α → Ast) (h : Heap Lab) (n ft pt : Nat) (fs ps : List (Heap.SpecOf α)) : Prop where
  below : h.Below n
  acyclic : h.Acyclic
  parents : h.ParentsKnown
  ft_lt : ft < n
  pt_lt : pt < n
  ne : ft ≠ pt
  ft_top : h.pars ft = []
  pt_top : h.pars pt = []
  future : h.Holds f ft fs
  past : h.Holds f pt ps
  idents : ∀ s ∈ fs ++ ps, IsIdent s.1
  labels : ((fs ++ ps).map (·.1)).Nodup
  operands : ∀ s ∈ fs ++ ps, Nowhere Expr.isEmptyOp s.2.2

end R2U2
