import Verif.Model.Expand
import Verif.Spec.Graph
import Verif.Spec.Source
/-
What names defined by a program stand for.
-/
namespace R2U2

/-- Node `x` of the graph is the expression `e`. -/
inductive Heap.Reads (h : Heap XNode) : Nat → Src → Prop
  | node {x : Nat} {k : SK} {ty : Typ} {cs : List Src} : h.lab x = .expr k ty → (h.kids x).length = cs.length →
      (∀ (i : Nat) (c : Nat) (e : Src), (h.kids x)[i]? = some c → cs[i]? = some e → Reads h c e) →
      Reads h x (.node k ty cs)

namespace XProg

/-- The node a name stands for: a definition, or else the expression of a specification. -/
def Named (P : XProg) (s : String) (x : Nat) : Prop :=
  match P.defs.lookup s with
  | some d => x = d
  | none => ∃ f, P.specs.lookup s = some f ∧ (P.heap.kids f).head? = some x

/-- The expression a name stands for. -/
def Means (P : XProg) (s : String) (e : Src) : Prop := ∃ x, P.Named s x ∧ P.heap.Reads x e

/-- In `ρ` every defined name has the value of its definition at all times. -/
def Respects {F : Type} (P : XProg) (I : Interp F) (ρ : Env F) : Prop :=
  ∀ s e, P.Means s e → ∀ i, ρ.var s i = e.sem I ρ i

/-- The graph of a parsed program: children know their parents, variables have none, the listed specifications
belong to the program and have an expression. -/
structure Parsed (P : XProg) : Prop where
  parents : P.heap.ParentsKnown
  leaf : ∀ x s ty, P.heap.lab x = .expr (.var s) ty → P.heap.kids x = []
  specs : ∀ s f, P.specs.lookup s = some f → P.heap.Reachable [P.ft, P.pt] f ∧ (P.heap.kids f).length = 1

/-- Definitions are not circular: nodes can be numbered so that children, and what a name stands for, have smaller
numbers. -/
def NotCircular (P : XProg) : Prop := ∃ rank : Nat → Nat, (∀ p c, c ∈ P.heap.kids p → rank c < rank p) ∧
  ∀ x s ty y, P.heap.lab x = .expr (.var s) ty → P.Named s y → rank y < rank x

/-- No definition is just another defined name. -/
def NoAlias (P : XProg) : Prop := ∀ s d s' ty, P.defs.lookup s = some d → P.heap.lab d = .expr (.var s') ty → ∀ y, ¬ P.Named s' y

/-- What type checking establishes: names and what they stand for are expressions of the same type, well-sorted
in the scope `Γ` of the defined names; aggregations bind other names; enumeration members have other names. -/
structure Checked (P : XProg) (D : Decls) (Γ : Scope) : Prop where
  reads : ∀ s x, P.Named s x → ∃ e, P.heap.Reads x e
  types : ∀ x s ty y, P.heap.lab x = .expr (.var s) ty → P.Named s y → ∃ k, P.heap.lab y = .expr k ty
  scope : ∀ s, Γ s = none ↔ ∀ e, ¬ P.Means s e
  sorts : ∀ s e t, P.Means s e → Γ s = some t → HasSort D Γ e t
  fresh : ∀ s e, P.Means s e → ∀ v ∈ e.bound, Γ v = none
  enums : ∀ s ty, Γ s ≠ none → Src.enumVal D.enums ty s = none

end XProg

/-- Every name has the value of what it stands for: `δ s e` says that `s` stands for `e`. -/
def Env.Respects {F : Type} (δ : String → Src → Prop) (I : Interp F) (ρ : Env F) : Prop :=
  ∀ s e, δ s e → ∀ i, ρ.var s i = e.sem I ρ i

/-- The scope `Γ` has the names of `δ`, with the sorts of what they stand for, which is well-sorted in this scope; aggregations bind
other names; enumeration members have other names. -/
structure Scope.Declares (Γ : Scope) (δ : String → Src → Prop) (D : Decls) : Prop where
  scope : ∀ s, Γ s = none ↔ ∀ e, ¬ δ s e
  sorts : ∀ s e t, δ s e → Γ s = some t → HasSort D Γ e t
  fresh : ∀ s e, δ s e → ∀ v ∈ e.bound, Γ v = none
  enums : ∀ s ty, Γ s ≠ none → Src.enumVal D.enums ty s = none

end R2U2
