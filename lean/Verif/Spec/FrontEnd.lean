import Verif.Model.FrontEnd
import Verif.Spec.TypeCheck
import Verif.Spec.Compile
import Verif.Spec.Expand
/-
Vocabulary for the statement about a program's text and the verdicts of its monitor.
-/
namespace R2U2

/-- An expression the desugaring theorem (C56) is about: a Boolean, without defined names, each aggregation with names of its own,
array elements picked from written-out arrays. -/
def Src.Readable (D : Decls) (e : Src) : Prop := HasSort D Scope.empty e .bool ∧ Src.Scoped e ∧ Src.PicksLiterals D.enums e

/-- An expression of a program: a Boolean in the scope `N` of the defined names, its aggregations bind other names, and with the names
replaced by what they stand for it is as the desugaring theorem has it. -/
structure Src.Proper (D : Decls) (N : Scope) (δ : String → Option Src) (e : Src) : Prop where
  sort : HasSort D N e .bool
  fresh : ∀ v ∈ e.bound, N v = none
  scopes : ∀ n e', e.expandTree δ n = some e' → Src.Scoped e'
  picks : ∀ n e', e.expandTree δ n = some e' → Src.PicksLiterals D.enums e'

/-- The declarations of a program that does not compare arrays. -/
def TcCtx.scalarDecls (Γ : TcCtx) : Decls := { Γ.decls with arrays := false }

/-- Formulas with labels and numbers, in memory: two specification sets that nothing refers to, nodes possibly shared,
parent links in place, every formula with its own label. -/
structure InMemory (h : Heap Lab) (n ft pt : Nat) (fs ps : List (String × Nat × Src)) : Prop where
  below : h.Below n
  acyclic : h.Acyclic
  parents : h.ParentsKnown
  ft_lt : ft < n
  pt_lt : pt < n
  ne : ft ≠ pt
  ft_top : h.pars ft = []
  pt_top : h.pars pt = []
  future : h.Denotes ft (.node .specSet (fs.map fun s => .node (.formula s.1 s.2.1) [C2po.toAst s.2.2]))
  past : h.Denotes pt (.node .specSet (ps.map fun s => .node (.formula s.1 s.2.1) [C2po.toAst s.2.2]))
  idents : ∀ s ∈ fs ++ ps, IsIdent s.1
  labels : ((fs ++ ps).map (·.1)).Nodup

end R2U2
