import Verif.Model.Tree
/-
Induction over trees.
-/
namespace R2U2

theorem Tree.childInduction {L : Type} {P : Tree L → Prop}
    (h : ∀ l cs, (∀ c ∈ cs, P c) → P (.node l cs)) : ∀ t, P t
  | .node l cs => h l cs fun c _ => Tree.childInduction h c

end R2U2
