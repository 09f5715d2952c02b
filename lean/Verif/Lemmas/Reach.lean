import Verif.Lemmas.Basic
/-
Rewriting in arbitrary places and arbitrary order.
-/
namespace R2U2
open Expr
variable {α : Type}

/-- `e'` can be obtained from `e` by applying `f` to sub-expressions, in any
places, in any order, any number of times. -/
inductive Reach (f : Expr α → Expr α) : Expr α → Expr α → Prop
  | refl (e : Expr α) : Reach f e e
  | root (e : Expr α) : Reach f e (f e)
  | trans {a b c : Expr α} : Reach f a b → Reach f b c → Reach f a c
  | child {e e' c c' : Expr α} (pre suf : List (Expr α)) (hs : e.shape = e'.shape)
      (hc : e.children = pre ++ c :: suf) (hc' : e'.children = pre ++ c' :: suf) :
      Reach f c c' → Reach f e e'

theorem forall₂_equiv_refl (l : List (Expr α)) : List.Forall₂ Equiv l l := by
  induction l with
  | nil => exact .nil
  | cons c cs ih => exact .cons (Equiv.refl c) ih

theorem reach_equiv_inv {P : Shape α → Prop} {f : Expr α → Expr α}
    (hf : ∀ e, AllNodes P e → AllNodes P (f e) ∧ Equiv (f e) e) {e e' : Expr α}
    (h : Reach f e e') (he : AllNodes P e) : AllNodes P e' ∧ Equiv e' e := by
  induction h with
  | refl e => exact ⟨he, Equiv.refl e⟩
  | root e => exact hf e he
  | trans _ _ ih1 ih2 =>
    obtain ⟨h1, h2⟩ := ih1 he
    obtain ⟨h3, h4⟩ := ih2 h1
    exact ⟨h3, h4.trans h2⟩
  | @child e e' c c' pre suf hs hc hc' _ ih =>
    obtain ⟨hr, hch⟩ := allNodes_iff.1 he
    obtain ⟨h1, h2⟩ := ih (hch c (by simp [hc]))
    constructor
    · rw [allNodes_iff]
      refine ⟨hs ▸ hr, fun d hd => ?_⟩
      rw [hc'] at hd
      simp only [List.mem_append, List.mem_cons] at hd
      rcases hd with hd | rfl | hd
      · exact hch d (by simp [hc, hd])
      · exact h1
      · exact hch d (by simp [hc, hd])
    · refine Equiv.congr hs.symm ?_
      rw [hc, hc']
      exact List.rel_append (forall₂_equiv_refl _) (.cons h2 (forall₂_equiv_refl _))

theorem allNodes_true (e : Expr α) : AllNodes (fun _ => True) e := by
  induction e using childInduction with
  | h e ih => exact ⟨e, trivial, ih⟩

theorem reach_equiv {f : Expr α → Expr α} (hf : ∀ e, Equiv (f e) e) {e e' : Expr α}
    (h : Reach f e e') : Equiv e' e :=
  (reach_equiv_inv (P := fun _ => True) (fun e _ => ⟨allNodes_true _, hf e⟩) h (allNodes_true e)).2

end R2U2
