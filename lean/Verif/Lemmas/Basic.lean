import Verif.Spec.Semantics
import Mathlib.Data.List.Forall2
/-
Helper lemmas: induction over expressions, congruence of the semantics,
correctness of bottom-up passes.
-/

namespace R2U2
namespace Expr
variable {α : Type}

/-- The root of an expression without its children. -/
inductive Shape (α : Type) where
  | const (b : Bool) | atom (a : α) | neg
  | and (n : Nat) | or (n : Nat)
  | xor | imp | iff | equal
  | fut (lb ub : Nat) | glob (lb ub : Nat) | untl (lb ub : Nat) | rel (lb ub : Nat)
  | once (lb ub : Nat) | hist (lb ub : Nat) | since (lb ub : Nat) | trig (lb ub : Nat)

def shape : Expr α → Shape α
  | .const b => .const b
  | .atom a => .atom a
  | .neg _ => .neg
  | .and cs => .and cs.length
  | .or cs => .or cs.length
  | .xor _ _ => .xor
  | .imp _ _ => .imp
  | .iff _ _ => .iff
  | .equal _ _ => .equal
  | .fut lb ub _ => .fut lb ub
  | .glob lb ub _ => .glob lb ub
  | .untl lb ub _ _ => .untl lb ub
  | .rel lb ub _ _ => .rel lb ub
  | .once lb ub _ => .once lb ub
  | .hist lb ub _ => .hist lb ub
  | .since lb ub _ _ => .since lb ub
  | .trig lb ub _ _ => .trig lb ub

/-- Induction with the hypothesis for all direct children. -/
theorem childInduction {P : Expr α → Prop}
    (h : ∀ e, (∀ c ∈ e.children, P c) → P e) (e : Expr α) : P e := by
  apply h
  intro c hc
  exact childInduction h c
termination_by sizeOf e
decreasing_by
  cases e <;> simp only [children, List.mem_cons, List.not_mem_nil, or_false] at hc <;>
    first
    | (exact hc.elim)
    | (have := List.sizeOf_lt_of_mem hc; simp; omega)
    | (subst hc; simp; omega)
    | (rcases hc with rfl | rfl <;> simp <;> omega)

theorem bpdL_eq (cs : List (Expr α)) : bpdL cs = cs.map bpd := by
  induction cs with
  | nil => rfl
  | cons c cs ih => simp [bpdL, ih]

theorem wpdL_eq (cs : List (Expr α)) : wpdL cs = cs.map wpd := by
  induction cs with
  | nil => rfl
  | cons c cs ih => simp [wpdL, ih]

theorem postL_eq (f : Expr α → Expr α) (cs : List (Expr α)) : postL f cs = cs.map (post f) := by
  induction cs with
  | nil => rfl
  | cons c cs ih => simp [postL, ih]

@[simp] theorem children_mapChildren (g : Expr α → Expr α) (e : Expr α) :
    (mapChildren g e).children = e.children.map g := by
  cases e <;> simp [mapChildren, children]

@[simp] theorem shape_mapChildren (g : Expr α → Expr α) (e : Expr α) :
    (mapChildren g e).shape = e.shape := by
  cases e <;> simp [mapChildren, shape]

theorem post_eq (f : Expr α → Expr α) (e : Expr α) :
    post f e = f (mapChildren (post f) e) := by
  cases e <;> simp [post, mapChildren, postL_eq]

/-- All nodes of `e` have a root accepted by `P`. -/
inductive AllNodes (P : Shape α → Prop) : Expr α → Prop
  | intro (e : Expr α) (hr : P e.shape) (hc : ∀ c ∈ e.children, AllNodes P c) : AllNodes P e

theorem allNodes_iff {P : Shape α → Prop} {e : Expr α} :
    AllNodes P e ↔ P e.shape ∧ ∀ c ∈ e.children, AllNodes P c :=
  ⟨fun h => by cases h; exact ⟨‹_›, ‹_›⟩, fun h => ⟨e, h.1, h.2⟩⟩

theorem AllNodes.mono {P Q : Shape α → Prop} (h : ∀ s, P s → Q s) {e : Expr α}
    (he : AllNodes P e) : AllNodes Q e := by
  induction he with
  | intro e hr hc ih => exact ⟨e, h _ hr, ih⟩

theorem AllNodes.and {P Q : Shape α → Prop} {e : Expr α}
    (hp : AllNodes P e) (hq : AllNodes Q e) : AllNodes (fun s => P s ∧ Q s) e := by
  induction hp with
  | intro e hr hc ih =>
    rw [allNodes_iff] at hq
    exact ⟨e, ⟨hr, hq.1⟩, fun c hc' => ih c hc' (hq.2 c hc')⟩

end Expr

open Expr
variable {α : Type}

theorem satAll_iff (π : Trace α) (cs : List (Expr α)) (i : Nat) :
    satAll π cs i ↔ ∀ c ∈ cs, sat π c i := by
  induction cs with
  | nil => simp [satAll]
  | cons c cs ih => simp [satAll, ih]

theorem satAny_iff (π : Trace α) (cs : List (Expr α)) (i : Nat) :
    satAny π cs i ↔ ∃ c ∈ cs, sat π c i := by
  induction cs with
  | nil => simp [satAny]
  | cons c cs ih => simp [satAny, ih]

theorem Equiv.refl (e : Expr α) : Equiv e e := fun _ _ => Iff.rfl
theorem Equiv.symm {e e' : Expr α} (h : Equiv e e') : Equiv e' e := fun π i => (h π i).symm
theorem Equiv.trans {a b c : Expr α} (h : Equiv a b) (h' : Equiv b c) : Equiv a c :=
  fun π i => (h π i).trans (h' π i)

theorem satAll_congr {π π' : Trace α} {cs cs' : List (Expr α)} {i : Nat}
    (h : List.Forall₂ (fun c c' => (sat π c i ↔ sat π' c' i)) cs cs') :
    satAll π cs i ↔ satAll π' cs' i := by
  induction h with
  | nil => simp [satAll]
  | cons h _ ih => simp [satAll, h, ih]

theorem satAny_congr {π π' : Trace α} {cs cs' : List (Expr α)} {i : Nat}
    (h : List.Forall₂ (fun c c' => (sat π c i ↔ sat π' c' i)) cs cs') :
    satAny π cs i ↔ satAny π' cs' i := by
  induction h with
  | nil => simp [satAny]
  | cons h _ ih => simp [satAny, h, ih]

/-- The semantics is a congruence: same root, pairwise equivalent children. -/
theorem Equiv.congr {e e' : Expr α} (hs : e.shape = e'.shape)
    (hc : List.Forall₂ Equiv e.children e'.children) : Equiv e e' := by
  intro π i
  cases e <;> cases e' <;> simp only [Expr.shape, reduceCtorEq] at hs <;>
    simp only [Expr.children] at hc <;>
    first
    | (cases hs; exact Iff.rfl)
    | (cases hs; cases hc with | cons h1 _ => simp only [sat, h1 π]; done)
    | (simp only [sat]; exact satAll_congr (hc.imp fun _ _ h => h π i))
    | (simp only [sat]; exact satAny_congr (hc.imp fun _ _ h => h π i))
    | (cases hs; cases hc with | cons h1 hc => cases hc with | cons h2 _ => simp only [sat, h1 π, h2 π])

theorem forall₂_map_left' {β γ : Type} {R : γ → β → Prop} {f : β → γ} {l : List β}
    (h : ∀ c ∈ l, R (f c) c) : List.Forall₂ R (l.map f) l := by
  induction l with
  | nil => exact .nil
  | cons c cs ih =>
    exact .cons (h c (by simp)) (ih fun c hc => h c (by simp [hc]))

/-- A bottom-up pass whose step preserves verdicts preserves verdicts. -/
theorem post_equiv {f : Expr α → Expr α} (hf : ∀ e, Equiv (f e) e) (e : Expr α) :
    Equiv (post f e) e := by
  induction e using childInduction with
  | h e ih =>
    rw [post_eq]
    refine (hf _).trans (Equiv.congr (by simp) ?_)
    rw [children_mapChildren]
    exact forall₂_map_left' ih

/-- As `post_equiv`, for a step that needs (and re-establishes) a shape invariant. -/
theorem post_equiv_inv {P : Shape α → Prop} {f : Expr α → Expr α}
    (hf : ∀ e, AllNodes P e → AllNodes P (f e) ∧ Equiv (f e) e) (e : Expr α)
    (he : AllNodes P e) : AllNodes P (post f e) ∧ Equiv (post f e) e := by
  induction e using childInduction with
  | h e ih =>
    rw [post_eq]
    obtain ⟨hr, hc⟩ := allNodes_iff.1 he
    have h1 : AllNodes P (mapChildren (post f) e) := by
      rw [allNodes_iff]
      refine ⟨by simpa using hr, ?_⟩
      intro c hc'
      rw [children_mapChildren, List.mem_map] at hc'
      obtain ⟨c, hm, rfl⟩ := hc'
      exact (ih c hm (hc c hm)).1
    refine ⟨(hf _ h1).1, (hf _ h1).2.trans (Equiv.congr (by simp) ?_)⟩
    rw [children_mapChildren]
    exact forall₂_map_left' fun c hm => (ih c hm (hc c hm)).2

/-- A bottom-up pass establishes `Q` everywhere if its step does, given children
that already satisfy `Q`. -/
theorem post_allNodes {P Q : Shape α → Prop} {f : Expr α → Expr α}
    (hf : ∀ e, P e.shape → (∀ c ∈ e.children, AllNodes Q c) → AllNodes Q (f e)) (e : Expr α)
    (he : AllNodes P e) : AllNodes Q (post f e) := by
  induction e using childInduction with
  | h e ih =>
    rw [post_eq]
    obtain ⟨hr, hc⟩ := allNodes_iff.1 he
    apply hf
    · simpa using hr
    · intro c hc'
      rw [children_mapChildren, List.mem_map] at hc'
      obtain ⟨c, hm, rfl⟩ := hc'
      exact ih c hm (hc c hm)

/-- Result of `postM` on the children. -/
inductive ChildrenTo (g : Expr α → Option (Expr α)) (e m : Expr α) : Prop
  | intro (hs : e.shape = m.shape)
      (hc : List.Forall₂ (fun c c' => g c = some c') e.children m.children)

theorem postML_some {f : Expr α → Option (Expr α)} {cs cs' : List (Expr α)}
    (h : postML f cs = some cs') : List.Forall₂ (fun c c' => postM f c = some c') cs cs' := by
  induction cs generalizing cs' with
  | nil => simp [postML] at h; subst h; exact .nil
  | cons c cs ih =>
    simp only [postML, Option.bind_eq_bind, Option.bind_eq_some_iff, Option.pure_def,
      Option.some.injEq] at h
    obtain ⟨c', h1, cs'', h2, rfl⟩ := h
    exact .cons h1 (ih h2)

theorem forall₂_length {β γ : Type} {R : β → γ → Prop} {l : List β} {l' : List γ}
    (h : List.Forall₂ R l l') : l.length = l'.length := by
  induction h with
  | nil => rfl
  | cons _ _ ih => simp [ih]

theorem postM_some {f : Expr α → Option (Expr α)} {e e' : Expr α} (h : postM f e = some e') :
    ∃ m, ChildrenTo (postM f) e m ∧ f m = some e' := by
  cases e <;> simp only [postM, Option.bind_eq_bind, Option.bind_eq_some_iff] at h
  case const b => exact ⟨.const b, ⟨rfl, .nil⟩, h⟩
  case atom a => exact ⟨.atom a, ⟨rfl, .nil⟩, h⟩
  case and cs =>
    obtain ⟨cs', h1, h2⟩ := h
    exact ⟨.and cs', ⟨by simp [shape, forall₂_length (postML_some h1)], postML_some h1⟩, h2⟩
  case or cs =>
    obtain ⟨cs', h1, h2⟩ := h
    exact ⟨.or cs', ⟨by simp [shape, forall₂_length (postML_some h1)], postML_some h1⟩, h2⟩
  all_goals first
    | (obtain ⟨a', h1, b', h2, h3⟩ := h
       exact ⟨_, ⟨by simp [shape], by simp [children, h1, h2]⟩, h3⟩)
    | (obtain ⟨a', h1, h2⟩ := h
       exact ⟨_, ⟨by simp [shape], by simp [children, h1]⟩, h2⟩)

theorem postM_equiv_inv {P : Shape α → Prop} {f : Expr α → Option (Expr α)}
    (hf : ∀ e e', AllNodes P e → f e = some e' → AllNodes P e' ∧ Equiv e' e) (e e' : Expr α)
    (he : AllNodes P e) (h : postM f e = some e') : AllNodes P e' ∧ Equiv e' e := by
  induction e using childInduction generalizing e' with
  | h e ih =>
    obtain ⟨m, ⟨hs, hc⟩, hm⟩ := postM_some h
    obtain ⟨hr, hch⟩ := allNodes_iff.1 he
    have key : List.Forall₂ (fun c c' => AllNodes P c' ∧ Equiv c' c) e.children m.children := by
      have : ∀ c ∈ e.children, ∀ c', postM f c = some c' → AllNodes P c' ∧ Equiv c' c :=
        fun c hcm c' hcc => ih c hcm c' (hch c hcm) hcc
      revert hc this
      generalize e.children = l
      generalize m.children = l'
      intro hc this
      induction hc with
      | nil => exact .nil
      | cons h1 h2 ih =>
        exact .cons (this _ (by simp) _ h1) (ih fun c hcm => this c (by simp [hcm]))
    have hm' : AllNodes P m := by
      rw [allNodes_iff]
      refine ⟨hs ▸ hr, ?_⟩
      intro c hcm
      revert key
      generalize e.children = l
      generalize m.children = l' at hcm
      intro key
      induction key with
      | nil => simp at hcm
      | cons h1 h2 ih =>
        rcases List.mem_cons.1 hcm with rfl | hcm
        · exact h1.1
        · exact ih hcm
    obtain ⟨h1, h2⟩ := hf m e' hm' hm
    refine ⟨h1, h2.trans (Equiv.congr hs.symm ?_)⟩
    exact key.flip.imp fun _ _ h => h.2

end R2U2
