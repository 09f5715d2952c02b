import Verif.Lemmas.Reach
import Verif.Model.Transform
import Verif.Spec.Shapes
import Mathlib.Tactic.Push
import Mathlib.Tactic.Tauto
/-
Lemmas about the transformation passes.
-/
namespace R2U2
open Expr Transform
variable {α : Type}

theorem sat_and (π : Trace α) (cs i) : sat π (.and cs) i ↔ ∀ c ∈ cs, sat π c i := by
  simp [sat, satAll_iff]
theorem sat_or (π : Trace α) (cs i) : sat π (.or cs) i ↔ ∃ c ∈ cs, sat π c i := by
  simp [sat, satAny_iff]

theorem bnfStep_equiv (e : Expr α) : Equiv (bnfStep e) e := by
  intro π i
  cases e <;> simp only [bnfStep]
  case or cs => simp [sat, satAll_iff, satAny_iff]
  case imp l r => simp [sat, satAll]
  case xor l r => simp only [sat, satAll]; tauto
  case fut lb ub e => simp [sat]
  case glob lb ub e => simp [sat]
  case rel lb ub l r => simp [sat]

theorem releaseStep_equiv (e : Expr α) : Equiv (releaseStep e) e := by
  intro π i
  cases e <;> simp only [releaseStep]
  case rel lb ub l r => simp [sat]

theorem extStep_equiv (e : Expr α) : Equiv (extStep e) e := by
  intro π i
  cases e <;> simp only [extStep]
  case xor l r => simp [sat]
  case imp l r => simp only [sat, satAny]; tauto
  case fut lb ub e => simp [sat]
  case glob lb ub e => simp [sat]
  case once lb ub e => simp [sat]
  case hist lb ub e => simp [sat]

/-! n-ary operators -/

theorem foldl_and_sat (π : Trace α) (i : Nat) (cs : List (Expr α)) (e : Expr α) :
    sat π (cs.foldl (fun acc c => .and [acc, c]) e) i ↔ sat π e i ∧ ∀ c ∈ cs, sat π c i := by
  induction cs generalizing e with
  | nil => simp
  | cons c cs ih => simp [ih, sat, satAll, and_assoc]

theorem foldl_or_sat (π : Trace α) (i : Nat) (cs : List (Expr α)) (e : Expr α) :
    sat π (cs.foldl (fun acc c => .or [acc, c]) e) i ↔ sat π e i ∨ ∃ c ∈ cs, sat π c i := by
  induction cs generalizing e with
  | nil => simp
  | cons c cs ih => simp [ih, sat, satAny, or_assoc]

theorem binarize_eq (mk : List (Expr α) → Expr α) (c0 c1 c2 : Expr α) (rest : List (Expr α)) :
    binarize mk c0 c1 c2 rest = (c2 :: rest).foldl (fun acc c => mk [acc, c]) (mk [c0, c1]) := by
  have h : (c2 :: rest) = (c2 :: rest).dropLast ++ [(c2 :: rest).getLast (by simp)] :=
    (List.dropLast_append_getLast _).symm
  conv => rhs; rw [h]
  rw [List.foldl_append]
  simp [binarize]

theorem binaryStep_equiv (e : Expr α) : Equiv (binaryStep e) e := by
  intro π i
  unfold binaryStep
  split
  · rw [binarize_eq, foldl_and_sat]; simp [sat, satAll, satAll_iff, and_assoc]
  · rw [binarize_eq, foldl_or_sat]; simp [sat, satAny, satAny_iff, or_assoc]
  · exact Iff.rfl

theorem flattenAnd_sat (π : Trace α) (i : Nat) (cs acc : List (Expr α)) :
    (∀ c ∈ flattenChildren andChildren acc cs, sat π c i) ↔
      (∀ c ∈ acc, sat π c i) ∧ ∀ c ∈ cs, sat π c i := by
  induction cs generalizing acc with
  | nil => simp [flattenChildren]
  | cons c cs ih =>
    unfold flattenChildren
    split
    · rename_i gs hg
      have hc : c = .and gs := by
        cases c <;> simp [andChildren] at hg; subst hg; rfl
      subst hc
      split <;> rw [ih] <;> simp [sat_and, or_imp, forall_and, and_assoc]
    · rw [ih]; simp [or_imp, forall_and, and_assoc]

theorem flattenOr_sat (π : Trace α) (i : Nat) (cs acc : List (Expr α)) :
    (∃ c ∈ flattenChildren orChildren acc cs, sat π c i) ↔
      (∃ c ∈ acc, sat π c i) ∨ ∃ c ∈ cs, sat π c i := by
  induction cs generalizing acc with
  | nil => simp [flattenChildren]
  | cons c cs ih =>
    unfold flattenChildren
    split
    · rename_i gs hg
      have hc : c = .or gs := by
        cases c <;> simp [orChildren] at hg; subst hg; rfl
      subst hc
      split <;> rw [ih] <;> simp [sat_or, or_and_right, exists_or, or_assoc]
    · rw [ih]; simp [or_and_right, exists_or, or_assoc]

theorem flattenStep_equiv (e : Expr α) : Equiv (flattenStep e) e := by
  intro π i
  cases e <;> simp only [flattenStep]
  case and cs => rw [sat_and, sat_and, flattenAnd_sat]; simp
  case or cs => rw [sat_or, sat_or, flattenOr_sat]; simp

theorem sortStep_equiv (key : Expr α → Int) (e : Expr α) : Equiv (sortStep key e) e := by
  intro π i
  cases e <;> simp only [sortStep]
  case and cs => simp [sat_and, sortByKey, List.mem_mergeSort]
  case or cs => simp [sat_or, sortByKey, List.mem_mergeSort]
  case xor l r => split <;> (simp only [sat]; try tauto)
  case iff l r => split <;> (simp only [sat]; try tauto)
  case equal l r => split <;> (simp only [sat]; try tauto)

/-! negative normal form -/

/-- the negated-xor case is the only unsound one -/
def NegXor : Expr α → Prop
  | .neg (.xor _ _) => True
  | _ => False

theorem nnfRule_equiv (e : Expr α) (h : ¬ NegXor e) : Equiv (nnfRule e) e := by
  intro π i
  unfold nnfRule
  split
  · simp [sat]
  · simp [sat, satAll_iff, satAny_iff]
  · simp [sat, satAll_iff, satAny_iff]
  · simp [sat, satAll]
  · simp [NegXor] at h
  · simp only [sat, satAll, satAny]; tauto
  · simp [sat]
  · simp [sat]
  · simp [sat]
  · simp [sat]
  · simp only [sat, satAny]; tauto
  · simp only [sat, satAll, satAny]; tauto
  · exact Iff.rfl

/-! fuel -/

theorem nnfDepthL_mem {c : Expr α} {cs : List (Expr α)} (h : c ∈ cs) : nnfDepth c ≤ nnfDepthL cs := by
  induction cs with
  | nil => simp at h
  | cons d ds ih =>
    simp only [nnfDepthL]
    rcases List.mem_cons.1 h with rfl | h
    · omega
    · have := ih h; omega

theorem nnfDepthL_map_neg (cs : List (Expr α)) :
    nnfDepthL (cs.map .neg) ≤ nnfDepthL cs + 1 := by
  induction cs with
  | nil => simp [nnfDepthL]
  | cons d ds ih => simp only [List.map_cons, nnfDepthL, nnfDepth]; omega

theorem nnfDepth_children {e c : Expr α} (h : c ∈ e.children) : nnfDepth c < nnfDepth e := by
  cases e <;> simp only [children, List.mem_cons, List.not_mem_nil, or_false] at h
  case and cs => have := nnfDepthL_mem h; simp only [nnfDepth]; omega
  case or cs => have := nnfDepthL_mem h; simp only [nnfDepth]; omega
  all_goals first
    | exact h.elim
    | (subst h; simp [nnfDepth])
    | (rcases h with rfl | rfl <;> simp only [nnfDepth] <;> omega)

theorem nnfDepth_rule (e : Expr α) : nnfDepth (nnfRule e) ≤ nnfDepth e := by
  unfold nnfRule
  split <;> (try simp only [nnfDepth, nnfDepthL]) <;>
    first
    | omega
    | (rename_i cs; have := nnfDepthL_map_neg cs; omega)

theorem nnfDepth_pos (e : Expr α) : 0 < nnfDepth e := by
  cases e <;> simp [nnfDepth]

theorem mapChildren_congr {f g : Expr α → Expr α} {e : Expr α}
    (h : ∀ c ∈ e.children, f c = g c) : mapChildren f e = mapChildren g e := by
  cases e <;> simp only [mapChildren, children] at *
  case and cs => simpa using h
  case or cs => simpa using h
  all_goals first
    | rfl
    | simp [h]

theorem nnfPass_stable : ∀ (n m : Nat) (e : Expr α), nnfDepth e ≤ n → nnfDepth e ≤ m →
    nnfPass n e = nnfPass m e
  | 0, _, e, h, _ => absurd h (by have := nnfDepth_pos e; omega)
  | _, 0, e, _, h => absurd h (by have := nnfDepth_pos e; omega)
  | n + 1, m + 1, e, hn, hm => by
    simp only [nnfPass]
    apply mapChildren_congr
    intro c hc
    have h1 := nnfDepth_children hc
    have h2 := nnfDepth_rule e
    exact nnfPass_stable n m c (by omega) (by omega)

theorem toNnf_eq (e : Expr α) : toNnf e = mapChildren toNnf (nnfRule e) := by
  have hp := nnfDepth_pos e
  unfold toNnf
  obtain ⟨n, hn⟩ : ∃ n, nnfDepth e = n + 1 := ⟨nnfDepth e - 1, by omega⟩
  rw [hn]
  simp only [nnfPass]
  apply mapChildren_congr
  intro c hc
  have h1 := nnfDepth_children hc
  have h2 := nnfDepth_rule e
  exact nnfPass_stable _ _ c (by omega) (by omega)

/-- Induction along the visits of `to_nnf`. -/
theorem nnfInduction {P : Expr α → Prop}
    (h : ∀ e, (∀ c ∈ (nnfRule e).children, P c) → P e) (e : Expr α) : P e := by
  apply h
  intro c hc
  exact nnfInduction h c
termination_by nnfDepth e
decreasing_by
  have h1 := nnfDepth_children hc
  have h2 := nnfDepth_rule e
  omega

theorem nowhere_iff {bad : Expr α → Prop} {e : Expr α} :
    Nowhere bad e ↔ ¬ bad e ∧ ∀ c ∈ e.children, Nowhere bad c :=
  ⟨fun h => by cases h; exact ⟨‹_›, ‹_›⟩, fun h => ⟨e, h.1, h.2⟩⟩

theorem Nowhere.child {bad : Expr α → Prop} {e c : Expr α} (h : Nowhere bad e)
    (hc : c ∈ e.children) : Nowhere bad c := (nowhere_iff.1 h).2 c hc

theorem nowhere_of_allNodes {bad : Expr α → Prop} {P : Shape α → Prop}
    (h : ∀ e, P e.shape → ¬ bad e) {e : Expr α} (he : AllNodes P e) : Nowhere bad e := by
  induction he with
  | intro e hr hc ih => exact ⟨e, h e hr, ih⟩

theorem allNodes_of_nowhere {bad : Expr α → Prop} {P : Shape α → Prop}
    (h : ∀ e, ¬ bad e → P e.shape) {e : Expr α} (he : Nowhere bad e) : AllNodes P e := by
  induction he with
  | intro e hr hc ih => exact ⟨e, h e hr, ih⟩

theorem nowhere_neg {bad : Expr α → Prop} (hb : ∀ x, ¬ bad (.neg x)) {e : Expr α} :
    Nowhere bad (.neg e) ↔ Nowhere bad e := by
  rw [nowhere_iff]; simp [children, hb]

theorem nnfRule_noXor {e : Expr α} (he : Nowhere isXor e) :
    ∀ c ∈ (nnfRule e).children, Nowhere isXor c := by
  have hneg : ∀ x : Expr α, Nowhere isXor (.neg x) ↔ Nowhere isXor x :=
    fun x => nowhere_neg (fun _ h => h)
  have hand : ∀ x : List (Expr α), Nowhere isXor (.and x) ↔ ∀ c ∈ x, Nowhere isXor c := by
    intro x; rw [nowhere_iff]; simp [children, isXor]
  revert he
  unfold nnfRule
  split
  case h_13 => intro he c hc; exact he.child hc
  all_goals
    intro he
    first
    | (rw [hneg, nowhere_iff] at he)
    | (rw [nowhere_iff] at he)
    simp only [children, isXor, List.mem_cons, List.not_mem_nil, or_false, forall_eq_or_imp,
      forall_eq, not_true_eq_false, false_and, not_false_eq_true, true_and, hneg, hand,
      List.mem_map, forall_exists_index, and_imp, forall_apply_eq_imp_iff₂] at he ⊢
  all_goals first
    | done
    | exact fun c hc => he.child hc
    | tauto

/-! max / min of lists -/

theorem le_maxL {l : List Int} {x : Int} (h : x ∈ l) : x ≤ maxL l := by
  induction l with
  | nil => simp at h
  | cons y l ih =>
    cases l with
    | nil => simp at h; simp [maxL, h]
    | cons z l =>
      simp only [maxL]
      rcases List.mem_cons.1 h with rfl | h
      · omega
      · have := ih h; omega

theorem maxL_mem {l : List Int} (h : l ≠ []) : maxL l ∈ l := by
  induction l with
  | nil => exact absurd rfl h
  | cons y l ih =>
    cases l with
    | nil => simp [maxL]
    | cons z l =>
      simp only [maxL]
      have := ih (by simp)
      by_cases hc : y ≤ maxL (z :: l)
      · rw [Int.max_eq_right hc]; exact List.mem_cons_of_mem _ this
      · rw [Int.max_eq_left (by omega)]; simp

theorem minL_le {l : List Int} {x : Int} (h : x ∈ l) : minL l ≤ x := by
  induction l with
  | nil => simp at h
  | cons y l ih =>
    cases l with
    | nil => simp at h; simp [minL, h]
    | cons z l =>
      simp only [minL]
      rcases List.mem_cons.1 h with rfl | h
      · omega
      · have := ih h; omega

theorem minL_mem {l : List Int} (h : l ≠ []) : minL l ∈ l := by
  induction l with
  | nil => exact absurd rfl h
  | cons y l ih =>
    cases l with
    | nil => simp [minL]
    | cons z l =>
      simp only [minL]
      have := ih (by simp)
      by_cases hc : y ≤ minL (z :: l)
      · rw [Int.min_eq_left hc]; simp
      · rw [Int.min_eq_right (by omega)]; exact List.mem_cons_of_mem _ this

theorem maxL_perm {l l' : List Int} (h : l.Perm l') : maxL l = maxL l' := by
  by_cases hl : l = []
  · subst hl; simp at h; subst h; rfl
  · have hl' : l' ≠ [] := by rintro rfl; simp at h; exact hl h
    have h1 := le_maxL (h.mem_iff.1 (maxL_mem hl))
    have h2 := le_maxL (h.mem_iff.2 (maxL_mem hl'))
    omega

theorem minL_perm {l l' : List Int} (h : l.Perm l') : minL l = minL l' := by
  by_cases hl : l = []
  · subst hl; simp at h; subst h; rfl
  · have hl' : l' ≠ [] := by rintro rfl; simp at h; exact hl h
    have h1 := minL_le (h.mem_iff.1 (minL_mem hl))
    have h2 := minL_le (h.mem_iff.2 (minL_mem hl'))
    omega

theorem sortByKey_perm (key : Expr α → Int) (cs : List (Expr α)) : (sortByKey key cs).Perm cs :=
  List.mergeSort_perm _ _

theorem sortByKey_sorted (key : Expr α → Int) (cs : List (Expr α)) :
    (sortByKey key cs).Pairwise (fun a b => key a ≤ key b) := by
  have := List.pairwise_mergeSort (le := fun a b => decide (key a ≤ key b))
    (by intro a b c h1 h2; simp only [decide_eq_true_eq] at *; omega)
    (by intro a b; simp only [Bool.or_eq_true, decide_eq_true_eq]; omega) cs
  simpa [sortByKey] using this

theorem pd_mapChildren {g : Expr α → Expr α} {e : Expr α}
    (h : ∀ c ∈ e.children, bpd (g c) = bpd c ∧ wpd (g c) = wpd c) :
    bpd (mapChildren g e) = bpd e ∧ wpd (mapChildren g e) = wpd e := by
  have hl : ∀ cs : List (Expr α), (∀ c ∈ cs, bpd (g c) = bpd c ∧ wpd (g c) = wpd c) →
      bpdL (cs.map g) = bpdL cs ∧ wpdL (cs.map g) = wpdL cs := by
    intro cs hcs
    rw [bpdL_eq, bpdL_eq, wpdL_eq, wpdL_eq]
    constructor
    · simp only [List.map_map]; exact List.map_congr_left fun c hc => (hcs c hc).1
    · simp only [List.map_map]; exact List.map_congr_left fun c hc => (hcs c hc).2
  cases e <;> simp only [children] at h
  case and cs => simp [mapChildren, bpd, wpd, hl cs h]
  case or cs => simp [mapChildren, bpd, wpd, hl cs h]
  all_goals simp_all [mapChildren, bpd, wpd]

theorem pd_sortStep (key : Expr α → Int) (e : Expr α) :
    bpd (sortStep key e) = bpd e ∧ wpd (sortStep key e) = wpd e := by
  cases e <;> simp only [sortStep, and_self]
  case and cs | or cs =>
    simp only [bpd, wpd, bpdL_eq, wpdL_eq]
    exact ⟨minL_perm ((sortByKey_perm key cs).map _), maxL_perm ((sortByKey_perm key cs).map _)⟩
  case xor l r | iff l r | equal l r =>
    split
    · exact ⟨rfl, rfl⟩
    · simp only [bpd, wpd]; constructor <;> omega

theorem pd_sortOperands (key : Expr α → Int) (e : Expr α) :
    bpd (sortOperands key e) = bpd e ∧ wpd (sortOperands key e) = wpd e := by
  induction e using childInduction with
  | h e ih =>
    unfold sortOperands
    rw [post_eq, (pd_sortStep key _).1, (pd_sortStep key _).2]
    exact pd_mapChildren ih

theorem leavesL_append (l l' : List (Expr α)) : leavesL (l ++ l') = leavesL l ++ leavesL l' := by
  induction l with
  | nil => simp [leavesL]
  | cons c l ih => simp [leavesL, ih]

theorem leavesL_map {g : Expr α → Expr α} {cs : List (Expr α)}
    (h : ∀ c ∈ cs, leaves (g c) = leaves c) : leavesL (cs.map g) = leavesL cs := by
  induction cs with
  | nil => rfl
  | cons c cs ih =>
    simp [leavesL, h c (by simp), ih fun d hd => h d (by simp [hd])]

theorem leaves_mapChildren {g : Expr α → Expr α} {e : Expr α}
    (h : ∀ c ∈ e.children, leaves (g c) = leaves c) : leaves (mapChildren g e) = leaves e := by
  cases e <;> simp only [children] at h
  case and cs => simp only [mapChildren, leaves]; exact leavesL_map h
  case or cs => simp only [mapChildren, leaves]; exact leavesL_map h
  all_goals simp_all [mapChildren, leaves]

theorem leaves_post {f : Expr α → Expr α} (hf : ∀ e, leaves (f e) = leaves e) (e : Expr α) :
    leaves (post f e) = leaves e := by
  induction e using childInduction with
  | h e ih => rw [post_eq, hf]; exact leaves_mapChildren ih

theorem leaves_flattenChildren (same : Expr α → Option (List (Expr α)))
    (hs : ∀ e gs, same e = some gs → leaves e = leavesL gs) (acc cs : List (Expr α)) :
    leavesL (flattenChildren same acc cs) = leavesL acc ++ leavesL cs := by
  induction cs generalizing acc with
  | nil => simp [flattenChildren, leavesL]
  | cons c cs ih =>
    unfold flattenChildren
    split
    · rename_i gs hg
      split
      · rw [ih, leavesL_append]; simp [leavesL, hs c gs hg]
      · rw [ih, leavesL_append]; simp [leavesL]
    · rw [ih, leavesL_append]; simp [leavesL]

theorem leaves_flattenStep (e : Expr α) : leaves (flattenStep e) = leaves e := by
  cases e <;> simp only [flattenStep]
  case and cs =>
    simp only [leaves]
    rw [leaves_flattenChildren]
    · simp [leavesL]
    · intro e gs h; cases e <;> simp [andChildren] at h; subst h; simp [leaves]
  case or cs =>
    simp only [leaves]
    rw [leaves_flattenChildren]
    · simp [leavesL]
    · intro e gs h; cases e <;> simp [orChildren] at h; subst h; simp [leaves]

theorem leaves_foldl (mk : List (Expr α) → Expr α) (hmk : ∀ l, leaves (mk l) = leavesL l)
    (cs : List (Expr α)) (a : Expr α) :
    leaves (cs.foldl (fun acc c => mk [acc, c]) a) = leaves a ++ leavesL cs := by
  induction cs generalizing a with
  | nil => simp [leavesL]
  | cons c cs ih => simp [ih, hmk, leavesL]

theorem leaves_binaryStep (e : Expr α) : leaves (binaryStep e) = leaves e := by
  unfold binaryStep
  split
  · rw [binarize_eq, leaves_foldl _ (fun _ => by simp [leaves])]; simp [leaves, leavesL]
  · rw [binarize_eq, leaves_foldl _ (fun _ => by simp [leaves])]; simp [leaves, leavesL]
  · rfl

end R2U2
