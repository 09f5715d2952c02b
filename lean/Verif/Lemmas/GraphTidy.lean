import Verif.Lemmas.GraphShape
import Verif.Lemmas.GraphRel
/-
The shapes the passes leave behind.
-/
namespace R2U2
open Heap Expr GraphPass

theorem multi_iff {l : Lab} : multiArity l = true ↔ l = .op .and ∨ l = .op .or ∨ l = .op .add ∨ l = .op .mul :=
  ⟨multi_cases, by rintro (rfl | rfl | rfl | rfl) <;> rfl⟩

theorem Bud.news_old (xs : List Nat) : Bud.newsL (xs.map (Bud.old (L := Lab))) = [] := by
  induction xs with
  | nil => rfl
  | cons x xs ih => simp [Bud.newsL, Bud.news, ih]

theorem Bud.news_neg_old (xs : List Nat) (p) (hp : p ∈ Bud.newsL (xs.map fun c => Bud.neg (.old c))) : p = (Lab.op .neg, 1) := by
  induction xs with
  | nil => simp [Bud.newsL] at hp
  | cons x xs ih =>
    simp only [List.map_cons, Bud.newsL, Bud.neg, Bud.news, List.append_nil, List.length_cons, List.length_nil, List.mem_append,
      List.mem_cons, List.not_mem_nil, or_false] at hp
    rcases hp with hp | hp
    · exact hp
    · exact ih hp

macro "rule_cases" hr:ident : tactic => `(tactic|
  (split at $hr:ident <;>
    simp only [Option.bind_eq_bind, Option.bind_eq_some_iff, Option.some.injEq, reduceCtorEq, and_false, exists_false] at $hr:ident))

/-- Shapes of the new nodes, listed. -/
macro "all_news" : tactic => `(tactic|
  (simp [Bud.neg, Bud.and, Bud.or, Bud.iff, Bud.tmp, Bud.cst, Bud.news, Bud.newsL, Lab.bnfGone, Lab.extended, Lab.release, atMostTwo,
    hasOperands]))

/-- Nodes left alone. -/
macro "rest_cases" : tactic => `(tactic|
  (intro h x hr
   revert hr
   generalize h.lab x = l
   intro hr
   cases l with
   | op o => cases o <;> first | rfl | (exfalso; simp [Option.bind_eq_some_iff] at hr; done)
   | tmp o lb ub => cases o <;> first | rfl | (exfalso; simp [Option.bind_eq_some_iff] at hr; done)
   | _ => rfl))

theorem bnf_shape : RuleShape bnfRule (fun l => l.frame = true) (fun l _ => l.bnfGone = false) (fun l _ => l.bnfGone = false) where
  news := by
    intro h x b hr
    unfold bnfRule at hr
    rule_cases hr
    · subst hr
      simp only [Bud.neg, Bud.and, Bud.news, Bud.newsL, List.append_nil, List.length_cons, List.length_nil, List.mem_cons]
      rintro p (rfl | rfl | hp)
      · rfl
      · rfl
      · rw [Bud.news_neg_old _ _ hp]; rfl
    · obtain ⟨_, _, _, _, rfl⟩ := hr; all_news
    · obtain ⟨_, _, _, _, rfl⟩ := hr; all_news
    · obtain ⟨_, _, rfl⟩ := hr; all_news
    · obtain ⟨_, _, rfl⟩ := hr; all_news
    · obtain ⟨_, _, _, _, rfl⟩ := hr; all_news
  frame := by
    intro h x b hr
    unfold bnfRule at hr
    split at hr <;> first | (rename_i hh; rw [hh]; simp [Lab.frame]; done) | cases hr
  rest := by unfold bnfRule; rest_cases
  incl _ _ h := h

theorem ext_shape : RuleShape extRule (fun l => l.frame = true) (fun l k => l.extended = false ∧ atMostTwo l k ∧ hasOperands l k)
    (fun l _ => l.extended = false) where
  news := by
    intro h x b hr
    unfold extRule at hr
    rule_cases hr
    · obtain ⟨_, _, _, _, rfl⟩ := hr; all_news
    · obtain ⟨_, _, _, _, rfl⟩ := hr; all_news
    · obtain ⟨_, _, rfl⟩ := hr; all_news
    · obtain ⟨_, _, rfl⟩ := hr; all_news
    · obtain ⟨_, _, rfl⟩ := hr; all_news
    · obtain ⟨_, _, rfl⟩ := hr; all_news
  frame := by
    intro h x b hr
    unfold extRule at hr
    split at hr <;> first | (rename_i hh; rw [hh]; simp [Lab.frame]; done) | cases hr
  rest := by unfold extRule; rest_cases
  incl _ _ h := h.1

theorem release_shape : RuleShape releaseRule (fun l => l.frame = true) (fun l _ => l.release = false) (fun l _ => l.release = false) where
  news := by
    intro h x b hr
    unfold releaseRule at hr
    rule_cases hr
    · obtain ⟨_, _, _, _, rfl⟩ := hr; all_news
  frame := by
    intro h x b hr
    unfold releaseRule at hr
    split at hr <;> first | (rename_i hh; rw [hh]; simp [Lab.frame]; done) | cases hr
  rest := by unfold releaseRule; rest_cases
  incl _ _ h := h

theorem chain_news (l : Lab) (c0 c1 c2 : Nat) (rest : List Nat) : ∀ p ∈ (chain l c0 c1 c2 rest).news, p = (l, 2) := by
  have key : ∀ (cs : List Nat) (b : Bud Lab), (∀ p ∈ b.news, p = (l, 2)) →
      ∀ p ∈ (cs.foldl (fun acc c => Bud.new l [acc, .old c]) b).news, p = (l, 2) := by
    intro cs
    induction cs with
    | nil => exact fun b hb => hb
    | cons c cs ih =>
      intro b hb
      refine ih _ ?_
      simp only [Bud.news, Bud.newsL, List.append_nil, List.length_cons, List.length_nil, List.mem_cons]
      rintro p (rfl | hp)
      · rfl
      · exact hb p hp
  simp only [chain, Bud.news, Bud.newsL, List.append_nil, List.length_cons, List.length_nil, List.mem_cons]
  rintro p (rfl | hp)
  · rfl
  · exact key _ _ (by simp [Bud.news, Bud.newsL]) p hp

theorem binary_shape : RuleShape binaryRule (fun l => l.frame = true) (fun l k => multiArity l = true ∧ k = 2) atMostTwo where
  news := by
    intro h x b hr p hp
    unfold binaryRule at hr
    split at hr
    · rename_i hm
      split at hr
      · cases hr
        rw [chain_news _ _ _ _ _ p hp]; exact ⟨hm, rfl⟩
      · cases hr
    · cases hr
  frame := by
    intro h x b hr
    unfold binaryRule at hr
    split at hr
    · rename_i hm
      revert hm
      cases h.lab x <;> simp [multiArity, Lab.frame]
    · cases hr
  rest := by
    intro h x hr hm
    rw [← multi_iff] at hm
    unfold binaryRule at hr
    rw [if_pos hm] at hr
    split at hr
    · cases hr
    · rename_i hk
      match hx : h.kids x with
      | [] | [_] | [_, _] => simp
      | a :: b :: c :: r => exact absurd hx (hk a b c r)
  incl _ _ h _ := by omega

theorem flatten_shape : RuleShape flattenRule (fun l => l.frame = true) (fun _ _ => True) (fun _ _ => True) where
  news _ _ _ _ _ _ := trivial
  frame := by
    intro h x b hr
    unfold flattenRule at hr
    split at hr
    · rename_i hm
      revert hm
      cases h.lab x <;> simp [multiArity, Lab.frame]
    · cases hr
  rest _ _ _ := trivial
  incl _ _ _ := trivial

theorem opt_shape (fuel : Nat) : RuleShape (optRule fuel) (fun l => l.frame = true) (fun _ _ => True) (fun _ _ => True) where
  news _ _ _ _ _ _ := trivial
  frame := by intro h x b hr; rw [opt_frame hr]; simp
  rest _ _ _ := trivial
  incl _ _ _ := trivial

end R2U2
