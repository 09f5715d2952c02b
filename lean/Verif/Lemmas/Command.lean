import Verif.Spec.Command
import Mathlib.Tactic.SplitIfs
/-
Helper lemmas for C33.
-/
namespace R2U2
variable {P C : Type} {view : P → C → GState} {copy : P → C → C × (P × C)}

theorem checkGuards_none {s : GState} : ∀ {gs : List Guard}, checkGuards s gs = none →
    ∀ g ∈ gs, g.holds s = true ∧ ∀ d ∈ g.deps, d.holds s = true
  | [], _ => by simp
  | g :: gs, h => by
      simp only [checkGuards] at h
      split_ifs at h with h1
      cases h2 : g.deps.find? fun d => !d.holds s with
      | some d => simp [h2] at h
      | none =>
          rw [h2] at h
          simp only [List.find?_eq_none] at h2
          intro g' hg'
          rcases List.mem_cons.1 hg' with rfl | hg'
          · exact ⟨h1, fun d hd => by simpa using h2 d hd⟩
          · exact checkGuards_none h g' hg'

theorem checkGuards_some {s : GState} {g : Guard} : ∀ {gs : List Guard}, checkGuards s gs = some g →
    g.holds s = false ∧ Needed gs g
  | [], h => by simp [checkGuards] at h
  | a :: gs, h => by
      simp only [checkGuards] at h
      split_ifs at h with h1
      · cases h2 : a.deps.find? fun d => !d.holds s with
        | some d =>
            rw [h2] at h
            cases h
            exact ⟨by simpa using List.find?_some h2, .dependency (.guard (by simp)) (List.mem_of_find?_eq_some h2)⟩
        | none =>
            rw [h2] at h
            obtain ⟨h3, h4⟩ := checkGuards_some h
            refine ⟨h3, ?_⟩
            clear h h3
            induction h4 with
            | guard hg => exact .guard (List.mem_cons_of_mem _ hg)
            | dependency _ hd ih => exact .dependency ih hd
      · cases h
        exact ⟨by simpa using h1, .guard (by simp)⟩

mutual
theorem execute_calls {x : Call P C} : ∀ (d : Cmd P C) (p : P) (c : C), d.failedGuard view p c = none →
    x ∈ (d.execute view p c).2.2 → checkGuards (view x.prog x.ctx) x.guards = none
  | .prim n gs f, p, c, hg, hx => by
      have : (Cmd.execute view p c (.prim n gs f)).2.2 = [⟨n, gs, p, c⟩] := by
        simp only [Cmd.execute]
        split <;> rfl
      rw [this] at hx
      rw [List.mem_singleton] at hx
      rw [hx]
      exact hg
  | .comp n cs, p, c, _, hx => steps_calls cs p c hx
theorem steps_calls {x : Call P C} : ∀ (ds : List (Cmd P C)) (p : P) (c : C),
    x ∈ (Cmd.steps view p c ds).2.2 → checkGuards (view x.prog x.ctx) x.guards = none
  | [], p, c, hx => by simp [Cmd.steps] at hx
  | d :: ds, p, c, hx => by
      simp only [Cmd.steps] at hx
      cases hg : d.failedGuard view p c with
      | some g => simp [hg] at hx
      | none =>
          have h1 := execute_calls (x := x) d p c hg
          rw [hg] at hx
          rcases he : d.execute view p c with ⟨s, r, l⟩
          rw [he] at h1 hx
          simp only at h1 hx
          split at hx
          · rename_i h2
            simp only [Prod.mk.injEq] at h2
            obtain ⟨rfl, _, rfl⟩ := h2
            rcases List.mem_append.1 hx with hx | hx
            · exact h1 hx
            · exact steps_calls ds s.1 s.2 hx
          · rename_i h2
            simp only [Prod.mk.injEq] at h2
            obtain ⟨_, _, rfl⟩ := h2
            exact h1 hx
end

theorem step_calls {x : Call P C} {k : Console P C} {i : Line P C} (hx : x ∈ (k.step view copy i).2) :
    checkGuards (view x.prog x.ctx) x.guards = none := by
  cases i with
  | run d =>
      simp only [Console.step] at hx
      cases hg : d.failedGuard view k.prog k.ctx with
      | some g => simp [hg] at hx
      | none =>
          have h1 := execute_calls (x := x) d _ _ hg
          rw [hg] at hx
          simp only at hx
          rcases he : d.execute view k.prog k.ctx with ⟨s, r, l⟩
          rw [he] at h1 hx
          cases r <;> exact h1 hx
  | pop => simp only [Console.step] at hx; split at hx <;> simp at hx
  | _ => simp [Console.step] at hx

theorem session_calls {x : Call P C} : ∀ (xs : List (Line P C)) (k : Console P C), x ∈ (k.session view copy xs).2 →
    checkGuards (view x.prog x.ctx) x.guards = none
  | [], k, hx => by simp [Console.session] at hx
  | i :: xs, k, hx => by
      simp only [Console.session] at hx
      rcases List.mem_append.1 hx with hx | hx
      · exact step_calls hx
      · exact session_calls xs _ hx

theorem steps_ran {n : String} : ∀ (ds : List (Cmd P C)) (p : P) (c : C) {s r l}, Cmd.steps view p c ds = (s, r, l) →
    (r = .code .success ∧ AllRan view p c ds s.1 s.2 l) ∨
    ∃ pre d post p1 c1 l1, ds = pre ++ d :: post ∧ AllRan view p c pre p1 c1 l1 ∧
      ((∃ g, d.failedGuard view p1 c1 = some g ∧ s = (p1, c1) ∧ r = .guard d.name g ∧ l = l1) ∨
       (d.failedGuard view p1 c1 = none ∧ r ≠ .code .success ∧ ∃ l2, d.execute view p1 c1 = (s, r, l2) ∧ l = l1 ++ l2))
  | [], p, c, s, r, l, h => by
      simp only [Cmd.steps, Prod.mk.injEq] at h
      obtain ⟨rfl, rfl, rfl⟩ := h
      exact .inl ⟨rfl, .nil⟩
  | d :: ds, p, c, s, r, l, h => by
      simp only [Cmd.steps] at h
      cases hg : d.failedGuard view p c with
      | some g =>
          simp only [hg, Prod.mk.injEq] at h
          obtain ⟨rfl, rfl, rfl⟩ := h
          exact .inr ⟨[], d, ds, p, c, [], rfl, .nil, .inl ⟨g, hg, rfl, rfl, rfl⟩⟩
      | none =>
          rw [hg] at h
          simp only at h
          split at h
          · rename_i s1 l1 he
            rcases hs : Cmd.steps view s1.1 s1.2 ds with ⟨s', r', l'⟩
            rw [hs] at h
            simp only [Prod.mk.injEq] at h
            obtain ⟨rfl, rfl, rfl⟩ := h
            rcases steps_ran (n := n) ds s1.1 s1.2 hs with ⟨h1, h2⟩ | ⟨pre, d', post, p1, c1, l2, rfl, h2, h3⟩
            · exact .inl ⟨h1, .cons hg he h2⟩
            · refine .inr ⟨d :: pre, d', post, p1, c1, l1 ++ l2, rfl, .cons hg he h2, ?_⟩
              rcases h3 with ⟨g, a, b, e, rfl⟩ | ⟨a, b, l3, e, rfl⟩
              · exact .inl ⟨g, a, b, e, rfl⟩
              · exact .inr ⟨a, b, l3, e, (List.append_assoc ..).symm⟩
          · rename_i s1 r1 l1 hne he
            simp only [Prod.mk.injEq] at h
            obtain ⟨rfl, rfl, rfl⟩ := h
            refine .inr ⟨[], d, ds, p, c, [], rfl, .nil, .inr ⟨hg, ?_, l1, he, rfl⟩⟩
            intro hr
            exact hne hr

theorem setCode_success {k : Console P C} {r : ReturnCode} (h : (k.setCode r).code = .success) :
    r = .success ∧ k.code = .success := by
  unfold Console.setCode at h
  split_ifs at h with h1
  · exact absurd h (by simpa [ReturnCode.isError] using h1)
  · exact ⟨by simpa [ReturnCode.isError] using h1, h⟩

theorem setCode_fields (k : Console P C) (r : ReturnCode) :
    (k.setCode r).prog = k.prog ∧ (k.setCode r).ctx = k.ctx ∧ (k.setCode r).stack = k.stack := by
  unfold Console.setCode
  split_ifs <;> simp

theorem step_success {k : Console P C} {i : Line P C} (h : (k.step view copy i).1.code = .success) :
    k.code = .success ∧ i.Worked view k := by
  cases i with
  | blank => exact ⟨h, trivial⟩
  | push => exact ⟨h, trivial⟩
  | unsplittable => exact absurd (setCode_success h).1 (by simp)
  | unknown => exact absurd (setCode_success h).1 (by simp)
  | badArgs => exact absurd (setCode_success h).1 (by simp)
  | pop =>
      simp only [Console.step] at h
      cases hs : k.stack with
      | nil => rw [hs] at h; exact absurd (setCode_success h).1 (by simp)
      | cons s st => rw [hs] at h; exact ⟨h, by simp [Line.Worked, hs]⟩
  | run d =>
      simp only [Console.step] at h
      cases hg : d.failedGuard view k.prog k.ctx with
      | some g => rw [hg] at h; exact absurd (setCode_success h).1 (by simp)
      | none =>
          rw [hg] at h
          simp only at h
          rcases he : d.execute view k.prog k.ctx with ⟨s, r, l⟩
          rw [he] at h
          cases r with
          | program q => exact ⟨h, hg, .inr ⟨s, q, l, he⟩⟩
          | nothing => exact absurd (setCode_success h).1 (by simp)
          | guard => exact absurd (setCode_success h).1 (by simp)
          | code r =>
              obtain ⟨rfl, h2⟩ := setCode_success h
              exact ⟨h2, hg, .inl ⟨s, l, he⟩⟩

end R2U2
