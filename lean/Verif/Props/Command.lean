import Verif.Lemmas.Command
/-
C33: guards of commands, composite commands, and the console's return code.
-/
namespace R2U2
variable {P C : Type} {view : P → C → GState} {copy : P → C → C × (P × C)}

/-- **C33 (partial).** In every session, from any console, whatever the functions of the commands do: the function of
a command is called only in states where each of its guards holds and each condition a guard directly depends on.
Missing: conditions those depend on in turn; `C33_fails` shows that they are not checked. -/
theorem C33_guards_partial (k : Console P C) (xs : List (Line P C)) (x : Call P C)
    (hx : x ∈ (k.session view copy xs).2) (g : Guard) (hg : g ∈ x.guards) :
    g.holds (view x.prog x.ctx) = true ∧ ∀ d ∈ g.deps, d.holds (view x.prog x.ctx) = true :=
  checkGuards_none (session_calls xs k hx) g hg

/-- The commands that ask for computed atomics or an assembled program and for nothing else. -/
def weakCommands : List String :=
  ["print_mltl", "write_mltl", "write_eqsat_encoding", "optimize_eqsat", "write_bounds_c", "write_bounds_rust", "run_r2u2"]

/-- **C33 (partial).** For every registered command except the seven of `weakCommands`, the function is called only in
states where everything the command needs holds, directly or not. -/
theorem C33_all_partial (k : Console P C) (xs : List (Line P C)) (x : Call P C)
    (hx : x ∈ (k.session view copy xs).2) (hr : (x.name, x.guards) ∈ registry) (hw : x.name ∉ weakCommands)
    (g : Guard) (hg : Needed x.guards g) : g.holds (view x.prog x.ctx) = true := by
  have h := checkGuards_none (session_calls xs k hx)
  obtain ⟨n, gs, p, c⟩ := x
  simp only at h hr hw hg ⊢
  have hval : Guard.wellTyped.holds (view p c) = true → Guard.validProgram.holds (view p c) = true := by
    simp only [Guard.holds, Bool.and_eq_true]
    exact fun h => h.1
  have key : (∀ g ∈ gs, g = .validProgram ∨ g = .validMapping ∨ g = .wellTyped ∨ g = .desugared) ∨
      (Guard.wellTyped ∈ gs ∧ Guard.desugared ∈ gs ∧ Guard.assembled ∉ gs) := by
    have : ∀ e ∈ registry, e.1 ∉ weakCommands →
        (∀ g ∈ e.2, g = .validProgram ∨ g = .validMapping ∨ g = .wellTyped ∨ g = .desugared) ∨
        (Guard.wellTyped ∈ e.2 ∧ Guard.desugared ∈ e.2 ∧ Guard.assembled ∉ e.2) := by decide +kernel
    exact this (n, gs) hr hw
  rcases key with hk | ⟨hk, hd, hb⟩
  · have : g.holds (view p c) = true ∧ (∀ d ∈ g.deps, d.holds (view p c) = true) ∧
        (g = .validProgram ∨ g = .validMapping ∨ g = .wellTyped ∨ g = .desugared) := by
      induction hg with
      | guard hm => exact ⟨(h _ hm).1, (h _ hm).2, hk _ hm⟩
      | dependency _ hd ih =>
          obtain ⟨_, h2, rfl | rfl | rfl | rfl⟩ := ih <;> simp only [Guard.deps, List.mem_singleton, List.not_mem_nil] at hd
          · subst hd
            exact ⟨h2 _ (by simp [Guard.deps]), by simp [Guard.deps], .inl rfl⟩
          · subst hd
            have := h2 .wellTyped (by simp [Guard.deps])
            exact ⟨this, by simpa [Guard.deps] using hval this, .inr (.inr (.inl rfl))⟩
    exact this.1
  · have hW := (h _ hk).1
    have hD := (h _ hd).1
    have : g.holds (view p c) = true ∧ (g = .atomicMapping → g ∈ gs) ∧ g ≠ .assembled := by
      induction hg with
      | guard hm => exact ⟨(h _ hm).1, fun _ => hm, fun e => hb (e ▸ hm)⟩
      | @dependency g d _ hd' ih =>
          obtain ⟨h1, h2, h3⟩ := ih
          cases g <;> simp only [Guard.deps, List.mem_singleton, List.not_mem_nil] at hd'
          case atomicMapping =>
            refine ⟨(h _ (h2 rfl)).2 d (by simpa [Guard.deps] using hd'), ?_, ?_⟩ <;>
              (simp only [List.mem_cons, List.not_mem_nil, or_false] at hd'; rcases hd' with rfl | rfl <;> simp)
          case assembled => exact absurd rfl h3
          all_goals subst hd'; simp [hW, hD, hval]
    exact this.1

/-- **C33, assembly.** Whatever was done before, assembling starts only in states with a parsed and well-typed program
whose nodes are all ready for it, and generating SABRE code only on well-typed pure MLTL. -/
theorem C33_assembly (k : Console P C) (xs : List (Line P C)) (x : Call P C)
    (hx : x ∈ (k.session view copy xs).2) (hr : (x.name, x.guards) ∈ registry) :
    (x.name = "unsafe_assemble" → (view x.prog x.ctx).dummy = false ∧ (view x.prog x.ctx).typed = true ∧
      ∀ n ∈ (view x.prog x.ctx).nodes, n.Assemblable (view x.prog x.ctx)) ∧
    (x.name = "generate_sabre_code" → (view x.prog x.ctx).dummy = false ∧ (view x.prog x.ctx).typed = true ∧
      ∀ n ∈ (view x.prog x.ctx).nodes, n.Pure) := by
  have h := checkGuards_none (session_calls xs k hx)
  obtain ⟨nm, gs, p, c⟩ := x
  simp only at h hr ⊢
  generalize view p c = s at h ⊢
  have key : ∀ e ∈ registry, (e.1 = "unsafe_assemble" → ∀ g ∈ [Guard.validMapping, .wellTyped, .desugared, .scqSizes, .atomics, .onlyBinary,
      .atomicMapping], g ∈ e.2) ∧ (e.1 = "generate_sabre_code" → ∀ g ∈ [Guard.wellTyped, .pureMltl], g ∈ e.2) := by
    decide +kernel
  obtain ⟨h1, h2⟩ := key (nm, gs) hr
  refine ⟨fun hn => ?_, fun hn => ?_⟩
  · have hg : ∀ g ∈ [Guard.validMapping, .wellTyped, .desugared, .scqSizes, .atomics, .onlyBinary, .atomicMapping], g.holds s = true :=
      fun g hg => (h g (h1 hn g hg)).1
    simp only [List.mem_cons, List.not_mem_nil, or_false, forall_eq_or_imp, forall_eq, Guard.holds, Bool.and_eq_true,
      Bool.not_eq_true', List.all_eq_true, decide_eq_true_eq, bne_iff_ne, Bool.or_eq_true, Bool.or_eq_false_iff, beq_iff_eq] at hg
    obtain ⟨hm, ⟨hd, ht⟩, hs, hq, ha, hb, hi⟩ := hg
    refine ⟨hd, ht, fun n hn => ⟨hs n hn, fun hc => ?_, fun htl => ?_, fun i hi => ?_, fun x i hc => ?_, fun hc => ?_, fun x i hc hz => ?_⟩⟩
    · exact (hb n hn).resolve_left hc
    · exact (hq n hn).resolve_left (by simp [htl])
    · exact (hq n hn).resolve_left (by simp [hi])
    · have := hm n hn
      simpa [hc] using this
    · have := ha n hn
      simp only [hc] at this
      exact Option.isSome_iff_exists.1 this
    · rcases hi with hi | hi
      · rw [hz] at hi; cases hi
      · have := hi n hn
        simpa [hc] using this
  · have hg : ∀ g ∈ [Guard.wellTyped, .pureMltl], g.holds s = true := fun g hg => (h g (h2 hn g hg)).1
    simp only [List.mem_cons, List.not_mem_nil, or_false, forall_eq_or_imp, forall_eq, Guard.holds, Bool.and_eq_true,
      Bool.not_eq_true', List.all_eq_true] at hg
    obtain ⟨⟨hd, ht⟩, hp⟩ := hg
    refine ⟨hd, ht, fun n hn => ?_⟩
    have := hp n hn
    unfold GNode.Pure
    cases hc : n.cls with
    | const b => cases b <;> simp [hc] at this ⊢
    | _ => simp [hc] at this ⊢

/-- A session that assembles `p0: G[0,3] a` after the steps before it. -/
example :
    let s : GState := {
      typed := true, mapping := [("a", 0)], atomicIds := [(0, 0)],
      nodes := [⟨0, .signal "a" 0, 0, false, 4⟩, ⟨1, .temporal false, 1, true, 1⟩, ⟨2, .formula, 1, true, 1⟩, ⟨3, .specSet, 1, false, -1⟩] }
    ∃ gs, ("unsafe_assemble", gs) ∈ registry ∧
      (Console.session (fun (p : GState) (_ : Unit) => p) (fun p c => (c, (p, c))) ⟨s, (), .success, []⟩
        [.run (.prim "unsafe_assemble" gs fun p c => ((p, c), .code .success))]).2.map (·.name) = ["unsafe_assemble"] :=
  ⟨[.validProgram, .validMapping, .wellTyped, .desugared, .scqSizes, .atomics, .onlyBinary, .atomicMapping], by decide +kernel, by decide +kernel⟩

/-- **C33, reporting a guard.** A condition reported as not met is one the command needs, and it does not hold. -/
theorem C33_reported_guard (s : GState) (gs : List Guard) (g : Guard) (h : checkGuards s gs = some g) :
    Needed gs g ∧ g.holds s = false := ⟨(checkGuards_some h).2, (checkGuards_some h).1⟩

/-- **C33, composite commands.** Either all steps ran successfully one after the other, or the steps before some step
did and that step failed: its guards were not met and this is what is reported, nothing having been called, or it was
executed and its result, which is not success, is the result.  Later steps are not executed: the calls are those
of the steps up to there. -/
theorem C33_composite (n : String) (cs : List (Cmd P C)) (p : P) (c : C) {s : P × C} {r : Result P}
    {l : List (Call P C)} (h : (Cmd.comp n cs).execute view p c = (s, r, l)) :
    (r = .code .success ∧ AllRan view p c cs s.1 s.2 l) ∨
    ∃ pre d post p1 c1 l1, cs = pre ++ d :: post ∧ AllRan view p c pre p1 c1 l1 ∧
      ((∃ g, d.failedGuard view p1 c1 = some g ∧ s = (p1, c1) ∧ r = .guard d.name g ∧ l = l1) ∨
       (d.failedGuard view p1 c1 = none ∧ r ≠ .code .success ∧ ∃ l2, d.execute view p1 c1 = (s, r, l2) ∧ l = l1 ++ l2)) :=
  steps_ran (n := n) cs p c (by rw [← h, Cmd.execute])

/-- **C33, reporting by the console.** A session ends with return code 0 only if it began with 0 and every line
worked in the state it was run in: a failure, once reported, is not forgotten. -/
theorem C33_reported (k : Console P C) (xs : List (Line P C)) (h : (k.session view copy xs).1.code = .success) :
    k.code = .success ∧ ∀ pre x post, xs = pre ++ x :: post → x.Worked view (k.session view copy pre).1 := by
  induction xs generalizing k with
  | nil => exact ⟨h, by simp⟩
  | cons i xs ih =>
      simp only [Console.session] at h
      obtain ⟨h1, h2⟩ := ih _ h
      obtain ⟨h3, h4⟩ := step_success h1
      refine ⟨h3, ?_⟩
      intro pre x post he
      cases pre with
      | nil =>
          simp only [List.nil_append, List.cons.injEq] at he
          obtain ⟨rfl, rfl⟩ := he
          exact h4
      | cons y pre =>
          simp only [List.cons_append, List.cons.injEq] at he
          obtain ⟨rfl, rfl⟩ := he
          exact h2 pre x post rfl

/-- The state after parsing `p0: a;` without type checking: a variable, a formula and the two specification sets. -/
def gParsed : GState :=
  { nodes := [⟨0, .other, 0, false, -1⟩, ⟨1, .formula, 1, true, -1⟩, ⟨2, .specSet, 1, false, -1⟩, ⟨3, .specSet, 0, false, -1⟩] }

/-- `parse_c2po` of that program. -/
def gParse : Cmd GState Unit := .prim "parse_c2po" [] fun p c => ((p, c), .program gParsed)

/-- **C33 fails.** `write_mltl` needs a well-typed program, since computed atomics depend on a desugared program and
that on a well-typed one.  It is called on a program that was only parsed, whatever it does. -/
theorem C33_fails (f : GState → Unit → (GState × Unit) × Outcome GState) (copy : GState → Unit → Unit × (GState × Unit)) :
    ("write_mltl", [Guard.atomics]) ∈ registry ∧ Needed [.atomics] .wellTyped ∧
    ∃ x ∈ (Console.session (fun p _ => p) copy ⟨{ dummy := true }, (), .success, []⟩
        [.run gParse, .run (.prim "write_mltl" [.atomics] f)]).2,
      x.name = "write_mltl" ∧ Guard.wellTyped.holds x.prog = false := by
  refine ⟨by decide +kernel, .dependency (g := .desugared) (.dependency (g := .atomics) (.guard (by simp)) (by simp [Guard.deps])) (by simp [Guard.deps]),
    ⟨"write_mltl", [.atomics], gParsed, ()⟩, ?_, rfl, rfl⟩
  have hg : Cmd.failedGuard (fun (p : GState) (_ : Unit) => p) gParsed () (.prim "write_mltl" [.atomics] f) = none := rfl
  simp only [Console.session, List.append_nil, List.mem_append]
  refine .inr ?_
  have hs : (Console.step (fun (p : GState) (_ : Unit) => p) copy ⟨{ dummy := true }, (), .success, []⟩ (.run gParse)).1 =
      ⟨gParsed, (), .success, []⟩ := rfl
  rw [hs]
  simp only [Console.step, hg, Cmd.execute]
  rcases f gParsed () with ⟨s, o⟩
  cases o <;> simp

/-- `C33_guards_partial` and `C33_all_partial` on a session: parsing and type checking; the second call is made in the
state of the parsed program. -/
example : (Console.session (fun (p : GState) (_ : Unit) => p) (fun p c => (c, (p, c))) ⟨{ dummy := true }, (), .success, []⟩
    [.run gParse, .run (.prim "type_check" [.validProgram] fun p c => (({ p with typed := true }, c), .code .success))]).2.map
      (fun x => (x.name, x.guards, x.prog.dummy, x.prog.nodes.length)) =
    [("parse_c2po", [], true, 0), ("type_check", [.validProgram], false, 4)] ∧
    ("type_check", [Guard.validProgram]) ∈ registry ∧ "type_check" ∉ weakCommands := ⟨by decide +kernel, by decide +kernel, by decide +kernel⟩

/-- `C33_composite` on a composite whose second step fails: the third is not run. -/
example : let step (r : ReturnCode) : Cmd GState Unit := .prim "step" [] fun p c => (({ p with typed := true }, c), .code r)
    let x := (Cmd.comp "all" [step .success, step .error, step .success]).execute (fun (p : GState) (_ : Unit) => p) gParsed ()
    x.2.2.length = 2 ∧ (match x.2.1 with | .code r => r = .error | _ => False) := ⟨by decide +kernel, rfl⟩

/-- `C33_reported_guard`: desugaring asks for a well-typed program. -/
example : checkGuards gParsed [.wellTyped] = some .wellTyped := rfl

/-- `C33_reported`: a session with return code 0. -/
example : (Console.session (fun (p : GState) (_ : Unit) => p) (fun p c => (c, (p, c))) ⟨{ dummy := true }, (), .success, []⟩
    [.run gParse, .push, .blank, .pop]).1.code = .success := rfl

end R2U2
