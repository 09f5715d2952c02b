import Verif.Lemmas.SmtCheck
/-
Property theorems about the SMT encodings and the checks built on them: C38, C39, C40, C43.
-/
namespace R2U2
open Expr Smt
variable {α : Type}

theorem nw_atom {bad : Expr α → Prop} {a : α} : Nowhere bad (.atom a) ↔ ¬ bad (.atom a) := by
  rw [nowhere_iff]; simp [children]
theorem nw_iff {bad : Expr α → Prop} {l r : Expr α} :
    Nowhere bad (.iff l r) ↔ ¬ bad (.iff l r) ∧ Nowhere bad l ∧ Nowhere bad r := by
  rw [nowhere_iff]; simp [children]

/-- `G[0,5] p && F[2,9] (q U[1,3] !p)`. -/
def smtEx : Expr Nat := .and [.glob 0 5 (.atom 0), .fut 2 9 (.untl 1 3 (.atom 1) (.neg (.atom 0)))]

/-- Decides that a concrete formula has no bad node. -/
local macro "nowhere" : tactic => `(tactic| simp [smtEx, notEquiv, nw_leaf_const, nw_atom, nw_neg, nw_and, nw_or,
  nw_iff, nw_fut, nw_glob, nw_untl, isDisordered, isNotQf, isNotLia, isOddLength, isShortFut])

/-! ### C38: bit vectors -/

/-- C38: for a formula of constants, signals, `!`, `&&` and `||` (two operands or more), `<->`, F, G and U,
with lower bounds not above upper bounds, the QF_BV script is written, and it is satisfiable exactly when
some trace satisfies the formula. -/
theorem C38_exact (e : Expr α) (he : BvFormula e) (hord : Nowhere isDisordered e) :
    ∃ s, toQfBv e false = some s ∧ (s.satisfiable ↔ Satisfiable e) :=
  toQfBv_satisfiable e he hord

theorem smtEx_bv : BvFormula smtEx := by
  refine .and (by simp) ?_
  simp only [List.mem_cons, List.not_mem_nil, or_false, forall_eq_or_imp, forall_eq]
  exact ⟨.glob (.atom _), .fut (.untl (.atom _) (.neg (.atom _)))⟩

theorem smtEx_ordered : Nowhere isDisordered smtEx := by
  nowhere

example : BvFormula smtEx ∧ Nowhere isDisordered smtEx ∧ (toQfBv smtEx false).map (·.width) = some 13 :=
  ⟨smtEx_bv, smtEx_ordered, by decide +kernel⟩

/-- C38: for every other formula no script is written, and the check fails: in particular for `->`, `xor`,
R and the past-time operators. -/
theorem C38_unsupported (e : Expr α) (he : ¬ BvFormula e) (hord : Nowhere isDisordered e) (strict : Bool) :
    toQfBv e strict = none := by
  cases h : toQfBv e strict with
  | none => rfl
  | some s =>
    simp only [toQfBv, Option.pure_def, Option.bind_eq_bind, Option.bind_eq_some_iff] at h
    obtain ⟨t, ht, _⟩ := h
    exact absurd ((decompose_bv e hord).1 (bvFormula_of_some ht)) he

example : ¬ BvFormula (.imp (.atom 0) (.atom 1) : Expr Nat) ∧ ¬ BvFormula (.rel 0 3 (.atom 0) (.atom 1) : Expr Nat) :=
  ⟨fun h => (nomatch h), fun h => (nomatch h)⟩

/-- C38, strict mode: the script is satisfiable exactly when some non-empty trace, which may end before the
formula is decided, satisfies the formula, where F and U need a time step that exists and G only constrains
those that exist. -/
theorem C38_strict (e : Expr α) (he : BvFormula e) (hord : Nowhere isDisordered e) :
    ∃ s, toQfBv e true = some s ∧ (s.satisfiable ↔ CutSatisfiable e) := by
  obtain ⟨s, h1, h2⟩ := toQfBv_strict e he hord
  refine ⟨s, h1, h2.trans ⟨?_, ?_⟩⟩
  · rintro ⟨n, π, h0, _, h⟩; exact ⟨n, π, h0, h⟩
  · rintro ⟨n, π, h0, h⟩; exact cut_bound e (bvFormula_future he) n π h0 h

/-- C38, strict mode, fails for the documented finite-trace semantics: `p && G[0,1] p && !F[1,1] true` has a
satisfiable strict script, but no finite trace satisfies it in that semantics, where `G[0,1] p` needs `p`
beyond the end. -/
theorem C38_strict_fails :
    let e : Expr Nat := .and [.atom 0, .glob 0 1 (.atom 0), .neg (.fut 1 1 (.const true))]
    (∃ s, toQfBv e true = some s ∧ s.satisfiable) ∧ ¬ FinSatisfiable e := by
  intro e
  have hb : BvFormula e := by
    refine .and (by simp) ?_
    simp only [List.mem_cons, List.not_mem_nil, or_false, forall_eq_or_imp, forall_eq]
    exact ⟨.atom _, .glob (.atom _), .neg (.fut (.const _))⟩
  have ho : Nowhere isDisordered e := by
    simp only [e]; nowhere
  constructor
  · obtain ⟨s, h1, h2⟩ := C38_strict e hb ho
    refine ⟨s, h1, h2.2 ⟨1, fun _ _ => True, by omega, ?_⟩⟩
    simp only [e, satCut, satCutAll, and_true, true_and]
    constructor
    · intros; trivial
    · rintro ⟨j, h1, _, h2⟩; omega
  · rintro ⟨π, h⟩
    simp only [e, satFin, satFinAll, and_true, Nat.zero_add] at h
    obtain ⟨h1, h2, h3⟩ := h
    have : ¬ π.len > 1 := fun hl => h3 ⟨hl, 1, by omega, by omega⟩
    rcases h2 with h2 | h2
    · omega
    · exact this (h2 1 (by omega) (by omega)).1

/-- C38: `check_sat` with QF_BV on supported formulas.  With a solver whose answers are right, every answer
reported for one specification is right, and the answer for all of them together says whether one trace
satisfies them all. -/
theorem C38_check_sat (es : List (Expr α)) (hbv : ∀ e ∈ es, BvFormula e)
    (hord : ∀ e ∈ es, Nowhere isDisordered e) (solve : BvScript α → SatResult)
    (hsolve : CorrectSolver BvScript.satisfiable solve) :
    let R := checkSat (toQfBv · false) solve (es.map .formula)
    (∀ (i : Nat) (r : SatResult), R.each[i]? = some r → ∃ e, es[i]? = some e ∧
      (r = .sat → Satisfiable e) ∧ (r = .unsat → ¬ Satisfiable e)) ∧
    (R.all = some .sat → ∃ π : Trace α, ∀ e ∈ es, sat π e 0) ∧
    (R.all = some .unsat → ¬ ∃ π : Trace α, ∀ e ∈ es, sat π e 0) ∧
    (R.ok = true → R.each.length = es.length ∧ (2 ≤ es.length → R.all ≠ none)) := by
  intro R
  have hfs : formulasOf (es.map EqSpec.formula) = es := by
    clear hbv hord R
    induction es with
    | nil => rfl
    | cons e es ih => simp [formulasOf, ih]
  have heach : R.each = (satEach (toQfBv · false) solve es).1 := by
    simp only [R, checkSat, hfs]
    split
    · rfl
    split
    · rfl
    split <;> rfl
  have hall : ∀ r, R.all = some r → 2 ≤ es.length ∧ ∃ s, toQfBv (.and es) false = some s ∧ solve s = r := by
    intro r hr
    simp only [R, checkSat, hfs] at hr
    split at hr
    · simp at hr
    split at hr
    · simp at hr
    · rename_i hlen
      refine ⟨by omega, ?_⟩
      split at hr
      · simp at hr
      · rename_i s hs
        simp only at hr
        split at hr
        · exact ⟨s, hs, by simpa using hr⟩
        · simp at hr
  have hand : 2 ≤ es.length → ∃ s, toQfBv (.and es) false = some s ∧
      (s.satisfiable ↔ ∃ π : Trace α, ∀ e ∈ es, sat π e 0) := by
    intro hl
    obtain ⟨s, h1, h2⟩ := C38_exact (.and es) (.and hl hbv)
      (nw_and.2 ⟨by simp [isDisordered], hord⟩)
    refine ⟨s, h1, h2.trans ?_⟩
    simp only [Satisfiable, sat, satAll_iff]
  refine ⟨?_, ?_, ?_, ?_⟩
  · intro i r h
    rw [heach] at h
    obtain ⟨e, s, he, hs, hr⟩ := satEach_spec es i r h
    have hm : e ∈ es := List.mem_of_getElem? he
    obtain ⟨s', h1, h2⟩ := C38_exact e (hbv e hm) (hord e hm)
    obtain rfl : s' = s := by rw [h1] at hs; simpa using hs
    exact ⟨e, he, fun h => h2.1 (hsolve.sat _ (hr.trans h)),
      fun h => fun h' => hsolve.unsat _ (hr.trans h) (h2.2 h')⟩
  · intro h
    obtain ⟨hl, s, h1, h2⟩ := hall _ h
    obtain ⟨s', h3, h4⟩ := hand hl
    obtain rfl : s' = s := by rw [h1] at h3; simpa using h3.symm
    exact h4.1 (hsolve.sat _ h2)
  · intro h
    obtain ⟨hl, s, h1, h2⟩ := hall _ h
    obtain ⟨s', h3, h4⟩ := hand hl
    obtain rfl : s' = s := by rw [h1] at h3; simpa using h3.symm
    exact fun h' => hsolve.unsat _ h2 (h4.2 h')
  · intro hok
    rw [heach]
    simp only [R, checkSat, hfs] at hok ⊢
    split at hok
    · simp at hok
    rename_i hr
    refine ⟨satEach_length es (by simpa using hr), fun hl => ?_⟩
    rw [if_neg (by omega)] at hok
    rw [if_neg hr, if_neg (by omega)]
    split at hok
    · simp at hok
    · simp only at hok ⊢
      rw [if_pos hok]; simp

/-! ### C39: uninterpreted functions without quantifiers -/

/-- C39, as the code is: the non-strict QF_UFLIA script asserts the formula over a trace of length `wpd`,
one step too few for its verdict at the first time step.  It is satisfiable exactly when some trace of that
length, not empty, satisfies the formula, or the formula is the constant `true`.

Partial: `C39_fails`. -/
theorem C39_short_partial (e : Expr α) (he : Nowhere isNotQf e) (hord : Nowhere isDisordered e) :
    ∃ s, toQfUflia e false = some s ∧ (s.satisfiable ↔
      e = .const true ∨ ∃ π : Trace α, 0 < wpd e ∧ satCut (wpd e).toNat π e 0) := by
  obtain ⟨t, ht⟩ := encQf_some he
  refine ⟨{ body := t, len := some e.wpd }, by simp [toQfUflia, ht], ?_⟩
  have h0 := (pd_nonneg e (notQf_future he)).2
  constructor
  · rintro ⟨F, len, hlen, h⟩
    obtain rfl := hlen _ rfl
    by_cases hw : 0 < wpd e
    · right
      have := (encQf_inside F e t ht hord (wpd e).toNat 0 (by omega) 0 0)
      rw [show (((wpd e).toNat : Nat) : Int) = wpd e by omega] at this
      exact ⟨_, hw, this.1 h⟩
    · left
      exact (encQf_outside F e t ht _ (by simp; omega)).1 h
  · rintro (rfl | ⟨π, hw, h⟩)
    · refine ⟨fun _ _ => True, wpd (.const true : Expr α), by simp, ?_⟩
      simp only [encQf, Option.some.injEq] at ht
      subst ht
      simp [LiaTerm.holds]
    · obtain ⟨F, rfl⟩ := exists_liaTrace π
      refine ⟨F, wpd e, by simp, ?_⟩
      have := (encQf_inside F e t ht hord (wpd e).toNat 0 (by omega) 0 0)
      rw [show (((wpd e).toNat : Nat) : Int) = wpd e by omega] at this
      exact this.2 h

theorem smtEx_qf : Nowhere isNotQf smtEx := by
  nowhere

example : Nowhere isNotQf smtEx ∧ Nowhere isDisordered smtEx ∧ smtEx.wpd = 12 := ⟨smtEx_qf, smtEx_ordered, rfl⟩

/-- C39 fails: a signal alone is satisfiable but its script is not, and `!F[1,1] true` is unsatisfiable but
its script is satisfiable. -/
theorem C39_fails :
    (Satisfiable (.atom 0 : Expr Nat) ∧ ∃ s, toQfUflia (.atom 0 : Expr Nat) false = some s ∧ ¬ s.satisfiable) ∧
    (¬ Satisfiable (.neg (.fut 1 1 (.const true)) : Expr Nat) ∧
      ∃ s, toQfUflia (.neg (.fut 1 1 (.const true)) : Expr Nat) false = some s ∧ s.satisfiable) := by
  refine ⟨⟨⟨fun _ _ => True, by simp [sat]⟩, ?_⟩, ⟨?_, ?_⟩⟩
  · obtain ⟨s, h1, h2⟩ := C39_short_partial (.atom 0 : Expr Nat)
      (by nowhere) (by nowhere)
    refine ⟨s, h1, fun h => ?_⟩
    rcases h2.1 h with h | ⟨_, h, _⟩
    · simp at h
    · simp [wpd] at h
  · rintro ⟨π, h⟩
    simp only [sat] at h
    exact h ⟨1, by omega, by omega, trivial⟩
  · obtain ⟨s, h1, h2⟩ := C39_short_partial (.neg (.fut 1 1 (.const true)) : Expr Nat)
      (by nowhere) (by nowhere)
    refine ⟨s, h1, h2.2 (.inr ⟨fun _ _ => True, by simp [wpd], ?_⟩)⟩
    simp only [satCut]
    rintro ⟨j, h1, _, h2, _⟩
    simp [wpd] at h2
    omega

/-- C39, what survives: a formula whose verdict is not changed by its last step.  If the script is
satisfiable then some non-empty trace that may end satisfies the formula. -/
theorem C39_sound_partial (e : Expr α) (he : Nowhere isNotQf e) (hord : Nowhere isDisordered e)
    (s : LiaScript α) (hs : toQfUflia e false = some s) (h : s.satisfiable) : CutSatisfiable e := by
  obtain ⟨s', h1, h2⟩ := C39_short_partial e he hord
  obtain rfl : s' = s := by rw [h1] at hs; simpa using hs
  rcases h2.1 h with rfl | ⟨π, hw, h⟩
  · exact ⟨1, fun _ _ => True, by omega, by simp [satCut]⟩
  · exact ⟨_, π, by omega, h⟩

/-- C39, strict mode: the script is satisfiable exactly when some non-empty trace, which may end before the
formula is decided, satisfies the formula. -/
theorem C39_strict (e : Expr α) (he : Nowhere isNotQf e) (hord : Nowhere isDisordered e) :
    ∃ s, toQfUflia e true = some s ∧ (s.satisfiable ↔ CutSatisfiable e) := by
  obtain ⟨t, ht⟩ := encQf_some he
  refine ⟨{ body := t, len := none }, by simp [toQfUflia, ht], ?_⟩
  constructor
  · rintro ⟨F, len, _, h⟩
    by_cases hw : 0 < len
    · have := (encQf_inside F e t ht hord len.toNat 0 (by omega) 0 0)
      rw [show ((len.toNat : Nat) : Int) = len by omega] at this
      exact ⟨len.toNat, _, by omega, this.1 h⟩
    · obtain rfl := (encQf_outside F e t ht _ (by simp; omega)).1 h
      exact ⟨1, fun _ _ => True, by omega, by simp [satCut]⟩
  · rintro ⟨n, π, hn, h⟩
    obtain ⟨F, rfl⟩ := exists_liaTrace π
    exact ⟨F, n, by simp, (encQf_inside F e t ht hord n 0 hn 0 0).2 h⟩

/-! ### C40: uninterpreted functions with quantifiers -/

/-- C40: for a formula without `xor` and past-time operators the UFLIA script is satisfiable exactly when some
trace satisfies the formula.

Partial: every `&&` and `||` has two operands, and there is no `==` between Boolean expressions
(`C40_fails`). -/
theorem C40_exact_partial (e : Expr α) (he : Nowhere isNotLia e) (ho : Nowhere isOddLength e)
    (hord : Nowhere isDisordered e) : ∃ s, toUflia e false = some s ∧ (s.satisfiable ↔ Satisfiable e) := by
  obtain ⟨t, ht⟩ := encLia_some he
  obtain ⟨c, hc⟩ := cplen_some he ho
  refine ⟨{ body := t, len := some c }, by simp [toUflia, ht, hc], ?_⟩
  constructor
  · rintro ⟨F, len, hlen, h⟩
    obtain rfl := hlen _ rfl
    exact ⟨_, (encLia_sat F e t ht ho hord len len hc 0 (by simp) 0 0).1 h⟩
  · rintro ⟨π, h⟩
    obtain ⟨F, rfl⟩ := exists_liaTrace π
    exact ⟨F, c, by simp, (encLia_sat F e t ht ho hord c c hc 0 (by simp) 0 0).2 h⟩

example : Nowhere isNotLia smtEx ∧ Nowhere isOddLength smtEx ∧ Nowhere isDisordered smtEx ∧
    (toUflia smtEx false).map (·.len) = some (some 13) := by
  refine ⟨?_, ?_, smtEx_ordered, rfl⟩ <;>
  nowhere

/-- C40 fails: only the first two operands of a conjunction count for the length of the trace.
`a && b && F[5,5] c` is satisfiable, but its script, over a trace of length 1, is not.  Nor does `==` count its
operands: `(F[5,5] a) == true`. -/
theorem C40_fails :
    (∀ e : Expr Nat, e = .and [.atom 0, .atom 1, .fut 5 5 (.atom 2)] →
      Satisfiable e ∧ ∃ s, toUflia e false = some s ∧ ¬ s.satisfiable) ∧
    (∀ e : Expr Nat, e = .equal (.fut 5 5 (.atom 0)) (.const true) →
      Satisfiable e ∧ ∃ s, toUflia e false = some s ∧ ¬ s.satisfiable) := by
  have nofut : ∀ (a : Nat) (F : Nat → Int → Prop) (t : LiaTerm Nat),
      encLia (.fut 5 5 (.atom a)) = some t → ¬ t.holds F { k := 0, len := 1, i := 0, j := 0 } := by
    intro a F t ht
    simp only [encLia, Option.pure_def, Option.bind_eq_bind, Option.bind_some] at ht
    simp at ht
    subst ht
    simp only [LiaTerm.holds, LiaTerm.holdsAll, IntTerm.eval]
    omega
  refine ⟨?_, ?_⟩ <;> rintro _ rfl <;> refine ⟨⟨fun _ _ => True, ?_⟩, ⟨_, rfl, ?_⟩⟩
  · simp only [sat, satAll, and_true, true_and]; exact ⟨5, by omega, by omega⟩
  · rintro ⟨F, len, hlen, h⟩
    obtain rfl := hlen _ rfl
    simp only [LiaTerm.holds, List.map_cons, List.map_nil, LiaTerm.holdsAll, IntTerm.eval] at h
    exact nofut 2 F _ rfl h.2.2.1
  · simp only [sat]; exact ⟨fun _ => trivial, fun _ => ⟨5, by omega, by omega, trivial⟩⟩
  · rintro ⟨F, len, hlen, h⟩
    obtain rfl := hlen _ rfl
    simp only [LiaTerm.holds, IntTerm.eval] at h
    exact nofut 0 F _ rfl (h.2 trivial)

/-- C40, strict mode: the script is satisfiable exactly when some finite trace satisfies the formula in the
documented finite-trace semantics.

Partial: no F over `[0,0]` or `[1,1]` (`C40_strict_fails`). -/
theorem C40_strict_partial (e : Expr α) (he : Nowhere isNotLia e) (hs : Nowhere isShortFut e) :
    ∃ s, toUflia e true = some s ∧ (s.satisfiable ↔ FinSatisfiable e) := by
  obtain ⟨t, ht⟩ := encLia_some he
  refine ⟨{ body := t, len := none }, by simp [toUflia, ht], ?_⟩
  have hp := notLia_future he
  constructor
  · rintro ⟨F, len, _, h⟩
    exact ⟨_, (encLia_fin F e t ht hs hp len _ rfl 0 0 0).1 h⟩
  · rintro ⟨⟨n, π⟩, h⟩
    obtain ⟨F, rfl⟩ := exists_liaTrace π
    exact ⟨F, n, by simp, (encLia_fin F e t ht hs hp n n (by simp) 0 0 0).2 h⟩

example : Nowhere isNotLia smtEx ∧ Nowhere isShortFut smtEx := by
  constructor <;>
  nowhere

/-- C40, strict mode, fails: `F[1,1] false` has no satisfying trace, finite or not, but its script is satisfied by
a trace of length 1, because F over `[1,1]` is written like G. -/
theorem C40_strict_fails :
    let e : Expr Nat := .fut 1 1 (.const false)
    (¬ FinSatisfiable e ∧ ¬ Satisfiable e) ∧ ∃ s, toUflia e true = some s ∧ s.satisfiable := by
  refine ⟨⟨?_, ?_⟩, _, rfl, fun _ _ => True, 1, by simp, ?_⟩
  · rintro ⟨π, h⟩; simp [satFin] at h
  · rintro ⟨π, h⟩; simp [sat] at h
  · simp [LiaTerm.holds, LiaTerm.holdsAny, IntTerm.eval, liaPoint]

/-! ### C43: the equivalence check -/

variable {σ : Type}

/-- C43: if `check_equiv` succeeds and prints that the specifications are equivalent, then for every two
formulas next to each other the script of their difference was answered `unsat`, for any encoding and any
solver. -/
theorem C43_equiv_partial (enc : Expr α → Option σ) (solve : σ → SatResult) (specs : List (EqSpec α))
    (hok : (checkEquiv enc solve specs).ok = true) (h : (checkEquiv enc solve specs).printed = .equiv)
    (i : Nat) (a b : Expr α) (ha : specs[i]? = some (.formula a)) (hb : specs[i + 1]? = some (.formula b)) :
    ∃ s, enc (.neg (.iff a b)) = some s ∧ solve s = .unsat :=
  (equivFold_equiv _ _ h hok).2.2 a b (mem_zip_tail ha hb)

/-- C43: it prints that they are not equivalent exactly when, for some two formulas next to each other, the
script of their difference was answered `sat`. -/
theorem C43_not_equiv (enc : Expr α → Option σ) (solve : σ → SatResult) (specs : List (EqSpec α)) :
    (checkEquiv enc solve specs).printed = .notEquiv ↔
      ∃ (i : Nat) (a b : Expr α) (s : σ), specs[i]? = some (.formula a) ∧ specs[i + 1]? = some (.formula b) ∧
        enc (.neg (.iff a b)) = some s ∧ solve s = .sat := by
  constructor
  · intro h
    rcases equivFold_not _ _ h with h | ⟨a, b, s, h1, h2, h3⟩
    · simp at h
    · obtain ⟨i, ha, hb⟩ := zip_tail_mem h1
      exact ⟨i, a, b, s, ha, hb, h2, h3⟩
  · rintro ⟨i, a, b, s, ha, hb, h2, h3⟩
    exact equivFold_sat _ _ (.inr ⟨a, b, s, mem_zip_tail ha hb, h2, h3⟩)

/-- Three formulas, with a solver that tells two scripts apart. -/
example : (checkEquiv (fun e => some e) (fun e => match e with | .neg (.iff (.atom a) (.atom b)) => if a = b then .unsat else .sat | _ => .unknown)
      [.formula (.atom 1), .formula (.atom 1), .formula (.atom 1)] : EquivReport) = { printed := .equiv, ok := true } ∧
    (checkEquiv (fun e => some e) (fun e => match e with | .neg (.iff (.atom a) (.atom b)) => if a = b then .unsat else .sat | _ => .unknown)
      [.formula (.atom 1), .formula (.atom 2), .formula (.atom 2)] : EquivReport) = { printed := .notEquiv, ok := true } :=
  ⟨rfl, rfl⟩

/-- C43 fails: a contract between two formulas hides them from each other, and the check then succeeds and prints
"equivalent" without a question to the solver; and when a pair cannot be encoded "equivalent" is printed too,
although the check then does not succeed. -/
theorem C43_fails (enc : Expr Nat → Option σ) (solve : σ → SatResult) :
    ¬ Equiv (.atom 0 : Expr Nat) (.atom 1) ∧
    checkEquiv enc solve [.formula (.atom 0), .contract, .formula (.atom 1)] = { printed := .equiv, ok := true } ∧
    checkEquiv (fun _ => none) solve [.formula (.atom 0 : Expr Nat), .formula (.atom 1)] =
      { printed := .equiv, ok := false } := by
  refine ⟨fun h => ?_, rfl, rfl⟩
  have := h (fun _ a => a = 0) 0
  simp [sat] at this

/-- C43 with C38: with QF_BV, supported formulas and a solver whose answers are right, "equivalent" is printed
only if all the formulas have the same verdicts at all times of all traces, and "not equivalent" only if some
two next to each other do not. -/
theorem C43_bv (es : List (Expr α)) (hbv : ∀ e ∈ es, BvFormula e) (hord : ∀ e ∈ es, Nowhere isDisordered e)
    (solve : BvScript α → SatResult) (hsolve : CorrectSolver BvScript.satisfiable solve) :
    ((checkEquiv (toQfBv · false) solve (es.map .formula)).printed = .equiv →
      ∀ a ∈ es, ∀ b ∈ es, Equiv a b) ∧
    ((checkEquiv (toQfBv · false) solve (es.map .formula)).printed = .notEquiv →
      ∃ (i : Nat) (a b : Expr α), es[i]? = some a ∧ es[i + 1]? = some b ∧ ¬ Equiv a b) := by
  have pair : ∀ a ∈ es, ∀ b ∈ es, ∃ s, toQfBv (notEquiv a b) false = some s ∧
      (s.satisfiable ↔ Satisfiable (notEquiv a b)) := by
    intro a ha b hb
    refine C38_exact _ (.neg (.iff (hbv a ha) (hbv b hb))) ?_
    refine nw_neg.2 ⟨by simp [isDisordered], nowhere_iff.2 ⟨by simp [isDisordered], ?_⟩⟩
    simp only [children, List.mem_cons, List.not_mem_nil, or_false, forall_eq_or_imp, forall_eq]
    exact ⟨hord a ha, hord b hb⟩
  have get : ∀ (i : Nat) (a : Expr α), (es.map EqSpec.formula)[i]? = some (.formula a) ↔ es[i]? = some a := by
    intro i a
    rw [List.getElem?_map]
    cases es[i]? <;> simp
  constructor
  · intro h
    have hadj : ∀ (i : Nat) (a b : Expr α), es[i]? = some a → es[i + 1]? = some b → Equiv a b := by
      intro i a b ha hb
      obtain ⟨s, hs, hu⟩ := (equivFold_printed _ (fun x y hxy => by
        obtain ⟨j, hx, hy⟩ := zip_tail_mem hxy
        obtain ⟨s, hs, _⟩ := pair x (List.mem_of_getElem? ((get _ _).1 hx)) y (List.mem_of_getElem? ((get _ _).1 hy))
        exact ⟨s, hs⟩) _ h).2 a b (mem_zip_tail ((get _ _).2 ha) ((get _ _).2 hb))
      have ma := List.mem_of_getElem? ha
      have mb := List.mem_of_getElem? hb
      obtain ⟨s', h1, h2⟩ := pair a ma b mb
      obtain rfl : s' = s := by rw [h1] at hs; simpa using hs
      rw [← not_satisfiable_notEquiv (bvFormula_future (hbv a ma)) (bvFormula_future (hbv b mb)), ← h2]
      exact hsolve.unsat _ hu
    have hstep : ∀ (d i : Nat) (a b : Expr α), es[i]? = some a → es[i + d]? = some b → Equiv a b := by
      intro d
      induction d with
      | zero => intro i a b ha hb; rw [Nat.add_zero, ha] at hb; obtain rfl : a = b := by simpa using hb
                exact fun _ _ => Iff.rfl
      | succ d ih =>
        intro i a b ha hb
        have hlt : i + d < es.length := by
          have := (List.getElem?_eq_some_iff.1 hb).1; omega
        obtain ⟨c, hc⟩ : ∃ c, es[i + d]? = some c := ⟨es[i + d], by rw [List.getElem?_eq_getElem hlt]⟩
        exact fun π t => (ih i a c ha hc π t).trans (hadj (i + d) c b hc hb π t)
    intro a ha b hb
    obtain ⟨i, hi⟩ := List.mem_iff_getElem?.1 ha
    obtain ⟨j, hj⟩ := List.mem_iff_getElem?.1 hb
    rcases Nat.le_total i j with hij | hij
    · exact hstep (j - i) i a b hi (by rw [show i + (j - i) = j by omega]; exact hj)
    · exact fun π t => (hstep (i - j) j b a hj (by rw [show j + (i - j) = i by omega]; exact hi) π t).symm
  · intro h
    obtain ⟨i, a, b, s, ha, hb, hs, hsat⟩ := (C43_not_equiv _ _ _).1 h
    have ha := (get _ _).1 ha
    have hb := (get _ _).1 hb
    obtain ⟨s', h1, h2⟩ := pair a (List.mem_of_getElem? ha) b (List.mem_of_getElem? hb)
    obtain rfl : s' = s := by rw [notEquiv, hs] at h1; simpa using h1.symm
    exact ⟨i, a, b, ha, hb, satisfiable_of_not_equiv (h2.1 (hsolve.sat _ hsat))⟩

example : (∀ e ∈ [smtEx, smtEx], BvFormula e) ∧ (∀ e ∈ [smtEx, smtEx], Nowhere isDisordered e) := by
  simp [smtEx_bv, smtEx_ordered]

/-- C43 with C39 fails: with QF_UFLIA and a solver whose answers are right, any two signals are found
equivalent. -/
theorem C43_qf_fails (solve : LiaScript Nat → SatResult) (hsolve : CorrectSolver LiaScript.satisfiable solve)
    (hans : ∀ s, solve s = .sat ∨ solve s = .unsat) :
    checkEquiv (toQfUflia · false) solve [.formula (.atom 0), .formula (.atom 1)] = { printed := .equiv, ok := true } := by
  obtain ⟨s, h1, h2⟩ := C39_short_partial (notEquiv (.atom 0) (.atom 1) : Expr Nat)
    (by nowhere) (by nowhere)
  have hns : ¬ s.satisfiable := by
    rw [h2]
    rintro (h | ⟨_, h, _⟩)
    · simp [notEquiv] at h
    · revert h; decide
  have hu : solve s = .unsat := (hans s).resolve_left fun h => hns (hsolve.sat _ h)
  simp [checkEquiv, equivStep, h1, hu, SatResult.isAnswer]

end R2U2
