import Verif.Lemmas.TypeCheckConfig
/-
C31, C32: what type checking establishes.
-/
namespace R2U2
open Tc Src

/-! ### C31 -/

/-- C31, intervals: in an accepted program every interval, in definitions and in specifications, is in order. -/
theorem C31_intervals {Γ Γ' : TcCtx} {ss ss' : List Sec} (h : checkProgram Γ ss = some (ss', Γ')) :
    ∀ s ∈ ss, ∀ e ∈ s.exprs, e.Ordered := by
  intro s hs
  obtain ⟨s', _, Γ1, Γ2, h1⟩ := forall₂_mem (checkProgram_inv h).flip hs
  exact (checkSection_inv h1).1

/-- C31, types: in an accepted program, as it is afterwards, the operands of logical and temporal operators are typed
as Booleans, and so are the specifications. -/
theorem C31_operands {Γ Γ' : TcCtx} {ss ss' : List Sec} (h : checkProgram Γ ss = some (ss', Γ')) :
    (∀ s ∈ ss', ∀ e ∈ s.exprs, e.BooleanOperands) ∧ ∀ ft ps, Sec.spec ft ps ∈ ss' → ∀ p ∈ ps, ∀ e ∈ p.exprs, e.ty = .bool := by
  have hall : ∀ s' ∈ ss', ∃ s Γ1 Γ2, checkSection Γ1 s = some (s', Γ2) := by
    intro s' hs
    obtain ⟨s, _, Γ1, Γ2, h1⟩ := forall₂_mem (checkProgram_inv h) hs
    exact ⟨s, Γ1, Γ2, h1⟩
  refine ⟨fun s' hs => ?_, fun ft ps hs => ?_⟩
  · obtain ⟨s, Γ1, Γ2, h1⟩ := hall s' hs
    exact (checkSection_inv h1).2.1
  · obtain ⟨s, Γ1, Γ2, h1⟩ := hall _ hs
    cases s with
    | spec ft' ps' =>
      obtain ⟨ps1, h2, _, h3⟩ := (checkSection_inv h1).2.2.2 ft' ps' rfl
      cases h2
      exact h3
    | input ds => simp [checkSection] at h1
    | define ds => simp [checkSection] at h1
    | struct ds => simp [checkSection] at h1
    | enum ds => simp [checkSection] at h1

/-- C31, tense, for what is written in the specification itself: formulas of a future-time section have future-time
operators only, formulas of a past-time section past-time operators only.

Missing: what the names in the formula stand for, where the claim is false (`C31_tense_fails`). -/
theorem C31_tense_partial {Γ Γ' : TcCtx} {ss ss' : List Sec} (h : checkProgram Γ ss = some (ss', Γ')) :
    ∀ ft ps, Sec.spec ft ps ∈ ss → ∀ p ∈ ps, ∀ e ∈ p.exprs, e.Tense ft := by
  intro ft ps hs
  obtain ⟨s', _, Γ1, Γ2, h1⟩ := forall₂_mem (checkProgram_inv h).flip hs
  obtain ⟨_, _, h2, _⟩ := (checkSection_inv h1).2.2.2 ft ps rfl
  exact h2

/-- C31, meaning: an accepted expression has, as it is afterwards, the sort its type says; so operands said to be
Boolean have Boolean values (`HasSort`, `Val.Ok`), and names are in scope.  `Γ` is the context the expression is
checked in, outside of aggregations.  This needs names bound by aggregations not to be used outside of them, and
enumeration members not to be names of anything else, and is for expressions that are sensible in what type checking
does not look at.

Missing: these cases (`C31_scope_fails`, `C31_struct_fails`). -/
theorem C31_sorts_partial {Γ Γ' : TcCtx} {e e' : Src} {t : Ty} (h : check Γ e = some (e', Γ')) (hb : Γ.bound = [])
    (hf : ∀ s ∈ e.free, s ∉ e.bound) (hv : ∀ s ∈ e.bound, ∀ ty, enumVal Γ.enums ty s = none)
    (hn : ∀ s, Γ.names s ≠ none → ∀ ty, enumVal Γ.enums ty s = none)
    (hs : e'.Sensible Γ.structs Γ.enums) (ht : e'.ty.sort = some t) : HasSort Γ.decls Γ.names e' t :=
  (check_good (Γ0 := Γ) h ⟨rfl, rfl, rfl, rfl, fun _ _ h => h, by simp [hb], hn⟩ ⟨hf, fun _ _ _ => rfl, by simp [hb], hv⟩).of hs ht

private def v (s : String) : Src := .node (.var s) .none []
private def sig (s : String) : Src := .node (.sig s) .none []
private def opN (o : OpK) (cs : List Src) : Src := .node (.op o) .none cs
private def tmpN (o : TmpK) (lb ub : Nat) (cs : List Src) : Src := .node (.tmp o lb ub) .none cs
private def setN (cs : List Src) : Src := .node .array .none cs

/-- A program with a structure, an enumeration, an array of signals, a definition, an aggregation, a contract:

    INPUT a, b : bool; xs : bool[2];   ENUM Mode : {off : 0, on : 1}   INPUT m : Mode;
    DEFINE d := a && xs[1];
    FTSPEC  p: G[0,3] (d -> foreach(x : {a, b})(x || m == on));  c: a => F[1,2] p;                             -/
private def prog : List Sec :=
  [.input [(["a", "b"], .bool), (["xs"], .arr .bool 2)],
   .enum [("Mode", [("off", some 0), ("on", some 1)])],
   .input [(["m"], .struct "Mode")],
   .define [("d", opN .and [sig "a", .node (.index 1) .none [v "xs"]])],
   .spec true [.formula "p" 0 (tmpN .G 0 3 [opN .imp [v "d",
      .node (.agg .each "x") .none [setN [sig "a", sig "b"], opN .or [v "x", opN .eq [sig "m", v "on"]]]]]),
     .contract "c" 1 2 3 (sig "a") (tmpN .F 1 2 [v "p"])]]

private def ctx : TcCtx := { bz := true }

/-- It is accepted. -/
example : (checkProgram ctx prog).isSome = true := by decide +kernel

/-- What becomes of the specification in it, checked in the context of that point. -/
private def bodyE : Src := opN .imp [v "d",
      .node (.agg .each "x") .none [setN [sig "a", sig "b"], opN .or [v "x", opN .eq [sig "m", v "on"]]]]
private def mid : TcCtx :=
  { bz := true, signals := [("a", .bool), ("b", .bool), ("m", .enum "Mode")], definitions := [("d", .node (.op .and) .bool [])],
    enums := [("Mode", [("off", 0), ("on", 1)])] }
private def bodyT : Src := .node (.op .imp) .bool [.node (.var "d") .bool [],
  .node (.agg .each "x") .bool [.node .array (.arr .bool 2) [.node (.sig "a") .bool [], .node (.sig "b") .bool []],
    .node (.op .or) .bool [.node (.var "x") .bool [], .node (.op .eq) .bool
      [.node (.sig "m") (.enum "Mode") [], .node (.var "on") (.enum "Mode") []]]]]

private theorem mid_enum {ty : Typ} {s : String} (h1 : s ≠ "off") (h2 : s ≠ "on") : enumVal mid.enums ty s = none := by
  have e1 : (s == "off") = false := by simpa using h1
  have e2 : (s == "on") = false := by simpa using h2
  cases ty <;> simp only [enumVal]
  rename_i n
  by_cases hn : n = "Mode"
  · subst hn
    simp [mid, List.lookup, e1, e2]
  · have : (n == "Mode") = false := by simpa using hn
    simp [mid, List.lookup, this]

example : HasSort mid.decls mid.names bodyT .bool := by
  refine C31_sorts_partial (Γ := mid) (e := bodyE) (Γ' := { mid with vars := [("x", .bool)] }) (by rfl) rfl ?_ ?_ ?_ ?_ rfl
  · decide
  · intro s hs ty
    have : s = "x" := by simpa [bodyE, opN, setN, v, sig, Src.bound, Src.boundL] using hs
    subst this
    exact mid_enum (by decide) (by decide)
  · intro s hs ty
    apply mid_enum <;> rintro rfl <;> exact hs rfl
  · simp [bodyT, Sensible, Every, EveryL, Src.ty, Src.kind, Src.kids, Typ.sort, Typ.symbol, Typ.str, Typ.isEnum, mid, List.lookup,
      Ty.scalar]

/-- C31 fails for tense: an accepted future-time specification that uses a past-time definition.  Definitions before
the first specification are checked as past-time ones (cpt.py:1465, type_check.py:305-322).

    INPUT a : bool;   DEFINE p := O[0,3] a;   FTSPEC  G[0,3] p;                                                -/
theorem C31_tense_fails :
    (checkProgram {} [.input [(["a"], .bool)], .define [("p", tmpN .O 0 3 [sig "a"])],
      .spec true [.formula "s" 0 (tmpN .G 0 3 [v "p"])]]).isSome = true ∧
    (checkProgram {} [.input [(["a"], .bool)], .define [("p", tmpN .F 0 3 [sig "a"])],
      .spec true [.formula "s" 0 (tmpN .G 0 3 [v "p"])]]).isSome = false := by
  decide +kernel

/-- C31 fails for names: an accepted formula uses the variable of an aggregation outside of it, where it stands for
nothing.  Checking an aggregation leaves its variable in the context (type_check.py:253-295).

    FTSPEC  foreach(x : {a, b})(x) && x;                                                                       -/
theorem C31_scope_fails : ∃ e' Γ', check { signals := [("a", .bool), ("b", .bool)] }
      (opN .and [.node (.agg .each "x") .none [setN [sig "a", sig "b"], v "x"], v "x"]) = some (e', Γ') ∧ e'.ty = .bool ∧
    ∀ Γ : Scope, Γ "x" = none → ∀ D t, ¬ HasSort D Γ e' t := by
  refine ⟨_, _, rfl, rfl, ?_⟩
  intro Γ hΓ D t h
  cases h with
  | op hl hk ho =>
    rename_i ts
    match ts, hl with
    | [t1, t2], _ =>
      have := hk 1 _ t2 rfl rfl
      cases this with
      | enum h => simp [enumVal, Src.ty] at h
      | var h1 h2 => rw [hΓ] at h2; cases h2

/-- C31 fails for structures: a structure made of too few values is accepted (`zip` stops at the shorter list,
type_check.py:216-245), and a missing member is then said to be Boolean.

    STRUCT P : {x, y : bool}    FTSPEC  P(a).y;                                                                -/
theorem C31_struct_fails : ∃ e' Γ', check { signals := [("a", .bool)], structs := [("P", [("x", .bool), ("y", .bool)])] }
      (.node (.access "y") .none [.node (.call "P") .none [sig "a"]]) = some (e', Γ') ∧ e'.ty = .bool ∧
    ∀ {F : Type} (I : Interp F), I.structs = [("P", [("x", .bool), ("y", .bool)])] → ∀ ρ i, sem I e' ρ i = .err := by
  refine ⟨_, _, rfl, rfl, ?_⟩
  intro F I hI ρ i
  simp [sem, semL, evalK, hI, List.lookup, Val.member]

/-- C31, configuration: in an accepted program, integer constants are in the range of the configured integer type, and
without the booleanizer there is no arithmetic, bitwise operator, order comparison or counting aggregation.  The configuration
is the same afterwards. -/
theorem C31_configuration {Γ Γ' : TcCtx} {ss ss' : List Sec} (h : checkProgram Γ ss = some (ss', Γ')) :
    (∀ s ∈ ss, ∀ e ∈ s.exprs, e.Configured Γ.bz Γ.width Γ.signed) ∧
    Γ'.bz = Γ.bz ∧ Γ'.width = Γ.width ∧ Γ'.signed = Γ.signed := by
  have := checkProgram_fits h
  exact ⟨fun s hs e he => this.2 e (List.mem_flatMap.2 ⟨s, hs, he⟩), this.1⟩

/-- `x + 1 < 127` with signed integers of 8 bits is accepted; 128 is not, and nor is anything of it without the
booleanizer. -/
example :
    let p (n : Int) : List Sec := [.input [(["x"], .int)],
      .spec true [.formula "s" 0 (opN .lt [opN .add [sig "x", .node (.lit (.int 1)) .none []], .node (.lit (.int n)) .none []])]]
    (checkProgram { bz := true, width := 8 } (p 127)).isSome = true ∧
    (checkProgram { bz := true, width := 8 } (p 128)).isSome = false ∧
    (checkProgram { bz := true, width := 8, signed := false } (p 128)).isSome = true ∧
    (checkProgram { width := 8 } (p 127)).isSome = false := by
  decide +kernel

/-! ### C32 -/

/-- C32, within one section: no name is declared twice. -/
theorem C32_within_partial {Γ Γ' : TcCtx} {ss ss' : List Sec} (h : checkProgram Γ ss = some (ss', Γ')) :
    ∀ s ∈ ss, s.declared.Nodup := by
  intro s hs
  obtain ⟨s', _, Γ1, Γ2, h1⟩ := forall₂_mem (checkProgram_inv h).flip hs
  exact (checkSection_inv h1).2.2.1

/-- C32, enumerations: enumerations and their members have other names than what is declared before them.  (Names
have no brackets.)

Missing: the other names declared by different sections, and enumeration members with the same name, where the claim
is false (`C32_sections_fail`, `C32_members_fail`). -/
theorem C32_enums_partial {Γ Γ' : TcCtx} {pre post ss' : List Sec} {ds : List (String × List (String × Option Int))}
    (h : checkProgram Γ (pre ++ .enum ds :: post) = some (ss', Γ')) (hb : ∀ s ∈ pre, ∀ x ∈ s.declared, '[' ∉ x.toList) :
    ∀ s ∈ pre, ∀ x ∈ s.declared, x ∉ (Sec.enum ds).declared ∧ x ∉ (Sec.enum ds).members := by
  obtain ⟨s1, Γ1, t1, h1, h2, _⟩ := checkProgram_append h
  obtain ⟨_, h3⟩ := checkProgram_keeps h1
  simp only [checkProgram, Option.bind_eq_some_iff, Option.map_eq_some_iff, checkSection] at h2
  obtain ⟨⟨s2, Γ2⟩, ⟨Γ3, h4, _⟩, _⟩ := h2
  obtain ⟨_, h5, _⟩ := enumerations_inv h4
  intro s hs x hx
  have hk := known_symbols (h3 s hs x hx (hb s hs x hx))
  constructor
  · simp only [Sec.declared, List.mem_map]
    rintro ⟨d, hd, rfl⟩
    exact (h5 d hd).1 hk
  · simp only [Sec.members, List.mem_flatMap, List.mem_map]
    rintro ⟨d, hd, m, hm, rfl⟩
    exact ((h5 d hd).2 m hm).1 hk

/-- Not vacuous: the program above has an enumeration after inputs. -/
example : ∃ ss' Γ', checkProgram ctx (prog.take 1 ++ .enum [("Mode", [("off", some 0), ("on", some 1)])] :: prog.drop 2) = some (ss', Γ') :=
  ⟨_, _, rfl⟩

/-- C32 fails: a name declared in two sections is accepted, as every section starts with an empty set of names
(type_check.py:704-706); the later declaration wins.

    INPUT a, b : bool;   DEFINE a := !b;   FTSPEC  a: b;                                                       -/
theorem C32_sections_fail :
    (checkProgram {} [.input [(["a", "b"], .bool)], .define [("a", opN .neg [sig "b"])], .spec true [.formula "a" 0 (sig "b")]]).isSome = true := by
  decide +kernel

/-- C32 fails for enumeration members: two enumerations may have a member in common; and names declared after an
enumeration may be those of its members (`get_symbols`, cpt.py:1520-1530, has no members).

    ENUM E : {on : 1}; F : {on : 2};    INPUT on : bool;                                                       -/
theorem C32_members_fail :
    (checkProgram {} [.enum [("E", [("on", some 1)]), ("F", [("on", some 2)])], .input [(["on"], .bool)]]).isSome = true := by
  decide +kernel

end R2U2
