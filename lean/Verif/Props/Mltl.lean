import Verif.Lemmas.MltlPrec
/-
C50: what is exported in the MLTL standard format is read back as it was.
-/
namespace R2U2
namespace Mltl
variable {α : Type}

/-- C50.  A program all of whose formulas the format can express in one tense is exported, and its text is read back as the
same formulas in the same order, atoms by number, operands grouped to the left, in a section of that tense, for every mission
time.

Missing: what the format cannot express (`Inexpressible`), on which see the theorems below. -/
theorem C50_roundtrip_partial (id : α → Option Nat) (past : Bool) (es : List (Expr α)) (mission : Int)
    (h : ∀ e ∈ es, Nowhere (Inexpressible id past) e) :
    ∃ s, exported id (es.map some) = some s ∧
      ∃ section', parse mission s = some (section', es.map fun e => (numbered id e).leftNested) ∧
        (section' = true → past = true) := by
  obtain ⟨s, hs⟩ := exported_total id past (es.map some) (fun e he => h e (by simpa using he))
  obtain ⟨x, hx, hd⟩ := rereadAll_total id past es (ft := false) (pt := false) h (by cases past <;> rfl)
  obtain ⟨h1, h2⟩ := rereadAll_some id es hx (.inl rfl)
  refine ⟨s, hs, x.2.2, ?_, ?_⟩
  · have := parse_all mission id (es.map some) hs {} rfl rfl
    rw [parse, this]
    simp [List.filterMap_map, hx, h1, Function.comp_def]
  · intro hp
    cases past with
    | true => rfl
    | false => simp [Down, hp] at hd

/-- C50, exactly when the round trip succeeds: whatever the program, contracts included, its text is read back if and only if
the format can express all its formulas in one tense, and then as these formulas, never as others. -/
theorem C50_exact (id : α → Option Nat) (es : List (Option (Expr α))) (mission : Int) {s : List Char}
    (hs : exported id es = some s) (pt : Bool) (fs : List (Expr Nat)) :
    parse mission s = some (pt, fs) ↔
      fs = (es.filterMap fun o => o).map (fun e => (numbered id e).leftNested) ∧
      (∃ past, ∀ e, some e ∈ es → Nowhere (Inexpressible id past) e) ∧
      (pt = false ↔ ∀ e, some e ∈ es → Nowhere (Inexpressible id false) e) := by
  have hm : ∀ e, e ∈ es.filterMap (fun o => o) ↔ some e ∈ es := by intro e; simp
  have hp := parse_all mission id es hs {} rfl rfl
  have hpar : parse mission s = (rereadAll id (es.filterMap fun o => o) false false).map fun x => (x.2.2, x.1) := by
    rw [parse, hp]
    cases rereadAll id (es.filterMap fun o => o) false false <;> simp
  rw [hpar]
  constructor
  · intro h
    obtain ⟨x, hx, he⟩ := map_pair h
    obtain ⟨h1, h2, h3, h4⟩ := rereadAll_some id _ hx (.inl rfl)
    cases he
    refine ⟨h1, ?_, ?_⟩
    · rcases h2 with h2 | h2
      · exact ⟨true, fun e he => (h4 h2).2 e ((hm e).2 he)⟩
      · exact ⟨false, fun e he => (h3 h2).2 e ((hm e).2 he)⟩
    · refine ⟨fun h0 e he => (h3 h0).2 e ((hm e).2 he), fun h0 => ?_⟩
      obtain ⟨y, hy, hd⟩ := rereadAll_total id false _ (ft := false) (pt := false) (fun e he => h0 e ((hm e).1 he)) rfl
      rw [hx] at hy
      cases hy
      exact hd
  · rintro ⟨rfl, ⟨past, h⟩, h'⟩
    obtain ⟨x, hx, hd⟩ := rereadAll_total id past _ (ft := false) (pt := false) (fun e he => h e ((hm e).1 he)) (by cases past <;> rfl)
    obtain ⟨h1, h2, h3, h4⟩ := rereadAll_some id _ hx (.inl rfl)
    rw [hx]
    have hpt : x.2.2 = pt := by
      have : x.2.2 = false ↔ pt = false := by
        rw [h']
        refine ⟨fun h0 e he => (h3 h0).2 e ((hm e).2 he), fun h0 => ?_⟩
        obtain ⟨y, hy, hd⟩ := rereadAll_total id false _ (ft := false) (pt := false) (fun e he => h0 e ((hm e).1 he)) rfl
        rw [hx] at hy
        cases hy
        exact hd
      cases hx2 : x.2.2 <;> cases pt <;> simp_all
    simp [h1, hpt]

/-- Up to the numbers of the atoms the formulas read are the formulas written, if no operator has more than two operands, as
is the case after `multi_operators_to_binary`. -/
theorem C50_same (id : α → Option Nat) (es : List (Expr α)) (mission : Int) {s : List Char} (hs : exported id (es.map some) = some s)
    {pt : Bool} {fs : List (Expr Nat)} (h : parse mission s = some (pt, fs)) (hw : ∀ e ∈ es, Nowhere isWide (numbered id e)) :
    fs = es.map (numbered id) := by
  rw [((C50_exact id (es.map some) mission hs pt fs).1 h).1]
  simp only [List.filterMap_map, Function.comp_def, List.filterMap_some]
  exact List.map_congr_left fun e he => narrow_leftNested _ (hw e he)

/-- Whatever the number of operands, the formulas read have the verdicts of the formulas written, on every trace of the
signals. -/
theorem C50_verdicts (id : α → Option Nat) (es : List (Expr α)) (mission : Int) {s : List Char} (hs : exported id (es.map some) = some s)
    {pt : Bool} {fs : List (Expr Nat)} (h : parse mission s = some (pt, fs)) (π : Trace Nat) :
    fs.length = es.length ∧ ∀ (k : Nat) (e : Expr α) (f : Expr Nat), es[k]? = some e → fs[k]? = some f →
      ∀ i, sat π f i ↔ sat (fun i a => ∃ n, id a = some n ∧ π i n) e i := by
  obtain ⟨h1, ⟨past, h2⟩, _⟩ := (C50_exact id (es.map some) mission hs pt fs).1 h
  simp only [List.filterMap_map, Function.comp_def, List.filterMap_some] at h1
  subst h1
  refine ⟨by simp, fun k e f he hf i => ?_⟩
  simp only [List.getElem?_map, he, Option.map_some, Option.some.injEq] at hf
  subst hf
  have hn := h2 e (by simpa using List.mem_of_getElem? he)
  rw [sat_leftNested, numbered, sat_rename]
  exact sat_numbered hn π i

/-- C50, for texts people write.  A text is accepted if and only if each of its lines is in the grammar, all in one tense, and
what is read is what the grammar says: operators bind in the order of the table and associate to the left. -/
theorem C50_grammar (mission : Int) (s : List Char) (es : List (Expr Nat)) :
    (∃ section', parse mission s = some (section', es)) ↔
      ∃ (past : Bool) (lines : List (List Tok × Expr Nat)), (∀ l ∈ lines, Reads mission past 1 l.1 l.2) ∧ lex s = (lines.flatMap fun l => l.1 ++ [.newline]) ∧
        es = lines.map (·.2) := by
  constructor
  · rintro ⟨pt, h⟩
    rw [parse, Option.bind_eq_some_iff] at h
    obtain ⟨⟨fs, cur, ft, qt, sp⟩, h1, h2⟩ := h
    rcases fs with _ | _
    · cases cur with
      | some _ => cases h2
      | none =>
        cases h2
        have hq : (ft && qt) = false := parse_one {} (lex s) h1 rfl
        have hl := parse_leads (past := qt) {} (lex s) h1 (by
          cases ft <;> cases qt <;> first | rfl | cases hq)
        obtain ⟨ls, us, h3, h4, h5, h6⟩ := hl.2 [] ⟨[], [], rfl, rfl, by simp, .nil⟩
        cases h6
        exact ⟨qt, ls, h5, by simpa using h3, h4⟩
    · cases h2
  · rintro ⟨past, ls, h1, h2, rfl⟩
    obtain ⟨ft, pt, h3, h4⟩ := reads_lines ls h1 false false [] (by cases past <;> rfl)
    exact ⟨pt, by rw [parse, h2, h3]; simp⟩

/-- No line has two meanings. -/
theorem C50_unambiguous {mission : Int} {past past' : Bool} {ts : List Tok} {e e' : Expr Nat} (h : Reads mission past 1 ts e)
    (h' : Reads mission past' 1 ts e') : e = e' := by
  obtain ⟨_, _, h1, _⟩ := reads_lines [(ts, e)] (by simpa using h) false false [] (by cases past <;> rfl)
  obtain ⟨_, _, h2, _⟩ := reads_lines [(ts, e')] (by simpa using h') false false [] (by cases past' <;> rfl)
  have := h1.symm.trans h2
  simpa using congrArg PState.specs (Option.some.inj this)

/-- `a0 & a1 -> G[0,2] a2 | !a3 U[1,4] a4` is read as `(a0 & a1) -> ((G[0,2] a2) | ((!a3) U[1,4] a4))`. -/
example : Reads (-1) false 1 (lex "a0 & a1 -> G[0,2] a2 | !a3 U[1,4] a4".toList)
    (.imp (.and [.atom 0, .atom 1]) (.or [.glob 0 2 (.atom 2), .untl 1 4 (.neg (.atom 3)) (.atom 4)])) :=
  .imp (ls := [.atomic 0, .and, .atomic 1])
    ((Reads.and (.mono (.atomic 0) (by decide)) (.mono (.atomic 1) (by decide))).mono (by decide))
    (.or (ls := [.tl .G, .lbrack, .num 0, .comma, .num 2, .rbrack, .atomic 2])
      ((Reads.glob rfl (.between (.num 0) (.num 2)) (.mono (.atomic 2) (by decide))).mono (by decide))
      ((Reads.untl (ls := [.neg, .atomic 3]) rfl ((Reads.neg (.mono (.atomic 3) (by decide))).mono (by decide))
        (.between (.num 1) (.num 4)) (.mono (.atomic 4) (by decide))).mono (by decide)))

/-- The formulas `(a0 U[1,4] !a12) -> G[0,3] (a2 && a0)` and `false <-> (a0 R[10,11] true)`. -/
def example_formulas : List (Expr Nat) :=
  [.imp (.untl 1 4 (.atom 0) (.neg (.atom 12))) (.glob 0 3 (.and [.atom 2, .atom 0])),
   .iff (.const false) (.rel 10 11 (.atom 0) (.const true))]

theorem example_expressible : ∀ e ∈ example_formulas, Nowhere (Inexpressible some false) e := by
  intro e he
  simp only [example_formulas, List.mem_cons, List.not_mem_nil, or_false] at he
  rcases he with rfl | rfl <;>
    repeat' first
      | (refine nwc.2 ⟨by simp [Inexpressible], ?_⟩; simp only [Expr.children, List.forall_mem_cons, List.not_mem_nil, IsEmpty.forall_iff, implies_true, and_true])
      | refine ⟨?_, ?_⟩

example : exported some (example_formulas.map some) =
    some ("((a0 U[1,4] (! a12)) -> (G[0,3] (a2 & a0)))\n(false  <-> (a0 R[10,11] true ))\n".toList) := by decide +kernel
example : parse (-1) "((a0 U[1,4] (! a12)) -> (G[0,3] (a2 & a0)))\n(false  <-> (a0 R[10,11] true ))\n".toList =
    some (false, example_formulas) := by rfl
/-- Past-time formulas, and the brackets and blanks a person would write. -/
example : parse 7 "# comment\na0 S[2,M] !a1&a2\nO[3]a0|a1\n".toList =
    some (true, [.and [.since 2 7 (.atom 0) (.neg (.atom 1)), .atom 2], .or [.once 0 3 (.atom 0), .atom 1]]) := by rfl

/-- C50 fails for exclusive or: it is exported, but the text is no formula of the format. -/
theorem C50_xor_fails (l r : Expr α) (id : α → Option Nat) (mission : Int) {s : List Char}
    (hs : exported id [some (.xor l r)] = some s) : parse mission s = none := by
  cases h : parse mission s with
  | none => rfl
  | some x =>
    obtain ⟨_, ⟨p, h2⟩, _⟩ := (C50_exact id _ mission hs x.1 x.2).1 h
    exact absurd trivial (nwc.1 (h2 (.xor l r) (by simp))).1

example : exported some [some (.xor (.atom 0) (.atom (1 : Nat)))] = some "(a0 xor a1)\n".toList := by decide +kernel

/-- C50 fails for programs with formulas of both tenses: they are exported to one text, but no section holds both. -/
theorem C50_mixed_fails {lb ub lb' ub' : Nat} (e f : Expr α) (id : α → Option Nat) (mission : Int) {s : List Char}
    (hs : exported id [some (.glob lb ub e), some (.once lb' ub' f)] = some s) : parse mission s = none := by
  cases h : parse mission s with
  | none => rfl
  | some x =>
    obtain ⟨_, ⟨p, h2⟩, _⟩ := (C50_exact id _ mission hs x.1 x.2).1 h
    have h3 := (nwc.1 (h2 (.glob lb ub e) (by simp))).1
    have h4 := (nwc.1 (h2 (.once lb' ub' f) (by simp))).1
    cases p <;> simp [Inexpressible] at h3 h4

example : exported some [some (.glob 0 2 (.atom 0)), some (.once 1 3 (.atom (1 : Nat)))] =
    some "(G[0,2] a0)\n(O[1,3] a1)\n".toList := by decide +kernel

/-- C50 fails for operators with more than two operands: what is read has the same verdicts, but not the same structure. -/
theorem C50_grouping_fails : ∃ s, exported some [some (.and [.atom 0, .atom 1, .atom (2 : Nat)])] = some s ∧
    parse 0 s = some (false, [.and [.and [.atom 0, .atom 1], .atom 2]]) := ⟨_, rfl, rfl⟩

/-- C50 fails for contracts: they are not exported. -/
theorem C50_contracts_fail (id : α → Option Nat) (es fs : List (Option (Expr α))) :
    exported id (es ++ none :: fs) = exported id (es ++ fs) := by
  induction es with
  | nil => rfl
  | cons e es ih =>
    cases e with
    | none => exact ih
    | some e => simp only [List.cons_append, exported, ih]

end Mltl
end R2U2
