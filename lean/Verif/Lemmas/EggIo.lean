import Verif.Lemmas.Egg
import Verif.Spec.Shapes
/-
Export to and import from the e-graph engine.
-/
namespace R2U2
namespace Eqsat

theorem print_len (t : Egg) : 4 ≤ (print t).length := by
  induction t <;> simp [print] <;> omega

theorem print_head (t : Egg) : ∃ ts, print t = .lparen :: ts := by
  cases t <;> exact ⟨_, rfl⟩

theorem parseList_last {n : Nat} {ts rest : List Tok} {a : Expr Nat}
    (h : parseExpr n ts = some (a, .rparen :: rest)) : parseList (n + 1) ts = some ([a], rest) := by
  simp [parseList, h]

theorem parseList_cons {n : Nat} {ts rest rest' : List Tok} {a : Expr Nat} {t : Egg}
    {as : List (Expr Nat)}
    (h : parseExpr n ts = some (a, print t ++ rest)) (h' : parseList n (print t ++ rest) = some (as, rest')) :
    parseList (n + 1) ts = some (a :: as, rest') := by
  obtain ⟨ts', hts⟩ := print_head t
  rw [hts, List.cons_append] at h h'
  simp [parseList, h, h']

theorem parse_print (t : Egg) : ∀ (n : Nat), (print t).length ≤ n → ∀ (rest : List Tok),
    parseExpr n (print t ++ rest) = some (ofEgg t, rest) := by
  induction t with
  | bool b =>
      intro n hn rest
      obtain ⟨n, rfl⟩ : ∃ m, n = m + 1 := ⟨n - 1, by simp [print] at hn; omega⟩
      cases b <;> simp [print, parseExpr, ofEgg]
  | var k =>
      intro n hn rest
      obtain ⟨n, rfl⟩ : ∃ m, n = m + 1 := ⟨n - 1, by simp [print] at hn; omega⟩
      simp [print, parseExpr, ofEgg]
  | not a iha =>
      intro n hn rest
      obtain ⟨n, rfl⟩ : ∃ m, n = m + 1 := ⟨n - 1, by simp [print] at hn; omega⟩
      have ha := iha n (by simp [print] at hn; omega) (.rparen :: rest)
      simp [print, parseExpr, ofEgg, ha, parseClose]
  | implies a b iha ihb | equiv a b iha ihb =>
      intro n hn rest
      obtain ⟨n, rfl⟩ : ∃ m, n = m + 1 := ⟨n - 1, by simp [print] at hn; omega⟩
      have ha := iha n (by simp [print] at hn; omega) (print b ++ .rparen :: rest)
      have hb := ihb n (by simp [print] at hn; omega) (.rparen :: rest)
      simp [print, parseExpr, ofEgg, ha, hb, parseClose]
  | and2 a b iha ihb | or2 a b iha ihb =>
      intro n hn rest
      have := print_len a; have := print_len b
      simp only [print, List.length_cons, List.length_append, List.length_nil] at hn
      obtain ⟨n, rfl⟩ : ∃ m, n = m + 3 := ⟨n - 3, by omega⟩
      have ha := iha (n + 1) (by omega) (print b ++ .rparen :: rest)
      have hb := ihb n (by omega) (.rparen :: rest)
      have := parseList_cons ha (parseList_last hb)
      simp [print, parseExpr, ofEgg, this]
  | and3 a b c iha ihb ihc | or3 a b c iha ihb ihc =>
      intro n hn rest
      have := print_len a; have := print_len b; have := print_len c
      simp only [print, List.length_cons, List.length_append, List.length_nil] at hn
      obtain ⟨n, rfl⟩ : ∃ m, n = m + 4 := ⟨n - 4, by omega⟩
      have ha := iha (n + 2) (by omega) (print b ++ (print c ++ .rparen :: rest))
      have hb := ihb (n + 1) (by omega) (print c ++ .rparen :: rest)
      have hc := ihc n (by omega) (.rparen :: rest)
      have := parseList_cons ha (parseList_cons hb (parseList_last hc))
      simp [print, parseExpr, ofEgg, this]
  | and4 a b c d iha ihb ihc ihd | or4 a b c d iha ihb ihc ihd =>
      intro n hn rest
      have := print_len a; have := print_len b; have := print_len c; have := print_len d
      simp only [print, List.length_cons, List.length_append, List.length_nil] at hn
      obtain ⟨n, rfl⟩ : ∃ m, n = m + 5 := ⟨n - 5, by omega⟩
      have ha := iha (n + 3) (by omega) (print b ++ (print c ++ (print d ++ .rparen :: rest)))
      have hb := ihb (n + 2) (by omega) (print c ++ (print d ++ .rparen :: rest))
      have hc := ihc (n + 1) (by omega) (print d ++ .rparen :: rest)
      have hd := ihd n (by omega) (.rparen :: rest)
      have := parseList_cons ha (parseList_cons hb (parseList_cons hc (parseList_last hd)))
      simp [print, parseExpr, ofEgg, this]
  | global lb ub a iha | future lb ub a iha =>
      intro n hn rest
      obtain ⟨n, rfl⟩ : ∃ m, n = m + 1 := ⟨n - 1, by simp [print] at hn; omega⟩
      have ha := iha n (by simp [print] at hn; omega) (.rparen :: rest)
      simp [print, parseExpr, ofEgg, ha, parseClose, parseInterval, numTok]
  | «until» lb ub a b iha ihb | release lb ub a b iha ihb =>
      intro n hn rest
      obtain ⟨n, rfl⟩ : ∃ m, n = m + 1 := ⟨n - 1, by simp [print] at hn; omega⟩
      have ha := iha n (by simp [print] at hn; omega) (print b ++ .rparen :: rest)
      have hb := ihb n (by simp [print] at hn; omega) (.rparen :: rest)
      simp [print, parseExpr, ofEgg, ha, hb, parseClose, parseInterval, numTok]

theorem parseAll_print (t : Egg) : parseAll (print t) = some (ofEgg t) := by
  have := parse_print t ((print t).length + 1) (by omega) []
  rw [List.append_nil] at this
  simp [parseAll, this]

theorem ofEgg_sat {t : Egg} (hw : t.WF) (v : Trace Nat) :
    ∀ (i : Nat), sat v (ofEgg t) i ↔ t.sem v i := by
  induction t with
  | bool b => intro i; simp [ofEgg, sat, Egg.sem]
  | var k => intro i; simp [ofEgg, sat, Egg.sem]
  | not a iha => intro i; simp [ofEgg, sat, Egg.sem, iha hw i]
  | implies a b iha ihb | equiv a b iha ihb =>
      intro i; simp [ofEgg, sat, Egg.sem, iha hw.1 i, ihb hw.2 i]
  | and2 a b iha ihb | or2 a b iha ihb =>
      intro i; simp [ofEgg, sat, satAll, satAny, Egg.sem, iha hw.1 i, ihb hw.2 i]
  | and3 a b c iha ihb ihc | or3 a b c iha ihb ihc =>
      intro i
      simp [ofEgg, sat, satAll, satAny, Egg.sem, iha hw.1 i, ihb hw.2.1 i, ihc hw.2.2 i]
  | and4 a b c d iha ihb ihc ihd | or4 a b c d iha ihb ihc ihd =>
      intro i
      simp [ofEgg, sat, satAll, satAny, Egg.sem, iha hw.1 i, ihb hw.2.1 i, ihc hw.2.2.1 i,
        ihd hw.2.2.2 i]
  | global lb ub a iha =>
      intro i
      obtain ⟨h0, h1, hw⟩ := hw
      simp only [ofEgg, sat, Egg.sem, iha hw]
      exact ⟨fun h j p q => h j (by omega) (by omega), fun h j p q => h j (by omega) (by omega)⟩
  | future lb ub a iha =>
      intro i
      obtain ⟨h0, h1, hw⟩ := hw
      simp only [ofEgg, sat, Egg.sem, iha hw]
      exact ⟨fun ⟨j, p, q, h⟩ => ⟨j, by omega, by omega, h⟩,
        fun ⟨j, p, q, h⟩ => ⟨j, by omega, by omega, h⟩⟩
  | «until» lb ub a b iha ihb =>
      intro i
      obtain ⟨h0, h1, hwa, hwb⟩ := hw
      simp only [ofEgg, sat, Egg.sem, iha hwa, ihb hwb]
      exact ⟨fun ⟨j, p, q, h, h'⟩ => ⟨j, by omega, by omega, h, fun k x y => h' k (by omega) y⟩,
        fun ⟨j, p, q, h, h'⟩ => ⟨j, by omega, by omega, h, fun k x y => h' k (by omega) y⟩⟩
  | release lb ub a b iha ihb =>
      intro i
      obtain ⟨h0, h1, hwa, hwb⟩ := hw
      simp only [ofEgg, sat, Egg.sem, iha hwa, ihb hwb]
      constructor
      · intro h j p q hj
        obtain ⟨k, x, y, z⟩ := h j (by omega) (by omega) hj
        exact ⟨k, by omega, y, z⟩
      · intro h j p q hj
        obtain ⟨k, x, y, z⟩ := h j (by omega) (by omega) hj
        exact ⟨k, by omega, y, z⟩

/-- The trace of atom numbers that a trace of atoms induces. -/
def pull {α : Type} (atomOf : Nat → Option α) (π : Trace α) : Trace Nat :=
  fun i n => ∃ a, atomOf n = some a ∧ π i a

mutual
theorem replaceAtoms_sat {α : Type} {atomOf : Nat → Option α} (π : Trace α) :
    ∀ (x : Expr Nat) (e : Expr α), replaceAtoms atomOf x = some e →
      ∀ (i : Nat), sat (pull atomOf π) x i ↔ sat π e i
  | .const b, e, h, i => by
      simp only [replaceAtoms, Option.some.injEq] at h; subst h; simp [sat]
  | .atom n, e, h, i => by
      simp only [replaceAtoms, Option.bind_eq_bind, Option.pure_def, Option.bind_eq_some_iff,
        Option.some.injEq] at h
      obtain ⟨a, ha, rfl⟩ := h
      simp [sat, pull, ha]
  | .neg x, e, h, i => by
      simp only [replaceAtoms, Option.bind_eq_bind, Option.pure_def, Option.bind_eq_some_iff,
        Option.some.injEq] at h
      obtain ⟨a, ha, rfl⟩ := h
      simp [sat, replaceAtoms_sat π x a ha]
  | .and cs, e, h, i => by
      simp only [replaceAtoms, Option.bind_eq_bind, Option.pure_def, Option.bind_eq_some_iff,
        Option.some.injEq] at h
      obtain ⟨a, ha, rfl⟩ := h
      exact (replaceAtomsL_sat π cs a ha i).1
  | .or cs, e, h, i => by
      simp only [replaceAtoms, Option.bind_eq_bind, Option.pure_def, Option.bind_eq_some_iff,
        Option.some.injEq] at h
      obtain ⟨a, ha, rfl⟩ := h
      exact (replaceAtomsL_sat π cs a ha i).2
  | .xor l r, e, h, i | .imp l r, e, h, i | .iff l r, e, h, i | .equal l r, e, h, i => by
      simp only [replaceAtoms, Option.bind_eq_bind, Option.pure_def, Option.bind_eq_some_iff,
        Option.some.injEq] at h
      obtain ⟨a, ha, b, hb, rfl⟩ := h
      simp [sat, replaceAtoms_sat π l a ha, replaceAtoms_sat π r b hb]
  | .fut lb ub x, e, h, i | .glob lb ub x, e, h, i | .once lb ub x, e, h, i
  | .hist lb ub x, e, h, i => by
      simp only [replaceAtoms, Option.bind_eq_bind, Option.pure_def, Option.bind_eq_some_iff,
        Option.some.injEq] at h
      obtain ⟨a, ha, rfl⟩ := h
      simp [sat, replaceAtoms_sat π x a ha]
  | .untl lb ub l r, e, h, i | .rel lb ub l r, e, h, i | .since lb ub l r, e, h, i
  | .trig lb ub l r, e, h, i => by
      simp only [replaceAtoms, Option.bind_eq_bind, Option.pure_def, Option.bind_eq_some_iff,
        Option.some.injEq] at h
      obtain ⟨a, ha, b, hb, rfl⟩ := h
      simp [sat, replaceAtoms_sat π l a ha, replaceAtoms_sat π r b hb]
theorem replaceAtomsL_sat {α : Type} {atomOf : Nat → Option α} (π : Trace α) :
    ∀ (xs : List (Expr Nat)) (es : List (Expr α)), replaceAtomsL atomOf xs = some es →
      ∀ (i : Nat), (satAll (pull atomOf π) xs i ↔ satAll π es i) ∧
        (satAny (pull atomOf π) xs i ↔ satAny π es i)
  | [], es, h, i => by
      simp only [replaceAtomsL, Option.some.injEq] at h; subst h; simp [satAll, satAny]
  | x :: xs, es, h, i => by
      simp only [replaceAtomsL, Option.bind_eq_bind, Option.pure_def, Option.bind_eq_some_iff,
        Option.some.injEq] at h
      obtain ⟨a, ha, as, has, rfl⟩ := h
      simp [satAll, satAny, replaceAtoms_sat π x a ha, replaceAtomsL_sat π xs as has]
end

mutual
/-- The import undoes the export. -/
theorem replace_export {α : Type} {atomId : α → Nat} {atomOf : Nat → Option α}
    (hm : ∀ a, atomOf (atomId a) = some a) :
    ∀ (e : Expr α) (t : Egg), toEgg atomId e = some t → replaceAtoms atomOf (ofEgg t) = some e
  | .const b, t, h => by
      simp only [toEgg, Option.some.injEq] at h; subst h; simp [ofEgg, replaceAtoms]
  | .atom a, t, h => by
      simp only [toEgg, Option.some.injEq] at h; subst h; simp [ofEgg, replaceAtoms, hm]
  | .neg e, t, h => by
      simp only [toEgg, Option.bind_eq_bind, Option.pure_def, Option.bind_eq_some_iff,
        Option.some.injEq] at h
      obtain ⟨a, ha, rfl⟩ := h
      simp [ofEgg, replaceAtoms, replace_export hm e a ha]
  | .and cs, t, h => by
      simp only [toEgg, Option.bind_eq_bind, Option.pure_def, Option.bind_eq_some_iff] at h
      obtain ⟨ts, hts, h⟩ := h
      have := replaceL_export hm cs ts hts
      split at h <;> simp only [Option.some.injEq, reduceCtorEq] at h <;> subst h <;>
        simp only [List.map] at this <;> simp [ofEgg, replaceAtoms, this]
  | .or cs, t, h => by
      simp only [toEgg, Option.bind_eq_bind, Option.pure_def, Option.bind_eq_some_iff] at h
      obtain ⟨ts, hts, h⟩ := h
      have := replaceL_export hm cs ts hts
      split at h <;> simp only [Option.some.injEq, reduceCtorEq] at h <;> subst h <;>
        simp only [List.map] at this <;> simp [ofEgg, replaceAtoms, this]
  | .imp l r, t, h | .iff l r, t, h => by
      simp only [toEgg, Option.bind_eq_bind, Option.pure_def, Option.bind_eq_some_iff,
        Option.some.injEq] at h
      obtain ⟨a, ha, b, hb, rfl⟩ := h
      simp [ofEgg, replaceAtoms, replace_export hm l a ha, replace_export hm r b hb]
  | .fut lb ub e, t, h | .glob lb ub e, t, h => by
      simp only [toEgg, Option.bind_eq_bind, Option.pure_def, Option.bind_eq_some_iff,
        Option.some.injEq] at h
      obtain ⟨a, ha, rfl⟩ := h
      simp [ofEgg, replaceAtoms, replace_export hm e a ha]
  | .untl lb ub l r, t, h | .rel lb ub l r, t, h => by
      simp only [toEgg, Option.bind_eq_bind, Option.pure_def, Option.bind_eq_some_iff,
        Option.some.injEq] at h
      obtain ⟨a, ha, b, hb, rfl⟩ := h
      simp [ofEgg, replaceAtoms, replace_export hm l a ha, replace_export hm r b hb]
  | .xor l r, t, h | .equal l r, t, h => by simp [toEgg] at h
  | .once lb ub e, t, h | .hist lb ub e, t, h => by simp [toEgg] at h
  | .since lb ub l r, t, h | .trig lb ub l r, t, h => by simp [toEgg] at h
theorem replaceL_export {α : Type} {atomId : α → Nat} {atomOf : Nat → Option α}
    (hm : ∀ a, atomOf (atomId a) = some a) :
    ∀ (es : List (Expr α)) (ts : List Egg), toEggL atomId es = some ts →
      replaceAtomsL atomOf (ts.map ofEgg) = some es
  | [], ts, h => by
      simp only [toEggL, Option.some.injEq] at h; subst h; simp [replaceAtomsL]
  | e :: es, ts, h => by
      simp only [toEggL, Option.bind_eq_bind, Option.pure_def, Option.bind_eq_some_iff,
        Option.some.injEq] at h
      obtain ⟨a, ha, as, has, rfl⟩ := h
      simp [replaceAtomsL, replace_export hm e a ha, replaceL_export hm es as has]
end

theorem nw_iff_children {α : Type} {bad : Expr α → Prop} {e : Expr α} :
    Nowhere bad e ↔ ¬ bad e ∧ ∀ c ∈ e.children, Nowhere bad c :=
  ⟨fun ⟨_, h, h'⟩ => ⟨h, h'⟩, fun ⟨h, h'⟩ => ⟨_, h, h'⟩⟩

mutual
/-- A formula without disordered intervals is exported as a well-formed term. -/
theorem export_wf {α : Type} {atomId : α → Nat} :
    ∀ (e : Expr α) (t : Egg), toEgg atomId e = some t → Nowhere isDisordered e → t.WF
  | .const b, t, h, _ => by
      simp only [toEgg, Option.some.injEq] at h; subst h; trivial
  | .atom a, t, h, _ => by
      simp only [toEgg, Option.some.injEq] at h; subst h; trivial
  | .neg e, t, h, hd => by
      simp only [toEgg, Option.bind_eq_bind, Option.pure_def, Option.bind_eq_some_iff,
        Option.some.injEq] at h
      obtain ⟨a, ha, rfl⟩ := h
      rw [nw_iff_children] at hd
      exact export_wf e a ha (hd.2 e (by simp [Expr.children]))
  | .and cs, t, h, hd => by
      simp only [toEgg, Option.bind_eq_bind, Option.pure_def, Option.bind_eq_some_iff] at h
      obtain ⟨ts, hts, h⟩ := h
      rw [nw_iff_children] at hd
      have := exportL_wf cs ts hts hd.2
      split at h <;> simp only [Option.some.injEq, reduceCtorEq] at h <;> subst h <;>
        simpa [Egg.WF] using this
  | .or cs, t, h, hd => by
      simp only [toEgg, Option.bind_eq_bind, Option.pure_def, Option.bind_eq_some_iff] at h
      obtain ⟨ts, hts, h⟩ := h
      rw [nw_iff_children] at hd
      have := exportL_wf cs ts hts hd.2
      split at h <;> simp only [Option.some.injEq, reduceCtorEq] at h <;> subst h <;>
        simpa [Egg.WF] using this
  | .imp l r, t, h, hd | .iff l r, t, h, hd => by
      simp only [toEgg, Option.bind_eq_bind, Option.pure_def, Option.bind_eq_some_iff,
        Option.some.injEq] at h
      obtain ⟨a, ha, b, hb, rfl⟩ := h
      rw [nw_iff_children] at hd
      exact ⟨export_wf l a ha (hd.2 l (by simp [Expr.children])),
        export_wf r b hb (hd.2 r (by simp [Expr.children]))⟩
  | .fut lb ub e, t, h, hd | .glob lb ub e, t, h, hd => by
      simp only [toEgg, Option.bind_eq_bind, Option.pure_def, Option.bind_eq_some_iff,
        Option.some.injEq] at h
      obtain ⟨a, ha, rfl⟩ := h
      rw [nw_iff_children] at hd
      have h1 := hd.1
      simp only [isDisordered] at h1
      exact ⟨by omega, by omega, export_wf e a ha (hd.2 e (by simp [Expr.children]))⟩
  | .untl lb ub l r, t, h, hd | .rel lb ub l r, t, h, hd => by
      simp only [toEgg, Option.bind_eq_bind, Option.pure_def, Option.bind_eq_some_iff,
        Option.some.injEq] at h
      obtain ⟨a, ha, b, hb, rfl⟩ := h
      rw [nw_iff_children] at hd
      have h1 := hd.1
      simp only [isDisordered] at h1
      exact ⟨by omega, by omega, export_wf l a ha (hd.2 l (by simp [Expr.children])),
        export_wf r b hb (hd.2 r (by simp [Expr.children]))⟩
  | .xor l r, t, h, _ | .equal l r, t, h, _ => by simp [toEgg] at h
  | .once lb ub e, t, h, _ | .hist lb ub e, t, h, _ => by simp [toEgg] at h
  | .since lb ub l r, t, h, _ | .trig lb ub l r, t, h, _ => by simp [toEgg] at h
theorem exportL_wf {α : Type} {atomId : α → Nat} :
    ∀ (es : List (Expr α)) (ts : List Egg), toEggL atomId es = some ts →
      (∀ c ∈ es, Nowhere isDisordered c) → ∀ t ∈ ts, t.WF
  | [], ts, h, _ => by
      simp only [toEggL, Option.some.injEq] at h; subst h; simp
  | e :: es, ts, h, hd => by
      simp only [toEggL, Option.bind_eq_bind, Option.pure_def, Option.bind_eq_some_iff,
        Option.some.injEq] at h
      obtain ⟨a, ha, as, has, rfl⟩ := h
      intro t ht
      rcases List.mem_cons.1 ht with rfl | ht
      · exact export_wf e _ ha (hd e (by simp))
      · exact exportL_wf es as has (fun c hc => hd c (by simp [hc])) t ht
end

/-! ### The atoms of a term -/

/-- The atom numbers of a term. -/
def eggVars : Egg → List Nat
  | .bool _ => []
  | .var n => [n]
  | .not a | .global _ _ a | .future _ _ a => eggVars a
  | .implies a b | .equiv a b | .and2 a b | .or2 a b | .until _ _ a b | .release _ _ a b =>
      eggVars a ++ eggVars b
  | .and3 a b c | .or3 a b c => eggVars a ++ eggVars b ++ eggVars c
  | .and4 a b c d | .or4 a b c d => eggVars a ++ eggVars b ++ eggVars c ++ eggVars d

theorem rule_vars {o : EggOptions} {l r : Egg} (h : o.rule l r) : eggVars r ⊆ eggVars l := by
  rcases h with ⟨-, h⟩ | ⟨-, h⟩ | ⟨-, h⟩ | ⟨-, h⟩ | ⟨-, h⟩ <;> cases h <;>
    intro n <;> simp only [eggVars, List.mem_append, List.not_mem_nil] <;> tauto

theorem eggVars_child {t c : Egg} (hc : c ∈ t.children) : eggVars c ⊆ eggVars t := by
  intro n hn
  cases t <;> simp only [Egg.children, List.mem_cons, List.not_mem_nil, or_false] at hc <;>
    simp only [eggVars, List.mem_append]
  all_goals (try (exfalso; exact hc))
  all_goals (rcases hc with rfl | rfl | rfl | rfl) <;> tauto

theorem eggVars_iff {t : Egg} {n : Nat} (hn : n ∈ eggVars t) :
    t = .var n ∨ ∃ (k : Nat) (c : Egg), t.children[k]? = some c ∧ n ∈ eggVars c := by
  cases t <;> simp only [eggVars, List.mem_append, List.not_mem_nil, List.mem_singleton] at hn
  case var m => exact .inl (by rw [hn])
  all_goals refine .inr ?_
  case not a => exact ⟨0, a, rfl, hn⟩
  case global a => exact ⟨0, a, rfl, hn⟩
  case future a => exact ⟨0, a, rfl, hn⟩
  case implies a b => exact hn.elim (⟨0, a, rfl, ·⟩) (⟨1, b, rfl, ·⟩)
  case equiv a b => exact hn.elim (⟨0, a, rfl, ·⟩) (⟨1, b, rfl, ·⟩)
  case and2 a b => exact hn.elim (⟨0, a, rfl, ·⟩) (⟨1, b, rfl, ·⟩)
  case or2 a b => exact hn.elim (⟨0, a, rfl, ·⟩) (⟨1, b, rfl, ·⟩)
  case «until» a b => exact hn.elim (⟨0, a, rfl, ·⟩) (⟨1, b, rfl, ·⟩)
  case release a b => exact hn.elim (⟨0, a, rfl, ·⟩) (⟨1, b, rfl, ·⟩)
  case and3 a b c => exact hn.elim (·.elim (⟨0, a, rfl, ·⟩) (⟨1, b, rfl, ·⟩)) (⟨2, c, rfl, ·⟩)
  case or3 a b c => exact hn.elim (·.elim (⟨0, a, rfl, ·⟩) (⟨1, b, rfl, ·⟩)) (⟨2, c, rfl, ·⟩)
  case and4 a b c d =>
      exact hn.elim (·.elim (·.elim (⟨0, a, rfl, ·⟩) (⟨1, b, rfl, ·⟩)) (⟨2, c, rfl, ·⟩)) (⟨3, d, rfl, ·⟩)
  case or4 a b c d =>
      exact hn.elim (·.elim (·.elim (⟨0, a, rfl, ·⟩) (⟨1, b, rfl, ·⟩)) (⟨2, c, rfl, ·⟩)) (⟨3, d, rfl, ·⟩)

/-- Saturation introduces no atoms. -/
theorem EqG_vars {o : EggOptions} {root t u : Egg} (h : EqG o.rule root t u) :
    eggVars t ⊆ eggVars root ∧ eggVars u ⊆ eggVars root := by
  induction h with
  | root => exact ⟨fun _ h => h, fun _ h => h⟩
  | sub _ hc ih => exact ⟨fun n hn => ih.1 (eggVars_child hc hn), fun n hn => ih.1 (eggVars_child hc hn)⟩
  | symm _ ih => exact ⟨ih.2, ih.1⟩
  | trans _ _ ih1 ih2 => exact ⟨ih1.1, ih2.2⟩
  | rule _ hr ih => exact ⟨ih.1, fun n hn => ih.1 (rule_vars hr hn)⟩
  | @congr t u _ hop hlen _ ih0 ih =>
      refine ⟨ih0.1, fun n hn => ?_⟩
      rcases eggVars_iff hn with rfl | ⟨k, c, hk, hc⟩
      · have : t = .var n := by
          cases t <;> simp only [Egg.op, reduceCtorEq] at hop
          exact hop
        subst this
        exact ih0.1 hn
      · have hk' : k < t.children.length := by
          rw [hlen]; exact (List.getElem?_eq_some_iff.1 hk).1
        exact (ih k _ c (List.getElem?_eq_getElem hk') hk).2 hc

theorem replaceAtoms_total {α : Type} {atomOf : Nat → Option α} :
    ∀ (t : Egg), (∀ n ∈ eggVars t, (atomOf n).isSome) →
      ∃ e, replaceAtoms atomOf (ofEgg t) = some e := by
  intro t
  induction t with
  | bool b => intro _; exact ⟨_, rfl⟩
  | var n =>
      intro h
      obtain ⟨a, ha⟩ := Option.isSome_iff_exists.1 (h n (by simp [eggVars]))
      exact ⟨.atom a, by simp [ofEgg, replaceAtoms, ha]⟩
  | not a iha | global lb ub a iha | future lb ub a iha =>
      intro h
      obtain ⟨x, hx⟩ := iha h
      exact ⟨_, by simp only [ofEgg, replaceAtoms, hx]; rfl⟩
  | implies a b iha ihb | equiv a b iha ihb | «until» lb ub a b iha ihb | release lb ub a b iha ihb =>
      intro h
      simp only [eggVars, List.mem_append] at h
      obtain ⟨x, hx⟩ := iha fun n hn => h n (by tauto)
      obtain ⟨y, hy⟩ := ihb fun n hn => h n (by tauto)
      exact ⟨_, by simp only [ofEgg, replaceAtoms, hx, hy]; rfl⟩
  | and2 a b iha ihb | or2 a b iha ihb =>
      intro h
      simp only [eggVars, List.mem_append] at h
      obtain ⟨x, hx⟩ := iha fun n hn => h n (by tauto)
      obtain ⟨y, hy⟩ := ihb fun n hn => h n (by tauto)
      exact ⟨_, by simp only [ofEgg, replaceAtoms, replaceAtomsL, hx, hy]; rfl⟩
  | and3 a b c iha ihb ihc | or3 a b c iha ihb ihc =>
      intro h
      simp only [eggVars, List.mem_append] at h
      obtain ⟨x, hx⟩ := iha fun n hn => h n (by tauto)
      obtain ⟨y, hy⟩ := ihb fun n hn => h n (by tauto)
      obtain ⟨z, hz⟩ := ihc fun n hn => h n (by tauto)
      exact ⟨_, by simp only [ofEgg, replaceAtoms, replaceAtomsL, hx, hy, hz]; rfl⟩
  | and4 a b c d iha ihb ihc ihd | or4 a b c d iha ihb ihc ihd =>
      intro h
      simp only [eggVars, List.mem_append] at h
      obtain ⟨x, hx⟩ := iha fun n hn => h n (by tauto)
      obtain ⟨y, hy⟩ := ihb fun n hn => h n (by tauto)
      obtain ⟨z, hz⟩ := ihc fun n hn => h n (by tauto)
      obtain ⟨w, hw⟩ := ihd fun n hn => h n (by tauto)
      exact ⟨_, by simp only [ofEgg, replaceAtoms, replaceAtomsL, hx, hy, hz, hw]; rfl⟩

mutual
/-- The atoms of an exported formula are those of the atomic map. -/
theorem export_vars {α : Type} {atomId : α → Nat} :
    ∀ (e : Expr α) (t : Egg), toEgg atomId e = some t → ∀ n ∈ eggVars t, ∃ a, n = atomId a
  | .const b, t, h => by
      simp only [toEgg, Option.some.injEq] at h; subst h; simp [eggVars]
  | .atom a, t, h => by
      simp only [toEgg, Option.some.injEq] at h; subst h; simp [eggVars]
  | .neg e, t, h | .fut lb ub e, t, h | .glob lb ub e, t, h => by
      simp only [toEgg, Option.bind_eq_bind, Option.pure_def, Option.bind_eq_some_iff,
        Option.some.injEq] at h
      obtain ⟨a, ha, rfl⟩ := h
      exact export_vars e a ha
  | .and cs, t, h => by
      simp only [toEgg, Option.bind_eq_bind, Option.pure_def, Option.bind_eq_some_iff] at h
      obtain ⟨ts, hts, h⟩ := h
      have := exportL_vars cs ts hts
      intro n hn
      split at h <;> simp only [Option.some.injEq, reduceCtorEq] at h <;> subst h <;>
        simp only [eggVars, List.mem_append] at hn <;> simp only [List.mem_cons, List.not_mem_nil,
          or_false, forall_eq_or_imp, forall_eq] at this
      · exact hn.elim (this.1 n) (this.2 n)
      · exact hn.elim (·.elim (this.1 n) (this.2.1 n)) (this.2.2 n)
      · exact hn.elim (·.elim (·.elim (this.1 n) (this.2.1 n)) (this.2.2.1 n)) (this.2.2.2 n)
  | .or cs, t, h => by
      simp only [toEgg, Option.bind_eq_bind, Option.pure_def, Option.bind_eq_some_iff] at h
      obtain ⟨ts, hts, h⟩ := h
      have := exportL_vars cs ts hts
      intro n hn
      split at h <;> simp only [Option.some.injEq, reduceCtorEq] at h <;> subst h <;>
        simp only [eggVars, List.mem_append] at hn <;> simp only [List.mem_cons, List.not_mem_nil,
          or_false, forall_eq_or_imp, forall_eq] at this
      · exact hn.elim (this.1 n) (this.2 n)
      · exact hn.elim (·.elim (this.1 n) (this.2.1 n)) (this.2.2 n)
      · exact hn.elim (·.elim (·.elim (this.1 n) (this.2.1 n)) (this.2.2.1 n)) (this.2.2.2 n)
  | .imp l r, t, h | .iff l r, t, h | .untl lb ub l r, t, h | .rel lb ub l r, t, h => by
      simp only [toEgg, Option.bind_eq_bind, Option.pure_def, Option.bind_eq_some_iff,
        Option.some.injEq] at h
      obtain ⟨a, ha, b, hb, rfl⟩ := h
      intro n hn
      simp only [eggVars, List.mem_append] at hn
      exact hn.elim (export_vars l a ha n) (export_vars r b hb n)
  | .xor l r, t, h | .equal l r, t, h => by simp [toEgg] at h
  | .once lb ub e, t, h | .hist lb ub e, t, h => by simp [toEgg] at h
  | .since lb ub l r, t, h | .trig lb ub l r, t, h => by simp [toEgg] at h
theorem exportL_vars {α : Type} {atomId : α → Nat} :
    ∀ (es : List (Expr α)) (ts : List Egg), toEggL atomId es = some ts →
      ∀ t ∈ ts, ∀ n ∈ eggVars t, ∃ a, n = atomId a
  | [], ts, h => by
      simp only [toEggL, Option.some.injEq] at h; subst h; simp
  | e :: es, ts, h => by
      simp only [toEggL, Option.bind_eq_bind, Option.pure_def, Option.bind_eq_some_iff,
        Option.some.injEq] at h
      obtain ⟨a, ha, as, has, rfl⟩ := h
      intro t ht
      rcases List.mem_cons.1 ht with rfl | ht
      · exact export_vars e _ ha
      · exact exportL_vars es as has t ht
end

theorem importEgg_print {α : Type} (atomOf signalNamed : Nat → Option α) (t : Egg)
    (ht : ∀ n, t ≠ .var n) :
    importEgg atomOf signalNamed (print t) = replaceAtoms atomOf (ofEgg t) := by
  unfold importEgg
  rw [parseAll_print]
  cases t <;> first | rfl | exact absurd rfl (ht _)

end Eqsat
end R2U2
