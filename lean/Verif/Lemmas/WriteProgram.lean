import Verif.Lemmas.Write
/-
Lemmas for the round trip through `write_c2po`: declarations, definitions, specifications and sections.
-/
namespace R2U2
namespace C2po

variable {flt : String → String} {lits : List String} {m m' : Int}

/-- The text is read as these tokens, whatever follows. -/
def Shut (flt : String → String) (s : List Char) (us : List Tok) : Prop := ∀ r, lex flt (s ++ r) = us ++ lex flt r

theorem isExpr_back {ts : List Tok} {e : Src} (h : IsExpr lits m ts e) (ht : ∀ t ∈ ts, SymOk t) (hp : PortableExpr flt e) :
    ∃ us, IsExpr lits m' us e ∧ ∀ r, EndsExpr r → lex flt (text e ++ r) = us ++ lex flt r := by
  obtain ⟨_, _, h⟩ := h
  obtain ⟨us, h1, h2, _⟩ := reads_back (flt := flt) h ht hp
  exact ⟨us, ⟨_, _, h1⟩, h2⟩

theorem join_cons (g t : List Char) (ts : List (List Char)) : joinWith g (t :: ts) = t ++ ts.flatMap fun u => g ++ u := by
  induction ts generalizing t with
  | nil => simp [joinWith]
  | cons u ts ih => rw [joinWith, ih]; simp

/-! ### Entries -/

theorem entries_back {A : Type} {p : List Tok → A → Prop} {f : A → List Char} {g : List Char} (hg : ∀ c ∈ g, c = ' ' ∨ c = '\t' ∨ c = '\n')
    (as : List A) (h : ∀ a ∈ as, ∃ us, p us a ∧ Shut flt (f a) us) :
    ∃ us, Entries p us as ∧ Shut flt (joinWith g (as.map f)) us := by
  have key : ∀ as : List A, (∀ a ∈ as, ∃ us, p us a ∧ Shut flt (f a) us) →
      ∃ us, Entries p us as ∧ Shut flt ((as.map f).flatMap fun u => g ++ u) us := by
    intro as
    induction as with
    | nil => exact fun _ => ⟨[], ⟨[], by simp, rfl, rfl⟩, fun r => rfl⟩
    | cons a as ih =>
      intro h
      obtain ⟨us, ⟨is, h1, rfl, rfl⟩, h2⟩ := ih fun b hb => h b (by simp [hb])
      obtain ⟨vs, h3, h4⟩ := h a (by simp)
      refine ⟨vs ++ is.flatMap (·.1), ⟨(vs, a) :: is, ?_, by simp, by simp⟩, fun r => ?_⟩
      · intro i hi
        rcases List.mem_cons.1 hi with rfl | hi
        · exact h3
        · exact h1 i hi
      · simp only [List.map_cons, List.flatMap_cons, List.append_assoc]
        rw [lex_gaps hg, h4, h2]
  cases as with
  | nil => exact ⟨[], ⟨[], by simp, rfl, rfl⟩, fun r => rfl⟩
  | cons a as =>
    obtain ⟨us, ⟨is, h1, rfl, rfl⟩, h2⟩ := key as fun b hb => h b (by simp [hb])
    obtain ⟨vs, h3, h4⟩ := h a (by simp)
    refine ⟨vs ++ is.flatMap (·.1), ⟨(vs, a) :: is, ?_, by simp, by simp⟩, fun r => ?_⟩
    · intro i hi
      rcases List.mem_cons.1 hi with rfl | hi
      · exact h3
      · exact h1 i hi
    · rw [List.map_cons, join_cons, List.append_assoc, h4, h2, List.append_assoc]

theorem entries_mem {A : Type} {p : List Tok → A → Prop} {ts : List Tok} {as : List A} (h : Entries p ts as) :
    ∀ a ∈ as, ∃ t, p t a ∧ ∀ x ∈ t, x ∈ ts := by
  obtain ⟨is, h1, rfl, rfl⟩ := h
  intro a ha
  obtain ⟨i, hi, rfl⟩ := List.mem_map.1 ha
  exact ⟨i.1, h1 i hi, fun x hx => List.mem_flatMap.2 ⟨i, hi, hx⟩⟩

/-! ### Declarations -/

theorem type_back {ts : List Tok} {t : Typ} (h : IsType ts t) (ht : ∀ x ∈ ts, SymOk x) :
    ∀ r, EndsExpr r → lex flt (typText t ++ r) = ts ++ lex flt r := by
  induction h with
  | bool => exact fun r hr => lex_sym (ht _ (by simp) "bool" rfl) hr.1
  | int => exact fun r hr => lex_sym (ht _ (by simp) "int" rfl) hr.1
  | float => exact fun r hr => lex_sym (ht _ (by simp) "float" rfl) hr.1
  | struct s _ => exact fun r hr => lex_sym (ht _ (by simp) s rfl) hr.1
  | @arr ts t _ ih =>
    intro r hr
    have h0 : typText (.arr t (-1)) = typText t ++ ['[', ']'] := by
      show typText t ++ '[' :: ((if (-1 : Int) ≥ 0 then intStr (-1) else []) ++ [']']) = _
      rw [if_neg (by decide)]
      rfl
    rw [h0, List.append_assoc]
    simp only [List.cons_append, List.nil_append, List.append_assoc]
    rw [ih (fun x hx => ht x (by simp [hx])) _ (ends_of (by decide) (by decide))]
    rw [lex_lbrack, lex_rbrack]
  | @sized ts t n _ ih =>
    intro r hr
    have h0 : typText (.arr t n) = typText t ++ '[' :: (intStr n ++ [']']) := by
      show typText t ++ '[' :: ((if (n : Int) ≥ 0 then intStr n else []) ++ [']']) = _
      rw [if_pos (by omega)]
    rw [h0, List.append_assoc, List.cons_append, ih (fun x hx => ht x (by simp [hx])) _ (ends_of (by decide) (by decide))]
    simp only [List.cons_append, List.nil_append, List.append_assoc]
    rw [lex_lbrack, lex_int _ (ends_of (by decide) (by decide)).2, lex_rbrack]

theorem names_back (more : List String) (h : ∀ s ∈ more, NameOk s) {r : List Char} (hr : EndsExpr r) :
    EndsExpr ((more.map String.toList).flatMap (fun u => [','] ++ u) ++ r) ∧
    lex flt ((more.map String.toList).flatMap (fun u => [','] ++ u) ++ r) = more.flatMap (fun x => [.comma, .sym x]) ++ lex flt r := by
  induction more with
  | nil => exact ⟨hr, rfl⟩
  | cons s more ih =>
    obtain ⟨h1, h2⟩ := ih fun x hx => h x (by simp [hx])
    simp only [List.map_cons, List.flatMap_cons, List.append_assoc, List.cons_append, List.nil_append] at h1 h2 ⊢
    exact ⟨ends_of (by decide) (by decide), by rw [lex_comma, lex_sym (h s (by simp)) h1.1, h2]⟩

theorem decl_back {ts : List Tok} {d : List String × Typ} (h : IsDecl ts d) (ht : ∀ x ∈ ts, SymOk x) :
    Shut flt (declText d ++ [';']) ts := by
  cases h with
  | @mk tt t s more hT =>
    intro r
    obtain ⟨h1, h2⟩ := names_back (flt := flt) more
      (fun x hx => ht (.sym x) (by
        simp only [List.mem_cons, List.mem_append, List.mem_flatMap]
        exact .inr (.inl ⟨x, hx, by simp⟩)) x rfl)
      (r := ':' :: ' ' :: (typText t ++ ';' :: r)) (ends_of (by decide) (by decide))
    rw [declText, List.map_cons, join_cons]
    simp only [List.append_assoc, List.cons_append, List.nil_append] at h1 h2 ⊢
    rw [lex_sym (ht _ (by simp) s rfl) h1.1, h2, lex_colon, type_back hT (fun x hx => ht x (by simp [hx])) _ (ends_of (by decide) (by decide)),
      lex_semi]

theorem struct_back {ts : List Tok} {d : String × List (List String × Typ)} (h : IsStruct ts d) (ht : ∀ x ∈ ts, SymOk x) :
    ∃ us, IsStruct us d ∧ Shut flt (structText d ++ [';']) us := by
  cases h with
  | @mk ds as s he =>
    obtain ⟨us, h1, h2⟩ := entries_back (flt := flt) (p := IsDecl) (f := fun x => declText x ++ [';']) (g := [' ']) (by simp) as fun a ha => by
      obtain ⟨t, h1, h2⟩ := entries_mem he a ha
      exact ⟨t, h1, decl_back h1 fun x hx => ht x (by simp [h2 x hx])⟩
    refine ⟨_, .mk s h1, fun r => ?_⟩
    rw [structText]
    have hs : NameOk s := ht _ (by simp) s rfl
    have := h2 ('}' :: ';' :: r)
    simp only [List.append_assoc, List.cons_append, List.nil_append] at this ⊢
    rw [lex_sym hs (ends_of (by decide) (by decide)).1, lex_colon, lex_lbrace, this, lex_rbrace, lex_semi]

/-! ### Definitions and specifications -/

theorem def_back {ts : List Tok} {d : String × Src} (h : IsDef lits m ts d) (ht : ∀ x ∈ ts, SymOk x) (hp : PortableExpr flt d.2) :
    ∃ us, IsDef lits m' us d ∧ Shut flt (defText d ++ [';']) us := by
  cases h with
  | @mk t e s he =>
    obtain ⟨us, h1, h2⟩ := isExpr_back he (fun x hx => ht x (by simp [hx])) hp
    refine ⟨_, .mk s h1, fun r => ?_⟩
    have hs : NameOk s := ht _ (by simp) s rfl
    rw [defText]
    simp only [List.append_assoc, List.cons_append, List.nil_append]
    rw [lex_sym hs (ends_of (by decide) (by decide)).1, lex_blank, lex_assign, lex_blank, h2 _ (ends_of (by decide) (by decide)), lex_semi]

theorem internal_iff (l : String) : internalLabel l = true ↔ Internal l := by
  unfold internalLabel Internal
  rw [Bool.and_eq_true, List.isPrefixOf_iff_prefix, List.isSuffixOf_iff_suffix]
  constructor
  · rintro ⟨⟨t, ht⟩, ⟨w, hw⟩⟩
    refine ⟨w, ?_⟩
    rw [← ht] at hw ⊢
    simp only [List.cons_append, List.nil_append, List.drop_succ_cons, List.drop_zero] at hw ⊢
    rw [hw]
  · rintro ⟨w, hw⟩
    rw [hw]
    exact ⟨⟨_, rfl⟩, ⟨w, rfl⟩⟩

theorem nameless_internal (n : Nat) : Internal (nameless n) := by
  refine ⟨'f' :: natStr n, ?_⟩
  simp [nameless]

theorem specText_formula (l : String) (n : Nat) (e : Src) :
    specText (.formula l n e) = (if internalLabel l then [] else l.toList ++ [':', ' ']) ++ (text e ++ [';']) := by
  simp [specText, infixStr, text]
theorem specText_contract (l : String) (a b c : Nat) (e g : Src) :
    specText (.contract l a b c e g) = l.toList ++ ':' :: ' ' :: (text e ++ ' ' :: '=' :: '>' :: ' ' :: (text g ++ [';'])) := by
  simp [specText, infixStr, text]

theorem spec_back {n k : Nat} {ts : List Tok} {s : Spec} (h : IsSpec lits m n ts s k) (ht : ∀ x ∈ ts, SymOk x) (hp : PortableSpec flt s) :
    ∃ us, IsSpec lits m' n us s k ∧ Shut flt (specText s) us := by
  cases h with
  | @plain t e he =>
    obtain ⟨us, h1, h2⟩ := isExpr_back he (fun x hx => ht x (by simp [hx])) hp.2
    refine ⟨_, .plain h1, fun r => ?_⟩
    rw [specText_formula, if_pos ((internal_iff _).2 (nameless_internal n))]
    simp only [List.append_assoc, List.cons_append, List.nil_append]
    rw [h2 _ (ends_of (by decide) (by decide)), lex_semi]
  | @label t e s he =>
    obtain ⟨us, h1, h2⟩ := isExpr_back he (fun x hx => ht x (by simp [hx])) hp.2
    by_cases hi : Internal s
    · obtain rfl := hp.1 hi
      refine ⟨_, .plain h1, fun r => ?_⟩
      rw [specText_formula, if_pos ((internal_iff _).2 hi)]
      simp only [List.append_assoc, List.cons_append, List.nil_append]
      rw [h2 _ (ends_of (by decide) (by decide)), lex_semi]
    · refine ⟨_, .label s h1, fun r => ?_⟩
      have hs : NameOk s := ht _ (by simp) s rfl
      rw [specText_formula, if_neg (fun h => hi ((internal_iff _).1 h))]
      simp only [List.append_assoc, List.cons_append, List.nil_append]
      rw [lex_sym hs (ends_of (by decide) (by decide)).1, lex_colon, h2 _ (ends_of (by decide) (by decide)), lex_semi]
  | @contract t u a g s ha hg =>
    obtain ⟨us, h1, h2⟩ := isExpr_back ha (fun x hx => ht x (by simp [hx])) hp.1
    obtain ⟨vs, h3, h4⟩ := isExpr_back hg (fun x hx => ht x (by simp [hx])) hp.2
    refine ⟨_, .contract s h1 h3, fun r => ?_⟩
    have hs : NameOk s := ht _ (by simp) s rfl
    rw [specText_contract]
    simp only [List.append_assoc, List.cons_append, List.nil_append]
    rw [lex_sym hs (ends_of (by decide) (by decide)).1, lex_colon, h2 _ (ends_of (by decide) (by decide)), lex_blank, lex_gives, lex_blank,
      h4 _ (ends_of (by decide) (by decide)), lex_semi]

theorem specs_back {n k : Nat} {ts : List Tok} {ss : List Spec} (h : IsSpecs lits m n ts ss k) :
    (∀ x ∈ ts, SymOk x) → (∀ s ∈ ss, PortableSpec flt s) →
    ∃ us, IsSpecs lits m' n us ss k ∧ Shut flt (joinWith ['\n', '\t'] (ss.map specText)) us := by
  have hg : ∀ c ∈ ['\n', '\t'], c = ' ' ∨ c = '\t' ∨ c = '\n' := by simp
  induction h with
  | nil n => exact fun _ _ => ⟨[], .nil n, fun r => rfl⟩
  | @cons n k j t u s ss hs hss ih =>
    intro ht hp
    obtain ⟨us, h1, h2⟩ := ih (fun x hx => ht x (by simp [hx])) fun y hy => hp y (by simp [hy])
    obtain ⟨vs, h3, h4⟩ := spec_back hs (fun x hx => ht x (by simp [hx])) (hp s (by simp))
    refine ⟨_, .cons h3 h1, fun r => ?_⟩
    cases ss with
    | nil =>
      have := h2 r
      simp only [List.map_nil, joinWith, List.nil_append] at this
      simp only [List.map_cons, List.map_nil, joinWith]
      rw [h4, List.append_assoc, ← this]
    | cons y ys =>
      simp only [List.map_cons, joinWith, List.append_assoc] at h2 ⊢
      rw [h4, lex_gaps hg, h2]

/-! ### Sections -/

theorem head_lex {w v : String} {k : Kw} (h : (v, Tok.kw k) ∈ reserved) (hw : w.toList = v.toList ++ ['\n', '\t']) :
    Shut flt w.toList [.kw k] := by
  intro r
  have := lex_reserved (flt := flt) h (r := '\n' :: '\t' :: r) (by rintro c cs ⟨⟩; decide)
  rw [hw, List.append_assoc]
  simp only [List.cons_append, List.nil_append]
  rw [this, lex_gap (.inr (.inr rfl)), lex_gap (.inr (.inl rfl))]

theorem sectionText_input (ds : List (List String × Typ)) :
    sectionText (.input ds) = "INPUT\n\t".toList ++ joinWith ['\n', '\t'] (ds.map fun d => declText d ++ [';']) := rfl
theorem sectionText_define (ds : List (String × Src)) :
    sectionText (.define ds) = "DEFINE\n\t".toList ++ joinWith ['\n', '\t'] (ds.map fun d => defText d ++ [';']) := rfl
theorem sectionText_struct (ds : List (String × List (List String × Typ))) :
    sectionText (.struct ds) = "STRUCT\n\t".toList ++ joinWith ['\n', '\t'] (ds.map fun d => structText d ++ [';']) := rfl
theorem sectionText_ftspec (ds : List Spec) :
    sectionText (.spec true ds) = "FTSPEC\n\t".toList ++ joinWith ['\n', '\t'] (ds.map specText) := rfl
theorem sectionText_ptspec (ds : List Spec) :
    sectionText (.spec false ds) = "PTSPEC\n\t".toList ++ joinWith ['\n', '\t'] (ds.map specText) := rfl

theorem program_back {n : Nat} {ts : List Tok} {ss : List Section} (h : IsProgram m lits n ts ss) :
    (∀ x ∈ ts, SymOk x) → (∀ s ∈ ss, PortableSection flt s) →
    IsProgram m' lits n (lex flt (written ss)) ss := by
  have hg : ∀ c ∈ ['\n', '\t'], c = ' ' ∨ c = '\t' ∨ c = '\n' := by simp
  have step : ∀ (s : Section) (ss : List Section) (us : List Tok), Shut flt (sectionText s) us →
      lex flt (written (s :: ss)) = us ++ lex flt (written ss) := by
    intro s ss us h
    cases ss with
    | nil =>
      have := h []
      simpa [written, joinWith, lex_nil] using this
    | cons t ts =>
      simp only [written, List.map_cons, joinWith]
      rw [h, List.cons_append, List.nil_append, lex_gap (.inr (.inr rfl))]
  induction h with
  | nil lits n => exact fun _ _ => .nil _ _
  | @input lits n t u ds ss hne he _ ih =>
    intro ht hp
    obtain ⟨us, h1, h2⟩ := entries_back (flt := flt) (p := IsDecl) (f := fun x => declText x ++ [';']) hg ds fun a ha => by
      obtain ⟨t, h1, h2⟩ := entries_mem he a ha
      exact ⟨t, h1, decl_back h1 fun x hx => ht x (by simp [h2 x hx])⟩
    rw [step _ _ (.kw .input :: us) fun r => by
      rw [sectionText_input, List.append_assoc, head_lex (v := "INPUT") (k := .input) (by decide +kernel) (by decide +kernel), h2]; rfl]
    exact .input hne h1 (ih (fun x hx => ht x (by simp [hx])) fun s hs => hp s (by simp [hs]))
  | @define lits n t u ds ss hne he _ ih =>
    intro ht hp
    have hd : ∀ d ∈ ds, PortableExpr flt d.2 := hp (.define ds) (by simp)
    obtain ⟨us, h1, h2⟩ := entries_back (flt := flt) (p := IsDef lits m') (f := fun x => defText x ++ [';']) hg ds fun a ha => by
      obtain ⟨t, h1, h2⟩ := entries_mem he a ha
      exact def_back h1 (fun x hx => ht x (by simp [h2 x hx])) (hd a ha)
    rw [step _ _ (.kw .define :: us) fun r => by
      rw [sectionText_define, List.append_assoc, head_lex (v := "DEFINE") (k := .define) (by decide +kernel) (by decide +kernel), h2]; rfl]
    exact .define hne h1 (ih (fun x hx => ht x (by simp [hx])) fun s hs => hp s (by simp [hs]))
  | @struct lits n t u ds ss hne he _ ih =>
    intro ht hp
    obtain ⟨us, h1, h2⟩ := entries_back (flt := flt) (p := IsStruct) (f := fun x => structText x ++ [';']) hg ds fun a ha => by
      obtain ⟨t, h1, h2⟩ := entries_mem he a ha
      exact struct_back h1 (fun x hx => ht x (by simp [h2 x hx]))
    rw [step _ _ (.kw .struct :: us) fun r => by
      rw [sectionText_struct, List.append_assoc, head_lex (v := "STRUCT") (k := .struct) (by decide +kernel) (by decide +kernel), h2]; rfl]
    exact .struct hne h1 (ih (fun x hx => ht x (by simp [hx])) fun s hs => hp s (by simp [hs]))
  | @enum lits n t u ds ss hne he _ ih =>
    exact fun _ hp => (hp (.enum ds) (by simp)).elim
  | @ftspec lits n k t u sp ss hne he _ ih =>
    intro ht hp
    obtain ⟨us, h1, h2⟩ := specs_back he (fun x hx => ht x (by simp [hx])) (hp (.spec true sp) (by simp))
    rw [step _ _ (.kw .ftspec :: us) fun r => by
      rw [sectionText_ftspec, List.append_assoc, head_lex (v := "FTSPEC") (k := .ftspec) (by decide +kernel) (by decide +kernel), h2]; rfl]
    exact .ftspec hne h1 (ih (fun x hx => ht x (by simp [hx])) fun s hs => hp s (by simp [hs]))
  | @ptspec lits n k t u sp ss hne he _ ih =>
    intro ht hp
    obtain ⟨us, h1, h2⟩ := specs_back he (fun x hx => ht x (by simp [hx])) (hp (.spec false sp) (by simp))
    rw [step _ _ (.kw .ptspec :: us) fun r => by
      rw [sectionText_ptspec, List.append_assoc, head_lex (v := "PTSPEC") (k := .ptspec) (by decide +kernel) (by decide +kernel), h2]; rfl]
    exact .ptspec hne h1 (ih (fun x hx => ht x (by simp [hx])) fun s hs => hp s (by simp [hs]))

end C2po
end R2U2
