import Verif.Lemmas.GrammarSound
/-
Lemmas for `Props/Grammar`: declarations, definitions, specifications and sections.
-/
namespace R2U2
namespace C2po

variable {lits : List String} {m : Int}

/-! ### Where expressions end -/

theorem expr_semi {t us : List Tok} {e : Src} (h : IsExpr lits m t e) : expr lits m (t ++ .semi :: us) = some (e, .semi :: us) :=
  expr_of h (Or.inl rfl) (noParen (by simp))
theorem expr_gives {t us : List Tok} {e : Src} (h : IsExpr lits m t e) : expr lits m (t ++ .gives :: us) = some (e, .gives :: us) :=
  expr_of h (Or.inl rfl) (noParen (by simp))
theorem expr_comma {t us : List Tok} {e : Src} (h : IsExpr lits m t e) : expr lits m (t ++ .comma :: us) = some (e, .comma :: us) :=
  expr_of h (Or.inr ⟨_, _, rfl⟩) (noParen (by simp))
theorem expr_rbrace {t us : List Tok} {e : Src} (h : IsExpr lits m t e) : expr lits m (t ++ .rbrace :: us) = some (e, .rbrace :: us) :=
  expr_of h (Or.inr ⟨_, _, rfl⟩) (noParen (by simp))

/-! ### Entries -/

/-- The tokens end a list of entries. -/
def Ends : List Tok → Prop
  | [] => True
  | .kw _ :: _ => True
  | .rbrace :: _ => True
  | _ => False

/-- The tokens start an entry. -/
def Begins (ts : List Tok) : Prop := ∃ t us, ts = t :: us ∧ (∀ k, t ≠ .kw k) ∧ t ≠ .rbrace

theorem many_ends {A : Type} {p : List Tok → Option (A × List Tok)} {n : Nat} {ts : List Tok} (h : Ends ts) : many p n ts = some ([], ts) := by
  cases ts with
  | nil => simp [many]
  | cons t ts => cases t <;> simp only [Ends] at h <;> simp [many]

theorem many_begins {A : Type} {p : List Tok → Option (A × List Tok)} {n : Nat} {ts : List Tok} (h : Begins ts) :
    many p (n + 1) ts = (p ts).bind fun r => (many p n r.2).map fun q => (r.1 :: q.1, q.2) := by
  obtain ⟨t, us, rfl, h1, h2⟩ := h
  cases t <;> first | rfl | exact absurd rfl h2 | exact absurd rfl (h1 _)

theorem many_zero {A : Type} {p : List Tok → Option (A × List Tok)} {ts : List Tok} (h : Begins ts) : many p 0 ts = none := by
  obtain ⟨t, us, rfl, h1, h2⟩ := h
  cases t <;> first | rfl | exact absurd rfl h2 | exact absurd rfl (h1 _)

theorem ends_or_begins (ts : List Tok) : Ends ts ∨ Begins ts := by
  cases ts with
  | nil => exact Or.inl trivial
  | cons t ts => cases t <;> first | exact Or.inl trivial | exact Or.inr ⟨_, _, rfl, by simp, by simp⟩

theorem many_of {A : Type} {p : List Tok → Option (A × List Tok)} {P : List Tok → A → Prop} (hb : ∀ t a, P t a → Begins t)
    (hp : ∀ t a rest, P t a → p (t ++ rest) = some (a, rest)) {rest : List Tok} (hr : Ends rest) :
    ∀ (is : List (List Tok × A)) (n : Nat), is.length ≤ n → (∀ i ∈ is, P i.1 i.2) →
      many p n (is.flatMap (·.1) ++ rest) = some (is.map (·.2), rest) := by
  intro is
  induction is with
  | nil => intro n _ _; exact many_ends hr
  | cons i is ih =>
    intro n hn hi
    obtain ⟨n, rfl⟩ : ∃ k, n = k + 1 := ⟨n - 1, by simp at hn; omega⟩
    have h1 := hi i (by simp)
    obtain ⟨t, us, h2, h3, h4⟩ := hb _ _ h1
    simp only [List.flatMap_cons, List.append_assoc]
    rw [many_begins ⟨t, us ++ (is.flatMap (·.1) ++ rest), by rw [h2]; rfl, h3, h4⟩, hp _ _ _ h1]
    simp only [Option.bind_some]
    rw [ih n (by simp at hn; omega) fun j hj => hi j (by simp [hj])]
    rfl

theorem length_le_flatMap {A : Type} {is : List (List Tok × A)} (h : ∀ i ∈ is, Begins i.1) : is.length ≤ (is.flatMap (·.1)).length := by
  induction is with
  | nil => simp
  | cons i is ih =>
    obtain ⟨t, us, h2, _⟩ := h i (by simp)
    have := ih fun j hj => h j (by simp [hj])
    simp only [List.length_cons, List.flatMap_cons, List.length_append, h2]
    omega

theorem many_entries {A : Type} {p : List Tok → Option (A × List Tok)} {P : List Tok → A → Prop} (hb : ∀ t a, P t a → Begins t)
    (hp : ∀ t a rest, P t a → p (t ++ rest) = some (a, rest)) {ts rest : List Tok} {as : List A} (hr : Ends rest) (h : Entries P ts as) :
    many p (ts ++ rest).length (ts ++ rest) = some (as, rest) := by
  obtain ⟨is, h1, rfl, rfl⟩ := h
  refine many_of hb hp hr is _ ?_ h1
  have := length_le_flatMap fun i hi => hb _ _ (h1 i hi)
  simp only [List.length_append]
  omega

theorem many_is {A : Type} {p : List Tok → Option (A × List Tok)} {P : List Tok → A → Prop}
    (hp : ∀ ts a us, p ts = some (a, us) → ∃ t, ts = t ++ us ∧ P t a) :
    ∀ (n : Nat) (ts : List Tok) (as : List A) (rest : List Tok), many p n ts = some (as, rest) →
      ∃ t, ts = t ++ rest ∧ Entries P t as ∧ Ends rest := by
  intro n
  induction n with
  | zero =>
    intro ts as rest h
    rcases ends_or_begins ts with he | hb
    · rw [many_ends he] at h
      cases h
      exact ⟨[], rfl, ⟨[], by simp, rfl, rfl⟩, he⟩
    · rw [many_zero hb] at h
      cases h
  | succ n ih =>
    intro ts as rest h
    rcases ends_or_begins ts with he | hb
    · rw [many_ends he] at h
      cases h
      exact ⟨[], rfl, ⟨[], by simp, rfl, rfl⟩, he⟩
    · rw [many_begins hb] at h
      simp only [Option.bind_eq_some_iff, Option.map_eq_some_iff] at h
      obtain ⟨⟨a, us⟩, h1, ⟨as', rest'⟩, h2, h3⟩ := h
      cases h3
      obtain ⟨t, rfl, ht⟩ := hp _ _ _ h1
      obtain ⟨t', hu, ⟨is, h4, rfl, rfl⟩, h5⟩ := ih _ _ _ h2
      simp only at hu
      refine ⟨t ++ is.flatMap (·.1), by rw [hu, List.append_assoc], ⟨(t, a) :: is, ?_, by simp, by simp⟩, h5⟩
      intro i hi
      rcases List.mem_cons.mp hi with rfl | hi
      · exact ht
      · exact h4 i hi

/-! ### Declarations -/

theorem symbolList_of {ts : List Tok} (more : List String) (h : ∀ s us, ts ≠ .comma :: .sym s :: us) :
    symbolList (more.flatMap (fun x => [.comma, .sym x]) ++ ts) = (more, ts) := by
  induction more with
  | nil =>
    simp only [List.flatMap_nil, List.nil_append]
    unfold symbolList
    split
    · exact absurd rfl (h _ _)
    · rfl
  | cons s more ih => 
    simp only [List.flatMap_cons, List.cons_append, List.nil_append]
    rw [symbolList, ih]

theorem symbolList_is (ts : List Tok) : ts = (symbolList ts).1.flatMap (fun x => [.comma, .sym x]) ++ (symbolList ts).2 := by
  induction ts using symbolList.induct with
  | case1 s ts ih =>
    rw [symbolList]
    simp only [List.flatMap_cons, List.cons_append, List.nil_append]
    rw [← ih]
  | case2 ts h =>
    unfold symbolList
    split
    · exact absurd rfl (h _ _)
    · rfl

theorem typeSuffix_of {tt : List Tok} {t : Typ} (h : IsType tt t) :
    ∃ s suf, tt = .sym s :: suf ∧ ∀ rest, typeSuffix (baseType s) (suf ++ rest) = typeSuffix t rest := by
  induction h with
  | bool => exact ⟨_, _, rfl, fun _ => rfl⟩
  | int => exact ⟨_, _, rfl, fun _ => rfl⟩
  | float => exact ⟨_, _, rfl, fun _ => rfl⟩
  | struct s hs =>
    simp only [List.mem_cons, List.not_mem_nil, or_false, not_or] at hs
    exact ⟨s, [], rfl, fun _ => by simp [baseType, hs]⟩
  | arr _ ih =>
    obtain ⟨s, suf, rfl, h⟩ := ih
    exact ⟨s, suf ++ [.lbrack, .rbrack], rfl, fun rest => by rw [List.append_assoc, h]; rfl⟩
  | sized n _ ih =>
    obtain ⟨s, suf, rfl, h⟩ := ih
    refine ⟨s, suf ++ [.lbrack, .num n, .rbrack], rfl, fun rest => ?_⟩
    rw [List.append_assoc, h]
    simp only [List.cons_append, List.nil_append, typeSuffix]
    rw [if_neg (by omega)]

theorem baseType_is (s : String) : IsType [.sym s] (baseType s) := by
  unfold baseType
  split
  · subst s; exact .bool
  · split
    · subst s; exact .int
    · split
      · subst s; exact .float
      · exact .struct s (by simp [*])

theorem typeSuffix_is {t t' : Typ} {us rest : List Tok} (h : typeSuffix t us = some (t', rest)) :
    ∀ tt, IsType tt t → ∃ suf, us = suf ++ rest ∧ IsType (tt ++ suf) t' := by
  induction t, us using typeSuffix.induct with
  | case1 t ts ih =>
    rw [typeSuffix] at h
    intro tt ht
    obtain ⟨suf, rfl, h2⟩ := ih h _ (.arr ht)
    exact ⟨.lbrack :: .rbrack :: suf, rfl, by simpa using h2⟩
  | case2 t i ts hi => rw [typeSuffix, if_pos hi] at h; cases h
  | case3 t i ts hi ih =>
    rw [typeSuffix, if_neg hi] at h
    intro tt ht
    obtain ⟨n, rfl⟩ := Int.eq_ofNat_of_zero_le (a := i) (by omega)
    obtain ⟨suf, rfl, h2⟩ := ih h _ (.sized n ht)
    exact ⟨.lbrack :: .num n :: .rbrack :: suf, rfl, by simpa using h2⟩
  | case4 t us h1 h2 =>
    unfold typeSuffix at h
    split at h
    · exact absurd rfl (h1 _)
    · exact absurd rfl (h2 _ _)
    · cases h
      exact fun tt ht => ⟨[], rfl, by simpa using ht⟩

theorem declaration_of {t : List Tok} {a : List String × Typ} {rest : List Tok} (h : IsDecl t a) : declaration (t ++ rest) = some (a, rest) := by
  cases h with
  | @mk tt ty s more ht =>
    obtain ⟨n, suf, rfl, h⟩ := typeSuffix_of ht
    simp only [List.cons_append, List.append_assoc, declaration]
    rw [symbolList_of more (by simp)]
    simp only [List.nil_append]
    rw [h]
    rfl

theorem declaration_is {ts us : List Tok} {a : List String × Typ} (h : declaration ts = some (a, us)) : ∃ t, ts = t ++ us ∧ IsDecl t a := by
  unfold declaration at h
  split at h
  · rename_i s ts
    have hs := symbolList_is ts
    split at h
    · rename_i n vs heq
      rw [heq] at hs
      simp only [Option.bind_eq_some_iff] at h
      obtain ⟨⟨ty, ws⟩, h1, h⟩ := h
      obtain ⟨suf, rfl, h2⟩ := typeSuffix_is h1 _ (baseType_is n)
      simp only at h
      split at h
      · cases h
        refine ⟨_, ?_, .mk s (symbolList ts).1 h2⟩
        conv => lhs; rw [hs]
        simp
      · cases h
    · cases h
  · cases h

theorem IsDecl.begins {t : List Tok} {a : List String × Typ} (h : IsDecl t a) : Begins t := by
  cases h; exact ⟨_, _, rfl, by simp, by simp⟩

theorem structDef_of {t : List Tok} {a : String × List (List String × Typ)} {rest : List Tok} (h : IsStruct t a) :
    structDef (t ++ rest) = some (a, rest) := by
  cases h with
  | mk s hd =>
    have := many_entries (rest := .rbrace :: .semi :: rest) (fun _ _ => IsDecl.begins) (fun _ _ _ => declaration_of) trivial hd
    simp only [List.cons_append, List.append_assoc, List.nil_append, structDef, this]
    rfl

theorem structDef_is {ts us : List Tok} {a : String × List (List String × Typ)} (h : structDef ts = some (a, us)) :
    ∃ t, ts = t ++ us ∧ IsStruct t a := by
  unfold structDef at h
  split at h
  · simp only [Option.bind_eq_some_iff] at h
    obtain ⟨⟨ds, vs⟩, h1, h⟩ := h
    obtain ⟨t, rfl, h2, _⟩ := many_is (fun _ _ _ => declaration_is) _ _ _ _ h1
    simp only at h
    split at h
    · cases h
      exact ⟨_, by simp, .mk _ h2⟩
    · cases h
  · cases h

/-! ### Enumerations -/

theorem enumMember_comma {t : List Tok} {a : String × Option Src} {rest : List Tok} (h : IsMember lits m t a) :
    enumMember lits m (t ++ .comma :: rest) = some (a, .comma :: rest) := by
  cases h with
  | bare s => rfl
  | value s he => simp [enumMember, expr_comma he]

theorem enumMember_rbrace {t : List Tok} {a : String × Option Src} {rest : List Tok} (h : IsMember lits m t a) :
    enumMember lits m (t ++ .rbrace :: rest) = some (a, .rbrace :: rest) := by
  cases h with
  | bare s => rfl
  | value s he => simp [enumMember, expr_rbrace he]

theorem enumMember_is {ts us : List Tok} {a : String × Option Src} (h : enumMember lits m ts = some (a, us)) :
    ∃ t, ts = t ++ us ∧ IsMember lits m t a := by
  unfold enumMember at h
  split at h
  · simp only [Option.map_eq_some_iff] at h
    obtain ⟨⟨e, vs⟩, h1, h⟩ := h
    obtain ⟨t, rfl, h2, _⟩ := expr_is h1
    cases h
    exact ⟨_ :: _ :: t, rfl, .value _ h2⟩
  · cases h; exact ⟨[_], rfl, .bare _⟩
  · cases h

theorem enumMembers_of {t : List Tok} {a : String × Option Src} {rest : List Tok} (h : IsMember lits m t a) :
    ∀ (front : List (List Tok × (String × Option Src))) (n : Nat), front.length < n → (∀ i ∈ front, IsMember lits m i.1 i.2) →
      enumMembers lits m n (front.flatMap (fun i => i.1 ++ [.comma]) ++ (t ++ .rbrace :: .semi :: rest)) = some (front.map (·.2) ++ [a], rest) := by
  intro front
  induction front with
  | nil =>
    intro n hn _
    obtain ⟨n, rfl⟩ : ∃ k, n = k + 1 := ⟨n - 1, by simp at hn; omega⟩
    simp [enumMembers, enumMember_rbrace h]
  | cons i front ih =>
    intro n hn hi
    obtain ⟨n, rfl⟩ : ∃ k, n = k + 1 := ⟨n - 1, by simp at hn; omega⟩
    simp only [List.flatMap_cons, List.append_assoc, List.cons_append, List.nil_append, enumMembers]
    rw [enumMember_comma (hi i (by simp))]
    simp only [Option.bind_some]
    rw [ih n (by simp at hn; omega) fun j hj => hi j (by simp [hj])]
    rfl

theorem enumMembers_is : ∀ (n : Nat) (ts : List Tok) (as : List (String × Option Src)) (us : List Tok),
    enumMembers lits m n ts = some (as, us) → ∃ (front : List (List Tok × (String × Option Src))) (t : List Tok) (a : String × Option Src), (∀ i ∈ front, IsMember lits m i.1 i.2) ∧ IsMember lits m t a ∧
      ts = front.flatMap (fun i : List Tok × (String × Option Src) => i.1 ++ [.comma]) ++ (t ++ .rbrace :: .semi :: us) ∧
      as = front.map (·.2) ++ [a] := by
  intro n
  induction n with
  | zero => intro ts as us h; cases h
  | succ n ih =>
    intro ts as us h
    simp only [enumMembers, Option.bind_eq_some_iff] at h
    obtain ⟨⟨a, vs⟩, h1, h⟩ := h
    obtain ⟨t, rfl, h2⟩ := enumMember_is h1
    simp only at h
    split at h
    · simp only [Option.map_eq_some_iff] at h
      obtain ⟨⟨as', ws⟩, h3, h⟩ := h
      cases h
      obtain ⟨front, t', a', h4, h5, rfl, h6⟩ := ih _ _ _ h3
      refine ⟨(t, a) :: front, t', a', ?_, h5, by simp, by simp [h6]⟩
      intro i hi
      rcases List.mem_cons.mp hi with rfl | hi
      · exact h2
      · exact h4 i hi
    · cases h
      exact ⟨[], t, a, by simp, h2, rfl, rfl⟩
    · cases h

theorem enumValues_iff : ∀ {n : Nat} {ms : List (String × Option Src)} {vs : List (String × Src)}, enumValues n ms = vs ↔ Valued n ms vs := by
  intro n ms vs
  constructor
  · rintro rfl
    induction ms generalizing n with
    | nil => exact .nil n
    | cons a ms ih =>
      obtain ⟨s, _ | e⟩ := a
      · exact .next s ih
      · exact .given s e ih
  · intro h
    induction h with
    | nil => rfl
    | given s e _ ih => simp [enumValues, ih]
    | next s _ ih => simp [enumValues, ih]

theorem enumDef_of {t : List Tok} {a : String × List (String × Src)} {rest : List Tok} (h : IsEnum lits m t a) :
    enumDef lits m (t ++ rest) = some (a, rest) := by
  cases h with
  | @mk t a vs s front hf ht hv =>
    have := enumMembers_of (rest := rest) ht front
      (front.flatMap (fun i => i.1 ++ [Tok.comma]) ++ (t ++ Tok.rbrace :: Tok.semi :: rest)).length ?_ hf
    · simp only [List.cons_append, List.append_assoc, List.nil_append, enumDef, this, Option.map_some, enumValues_iff.mpr hv]
    · have h1 : front.length ≤ (front.flatMap (fun i => i.1 ++ [Tok.comma])).length := by
        clear hf hv
        induction front with
        | nil => simp
        | cons i is ih => simp only [List.length_cons, List.flatMap_cons, List.length_append, List.length_nil]; omega
      simp only [List.length_append, List.length_cons]
      omega

theorem enumDef_is {ts us : List Tok} {a : String × List (String × Src)} (h : enumDef lits m ts = some (a, us)) :
    ∃ t, ts = t ++ us ∧ IsEnum lits m t a := by
  unfold enumDef at h
  split at h
  · simp only [Option.map_eq_some_iff] at h
    obtain ⟨⟨as, vs⟩, h1, h⟩ := h
    cases h
    obtain ⟨front, t, a, h2, h3, rfl, rfl⟩ := enumMembers_is _ _ _ _ h1
    exact ⟨_, by simp, .mk _ front h2 h3 (enumValues_iff.mp rfl)⟩
  · cases h

/-! ### Definitions and specifications -/

theorem definition_of {t : List Tok} {a : String × Src} {rest : List Tok} (h : IsDef lits m t a) :
    definition lits m (t ++ rest) = some (a, rest) := by
  cases h with
  | mk s he => simp [definition, expr_semi he]

theorem definition_is {ts us : List Tok} {a : String × Src} (h : definition lits m ts = some (a, us)) : ∃ t, ts = t ++ us ∧ IsDef lits m t a := by
  unfold definition at h
  split at h
  · simp only [Option.bind_eq_some_iff] at h
    obtain ⟨⟨e, vs⟩, h1, h⟩ := h
    obtain ⟨t, rfl, h2, _⟩ := expr_is h1
    simp only at h
    split at h
    · cases h
      exact ⟨_, by simp, .mk _ h2⟩
    · cases h
  · cases h

/-- A specification without its numbers. -/
inductive IsRaw (lits : List String) (m : Int) : List Tok → RawSpec → Prop
  | plain {t : List Tok} {e : Src} : IsExpr lits m t e → IsRaw lits m (t ++ [.semi]) (.formula none e)
  | label {t : List Tok} {e : Src} (s : String) : IsExpr lits m t e → IsRaw lits m (.sym s :: .colon :: (t ++ [.semi])) (.formula (some s) e)
  | contract {t u : List Tok} {a g : Src} (s : String) : IsExpr lits m t a → IsExpr lits m u g →
      IsRaw lits m (.sym s :: .colon :: (t ++ .gives :: (u ++ [.semi]))) (.contract s a g)

/-- No expression starts with a name and a colon. -/
theorem Reads.noLabel {lo hi : Nat} {t : List Tok} {e : Src} (h : Reads lits m lo hi t e) :
    ∀ rest, (∀ us, rest ≠ .colon :: us) → ∀ s us, t ++ rest ≠ .sym s :: .colon :: us := by
  induction h
  case signal | name =>
    intro rest hr s us h
    simp only [List.cons_append, List.nil_append, List.cons.injEq] at h
    exact hr _ h.2
  case access ih | index ih | slice ih | «infix» ih _ | between ih _ =>
    intro rest hr s us
    rw [List.append_assoc]
    exact ih _ (by simp) s us
  all_goals
    intro rest hr s us h
    simp at h

theorem spec_of {t : List Tok} {a : RawSpec} {rest : List Tok} (h : IsRaw lits m t a) : spec lits m (t ++ rest) = some (a, rest) := by
  cases h with
  | @plain t e he =>
    have : ∀ s us, t ++ .semi :: rest ≠ .sym s :: .colon :: us := by
      obtain ⟨_, _, h⟩ := he
      exact h.noLabel _ (by simp)
    rw [List.append_assoc, List.singleton_append]
    unfold spec
    split
    · exact absurd ‹_› (this _ _)
    · rw [expr_semi he]; rfl
  | label s he => simp [spec, expr_semi he]
  | contract s ha hg => simp [spec, expr_gives ha, expr_semi hg]

theorem spec_is {ts us : List Tok} {a : RawSpec} (h : spec lits m ts = some (a, us)) : ∃ t, ts = t ++ us ∧ IsRaw lits m t a := by
  unfold spec at h
  split at h
  · simp only [Option.bind_eq_some_iff] at h
    obtain ⟨⟨e, vs⟩, h1, h⟩ := h
    obtain ⟨t, rfl, h2, _⟩ := expr_is h1
    simp only at h
    split at h
    · cases h
      exact ⟨_, by simp, .label _ h2⟩
    · simp only [Option.bind_eq_some_iff] at h
      obtain ⟨⟨g, ws⟩, h3, h⟩ := h
      obtain ⟨u, rfl, h4, _⟩ := expr_is h3
      simp only at h
      split at h
      · cases h
        exact ⟨_, by simp, .contract _ h2 h4⟩
      · cases h
    · cases h
  · simp only [Option.bind_eq_some_iff] at h
    obtain ⟨⟨e, vs⟩, h1, h⟩ := h
    obtain ⟨t, rfl, h2, _⟩ := expr_is h1
    simp only at h
    split at h
    · cases h
      exact ⟨_, by simp, .plain h2⟩
    · cases h

theorem freshLabel_eq (n : Nat) : freshLabel n = nameless n := by
  unfold freshLabel nameless
  rw [String.ofList_append, String.ofList_append]

theorem numberSpecs_of {n k : Nat} {t : List Tok} {ss : List Spec} (h : IsSpecs lits m n t ss k) :
    ∃ raws, Entries (IsRaw lits m) t raws ∧ numberSpecs n raws = (ss, k) ∧ raws.length = ss.length := by
  induction h with
  | nil n => exact ⟨[], ⟨[], by simp, rfl, rfl⟩, rfl, rfl⟩
  | @cons n k j t u s ss hs _ ih =>
    obtain ⟨raws, ⟨is, h1, rfl, rfl⟩, h2, h3⟩ := ih
    have : ∃ r, IsRaw lits m t r ∧ numberSpecs n (r :: is.map (·.2)) = (s :: ss, j) := by
      cases hs with
      | plain he => exact ⟨_, .plain he, by simp [numberSpecs, h2, freshLabel_eq]⟩
      | label l he => exact ⟨_, .label l he, by simp [numberSpecs, h2]⟩
      | contract l ha hg => exact ⟨_, .contract l ha hg, by simp [numberSpecs, h2]⟩
    obtain ⟨r, hr, h4⟩ := this
    refine ⟨_, ⟨(t, r) :: is, ?_, by simp, rfl⟩, h4, by simpa using h3⟩
    intro i hi
    rcases List.mem_cons.mp hi with rfl | hi
    · exact hr
    · exact h1 i hi

theorem numberSpecs_is (is : List (List Tok × RawSpec)) : ∀ (n : Nat), (∀ i ∈ is, IsRaw lits m i.1 i.2) →
    IsSpecs lits m n (is.flatMap (·.1)) (numberSpecs n (is.map (·.2))).1 (numberSpecs n (is.map (·.2))).2 := by
  induction is with
  | nil => exact fun n _ => .nil n
  | cons i is ih =>
    intro n h
    obtain ⟨t, r⟩ := i
    have hr := h (t, r) (by simp)
    have hi := fun n => ih n fun j hj => h j (by simp [hj])
    simp only [List.flatMap_cons, List.map_cons]
    cases hr with
    | plain he =>
      simp only [numberSpecs, Option.getD_none, freshLabel_eq]
      exact .cons (.plain he) (hi _)
    | label l he => exact .cons (.label l he) (hi _)
    | contract l ha hg => exact .cons (.contract l ha hg) (hi _)

theorem numberSpecs_length : ∀ (rs : List RawSpec) (n : Nat), (numberSpecs n rs).1.length = rs.length := by
  intro rs
  induction rs with
  | nil => intro n; rfl
  | cons r rs ih => intro n; cases r <;> simp [numberSpecs, ih]

/-! ### Sections -/

theorem IsStruct.begins {t : List Tok} {a : String × List (List String × Typ)} (h : IsStruct t a) : Begins t := by
  cases h; exact ⟨_, _, rfl, by simp, by simp⟩
theorem IsEnum.begins {t : List Tok} {a : String × List (String × Src)} (h : IsEnum lits m t a) : Begins t := by
  cases h; exact ⟨_, _, rfl, by simp, by simp⟩
theorem IsDef.begins {t : List Tok} {a : String × Src} (h : IsDef lits m t a) : Begins t := by
  cases h; exact ⟨_, _, rfl, by simp, by simp⟩

theorem Reads.begins {lo hi : Nat} {t : List Tok} {e : Src} (h : Reads lits m lo hi t e) : Begins t := by
  induction h
  case access ih | index ih | slice ih | «infix» ih _ | between ih _ =>
    obtain ⟨t, us, rfl, h1, h2⟩ := ih
    exact ⟨t, _, rfl, h1, h2⟩
  all_goals exact ⟨_, _, rfl, by simp, by simp⟩

theorem IsRaw.begins {t : List Tok} {a : RawSpec} (h : IsRaw lits m t a) : Begins t := by
  cases h with
  | plain he =>
    obtain ⟨_, _, h⟩ := he
    obtain ⟨t, us, rfl, h1, h2⟩ := h.begins
    exact ⟨t, _, rfl, h1, h2⟩
  | label => exact ⟨_, _, rfl, by simp, by simp⟩
  | contract => exact ⟨_, _, rfl, by simp, by simp⟩

theorem some1_iff {A : Type} {r : Option (List A × List Tok)} {as : List A} {us : List Tok} :
    some1 r = some (as, us) ↔ r = some (as, us) ∧ as ≠ [] := by
  unfold some1
  split
  · constructor
    · intro h; cases h
    · rintro ⟨h, h'⟩; cases h; exact absurd rfl h'
  · rename_i h
    constructor
    · intro h'
      refine ⟨h', ?_⟩
      rintro rfl
      exact h _ h'
    · exact And.left

theorem declaredLits_eq (ds : List (List String × Typ)) : declaredLits ds = signalsOf ds := by
  unfold declaredLits signalsOf
  induction ds with
  | nil => rfl
  | cons d ds ih =>
    obtain ⟨ns, t⟩ := d
    simp only [List.filter_cons, List.flatMap_cons]
    cases t <;> simp [isArr, ← ih]

theorem program_ends {n : Nat} {ts : List Tok} {ss : List Section} (h : IsProgram m lits n ts ss) : Ends ts := by
  cases h <;> trivial

theorem sections_of : ∀ {lits : List String} {n : Nat} {ts : List Tok} {ss : List Section}, IsProgram m lits n ts ss →
    ∀ k, ts.length ≤ k → sections m k lits n ts = some ss := by
  intro lits n ts ss h
  induction h with
  | nil => intro k _; cases k <;> rfl
  | @input lits n t u ds ss hd he hp ih =>
    intro k hk
    obtain ⟨k, rfl⟩ : ∃ j, k = j + 1 := ⟨k - 1, by simp at hk; omega⟩
    have := some1_iff.mpr ⟨many_entries (fun _ _ => IsDecl.begins) (fun _ _ _ => declaration_of) (program_ends hp) he, hd⟩
    simp only [sections, sectionOf, this, Option.map_some, Option.bind_some]
    rw [declaredLits_eq, ih k (by simp at hk; omega)]
    rfl
  | @define lits n t u ds ss hd he hp ih =>
    intro k hk
    obtain ⟨k, rfl⟩ : ∃ j, k = j + 1 := ⟨k - 1, by simp at hk; omega⟩
    have := some1_iff.mpr ⟨many_entries (fun _ _ => IsDef.begins) (fun _ _ _ => definition_of) (program_ends hp) he, hd⟩
    simp only [sections, sectionOf, this, Option.map_some, Option.bind_some]
    rw [ih k (by simp at hk; omega)]
    rfl
  | @struct lits n t u ds ss hd he hp ih =>
    intro k hk
    obtain ⟨k, rfl⟩ : ∃ j, k = j + 1 := ⟨k - 1, by simp at hk; omega⟩
    have := some1_iff.mpr ⟨many_entries (fun _ _ => IsStruct.begins) (fun _ _ _ => structDef_of) (program_ends hp) he, hd⟩
    simp only [sections, sectionOf, this, Option.map_some, Option.bind_some]
    rw [ih k (by simp at hk; omega)]
    rfl
  | @enum lits n t u ds ss hd he hp ih =>
    intro k hk
    obtain ⟨k, rfl⟩ : ∃ j, k = j + 1 := ⟨k - 1, by simp at hk; omega⟩
    have := some1_iff.mpr ⟨many_entries (fun _ _ => IsEnum.begins) (fun _ _ _ => enumDef_of) (program_ends hp) he, hd⟩
    simp only [sections, sectionOf, this, Option.map_some, Option.bind_some]
    rw [ih k (by simp at hk; omega)]
    rfl
  | @ftspec lits n j t u sp ss hd he hp ih =>
    intro k hk
    obtain ⟨k, rfl⟩ : ∃ j, k = j + 1 := ⟨k - 1, by simp at hk; omega⟩
    obtain ⟨raws, h1, h2, h3⟩ := numberSpecs_of he
    have := some1_iff.mpr ⟨many_entries (fun _ _ => IsRaw.begins) (fun _ _ _ => spec_of) (program_ends hp) h1,
      by rintro rfl; exact hd (List.length_eq_zero_iff.mp h3.symm)⟩
    simp only [sections, sectionOf, this, Option.map_some, Option.bind_some, h2]
    rw [ih k (by simp at hk; omega)]
    rfl
  | @ptspec lits n j t u sp ss hd he hp ih =>
    intro k hk
    obtain ⟨k, rfl⟩ : ∃ j, k = j + 1 := ⟨k - 1, by simp at hk; omega⟩
    obtain ⟨raws, h1, h2, h3⟩ := numberSpecs_of he
    have := some1_iff.mpr ⟨many_entries (fun _ _ => IsRaw.begins) (fun _ _ _ => spec_of) (program_ends hp) h1,
      by rintro rfl; exact hd (List.length_eq_zero_iff.mp h3.symm)⟩
    simp only [sections, sectionOf, this, Option.map_some, Option.bind_some, h2]
    rw [ih k (by simp at hk; omega)]
    rfl

theorem numberSpecs_ne {raws : List RawSpec} {n : Nat} (h : raws ≠ []) : (numberSpecs n raws).1 ≠ [] := by
  intro h'
  have := numberSpecs_length raws n
  rw [h'] at this
  exact h (List.length_eq_zero_iff.mp this.symm)

theorem sections_is : ∀ (k : Nat) (lits : List String) (n : Nat) (ts : List Tok) (ss : List Section),
    sections m k lits n ts = some ss → IsProgram m lits n ts ss := by
  intro k
  induction k with
  | zero =>
    intro lits n ts ss h
    cases ts with
    | nil => cases h; exact .nil _ _
    | cons t ts => simp [sections] at h
  | succ k ih =>
    intro lits n ts ss h
    cases ts with
    | nil => cases h; exact .nil _ _
    | cons t ts =>
      cases t with
      | kw w =>
        simp only [sections, Option.bind_eq_some_iff, Option.map_eq_some_iff] at h
        obtain ⟨⟨⟨sec, lits', n'⟩, us⟩, h1, ss', h2, rfl⟩ := h
        have hp := ih _ _ _ _ h2
        simp only at hp
        cases w <;> simp only [sectionOf, Option.map_eq_some_iff] at h1 <;> obtain ⟨⟨as, vs⟩, h3, h4⟩ := h1 <;> cases h4 <;>
          obtain ⟨h3, hne⟩ := some1_iff.mp h3
        · obtain ⟨t, rfl, h5, _⟩ := many_is (fun _ _ _ => structDef_is) _ _ _ _ h3
          exact .struct hne h5 hp
        · obtain ⟨t, rfl, h5, _⟩ := many_is (fun _ _ _ => enumDef_is) _ _ _ _ h3
          exact .enum hne h5 hp
        · obtain ⟨t, rfl, h5, _⟩ := many_is (fun _ _ _ => declaration_is) _ _ _ _ h3
          simp only [declaredLits_eq] at hp
          exact .input hne h5 hp
        · obtain ⟨t, rfl, h5, _⟩ := many_is (fun _ _ _ => definition_is) _ _ _ _ h3
          exact .define hne h5 hp
        · obtain ⟨t, rfl, ⟨is, h5, rfl, rfl⟩, _⟩ := many_is (fun _ _ _ => spec_is) _ _ _ _ h3
          exact .ftspec (numberSpecs_ne hne) (numberSpecs_is is n h5) hp
        · obtain ⟨t, rfl, ⟨is, h5, rfl, rfl⟩, _⟩ := many_is (fun _ _ _ => spec_is) _ _ _ _ h3
          exact .ptspec (numberSpecs_ne hne) (numberSpecs_is is n h5) hp
      | _ => simp [sections] at h

theorem parse_iff (flt : String → String) (m : Int) (s : List Char) (ss : List Section) :
    parse flt m s = some ss ↔ IsProgram m [] 0 (lex flt s) ss :=
  ⟨sections_is _ _ _ _ _, fun h => sections_of h _ (Nat.le_refl _)⟩

end C2po
end R2U2
