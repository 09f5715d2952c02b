import Verif.Model.Write
import Verif.Spec.Write
import Verif.Lemmas.Spelling
import Verif.Lemmas.GrammarProgram
import Verif.Lemmas.Printing
/-
Lemmas for the round trip through `write_c2po`.
-/
namespace R2U2
namespace C2po

variable {flt : String → String} {lits : List String} {m : Int}

/-! ### Names the lexer finds -/

/-- A name can be written as it is. -/
def NameOk (s : String) : Prop := Identifier s.toList ∧ (∀ p ∈ reserved, p.1 ≠ s) ∧ ¬ "prev".toList <+: s.toList
def SymOk (t : Tok) : Prop := ∀ s, t = .sym s → NameOk s

theorem number_tok {cs r : List Char} {t : Tok} (h : number flt cs = some (t, r)) : (∃ s, t = .dec s) ∨ ∃ i, t = .num i := by
  unfold number at h
  split at h
  · split at h
    · cases h; exact .inl ⟨_, rfl⟩
    · simp only [Option.map_eq_some_iff, Prod.mk.injEq] at h
      obtain ⟨_, _, rfl, _⟩ := h
      exact .inr ⟨_, rfl⟩
  · split at h
    · cases h; exact .inl ⟨_, rfl⟩
    · split at h
      · cases h; exact .inr ⟨_, rfl⟩
      · simp only [Option.map_eq_some_iff, Prod.mk.injEq] at h
        obtain ⟨_, _, rfl, _⟩ := h
        exact .inr ⟨_, rfl⟩

theorem lookup_tok {w : String} {t : Tok} (h : keywords.lookup w = some t) : ∀ s, t ≠ .sym s := by
  have hm : (w, t) ∈ keywords := by
    have := List.lookup_eq_some_iff.mp h
    obtain ⟨l1, l2, h1, _⟩ := this
    rw [h1]; simp
  have key : ∀ p ∈ keywords, ∀ s, p.2 ≠ .sym s := by
    unfold keywords
    simp only [List.forall_mem_cons]
    repeat' apply And.intro
    all_goals simp
  exact key _ hm

theorem word_sym {w : List Char} {s : String} (h : word w = .sym s) : s = String.ofList w ∧ ∀ p ∈ keywords, p.1 ≠ s := by
  unfold word at h
  cases hl : keywords.lookup (String.ofList w) with
  | some t => rw [hl] at h; exact absurd h (lookup_tok hl s)
  | none =>
    rw [hl] at h
    cases h
    refine ⟨rfl, fun p hp he => ?_⟩
    have := List.lookup_eq_none_iff.mp hl p hp
    simp [he] at this

theorem takeWhile_all {p : Char → Bool} {d : Char} : ∀ {cs : List Char}, d ∈ cs.takeWhile p → p d = true
  | c :: cs, h => by
    rw [List.takeWhile_cons] at h
    split at h
    · rcases List.mem_cons.1 h with rfl | h
      · assumption
      · exact takeWhile_all h
    · simp at h
  | [], h => by simp at h

theorem lexOne_sym {c : Char} {cs : List Char} {s : String} (h : (lexOne flt c cs).1 = some (.sym s)) : NameOk s := by
  unfold lexOne at h
  split at h
  · rename_i hn
    simp only [Option.some.injEq] at h
    rcases number_tok (t := _) (r := _) hn with ⟨_, h'⟩ | ⟨_, h'⟩ <;> rw [h'] at h <;> cases h
  · split at h
    case h_35 =>
      split at h
      · rename_i hc
        by_cases hp : c = 'p' ∧ ∃ r, cs = 'r' :: 'e' :: 'v' :: r
        · obtain ⟨rfl, r, rfl⟩ := hp
          cases h
        · have key : lexWord c cs = (some (word (c :: List.takeWhile isWord cs)), List.dropWhile isWord cs) := by
            unfold lexWord
            split
            · exact absurd ⟨rfl, _, rfl⟩ hp
            · rfl
          have h' : (lexWord c cs).1 = some (.sym s) := h
          rw [key] at h'
          obtain ⟨rfl, hk⟩ := word_sym (Option.some.inj h')
          have hpre : ¬ "prev".toList <+: (c :: List.takeWhile isWord cs) := by
            intro hx
            have h1 : 'p' :: 'r' :: 'e' :: 'v' :: [] <+: c :: cs :=
              hx.trans (List.cons_prefix_cons.2 ⟨rfl, List.takeWhile_prefix _⟩)
            obtain ⟨t, ht⟩ := h1
            simp only [List.cons_append, List.nil_append, List.cons.injEq] at ht
            exact hp ⟨ht.1.symm, t, ht.2.symm⟩
          refine ⟨?_, ?_, by simpa using hpre⟩
          · refine ⟨c, List.takeWhile isWord cs, by simp, (letter_iff c).2 hc, fun d hd => ?_⟩
            have := takeWhile_all hd
            rw [letter_iff, digit_iff]
            simpa [isWord] using this
          · intro p hp' he
            have h2 : ∀ p ∈ reserved, p ∈ keywords ∨ p.1 = "prev" := by decide +kernel
            rcases h2 p hp' with h3 | h3
            · exact hk p h3 he
            · apply hpre
              have : (String.ofList (c :: List.takeWhile isWord cs)).toList = "prev".toList := by rw [← he, h3]
              rw [String.toList_ofList] at this
              rw [this]
      · cases h
    all_goals first | (cases h; done) | (split at h <;> cases h)

theorem lex_symOk (s : List Char) : ∀ t ∈ lex flt s, SymOk t := by
  induction hn : s.length using Nat.strongRecOn generalizing s with
  | _ n ih =>
    rcases s with _ | ⟨c, cs⟩
    · simp [lex_nil]
    · intro t ht
      rw [lex_cons, List.mem_append] at ht
      rcases ht with ht | ht
      · rintro x rfl
        refine lexOne_sym (flt := flt) (c := c) (cs := cs) ?_
        cases ho : (lexOne flt c cs).1 with
        | none => rw [ho] at ht; simp at ht
        | some y => rw [ho] at ht; simp at ht; rw [ht]
      · simp only [List.length_cons] at hn
        have h1 := lexOne_le flt c cs
        exact ih _ (by omega) _ rfl t ht

/-! ### Reading what was printed -/

/-- What follows an expression. -/
def EndsExpr (r : List Char) : Prop := WordEnd r ∧ NumEnd r

theorem ends_of {c : Char} {r : List Char} (h : isWord c = false) (h' : c ≠ '.') : EndsExpr (c :: r) := by
  have hd : isDig c = false := by
    simp only [isWord, Bool.or_eq_false_iff] at h; exact h.2
  refine ⟨?_, ?_, ?_⟩
  · rintro d ds ⟨⟩; exact h
  · rintro d ds ⟨⟩; exact hd
  · intro d ds he
    cases he; exact absurd rfl h'

theorem ends_dots (r : List Char) : EndsExpr ('.' :: '.' :: r) := by
  refine ⟨?_, ?_, ?_⟩
  · rintro d ds ⟨⟩; decide
  · rintro d ds ⟨⟩; decide
  · rintro d ds ⟨⟩; decide

theorem ends_dot {c : Char} {r : List Char} (h : isStart c = true) : EndsExpr ('.' :: c :: r) := by
  refine ⟨?_, ?_, ?_⟩
  · rintro d ds ⟨⟩; decide
  · rintro d ds ⟨⟩; decide
  · rintro d ds ⟨⟩; exact start_not_dig h

theorem lex_lparen (r : List Char) : lex flt ('(' :: r) = .lparen :: lex flt r := by rw [lex_cons]; rfl
theorem lex_rparen (r : List Char) : lex flt (')' :: r) = .rparen :: lex flt r := by rw [lex_cons]; rfl
theorem lex_lbrack (r : List Char) : lex flt ('[' :: r) = .lbrack :: lex flt r := by rw [lex_cons]; rfl
theorem lex_rbrack (r : List Char) : lex flt (']' :: r) = .rbrack :: lex flt r := by rw [lex_cons]; rfl
theorem lex_lbrace (r : List Char) : lex flt ('{' :: r) = .lbrace :: lex flt r := by rw [lex_cons]; rfl
theorem lex_rbrace (r : List Char) : lex flt ('}' :: r) = .rbrace :: lex flt r := by rw [lex_cons]; rfl
theorem lex_comma (r : List Char) : lex flt (',' :: r) = .comma :: lex flt r := by rw [lex_cons]; rfl
theorem lex_semi (r : List Char) : lex flt (';' :: r) = .semi :: lex flt r := by rw [lex_cons]; rfl
theorem lex_ddot (r : List Char) : lex flt ('.' :: '.' :: r) = .ddot :: lex flt r := by rw [lex_cons]; rfl
theorem lex_blank (r : List Char) : lex flt (' ' :: r) = lex flt r := lex_gap (.inl rfl) r
theorem lex_colon (r : List Char) : lex flt (':' :: ' ' :: r) = .colon :: lex flt r := by
  rw [lex_cons]; show Tok.colon :: lex flt (' ' :: r) = _; rw [lex_blank]
theorem lex_assign (r : List Char) : lex flt (':' :: '=' :: r) = .assign :: lex flt r := by rw [lex_cons]; rfl
theorem lex_gives (r : List Char) : lex flt ('=' :: '>' :: r) = .gives :: lex flt r := by rw [lex_cons]; rfl

theorem lex_dot {c : Char} (h : isStart c = true) (r : List Char) : lex flt ('.' :: c :: r) = .dot :: lex flt (c :: r) := by
  have hd := start_not_dig h
  have h1 : c ≠ '.' := by rintro rfl; exact absurd h (by decide)
  have h2 : number flt ('.' :: c :: r) = none := by
    have : decimal ('.' :: c :: r) = none := by
      unfold decimal
      rw [List.dropWhile_cons_of_neg (by decide)]
      simp [hd]
    unfold number
    split
    · rename_i heq; cases heq
    · rw [this]
      rfl
  rw [lex_cons]
  have : lexOne flt '.' (c :: r) = (some .dot, c :: r) := by
    unfold lexOne
    rw [h2]
    simp only
    split
    · rename_i heq; cases heq; exact absurd rfl h1
    · rfl
  rw [this]
  rfl

theorem lex_sym {s : String} (h : NameOk s) {r : List Char} (hr : WordEnd r) : lex flt (s.toList ++ r) = .sym s :: lex flt r := by
  have := lex_name (flt := flt) (w := s.toList) (r := r) h.1 (by simpa using h.2.1) h.2.2 hr
  simpa using this

theorem lex_int (i : Int) {r : List Char} (hr : NumEnd r) : lex flt (intStr i ++ r) = .num i :: lex flt r := by
  unfold intStr
  split
  · rename_i hi
    have h0 : i.natAbs ≠ 0 := by omega
    have := lex_number (flt := flt) (by simp) (number_neg (flt := flt) h0 hr)
    rw [this]
    congr 2
    omega
  · rename_i hi
    rw [lex_number (natStr_ne_nil _) (number_nat _ hr)]
    congr 2
    omega

theorem lex_nat (n : Nat) {r : List Char} (hr : NumEnd r) : lex flt (natStr n ++ r) = .num n :: lex flt r :=
  lex_number (natStr_ne_nil _) (number_nat _ hr)

theorem lex_tmp (k : TmpK) (lb ub : Nat) (r : List Char) : lex flt (tmpSym k lb ub ++ r) =
    .tl k :: .lbrack :: .num lb :: .comma :: .num ub :: .rbrack :: lex flt r := by
  have h0 : lex flt (k.letter :: '[' :: ((natStr lb ++ ',' :: (natStr ub ++ [']'])) ++ r)) =
      .tl k :: lex flt ('[' :: ((natStr lb ++ ',' :: (natStr ub ++ [']'])) ++ r)) := by
    rw [lex_cons]
    cases k <;> rfl
  show lex flt (k.letter :: '[' :: ((natStr lb ++ ',' :: (natStr ub ++ [']'])) ++ r)) = _
  rw [h0, lex_lbrack]
  simp only [List.append_assoc, List.cons_append, List.nil_append]
  rw [lex_nat _ (ends_of (by decide) (by decide)).2, lex_comma, lex_nat _ (ends_of (by decide) (by decide)).2, lex_rbrack]

/-- The operators with a sign or a word of their own in the language. -/
theorem lex_op (o : OpK) (ho : o ∉ [OpK.count, .min, .max]) (r : List Char) : lex flt (o.sym ++ ' ' :: r) = .op o :: lex flt r := by
  rw [← lex_blank (flt := flt) r]
  cases o <;> first | (exact absurd ho (by decide)) | (show lex flt (_ :: _) = _; rw [lex_cons]; rfl)

theorem lex_agg (k : AggK) (r : List Char) : lex flt (k.sym ++ '(' :: r) = .agg k :: lex flt ('(' :: r) := by
  cases k <;> (show lex flt (_ :: _) = _; rw [lex_cons]; rfl)

/-! ### The text of expressions -/

theorem toAstL_map (es : List Src) : toAstL es = es.map toAst := by
  induction es with
  | nil => rfl
  | cons e es ih => rw [toAstL, ih]; rfl

theorem infixTail_map (sep : List Char) (es : List Src) : infixTail sep (es.map toAst) = es.flatMap fun e => sep ++ text e := by
  induction es with
  | nil => rfl
  | cons e es ih => simp [infixTail, ih, text]

theorem text_unary (o : OpK) (ho : o ≠ .count) (t : Typ) (e : Src) :
    text (.node (.op o) t [e]) = '(' :: (o.sym ++ ' ' :: (text e ++ [')'])) := by
  cases o <;> first | exact absurd rfl ho | simp [text, toAst, toAstL, infixStr]

theorem text_binary (o : OpK) (ho : o ∉ [OpK.count, .prev]) (t : Typ) (a b : Src) :
    text (.node (.op o) t [a, b]) = '(' :: (text a ++ ' ' :: (o.sym ++ ' ' :: (text b ++ [')']))) := by
  cases o <;> first | exact absurd ho (by decide) | simp [text, toAst, toAstL, infixStr, infixJoin]

theorem text_prev (t : Typ) (a b : Src) :
    text (.node (.op .prev) t [a, b]) = 'p' :: 'r' :: 'e' :: 'v' :: '(' :: (text a ++ ',' :: (text b ++ [')'])) := by
  simp [text, toAst, toAstL, infixStr, OpK.sym]

theorem text_tmp1 (k : TmpK) (lb ub : Nat) (t : Typ) (e : Src) :
    text (.node (.tmp k lb ub) t [e]) = '(' :: (tmpSym k lb ub ++ ' ' :: (text e ++ [')'])) := by
  simp [text, toAst, toAstL, infixStr]

theorem text_tmp2 (k : TmpK) (lb ub : Nat) (t : Typ) (a b : Src) :
    text (.node (.tmp k lb ub) t [a, b]) = '(' :: (text a ++ ' ' :: (tmpSym k lb ub ++ ' ' :: (text b ++ [')']))) := by
  simp [text, toAst, toAstL, infixStr, infixJoin]

theorem text_call (f : String) (t : Typ) (e : Src) (es : List Src) :
    text (.node (.call f) t (e :: es)) = f.toList ++ '(' :: (text e ++ ((es.flatMap fun x => [',', ' '] ++ text x) ++ [')'])) := by
  rw [text, toAst, toAstL_map, List.map_cons, infixStr, infixJoin_cons, infixTail_map]
  · simp [text]
  · simp

theorem text_array (t : Typ) (e : Src) (es : List Src) :
    text (.node .array t (e :: es)) = '{' :: (text e ++ ((es.flatMap fun x => [',', ' '] ++ text x) ++ ['}'])) := by
  rw [text, toAst, toAstL_map, List.map_cons, infixStr, infixJoin_cons, infixTail_map]
  · simp [text]
  · simp

theorem text_access (n : String) (t : Typ) (e : Src) : text (.node (.access n) t [e]) = text e ++ '.' :: n.toList := by
  simp [text, toAst, toAstL, infixStr]
theorem text_index (i : Int) (t : Typ) (e : Src) : text (.node (.index i) t [e]) = text e ++ '[' :: (intStr i ++ [']']) := by
  simp [text, toAst, toAstL, infixStr]
theorem text_slice (i j : Int) (t : Typ) (e : Src) :
    text (.node (.slice i j) t [e]) = text e ++ '[' :: (intStr i ++ '.' :: '.' :: (intStr j ++ [']'])) := by
  simp [text, toAst, toAstL, infixStr]
theorem text_agg (k : AggK) (v : String) (t : Typ) (a b : Src) : text (.node (.agg k v) t [a, b]) =
    k.sym ++ '(' :: (v.toList ++ ' ' :: ':' :: ' ' :: (text a ++ ')' :: '(' :: (text b ++ [')']))) := by
  simp [text, toAst, infixStr]

/-! ### Expressions are read back -/

theorem spells_num {s r : List Char} {x : String} (h : Spells flt s (.dec x)) (hr : NumEnd r) : lex flt (s ++ r) = .dec x :: lex flt r := by
  generalize ht : Tok.dec x = t at h
  cases h with
  | reserved h =>
    have : ∀ p ∈ reserved, ∀ x, Tok.dec x ≠ p.2 := by
      unfold reserved
      simp only [List.forall_mem_cons]
      repeat' apply And.intro
      all_goals simp
    exact absurd ht (this _ h x)
  | mark h =>
    have : ∀ p ∈ marks, ∀ x, Tok.dec x ≠ p.2 := by
      unfold marks
      simp only [List.forall_mem_cons]
      repeat' apply And.intro
      all_goals simp
    exact absurd ht (this _ h x)
  | name _ _ => cases ht
  | nat _ => cases ht
  | neg _ _ => cases ht
  | dec hd he h0 =>
    exact lex_number (by simp) (number_dec (fun d h => (digit_iff d).1 (hd d h)) (fun d h => (digit_iff d).1 (he d h)) h0 hr.1)
  | negDec hd he h0 =>
    exact lex_number (by simp) (number_negDec (fun d h => (digit_iff d).1 (hd d h)) (fun d h => (digit_iff d).1 (he d h)) h0 hr.1)

/-- The tokens of what is printed for an expression. -/
def Says (flt : String → String) (e : Src) (us : List Tok) : Prop := ∀ r, EndsExpr r → lex flt (text e ++ r) = us ++ lex flt r

/-- The expression is read back. -/
def Back (flt : String → String) (lits : List String) (m : Int) (e : Src) : Prop :=
  ∃ us, Reads lits m 15 15 us e ∧ Says flt e us ∧
    (Grouped e → ∃ lo hi vs, us = .lparen :: (vs ++ [.rparen]) ∧ Reads lits m lo hi vs e)

theorem items_back : ∀ (more : List (Nat × Nat × List Tok × Src)), (∀ i ∈ more, Back flt lits m i.2.2.2) →
    ∃ more' : List (Nat × Nat × List Tok × Src), more'.map (fun i => i.2.2.2) = more.map (fun i => i.2.2.2) ∧
      (∀ i ∈ more', Reads lits m i.1 i.2.1 i.2.2.1 i.2.2.2) ∧
      (∀ r, EndsExpr r → EndsExpr (((more.map fun i => i.2.2.2).flatMap fun x => [',', ' '] ++ text x) ++ r) ∧
        lex flt (((more.map fun i => i.2.2.2).flatMap fun x => [',', ' '] ++ text x) ++ r) =
          more'.flatMap (fun i => .comma :: i.2.2.1) ++ lex flt r)
  | [], _ => ⟨[], rfl, by simp, fun r hr => ⟨hr, rfl⟩⟩
  | i :: is, h => by
    obtain ⟨more', h1, h2, h3⟩ := items_back is fun j hj => h j (by simp [hj])
    obtain ⟨us, h4, h5, _⟩ := h i (by simp)
    refine ⟨(15, 15, us, i.2.2.2) :: more', by simp [h1], ?_, ?_⟩
    · intro j hj
      rcases List.mem_cons.1 hj with rfl | hj
      · exact h4
      · exact h2 j hj
    · intro r hr
      obtain ⟨h6, h7⟩ := h3 r hr
      simp only [List.map_cons, List.flatMap_cons, List.append_assoc, List.cons_append, List.nil_append] at h6 h7 ⊢
      refine ⟨ends_of (by decide) (by decide), ?_⟩
      rw [lex_comma, lex_blank, h5 _ h6, h7]

theorem EverywhereL_mem {p : Src → Prop} : ∀ {es : List Src} {e : Src}, EverywhereL p es → e ∈ es → Everywhere p e
  | c :: cs, e, h, he => by
    rw [EverywhereL] at h
    rcases List.mem_cons.1 he with rfl | he
    · exact h.1
    · exact EverywhereL_mem h.2 he
  | [], _, _, he => by simp at he

theorem kid {k : SK} {t : Typ} {cs : List Src} {e : Src} (h : PortableExpr flt (.node k t cs)) (he : e ∈ cs) : PortableExpr flt e := by
  rw [PortableExpr, Everywhere] at h
  exact EverywhereL_mem h.2 he
theorem here {e : Src} (h : PortableExpr flt e) : Portable flt e := by
  cases e
  rw [PortableExpr, Everywhere] at h
  exact h.1

theorem back_leaf {us : List Tok} {e : Src} (h : Reads lits m 15 15 us e) (hs : Says flt e us) (hg : ¬ Grouped e) : Back flt lits m e :=
  ⟨us, h, hs, fun hg' => absurd hg' hg⟩

/-- What is printed in parentheses. -/
theorem back_group {lo hi : Nat} {vs : List Tok} {e : Src} (h : Reads lits m lo hi vs e)
    (hs : ∀ r, lex flt (text e ++ r) = .lparen :: (vs ++ .rparen :: lex flt r)) : Back flt lits m e :=
  ⟨.lparen :: (vs ++ [.rparen]), .paren h, fun r _ => by rw [hs r]; simp, fun _ => ⟨lo, hi, vs, rfl, h⟩⟩

theorem reads_back {m' : Int} {lo hi : Nat} {ts : List Tok} {e : Src} (h : Reads lits m lo hi ts e) :
    (∀ t ∈ ts, SymOk t) → PortableExpr flt e → Back flt lits m' e := by
  induction h with
  | tru =>
    intro _ _
    refine back_leaf .tru (fun r hr => ?_) (by simp [Grouped, mkLit])
    exact lex_reserved (p := ("true", .tru)) (by decide +kernel) hr.1
  | fls =>
    intro _ _
    refine back_leaf .fls (fun r hr => ?_) (by simp [Grouped, mkLit])
    exact lex_reserved (p := ("false", .fls)) (by decide +kernel) hr.1
  | num i =>
    intro _ _
    refine back_leaf (.num i) (fun r hr => ?_) (by simp [Grouped, mkLit])
    have : text (mkLit (.int i)) = intStr i := by simp [text, toAst, mkLit, infixStr, litStr]
    rw [this]
    exact lex_int i hr.2
  | dec s =>
    intro _ hp
    refine back_leaf (.dec s) (fun r hr => ?_) (by simp [Grouped, mkLit])
    have : text (mkLit (.float s)) = s.toList := by simp [text, toAst, mkLit, infixStr, litStr]
    rw [this]
    have hs : Spells flt s.toList (.dec s) := here hp
    exact spells_num hs hr.2
  | tau =>
    intro _ _
    refine back_leaf .tau (fun r hr => ?_) (by simp [Grouped])
    exact lex_reserved (p := ("TAU", .tau)) (by decide +kernel) hr.1
  | signal s hs =>
    intro ht _
    refine back_leaf (.signal s hs) (fun r hr => ?_) (by simp [Grouped])
    have : text (.node (.sig s) .none []) = s.toList := by simp [text, toAst, infixStr]
    rw [this]
    exact lex_sym (ht _ (by simp) s rfl) hr.1
  | name s hs =>
    intro ht _
    refine back_leaf (.name s hs) (fun r hr => ?_) (by simp [Grouped])
    have : text (.node (.var s) .none []) = s.toList := by simp [text, toAst, infixStr]
    rw [this]
    exact lex_sym (ht _ (by simp) s rfl) hr.1
  | paren _ ih => exact fun ht hp => ih (fun t h => ht t (by simp [h])) hp
  | unit f => exact fun _ hp => absurd (here hp) (by simp [Portable, mkCall])
  | @call lo hi t e f more _ _ ih1 ih2 =>
    intro ht hp
    obtain ⟨us, h1, h2, _⟩ := ih1 (fun t h => ht t (by simp [h])) (kid hp (by simp))
    obtain ⟨more', h3, h4, h5⟩ := items_back (flt := flt) (lits := lits) (m := m') more fun i hi =>
      ih2 i hi (fun t h => ht t (by
        simp only [List.mem_cons, List.mem_append, List.mem_flatMap]
        exact .inr (.inr (.inr (.inl ⟨i, hi, .inr h⟩))))) (kid hp (by simp; exact .inr ⟨_, _, _, hi⟩))
    have hr := Reads.call f more' h1 h4
    rw [h3] at hr
    refine back_leaf hr (fun r hr => ?_) (by simp [Grouped, mkCall])
    obtain ⟨h6, h7⟩ := h5 (')' :: r) (ends_of (by decide) (by decide))
    rw [mkCall, text_call]
    simp only [List.append_assoc, List.cons_append, List.nil_append] at h6 h7 ⊢
    rw [lex_sym (ht _ (by simp) f rfl) (ends_of (by decide) (by decide)).1, lex_lparen, h2 _ h6, h7, lex_rparen]
  | @array lo hi t e more _ _ ih1 ih2 =>
    intro ht hp
    obtain ⟨us, h1, h2, _⟩ := ih1 (fun t h => ht t (by simp [h])) (kid hp (by simp))
    obtain ⟨more', h3, h4, h5⟩ := items_back (flt := flt) (lits := lits) (m := m') more fun i hi =>
      ih2 i hi (fun t h => ht t (by
        simp only [List.mem_cons, List.mem_append, List.mem_flatMap]
        exact .inr (.inr (.inl ⟨i, hi, .inr h⟩)))) (kid hp (by simp; exact .inr ⟨_, _, _, hi⟩))
    have hr := Reads.array more' h1 h4
    rw [h3] at hr
    refine back_leaf hr (fun r hr => ?_) (by simp [Grouped, mkArray])
    obtain ⟨h6, h7⟩ := h5 ('}' :: r) (ends_of (by decide) (by decide))
    rw [mkArray, text_array]
    simp only [List.append_assoc, List.cons_append, List.nil_append] at h6 h7 ⊢
    rw [lex_lbrace, h2 _ h6, h7, lex_rbrace]
  | @fn lo hi t e o ho _ ih =>
    intro ht hp
    have hg : Grouped e := by
      have := here hp
      simp only [List.mem_cons, List.not_mem_nil, or_false] at ho
      rcases ho with rfl | rfl <;> exact this
    obtain ⟨us, h1, h2, h3⟩ := ih (fun t h => ht t (by simp [h])) (kid hp (by simp))
    obtain ⟨lo, hi, vs, rfl, h4⟩ := h3 hg
    refine back_group (Reads.fn o ho h4) fun r => ?_
    rw [mkOp, text_unary o (by rintro rfl; simp at ho)]
    simp only [List.append_assoc, List.cons_append, List.nil_append]
    rw [lex_lparen, lex_op o (by intro h; revert h ho; cases o <;> decide), h2 _ (ends_of (by decide) (by decide)), lex_rparen]
    simp
  | @prev _ _ _ _ t u e d _ _ ih1 ih2 =>
    intro ht hp
    obtain ⟨us, h1, h2, _⟩ := ih1 (fun t h => ht t (by simp [h])) (kid hp (by simp))
    obtain ⟨vs, h3, h4, _⟩ := ih2 (fun t h => ht t (by simp [h])) (kid hp (by simp))
    refine back_leaf (.prev h1 h3) (fun r hr => ?_) (by simp [Grouped, mkOp])
    rw [mkOp, text_prev]
    simp only [List.append_assoc, List.cons_append, List.nil_append]
    have := lex_prev (flt := flt) ('(' :: (text e ++ ',' :: (text d ++ ')' :: r)))
    rw [show "prev".toList = ['p', 'r', 'e', 'v'] from rfl] at this
    simp only [List.cons_append, List.nil_append] at this
    rw [this, lex_lparen, h2 _ (ends_of (by decide) (by decide)), lex_comma, h4 _ (ends_of (by decide) (by decide)), lex_rparen]
  | @all _ _ _ _ t u e d k v hk _ _ ih1 ih2 =>
    intro ht hp
    obtain ⟨us, h1, h2, _⟩ := ih1 (fun t h => ht t (by simp [h])) (kid hp (by simp))
    obtain ⟨vs, h3, h4, _⟩ := ih2 (fun t h => ht t (by simp [h])) (kid hp (by simp))
    refine back_leaf (.all k v hk h1 h3) (fun r hr => ?_) (by simp [Grouped, mkAgg])
    rw [mkAgg, text_agg]
    simp only [List.append_assoc, List.cons_append, List.nil_append]
    rw [lex_agg, lex_lparen, lex_sym (ht _ (by simp) v rfl) (ends_of (by decide) (by decide)).1, lex_blank, lex_colon,
      h2 _ (ends_of (by decide) (by decide)), lex_rparen, lex_lparen, h4 _ (ends_of (by decide) (by decide)), lex_rparen]
  | count k v hk _ _ _ _ _ _ =>
    intro _ hp
    exfalso
    have : k ∈ [AggK.each, .some] := here hp
    revert this hk
    cases k <;> decide
  | @access t e n _ ih =>
    intro ht hp
    obtain ⟨us, h1, h2, _⟩ := ih (fun t h => ht t (by simp [h])) (kid hp (by simp))
    refine back_leaf (.access n h1) (fun r hr => ?_) (by simp [Grouped])
    have hn : NameOk n := ht _ (by simp) n rfl
    obtain ⟨c, cs, h3, h4, _⟩ := hn.1
    rw [letter_iff] at h4
    rw [text_access]
    have h5 := lex_sym (flt := flt) hn hr.1
    rw [h3] at h5 ⊢
    simp only [List.append_assoc, List.cons_append] at h5 ⊢
    rw [h2 _ (ends_dot h4), lex_dot h4, h5]
    simp
  | @index t e i _ ih =>
    intro ht hp
    obtain ⟨us, h1, h2, _⟩ := ih (fun t h => ht t (by simp [h])) (kid hp (by simp))
    refine back_leaf (.index i h1) (fun r hr => ?_) (by simp [Grouped])
    rw [text_index]
    simp only [List.append_assoc, List.cons_append, List.nil_append]
    rw [h2 _ (ends_of (by decide) (by decide)), lex_lbrack, lex_int _ (ends_of (by decide) (by decide)).2, lex_rbrack]
  | @slice t e i j _ ih =>
    intro ht hp
    obtain ⟨us, h1, h2, _⟩ := ih (fun t h => ht t (by simp [h])) (kid hp (by simp))
    refine back_leaf (.slice i j h1) (fun r hr => ?_) (by simp [Grouped])
    rw [text_slice]
    simp only [List.append_assoc, List.cons_append, List.nil_append]
    rw [h2 _ (ends_of (by decide) (by decide)), lex_lbrack, lex_int _ (ends_dots _).2, lex_ddot,
      lex_int _ (ends_of (by decide) (by decide)).2, lex_rbrack]
  | @«prefix» lo hi t e o ho _ _ ih =>
    intro ht hp
    obtain ⟨us, h1, h2, _⟩ := ih (fun t h => ht t (by simp [h])) (kid hp (by simp))
    refine back_group (Reads.prefix o ho h1 (by decide)) fun r => ?_
    rw [mkOp, text_unary o (by rintro rfl; simp at ho)]
    simp only [List.append_assoc, List.cons_append, List.nil_append]
    rw [lex_lparen, lex_op o (by intro h; revert h ho; cases o <;> decide), h2 _ (ends_of (by decide) (by decide)), lex_rparen]
  | @during lo hi lb ub i t e k hk hi' _ _ ih =>
    intro ht hp
    obtain ⟨us, h1, h2, _⟩ := ih (fun t h => ht t (by simp [h])) (kid hp (by simp))
    refine back_group (Reads.during k hk (.between (.num lb) (.num ub)) h1 (by decide)) fun r => ?_
    rw [mkTmp, text_tmp1]
    simp only [List.append_assoc, List.cons_append, List.nil_append]
    rw [lex_lparen, lex_tmp, lex_blank, h2 _ (ends_of (by decide) (by decide)), lex_rparen]
  | @«infix» lo hi lo' hi' n t u e d o ho _ _ _ _ ih1 ih2 =>
    intro ht hp
    obtain ⟨us, h1, h2, _⟩ := ih1 (fun t h => ht t (by simp [h])) (kid hp (by simp))
    obtain ⟨vs, h3, h4, _⟩ := ih2 (fun t h => ht t (by simp [h])) (kid hp (by simp))
    have hn : n < 15 ∧ o ∉ [OpK.count, .prev] ∧ o ∉ [OpK.count, .min, .max] := by
      unfold infixAt at ho
      split at ho <;> first | (simp at ho; done) | refine ⟨by decide, ?_, ?_⟩ <;> (intro h; revert h ho; cases o <;> decide)
    refine back_group (Reads.infix o ho h1 h3 (by omega) (by omega)) fun r => ?_
    rw [mkOp, text_binary o hn.2.1]
    simp only [List.append_assoc, List.cons_append, List.nil_append]
    rw [lex_lparen, h2 _ (ends_of (by decide) (by decide)), lex_blank, lex_op o hn.2.2, h4 _ (ends_of (by decide) (by decide)), lex_rparen]
  | @between lo hi lo' hi' lb ub i t u e d k hk hi' _ _ _ _ ih1 ih2 =>
    intro ht hp
    obtain ⟨us, h1, h2, _⟩ := ih1 (fun t h => ht t (by simp [h])) (kid hp (by simp))
    obtain ⟨vs, h3, h4, _⟩ := ih2 (fun t h => ht t (by simp [h])) (kid hp (by simp))
    refine back_group (Reads.between k hk (.between (.num lb) (.num ub)) h1 h3 (by decide) (by decide)) fun r => ?_
    rw [mkTmp, text_tmp2]
    simp only [List.append_assoc, List.cons_append, List.nil_append]
    rw [lex_lparen, h2 _ (ends_of (by decide) (by decide)), lex_blank, lex_tmp, lex_blank, h4 _ (ends_of (by decide) (by decide)), lex_rparen]

end C2po
end R2U2
