import Verif.Spec.Lexical
import Verif.Lemmas.Lexing
import Verif.Lemmas.Mltl
/-
Lemmas about the C2PO lexer: what each spelling is read as.
-/
namespace R2U2
namespace C2po

variable {flt : String → String}

theorem letter_iff (c : Char) : Letter c ↔ isStart c = true := by
  simp [Letter, isStart, or_assoc]
theorem digit_iff (c : Char) : Digit c ↔ isDig c = true := by
  simp [Digit, isDig]

theorem start_not_dig {c : Char} (h : isStart c = true) : isDig c = false := by
  rw [Bool.eq_false_iff]
  intro hd
  simp only [isStart, isDig, Bool.or_eq_true, Bool.and_eq_true, decide_eq_true_eq, beq_iff_eq, Char.le_def, UInt32.le_iff_toNat_le] at h hd
  rcases h with (h | h) | rfl
  · have h1 : (97 : Nat) ≤ c.val.toNat := h.1
    have h2 : c.val.toNat ≤ 57 := hd.2
    omega
  · have h1 : (65 : Nat) ≤ c.val.toNat := h.1
    have h2 : c.val.toNat ≤ 57 := hd.2
    omega
  · exact absurd hd.2 (by decide)

/-- What comes after a text cannot be a part of a word. -/
def WordEnd (r : List Char) : Prop := ∀ c cs, r = c :: cs → isWord c = false
/-- What comes after a text cannot be a part of a number. -/
def NumEnd (r : List Char) : Prop := (∀ c cs, r = c :: cs → isDig c = false) ∧ ∀ c cs, r = '.' :: c :: cs → isDig c = false

theorem while_stop {p : Char → Bool} {ds r : List Char} (hd : ∀ d ∈ ds, p d = true) (hr : ∀ c cs, r = c :: cs → p c = false) :
    (ds ++ r).takeWhile p = ds ∧ (ds ++ r).dropWhile p = r := by
  induction ds with
  | nil =>
    cases r with
    | nil => exact ⟨rfl, rfl⟩
    | cons c cs =>
      have := hr c cs rfl
      simp [this]
  | cons d ds ih =>
    obtain ⟨h1, h2⟩ := ih (fun x hx => hd x (by simp [hx]))
    have := hd d (by simp)
    simp [this, h1, h2]

/-! ### Words -/

theorem number_start {c : Char} {cs : List Char} (h : isStart c = true) : number flt (c :: cs) = none := by
  have hd := start_not_dig h
  have h1 : c ≠ '-' := by rintro rfl; exact absurd h (by decide)
  have h2 : c ≠ '.' := by rintro rfl; exact absurd h (by decide)
  have h3 : c ≠ '0' := by rintro rfl; exact absurd h (by decide)
  have h4 : decimal (c :: cs) = none := by
    unfold decimal
    rw [List.dropWhile_cons_of_neg (by simp [hd])]
    split
    · rename_i heq; cases heq; exact absurd rfl h2
    · rfl
  unfold number
  split
  · rename_i heq; cases heq; exact absurd rfl h1
  · rw [h4]
    simp only
    split
    · rename_i heq; cases heq; exact absurd rfl h3
    · simp [positive, hd]

theorem lexOne_word {c : Char} {cs r : List Char} (hc : isStart c = true) (hcs : ∀ d ∈ cs, isWord d = true) (hr : WordEnd r)
    (hp : ¬ (c = 'p' ∧ ∃ t, cs = 'r' :: 'e' :: 'v' :: t)) : lexOne flt c (cs ++ r) = (some (word (c :: cs)), r) := by
  obtain ⟨h1, h2⟩ := while_stop hcs hr
  unfold lexOne
  rw [number_start hc]
  simp only
  split
  case h_35 =>
    rw [if_pos hc]
    have key : ∀ (xs : List Char), ¬ (c = 'p' ∧ ∃ r, xs = 'r' :: 'e' :: 'v' :: r) →
        lexWord c xs = (some (word (c :: List.takeWhile isWord xs)), List.dropWhile isWord xs) := by
      intro xs hx
      unfold lexWord
      split
      · exact absurd ⟨rfl, _, rfl⟩ hx
      · rfl
    have hq : ¬ (c = 'p' ∧ ∃ t, cs ++ r = 'r' :: 'e' :: 'v' :: t) := by
      rintro ⟨rfl, t, ht⟩
      refine hp ⟨rfl, ?_⟩
      have hw : ∀ x : Char, isWord x = true → ∀ xs, r ≠ x :: xs := by
        rintro x hx xs rfl
        rw [hr x xs rfl] at hx
        cases hx
      rcases cs with _ | ⟨a, _ | ⟨b, _ | ⟨d, ds⟩⟩⟩
      · exact absurd ht (hw 'r' (by decide) _)
      · simp only [List.cons_append, List.nil_append, List.cons.injEq] at ht
        exact absurd ht.2 (hw 'e' (by decide) _)
      · simp only [List.cons_append, List.nil_append, List.cons.injEq] at ht
        exact absurd ht.2.2 (hw 'v' (by decide) _)
      · simp only [List.cons_append, List.cons.injEq] at ht
        obtain ⟨rfl, rfl, rfl, _⟩ := ht
        exact ⟨ds, rfl⟩
    show lexWord c (cs ++ r) = _
    rw [key _ hq, h1, h2]
  all_goals exact absurd hc (by decide)

theorem lex_word {c : Char} {cs r : List Char} (hc : isStart c = true) (hcs : ∀ d ∈ cs, isWord d = true) (hr : WordEnd r)
    (hp : ¬ (c = 'p' ∧ ∃ t, cs = 'r' :: 'e' :: 'v' :: t)) : lex flt (c :: cs ++ r) = word (c :: cs) :: lex flt r := by
  rw [List.cons_append, lex_cons, lexOne_word hc hcs hr hp]
  rfl

theorem lex_prev (r : List Char) : lex flt ("prev".toList ++ r) = .op .prev :: lex flt r := by
  show lex flt ('p' :: 'r' :: 'e' :: 'v' :: r) = _
  rw [lex_cons]
  rfl

/-! ### Numbers -/

theorem decimal_nat {ds r : List Char} (hd : ∀ d ∈ ds, isDig d = true) (hr : NumEnd r) : decimal (ds ++ r) = none := by
  unfold decimal
  rw [(while_stop hd hr.1).2]
  split
  · rename_i x
    cases x with
    | nil => rfl
    | cons c cs =>
      have := hr.2 c cs rfl
      simp [this]
  · rfl

theorem decimal_dec {ds es r : List Char} (hd : ∀ d ∈ ds, isDig d = true) (he : ∀ d ∈ es, isDig d = true) (hn : es ≠ [])
    (hr : ∀ c cs, r = c :: cs → isDig c = false) : decimal ((ds ++ '.' :: es) ++ r) = some (ds ++ '.' :: es, r) := by
  obtain ⟨h1, h2⟩ := while_stop (r := '.' :: (es ++ r)) hd (by rintro c cs ⟨⟩; rfl)
  obtain ⟨h3, h4⟩ := while_stop he hr
  have h0 : (ds ++ '.' :: es) ++ r = ds ++ '.' :: (es ++ r) := by simp
  rw [h0]
  unfold decimal
  rw [h1, h2]
  simp only [h3, h4]
  cases es with
  | nil => exact absurd rfl hn
  | cons _ _ => rfl

theorem natStr_dig (n : Nat) : ∀ d ∈ natStr n, isDig d = true := fun _ hd => Map.isDig_of_isDigit (natStr_digit hd)

theorem positive_natStr {n : Nat} (hn : n ≠ 0) {r : List Char} (hr : NumEnd r) : positive (natStr n ++ r) = some (n, r) := by
  obtain ⟨c, cs, h1, h2, h3, h4⟩ := Mltl.natStr_head hn
  obtain ⟨h5, h6⟩ := while_stop (p := isDig) h4 hr.1
  have hv : natVal (c :: cs) = n := by rw [← h1]; exact Map.value_natStr n
  rw [h1]
  simp only [List.cons_append, positive]
  rw [if_pos ⟨h2, h3⟩, h5, h6, hv]

theorem number_nat (n : Nat) {r : List Char} (hr : NumEnd r) : number flt (natStr n ++ r) = some (.num n, r) := by
  by_cases hn : n = 0
  · subst hn
    have h0 : natStr 0 = ['0'] := rfl
    have hd := decimal_nat (ds := ['0']) (r := r) (by decide) hr
    rw [h0]
    simp only [List.cons_append, List.nil_append] at hd ⊢
    unfold number
    split
    · rename_i heq; cases heq
    · rw [hd]
      rfl
  · obtain ⟨c, cs, h1, h2, h3, h4⟩ := Mltl.natStr_head hn
    have hd := decimal_nat (natStr_dig n) hr
    have hp := positive_natStr hn hr
    have h5 : c ≠ '-' := by rintro rfl; exact absurd h3 (by decide)
    rw [h1] at hd hp ⊢
    unfold number
    split
    · rename_i heq; cases heq; exact absurd rfl h5
    · rw [hd]
      simp only
      split
      · rename_i heq; cases heq; exact absurd rfl h2
      · rw [hp]; rfl

theorem number_neg {n : Nat} (hn : n ≠ 0) {r : List Char} (hr : NumEnd r) : number flt ('-' :: natStr n ++ r) = some (.num (-n), r) := by
  rw [List.cons_append]
  unfold number
  simp only [decimal_nat (natStr_dig n) hr, positive_natStr hn hr]
  rfl

theorem number_dec {ds es r : List Char} (hd : ∀ d ∈ ds, isDig d = true) (he : ∀ d ∈ es, isDig d = true) (hn : es ≠ [])
    (hr : ∀ c cs, r = c :: cs → isDig c = false) :
    number flt ((ds ++ '.' :: es) ++ r) = some (.dec (flt (String.ofList (ds ++ '.' :: es))), r) := by
  have h := decimal_dec hd he hn hr
  unfold number
  split
  · rename_i heq
    cases ds with
    | nil => cases heq
    | cons d ds =>
      cases heq
      exact absurd (hd '-' (by simp)) (by decide)
  · rw [h]

theorem number_negDec {ds es r : List Char} (hd : ∀ d ∈ ds, isDig d = true) (he : ∀ d ∈ es, isDig d = true) (hn : es ≠ [])
    (hr : ∀ c cs, r = c :: cs → isDig c = false) :
    number flt ('-' :: (ds ++ '.' :: es) ++ r) = some (.dec (flt (String.ofList ('-' :: (ds ++ '.' :: es)))), r) := by
  rw [List.cons_append]
  unfold number
  simp only [decimal_dec hd he hn hr]

theorem lex_number {w r : List Char} {t : Tok} (hw : w ≠ []) (h : number flt (w ++ r) = some (t, r)) : lex flt (w ++ r) = t :: lex flt r := by
  cases w with
  | nil => exact absurd rfl hw
  | cons c cs =>
    rw [List.cons_append] at h ⊢
    rw [lex_cons]
    unfold lexOne
    rw [h]
    rfl

/-! ### Marks -/

/-- Characters that end every mark. -/
def MarkEnd (r : List Char) : Prop := ∃ c ∈ [' ', '\t', '\n', '(', ')', '[', ']', '{', '}', ',', ';'], ∃ cs, r = c :: cs

theorem lex_mark {p : String × Tok} (hp : p ∈ marks) {r : List Char} (hr : MarkEnd r) : lex flt (p.1.toList ++ r) = p.2 :: lex flt r := by
  have key : ∀ p ∈ marks, ∀ c ∈ [' ', '\t', '\n', '(', ')', '[', ']', '{', '}', ',', ';'], ∀ cs : List Char,
      ∃ d ds, p.1.toList = d :: ds ∧ lexOne flt d (ds ++ c :: cs) = (some p.2, c :: cs) := by
    unfold marks
    simp only [List.forall_mem_cons]
    repeat' apply And.intro
    all_goals first | exact fun cs => ⟨_, _, rfl, rfl⟩ | simp
  obtain ⟨c, hc, cs, rfl⟩ := hr
  obtain ⟨d, ds, h1, h2⟩ := key p hp c hc cs
  rw [h1, List.cons_append, lex_cons, h2]
  rfl

theorem lex_gap {c : Char} (h : c = ' ' ∨ c = '\t' ∨ c = '\n') (r : List Char) : lex flt (c :: r) = lex flt r := by
  rcases h with rfl | rfl | rfl <;> (rw [lex_cons]; rfl)

theorem lex_gaps {g : List Char} (h : ∀ c ∈ g, c = ' ' ∨ c = '\t' ∨ c = '\n') (r : List Char) : lex flt (g ++ r) = lex flt r := by
  induction g with
  | nil => rfl
  | cons c cs ih =>
    rw [List.cons_append, lex_gap (h c (by simp)), ih fun d hd => h d (by simp [hd])]

/-! ### All spellings -/

theorem word_of {w : List Char} {t : Tok} (hm : keywords.lookup (String.ofList w) = some t) : word w = t := by
  rw [word, hm]; rfl

theorem keywords_sub : ∀ p ∈ keywords, p ∈ reserved := by decide +kernel

theorem word_name {w : List Char} (h : ∀ p ∈ reserved, p.1 ≠ String.ofList w) : word w = .sym (String.ofList w) := by
  have : keywords.lookup (String.ofList w) = none := by
    rw [List.lookup_eq_none_iff]
    intro p hp
    simp only [beq_iff_eq, ne_eq, bne_iff_ne]
    exact fun he => h p (keywords_sub p hp) he.symm
  rw [word, this]; rfl

theorem lex_reserved {p : String × Tok} (hp : p ∈ reserved) {r : List Char} (hr : WordEnd r) : lex flt (p.1.toList ++ r) = p.2 :: lex flt r := by
  by_cases h : p.2 = .op .prev
  · have h1 : ∀ p ∈ reserved, p.2 = Tok.op OpK.prev → p.1.toList = "prev".toList := by decide +kernel
    rw [h1 p hp h, h, lex_prev]
  · have h1 : ∀ p ∈ reserved, p.2 ≠ Tok.op OpK.prev → isStart p.1.toList.head! = true ∧ p.1.toList ≠ [] ∧
        (∀ d ∈ p.1.toList, isWord d = true) ∧ p.1.toList.take 4 ≠ ['p', 'r', 'e', 'v'] ∧ word p.1.toList = p.2 := by decide +kernel
    obtain ⟨h2, h3, h4, h5, h6⟩ := h1 p hp h
    cases hw : p.1.toList with
    | nil => exact absurd hw h3
    | cons c cs =>
      rw [hw] at h2 h4 h5 h6
      rw [lex_word (by simpa using h2) (fun d hd => h4 d (by simp [hd])) hr, h6]
      rintro ⟨rfl, t, rfl⟩
      exact h5 rfl

theorem lex_name {w r : List Char} (hi : Identifier w) (hn : ∀ p ∈ reserved, p.1 ≠ String.ofList w)
    (hp : ¬ "prev".toList <+: w) (hr : WordEnd r) : lex flt (w ++ r) = .sym (String.ofList w) :: lex flt r := by
  obtain ⟨c, cs, rfl, hc, hcs⟩ := hi
  rw [lex_word ((letter_iff c).1 hc) _ hr, word_name hn]
  · rintro ⟨rfl, t, rfl⟩
    exact hp ⟨t, rfl⟩
  · intro d hd
    have := hcs d hd
    rw [letter_iff, digit_iff] at this
    simpa [isWord] using this

theorem spells_lex {w r : List Char} {t : Tok} (h : Spells flt w t) (hp : ¬ PrevWord t) (hw : WordEnd r) (hn : NumEnd r)
    (hm : MarkEnd r) : lex flt (w ++ r) = t :: lex flt r := by
  cases h with
  | reserved h => exact lex_reserved h hw
  | mark h => exact lex_mark h hm
  | name hi hr => exact lex_name hi hr (by simpa [PrevWord] using hp) hw
  | nat n => exact lex_number (natStr_ne_nil n) (number_nat n hn)
  | neg n h0 => exact lex_number (by simp) (number_neg h0 hn)
  | dec hd he h0 =>
    exact lex_number (by simp) (number_dec (fun d h => (digit_iff d).1 (hd d h)) (fun d h => (digit_iff d).1 (he d h)) h0 hn.1)
  | negDec hd he h0 =>
    exact lex_number (by simp) (number_negDec (fun d h => (digit_iff d).1 (hd d h)) (fun d h => (digit_iff d).1 (he d h)) h0 hn.1)

theorem lex_spaced (ws : List (List Char × Tok × List Char))
    (h : ∀ x ∈ ws, Spells flt x.1 x.2.1 ∧ ¬ PrevWord x.2.1 ∧ Gap x.2.2) :
    lex flt (ws.flatMap fun x => x.1 ++ x.2.2) = ws.map fun x => x.2.1 := by
  induction ws with
  | nil => rfl
  | cons x ws ih =>
    obtain ⟨w, t, g⟩ := x
    obtain ⟨h1, h2, h3, h4⟩ := h (w, t, g) (by simp)
    simp only [List.flatMap_cons, List.map_cons]
    obtain ⟨b, bs, rfl⟩ : ∃ b bs, g = b :: bs := by
      cases g with
      | nil => exact absurd rfl h3
      | cons b bs => exact ⟨b, bs, rfl⟩
    have hb := h4 b (by simp)
    rw [List.append_assoc, spells_lex h1 h2, lex_gaps h4, ih fun y hy => h y (by simp [hy])]
    · rintro c cs ⟨⟩
      rcases hb with rfl | rfl | rfl <;> decide
    · refine ⟨?_, ?_⟩
      · rintro c cs ⟨⟩
        rcases hb with rfl | rfl | rfl <;> decide
      · intro c cs he
        rw [List.cons_append, List.cons.injEq] at he
        rw [he.1] at hb
        rcases hb with hb | hb | hb <;> exact absurd hb (by decide)
    · refine ⟨b, ?_, _, rfl⟩
      rcases hb with rfl | rfl | rfl <;> simp

end C2po
end R2U2
