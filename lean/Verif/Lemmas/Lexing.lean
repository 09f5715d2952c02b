import Verif.Model.Parser
/-
Lemmas about the C2PO lexer.
-/
namespace R2U2
namespace C2po

theorem dropWhile_le (p : Char → Bool) (cs : List Char) : (cs.dropWhile p).length ≤ cs.length :=
  (List.dropWhile_sublist (p := p) (l := cs)).length_le

theorem decimal_lt {cs t r : List Char} (h : decimal cs = some (t, r)) : r.length < cs.length := by
  unfold decimal at h
  have h0 := dropWhile_le isDig cs
  split at h
  · rename_i r' heq
    rw [heq] at h0
    split at h
    · cases h
    · cases h
      have := dropWhile_le isDig r'
      simp only [List.length_cons] at h0
      omega
  · cases h

theorem positive_lt {cs r : List Char} {n : Nat} (h : positive cs = some (n, r)) : r.length < cs.length := by
  cases cs with
  | nil => cases h
  | cons c cs =>
    simp only [positive] at h
    split at h
    · cases h
      have := dropWhile_le isDig cs
      simp only [List.length_cons]
      omega
    · cases h

theorem number_lt {flt : String → String} {cs r : List Char} {t : Tok} (h : number flt cs = some (t, r)) : r.length < cs.length := by
  unfold number at h
  split at h
  · split at h
    · rename_i heq
      cases h
      have := decimal_lt heq
      simp only [List.length_cons]
      omega
    · simp only [Option.map_eq_some_iff] at h
      obtain ⟨⟨n, r⟩, h1, h⟩ := h
      cases h
      have := positive_lt h1
      simp only [List.length_cons]
      omega
  · split at h
    · rename_i heq
      cases h
      exact decimal_lt heq
    · split at h
      · cases h
        simp
      · simp only [Option.map_eq_some_iff] at h
        obtain ⟨⟨n, r⟩, h1, h⟩ := h
        cases h
        exact positive_lt h1

theorem lexOne_le (flt : String → String) (c : Char) (cs : List Char) : (lexOne flt c cs).2.length ≤ cs.length := by
  unfold lexOne
  split
  · rename_i heq
    exact Nat.le_of_lt_succ (number_lt heq)
  · split <;> try exact Nat.le_refl _
    all_goals
      split <;> try exact Nat.le_refl _
    all_goals try (simp only [List.length_cons]; omega)
    · have := dropWhile_le (fun c => decide (c ≠ '\n')) ‹_›
      simp only [List.length_cons]
      omega
    · split
      · simp only [List.length_cons]; omega
      · exact dropWhile_le _ _

theorem lexN_stable (flt : String → String) : ∀ (n : Nat) (s : List Char), s.length ≤ n → lexN flt n s = lex flt s := by
  intro n
  induction n using Nat.strong_induction_on with
  | h n ih =>
    intro s hs
    cases s with
    | nil => cases n <;> rfl
    | cons c cs =>
      cases n with
      | zero => simp at hs
      | succ n =>
        have h1 := lexOne_le flt c cs
        simp only [List.length_cons] at hs
        show (lexOne flt c cs).1.toList ++ lexN flt n _ = (lexOne flt c cs).1.toList ++ lexN flt cs.length _
        rw [ih n (by omega) _ (by omega)]
        by_cases hn : cs.length < n + 1
        · rw [ih cs.length (by omega) _ h1]
        · omega

theorem lex_nil (flt : String → String) : lex flt [] = [] := rfl
theorem lex_cons (flt : String → String) (c : Char) (cs : List Char) :
    lex flt (c :: cs) = (lexOne flt c cs).1.toList ++ lex flt (lexOne flt c cs).2 := by
  show (lexOne flt c cs).1.toList ++ lexN flt cs.length _ = _
  rw [lexN_stable _ _ _ (lexOne_le flt c cs)]

/-! ### A line break ends every token -/

theorem takeWhile_break {p : Char → Bool} {x : Char} (hx : p x = false) (cs t : List Char) : (cs ++ x :: t).takeWhile p = cs.takeWhile p := by
  induction cs with
  | nil => simp [hx]
  | cons c cs ih => simp only [List.cons_append, List.takeWhile_cons, ih]

theorem dropWhile_break {p : Char → Bool} {x : Char} (hx : p x = false) (cs t : List Char) :
    (cs ++ x :: t).dropWhile p = cs.dropWhile p ++ x :: t := by
  induction cs with
  | nil => simp [hx]
  | cons c cs ih =>
    simp only [List.cons_append, List.dropWhile_cons, ih]
    split <;> rfl

theorem decimal_line (cs t : List Char) : decimal (cs ++ '\n' :: t) = (decimal cs).map fun r => (r.1, r.2 ++ '\n' :: t) := by
  unfold decimal
  rw [dropWhile_break (by decide), takeWhile_break (by decide)]
  cases h : cs.dropWhile isDig with
  | nil => rfl
  | cons c r =>
    by_cases hc : c = '.'
    · subst hc
      simp only [List.cons_append]
      rw [takeWhile_break (by decide), dropWhile_break (by decide)]
      cases r.takeWhile isDig <;> rfl
    · simp only [List.cons_append]
      split
      · rename_i heq; cases heq; exact absurd rfl hc
      · split
        · rename_i heq; cases heq; exact absurd rfl hc
        · rfl

theorem positive_line (cs t : List Char) : positive (cs ++ '\n' :: t) = (positive cs).map fun r => (r.1, r.2 ++ '\n' :: t) := by
  cases cs with
  | nil => rfl
  | cons c cs =>
    simp only [List.cons_append, positive]
    rw [takeWhile_break (by decide), dropWhile_break (by decide)]
    split <;> rfl

theorem number_line (flt : String → String) (cs t : List Char) :
    number flt (cs ++ '\n' :: t) = (number flt cs).map fun r => (r.1, r.2 ++ '\n' :: t) := by
  cases cs with
  | nil => rfl
  | cons c cs =>
    by_cases hc : c = '-'
    · subst hc
      simp only [List.cons_append, number, decimal_line, positive_line]
      cases decimal cs with
      | some r => rfl
      | none => cases positive cs <;> rfl
    · have h1 : ∀ cs, number flt (c :: cs) = match decimal (c :: cs) with
          | some (t, r) => some (.dec (flt (String.ofList t)), r)
          | none => match c :: cs with
            | '0' :: r => some (.num 0, r)
            | _ => (positive (c :: cs)).map fun p => (.num p.1, p.2) := by
        intro cs
        rw [number.eq_def]
        split
        · rename_i heq; cases heq; exact absurd rfl hc
        · rfl
      rw [h1, List.cons_append, h1, ← List.cons_append, decimal_line, positive_line]
      cases decimal (c :: cs) with
      | some r => rfl
      | none =>
        simp only [Option.map_none, List.cons_append]
        by_cases h0 : c = '0'
        · subst h0; rfl
        · split
          · rename_i heq; cases heq; exact absurd rfl h0
          · split
            · rename_i heq; cases heq; exact absurd rfl h0
            · cases positive (c :: cs) <;> rfl

/-- The word case of `lexOne`, named for the proof below. -/
def lexWord (c : Char) (cs : List Char) : Option Tok × List Char :=
  match c, cs with
  | 'p', 'r' :: 'e' :: 'v' :: r => (some (Tok.op OpK.prev), r)
  | c, cs => (some (word (c :: List.takeWhile isWord cs)), List.dropWhile isWord cs)

theorem lexOne_line (flt : String → String) (c : Char) (cs t : List Char) :
    lexOne flt c (cs ++ '\n' :: t) = ((lexOne flt c cs).1, (lexOne flt c cs).2 ++ '\n' :: t) := by
  unfold lexOne
  rw [← List.cons_append, number_line]
  cases number flt (c :: cs) with
  | some r => rfl
  | none =>
    simp only [Option.map_none]
    split <;> try rfl
    case h_1 =>
      rcases cs with _ | ⟨d, ds⟩
      · rfl
      · by_cases h1 : d = '-'
        · subst h1
          simp only [List.cons_append]
          rw [dropWhile_break (by decide)]
        · by_cases h2 : d = '>'
          · subst h2; rfl
          · simp [h1, h2]
    case h_5 =>
      rcases cs with _ | ⟨d, ds⟩
      · rfl
      · by_cases h1 : d = '<'
        · subst h1; rfl
        · by_cases h2 : d = '='
          · subst h2; rfl
          · by_cases h3 : d = '-'
            · subst h3
              rcases ds with _ | ⟨b, bs⟩
              · rfl
              · by_cases h4 : b = '>'
                · subst h4; rfl
                · simp [h4]
            · simp [h1, h2, h3]
    case h_2 | h_3 | h_4 | h_6 | h_7 | h_8 | h_9 =>
      rcases cs with _ | ⟨d, ds⟩
      · rfl
      · simp only [List.cons_append]
        split <;> (try (rename_i heq; cases heq; rfl))
        all_goals simp_all
    case h_35 =>
      split
      · by_cases hp : c = 'p' ∧ ∃ r, cs = 'r' :: 'e' :: 'v' :: r
        · obtain ⟨rfl, r, rfl⟩ := hp
          rfl
        · have hq : ¬ (c = 'p' ∧ ∃ r, cs ++ '\n' :: t = 'r' :: 'e' :: 'v' :: r) := by
            rintro ⟨rfl, r, hr⟩
            refine hp ⟨rfl, ?_⟩
            rcases cs with _ | ⟨a, _ | ⟨b, _ | ⟨d, ds⟩⟩⟩ <;> simp at hr
            obtain ⟨rfl, rfl, rfl, _⟩ := hr
            exact ⟨ds, rfl⟩
          have key : ∀ (xs : List Char), ¬ (c = 'p' ∧ ∃ r, xs = 'r' :: 'e' :: 'v' :: r) →
              lexWord c xs =
              (some (word (c :: List.takeWhile isWord xs)), List.dropWhile isWord xs) := by
            intro xs hx
            unfold lexWord
            split
            · exact absurd ⟨rfl, _, rfl⟩ hx
            · rfl
          show lexWord c (cs ++ '\n' :: t) = ((lexWord c cs).1, (lexWord c cs).2 ++ '\n' :: t)
          rw [key _ hp, key _ hq, takeWhile_break (by decide), dropWhile_break (by decide)]
      · rfl

/-- A line break ends every token: two lines are read one after the other. -/
theorem lex_line (flt : String → String) (s t : List Char) :
    lex flt (s ++ '\n' :: t) = lex flt s ++ lex flt t := by
  induction hn : s.length using Nat.strongRecOn generalizing s with
  | _ n ih =>
    rcases s with _ | ⟨c, cs⟩
    · rw [lex_nil, List.nil_append, List.nil_append, lex_cons]; rfl
    · rw [List.cons_append, lex_cons, lex_cons, lexOne_line]
      have h1 := lexOne_le flt c cs
      simp only [List.length_cons] at hn
      rw [ih _ (by omega) _ rfl, List.append_assoc]

/-- A comment leaves no token. -/
theorem lex_comment (flt : String → String) (s : List Char) (h : '\n' ∉ s) : lex flt ('-' :: '-' :: s) = [] := by
  have hd : ∀ s : List Char, '\n' ∉ s → s.dropWhile (fun c => decide (c ≠ '\n')) = [] := by
    intro s
    induction s with
    | nil => intro _; rfl
    | cons c cs ih =>
      intro h
      simp only [List.mem_cons, not_or] at h
      rw [List.dropWhile_cons_of_pos (by simpa using fun e => h.1 e.symm)]
      exact ih h.2
  rw [lex_cons]
  have : lexOne flt '-' ('-' :: s) = (none, s.dropWhile (fun c => decide (c ≠ '\n'))) := rfl
  rw [this, hd s h]
  rfl

end C2po
end R2U2
