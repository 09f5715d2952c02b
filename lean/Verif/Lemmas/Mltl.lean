import Verif.Spec.Mltl
import Verif.Lemmas.Map
import Verif.Lemmas.Transform
import Mathlib.Data.Nat.Digits.Lemmas
/-
Lemmas for the round trip through the MLTL standard format.
-/
namespace R2U2
namespace Mltl
variable {α : Type}

/-! ### the lexer -/

theorem numeral_le {cs : List Char} {n : Nat} {r : List Char} (h : numeral cs = some (n, r)) : r.length + 1 ≤ cs.length := by
  cases cs with
  | nil => simp [numeral] at h
  | cons c cs =>
    simp only [numeral] at h
    split_ifs at h
    · cases h; simp
    · simp only [Option.some.injEq, Prod.mk.injEq] at h
      rw [← h.2]
      have := (List.dropWhile_sublist (p := isDig) (l := cs)).length_le
      simpa using this

theorem afterLine_le {cs r : List Char} (h : afterLine cs = some r) : r.length ≤ cs.length := by
  induction cs with
  | nil => simp [afterLine] at h
  | cons c cs ih =>
    simp only [afterLine] at h
    split_ifs at h
    · cases h; simp
    · have := ih h; simp; omega

theorem lexOne_le (c : Char) (cs : List Char) : (lexOne c cs).2.length ≤ cs.length := by
  unfold lexOne
  split <;> try exact Nat.le_refl _
  all_goals
    split <;> try exact Nat.le_refl _
  all_goals simp only [List.length_cons]
  · omega
  · omega
  · omega
  · omega
  · rename_i h; have := numeral_le h; omega
  · rename_i h; exact afterLine_le h
  · rename_i h; have := numeral_le h; simp at this; omega

theorem lexN_stable : ∀ (n : Nat) (s : List Char), s.length ≤ n → lexN n s = lex s := by
  intro n
  induction n using Nat.strong_induction_on with
  | h n ih =>
    intro s hs
    cases s with
    | nil => cases n <;> rfl
    | cons c cs =>
      cases n with
      | zero => simp at hs
      | succ n =>
        have h1 := lexOne_le c cs
        simp only [List.length_cons] at hs
        show (lexOne c cs).1.toList ++ lexN n _ = (lexOne c cs).1.toList ++ lexN cs.length _
        rw [ih n (by omega) _ (by omega)]
        by_cases hn : cs.length < n + 1
        · rw [ih cs.length (by omega) _ h1]
        · omega

theorem lex_nil : lex [] = [] := rfl
theorem lex_cons (c : Char) (cs : List Char) : lex (c :: cs) = (lexOne c cs).1.toList ++ lex (lexOne c cs).2 := by
  show (lexOne c cs).1.toList ++ lexN cs.length _ = _
  rw [lexN_stable _ _ (lexOne_le c cs)]

/-- Not starting with a digit. -/
def Stops (r : List Char) : Prop := ∀ c cs, r = c :: cs → isDig c = false

theorem stops_cons {c : Char} {cs : List Char} (h : isDig c = false) : Stops (c :: cs) := by
  intro d ds he; cases he; exact h

theorem takeWhile_stop {ds r : List Char} (hd : ∀ d ∈ ds, isDig d = true) (hr : Stops r) :
    (ds ++ r).takeWhile isDig = ds ∧ (ds ++ r).dropWhile isDig = r := by
  induction ds with
  | nil =>
    cases r with
    | nil => exact ⟨rfl, rfl⟩
    | cons c cs =>
      have := hr c cs rfl
      simp [this]
  | cons d ds ih =>
    obtain ⟨h1, h2⟩ := ih (fun x hx => hd x (by simp [hx]))
    have := hd d (by simp)
    simp [this, h1, h2]

theorem digitChar_zero {d : Nat} (h : d < 10) (h0 : Nat.digitChar d = '0') : d = 0 := by
  have : ∀ d : Fin 10, Nat.digitChar d = '0' → d.val = 0 := by decide
  exact this ⟨d, h⟩ h0

theorem natStr_head {n : Nat} (hn : n ≠ 0) : ∃ c cs, natStr n = c :: cs ∧ c ≠ '0' ∧ isDig c = true ∧ ∀ d ∈ cs, isDig d = true := by
  have hd : ∀ d ∈ natStr n, isDig d = true := fun d hd => Map.isDig_of_isDigit (natStr_digit hd)
  cases h : natStr n with
  | nil => exact absurd h (natStr_ne_nil n)
  | cons c cs =>
    rw [h] at hd
    refine ⟨c, cs, rfl, ?_, hd c (by simp), fun d hx => hd d (by simp [hx])⟩
    rintro rfl
    simp only [natStr, hn, if_false] at h
    have hne : Nat.digits 10 n ≠ [] := Nat.digits_ne_nil_iff_ne_zero.2 hn
    have hl : (((Nat.digits 10 n).map Nat.digitChar).reverse).head? = some (Nat.digitChar ((Nat.digits 10 n).getLast hne)) := by
      rw [List.head?_reverse, List.getLast?_map, List.getLast?_eq_getLast_of_ne_nil hne]
      rfl
    rw [h] at hl
    simp only [List.head?_cons, Option.some.injEq] at hl
    have h2 := digitChar_zero (Nat.digits_lt_base (by omega) (List.getLast_mem hne)) hl.symm
    exact Nat.getLast_digit_ne_zero 10 hn h2

theorem numeral_natStr (n : Nat) {r : List Char} (hr : Stops r) : numeral (natStr n ++ r) = some (n, r) := by
  by_cases hn : n = 0
  · subst hn; simp [natStr, numeral]
  · obtain ⟨c, cs, h1, h2, h3, h4⟩ := natStr_head hn
    obtain ⟨h5, h6⟩ := takeWhile_stop h4 hr
    have hv : decimal (c :: cs) = n := by rw [← h1]; exact Map.value_natStr n
    rw [h1]
    simp only [List.cons_append, numeral, h2, if_false, h3, if_true, h5, h6, hv]

theorem lexOne_digit {c : Char} {cs : List Char} (h : isDig c = true) : lexOne c cs =
    match numeral (c :: cs) with
      | some (n, r) => (some (.num n), r)
      | none => (none, cs) := by
  unfold lexOne
  split <;> first | rfl | exact absurd h (by decide)

theorem lex_num (n : Nat) {r : List Char} (hr : Stops r) : lex (natStr n ++ r) = .num n :: lex r := by
  have h := numeral_natStr n hr
  have hd : ∃ c cs, natStr n ++ r = c :: cs ∧ isDig c = true := by
    cases hn : natStr n with
    | nil => exact absurd hn (natStr_ne_nil n)
    | cons c cs => exact ⟨c, cs ++ r, rfl, Map.isDig_of_isDigit (natStr_digit (by rw [hn]; simp))⟩
  obtain ⟨c, cs, h1, h2⟩ := hd
  rw [h1] at h ⊢
  rw [lex_cons, lexOne_digit h2, h]
  rfl

theorem lex_atomic (n : Nat) {r : List Char} (hr : Stops r) : lex ('a' :: (natStr n ++ r)) = .atomic n :: lex r := by
  rw [lex_cons]
  have : lexOne 'a' (natStr n ++ r) = (some (.atomic n), r) := by
    simp only [lexOne, numeral_natStr n hr]
  rw [this]
  rfl

theorem lex_space (r : List Char) : lex (' ' :: r) = lex r := by rw [lex_cons]; rfl
theorem lex_lparen (r : List Char) : lex ('(' :: r) = .lparen :: lex r := by rw [lex_cons]; rfl
theorem lex_rparen (r : List Char) : lex (')' :: r) = .rparen :: lex r := by rw [lex_cons]; rfl
theorem lex_newline (r : List Char) : lex ('\n' :: r) = .newline :: lex r := by rw [lex_cons]; rfl
theorem lex_true (r : List Char) : lex ('t' :: 'r' :: 'u' :: 'e' :: ' ' :: r) = .tru :: lex r := by
  rw [lex_cons]; exact congrArg _ (lex_space r)
theorem lex_false (r : List Char) : lex ('f' :: 'a' :: 'l' :: 's' :: 'e' :: ' ' :: r) = .fls :: lex r := by
  rw [lex_cons]; exact congrArg _ (lex_space r)

/-- The text gives these tokens wherever it stands before something that is no digit. -/
def Lexes (s : List Char) (ts : List Tok) : Prop := ∀ r, Stops r → lex (s ++ r) = ts ++ lex r

theorem lexes_one {c : Char} {t : Tok} (h : ∀ r, lexOne c r = (some t, r)) : Lexes [c] [t] := by
  intro r _
  show lex (c :: r) = _
  rw [lex_cons, h]
  rfl

theorem lexes_neg : Lexes OpK.neg.sym [.neg] := lexes_one fun _ => rfl
theorem lexes_imp : Lexes OpK.imp.sym [.imp] := by intro r _; show lex ('-' :: '>' :: r) = _; rw [lex_cons]; rfl
theorem lexes_iff : Lexes OpK.iff.sym [.iff] := by intro r _; show lex ('<' :: '-' :: '>' :: r) = _; rw [lex_cons]; rfl
theorem lexes_and2 : Lexes OpK.and.sym [.and, .and] := by
  intro r _; show lex ('&' :: '&' :: r) = _; rw [lex_cons]; show _ :: lex ('&' :: r) = _; rw [lex_cons]; rfl
theorem lexes_or2 : Lexes OpK.or.sym [.or, .or] := by
  intro r _; show lex ('|' :: '|' :: r) = _; rw [lex_cons]; show _ :: lex ('|' :: r) = _; rw [lex_cons]; rfl
theorem lexes_xor : Lexes OpK.xor.sym [] := by
  intro r _
  show lex ('x' :: 'o' :: 'r' :: r) = lex r
  rw [lex_cons]; show lex ('o' :: 'r' :: r) = _
  rw [lex_cons]; show lex ('r' :: r) = _
  rw [lex_cons]; rfl
theorem lex_sepAnd (r : List Char) : lex (sepAnd ++ r) = .and :: lex r := by
  show lex (' ' :: '&' :: ' ' :: r) = _
  rw [lex_space, lex_cons]; show _ :: lex (' ' :: r) = _; rw [lex_space]
theorem lex_sepOr (r : List Char) : lex (sepOr ++ r) = .or :: lex r := by
  show lex (' ' :: '|' :: ' ' :: r) = _
  rw [lex_space, lex_cons]; show _ :: lex (' ' :: r) = _; rw [lex_space]

theorem lexes_tmp (k : TmpK) (lb ub : Nat) :
    Lexes (tmpSym k lb ub) [.tl k, .lbrack, .num lb, .comma, .num ub, .rbrack] := by
  intro r _
  have h0 : ∀ s : List Char, lex (k.letter :: s) = .tl k :: lex s := by intro s; cases k <;> (rw [lex_cons]; rfl)
  have h1 : ∀ s : List Char, lex ('[' :: s) = .lbrack :: lex s := by intro s; rw [lex_cons]; rfl
  have h2 : ∀ s : List Char, lex (',' :: s) = .comma :: lex s := by intro s; rw [lex_cons]; rfl
  have h3 : ∀ s : List Char, lex (']' :: s) = .rbrack :: lex s := by intro s; rw [lex_cons]; rfl
  show lex (k.letter :: '[' :: ((natStr lb ++ ',' :: (natStr ub ++ [']'])) ++ r)) = _
  simp only [List.append_assoc, List.cons_append, List.nil_append]
  rw [h0, h1, lex_num lb (stops_cons (by decide)), h2, lex_num ub (stops_cons (by decide)), h3]

theorem Lexes.wrap1 {sym c : List Char} {st ct : List Tok} (hs : Lexes sym st) (hc : Lexes c ct) :
    Lexes (wrap1 sym c) (.lparen :: (st ++ (ct ++ [.rparen]))) := by
  intro r _
  show lex ('(' :: ((sym ++ ' ' :: (c ++ [')'])) ++ r)) = _
  simp only [List.append_assoc, List.cons_append, List.nil_append]
  rw [lex_lparen, hs _ (stops_cons (by decide)), lex_space, hc _ (stops_cons (by decide)), lex_rparen]

theorem Lexes.wrap2 {sym l c : List Char} {st lt ct : List Tok} (hs : Lexes sym st) (hl : Lexes l lt) (hc : Lexes c ct) :
    Lexes (wrap2 sym l c) (.lparen :: (lt ++ (st ++ (ct ++ [.rparen])))) := by
  intro r _
  show lex ('(' :: ((l ++ ' ' :: (sym ++ ' ' :: (c ++ [')']))) ++ r)) = _
  simp only [List.append_assoc, List.cons_append, List.nil_append]
  rw [lex_lparen, hl _ (stops_cons (by decide)), lex_space, hs _ (stops_cons (by decide)), lex_space,
    hc _ (stops_cons (by decide)), lex_rparen]

/-- The operands after the first, each after the operator. -/
def tail (o : Tok) (ts : List (List Tok)) : List Tok := ts.flatMap (o :: ·)

theorem lexes_joined {sep : List Char} {o : Tok} (hs : ∀ r, lex (sep ++ r) = o :: lex r) (hsep : ∀ r, Stops (sep ++ r)) :
    ∀ {cs : List (List Char)} {ts : List (List Tok)}, List.Forall₂ Lexes cs ts →
    ∀ {c : List Char} {t : List Tok}, Lexes c t → Lexes (joined sep (c :: cs)) (t ++ tail o ts) := by
  intro cs ts h
  induction h with
  | nil => intro c t hc r hr; simpa [joined, tail] using hc r hr
  | @cons d td cs ts hd hcs ih =>
    intro c t hc r hr
    show lex ((c ++ (sep ++ joined sep (d :: cs))) ++ r) = _
    rw [List.append_assoc, List.append_assoc, hc _ (hsep _), hs, ih hd r hr]
    simp [tail]

theorem lexes_wrapJ {sep : List Char} {o : Tok} (hs : ∀ r, lex (sep ++ r) = o :: lex r) (hsep : ∀ r, Stops (sep ++ r))
    {cs : List (List Char)} {ts : List (List Tok)} (h : List.Forall₂ Lexes cs ts) {c : List Char} {t : List Tok} (hc : Lexes c t) :
    Lexes ('(' :: (joined sep (c :: cs) ++ [')'])) (.lparen :: (t ++ (tail o ts ++ [.rparen]))) := by
  intro r _
  have := lexes_joined hs hsep h hc (')' :: r) (stops_cons (by decide))
  simp only [List.append_assoc, List.cons_append, List.nil_append] at this ⊢
  rw [lex_lparen, this, lex_rparen]

/-! ### the tokens of an exported formula -/

def toksN (o : Tok) : List (List Tok) → List Tok
  | [] => []
  | [t] => .lparen :: o :: o :: (t ++ [.rparen])
  | t :: ts => .lparen :: (t ++ (tail o ts ++ [.rparen]))

def tmpToks (k : TmpK) (lb ub : Nat) : List Tok := [.tl k, .lbrack, .num lb, .comma, .num ub, .rbrack]

mutual
def toks (id : α → Option Nat) : Expr α → List Tok
  | .const true => [.tru]
  | .const false => [.fls]
  | .atom a => [.atomic ((id a).getD 0)]
  | .neg e => .lparen :: ([.neg] ++ (toks id e ++ [.rparen]))
  | .and cs => toksN .and (toksL id cs)
  | .or cs => toksN .or (toksL id cs)
  | .xor l r => .lparen :: (toks id l ++ ([] ++ (toks id r ++ [.rparen])))
  | .imp l r => .lparen :: (toks id l ++ ([.imp] ++ (toks id r ++ [.rparen])))
  | .iff l r => .lparen :: (toks id l ++ ([.iff] ++ (toks id r ++ [.rparen])))
  | .equal l r => .lparen :: (toks id l ++ ([] ++ (toks id r ++ [.rparen])))
  | .fut lb ub e => .lparen :: (tmpToks .F lb ub ++ (toks id e ++ [.rparen]))
  | .glob lb ub e => .lparen :: (tmpToks .G lb ub ++ (toks id e ++ [.rparen]))
  | .untl lb ub l r => .lparen :: (toks id l ++ (tmpToks .U lb ub ++ (toks id r ++ [.rparen])))
  | .rel lb ub l r => .lparen :: (toks id l ++ (tmpToks .R lb ub ++ (toks id r ++ [.rparen])))
  | .once lb ub e => .lparen :: (tmpToks .O lb ub ++ (toks id e ++ [.rparen]))
  | .hist lb ub e => .lparen :: (tmpToks .H lb ub ++ (toks id e ++ [.rparen]))
  | .since lb ub l r => .lparen :: (toks id l ++ (tmpToks .S lb ub ++ (toks id r ++ [.rparen])))
  | .trig lb ub l r => .lparen :: (toks id l ++ (tmpToks .T lb ub ++ (toks id r ++ [.rparen])))
def toksL (id : α → Option Nat) : List (Expr α) → List (List Tok)
  | [] => []
  | c :: cs => toks id c :: toksL id cs
end

theorem lexes_wrapN {sym sep : List Char} {o : Tok} (hy : Lexes sym [o, o]) (hs : ∀ r, lex (sep ++ r) = o :: lex r)
    (hsep : ∀ r, Stops (sep ++ r)) {cs : List (List Char)} {ts : List (List Tok)} (h : List.Forall₂ Lexes cs ts) {s : List Char}
    (hw : wrapN sym sep cs = some s) : Lexes s (toksN o ts) := by
  cases h with
  | nil => simp [wrapN] at hw
  | @cons c t cs ts hc hcs =>
    cases hcs with
    | nil => simp only [wrapN, Option.some.injEq] at hw; subst hw; exact hy.wrap1 hc
    | @cons d u cs ts hd hcs =>
      simp only [wrapN, Option.some.injEq] at hw
      subst hw
      exact lexes_wrapJ hs hsep (.cons hd hcs) hc

theorem bind_map_some {β γ δ : Type} {a : Option β} {b : Option γ} {f : β → γ → δ} {s : δ}
    (h : (a.bind fun x => b.map (f x)) = some s) : ∃ x y, a = some x ∧ b = some y ∧ f x y = s := by
  cases a with
  | none => cases h
  | some x =>
    cases b with
    | none => cases h
    | some y => exact ⟨x, y, rfl, rfl, by simpa using h⟩

mutual
theorem lexes_text (id : α → Option Nat) : ∀ (e : Expr α) {s : List Char}, text id e = some s → Lexes s (toks id e)
  | .const true, s, h => by cases h; intro r _; exact lex_true r
  | .const false, s, h => by cases h; intro r _; exact lex_false r
  | .atom a, s, h => by
      simp only [text, Option.map_eq_some_iff] at h
      obtain ⟨n, h1, rfl⟩ := h
      intro r hr
      simpa [toks, h1] using lex_atomic n hr
  | .neg e, s, h => by
      simp only [text, Option.map_eq_some_iff] at h; obtain ⟨c, h1, rfl⟩ := h
      exact lexes_neg.wrap1 (lexes_text id e h1)
  | .and cs, s, h => by
      simp only [text, Option.bind_eq_some_iff] at h; obtain ⟨c, h1, h2⟩ := h
      exact lexes_wrapN lexes_and2 lex_sepAnd (fun r => stops_cons (by decide)) (lexes_textL id cs h1) h2
  | .or cs, s, h => by
      simp only [text, Option.bind_eq_some_iff] at h; obtain ⟨c, h1, h2⟩ := h
      exact lexes_wrapN lexes_or2 lex_sepOr (fun r => stops_cons (by decide)) (lexes_textL id cs h1) h2
  | .xor l r, s, h => by
      obtain ⟨x, y, h1, h2, rfl⟩ := bind_map_some h; exact lexes_xor.wrap2 (lexes_text id l h1) (lexes_text id r h2)
  | .imp l r, s, h => by
      obtain ⟨x, y, h1, h2, rfl⟩ := bind_map_some h; exact lexes_imp.wrap2 (lexes_text id l h1) (lexes_text id r h2)
  | .iff l r, s, h => by
      obtain ⟨x, y, h1, h2, rfl⟩ := bind_map_some h; exact lexes_iff.wrap2 (lexes_text id l h1) (lexes_text id r h2)
  | .equal l r, s, h => by simp [text] at h
  | .fut lb ub e, s, h => by
      simp only [text, Option.map_eq_some_iff] at h; obtain ⟨c, h1, rfl⟩ := h
      exact (lexes_tmp _ lb ub).wrap1 (lexes_text id e h1)
  | .glob lb ub e, s, h => by
      simp only [text, Option.map_eq_some_iff] at h; obtain ⟨c, h1, rfl⟩ := h
      exact (lexes_tmp _ lb ub).wrap1 (lexes_text id e h1)
  | .once lb ub e, s, h => by
      simp only [text, Option.map_eq_some_iff] at h; obtain ⟨c, h1, rfl⟩ := h
      exact (lexes_tmp _ lb ub).wrap1 (lexes_text id e h1)
  | .hist lb ub e, s, h => by
      simp only [text, Option.map_eq_some_iff] at h; obtain ⟨c, h1, rfl⟩ := h
      exact (lexes_tmp _ lb ub).wrap1 (lexes_text id e h1)
  | .untl lb ub l r, s, h => by
      obtain ⟨x, y, h1, h2, rfl⟩ := bind_map_some h; exact (lexes_tmp _ lb ub).wrap2 (lexes_text id l h1) (lexes_text id r h2)
  | .rel lb ub l r, s, h => by
      obtain ⟨x, y, h1, h2, rfl⟩ := bind_map_some h; exact (lexes_tmp _ lb ub).wrap2 (lexes_text id l h1) (lexes_text id r h2)
  | .since lb ub l r, s, h => by
      obtain ⟨x, y, h1, h2, rfl⟩ := bind_map_some h; exact (lexes_tmp _ lb ub).wrap2 (lexes_text id l h1) (lexes_text id r h2)
  | .trig lb ub l r, s, h => by
      obtain ⟨x, y, h1, h2, rfl⟩ := bind_map_some h; exact (lexes_tmp _ lb ub).wrap2 (lexes_text id l h1) (lexes_text id r h2)
theorem lexes_textL (id : α → Option Nat) : ∀ (cs : List (Expr α)) {ss : List (List Char)}, textL id cs = some ss →
    List.Forall₂ Lexes ss (toksL id cs)
  | [], ss, h => by cases h; exact .nil
  | c :: cs, ss, h => by
      obtain ⟨x, y, h1, h2, rfl⟩ := bind_map_some h
      exact .cons (lexes_text id c h1) (lexes_textL id cs h2)
end

/-! ### what the parser makes of the tokens -/

def opN (conj : Bool) : List (Expr Nat) → Expr Nat := if conj then .and else .or

mutual
def reread (id : α → Option Nat) : Expr α → Bool → Bool → Option (Expr Nat × Bool × Bool)
  | .const b, ft, pt => some (.const b, ft, pt)
  | .atom a, ft, pt => (id a).map fun n => (.atom n, ft, pt)
  | .neg e, ft, pt => (reread id e ft pt).bind fun x => mk1 x.2.1 x.2.2 x.1 .neg
  | .and (c :: d :: cs), ft, pt => (reread id c ft pt).bind fun x => rereadL id true x.1 (d :: cs) x.2.1 x.2.2
  | .and _, _, _ => none
  | .or (c :: d :: cs), ft, pt => (reread id c ft pt).bind fun x => rereadL id false x.1 (d :: cs) x.2.1 x.2.2
  | .or _, _, _ => none
  | .xor _ _, _, _ => none
  | .imp l r, ft, pt => (reread id l ft pt).bind fun x => (reread id r x.2.1 x.2.2).bind fun y => mk2 y.2.1 y.2.2 x.1 y.1 .imp
  | .iff l r, ft, pt => (reread id l ft pt).bind fun x => (reread id r x.2.1 x.2.2).bind fun y => mk2 y.2.1 y.2.2 x.1 y.1 .iff
  | .equal _ _, _, _ => none
  | .fut lb ub e, ft, pt => (reread id e ft pt).bind fun x => mk1 x.2.1 x.2.2 x.1 (.tmp .F lb ub)
  | .glob lb ub e, ft, pt => (reread id e ft pt).bind fun x => mk1 x.2.1 x.2.2 x.1 (.tmp .G lb ub)
  | .once lb ub e, ft, pt => (reread id e ft pt).bind fun x => mk1 x.2.1 x.2.2 x.1 (.tmp .O lb ub)
  | .hist lb ub e, ft, pt => (reread id e ft pt).bind fun x => mk1 x.2.1 x.2.2 x.1 (.tmp .H lb ub)
  | .untl lb ub l r, ft, pt => (reread id l ft pt).bind fun x => (reread id r x.2.1 x.2.2).bind fun y => mk2 y.2.1 y.2.2 x.1 y.1 (.tmp .U lb ub)
  | .rel lb ub l r, ft, pt => (reread id l ft pt).bind fun x => (reread id r x.2.1 x.2.2).bind fun y => mk2 y.2.1 y.2.2 x.1 y.1 (.tmp .R lb ub)
  | .since lb ub l r, ft, pt => (reread id l ft pt).bind fun x => (reread id r x.2.1 x.2.2).bind fun y => mk2 y.2.1 y.2.2 x.1 y.1 (.tmp .S lb ub)
  | .trig lb ub l r, ft, pt => (reread id l ft pt).bind fun x => (reread id r x.2.1 x.2.2).bind fun y => mk2 y.2.1 y.2.2 x.1 y.1 (.tmp .T lb ub)
def rereadL (id : α → Option Nat) (conj : Bool) : Expr Nat → List (Expr α) → Bool → Bool → Option (Expr Nat × Bool × Bool)
  | acc, [], ft, pt => some (acc, ft, pt)
  | acc, c :: cs, ft, pt => (reread id c ft pt).bind fun x => rereadL id conj (opN conj [acc, x.1]) cs x.2.1 x.2.2
end

/-- The state after an operand. -/
def PState.got (st : PState) (x : Expr Nat × Bool × Bool) : PState := { st with cur := some x.1, ft := x.2.1, pt := x.2.2 }

/-- The parser takes these tokens as one operand. -/
def Operand (m : Int) (ts : List Tok) (rr : Bool → Bool → Option (Expr Nat × Bool × Bool)) : Prop :=
  ∀ (st : PState) (rest : List Tok), st.cur = none →
    parseFrom m st (ts ++ rest) = (rr st.ft st.pt).bind fun x => parseFrom m (st.got x) rest

theorem close_paren (m : Int) (st : PState) (fs : List Frame) (e : Expr Nat) (rest : List Tok) (hf : st.frames = .paren :: fs)
    (hc : st.cur = some e) : parseFrom m st (.rparen :: rest) = parseFrom m { st with frames := fs } rest := by
  obtain ⟨frames, cur, ft, pt, specs⟩ := st
  subst hf hc
  simp [parseFrom, PState.close, reduce]

theorem close_pre (m : Int) (st : PState) (fs : List Frame) (o : Op1) (e : Expr Nat) (rest : List Tok) (hf : st.frames = .pre o :: .paren :: fs)
    (hc : st.cur = some e) : parseFrom m st (.rparen :: rest) =
      (mk1 st.ft st.pt e o).bind fun x => parseFrom m ({ st with frames := fs }.got x) rest := by
  obtain ⟨frames, cur, ft, pt, specs⟩ := st
  subst hf hc
  simp only [parseFrom, PState.close, reduce, PState.got, Option.bind_some, Nat.zero_le, if_true]
  cases mk1 ft pt e o <;> simp [reduce]

theorem close_bin (m : Int) (st : PState) (fs : List Frame) (o : Op2) (l e : Expr Nat) (rest : List Tok)
    (hf : st.frames = .bin l o :: .paren :: fs) (hc : st.cur = some e) : parseFrom m st (.rparen :: rest) =
      (mk2 st.ft st.pt l e o).bind fun x => parseFrom m ({ st with frames := fs }.got x) rest := by
  obtain ⟨frames, cur, ft, pt, specs⟩ := st
  subst hf hc
  simp only [parseFrom, PState.close, reduce, PState.got, Option.bind_some, Nat.zero_le, if_true]
  cases mk2 ft pt l e o <;> simp [reduce]

theorem operand_leaf (m : Int) (t : Tok) (e : Expr Nat)
    (h : ∀ st rest, parseFrom m st (t :: rest) = (st.leaf e).bind fun st => parseFrom m st rest) :
    Operand m [t] (fun ft pt => some (e, ft, pt)) := by
  intro st rest hc
  obtain ⟨frames, cur, ft, pt, specs⟩ := st
  subst hc
  rw [List.singleton_append, h]
  rfl

theorem Operand.prefixed {m : Int} {ts us : List Tok} {rr : Bool → Bool → Option (Expr Nat × Bool × Bool)} {o : Op1}
    (h : Operand m ts rr)
    (hu : ∀ st rest, parseFrom m st (us ++ rest) = (st.opening (.pre o)).bind fun st => parseFrom m st rest) :
    Operand m (.lparen :: (us ++ (ts ++ [.rparen]))) (fun ft pt => (rr ft pt).bind fun x => mk1 x.2.1 x.2.2 x.1 o) := by
  intro st rest hc
  obtain ⟨frames, cur, ft, pt, specs⟩ := st
  subst hc
  simp only [List.cons_append, List.append_assoc, List.nil_append, parseFrom, PState.opening, Option.bind_some, hu]
  rw [h _ _ rfl]
  cases hr : rr ft pt with
  | none => rfl
  | some x =>
    simp only [Option.bind_some]
    rw [close_pre m _ frames o x.1 rest rfl rfl]
    rfl

theorem Operand.infixed {m : Int} {ls ts us : List Tok} {rl rr : Bool → Bool → Option (Expr Nat × Bool × Bool)} {o : Op2}
    (hl : Operand m ls rl) (h : Operand m ts rr)
    (hu : ∀ st rest, parseFrom m st (us ++ rest) = (st.between o).bind fun st => parseFrom m st rest) :
    Operand m (.lparen :: (ls ++ (us ++ (ts ++ [.rparen]))))
      (fun ft pt => (rl ft pt).bind fun x => (rr x.2.1 x.2.2).bind fun y => mk2 y.2.1 y.2.2 x.1 y.1 o) := by
  intro st rest hc
  obtain ⟨frames, cur, ft, pt, specs⟩ := st
  subst hc
  simp only [List.cons_append, List.append_assoc, List.nil_append, parseFrom, PState.opening, Option.bind_some]
  rw [hl _ _ rfl]
  cases hr : rl ft pt with
  | none => rfl
  | some x =>
    simp only [Option.bind_some, hu, PState.got, PState.between, reduce, Option.map_some]
    rw [h _ _ rfl]
    cases hr2 : rr x.2.1 x.2.2 with
    | none => rfl
    | some y =>
      simp only [Option.bind_some]
      rw [close_bin m _ frames o x.1 y.1 rest rfl rfl]
      rfl

/-- The rest of a conjunction or disjunction, from a state whose stack reduces to the first operands. -/
theorem parse_tail (m : Int) (id : α → Option Nat) (conj : Bool) (op : Op2) (t : Tok) (fs : List Frame)
    (hop : ∀ ft pt l r, mk2 ft pt l r op = some (opN conj [l, r], ft, pt))
    (ht : ∀ st rest, parseFrom m st (t :: rest) = (st.between op).bind fun st => parseFrom m st rest) :
    ∀ (cs : List (Expr α)), (∀ c ∈ cs, Operand m (toks id c) (reread id c)) →
    ∀ (st : PState) (cur acc : Expr Nat) (rest : List Tok), st.cur = some cur →
      (∀ lvl ≤ op.level, reduce lvl st.ft st.pt cur st.frames = some (.paren :: fs, acc, st.ft, st.pt)) →
      parseFrom m st (tail t (toksL id cs) ++ .rparen :: rest) =
        (rereadL id conj acc cs st.ft st.pt).bind fun x => parseFrom m ({ st with frames := fs }.got x) rest := by
  intro cs
  induction cs with
  | nil =>
    intro _ st cur acc rest hc hr
    obtain ⟨frames, c0, ft, pt, specs⟩ := st
    subst hc
    have := hr 0 (Nat.zero_le _)
    simp only at this
    simp [tail, toksL, parseFrom, PState.close, this, rereadL, PState.got]
  | cons c cs ih =>
    intro hcs st cur acc rest hc hr
    obtain ⟨frames, c0, ft, pt, specs⟩ := st
    subst hc
    have h0 := hr _ (Nat.le_refl _)
    simp only at h0
    simp only [tail, toksL, List.flatMap_cons, List.cons_append, List.append_assoc, ht, PState.between, Option.bind_some, h0,
      Option.map_some, rereadL]
    rw [hcs c (by simp) _ _ rfl]
    cases hx : reread id c ft pt with
    | none => rfl
    | some x =>
      simp only [Option.bind_some]
      refine ih (fun d hd => hcs d (by simp [hd])) _ x.1 (opN conj [acc, x.1]) rest rfl ?_
      intro lvl hl
      simp [PState.got, reduce, hl, hop]

theorem operand_nary (m : Int) (id : α → Option Nat) (conj : Bool) (op : Op2) (t : Tok)
    (hop : ∀ ft pt l r, mk2 ft pt l r op = some (opN conj [l, r], ft, pt))
    (ht : ∀ st rest, parseFrom m st (t :: rest) = (st.between op).bind fun st => parseFrom m st rest)
    {c d : Expr α} {cs : List (Expr α)} (hc : Operand m (toks id c) (reread id c))
    (hcs : ∀ e ∈ d :: cs, Operand m (toks id e) (reread id e)) :
    Operand m (toksN t (toksL id (c :: d :: cs)))
      (fun ft pt => (reread id c ft pt).bind fun x => rereadL id conj x.1 (d :: cs) x.2.1 x.2.2) := by
  intro st rest h0
  obtain ⟨frames, cur, ft, pt, specs⟩ := st
  subst h0
  show parseFrom m _ ((.lparen :: (toks id c ++ (tail t (toksL id (d :: cs)) ++ [.rparen]))) ++ rest) = _
  simp only [List.cons_append, List.append_assoc, List.nil_append, parseFrom, PState.opening, Option.bind_some]
  rw [hc _ _ rfl]
  cases hr : reread id c ft pt with
  | none => rfl
  | some x =>
    simp only [Option.bind_some]
    rw [parse_tail m id conj op t frames hop ht (d :: cs) hcs _ x.1 x.1 rest rfl (fun lvl _ => rfl)]
    rfl

theorem operand_single (m : Int) (op : Op2) (t : Tok)
    (ht : ∀ st rest, parseFrom m st (t :: rest) = (st.between op).bind fun st => parseFrom m st rest) (ts : List Tok) :
    Operand m (toksN t [ts]) (fun _ _ => none) := by
  intro st rest h0
  obtain ⟨frames, cur, ft, pt, specs⟩ := st
  subst h0
  show parseFrom m _ ((.lparen :: t :: t :: (ts ++ [.rparen])) ++ rest) = _
  simp only [List.cons_append, parseFrom, PState.opening, Option.bind_some, ht]
  rfl

/-- A text starts with a leaf or an opening bracket. -/
theorem toks_start (id : α → Option Nat) (e : Expr α) {s : List Char} (h : text id e = some s) :
    ∃ t ts, toks id e = t :: ts ∧ (t = .lparen ∨ t = .tru ∨ t = .fls ∨ ∃ n, t = .atomic n) := by
  have hn : ∀ (o : Tok) (cs : List (Expr α)), (∃ s, textL id cs = some s ∧ s ≠ []) →
      ∃ t ts, toksN o (toksL id cs) = t :: ts ∧ (t = .lparen ∨ t = .tru ∨ t = .fls ∨ ∃ n, t = .atomic n) := by
    rintro o cs ⟨s, h1, h2⟩
    cases cs with
    | nil => cases h1; exact absurd rfl h2
    | cons c cs =>
      cases cs with
      | nil => exact ⟨_, _, rfl, .inl rfl⟩
      | cons d cs => exact ⟨_, _, rfl, .inl rfl⟩
  cases e with
  | const b => cases b <;> exact ⟨_, _, rfl, by simp⟩
  | atom a => exact ⟨_, _, rfl, by simp⟩
  | and cs =>
    simp only [text, Option.bind_eq_some_iff] at h
    obtain ⟨ss, h1, h2⟩ := h
    exact hn _ cs ⟨ss, h1, by rintro rfl; cases h2⟩
  | or cs =>
    simp only [text, Option.bind_eq_some_iff] at h
    obtain ⟨ss, h1, h2⟩ := h
    exact hn _ cs ⟨ss, h1, by rintro rfl; cases h2⟩
  | _ => exact ⟨_, _, rfl, .inl rfl⟩

theorem operand_xor {m : Int} {ls rs : List Tok} {rl : Bool → Bool → Option (Expr Nat × Bool × Bool)} (hl : Operand m ls rl)
    (hr : ∃ t ts, rs = t :: ts ∧ (t = .lparen ∨ t = .tru ∨ t = .fls ∨ ∃ n, t = .atomic n)) :
    Operand m (.lparen :: (ls ++ ([] ++ (rs ++ [.rparen])))) (fun _ _ => none) := by
  intro st rest hc
  obtain ⟨frames, cur, ft, pt, specs⟩ := st
  subst hc
  obtain ⟨t, ts, rfl, ht⟩ := hr
  simp only [List.cons_append, List.append_assoc, List.nil_append, parseFrom, PState.opening, Option.bind_some]
  rw [hl _ _ rfl]
  cases rl ft pt with
  | none => rfl
  | some x => rcases ht with rfl | rfl | rfl | ⟨n, rfl⟩ <;> simp [parseFrom, PState.got, PState.opening, PState.leaf]

theorem textL_mem {id : α → Option Nat} : ∀ {cs : List (Expr α)} {ss : List (List Char)}, textL id cs = some ss →
    ∀ c ∈ cs, ∃ s, text id c = some s
  | [], _, _, _, hc => by cases hc
  | d :: cs, ss, h, c, hc => by
      obtain ⟨x, y, h1, h2, rfl⟩ := bind_map_some h
      rcases List.mem_cons.1 hc with rfl | hc
      · exact ⟨x, h1⟩
      · exact textL_mem h2 c hc

theorem temporal_pre (m : Int) (k : TmpK) (lb ub : Nat) (hk : k = .F ∨ k = .G ∨ k = .O ∨ k = .H) (st : PState) (rest : List Tok) :
    parseFrom m st (tmpToks k lb ub ++ rest) = (st.opening (.pre (.tmp k lb ub))).bind fun st => parseFrom m st rest := by
  rcases hk with rfl | rfl | rfl | rfl <;> simp [tmpToks, parseFrom, bound, PState.temporal]

theorem temporal_bin (m : Int) (k : TmpK) (lb ub : Nat) (hk : k = .U ∨ k = .R ∨ k = .S ∨ k = .T) (st : PState) (rest : List Tok) :
    parseFrom m st (tmpToks k lb ub ++ rest) = (st.between (.tmp k lb ub)).bind fun st => parseFrom m st rest := by
  rcases hk with rfl | rfl | rfl | rfl <;> simp [tmpToks, parseFrom, bound, PState.temporal]

mutual
theorem operand_toks (m : Int) (id : α → Option Nat) : ∀ (e : Expr α), (∃ s, text id e = some s) → Operand m (toks id e) (reread id e)
  | .const true, _ => operand_leaf m _ _ fun _ _ => rfl
  | .const false, _ => operand_leaf m _ _ fun _ _ => rfl
  | .atom a, ⟨s, h⟩ => by
      simp only [text, Option.map_eq_some_iff] at h; obtain ⟨n, h1, rfl⟩ := h
      have := operand_leaf m (.atomic n) (.atom n) fun _ _ => rfl
      simpa only [toks, h1, reread, Option.getD_some, Option.map_some] using this
  | .neg e, ⟨s, h⟩ => by
      simp only [text, Option.map_eq_some_iff] at h; obtain ⟨c, h1, rfl⟩ := h
      exact (operand_toks m id e ⟨_, h1⟩).prefixed fun _ _ => rfl
  | .and cs, ⟨s, h⟩ => by
      simp only [text, Option.bind_eq_some_iff] at h; obtain ⟨ss, h1, h2⟩ := h
      match cs, h1 with
      | [], h1 => cases h1; cases h2
      | [c], h1 => exact operand_single m .and _ (fun _ _ => rfl) _
      | c :: d :: cs, h1 =>
        have := operand_toksL m id (c :: d :: cs) (textL_mem h1)
        exact operand_nary m id true .and .and (fun _ _ _ _ => rfl) (fun _ _ => rfl) (this c (by simp)) (fun e he => this e (List.mem_cons_of_mem _ he))
  | .or cs, ⟨s, h⟩ => by
      simp only [text, Option.bind_eq_some_iff] at h; obtain ⟨ss, h1, h2⟩ := h
      match cs, h1 with
      | [], h1 => cases h1; cases h2
      | [c], h1 => exact operand_single m .or _ (fun _ _ => rfl) _
      | c :: d :: cs, h1 =>
        have := operand_toksL m id (c :: d :: cs) (textL_mem h1)
        exact operand_nary m id false .or .or (fun _ _ _ _ => rfl) (fun _ _ => rfl) (this c (by simp)) (fun e he => this e (List.mem_cons_of_mem _ he))
  | .xor l r, ⟨s, h⟩ => by
      obtain ⟨x, y, h1, h2, rfl⟩ := bind_map_some h
      exact operand_xor (operand_toks m id l ⟨_, h1⟩) (toks_start id r h2)
  | .imp l r, ⟨s, h⟩ => by
      obtain ⟨x, y, h1, h2, rfl⟩ := bind_map_some h
      exact (operand_toks m id l ⟨_, h1⟩).infixed (operand_toks m id r ⟨_, h2⟩) fun _ _ => rfl
  | .iff l r, ⟨s, h⟩ => by
      obtain ⟨x, y, h1, h2, rfl⟩ := bind_map_some h
      exact (operand_toks m id l ⟨_, h1⟩).infixed (operand_toks m id r ⟨_, h2⟩) fun _ _ => rfl
  | .equal l r, ⟨s, h⟩ => by simp [text] at h
  | .fut lb ub e, ⟨s, h⟩ => by
      simp only [text, Option.map_eq_some_iff] at h; obtain ⟨c, h1, rfl⟩ := h
      exact (operand_toks m id e ⟨_, h1⟩).prefixed (temporal_pre m _ lb ub (by simp))
  | .glob lb ub e, ⟨s, h⟩ => by
      simp only [text, Option.map_eq_some_iff] at h; obtain ⟨c, h1, rfl⟩ := h
      exact (operand_toks m id e ⟨_, h1⟩).prefixed (temporal_pre m _ lb ub (by simp))
  | .once lb ub e, ⟨s, h⟩ => by
      simp only [text, Option.map_eq_some_iff] at h; obtain ⟨c, h1, rfl⟩ := h
      exact (operand_toks m id e ⟨_, h1⟩).prefixed (temporal_pre m _ lb ub (by simp))
  | .hist lb ub e, ⟨s, h⟩ => by
      simp only [text, Option.map_eq_some_iff] at h; obtain ⟨c, h1, rfl⟩ := h
      exact (operand_toks m id e ⟨_, h1⟩).prefixed (temporal_pre m _ lb ub (by simp))
  | .untl lb ub l r, ⟨s, h⟩ => by
      obtain ⟨x, y, h1, h2, rfl⟩ := bind_map_some h
      exact (operand_toks m id l ⟨_, h1⟩).infixed (operand_toks m id r ⟨_, h2⟩) (temporal_bin m _ lb ub (by simp))
  | .rel lb ub l r, ⟨s, h⟩ => by
      obtain ⟨x, y, h1, h2, rfl⟩ := bind_map_some h
      exact (operand_toks m id l ⟨_, h1⟩).infixed (operand_toks m id r ⟨_, h2⟩) (temporal_bin m _ lb ub (by simp))
  | .since lb ub l r, ⟨s, h⟩ => by
      obtain ⟨x, y, h1, h2, rfl⟩ := bind_map_some h
      exact (operand_toks m id l ⟨_, h1⟩).infixed (operand_toks m id r ⟨_, h2⟩) (temporal_bin m _ lb ub (by simp))
  | .trig lb ub l r, ⟨s, h⟩ => by
      obtain ⟨x, y, h1, h2, rfl⟩ := bind_map_some h
      exact (operand_toks m id l ⟨_, h1⟩).infixed (operand_toks m id r ⟨_, h2⟩) (temporal_bin m _ lb ub (by simp))
theorem operand_toksL (m : Int) (id : α → Option Nat) : ∀ (cs : List (Expr α)), (∀ c ∈ cs, ∃ s, text id c = some s) →
    ∀ c ∈ cs, Operand m (toks id c) (reread id c)
  | [], _, _, hc => by cases hc
  | d :: cs, h, c, hc => by
      rcases List.mem_cons.1 hc with h1 | h1
      · rw [h1]; exact operand_toks m id d (h d (by simp))
      · exact operand_toksL m id cs (fun e he => h e (by simp [he])) c h1
end

/-! ### what is read is what was written -/

theorem nwc {bad : Expr α → Prop} {e : Expr α} : Nowhere bad e ↔ ¬ bad e ∧ ∀ c ∈ e.children, Nowhere bad c :=
  ⟨fun ⟨_, h, h'⟩ => ⟨h, h'⟩, fun ⟨h, h'⟩ => ⟨_, h, h'⟩⟩

/-- The flags are as they should be for reading formulas of which these are all expressible in the tenses that are left. -/
def Flags (id : α → Option Nat) (es : List (Expr α)) (ft pt : Bool) (x : Bool × Bool) : Prop :=
  (x.1 = false ∨ x.2 = false) ∧ (x.2 = false → pt = false ∧ ∀ e ∈ es, Nowhere (Inexpressible id false) e) ∧
    (x.1 = false → ft = false ∧ ∀ e ∈ es, Nowhere (Inexpressible id true) e)

theorem Flags.nil {id : α → Option Nat} {ft pt : Bool} (h : ft = false ∨ pt = false) : Flags id [] ft pt (ft, pt) :=
  ⟨h, fun h => ⟨h, by simp⟩, fun h => ⟨h, by simp⟩⟩

theorem Flags.append {id : α → Option Nat} {es fs : List (Expr α)} {ft pt : Bool} {x y : Bool × Bool} (h : Flags id es ft pt x)
    (h' : Flags id fs x.1 x.2 y) : Flags id (es ++ fs) ft pt y := by
  refine ⟨h'.1, fun hy => ?_, fun hy => ?_⟩
  · obtain ⟨h1, h2⟩ := h'.2.1 hy
    obtain ⟨h3, h4⟩ := h.2.1 h1
    exact ⟨h3, fun e he => (List.mem_append.1 he).elim (h4 e) (h2 e)⟩
  · obtain ⟨h1, h2⟩ := h'.2.2 hy
    obtain ⟨h3, h4⟩ := h.2.2 h1
    exact ⟨h3, fun e he => (List.mem_append.1 he).elim (h4 e) (h2 e)⟩

/-- An operator of no tense. -/
theorem Flags.plain {id : α → Option Nat} {e : Expr α} {ft pt : Bool} {x : Bool × Bool} (h : Flags id e.children ft pt x)
    (he : ∀ p, ¬ Inexpressible id p e) : Flags id [e] ft pt x :=
  ⟨h.1, fun hx => ⟨(h.2.1 hx).1, by simpa using nwc.2 ⟨he _, (h.2.1 hx).2⟩⟩,
    fun hx => ⟨(h.2.2 hx).1, by simpa using nwc.2 ⟨he _, (h.2.2 hx).2⟩⟩⟩

/-- An operator of a tense. -/
theorem Flags.tense {id : α → Option Nat} {e : Expr α} {k : TmpK} {ft pt : Bool} {x y : Bool × Bool}
    (h : Flags id e.children ft pt x) (hm : mark k x.1 x.2 = some y)
    (he : ∀ p, Inexpressible id p e ↔ p = k.future) : Flags id [e] ft pt y := by
  obtain ⟨f, p⟩ := x
  unfold mark at hm
  cases hk : k.future with
  | true =>
    simp only [hk, if_true] at hm
    cases p with
    | true => simp at hm
    | false =>
      simp only [Bool.false_eq_true, if_false, Option.some.injEq] at hm
      subst hm
      refine ⟨.inr rfl, fun _ => ⟨(h.2.1 rfl).1, ?_⟩, fun h => by cases h⟩
      simpa using nwc.2 ⟨by rw [he, hk]; simp, (h.2.1 rfl).2⟩
  | false =>
    simp only [hk, Bool.false_eq_true, if_false] at hm
    cases f with
    | true => simp at hm
    | false =>
      simp only [Bool.false_eq_true, if_false, Option.some.injEq] at hm
      subst hm
      refine ⟨.inl rfl, (fun h => by cases h), fun _ => ⟨(h.2.2 rfl).1, ?_⟩⟩
      simpa using nwc.2 ⟨by rw [he, hk]; simp, (h.2.2 rfl).2⟩

theorem map_pair {β γ : Type} {o : Option β} {f : β → γ} {x : γ} (h : o.map f = some x) : ∃ y, o = some y ∧ f y = x :=
  Option.map_eq_some_iff.1 h

theorem leftmost_fold {conj : Bool} : ∀ (cs : List (Expr Nat)) (c d : Expr Nat),
    leftmost (opN conj) (c :: d :: cs) = (d :: cs).foldl (fun a b => opN conj [a, b]) c := by
  intro cs c d; rfl

mutual
theorem reread_some (id : α → Option Nat) : ∀ (e : Expr α) {ft pt : Bool} {x : Expr Nat × Bool × Bool},
    reread id e ft pt = some x → (ft = false ∨ pt = false) → x.1 = (numbered id e).leftNested ∧ Flags id [e] ft pt x.2
  | .const b, ft, pt, x, h, hf => by
      cases h; exact ⟨rfl, Flags.plain (Flags.nil hf) (fun _ h => h)⟩
  | .atom a, ft, pt, x, h, hf => by
      obtain ⟨n, h1, rfl⟩ := map_pair h
      exact ⟨by simp [numbered, Expr.rename, Expr.leftNested, h1], Flags.plain (Flags.nil hf) (fun _ h => by simp [Inexpressible, h1] at h)⟩
  | .neg e, ft, pt, x, h, hf => by
      simp only [reread, Option.bind_eq_some_iff] at h; obtain ⟨y, h1, h2⟩ := h
      obtain ⟨h3, h4⟩ := reread_some id e h1 hf
      cases h2
      exact ⟨congrArg _ h3, Flags.plain h4 (fun _ h => h)⟩
  | .and [], ft, pt, x, h, hf => by simp [reread] at h
  | .and [_], ft, pt, x, h, hf => by simp [reread] at h
  | .and (c :: d :: cs), ft, pt, x, h, hf => by
      simp only [reread, Option.bind_eq_some_iff] at h; obtain ⟨y, h1, h2⟩ := h
      obtain ⟨h3, h4⟩ := reread_some id c h1 hf
      obtain ⟨h5, h6⟩ := rereadL_some id true (d :: cs) h2 h4.1
      refine ⟨?_, Flags.plain (h4.append h6) (fun _ h => by simp [Inexpressible] at h)⟩
      rw [h5, h3]; rfl
  | .or [], ft, pt, x, h, hf => by simp [reread] at h
  | .or [_], ft, pt, x, h, hf => by simp [reread] at h
  | .or (c :: d :: cs), ft, pt, x, h, hf => by
      simp only [reread, Option.bind_eq_some_iff] at h; obtain ⟨y, h1, h2⟩ := h
      obtain ⟨h3, h4⟩ := reread_some id c h1 hf
      obtain ⟨h5, h6⟩ := rereadL_some id false (d :: cs) h2 h4.1
      refine ⟨?_, Flags.plain (h4.append h6) (fun _ h => by simp [Inexpressible] at h)⟩
      rw [h5, h3]; rfl
  | .xor l r, ft, pt, x, h, hf => by simp [reread] at h
  | .equal l r, ft, pt, x, h, hf => by simp [reread] at h
  | .imp l r, ft, pt, x, h, hf => by
      simp only [reread, Option.bind_eq_some_iff] at h; obtain ⟨y, h1, z, h2, h3⟩ := h
      obtain ⟨h4, h5⟩ := reread_some id l h1 hf
      obtain ⟨h6, h7⟩ := reread_some id r h2 h5.1
      cases h3
      exact ⟨by rw [h4, h6]; rfl, Flags.plain (h5.append h7) (fun _ h => h)⟩
  | .iff l r, ft, pt, x, h, hf => by
      simp only [reread, Option.bind_eq_some_iff] at h; obtain ⟨y, h1, z, h2, h3⟩ := h
      obtain ⟨h4, h5⟩ := reread_some id l h1 hf
      obtain ⟨h6, h7⟩ := reread_some id r h2 h5.1
      cases h3
      exact ⟨by rw [h4, h6]; rfl, Flags.plain (h5.append h7) (fun _ h => h)⟩
  | .fut lb ub e, ft, pt, x, h, hf => by
      simp only [reread, Option.bind_eq_some_iff] at h; obtain ⟨y, h1, h2⟩ := h
      obtain ⟨h3, h4⟩ := reread_some id e h1 hf
      obtain ⟨w, h5, rfl⟩ := map_pair h2
      exact ⟨by rw [h3]; rfl, h4.tense h5 (fun p => Iff.rfl)⟩
  | .glob lb ub e, ft, pt, x, h, hf => by
      simp only [reread, Option.bind_eq_some_iff] at h; obtain ⟨y, h1, h2⟩ := h
      obtain ⟨h3, h4⟩ := reread_some id e h1 hf
      obtain ⟨w, h5, rfl⟩ := map_pair h2
      exact ⟨by rw [h3]; rfl, h4.tense h5 (fun p => Iff.rfl)⟩
  | .once lb ub e, ft, pt, x, h, hf => by
      simp only [reread, Option.bind_eq_some_iff] at h; obtain ⟨y, h1, h2⟩ := h
      obtain ⟨h3, h4⟩ := reread_some id e h1 hf
      obtain ⟨w, h5, rfl⟩ := map_pair h2
      exact ⟨by rw [h3]; rfl, h4.tense h5 (fun p => Iff.rfl)⟩
  | .hist lb ub e, ft, pt, x, h, hf => by
      simp only [reread, Option.bind_eq_some_iff] at h; obtain ⟨y, h1, h2⟩ := h
      obtain ⟨h3, h4⟩ := reread_some id e h1 hf
      obtain ⟨w, h5, rfl⟩ := map_pair h2
      exact ⟨by rw [h3]; rfl, h4.tense h5 (fun p => Iff.rfl)⟩
  | .untl lb ub l r, ft, pt, x, h, hf => by
      simp only [reread, Option.bind_eq_some_iff] at h; obtain ⟨y, h1, z, h2, h3⟩ := h
      obtain ⟨h4, h5⟩ := reread_some id l h1 hf
      obtain ⟨h6, h7⟩ := reread_some id r h2 h5.1
      obtain ⟨w, h8, rfl⟩ := map_pair h3
      exact ⟨by rw [h4, h6]; rfl, (h5.append h7).tense h8 (fun p => Iff.rfl)⟩
  | .rel lb ub l r, ft, pt, x, h, hf => by
      simp only [reread, Option.bind_eq_some_iff] at h; obtain ⟨y, h1, z, h2, h3⟩ := h
      obtain ⟨h4, h5⟩ := reread_some id l h1 hf
      obtain ⟨h6, h7⟩ := reread_some id r h2 h5.1
      obtain ⟨w, h8, rfl⟩ := map_pair h3
      exact ⟨by rw [h4, h6]; rfl, (h5.append h7).tense h8 (fun p => Iff.rfl)⟩
  | .since lb ub l r, ft, pt, x, h, hf => by
      simp only [reread, Option.bind_eq_some_iff] at h; obtain ⟨y, h1, z, h2, h3⟩ := h
      obtain ⟨h4, h5⟩ := reread_some id l h1 hf
      obtain ⟨h6, h7⟩ := reread_some id r h2 h5.1
      obtain ⟨w, h8, rfl⟩ := map_pair h3
      exact ⟨by rw [h4, h6]; rfl, (h5.append h7).tense h8 (fun p => Iff.rfl)⟩
  | .trig lb ub l r, ft, pt, x, h, hf => by
      simp only [reread, Option.bind_eq_some_iff] at h; obtain ⟨y, h1, z, h2, h3⟩ := h
      obtain ⟨h4, h5⟩ := reread_some id l h1 hf
      obtain ⟨h6, h7⟩ := reread_some id r h2 h5.1
      obtain ⟨w, h8, rfl⟩ := map_pair h3
      exact ⟨by rw [h4, h6]; rfl, (h5.append h7).tense h8 (fun p => Iff.rfl)⟩
theorem rereadL_some (id : α → Option Nat) (conj : Bool) : ∀ (cs : List (Expr α)) {acc : Expr Nat} {ft pt : Bool} {x : Expr Nat × Bool × Bool},
    rereadL id conj acc cs ft pt = some x → (ft = false ∨ pt = false) →
    x.1 = (Expr.leftNestedL (Expr.renameL (fun a => (id a).getD 0) cs)).foldl (fun a b => opN conj [a, b]) acc ∧ Flags id cs ft pt x.2
  | [], acc, ft, pt, x, h, hf => by cases h; exact ⟨rfl, Flags.nil hf⟩
  | c :: cs, acc, ft, pt, x, h, hf => by
      simp only [rereadL, Option.bind_eq_some_iff] at h; obtain ⟨y, h1, h2⟩ := h
      obtain ⟨h3, h4⟩ := reread_some id c h1 hf
      obtain ⟨h5, h6⟩ := rereadL_some id conj cs h2 h4.1
      exact ⟨by rw [h5, h3]; rfl, h4.append h6⟩
end

/-! ### what can be written can be read -/

/-- The flag of the other tense is down. -/
def Down (past : Bool) (x : Bool × Bool) : Prop := (if past then x.1 else x.2) = false

theorem mark_down {past : Bool} {k : TmpK} {x : Bool × Bool} (h : Down past x) (hk : past ≠ k.future) :
    ∃ y, mark k x.1 x.2 = some y ∧ Down past y := by
  obtain ⟨f, p⟩ := x
  cases past <;> simp only [Down, if_true, Bool.false_eq_true, if_false] at h <;> subst h <;> cases hk' : k.future <;>
    simp [hk'] at hk <;> simp [mark, hk', Down]

mutual
theorem reread_total (id : α → Option Nat) (past : Bool) : ∀ (e : Expr α) {ft pt : Bool}, Nowhere (Inexpressible id past) e →
    Down past (ft, pt) → ∃ x, reread id e ft pt = some x ∧ Down past x.2
  | .const b, ft, pt, _, hd => ⟨_, rfl, hd⟩
  | .atom a, ft, pt, h, hd => by
      have := (nwc.1 h).1
      cases hn : id a with
      | none => simp [Inexpressible, hn] at this
      | some n => exact ⟨_, by rw [reread, hn]; rfl, hd⟩
  | .neg e, ft, pt, h, hd => by
      obtain ⟨x, h1, h2⟩ := reread_total id past e ((nwc.1 h).2 e (by simp [Expr.children])) hd
      exact ⟨(.neg x.1, x.2), by rw [reread, h1]; rfl, h2⟩
  | .and [], ft, pt, h, hd => absurd (show 0 < 2 by omega) (nwc.1 h).1
  | .and [_], ft, pt, h, hd => absurd (show 1 < 2 by omega) (nwc.1 h).1
  | .and (c :: d :: cs), ft, pt, h, hd => by
      have hc := (nwc.1 h).2
      obtain ⟨x, h1, h2⟩ := reread_total id past c (hc c (by simp [Expr.children])) hd
      obtain ⟨y, h3, h4⟩ := rereadL_total id past true (d :: cs) (acc := x.1) (fun e he => hc e (List.mem_cons_of_mem _ he)) h2
      exact ⟨y, by rw [reread, h1]; exact h3, h4⟩
  | .or [], ft, pt, h, hd => absurd (show 0 < 2 by omega) (nwc.1 h).1
  | .or [_], ft, pt, h, hd => absurd (show 1 < 2 by omega) (nwc.1 h).1
  | .or (c :: d :: cs), ft, pt, h, hd => by
      have hc := (nwc.1 h).2
      obtain ⟨x, h1, h2⟩ := reread_total id past c (hc c (by simp [Expr.children])) hd
      obtain ⟨y, h3, h4⟩ := rereadL_total id past false (d :: cs) (acc := x.1) (fun e he => hc e (List.mem_cons_of_mem _ he)) h2
      exact ⟨y, by rw [reread, h1]; exact h3, h4⟩
  | .xor l r, ft, pt, h, hd => absurd trivial (nwc.1 h).1
  | .equal l r, ft, pt, h, hd => absurd trivial (nwc.1 h).1
  | .imp l r, ft, pt, h, hd => by
      have hc := (nwc.1 h).2
      obtain ⟨x, h1, h2⟩ := reread_total id past l (hc l (by simp [Expr.children])) hd
      obtain ⟨y, h3, h4⟩ := reread_total id past r (hc r (by simp [Expr.children])) h2
      exact ⟨(.imp x.1 y.1, y.2), by rw [reread, h1, Option.bind_some, h3]; rfl, h4⟩
  | .iff l r, ft, pt, h, hd => by
      have hc := (nwc.1 h).2
      obtain ⟨x, h1, h2⟩ := reread_total id past l (hc l (by simp [Expr.children])) hd
      obtain ⟨y, h3, h4⟩ := reread_total id past r (hc r (by simp [Expr.children])) h2
      exact ⟨(.iff x.1 y.1, y.2), by rw [reread, h1, Option.bind_some, h3]; rfl, h4⟩
  | .fut lb ub e, ft, pt, h, hd => by
      obtain ⟨x, h1, h2⟩ := reread_total id past e ((nwc.1 h).2 e (by simp [Expr.children])) hd
      obtain ⟨y, h3, h4⟩ := mark_down (k := .F) h2 (nwc.1 h).1
      exact ⟨(_, y), by rw [reread, h1, Option.bind_some, mk1, h3]; rfl, h4⟩
  | .glob lb ub e, ft, pt, h, hd => by
      obtain ⟨x, h1, h2⟩ := reread_total id past e ((nwc.1 h).2 e (by simp [Expr.children])) hd
      obtain ⟨y, h3, h4⟩ := mark_down (k := .G) h2 (nwc.1 h).1
      exact ⟨(_, y), by rw [reread, h1, Option.bind_some, mk1, h3]; rfl, h4⟩
  | .once lb ub e, ft, pt, h, hd => by
      obtain ⟨x, h1, h2⟩ := reread_total id past e ((nwc.1 h).2 e (by simp [Expr.children])) hd
      obtain ⟨y, h3, h4⟩ := mark_down (k := .O) h2 (nwc.1 h).1
      exact ⟨(_, y), by rw [reread, h1, Option.bind_some, mk1, h3]; rfl, h4⟩
  | .hist lb ub e, ft, pt, h, hd => by
      obtain ⟨x, h1, h2⟩ := reread_total id past e ((nwc.1 h).2 e (by simp [Expr.children])) hd
      obtain ⟨y, h3, h4⟩ := mark_down (k := .H) h2 (nwc.1 h).1
      exact ⟨(_, y), by rw [reread, h1, Option.bind_some, mk1, h3]; rfl, h4⟩
  | .untl lb ub l r, ft, pt, h, hd => by
      have hc := (nwc.1 h).2
      obtain ⟨x, h1, h2⟩ := reread_total id past l (hc l (by simp [Expr.children])) hd
      obtain ⟨y, h3, h4⟩ := reread_total id past r (hc r (by simp [Expr.children])) h2
      obtain ⟨z, h5, h6⟩ := mark_down (k := .U) h4 (nwc.1 h).1
      exact ⟨(_, z), by rw [reread, h1, Option.bind_some, h3, Option.bind_some, mk2, h5]; rfl, h6⟩
  | .rel lb ub l r, ft, pt, h, hd => by
      have hc := (nwc.1 h).2
      obtain ⟨x, h1, h2⟩ := reread_total id past l (hc l (by simp [Expr.children])) hd
      obtain ⟨y, h3, h4⟩ := reread_total id past r (hc r (by simp [Expr.children])) h2
      obtain ⟨z, h5, h6⟩ := mark_down (k := .R) h4 (nwc.1 h).1
      exact ⟨(_, z), by rw [reread, h1, Option.bind_some, h3, Option.bind_some, mk2, h5]; rfl, h6⟩
  | .since lb ub l r, ft, pt, h, hd => by
      have hc := (nwc.1 h).2
      obtain ⟨x, h1, h2⟩ := reread_total id past l (hc l (by simp [Expr.children])) hd
      obtain ⟨y, h3, h4⟩ := reread_total id past r (hc r (by simp [Expr.children])) h2
      obtain ⟨z, h5, h6⟩ := mark_down (k := .S) h4 (nwc.1 h).1
      exact ⟨(_, z), by rw [reread, h1, Option.bind_some, h3, Option.bind_some, mk2, h5]; rfl, h6⟩
  | .trig lb ub l r, ft, pt, h, hd => by
      have hc := (nwc.1 h).2
      obtain ⟨x, h1, h2⟩ := reread_total id past l (hc l (by simp [Expr.children])) hd
      obtain ⟨y, h3, h4⟩ := reread_total id past r (hc r (by simp [Expr.children])) h2
      obtain ⟨z, h5, h6⟩ := mark_down (k := .T) h4 (nwc.1 h).1
      exact ⟨(_, z), by rw [reread, h1, Option.bind_some, h3, Option.bind_some, mk2, h5]; rfl, h6⟩
theorem rereadL_total (id : α → Option Nat) (past conj : Bool) : ∀ (cs : List (Expr α)) {acc : Expr Nat} {ft pt : Bool},
    (∀ c ∈ cs, Nowhere (Inexpressible id past) c) → Down past (ft, pt) → ∃ x, rereadL id conj acc cs ft pt = some x ∧ Down past x.2
  | [], acc, ft, pt, _, hd => ⟨_, rfl, hd⟩
  | c :: cs, acc, ft, pt, h, hd => by
      obtain ⟨x, h1, h2⟩ := reread_total id past c (h c (by simp)) hd
      obtain ⟨y, h3, h4⟩ := rereadL_total id past conj cs (acc := opN conj [acc, x.1]) (fun e he => h e (by simp [he])) h2
      exact ⟨y, by rw [rereadL, h1]; exact h3, h4⟩
end

/-! ### whole programs -/

/-- The formulas read one after another. -/
def rereadAll (id : α → Option Nat) : List (Expr α) → Bool → Bool → Option (List (Expr Nat) × Bool × Bool)
  | [], ft, pt => some ([], ft, pt)
  | e :: es, ft, pt => (reread id e ft pt).bind fun x => (rereadAll id es x.2.1 x.2.2).map fun y => (x.1 :: y.1, y.2)

theorem parse_all (m : Int) (id : α → Option Nat) : ∀ (es : List (Option (Expr α))) {s : List Char}, exported id es = some s →
    ∀ (st : PState), st.frames = [] → st.cur = none →
    parseFrom m st (lex s) = (rereadAll id (es.filterMap fun o => o) st.ft st.pt).map fun x =>
      { frames := [], cur := none, ft := x.2.1, pt := x.2.2, specs := st.specs ++ x.1 }
  | [], s, h, st, hf, hc => by
      cases h
      obtain ⟨frames, cur, ft, pt, specs⟩ := st
      subst hf hc
      simp [lex, lexN, parseFrom, rereadAll]
  | none :: es, s, h, st, hf, hc => parse_all m id es h st hf hc
  | some e :: es, s, h, st, hf, hc => by
      obtain ⟨t, u, h1, h2, rfl⟩ := bind_map_some h
      obtain ⟨frames, cur, ft, pt, specs⟩ := st
      subst hf hc
      rw [lexes_text id e h1 _ (stops_cons (by decide)), operand_toks m id e ⟨_, h1⟩ _ _ rfl, lex_newline]
      simp only [List.filterMap_cons, rereadAll]
      cases hx : reread id e ft pt with
      | none => rfl
      | some x =>
        simp only [Option.bind_some, parseFrom, PState.line, PState.got, reduce]
        rw [parse_all m id es h2 _ rfl rfl]
        cases rereadAll id (es.filterMap fun o => o) x.2.1 x.2.2 <;> simp

theorem rereadAll_some (id : α → Option Nat) : ∀ (es : List (Expr α)) {ft pt : Bool} {x : List (Expr Nat) × Bool × Bool},
    rereadAll id es ft pt = some x → (ft = false ∨ pt = false) →
    x.1 = es.map (fun e => (numbered id e).leftNested) ∧ Flags id es ft pt x.2
  | [], ft, pt, x, h, hf => by cases h; exact ⟨rfl, Flags.nil hf⟩
  | e :: es, ft, pt, x, h, hf => by
      simp only [rereadAll, Option.bind_eq_some_iff] at h; obtain ⟨y, h1, h2⟩ := h
      obtain ⟨z, h3, rfl⟩ := map_pair h2
      obtain ⟨h4, h5⟩ := reread_some id e h1 hf
      obtain ⟨h6, h7⟩ := rereadAll_some id es h3 h5.1
      exact ⟨by simp [h4, h6], h5.append h7⟩

theorem rereadAll_total (id : α → Option Nat) (past : Bool) : ∀ (es : List (Expr α)) {ft pt : Bool},
    (∀ e ∈ es, Nowhere (Inexpressible id past) e) → Down past (ft, pt) → ∃ x, rereadAll id es ft pt = some x ∧ Down past x.2
  | [], ft, pt, _, hd => ⟨_, rfl, hd⟩
  | e :: es, ft, pt, h, hd => by
      obtain ⟨x, h1, h2⟩ := reread_total id past e (h e (by simp)) hd
      obtain ⟨y, h3, h4⟩ := rereadAll_total id past es (fun e he => h e (by simp [he])) h2
      exact ⟨(x.1 :: y.1, y.2), by rw [rereadAll, h1, Option.bind_some, h3]; rfl, h4⟩

/-! ### what can be written -/

mutual
theorem text_total (id : α → Option Nat) (past : Bool) : ∀ (e : Expr α), Nowhere (Inexpressible id past) e → ∃ s, text id e = some s
  | .const true, _ => ⟨_, rfl⟩
  | .const false, _ => ⟨_, rfl⟩
  | .atom a, h => by
      have := (nwc.1 h).1
      cases hn : id a with
      | none => simp [Inexpressible, hn] at this
      | some n => exact ⟨_, by rw [text, hn]; rfl⟩
  | .neg e, h | .fut _ _ e, h | .glob _ _ e, h | .once _ _ e, h | .hist _ _ e, h => by
      obtain ⟨s, h1⟩ := text_total id past e ((nwc.1 h).2 e (by simp [Expr.children]))
      exact ⟨_, by rw [text, h1]; rfl⟩
  | .and cs, h => by
      obtain ⟨ss, h1, h2⟩ := textL_total id past cs (nwc.1 h).2
      have h3 : ¬ cs.length < 2 := (nwc.1 h).1
      match ss, h2 with
      | [], h2 => simp at h2; omega
      | [_], h2 => simp at h2; omega
      | _ :: _ :: _, _ => exact ⟨_, by rw [text, h1]; rfl⟩
  | .or cs, h => by
      obtain ⟨ss, h1, h2⟩ := textL_total id past cs (nwc.1 h).2
      have h3 : ¬ cs.length < 2 := (nwc.1 h).1
      match ss, h2 with
      | [], h2 => simp at h2; omega
      | [_], h2 => simp at h2; omega
      | _ :: _ :: _, _ => exact ⟨_, by rw [text, h1]; rfl⟩
  | .xor l r, h => absurd trivial (nwc.1 h).1
  | .equal l r, h => absurd trivial (nwc.1 h).1
  | .imp l r, h | .iff l r, h | .untl _ _ l r, h | .rel _ _ l r, h | .since _ _ l r, h | .trig _ _ l r, h => by
      have hc := (nwc.1 h).2
      obtain ⟨s, h1⟩ := text_total id past l (hc l (by simp [Expr.children]))
      obtain ⟨t, h2⟩ := text_total id past r (hc r (by simp [Expr.children]))
      exact ⟨_, by rw [text, h1, Option.bind_some, h2]; rfl⟩
theorem textL_total (id : α → Option Nat) (past : Bool) : ∀ (cs : List (Expr α)), (∀ c ∈ cs, Nowhere (Inexpressible id past) c) →
    ∃ ss, textL id cs = some ss ∧ ss.length = cs.length
  | [], _ => ⟨_, rfl, rfl⟩
  | c :: cs, h => by
      obtain ⟨s, h1⟩ := text_total id past c (h c (by simp))
      obtain ⟨ss, h2, h3⟩ := textL_total id past cs (fun e he => h e (by simp [he]))
      exact ⟨_, by rw [textL, h1, Option.bind_some, h2]; rfl, by simp [h3]⟩
end

theorem exported_total (id : α → Option Nat) (past : Bool) : ∀ (es : List (Option (Expr α))),
    (∀ e, some e ∈ es → Nowhere (Inexpressible id past) e) → ∃ s, exported id es = some s
  | [], _ => ⟨_, rfl⟩
  | none :: es, h => exported_total id past es fun e he => h e (by simp [he])
  | some e :: es, h => by
      obtain ⟨s, h1⟩ := text_total id past e (h e (by simp))
      obtain ⟨t, h2⟩ := exported_total id past es fun e he => h e (by simp [he])
      exact ⟨_, by rw [exported, h1, Option.bind_some, h2]; rfl⟩

/-! ### what grouping and renaming mean -/

theorem leftmost_and (π : Trace α) (i : Nat) (cs : List (Expr α)) : sat π (leftmost .and cs) i ↔ ∀ c ∈ cs, sat π c i := by
  match cs with
  | [] => simp [leftmost, sat, satAll]
  | [c] => simp [leftmost, sat, satAll]
  | c :: d :: cs => simp only [leftmost, foldl_and_sat]; simp [sat, satAll, and_assoc]

theorem leftmost_or (π : Trace α) (i : Nat) (cs : List (Expr α)) : sat π (leftmost .or cs) i ↔ ∃ c ∈ cs, sat π c i := by
  match cs with
  | [] => simp [leftmost, sat, satAny]
  | [c] => simp [leftmost, sat, satAny]
  | c :: d :: cs => simp only [leftmost, foldl_or_sat]; simp [sat, satAny, or_assoc]

mutual
theorem sat_leftNested (π : Trace α) : ∀ (e : Expr α) (i : Nat), sat π e.leftNested i ↔ sat π e i
  | .const _, _ | .atom _, _ => Iff.rfl
  | .neg e, i => by simp only [Expr.leftNested, sat, sat_leftNested π e]
  | .and cs, i => by rw [Expr.leftNested, leftmost_and, sat_and]; exact (sat_leftNestedL π cs i).1
  | .or cs, i => by rw [Expr.leftNested, leftmost_or, sat_or]; exact (sat_leftNestedL π cs i).2
  | .xor l r, i | .imp l r, i | .iff l r, i | .equal l r, i => by
      simp only [Expr.leftNested, sat, sat_leftNested π l, sat_leftNested π r]
  | .fut _ _ e, i | .glob _ _ e, i | .once _ _ e, i | .hist _ _ e, i => by simp only [Expr.leftNested, sat, sat_leftNested π e]
  | .untl _ _ l r, i | .rel _ _ l r, i | .since _ _ l r, i | .trig _ _ l r, i => by
      simp only [Expr.leftNested, sat, sat_leftNested π l, sat_leftNested π r]
theorem sat_leftNestedL (π : Trace α) : ∀ (cs : List (Expr α)) (i : Nat),
    ((∀ c ∈ Expr.leftNestedL cs, sat π c i) ↔ ∀ c ∈ cs, sat π c i) ∧ ((∃ c ∈ Expr.leftNestedL cs, sat π c i) ↔ ∃ c ∈ cs, sat π c i)
  | [], i => by simp [Expr.leftNestedL]
  | c :: cs, i => by
      obtain ⟨h1, h2⟩ := sat_leftNestedL π cs i
      simp only [Expr.leftNestedL, List.forall_mem_cons, List.exists_mem_cons_iff, sat_leftNested π c, h1, h2, and_self]
end

mutual
theorem sat_rename {β : Type} (f : α → β) (π : Trace β) : ∀ (e : Expr α) (i : Nat), sat π (e.rename f) i ↔ sat (fun i a => π i (f a)) e i
  | .const _, _ | .atom _, _ => Iff.rfl
  | .neg e, i => by simp only [Expr.rename, sat, sat_rename f π e]
  | .and cs, i => by rw [Expr.rename, sat_and, sat_and]; exact (sat_renameL f π cs i).1
  | .or cs, i => by rw [Expr.rename, sat_or, sat_or]; exact (sat_renameL f π cs i).2
  | .xor l r, i | .imp l r, i | .iff l r, i | .equal l r, i => by
      simp only [Expr.rename, sat, sat_rename f π l, sat_rename f π r]
  | .fut _ _ e, i | .glob _ _ e, i | .once _ _ e, i | .hist _ _ e, i => by simp only [Expr.rename, sat, sat_rename f π e]
  | .untl _ _ l r, i | .rel _ _ l r, i | .since _ _ l r, i | .trig _ _ l r, i => by
      simp only [Expr.rename, sat, sat_rename f π l, sat_rename f π r]
theorem sat_renameL {β : Type} (f : α → β) (π : Trace β) : ∀ (cs : List (Expr α)) (i : Nat),
    ((∀ c ∈ Expr.renameL f cs, sat π c i) ↔ ∀ c ∈ cs, sat (fun i a => π i (f a)) c i) ∧
      ((∃ c ∈ Expr.renameL f cs, sat π c i) ↔ ∃ c ∈ cs, sat (fun i a => π i (f a)) c i)
  | [], i => by simp [Expr.renameL]
  | c :: cs, i => by
      obtain ⟨h1, h2⟩ := sat_renameL f π cs i
      simp only [Expr.renameL, List.forall_mem_cons, List.exists_mem_cons_iff, sat_rename f π c, h1, h2, and_self]
end

theorem length_leftNestedL : ∀ cs : List (Expr α), (Expr.leftNestedL cs).length = cs.length
  | [] => rfl
  | c :: cs => by simp [Expr.leftNestedL, length_leftNestedL cs]

theorem leftmost_short {mk : List (Expr α) → Expr α} {cs : List (Expr α)} (h : cs.length ≤ 2) : leftmost mk cs = mk cs := by
  match cs, h with
  | [], _ => rfl
  | [c], _ => rfl
  | [c, d], _ => rfl

mutual
theorem narrow_leftNested : ∀ (e : Expr α), Nowhere isWide e → e.leftNested = e
  | .const _, _ | .atom _, _ => rfl
  | .neg e, h | .fut _ _ e, h | .glob _ _ e, h | .once _ _ e, h | .hist _ _ e, h => by
      simp only [Expr.leftNested, narrow_leftNested e ((nwc.1 h).2 e (by simp [Expr.children]))]
  | .and cs, h | .or cs, h => by
      have h2 : ¬ 2 < cs.length := (nwc.1 h).1
      simp only [Expr.leftNested, narrow_leftNestedL cs (nwc.1 h).2]
      exact leftmost_short (by omega)
  | .xor l r, h | .imp l r, h | .iff l r, h | .equal l r, h | .untl _ _ l r, h | .rel _ _ l r, h | .since _ _ l r, h | .trig _ _ l r, h => by
      have hc := (nwc.1 h).2
      simp only [Expr.leftNested, narrow_leftNested l (hc l (by simp [Expr.children])), narrow_leftNested r (hc r (by simp [Expr.children]))]
theorem narrow_leftNestedL : ∀ (cs : List (Expr α)), (∀ c ∈ cs, Nowhere isWide c) → Expr.leftNestedL cs = cs
  | [], _ => rfl
  | c :: cs, h => by
      simp only [Expr.leftNestedL, narrow_leftNested c (h c (by simp)), narrow_leftNestedL cs (fun e he => h e (by simp [he]))]
end

mutual
theorem sat_numbered {id : α → Option Nat} {past : Bool} : ∀ {e : Expr α}, Nowhere (Inexpressible id past) e →
    ∀ (π : Trace Nat) (i : Nat), sat (fun i a => π i ((id a).getD 0)) e i ↔ sat (fun i a => ∃ n, id a = some n ∧ π i n) e i
  | .const _, _, _, _ => Iff.rfl
  | .atom a, h, π, i => by
      have := (nwc.1 h).1
      cases hn : id a with
      | none => simp [Inexpressible, hn] at this
      | some n => simp [sat, hn]
  | .neg e, h, π, i | .fut _ _ e, h, π, i | .glob _ _ e, h, π, i | .once _ _ e, h, π, i | .hist _ _ e, h, π, i => by
      simp only [sat, sat_numbered ((nwc.1 h).2 e (by simp [Expr.children])) π]
  | .and cs, h, π, i => by rw [sat_and, sat_and]; exact forall₂_congr fun c hc => sat_numberedL cs (nwc.1 h).2 π i c hc
  | .or cs, h, π, i => by
      rw [sat_or, sat_or]; exact exists_congr fun c => and_congr_right fun hc => sat_numberedL cs (nwc.1 h).2 π i c hc
  | .xor l r, h, π, i | .imp l r, h, π, i | .iff l r, h, π, i | .equal l r, h, π, i | .untl _ _ l r, h, π, i
  | .rel _ _ l r, h, π, i | .since _ _ l r, h, π, i | .trig _ _ l r, h, π, i => by
      simp only [sat, sat_numbered ((nwc.1 h).2 l (by simp [Expr.children])) π, sat_numbered ((nwc.1 h).2 r (by simp [Expr.children])) π]
theorem sat_numberedL {id : α → Option Nat} {past : Bool} : ∀ (cs : List (Expr α)), (∀ c ∈ cs, Nowhere (Inexpressible id past) c) →
    ∀ (π : Trace Nat) (i : Nat), ∀ c ∈ cs, sat (fun i a => π i ((id a).getD 0)) c i ↔ sat (fun i a => ∃ n, id a = some n ∧ π i n) c i
  | [], _, _, _, _, hc => by cases hc
  | d :: cs, h, π, i, c, hc => by
      rcases List.mem_cons.1 hc with h1 | h1
      · rw [h1]; exact sat_numbered (h d (by simp)) π i
      · exact sat_numberedL cs (fun e he => h e (by simp [he])) π i c h1
end

end Mltl
end R2U2
