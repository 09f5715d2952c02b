import Verif.Model.Printing
import Verif.Spec.Printable
import Verif.Lemmas.Tree
import Mathlib.Tactic.Tauto
/-
Unambiguity of the printed forms.
-/
namespace R2U2

/-- `r` is empty or starts with a character of class `p`. -/
def HeadIn (p : Char → Bool) (r : List Char) : Prop := ∀ c cs, r = c :: cs → p c = true

/-- no character of `w` is of class `p` -/
def Free (p : Char → Bool) (w : List Char) : Prop := ∀ c ∈ w, p c = false

theorem headIn_nil (p : Char → Bool) : HeadIn p [] := by intro c cs h; simp at h

theorem headIn_cons {p : Char → Bool} {c : Char} {cs : List Char} (h : p c = true) :
    HeadIn p (c :: cs) := by
  intro d ds he
  simp at he
  rw [← he.1]; exact h

theorem split_word {p : Char → Bool} {w w' r r' : List Char} (hw : Free p w) (hw' : Free p w')
    (hr : HeadIn p r) (hr' : HeadIn p r') (h : w ++ r = w' ++ r') : w = w' ∧ r = r' := by
  induction w generalizing w' with
  | nil =>
    cases w' with
    | nil => simpa using h
    | cons c w' =>
      simp only [List.nil_append, List.cons_append] at h
      have := hr c _ h
      have := hw' c (by simp)
      simp_all
  | cons c w ih =>
    cases w' with
    | nil =>
      simp only [List.nil_append, List.cons_append] at h
      have := hr' c _ h.symm
      have := hw c (by simp)
      simp_all
    | cons d w' =>
      simp only [List.cons_append, List.cons.injEq] at h
      obtain ⟨rfl, h⟩ := h
      obtain ⟨h1, h2⟩ := ih (fun c hc => hw c (by simp [hc])) (fun c hc => hw' c (by simp [hc])) h
      exact ⟨by rw [h1], h2⟩

/-! ### numbers -/

theorem digitChar_isDigit {d : Nat} (h : d < 10) : (Nat.digitChar d).isDigit = true := by
  have : ∀ d : Fin 10, (Nat.digitChar d).isDigit = true := by decide
  exact this ⟨d, h⟩

theorem digitChar_inj {a b : Nat} (ha : a < 10) (hb : b < 10)
    (h : Nat.digitChar a = Nat.digitChar b) : a = b := by
  have : ∀ a b : Fin 10, Nat.digitChar a = Nat.digitChar b → a = b := by decide
  have := this ⟨a, ha⟩ ⟨b, hb⟩ h
  simpa using this

theorem natStr_digit {n : Nat} {c : Char} (h : c ∈ natStr n) : c.isDigit = true := by
  unfold natStr at h
  split at h
  · simp at h; subst h; decide
  · simp only [List.mem_reverse, List.mem_map] at h
    obtain ⟨d, hd, rfl⟩ := h
    exact digitChar_isDigit (Nat.digits_lt_base (by omega) hd)

theorem natStr_ne_nil (n : Nat) : natStr n ≠ [] := by
  unfold natStr
  split
  · simp
  · rename_i h
    simpa using Nat.digits_ne_nil_iff_ne_zero.2 h

theorem map_digit_inj : ∀ {l m : List Nat}, (∀ d ∈ l, d < 10) → (∀ d ∈ m, d < 10) →
    l.map Nat.digitChar = m.map Nat.digitChar → l = m
  | [], [], _, _, _ => rfl
  | [], _ :: _, _, _, h => by simp at h
  | _ :: _, [], _, _, h => by simp at h
  | a :: l, b :: m, hl, hm, h => by
    simp only [List.map_cons, List.cons.injEq] at h
    rw [digitChar_inj (hl a (by simp)) (hm b (by simp)) h.1,
      map_digit_inj (fun d hd => hl d (by simp [hd])) (fun d hd => hm d (by simp [hd])) h.2]

theorem digits10_zero_head {n : Nat} (h : ((Nat.digits 10 n).map Nat.digitChar).reverse = ['0']) :
    n = 0 := by
  have h1 : (Nat.digits 10 n).map Nat.digitChar = [0].map Nat.digitChar := by
    have := congrArg List.reverse h
    rw [List.reverse_reverse] at this
    rw [this]; rfl
  have h2 := map_digit_inj (fun d hd => Nat.digits_lt_base (by omega) hd) (by simp) h1
  have := Nat.ofDigits_digits 10 n
  rw [h2] at this
  simpa [Nat.ofDigits] using this.symm

theorem natStr_inj {n m : Nat} (h : natStr n = natStr m) : n = m := by
  unfold natStr at h
  split at h <;> split at h
  · omega
  · have := digits10_zero_head h.symm; omega
  · have := digits10_zero_head h; omega
  · rw [List.reverse_inj] at h
    exact Nat.digits.injective 10
      (map_digit_inj (fun d hd => Nat.digits_lt_base (by omega) hd)
        (fun d hd => Nat.digits_lt_base (by omega) hd) h)

theorem intStr_chars {i : Int} {c : Char} (h : c ∈ intStr i) : c.isDigit = true ∨ c = '-' := by
  unfold intStr at h
  split at h
  · simp only [List.mem_cons] at h
    rcases h with rfl | h
    · exact .inr rfl
    · exact .inl (natStr_digit h)
  · exact .inl (natStr_digit h)

theorem natStr_head_not_minus {n : Nat} {t : List Char} (h : natStr n = '-' :: t) : False := by
  have := natStr_digit (n := n) (c := '-') (by simp [h])
  simp at this

theorem intStr_inj {i j : Int} (h : intStr i = intStr j) : i = j := by
  unfold intStr at h
  split at h <;> split at h
  · simp only [List.cons.injEq, true_and] at h
    have := natStr_inj h; omega
  · exact (natStr_head_not_minus h.symm).elim
  · exact (natStr_head_not_minus h).elim
  · have := natStr_inj h; omega

theorem intStr_ne_nil (i : Int) : intStr i ≠ [] := by
  unfold intStr; split
  · simp
  · exact natStr_ne_nil _

/-! ### leaves and symbols -/

/-- characters that end a leaf text -/
def stop4 (c : Char) : Bool := c == ' ' || c == '(' || c == ')' || c == ','
/-- characters that end a symbol -/
def stop3 (c : Char) : Bool := c == ' ' || c == '(' || c == ')'

theorem Free.stop3 {w : List Char} (h : Free stop4 w) : Free R2U2.stop3 w := by
  intro c hc
  have := h c hc
  simp_all [stop4, R2U2.stop3]

def leafTxt : Lab → List Char
  | .lit v => litStr v
  | .name s => s.toList
  | _ => []

def LeafOk : Lab → Prop
  | .lit (.float s) => IsFloatText s
  | .lit _ => True
  | .name s => IsIdent s
  | _ => False

def symTxt : Lab → List Char
  | .op o => o.sym
  | .tmp o lb ub => tmpSym o lb ub
  | _ => []

def IsSym : Lab → Prop
  | .op _ | .tmp _ _ _ => True
  | _ => False

theorem isDigit_free {c : Char} (h : c.isDigit = true) : stop4 c = false := by
  simp only [Char.isDigit, Bool.and_eq_true, decide_eq_true_eq] at h
  simp only [stop4, Bool.or_eq_false_iff, beq_eq_false_iff_ne]
  refine ⟨⟨⟨?_, ?_⟩, ?_⟩, ?_⟩ <;> (rintro rfl; revert h; decide)

theorem ident_free {c : Char} (h : isIdentChar c = true) : stop4 c = false := by
  simp only [stop4, Bool.or_eq_false_iff, beq_eq_false_iff_ne]
  refine ⟨⟨⟨?_, ?_⟩, ?_⟩, ?_⟩ <;> (rintro rfl; revert h; decide)

theorem identStart_identChar {c : Char} (h : isIdentStart c = true) : isIdentChar c = true := by
  simp only [isIdentStart, isIdentChar, Char.isAlphanum, Bool.or_eq_true] at *
  tauto

theorem leafTxt_free {l : Lab} (h : LeafOk l) : Free stop4 (leafTxt l) := by
  intro c hc
  cases l with
  | lit v =>
    cases v with
    | bool b => cases b <;> simp [leafTxt, litStr] at hc <;> rcases hc with rfl | rfl | rfl | rfl | rfl <;> decide
    | int i =>
      rcases intStr_chars hc with h | rfl
      · exact isDigit_free h
      · decide
    | float s =>
      rcases h.2.1 c hc with h | rfl | rfl | rfl | rfl
      · exact isDigit_free h
      all_goals decide
  | name s =>
    obtain ⟨⟨d, ds, h1, h2, h3⟩, _⟩ := h
    simp only [leafTxt, h1, List.mem_cons] at hc
    rcases hc with rfl | hc
    · exact ident_free (identStart_identChar h2)
    · exact ident_free (h3 c hc)
  | _ => simp [LeafOk] at h

theorem leafTxt_ne_nil {l : Lab} (h : LeafOk l) : leafTxt l ≠ [] := by
  cases l with
  | lit v =>
    cases v with
    | bool b => cases b <;> simp [leafTxt, litStr]
    | int i => exact intStr_ne_nil i
    | float s =>
      obtain ⟨⟨c, cs, h1, _⟩, _⟩ := h
      simp [leafTxt, litStr, h1]
  | name s =>
    obtain ⟨⟨d, ds, h1, _⟩, _⟩ := h
    simp [leafTxt, h1]
  | _ => simp [LeafOk] at h

theorem int_head (i : Int) : ∃ c cs, intStr i = c :: cs ∧ (c.isDigit = true ∨ c = '-') := by
  cases h : intStr i with
  | nil => exact (intStr_ne_nil i h).elim
  | cons c cs => exact ⟨c, cs, rfl, intStr_chars (i := i) (by rw [h]; simp)⟩

theorem identStart_not_num {c : Char} (h : isIdentStart c = true) : ¬ (c.isDigit = true ∨ c = '-') := by
  rintro (h' | rfl)
  · simp only [isIdentStart, Char.isAlpha, Char.isUpper, Char.isLower, Char.isDigit, Bool.or_eq_true,
      Bool.and_eq_true, decide_eq_true_eq, beq_iff_eq] at h h'
    rcases h with (h | h) | rfl
    · have := UInt32.le_trans h.1 h'.2; revert this; decide
    · have := UInt32.le_trans h.1 h'.2; revert this; decide
    · revert h'; decide
  · revert h; decide

theorem num_name {s : String} (hs : IsIdent s) {w : List Char}
    (hw : ∃ c cs, w = c :: cs ∧ (c.isDigit = true ∨ c = '-')) : w ≠ s.toList := by
  obtain ⟨⟨d, ds, h1, h2, _⟩, _⟩ := hs
  obtain ⟨c, cs, rfl, hc⟩ := hw
  rw [h1]
  intro h
  simp only [List.cons.injEq] at h
  exact identStart_not_num h2 (h.1 ▸ hc)

theorem int_ne_float {s : String} (hs : IsFloatText s) (i : Int) : intStr i ≠ s.toList := by
  intro h
  rcases hs.2.2 with h' | h' <;> rw [← h] at h' <;> rcases intStr_chars h' with h | h <;>
    revert h <;> decide

theorem bool_ne_num {b : Bool} {w : List Char}
    (hw : ∃ c cs, w = c :: cs ∧ (c.isDigit = true ∨ c = '-')) : litStr (.bool b) ≠ w := by
  obtain ⟨c, cs, rfl, hc⟩ := hw
  cases b <;> simp only [litStr] <;> intro h <;> simp only [List.cons.injEq] at h <;>
    rw [← h.1] at hc <;> revert hc <;> decide

theorem leafTxt_inj {l m : Lab} (hl : LeafOk l) (hm : LeafOk m) (h : leafTxt l = leafTxt m) :
    l = m := by
  cases l with
  | lit v =>
    cases m with
    | lit w =>
      cases v with
      | bool b =>
        cases w with
        | bool c => cases b <;> cases c <;> first | rfl | (simp [leafTxt, litStr] at h)
        | int i => exact (bool_ne_num (int_head i) h).elim
        | float s => exact (bool_ne_num hm.1 h).elim
      | int i =>
        cases w with
        | bool c => exact (bool_ne_num (int_head i) h.symm).elim
        | int j => rw [intStr_inj h]
        | float s => exact (int_ne_float hm i h).elim
      | float s =>
        cases w with
        | bool c => exact (bool_ne_num hl.1 h.symm).elim
        | int j => exact (int_ne_float hl j h.symm).elim
        | float s' => rw [String.toList_inj.1 h]
    | name s =>
      cases v with
      | bool b => cases b <;> simp only [leafTxt, litStr] at h
                  · exact (hm.2.2 h.symm).elim
                  · exact (hm.2.1 h.symm).elim
      | int i => exact (num_name hm (int_head i) h).elim
      | float s' => exact (num_name hm hl.1 h).elim
    | _ => simp [LeafOk] at hm
  | name s =>
    cases m with
    | lit v =>
      cases v with
      | bool b => cases b <;> simp only [leafTxt, litStr] at h
                  · exact (hl.2.2 h).elim
                  · exact (hl.2.1 h).elim
      | int i => exact (num_name hl (int_head i) h.symm).elim
      | float s' => exact (num_name hl hm.1 h.symm).elim
    | name s' => rw [String.toList_inj.1 h]
    | _ => simp [LeafOk] at hm
  | _ => simp [LeafOk] at hl

theorem tmpSym_free (o : TmpK) (lb ub : Nat) : Free stop3 (tmpSym o lb ub) := by
  intro c hc
  simp only [tmpSym, List.mem_cons, List.mem_append, List.not_mem_nil, or_false] at hc
  rcases hc with rfl | rfl | h | rfl | h | rfl
  · cases o <;> decide
  · decide
  · exact Free.stop3 (w := [c]) (by simpa [Free] using isDigit_free (natStr_digit h)) c (by simp)
  · decide
  · exact Free.stop3 (w := [c]) (by simpa [Free] using isDigit_free (natStr_digit h)) c (by simp)
  · decide

theorem symTxt_free (l : Lab) : Free stop3 (symTxt l) := by
  cases l with
  | op o => intro c hc; revert c; cases o <;> decide
  | tmp o lb ub => exact tmpSym_free o lb ub
  | _ => intro c hc; simp [symTxt] at hc

theorem symTxt_ne_nil {l : Lab} (h : IsSym l) : symTxt l ≠ [] := by
  cases l with
  | op o => cases o <;> simp [symTxt, OpK.sym]
  | tmp o lb ub => simp [symTxt, tmpSym]
  | _ => simp [IsSym] at h

theorem letter_inj {o o' : TmpK} (h : o.letter = o'.letter) : o = o' := by
  revert h; revert o o'; intro o o'; cases o <;> cases o' <;> decide

theorem tmpSym_inj {o o' : TmpK} {lb ub lb' ub' : Nat} (h : tmpSym o lb ub = tmpSym o' lb' ub') :
    o = o' ∧ lb = lb' ∧ ub = ub' := by
  simp only [tmpSym, List.cons.injEq, true_and] at h
  obtain ⟨h1, h2⟩ := h
  let p : Char → Bool := fun c => !c.isDigit
  have fr : ∀ n, Free p (natStr n) := fun n c hc => by simp [p, natStr_digit hc]
  obtain ⟨h3, h4⟩ := split_word (fr lb) (fr lb') (headIn_cons (by decide)) (headIn_cons (by decide)) h2
  simp only [List.cons.injEq, true_and] at h4
  obtain ⟨h5, _⟩ := split_word (fr ub) (fr ub') (headIn_cons (by decide)) (headIn_cons (by decide)) h4
  exact ⟨letter_inj h1, natStr_inj h3, natStr_inj h5⟩

theorem opSym_no_bracket (o : OpK) : '[' ∉ o.sym := by cases o <;> decide

theorem opSym_inj {o o' : OpK} (h : o.sym = o'.sym) : o = o' := by
  revert h; cases o <;> cases o' <;> decide

theorem symTxt_inj {l m : Lab} (hl : IsSym l) (hm : IsSym m) (h : symTxt l = symTxt m) : l = m := by
  cases l with
  | op o =>
    cases m with
    | op o' => rw [opSym_inj h]
    | tmp o' lb ub =>
      have : '[' ∈ o.sym := by
        have : symTxt (.op o) = o.sym := rfl
        rw [← this, h]; simp [symTxt, tmpSym]
      exact (opSym_no_bracket o this).elim
    | _ => simp [IsSym] at hm
  | tmp o lb ub =>
    cases m with
    | op o' =>
      have : '[' ∈ o'.sym := by
        have : symTxt (.op o') = o'.sym := rfl
        rw [← this, ← h]; simp [symTxt, tmpSym]
      exact (opSym_no_bracket o' this).elim
    | tmp o' lb' ub' =>
      obtain ⟨rfl, rfl, rfl⟩ := tmpSym_inj h
      rfl
    | _ => simp [IsSym] at hm
  | _ => simp [IsSym] at hl

/-! ### desugared trees -/

theorem desugared_view {b : Bool} {t : Ast} (h : Desugared b t) :
    (∃ l, t = .node l [] ∧ LeafOk l) ∨
    (∃ l cs, t = .node l cs ∧ IsSym l ∧ cs ≠ [] ∧ DesugaredL b cs) ∨
    (∃ c, t = .node .atomic [c] ∧ b = true ∧ Desugared b c) := by
  obtain ⟨l, cs⟩ := t
  cases l with
  | lit v =>
    cases v <;> simp only [Desugared] at h
    · subst h; exact .inl ⟨_, rfl, by simp [LeafOk]⟩
    · subst h; exact .inl ⟨_, rfl, by simp [LeafOk]⟩
    · obtain ⟨h1, rfl⟩ := h; exact .inl ⟨_, rfl, h1⟩
  | name s => obtain ⟨h1, rfl⟩ := h; exact .inl ⟨_, rfl, h1⟩
  | op o => exact .inr (.inl ⟨_, _, rfl, trivial, h.1, h.2⟩)
  | tmp o lb ub => exact .inr (.inl ⟨_, _, rfl, trivial, h.1, h.2⟩)
  | atomic =>
    match cs, h with
    | [c], h => exact .inr (.inr ⟨c, rfl, h.1, h.2⟩)
    | [], h => simp [Desugared] at h
    | _ :: _ :: _, h => simp [Desugared] at h
  | _ => simp [Desugared] at h

theorem prefix_leaf {l : Lab} (h : LeafOk l) : prefixStr (.node l []) = leafTxt l := by
  cases l with
  | lit v => simp [prefixStr, leafTxt]
  | name s => simp [prefixStr, leafTxt]
  | _ => simp [LeafOk] at h

theorem prefix_sym {l : Lab} (h : IsSym l) (cs : List Ast) :
    prefixStr (.node l cs) = '(' :: (symTxt l ++ (prefixArgs cs ++ [')'])) := by
  cases l with
  | op o => simp [prefixStr, symTxt]
  | tmp o lb ub => simp [prefixStr, symTxt]
  | _ => simp [IsSym] at h

def sepP (c : Char) : Bool := c == ' ' || c == ')'

theorem HeadIn.stop3 {r : List Char} (h : HeadIn sepP r) : HeadIn R2U2.stop3 r := by
  intro c cs hc
  have := h c cs hc
  simp_all [sepP, R2U2.stop3]; tauto

theorem word_paren {w r r' : List Char} (hw : Free stop3 w) (hne : w ≠ [])
    (h : w ++ r = '(' :: r') : False := by
  cases w with
  | nil => exact hne rfl
  | cons c w =>
    simp only [List.cons_append, List.cons.injEq] at h
    have := hw c (by simp)
    rw [h.1] at this
    revert this; decide

def atomicW : List Char := ['A', 't', 'o', 'm', 'i', 'c']

theorem atomicW_free : Free stop3 atomicW := by
  intro c hc; revert c; decide

theorem leaf_atomic {l : Lab} (hl : LeafOk l) {r r' : List Char} (hr : HeadIn sepP r)
    (h : leafTxt l ++ r = atomicW ++ '(' :: r') : False := by
  obtain ⟨_, h2⟩ := split_word (leafTxt_free hl).stop3 atomicW_free hr.stop3
    (headIn_cons (by decide)) h
  have := hr _ _ h2
  revert this; decide

theorem prefixArgs_head (cs : List Ast) (r : List Char) : HeadIn sepP (prefixArgs cs ++ ')' :: r) := by
  cases cs with
  | nil => simpa [prefixArgs] using headIn_cons (p := sepP) (by decide)
  | cons c cs => simpa [prefixArgs] using headIn_cons (p := sepP) (by decide)

mutual
theorem prefix_unique : ∀ (s : Ast), Desugared true s → ∀ (t : Ast), Desugared true t →
    ∀ (r r' : List Char), HeadIn sepP r → HeadIn sepP r' →
      prefixStr s ++ r = prefixStr t ++ r' → s = t ∧ r = r'
  | .node l cs, hs, t, ht, r, r', hr, hr', h => by
    rcases desugared_view hs with ⟨m, he, hl⟩ | ⟨m, ds, he, hl, hne, hds⟩ | ⟨c, he, _, hc⟩
    · rw [he, prefix_leaf hl] at h
      rcases desugared_view ht with ⟨m', rfl, hl'⟩ | ⟨m', ds', rfl, hl', _, _⟩ | ⟨c', rfl, _, hc'⟩
      · rw [prefix_leaf hl'] at h
        obtain ⟨h1, h2⟩ := split_word (leafTxt_free hl).stop3 (leafTxt_free hl').stop3 hr.stop3 hr'.stop3 h
        exact ⟨by rw [he, leafTxt_inj hl hl' h1], h2⟩
      · rw [prefix_sym hl'] at h
        exact (word_paren (leafTxt_free hl).stop3 (leafTxt_ne_nil hl) h).elim
      · exact (leaf_atomic (r' := prefixStr c' ++ ')' :: r') hl hr
          (by simpa [prefixStr, atomicW] using h)).elim
    · rw [he, prefix_sym hl] at h
      rcases desugared_view ht with ⟨m', rfl, hl'⟩ | ⟨m', ds', rfl, hl', _, hds'⟩ | ⟨c', rfl, _, hc'⟩
      · rw [prefix_leaf hl'] at h
        exact (word_paren (leafTxt_free hl').stop3 (leafTxt_ne_nil hl') h.symm).elim
      · rw [prefix_sym hl'] at h
        simp only [List.cons_append, List.append_assoc, List.cons.injEq, true_and, List.nil_append] at h
        obtain ⟨h1, h2⟩ := split_word (symTxt_free m) (symTxt_free m') (prefixArgs_head _ _).stop3
          (prefixArgs_head _ _).stop3 h
        have hcs : cs = ds := by simp at he; exact he.2
        obtain ⟨h3, h4⟩ := prefixArgs_unique cs (hcs ▸ hds) ds' hds' r r' (hcs ▸ h2)
        exact ⟨by rw [he, symTxt_inj hl hl' h1, ← h3, hcs], h4⟩
      · simp [prefixStr] at h
    · have hcs : cs = [c] := by simp at he; exact he.2
      have hl : l = .atomic := by simp at he; exact he.1
      subst hl
      match cs, hcs with
      | [d], hcs =>
      have hd : d = c := by simpa using hcs
      rcases desugared_view ht with ⟨m', rfl, hl'⟩ | ⟨m', ds', rfl, hl', _, hds'⟩ | ⟨c', rfl, _, hc'⟩
      · rw [prefix_leaf hl'] at h
        exact (leaf_atomic (r' := prefixStr d ++ ')' :: r) hl' hr'
          (by simpa [prefixStr, atomicW] using h.symm)).elim
      · rw [prefix_sym hl'] at h
        simp [prefixStr] at h
      · have h' : prefixStr d ++ ')' :: r = prefixStr c' ++ ')' :: r' := by
          simpa [prefixStr] using h
        obtain ⟨h1, h2⟩ := prefix_unique d (hd ▸ hc) c' hc' _ _ (headIn_cons (by decide))
          (headIn_cons (by decide)) h'
        simp only [List.cons.injEq, true_and] at h2
        exact ⟨by rw [h1], h2⟩
theorem prefixArgs_unique : ∀ (cs : List Ast), DesugaredL true cs → ∀ (ds : List Ast),
    DesugaredL true ds → ∀ (r r' : List Char),
      prefixArgs cs ++ ')' :: r = prefixArgs ds ++ ')' :: r' → cs = ds ∧ r = r'
  | [], _, [], _, r, r', h => by simpa [prefixArgs] using h
  | [], _, _ :: _, _, r, r', h => by simp [prefixArgs] at h
  | _ :: _, _, [], _, r, r', h => by simp [prefixArgs] at h
  | c :: cs, hcs, d :: ds, hds, r, r', h => by
    simp only [prefixArgs, List.cons_append, List.append_assoc, List.cons.injEq, true_and] at h
    obtain ⟨h1, h2⟩ := prefix_unique c hcs.1 d hds.1 _ _ (prefixArgs_head _ _) (prefixArgs_head _ _) h
    obtain ⟨h3, h4⟩ := prefixArgs_unique cs hcs.2 ds hds.2 r r' h2
    exact ⟨by rw [h1, h3], h4⟩
end


/-! ### infix text -/

theorem desugaredL_iff {b : Bool} {cs : List Ast} : DesugaredL b cs ↔ ∀ c ∈ cs, Desugared b c := by
  induction cs with
  | nil => simp [DesugaredL]
  | cons c cs ih => simp [DesugaredL, ih]

/-- operands after the first one, each preceded by `sep` -/
def infixTail (sep : List Char) : List Ast → List Char
  | [] => []
  | c :: cs => sep ++ (infixStr c ++ infixTail sep cs)

theorem infixJoin_cons (sep : List Char) (c : Ast) (cs : List Ast) :
    infixJoin sep (c :: cs) = infixStr c ++ infixTail sep cs := by
  induction cs generalizing c with
  | nil => simp [infixJoin, infixTail]
  | cons d cs ih => rw [infixJoin, ih]; simp [infixTail]

/-- The five forms of the infix text. -/
inductive IView (t : Ast) : Prop
  | leaf (l : Lab) (he : t = .node l []) (hl : LeafOk l) (ht : infixStr t = leafTxt l)
  | unary (l : Lab) (c : Ast) (he : t = .node l [c]) (hl : IsSym l) (hl' : l ≠ .op .count)
      (ht : infixStr t = '(' :: (symTxt l ++ ' ' :: (infixStr c ++ [')'])))
  | count (c : Ast) (cs : List Ast) (he : t = .node (.op .count) (c :: cs))
      (ht : infixStr t = OpK.count.sym ++ '(' :: (infixStr c ++ (infixTail [',', ' '] cs ++ [')'])))
  | prev (a b : Ast) (he : t = .node (.op .prev) [a, b])
      (ht : infixStr t = OpK.prev.sym ++ '(' :: (infixStr a ++ ',' :: (infixStr b ++ [')'])))
  | nary (l : Lab) (c d : Ast) (cs : List Ast) (he : t = .node l (c :: d :: cs)) (hl : IsSym l)
      (ht : infixStr t = '(' :: (infixStr c ++
        (infixTail (' ' :: (symTxt l ++ [' '])) (d :: cs) ++ [')'])))

theorem iview {t : Ast} (h : Desugared false t) : IView t := by
  rcases desugared_view h with ⟨l, rfl, hl⟩ | ⟨l, cs, rfl, hl, hne, _⟩ | ⟨c, _, h, _⟩
  · refine .leaf l rfl hl ?_
    cases l <;> first | (simp [LeafOk] at hl; done) | simp [infixStr, leafTxt]
  · match cs, hne with
    | [c], _ =>
      cases l with
      | op o =>
        by_cases ho : o = .count
        · subst ho
          exact .count c [] rfl (by rw [infixStr, infixJoin_cons] <;> simp)
        · refine .unary _ c rfl hl (by simpa using ho) ?_
          cases o <;> first | (exact absurd rfl ho) | simp [infixStr, symTxt]
      | tmp o lb ub => exact .unary _ c rfl hl (by simp) (by simp [infixStr, symTxt])
      | _ => simp [IsSym] at hl
    | c :: d :: cs, _ =>
      cases l with
      | op o =>
        by_cases ho : o = .count
        · subst ho
          exact .count c (d :: cs) rfl (by rw [infixStr, infixJoin_cons] <;> simp)
        · by_cases hp : o = .prev
          · subst hp
            cases cs with
            | nil => exact .prev c d rfl (by simp [infixStr])
            | cons e cs =>
              exact .nary _ c d _ rfl hl (by rw [infixStr, infixJoin_cons] <;> simp [symTxt])
          · refine .nary _ c d cs rfl hl ?_
            rw [infixStr, infixJoin_cons]
            all_goals simp [symTxt, ho, hp]
      | tmp o lb ub =>
        exact .nary _ c d cs rfl hl (by rw [infixStr, infixJoin_cons] <;> simp [symTxt])
      | _ => simp [IsSym] at hl
  · simp at h

def sepI (c : Char) : Bool := c == ' ' || c == ')' || c == ','

theorem HeadIn.stop4 {r : List Char} (h : HeadIn sepI r) : HeadIn R2U2.stop4 r := by
  intro c cs hc
  have := h c cs hc
  simp_all [sepI, R2U2.stop4]; tauto

theorem opSym_free (o : OpK) : Free stop4 o.sym := by
  intro c hc; revert c; cases o <;> decide

/-- an operand text cannot start with a symbol followed by a blank, unless it is a leaf followed
by a blank -/
theorem not_sym {t : Ast} (h : Desugared false t) {w r r' : List Char} (hw : Free R2U2.stop3 w)
    (hne : w ≠ []) (he : infixStr t ++ ')' :: r = w ++ ' ' :: r') : False := by
  cases iview h with
  | leaf l _ hl ht =>
    rw [ht] at he
    obtain ⟨_, h2⟩ := split_word (leafTxt_free hl).stop3 hw (headIn_cons (by decide))
      (headIn_cons (by decide)) he
    simp at h2
  | unary l c _ _ _ ht => rw [ht] at he; exact word_paren hw hne he.symm
  | nary l c d cs _ _ ht => rw [ht] at he; exact word_paren hw hne he.symm
  | count c cs _ ht =>
    rw [ht, List.append_assoc] at he
    obtain ⟨_, h2⟩ := split_word (opSym_free _).stop3 hw
      (r := '(' :: (infixStr c ++ (infixTail [',', ' '] cs ++ [')'])) ++ ')' :: r)
      (headIn_cons (by decide)) (headIn_cons (by decide)) he
    simp at h2
  | prev a b _ ht =>
    rw [ht, List.append_assoc] at he
    obtain ⟨_, h2⟩ := split_word (opSym_free _).stop3 hw
      (r := '(' :: (infixStr a ++ ',' :: (infixStr b ++ [')'])) ++ ')' :: r)
      (headIn_cons (by decide)) (headIn_cons (by decide)) he
    simp at h2

theorem sym_operand {t : Ast} (h : Desugared false t) {w r r' : List Char} (hw : Free R2U2.stop3 w)
    (hne : w ≠ []) (he : infixStr t ++ ' ' :: r = w ++ ' ' :: r') : r = r' := by
  cases iview h with
  | leaf l _ hl ht =>
    rw [ht] at he
    obtain ⟨_, h2⟩ := split_word (leafTxt_free hl).stop3 hw (headIn_cons (by decide))
      (headIn_cons (by decide)) he
    simpa using h2
  | unary l c _ _ _ ht => rw [ht] at he; exact (word_paren hw hne he.symm).elim
  | nary l c d cs _ _ ht => rw [ht] at he; exact (word_paren hw hne he.symm).elim
  | count c cs _ ht =>
    rw [ht, List.append_assoc] at he
    obtain ⟨_, h2⟩ := split_word (opSym_free _).stop3 hw
      (r := '(' :: (infixStr c ++ (infixTail [',', ' '] cs ++ [')'])) ++ ' ' :: r)
      (headIn_cons (by decide)) (headIn_cons (by decide)) he
    simp at h2
  | prev a b _ ht =>
    rw [ht, List.append_assoc] at he
    obtain ⟨_, h2⟩ := split_word (opSym_free _).stop3 hw
      (r := '(' :: (infixStr a ++ ',' :: (infixStr b ++ [')'])) ++ ' ' :: r)
      (headIn_cons (by decide)) (headIn_cons (by decide)) he
    simp at h2

theorem leaf_call {l : Lab} (hl : LeafOk l) {o : OpK} {r r' : List Char} (hr : HeadIn sepI r)
    (h : leafTxt l ++ r = o.sym ++ '(' :: r') : False := by
  obtain ⟨_, h2⟩ := split_word (leafTxt_free hl) (opSym_free o) hr.stop4 (headIn_cons (by decide)) h
  have := hr _ _ h2
  revert this; decide

def IUniq (s : Ast) : Prop := Desugared false s → ∀ (t : Ast), Desugared false t →
    ∀ (r r' : List Char), HeadIn sepI r → HeadIn sepI r' →
      infixStr s ++ r = infixStr t ++ r' → s = t ∧ r = r'

theorem infixTail_head {x : Char} {sep : List Char} (hx : sepI x = true) (cs : List Ast) (r : List Char) :
    HeadIn sepI (infixTail (x :: sep) cs ++ ')' :: r) := by
  cases cs with
  | nil => simpa [infixTail] using headIn_cons (p := sepI) (by decide)
  | cons c cs => simpa [infixTail] using headIn_cons (p := sepI) hx

theorem infixTail_unique {x : Char} {sep : List Char} (hx : sepI x = true) (hx' : x ≠ ')') :
    ∀ (cs : List Ast), (∀ c ∈ cs, IUniq c) → (∀ c ∈ cs, Desugared false c) →
    ∀ (ds : List Ast), (∀ c ∈ ds, Desugared false c) → ∀ (r r' : List Char),
      infixTail (x :: sep) cs ++ ')' :: r = infixTail (x :: sep) ds ++ ')' :: r' → cs = ds ∧ r = r'
  | [], _, _, [], _, r, r', h => by simpa [infixTail] using h
  | [], _, _, _ :: _, _, r, r', h => by simp [infixTail] at h; exact (hx' h.1.symm).elim
  | _ :: _, _, _, [], _, r, r', h => by simp [infixTail] at h; exact (hx' h.1).elim
  | c :: cs, hu, hcs, d :: ds, hds, r, r', h => by
    simp only [infixTail, List.append_assoc] at h
    have h := List.append_cancel_left h
    obtain ⟨h1, h2⟩ := hu c (by simp) (hcs c (by simp)) d (hds d (by simp)) _ _
      (infixTail_head hx _ _) (infixTail_head hx _ _) h
    obtain ⟨h3, h4⟩ := infixTail_unique hx hx' cs (fun c hc => hu c (by simp [hc]))
      (fun c hc => hcs c (by simp [hc])) ds (fun c hc => hds c (by simp [hc])) r r' h2
    exact ⟨by rw [h1, h3], h4⟩

theorem desugared_kids {b : Bool} {l : Lab} {cs : List Ast} (h : Desugared b (.node l cs)) :
    ∀ c ∈ cs, Desugared b c := by
  rcases desugared_view h with ⟨m, he, hl⟩ | ⟨m, ds, he, hl, hne, hds⟩ | ⟨c, he, _, hc⟩
  · simp at he; simp [he.2]
  · simp at he; rw [he.2]; exact desugaredL_iff.1 hds
  · simp at he; simp [he.2, hc]

/-- second half of an n-ary text -/
theorem nary_tail {l l' : Lab} {d : Ast} {cs ds : List Ast} {r r' : List Char} {d' : Ast}
    (hl : IsSym l) (hl' : IsSym l')
    (h : infixTail (' ' :: (symTxt l ++ [' '])) (d :: cs) ++ ')' :: r =
      infixTail (' ' :: (symTxt l' ++ [' '])) (d' :: ds) ++ ')' :: r') : l = l' := by
  simp only [infixTail, List.cons_append, List.append_assoc, List.cons.injEq, true_and,
    List.nil_append] at h
  obtain ⟨h1, _⟩ := split_word (symTxt_free l) (symTxt_free l') (headIn_cons (by decide))
    (headIn_cons (by decide)) h
  exact symTxt_inj hl hl' h1

theorem infix_unique : ∀ s, IUniq s := by
  apply Tree.childInduction
  intro l₀ cs₀ ih hs t ht r r' hr hr' h
  have hk := desugared_kids hs
  cases iview hs with
  | leaf l he hl e =>
    rw [e] at h
    cases iview ht with
    | leaf l' he' hl' e' =>
      rw [e'] at h
      obtain ⟨h1, h2⟩ := split_word (leafTxt_free hl) (leafTxt_free hl') hr.stop4 hr'.stop4 h
      exact ⟨by rw [he, he', leafTxt_inj hl hl' h1], h2⟩
    | unary l' c _ _ _ e' =>
      rw [e'] at h; exact (word_paren (leafTxt_free hl).stop3 (leafTxt_ne_nil hl) h).elim
    | nary l' c d cs _ _ e' =>
      rw [e'] at h; exact (word_paren (leafTxt_free hl).stop3 (leafTxt_ne_nil hl) h).elim
    | count c cs _ e' =>
      rw [e', List.append_assoc, List.cons_append] at h; exact (leaf_call hl hr h).elim
    | prev a b _ e' =>
      rw [e', List.append_assoc, List.cons_append] at h; exact (leaf_call hl hr h).elim
  | unary l c he hl hlc e =>
    rw [e] at h
    simp only [Tree.node.injEq] at he
    obtain ⟨rfl, rfl⟩ := he
    cases iview ht with
    | leaf l' he' hl' e' =>
      rw [e'] at h; exact (word_paren (leafTxt_free hl').stop3 (leafTxt_ne_nil hl') h.symm).elim
    | unary l' c' he' hl' _ e' =>
      rw [e'] at h
      simp only [List.cons_append, List.append_assoc, List.cons.injEq, true_and, List.nil_append] at h
      obtain ⟨h1, h2⟩ := split_word (symTxt_free _) (symTxt_free l') (headIn_cons (by decide))
        (headIn_cons (by decide)) h
      simp only [List.cons.injEq, true_and] at h2
      obtain ⟨h3, h4⟩ := ih c (by simp) (hk c (by simp)) c' (desugared_kids (he' ▸ ht) c' (by simp)) _ _
        (headIn_cons (by decide)) (headIn_cons (by decide)) h2
      simp only [List.cons.injEq, true_and] at h4
      exact ⟨by rw [he', symTxt_inj hl hl' h1, h3], h4⟩
    | nary l' c' d' cs' he' hl' e' =>
      rw [e'] at h
      simp only [List.cons_append, List.append_assoc, List.cons.injEq, true_and, List.nil_append,
        infixTail] at h
      have hc' := desugared_kids (he' ▸ ht) c' (by simp)
      have h2 := sym_operand hc' (symTxt_free _) (symTxt_ne_nil hl) h.symm
      exact (not_sym (hk c (by simp)) (symTxt_free _) (symTxt_ne_nil hl') h2.symm).elim
    | count c cs _ e' => rw [e'] at h; simp [OpK.sym] at h
    | prev a b _ e' => rw [e'] at h; simp [OpK.sym] at h
  | count c cs he e =>
    rw [e] at h
    simp only [Tree.node.injEq] at he
    obtain ⟨rfl, rfl⟩ := he
    cases iview ht with
    | leaf l' he' hl' e' =>
      rw [e', List.append_assoc, List.cons_append] at h; exact (leaf_call hl' hr' h.symm).elim
    | unary l' c' he' hl' _ e' => rw [e'] at h; simp [OpK.sym] at h
    | nary l' c' d' cs' he' hl' e' => rw [e'] at h; simp [OpK.sym] at h
    | prev a b _ e' => rw [e'] at h; simp [OpK.sym] at h
    | count c' cs' he' e' =>
      rw [e'] at h
      simp only [List.append_assoc] at h
      have h := List.append_cancel_left h
      simp only [List.cons_append, List.append_assoc, List.cons.injEq, true_and, List.nil_append] at h
      have hk' := desugared_kids (he' ▸ ht)
      obtain ⟨h1, h2⟩ := ih c (by simp) (hk c (by simp)) c' (hk' c' (by simp)) _ _
        (infixTail_head (by decide) _ _) (infixTail_head (by decide) _ _) h
      obtain ⟨h3, h4⟩ := infixTail_unique (by decide) (by decide) cs (fun c hc => ih c (by simp [hc]))
        (fun c hc => hk c (by simp [hc])) cs' (fun c hc => hk' c (by simp [hc])) _ _ h2
      exact ⟨by rw [he', h1, h3], h4⟩
  | prev a b he e =>
    rw [e] at h
    simp only [Tree.node.injEq] at he
    obtain ⟨rfl, rfl⟩ := he
    cases iview ht with
    | leaf l' he' hl' e' =>
      rw [e', List.append_assoc, List.cons_append] at h; exact (leaf_call hl' hr' h.symm).elim
    | unary l' c' he' hl' _ e' => rw [e'] at h; simp [OpK.sym] at h
    | nary l' c' d' cs' he' hl' e' => rw [e'] at h; simp [OpK.sym] at h
    | count c cs _ e' => rw [e'] at h; simp [OpK.sym] at h
    | prev a' b' he' e' =>
      rw [e'] at h
      simp only [List.append_assoc] at h
      have h := List.append_cancel_left h
      simp only [List.cons_append, List.append_assoc, List.cons.injEq, true_and, List.nil_append] at h
      have hk' := desugared_kids (he' ▸ ht)
      obtain ⟨h1, h2⟩ := ih a (by simp) (hk a (by simp)) a' (hk' a' (by simp)) _ _
        (headIn_cons (by decide)) (headIn_cons (by decide)) h
      simp only [List.cons.injEq, true_and] at h2
      obtain ⟨h3, h4⟩ := ih b (by simp) (hk b (by simp)) b' (hk' b' (by simp)) _ _
        (headIn_cons (by decide)) (headIn_cons (by decide)) h2
      simp only [List.cons.injEq, true_and] at h4
      exact ⟨by rw [he', h1, h3], h4⟩
  | nary l c d cs he hl e =>
    rw [e] at h
    simp only [Tree.node.injEq] at he
    obtain ⟨rfl, rfl⟩ := he
    cases iview ht with
    | leaf l' he' hl' e' =>
      rw [e'] at h; exact (word_paren (leafTxt_free hl').stop3 (leafTxt_ne_nil hl') h.symm).elim
    | unary l' c' he' hl' _ e' =>
      rw [e'] at h
      simp only [List.cons_append, List.append_assoc, List.cons.injEq, true_and, List.nil_append,
        infixTail] at h
      have hc' := desugared_kids (he' ▸ ht) c' (by simp)
      have h2 := sym_operand (hk c (by simp)) (symTxt_free _) (symTxt_ne_nil hl') h
      exact (not_sym hc' (symTxt_free _) (symTxt_ne_nil hl) h2.symm).elim
    | count c cs _ e' => rw [e'] at h; simp [OpK.sym] at h
    | prev a b _ e' => rw [e'] at h; simp [OpK.sym] at h
    | nary l' c' d' cs' he' hl' e' =>
      rw [e'] at h
      simp only [List.cons_append, List.append_assoc, List.cons.injEq, true_and, List.nil_append] at h
      have hk' := desugared_kids (he' ▸ ht)
      obtain ⟨h1, h2⟩ := ih c (by simp) (hk c (by simp)) c' (hk' c' (by simp)) _ _
        (infixTail_head (by decide) _ _) (infixTail_head (by decide) _ _) h
      have h0 := nary_tail hl hl' h2
      subst h0
      obtain ⟨h3, h4⟩ := infixTail_unique (by decide) (by decide) (d :: cs)
        (fun c hc => ih c (by simp only [List.mem_cons] at hc ⊢; exact .inr hc))
        (fun c hc => hk c (by simp only [List.mem_cons] at hc ⊢; exact .inr hc)) (d' :: cs')
        (fun c hc => hk' c (by simp only [List.mem_cons] at hc ⊢; exact .inr hc)) _ _ h2
      exact ⟨by rw [he', h1, h3], h4⟩

end R2U2
