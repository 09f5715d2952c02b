import Verif.Spec.Names
import Verif.Lemmas.EventCsv
/-
Lemmas for C73: what the loader of names makes of packed aliases.
-/
namespace R2U2
namespace Aux

/-- Strings one after the other, each with a zero. -/
def flat (ls : List (List Char)) : List Char := ls.flatMap (· ++ ['\x00'])

theorem flat_append (a b : List (List Char)) : flat (a ++ b) = flat a ++ flat b := by simp [flat]

/-- Where string number `i` begins. -/
def off (ls : List (List Char)) (i : Nat) : Nat := (flat (ls.take i)).length

theorem off_append {ls : List (List Char)} {i : Nat} (h : i ≤ ls.length) (ms : List (List Char)) : off (ls ++ ms) i = off ls i := by
  simp [off, List.take_append_of_le_length h]

theorem off_length (ls : List (List Char)) : off ls ls.length = (flat ls).length := by simp [off]

theorem off_succ {ls : List (List Char)} {i : Nat} {w : List Char} (h : ls[i]? = some w) : off ls (i + 1) = off ls i + w.length + 1 := by
  obtain ⟨h1, h2⟩ := List.getElem?_eq_some_iff.1 h
  simp only [off]
  rw [List.take_succ_eq_append_getElem h1, h2, flat_append]
  simp [flat]
  omega

/-- The memory begins with the strings. -/
def Info.Has (A : Info) (ls : List (List Char)) : Prop :=
  (flat ls).length ≤ A.lim.bytes ∧ ∀ k, k < (flat ls).length → A.mem k = (flat ls).getD k '\x00'

theorem str_at {A : Info} {ls : List (List Char)} {i : Nat} {w : List Char} (h : A.Has ls) (hi : ls[i]? = some w) (hw : '\x00' ∉ w) :
    A.str (off ls i) = some w := by
  obtain ⟨h1, h2⟩ := List.getElem?_eq_some_iff.1 hi
  have hs : ls = ls.take i ++ w :: ls.drop (i + 1) := by
    rw [← h2, List.getElem_cons_drop, List.take_append_drop]
  have hf : flat ls = flat (ls.take i) ++ ((w ++ ['\x00']) ++ flat (ls.drop (i + 1))) := by
    conv => lhs; rw [hs]
    simp [flat]
  have hl : (flat ls).length = off ls i + (w.length + 1 + (flat (ls.drop (i + 1))).length) := by
    rw [hf]; simp [off]; omega
  have key : ∀ k, k < w.length + 1 → A.mem (off ls i + k) = (w ++ ['\x00']).getD k '\x00' := by
    intro k hk
    rw [h.2 _ (by omega), hf]
    simp only [List.getD_eq_getElem?_getD]
    rw [List.getElem?_append_right (by simp [off]), List.getElem?_append_left (by simp [off]; omega)]
    simp [off]
  obtain ⟨r, hr⟩ : ∃ r, (List.range (A.lim.bytes - off ls i)).map (fun k => A.mem (off ls i + k)) = w ++ '\x00' :: r := by
    have hb := h.1
    refine ⟨((List.range (A.lim.bytes - off ls i)).map (fun k => A.mem (off ls i + k))).drop (w.length + 1), ?_⟩
    have : ((List.range (A.lim.bytes - off ls i)).map (fun k => A.mem (off ls i + k))).take (w.length + 1) = w ++ ['\x00'] := by
      apply List.ext_getElem
      · simp; omega
      · intro k hk1 hk2
        simp only [List.length_append, List.length_cons, List.length_nil] at hk2
        rw [List.getElem_take, List.getElem_map, List.getElem_range, key k (by omega)]
        simp [List.getD_eq_getElem?_getD, List.getElem?_eq_getElem (show k < (w ++ ['\x00']).length by simp; omega)]
    conv => lhs; rw [← List.take_append_drop (w.length + 1) (List.map _ _)]
    rw [this]
    simp
  simp only [Info.str]
  rw [hr, if_pos (by simp), List.takeWhile_append_of_pos (by intro c hc; simpa using fun e : c = '\x00' => hw (e ▸ hc))]
  simp

theorem put_has {A : Info} {ls : List (List Char)} {w : List Char} (h : A.Has ls) (hb : (flat ls).length + w.length < A.lim.bytes) :
    ∃ A', A.put (flat ls).length w = some A' ∧ A'.Has (ls ++ [w]) ∧ A'.lim = A.lim ∧ A'.fstr = A.fstr ∧ A'.fnum = A.fnum ∧ A'.cstr = A.cstr ∧
      A'.cnum = A.cnum ∧ A'.formulas = A.formulas ∧ A'.contracts = A.contracts := by
  refine ⟨_, if_pos hb, ⟨?_, ?_⟩, rfl, rfl, rfl, rfl, rfl, rfl, rfl⟩
  · rw [flat_append]; simp [flat] at hb ⊢; omega
  · intro k hk
    have hf : flat (ls ++ [w]) = flat ls ++ (w ++ ['\x00']) := by rw [flat_append]; simp [flat]
    rw [hf] at hk ⊢
    simp only [List.getD_eq_getElem?_getD]
    by_cases h1 : k < (flat ls).length
    · rw [if_pos h1, h.2 k h1, List.getElem?_append_left h1, List.getD_eq_getElem?_getD]
    · simp only [List.length_append, List.length_cons, List.length_nil] at hk
      rw [if_neg h1, if_pos (by omega)]
      conv => rhs; rw [List.getElem?_append_right (Nat.le_of_not_lt h1)]

/-! ### Reading one alias -/

theorem isSpace_digit {c : Char} (h : Cli.isDigit c = true) : isSpace c = false := by
  simp only [Cli.isDigit, Bool.and_eq_true, decide_eq_true_eq, Char.le_def] at h
  have h1 : 48 ≤ c.toNat := h.1
  have : c ≠ ' ' := by rintro rfl; simp at h1
  simp [isSpace, this]
  omega

theorem scanNum_natStr {n : Nat} (h : n < 2 ^ 32) {rest : List Char} (hr : ∀ c, rest.head? = some c → Cli.isDigit c = false) :
    scanNum (' ' :: (natStr n ++ rest)) = some (n, rest) := by
  have hd : ∀ c ∈ natStr n, Cli.isDigit c = true := fun c hc => Cli.natStr_isDigit hc
  have hdw : (' ' :: (natStr n ++ rest)).dropWhile isSpace = natStr n ++ rest := by
    rw [List.dropWhile_cons_of_pos (by decide)]
    cases hs : natStr n with
    | nil => exact absurd hs (natStr_ne_nil n)
    | cons c cs =>
      rw [hs] at hd
      simp [isSpace_digit (hd c (by simp))]
  have htw : (natStr n ++ rest).takeWhile Cli.isDigit = natStr n := by
    rw [List.takeWhile_append_of_pos hd]
    cases rest with
    | nil => simp
    | cons c cs => simp [hr c rfl]
  have hv : (natStr n).foldl (fun n d => n * 10 + (d.toNat - 48)) 0 = n := Map.value_natStr n
  simp only [scanNum]
  rw [hdw, htw, hv, if_neg (by
    rintro (h1 | h1)
    · exact natStr_ne_nil n h1
    · omega)]
  simp

/-- Characters of labels. -/
def Word (w : List Char) : Prop := w ≠ [] ∧ ∀ c ∈ w, isSpace c = false ∧ c ≠ '\x00'

theorem word_of_ident {s : String} (h : IsIdent s) : Word s.toList := by
  obtain ⟨⟨c, cs, h1, h2, h3⟩, _, _⟩ := h
  have hc : ∀ c, isIdentChar c = true → isSpace c = false ∧ c ≠ '\x00' := by
    intro c hc
    have h0 : c ≠ '\x00' := by rintro rfl; revert hc; decide
    refine ⟨?_, h0⟩
    simp only [isIdentChar, Char.isAlphanum, Char.isAlpha, Char.isUpper, Char.isLower, Char.isDigit, Bool.or_eq_true, Bool.and_eq_true,
      decide_eq_true_eq, beq_iff_eq] at hc
    have : 48 ≤ c.toNat := by
      have e : c.val.toNat = c.toNat := rfl
      rcases hc with ((⟨h, _⟩ | ⟨h, _⟩) | ⟨h, _⟩) | rfl
      · have := UInt32.le_iff_toNat_le.1 h; simp at this; omega
      · have := UInt32.le_iff_toNat_le.1 h; simp at this; omega
      · have := UInt32.le_iff_toNat_le.1 h; simp at this; omega
      · decide
    have hne : c ≠ ' ' := by rintro rfl; simp at this
    simp [isSpace, hne]
    omega
  have hs : isIdentStart c = true → isIdentChar c = true := by
    simp only [isIdentStart, isIdentChar, Char.isAlphanum, Bool.or_eq_true]
    rintro (h | h)
    · exact .inl (.inl h)
    · exact .inr h
  rw [h1]
  refine ⟨by simp, ?_⟩
  intro d hd
  rcases List.mem_cons.1 hd with rfl | hd
  · exact hc _ (hs h2)
  · exact hc _ (h3 _ hd)

theorem Word.zero {w : List Char} (h : Word w) : '\x00' ∉ w := fun hc => (h.2 _ hc).2 rfl

theorem scanWord_word {w : List Char} (h : Word w) (rest : List Char) : scanWord (' ' :: (w ++ ' ' :: rest)) = some (w, ' ' :: rest) := by
  have hdw : (' ' :: (w ++ ' ' :: rest)).dropWhile isSpace = w ++ ' ' :: rest := by
    rw [List.dropWhile_cons_of_pos (by decide)]
    cases w with
    | nil => exact absurd rfl h.1
    | cons c cs => simp [(h.2 c (by simp)).1]
  have htw : (w ++ ' ' :: rest).takeWhile (fun c => ! isSpace c && c != '\x00') = w := by
    rw [List.takeWhile_append_of_pos (by intro c hc; simp [(h.2 c hc).1, (h.2 c hc).2])]
    simp [isSpace]
  simp only [scanWord]
  rw [hdw, htw, if_neg h.1]
  simp

theorem nul_head {rest : List Char} {c : Char} (h : ('\x00' :: rest).head? = some c) : Cli.isDigit c = false := by
  simp only [List.head?_cons, Option.some.injEq] at h; subst h; decide

theorem space_head {rest : List Char} {c : Char} (h : (' ' :: rest).head? = some c) : Cli.isDigit c = false := by
  simp only [List.head?_cons, Option.some.injEq] at h; subst h; decide

theorem scan_formula {l : String} {n : Nat} (hl : Word l.toList) (hn : n < 2 ^ 32) (rest : List Char) :
    scanAlias 1 ((Alias.formula l n).text ++ '\x00' :: rest) = some (l.toList, [n], (Alias.formula l n).text.length) := by
  simp only [scanAlias, Alias.text, List.cons_append, List.drop_succ_cons, List.drop_zero, List.append_assoc]
  rw [scanWord_word hl]
  simp only [Option.bind_some, scanNums]
  rw [scanNum_natStr hn (fun _ => nul_head)]
  simp
  omega

theorem scan_contract {l : String} {a b c : Nat} (hl : Word l.toList) (ha : a < 2 ^ 32) (hb : b < 2 ^ 32) (hc : c < 2 ^ 32) (rest : List Char) :
    scanAlias 3 ((Alias.contract l a b c).text ++ '\x00' :: rest) = some (l.toList, [a, b, c], (Alias.contract l a b c).text.length) := by
  simp only [scanAlias, Alias.text, List.cons_append, List.drop_succ_cons, List.drop_zero, List.append_assoc]
  rw [scanWord_word hl]
  simp only [Option.bind_some, scanNums]
  rw [scanNum_natStr ha (fun _ => space_head)]
  simp only [Option.bind_some]
  rw [scanNum_natStr hb (fun _ => space_head)]
  simp only [Option.bind_some]
  rw [scanNum_natStr hc (fun _ => nul_head)]
  simp
  omega

/-! ### The loop -/

theorem has_prefix {A : Info} {ls ms : List (List Char)} (h : A.Has (ls ++ ms)) : A.Has ls := by
  obtain ⟨h1, h2⟩ := h
  rw [flat_append] at h1 h2
  simp only [List.length_append] at h1 h2
  refine ⟨by omega, fun k hk => ?_⟩
  rw [h2 k (by omega)]
  simp [List.getD_eq_getElem?_getD, List.getElem?_append_left hk]

/-- The names stored. -/
def names (fs : List (String × Nat)) (cs : List (String × Nat × Nat × Nat)) : List (List Char) :=
  fs.map (·.1.toList) ++ cs.map (·.1.toList)

/-- The arena holds the names of the formulas `fs` and of the contracts `cs`. -/
structure Loaded (A : Info) (fs : List (String × Nat)) (cs : List (String × Nat × Nat × Nat)) : Prop where
  has : A.Has (names fs cs)
  formulas : A.formulas = fs.length
  contracts : A.contracts = cs.length
  fits : fs.length ≤ A.lim.formulas
  fstr : ∀ i, i < fs.length → A.fstr i = some (off (names fs cs) i)
  cstr : ∀ j, j < cs.length → A.cstr j = some (off (names fs cs) (fs.length + j))
  cnum : ∀ j c, cs[j]? = some c → A.cnum j = c.2

/-- The loop has read the formulas `fs` and the contracts `cs`. -/
structure Reading (A : Info) (fs : List (String × Nat)) (cs : List (String × Nat × Nat × Nat)) : Prop extends Loaded A fs cs where
  fnext : cs = [] → fs.length < A.lim.formulas → A.fstr fs.length = some (flat (names fs cs)).length
  cnext : cs ≠ [] → A.cstr cs.length = some (flat (names fs cs)).length

theorem names_formula (fs : List (String × Nat)) (f : String × Nat) : names (fs ++ [f]) [] = names fs [] ++ [f.1.toList] := by simp [names]

theorem names_contract (fs : List (String × Nat)) (cs : List (String × Nat × Nat × Nat)) (c : String × Nat × Nat × Nat) :
    names fs (cs ++ [c]) = names fs cs ++ [c.1.toList] := by simp [names]

theorem names_length (fs : List (String × Nat)) (cs : List (String × Nat × Nat × Nat)) : (names fs cs).length = fs.length + cs.length := by simp [names]

theorem names_last (fs : List (String × Nat)) (cs : List (String × Nat × Nat × Nat)) (w : List Char) (i : Nat) (h : i = (names fs cs).length) :
    (names fs cs ++ [w])[i]? = some w := by subst h; simp

theorem flat_snoc (ls : List (List Char)) (w : List Char) : (flat (ls ++ [w])).length = (flat ls).length + w.length + 1 := by
  rw [flat_append]; simp [flat]; omega

theorem off_snoc (ls : List (List Char)) (w : List Char) : off (ls ++ [w]) ls.length = (flat ls).length := by
  rw [off_append (Nat.le_refl _), off_length]

theorem add_formula {A : Info} {fs : List (String × Nat)} (h : Reading A fs []) {f : String × Nat} (hf : Word f.1.toList) (hn : f.2 < 2 ^ 32)
    (hl : fs.length < A.lim.formulas) (hb : (flat (names (fs ++ [f]) [])).length ≤ A.lim.bytes) (rest : List Char) :
    ∃ A', A.addFormula ((Alias.formula f.1 f.2).text ++ '\x00' :: rest) = some (A', (Alias.formula f.1 f.2).text.length) ∧
      A'.lim = A.lim ∧ Reading A' (fs ++ [f]) [] := by
  rw [names_formula, flat_snoc] at hb
  obtain ⟨A1, g1, g2, g3, g4, g5, g6, g7, g8, g9⟩ := put_has h.has (w := f.1.toList) (by omega)
  have hnl : (names fs []).length = fs.length := by simp [names]
  have hstr : A1.str (flat (names fs [])).length = some f.1.toList := by
    have := str_at g2 (i := fs.length) (w := f.1.toList) (names_last _ _ _ _ hnl.symm) hf.zero
    rwa [← hnl, off_snoc] at this
  have hoff : ∀ i, i < fs.length + 1 → A.fstr i = some (off (names (fs ++ [f]) []) i) := by
    intro i hi
    rw [names_formula]
    by_cases hi' : i < fs.length
    · rw [h.fstr i hi', off_append (by omega)]
    · obtain rfl : i = fs.length := by omega
      rw [h.fnext rfl hl, ← hnl, off_snoc]
  unfold Info.addFormula
  rw [if_pos (by rw [h.formulas]; exact hl), h.formulas, h.fnext rfl hl, Option.bind_some, scan_formula hf hn]
  simp only [Option.bind_some, g1]
  by_cases hlast : fs.length + 1 < A.lim.formulas
  · rw [if_pos (by simp only [g8, g3, h.formulas]; exact hlast)]
    have e : ∀ g : Nat → Nat, Info.str { A1 with fnum := g } (flat (names fs [])).length = some f.1.toList := fun _ => hstr
    rw [e]
    refine ⟨_, rfl, g3, ⟨⟨?_, ?_, ?_, ?_, ?_, ?_, ?_⟩, ?_, ?_⟩⟩
    · rw [names_formula]; exact g2
    · simp [g8, h.formulas]
    · simp [g9, h.contracts]
    · simp only [List.length_append, List.length_cons, List.length_nil]; show _ ≤ A1.lim.formulas; rw [g3]; omega
    · intro i hi
      simp only [List.length_append, List.length_cons, List.length_nil] at hi
      simp only [g8, h.formulas, g4]
      rw [if_neg (by omega), hoff i (by omega)]
    · intro j hj; simp at hj
    · intro j c hj; simp at hj
    · intro _ _
      simp only [List.length_append, List.length_cons, List.length_nil, g8, h.formulas]
      rw [if_pos trivial, names_formula, flat_snoc]
    · intro hc; exact absurd rfl hc
  · rw [if_neg (by simp only [g8, g3, h.formulas]; exact hlast)]
    refine ⟨_, rfl, g3, ⟨⟨?_, ?_, ?_, ?_, ?_, ?_, ?_⟩, ?_, ?_⟩⟩
    · rw [names_formula]; exact g2
    · simp [g8, h.formulas]
    · simp [g9, h.contracts]
    · simp only [List.length_append, List.length_cons, List.length_nil]; show _ ≤ A1.lim.formulas; rw [g3]; omega
    · intro i hi
      simp only [List.length_append, List.length_cons, List.length_nil] at hi
      simp only [g4]
      exact hoff i (by omega)
    · intro j hj; simp at hj
    · intro j c hj; simp at hj
    · intro _ h1
      simp only [List.length_append, List.length_cons, List.length_nil] at h1
      replace h1 : fs.length + 1 < A1.lim.formulas := h1
      rw [g3] at h1
      exact absurd h1 hlast
    · intro hc; exact absurd rfl hc

theorem Reading.withCstr {A : Info} {fs : List (String × Nat)} {cs : List (String × Nat × Nat × Nat)} (h : Reading A fs cs) (hfs : fs ≠ [])
    (hw : ∀ f ∈ fs, Word f.1.toList) :
    ∃ A1, (if A.contracts = 0 then
      if A.formulas = 0 ∨ A.lim.formulas < A.formulas then none else
      (A.fstr (A.formulas - 1)).bind fun p => (A.str p).map fun w =>
        { A with cstr := fun i => if i = 0 then some (p + w.length + 1) else A.cstr i }
      else some A) = some A1 ∧ A1.lim = A.lim ∧ Loaded A1 fs cs ∧ A1.cstr cs.length = some (flat (names fs cs)).length := by
  by_cases hc : cs = []
  · subst hc
    have hl : 0 < fs.length := List.length_pos_iff.2 hfs
    obtain ⟨f, hf⟩ : ∃ f, fs[fs.length - 1]? = some f := ⟨_, List.getElem?_eq_getElem (by omega)⟩
    have hn : (names fs [])[fs.length - 1]? = some f.1.toList := by simp [names, hf]
    have hs := str_at h.has hn (hw f (List.mem_of_getElem? hf)).zero
    have ho := off_succ hn
    rw [Nat.sub_add_cancel hl] at ho
    have hoff : off (names fs []) fs.length = (flat (names fs [])).length := by
      rw [← off_length]; simp [names]
    rw [if_pos (by rw [h.contracts]; rfl), if_neg (by rw [h.formulas]; have := h.fits; omega), h.formulas, h.fstr _ (by omega), Option.bind_some, hs]
    refine ⟨_, rfl, rfl, ⟨h.has, rfl, h.contracts, h.fits, h.fstr, ?_, h.cnum⟩, ?_⟩
    · intro j hj; simp at hj
    · simp only [List.length_nil, if_pos]
      rw [← ho, hoff]
  · rw [if_neg (by rw [h.contracts]; simpa using hc)]
    exact ⟨A, rfl, rfl, h.toLoaded, h.cnext hc⟩

theorem add_contract {A : Info} {fs : List (String × Nat)} {cs : List (String × Nat × Nat × Nat)} (h : Reading A fs cs) (hfs : fs ≠ [])
    (hw : ∀ f ∈ fs, Word f.1.toList) {c : String × Nat × Nat × Nat} (hc : Word c.1.toList)
    (hn : c.2.1 < 2 ^ 32 ∧ c.2.2.1 < 2 ^ 32 ∧ c.2.2.2 < 2 ^ 32)
    (hl : cs.length < A.lim.contracts) (hb : (flat (names fs (cs ++ [c]))).length ≤ A.lim.bytes) (rest : List Char) :
    ∃ A' len, A.addContract ((Alias.contract c.1 c.2.1 c.2.2.1 c.2.2.2).text ++ '\x00' :: rest) = some (A', len) ∧ A'.lim = A.lim ∧
      (cs.length + 1 < A.lim.contracts → len = (Alias.contract c.1 c.2.1 c.2.2.1 c.2.2.2).text.length ∧ Reading A' fs (cs ++ [c])) ∧
      (cs.length + 1 = A.lim.contracts → len = 0 ∧ Loaded A' fs cs) := by
  rw [names_contract, flat_snoc] at hb
  obtain ⟨A0, k1, k2, k3, k4⟩ := h.withCstr hfs hw
  obtain ⟨A1, g1, g2, g3, g4, g5, g6, g7, g8, g9⟩ := put_has k3.has (w := c.1.toList) (by rw [k2]; omega)
  have hnl := names_length fs cs
  have hstr : A1.str (flat (names fs cs)).length = some c.1.toList := by
    have := str_at g2 (i := fs.length + cs.length) (w := c.1.toList) (names_last _ _ _ _ hnl.symm) hc.zero
    rwa [← hnl, off_snoc] at this
  unfold Info.addContract
  rw [if_pos (by rw [h.contracts]; exact hl), k1]
  simp only [Option.bind_some]
  rw [k3.contracts, k4, Option.bind_some, scan_contract hc hn.1 hn.2.1 hn.2.2]
  simp only [Option.bind_some, g1]
  by_cases hlast : cs.length + 1 < A.lim.contracts
  · rw [if_pos (by simp only [g9, g3, k2, k3.contracts]; exact hlast)]
    have e : ∀ g : Nat → Nat × Nat × Nat, Info.str { A1 with cnum := g } (flat (names fs cs)).length = some c.1.toList := fun _ => hstr
    rw [e]
    refine ⟨_, _, rfl, by rw [← k2, ← g3], fun _ => ⟨rfl, ⟨⟨?_, ?_, ?_, ?_, ?_, ?_, ?_⟩, ?_, ?_⟩⟩, fun h1 => by omega⟩
    · rw [names_contract]; exact g2
    · simp [g8, k3.formulas]
    · simp [g9, k3.contracts]
    · show _ ≤ A1.lim.formulas; rw [g3]; exact k3.fits
    · intro i hi
      simp only [g4]
      rw [k3.fstr i hi, names_contract, off_append (by omega)]
    · intro j hj
      simp only [List.length_append, List.length_cons, List.length_nil] at hj
      simp only [g9, k3.contracts, g6]
      rw [if_neg (by omega), names_contract]
      by_cases hj' : j < cs.length
      · rw [k3.cstr j hj', off_append (by omega)]
      · obtain rfl : j = cs.length := by omega
        rw [k4, ← hnl, off_snoc]
    · intro j d hj
      simp only [g9, k3.contracts, g7]
      by_cases hj' : j < cs.length
      · rw [if_neg (by omega)]
        exact k3.cnum j d (by rwa [List.getElem?_append_left hj'] at hj)
      · rw [List.getElem?_append_right (by omega)] at hj
        obtain ⟨h1, h2⟩ := List.getElem?_eq_some_iff.1 hj
        simp only [List.length_cons, List.length_nil] at h1
        have : j = cs.length := by omega
        rw [if_pos this]
        simp at h2
        simp [← h2]
    · intro h0; simp at h0
    · intro _
      simp only [List.length_append, List.length_cons, List.length_nil, g9, k3.contracts]
      rw [if_pos trivial, names_contract, flat_snoc]
  · rw [if_neg (by simp only [g9, g3, k2, k3.contracts]; exact hlast)]
    refine ⟨_, _, rfl, by rw [← k2, ← g3], fun h1 => absurd h1 hlast, fun _ => ⟨rfl, ⟨has_prefix g2, ?_, ?_, ?_, ?_, ?_, ?_⟩⟩⟩
    · simp [g8, k3.formulas]
    · simp [g9, k3.contracts]
    · show _ ≤ A1.lim.formulas; rw [g3]; exact k3.fits
    · intro i hi
      simp only [g4]
      exact k3.fstr i hi
    · intro j hj
      simp only [g6]
      exact k3.cstr j hj
    · intro j d hj
      simp only [g9, k3.contracts, g7]
      have : j < cs.length := (List.getElem?_eq_some_iff.1 hj).1
      rw [if_neg (by omega)]
      exact k3.cnum j d hj

/-- The text of aliases as the loop sees it. -/
def tape (as : List Alias) : List Char := as.flatMap (fun a => a.text ++ ['\x00']) ++ ['\x00']

theorem tape_cons (a : Alias) (as : List Alias) : tape (a :: as) = a.text ++ '\x00' :: tape as := by simp [tape]

def asFormula (f : String × Nat) : Alias := .formula f.1 f.2
def asContract (c : String × Nat × Nat × Nat) : Alias := .contract c.1 c.2.1 c.2.2.1 c.2.2.2

theorem drop_text (t rest : List Char) : (t ++ '\x00' :: rest).drop (t.length + 1) = rest := by
  rw [show t ++ '\x00' :: rest = (t ++ ['\x00']) ++ rest by simp]
  exact List.drop_left' (by simp)

theorem loop_contracts {fs : List (String × Nat)} (hfs : fs ≠ []) (hw : ∀ f ∈ fs, Word f.1.toList) :
    ∀ (todo done : List (String × Nat × Nat × Nat)) (A : Info) (n : Nat), Reading A fs done →
      (∀ c ∈ todo, Word c.1.toList ∧ c.2.1 < 2 ^ 32 ∧ c.2.2.1 < 2 ^ 32 ∧ c.2.2.2 < 2 ^ 32) →
      (flat (names fs (done ++ todo))).length ≤ A.lim.bytes → (todo ≠ [] → done.length < A.lim.contracts) → todo.length < n →
      ∃ A', Info.loop n (tape (todo.map asContract)) A = some A' ∧
        Loaded A' fs (done ++ if todo = [] then [] else todo.take (A.lim.contracts - 1 - done.length))
  | [], done, A, n, h, _, _, _, hn => by
      obtain ⟨n, rfl⟩ : ∃ k, n = k + 1 := ⟨n - 1, by simp at hn; omega⟩
      refine ⟨A, by simp [tape, Info.loop], ?_⟩
      simpa using h.toLoaded
  | c :: todo, done, A, n, h, hc, hb, hl, hn => by
      obtain ⟨n, rfl⟩ : ∃ k, n = k + 1 := ⟨n - 1, by simp at hn; omega⟩
      have hl := hl (by simp)
      have hbc : (flat (names fs (done ++ [c]))).length ≤ A.lim.bytes := by
        have : flat (names fs (done ++ c :: todo)) = flat (names fs (done ++ [c])) ++ flat (todo.map (·.1.toList)) := by
          rw [← flat_append]; simp [names]
        rw [this] at hb
        simp only [List.length_append] at hb
        omega
      obtain ⟨hc1, hc2⟩ := hc c (by simp)
      obtain ⟨A', len, k1, k2, k3, k4⟩ := add_contract h hfs hw hc1 hc2 hl hbc (tape (todo.map asContract))
      rw [List.map_cons, tape_cons]
      have hstep : Info.loop (n + 1) ((asContract c).text ++ '\x00' :: tape (todo.map asContract)) A =
          (A.addContract ((asContract c).text ++ '\x00' :: tape (todo.map asContract))).bind fun (A, len) =>
            if len = 0 then some A else Info.loop n (((asContract c).text ++ '\x00' :: tape (todo.map asContract)).drop (len + 1)) A := by
        simp only [asContract, Alias.text, List.cons_append]
        rw [Info.loop, if_neg (by decide), if_pos rfl]
      rw [hstep, show A.addContract ((asContract c).text ++ '\x00' :: tape (todo.map asContract)) = _ from k1, Option.bind_some]
      dsimp only
      by_cases hlast : done.length + 1 < A.lim.contracts
      · obtain ⟨rfl, h'⟩ := k3 hlast
        rw [if_neg (by simp [Alias.text]), show (asContract c) = Alias.contract c.1 c.2.1 c.2.2.1 c.2.2.2 from rfl, drop_text]
        obtain ⟨A'', m1, m2⟩ := loop_contracts hfs hw todo (done ++ [c]) A' n h' (fun d hd => hc d (by simp [hd])) (by rw [k2]; simpa using hb)
          (fun _ => by rw [k2]; simpa using hlast) (by simp at hn; omega)
        refine ⟨A'', m1, ?_⟩
        rw [if_neg (by simp)]
        rw [k2] at m2
        have e : A.lim.contracts - 1 - done.length = (A.lim.contracts - 1 - (done ++ [c]).length) + 1 := by simp; omega
        rw [e, List.take_succ_cons]
        by_cases ht : todo = []
        · subst ht; simpa using m2
        · rw [if_neg ht] at m2
          simpa using m2
      · obtain ⟨rfl, h'⟩ := k4 (by omega)
        rw [if_pos rfl]
        refine ⟨A', rfl, ?_⟩
        have e : A.lim.contracts - 1 - done.length = 0 := by omega
        simpa [e] using h'

theorem loop_formulas {cs : List (String × Nat × Nat × Nat)}
    (hc : ∀ c ∈ cs, Word c.1.toList ∧ c.2.1 < 2 ^ 32 ∧ c.2.2.1 < 2 ^ 32 ∧ c.2.2.2 < 2 ^ 32) :
    ∀ (todo done : List (String × Nat)) (A : Info) (n : Nat), Reading A done [] → done ++ todo ≠ [] → (∀ f ∈ done, Word f.1.toList) →
      (∀ f ∈ todo, Word f.1.toList ∧ f.2 < 2 ^ 32) →
      (flat (names (done ++ todo) cs)).length ≤ A.lim.bytes → (done ++ todo).length ≤ A.lim.formulas → (cs ≠ [] → 0 < A.lim.contracts) →
      todo.length + cs.length < n →
      ∃ A', Info.loop n (tape (todo.map asFormula ++ cs.map asContract)) A = some A' ∧
        Loaded A' (done ++ todo) (if cs = [] then [] else cs.take (A.lim.contracts - 1))
  | [], done, A, n, h, hne, hd, _, hb, hl, hlc, hn => by
      rw [List.append_nil] at *
      obtain ⟨A', k1, k2⟩ := loop_contracts hne hd cs [] A n h hc (by simpa using hb) (by simpa using hlc) (by simpa using hn)
      exact ⟨A', by simpa using k1, by simpa using k2⟩
  | f :: todo, done, A, n, h, hne, hd, hw, hb, hl, hlc, hn => by
      obtain ⟨n, rfl⟩ : ∃ k, n = k + 1 := ⟨n - 1, by simp at hn; omega⟩
      obtain ⟨hf1, hf2⟩ := hw f (by simp)
      have hbc : (flat (names (done ++ [f]) [])).length ≤ A.lim.bytes := by
        have : flat (names (done ++ f :: todo) cs) = flat (names (done ++ [f]) []) ++ flat (todo.map (·.1.toList) ++ cs.map (·.1.toList)) := by
          rw [← flat_append]; simp [names]
        rw [this] at hb
        simp only [List.length_append] at hb
        omega
      simp only [List.length_append, List.length_cons] at hl
      obtain ⟨A', k1, k2, k3⟩ := add_formula h hf1 hf2 (by omega) hbc (tape (todo.map asFormula ++ cs.map asContract))
      rw [List.map_cons, List.cons_append, tape_cons]
      have hstep : Info.loop (n + 1) ((asFormula f).text ++ '\x00' :: tape (todo.map asFormula ++ cs.map asContract)) A =
          (A.addFormula ((asFormula f).text ++ '\x00' :: tape (todo.map asFormula ++ cs.map asContract))).bind fun (A, len) =>
            if len = 0 then some A else
              Info.loop n (((asFormula f).text ++ '\x00' :: tape (todo.map asFormula ++ cs.map asContract)).drop (len + 1)) A := by
        simp only [asFormula, Alias.text, List.cons_append]
        rw [Info.loop, if_neg (by decide), if_neg (by decide), if_pos rfl]
      rw [hstep, show A.addFormula ((asFormula f).text ++ '\x00' :: tape (todo.map asFormula ++ cs.map asContract)) = _ from k1, Option.bind_some]
      dsimp only
      rw [if_neg (by simp [Alias.text]), show (asFormula f) = Alias.formula f.1 f.2 from rfl, drop_text]
      obtain ⟨A'', m1, m2⟩ := loop_formulas hc todo (done ++ [f]) A' n k3 (by simp) (by
          intro g hg
          rcases List.mem_append.1 hg with hg | hg
          · exact hd g hg
          · rw [List.mem_singleton.1 hg]; exact hf1)
        (fun d hd => hw d (by simp [hd])) (by rw [k2]; simpa using hb) (by rw [k2]; simp; omega) (by rw [k2]; exact hlc) (by simp at hn; omega)
      refine ⟨A'', m1, ?_⟩
      rw [k2] at m2
      simpa using m2

/-! ### What is printed -/

theorem Loaded.name {A : Info} {fs : List (String × Nat)} {cs : List (String × Nat × Nat × Nat)} (h : Loaded A fs cs)
    (hw : ∀ f ∈ fs, Word f.1.toList) {i : Nat} {f : String × Nat} (hf : fs[i]? = some f) : (A.fstr i).bind A.str = some f.1.toList := by
  have hi : i < fs.length := (List.getElem?_eq_some_iff.1 hf).1
  rw [h.fstr i hi, Option.bind_some]
  exact str_at h.has (by rw [names, List.getElem?_append_left (by simpa using hi)]; simp [hf]) (hw f (List.mem_of_getElem? hf)).zero

theorem Loaded.cname {A : Info} {fs : List (String × Nat)} {cs : List (String × Nat × Nat × Nat)} (h : Loaded A fs cs)
    (hw : ∀ c ∈ cs, Word c.1.toList) {i : Nat} {c : String × Nat × Nat × Nat} (hc : cs[i]? = some c) : (A.cstr i).bind A.str = some c.1.toList := by
  have hi : i < cs.length := (List.getElem?_eq_some_iff.1 hc).1
  rw [h.cstr i hi, Option.bind_some]
  exact str_at h.has (by rw [names, List.getElem?_append_right (by simp)]; simp [hc]) (hw c (List.mem_of_getElem? hc)).zero

/-- The numbers of a contract's formulas. -/
def nums (c : String × Nat × Nat × Nat) : List Nat := [c.2.1, c.2.2.1, c.2.2.2]

theorem statusOf_other {c : String × Nat × Nat × Nat} {x : Nat × Verdict} (h : x.1 ∉ nums c) : statusOf c x = none := by
  simp only [nums, List.mem_cons, List.not_mem_nil, or_false, not_or] at h
  simp [statusOf, h.1, h.2.1, h.2.2]

theorem statusOf_mine {c : String × Nat × Nat × Nat} {x : Nat × Verdict} {s : String} (h : statusOf c x = some s) : x.1 ∈ nums c := by
  by_contra hn
  rw [statusOf_other hn] at h
  cases h

theorem statusLines_other {cs : List (String × Nat × Nat × Nat)} {x : Nat × Verdict} (h : ∀ c ∈ cs, x.1 ∉ nums c) : statusLines cs x = [] := by
  simp only [statusLines, List.flatMap_eq_nil_iff]
  intro c hc
  rw [statusOf_other (h c hc)]

theorem statusText_eq (l s : String) (v : Verdict) : statusText l.toList s v = statusLine l s v.time := by
  have h1 : " ".toList = [' '] := rfl
  have h2 : "\n".toList = ['\n'] := rfl
  unfold statusText statusLine
  generalize "Contract ".toList = a
  generalize " at ".toList = b
  rw [h1, h2]
  simp only [List.append_assoc, List.cons_append, List.nil_append]

theorem contractLoop_eq {A : Info} {fs : List (String × Nat)} {cs : List (String × Nat × Nat × Nat)} (h : Loaded A fs cs)
    (hw : ∀ c ∈ cs, Word c.1.toList) (x : Nat × Verdict) : ∀ (k : Nat), k ≤ cs.length → ((cs.drop k).flatMap nums).Nodup →
      A.contractLoop x (List.range' k (cs.length - k)) = some (statusLines (cs.drop k) x) := by
  intro k hk
  induction hj : cs.length - k generalizing k with
  | zero =>
    intro _
    rw [List.drop_eq_nil_of_le (by omega)]
    rfl
  | succ j ih =>
    intro hnd
    have hk' : k < cs.length := by omega
    obtain ⟨c, hc⟩ : ∃ c, cs[k]? = some c := ⟨_, List.getElem?_eq_getElem hk'⟩
    have hd : cs.drop k = c :: cs.drop (k + 1) := by
      rw [List.drop_eq_getElem_cons hk']
      rw [List.getElem?_eq_getElem hk'] at hc
      rw [Option.some.inj hc]
    rw [hd, List.flatMap_cons, List.nodup_append] at hnd
    obtain ⟨_, n2, n3⟩ := hnd
    rw [List.range'_succ, hd]
    have hcl : statusLines (c :: cs.drop (k + 1)) x = (match statusOf c x with
        | some s => statusLine c.1 s x.2.time
        | none => []) ++ statusLines (cs.drop (k + 1)) x := by
      rw [statusLines, List.flatMap_cons]; rfl
    have hrest : ∀ s, statusOf c x = some s → statusLines (cs.drop (k + 1)) x = [] := by
      intro s hs
      refine statusLines_other fun d hd' hx => ?_
      exact n3 _ (statusOf_mine hs) _ (List.mem_flatMap.2 ⟨d, hd', hx⟩) rfl
    have htext : ∀ s, statusText c.1.toList s x.2 = statusLine c.1 s x.2.time := fun s => statusText_eq _ _ _
    simp only [Info.contractLoop, h.cnum k c hc, h.cname hw hc, Option.map_some, hcl]
    by_cases h1 : x.1 = c.2.1 ∧ x.2.truth = false
    · have e : statusOf c x = some "inactive" := by rw [statusOf, if_pos h1]
      rw [if_pos h1, hrest _ e, e, htext]; simp
    rw [if_neg h1]
    by_cases h2 : x.1 = c.2.2.1 ∧ x.2.truth = false
    · have e : statusOf c x = some "invalid" := by rw [statusOf, if_neg h1, if_pos h2]
      rw [if_pos h2, hrest _ e, e, htext]; simp
    rw [if_neg h2]
    by_cases h3 : x.1 = c.2.2.2 ∧ x.2.truth = true
    · have e : statusOf c x = some "verified" := by rw [statusOf, if_neg h1, if_neg h2, if_pos h3]
      rw [if_pos h3, hrest _ e, e, htext]; simp
    rw [if_neg h3, ih (k + 1) (by omega) (by omega) n2]
    have e : statusOf c x = none := by rw [statusOf, if_neg h1, if_neg h2, if_neg h3]
    rw [e]; rfl

theorem find_range {fs : List (String × Nat)} (hn : fs.map (fun x => x.2) = List.range fs.length) (i : Nat) :
    fs.find? (fun s => s.2 = i) = fs[i]? := by
  have hnum : ∀ (j : Nat) (f : String × Nat), fs[j]? = some f → f.2 = j := by
    intro j f hf
    have : (fs.map (fun x => x.2))[j]? = some f.2 := by rw [List.getElem?_map, hf]; rfl
    rw [hn] at this
    obtain ⟨h1, h2⟩ := List.getElem?_eq_some_iff.1 this
    simpa using h2.symm
  by_cases hi : i < fs.length
  · obtain ⟨f, hf⟩ : ∃ f, fs[i]? = some f := ⟨_, List.getElem?_eq_getElem hi⟩
    rw [hf]
    cases hx : fs.find? (fun s => s.2 = i) with
    | none =>
      have := List.find?_eq_none.1 hx f (List.mem_of_getElem? hf)
      simp [hnum i f hf] at this
    | some g =>
      have h1 := List.find?_some hx
      obtain ⟨j, hj⟩ := List.getElem?_of_mem (List.mem_of_find?_eq_some hx)
      have h2 := hnum j g hj
      simp only [decide_eq_true_eq] at h1
      obtain rfl : j = i := by omega
      rw [hj] at hf
      exact hf
  · rw [List.getElem?_eq_none (by omega)]
    rw [List.find?_eq_none]
    intro f hf
    obtain ⟨j, hj⟩ := List.getElem?_of_mem hf
    have h2 := hnum j f hj
    have h3 : j < fs.length := (List.getElem?_eq_some_iff.1 hj).1
    simp only [decide_eq_true_eq]
    omega

theorem report_eq {A : Info} {fs : List (String × Nat)} {cs : List (String × Nat × Nat × Nat)} (h : Loaded A fs cs)
    (hf : ∀ f ∈ fs, Word f.1.toList) (hc : ∀ c ∈ cs, Word c.1.toList) (hn : fs.map (fun x => x.2) = List.range fs.length)
    (hd : (cs.flatMap nums).Nodup) (x : Nat × Verdict) : A.report x = some (nameLine fs x ++ statusLines cs x) := by
  have ht : verdictText x.2 = ":".toList ++ natStr x.2.time ++ (if x.2.truth then ",T\n" else ",F\n").toList := by
    cases hx : x.2.truth <;> simp [verdictText, hx]
  have hcl := contractLoop_eq h hc x 0 (Nat.zero_le _) (by simpa using hd)
  rw [List.drop_zero, Nat.sub_zero, ← List.range_eq_range'] at hcl
  rw [Info.report, h.contracts, hcl]
  have : A.formulaReport x = some (nameLine fs x) := by
    unfold Info.formulaReport nameLine
    rw [find_range hn, h.formulas]
    by_cases hi : x.1 < fs.length
    · obtain ⟨f, hf'⟩ : ∃ f, fs[x.1]? = some f := ⟨_, List.getElem?_eq_getElem hi⟩
      rw [if_pos hi, if_pos (by have := h.fits; omega), h.name hf hf', hf', ← ht]
      rfl
    · rw [if_neg hi, List.getElem?_eq_none (by omega), ← ht]
  rw [this]
  rfl

theorem reports_eq {A : Info} {g : Nat × Verdict → List Char} (h : ∀ x, A.report x = some (g x)) :
    ∀ out, A.reports out = some (out.flatMap g)
  | [] => rfl
  | x :: out => by rw [Info.reports, h, Option.bind_some, reports_eq h out]; rfl

theorem flat_length (ls : List (List Char)) : (flat ls).length = (ls.map fun w => w.length + 1).sum := by
  induction ls with
  | nil => rfl
  | cons w ls ih => rw [show w :: ls = [w] ++ ls from rfl, flat_append, List.length_append, ih]; simp [flat]

theorem names_room (fs : List (String × Nat)) (cs : List (String × Nat × Nat × Nat)) : (flat (names fs cs)).length = room fs cs := by
  rw [flat_length]
  simp [names, room, Function.comp_def, String.length_toList]

/-- Loading what `pack_aliases` writes. -/
theorem load_packed {fs : List (String × Nat)} {cs : List (String × Nat × Nat × Nat)} (hl : Labels fs cs) (hne : fs ≠ []) {lim : Lim}
    (hb : room fs cs ≤ lim.bytes) (hf : fs.length ≤ lim.formulas) (hc : cs ≠ [] → 0 < lim.contracts) :
    ∃ A, load lim (packed (aliases fs cs) ++ [0]) = some A ∧ Loaded A fs (cs.take (lim.contracts - 1)) := by
  have hal : aliases fs cs = fs.map asFormula ++ cs.map asContract := by
    rw [aliases, if_neg]
    · rfl
    · simp only [List.any_eq_true, decide_eq_true_eq, not_exists, not_and, not_lt]
      exact fun s hs => (hl.idents s hs).2.1
  have htape : (packed (aliases fs cs) ++ [0]).map Char.ofNat = tape (fs.map asFormula ++ cs.map asContract) := by
    rw [hal, packed, tape, List.map_append, List.map_flatMap]
    congr 1
    refine congrArg (fun g => List.flatMap g _) (funext fun a => ?_)
    rw [List.map_append, List.map_map]
    congr 1
    rw [show Char.ofNat ∘ Char.toNat = id from funext fun c => Char.ofNat_toNat c, List.map_id]
  have hlen : (fs.map asFormula).length + (cs.map asContract).length < (packed (aliases fs cs) ++ [0]).length + 1 := by
    have : ∀ as : List Alias, as.length ≤ (packed as).length := by
      intro as
      induction as with
      | nil => simp
      | cons a as ih => simp only [packed, List.flatMap_cons, List.length_append, List.length_cons, List.length_nil] at ih ⊢; omega
    have := this (aliases fs cs)
    rw [hal] at this
    rw [hal]
    simp only [List.length_append, List.length_cons, List.length_nil] at this ⊢
    omega
  have hlen0 : 0 < fs.length := List.length_pos_iff.2 hne
  obtain ⟨A, k1, k2⟩ := loop_formulas (cs := cs) (fun c h => ⟨word_of_ident (hl.contracts c h).1, (hl.contracts c h).2⟩) fs []
    { Info.zero lim with fstr := fun i => if i = 0 then some 0 else none } ((packed (aliases fs cs) ++ [0]).length + 1)
    ⟨⟨⟨by simp [names, flat], by intro k hk; simp [names, flat] at hk⟩, rfl, rfl, by simp, by simp, by simp, by simp⟩,
      by simp [names, flat], by simp⟩ (by simpa using hne) (by simp) (fun f h => ⟨word_of_ident (hl.idents f h).1, (hl.idents f h).2.2⟩)
    (by rw [List.nil_append, names_room]; exact hb) hf hc (by simpa using hlen)
  refine ⟨A, ?_, ?_⟩
  · rw [load, if_neg (by omega), htape]
    exact k1
  · by_cases h0 : cs = []
    · subst h0; simpa using k2
    · rw [if_neg h0] at k2; exact k2

end Aux
end R2U2
