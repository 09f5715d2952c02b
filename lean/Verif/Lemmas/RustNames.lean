import Verif.Spec.RustNames
import Verif.Lemmas.Names
import Verif.Lemmas.RustCli
import Verif.Lemmas.RustUpdate
import Verif.Props.Binary
/-
Names and contracts in the Rust monitor.
-/
namespace R2U2
namespace Rs
namespace Names
open R2U2.Aux (Alias word_of_ident asFormula asContract tape nums statusLines statusLine statusOf)

/-! ### Numbers -/

theorem decimalFrom_digits : ∀ (l : List Nat) (k num : Nat), (∀ d ∈ l, d < 10) → k + l.length ≤ 9 → num < 10 ^ k →
    decimalFrom (l.map Nat.digitChar) num (10 ^ k) = some (num + 10 ^ k * Nat.ofDigits 10 l)
  | [], k, num, _, _, _ => by simp [decimalFrom]
  | d :: l, k, num, hd, hk, hn => by
      simp only [List.length_cons] at hk
      have hd0 : d < 10 := hd d (by simp)
      have hdig : Cli.isDigit (Nat.digitChar d) = true := by
        have : ∀ d : Fin 10, Cli.isDigit (Nat.digitChar d) = true := by decide
        exact this ⟨d, hd0⟩
      have hpow : 10 ^ (k + 1) ≤ 10 ^ 9 := Nat.pow_le_pow_right (by decide) (by omega)
      have hs : 10 ^ (k + 1) = 10 ^ k * 10 := pow_succ _ _
      have hmul : d * 10 ^ k ≤ 9 * 10 ^ k := Nat.mul_le_mul_right _ (by omega)
      have hlt : num + d * 10 ^ k < 10 ^ (k + 1) := by rw [hs]; omega
      have h9 : (10 : Nat) ^ 9 < 2 ^ 32 := by decide
      simp only [List.map_cons, decimalFrom, hdig, if_true, Map.digitChar_toNat hd0]
      rw [if_pos ⟨by omega, by rw [← hs]; omega⟩, ← hs, decimalFrom_digits l (k + 1) _ (fun x hx => hd x (by simp [hx])) (by omega) hlt,
        Nat.ofDigits_cons, hs]
      congr 1
      ring

theorem natStr_nine {n : Nat} (h : n < 10 ^ 9) : (natStr n).length ≤ 9 := by
  unfold natStr
  split
  · simp
  · have := (Nat.digits_length_le_iff (b := 10) (k := 9) (by omega) n).2 (by omega)
    simpa using this

theorem decimal_natStr {n : Nat} (h : n < 10 ^ 9) : decimal (natStr n) = some n := by
  by_cases h0 : n = 0
  · subst h0; decide
  · have hl := natStr_nine h
    unfold natStr at hl
    rw [if_neg h0] at hl
    simp only [List.length_reverse, List.length_map] at hl
    unfold decimal natStr
    rw [if_neg h0, List.reverse_reverse]
    have := decimalFrom_digits (Nat.digits 10 n) 0 0 (fun d hd => Nat.digits_lt_base (by omega) hd) (by omega) (by simp)
    simpa [Nat.ofDigits_digits] using this

/-! ### Texts -/

theorem raw_text {t r : List Char} (h0 : '\x00' ∉ t) (hl : t.length ≤ 127) : raw (t ++ '\x00' :: r) = t := by
  unfold raw
  rw [List.takeWhile_append_of_pos (by intro c hc; simpa using fun e : c = '\x00' => h0 (e ▸ hc))]
  simp [List.take_of_length_le hl]

theorem idx_space {l r : List Char} (h : ' ' ∉ l) : (l ++ ' ' :: r).idxOf? ' ' = some l.length := by
  induction l with
  | nil => simp [List.idxOf?_cons]
  | cons c l ih =>
    have hc : c ≠ ' ' := fun e => h (by simp [e])
    simp only [List.cons_append, List.idxOf?_cons, beq_iff_eq, hc, if_false]
    rw [ih (fun hm => h (by simp [hm]))]
    simp

theorem slice_mid {s : List Char} {a b : Nat} (p m q : List Char) (hs : s = p ++ (m ++ q)) (ha : a = p.length) (hb : b = p.length + m.length) :
    slice s a b = some m := by
  subst hs; subst ha; subst hb
  unfold slice
  rw [if_pos ⟨by omega, by simp⟩]
  have : (p ++ (m ++ q)).take (p.length + m.length) = p ++ m := by
    rw [← List.append_assoc, ← List.length_append, List.take_left]
  rw [this, List.drop_left]

theorem word_space {w : List Char} (h : Aux.Word w) : ' ' ∉ w := fun hm => by
  have := (h.2 _ hm).1
  revert this; decide

theorem word_zero {w : List Char} (h : Aux.Word w) : '\x00' ∉ w := fun hm => (h.2 _ hm).2 rfl

theorem natStr_zero (n : Nat) : '\x00' ∉ natStr n := fun h => by
  have := Cli.natStr_isDigit h
  revert this; decide

theorem setFunction_text {l : String} {n : Nat} (hl : Aux.Word l.toList) (hlen : l.length ≤ 63) (hn : n < 10 ^ 9) (rest : List Char) :
    setFunction ((Alias.formula l n).text ++ '\x00' :: rest) = some ((l.toList, n), (Alias.formula l n).text.length) := by
  have hlen' : l.toList.length ≤ 63 := by rw [String.length_toList]; exact hlen
  have hd : raw (((Alias.formula l n).text ++ '\x00' :: rest).drop 2) = l.toList ++ ' ' :: natStr n := by
    have : ((Alias.formula l n).text ++ '\x00' :: rest).drop 2 = (l.toList ++ ' ' :: natStr n) ++ '\x00' :: rest := by simp [Alias.text]
    rw [this]
    refine raw_text ?_ ?_
    · simp only [List.mem_append, List.mem_cons, not_or]
      exact ⟨word_zero hl, by decide, natStr_zero n⟩
    · have := natStr_nine hn
      simp only [List.length_append, List.length_cons]; omega
  unfold setFunction
  rw [if_neg (by simp [Alias.text])]
  simp only [hd, idx_space (word_space hl), Option.bind_some]
  rw [slice_mid ('F' :: ' ' :: (l.toList ++ [' '])) (natStr n) ('\x00' :: rest) (by simp [Alias.text]) (by simp <;> omega) (by simp <;> omega)]
  simp [decimal_natStr hn, Alias.text, List.take_of_length_le hlen]

theorem setContract_text {l : String} {a b c : Nat} (hl : Aux.Word l.toList) (hlen : l.length ≤ 63) (ha : a < 10 ^ 9) (hb : b < 10 ^ 9) (hc : c < 10 ^ 9)
    (rest : List Char) :
    setContract ((Alias.contract l a b c).text ++ '\x00' :: rest) = some ((l.toList, a, b, c), (Alias.contract l a b c).text.length) := by
  have hlen' : l.toList.length ≤ 63 := by rw [String.length_toList]; exact hlen
  have hd : raw (((Alias.contract l a b c).text ++ '\x00' :: rest).drop 2) = l.toList ++ ' ' :: (natStr a ++ ' ' :: (natStr b ++ ' ' :: natStr c)) := by
    have : ((Alias.contract l a b c).text ++ '\x00' :: rest).drop 2 =
      (l.toList ++ ' ' :: (natStr a ++ ' ' :: (natStr b ++ ' ' :: natStr c))) ++ '\x00' :: rest := by simp [Alias.text]
    rw [this]
    refine raw_text ?_ ?_
    · simp only [List.mem_append, List.mem_cons, not_or]
      exact ⟨word_zero hl, by decide, natStr_zero a, by decide, natStr_zero b, by decide, natStr_zero c⟩
    · have := natStr_nine ha
      have := natStr_nine hb
      have := natStr_nine hc
      simp only [List.length_append, List.length_cons]; omega
  have d1 : (l.toList ++ ' ' :: (natStr a ++ ' ' :: (natStr b ++ ' ' :: natStr c))).drop (l.toList.length + 1) = natStr a ++ ' ' :: (natStr b ++ ' ' :: natStr c) := by
    rw [List.drop_append, List.drop_eq_nil_of_le (by omega)]; simp
  have d2 : (l.toList ++ ' ' :: (natStr a ++ ' ' :: (natStr b ++ ' ' :: natStr c))).drop (l.toList.length + 1 + (natStr a).length + 1) =
      natStr b ++ ' ' :: natStr c := by
    rw [show l.toList.length + 1 + (natStr a).length + 1 = (l.toList.length + 1) + ((natStr a).length + 1) by omega, ← List.drop_drop, d1,
      List.drop_append, List.drop_eq_nil_of_le (by omega)]
    simp
  unfold setContract
  rw [if_neg (by simp [Alias.text])]
  simp only [hd, idx_space (word_space hl), Option.bind_some, d1, idx_space (Cli.natStr_space a), Option.getD_some, d2, idx_space (Cli.natStr_space b)]
  rw [slice_mid ('C' :: ' ' :: (l.toList ++ [' '])) (natStr a) (' ' :: (natStr b ++ ' ' :: natStr c) ++ '\x00' :: rest) (by simp [Alias.text])
    (by simp <;> omega) (by simp <;> omega)]
  simp only [Option.bind_some, decimal_natStr ha]
  rw [slice_mid ('C' :: ' ' :: (l.toList ++ ' ' :: natStr a ++ [' '])) (natStr b) (' ' :: natStr c ++ '\x00' :: rest) (by simp [Alias.text])
    (by simp <;> omega) (by simp <;> omega)]
  simp only [Option.bind_some, decimal_natStr hb]
  rw [slice_mid ('C' :: ' ' :: (l.toList ++ ' ' :: natStr a ++ ' ' :: natStr b ++ [' '])) (natStr c) ('\x00' :: rest) (by simp [Alias.text])
    (by simp <;> omega) (by simp <;> omega)]
  simp [decimal_natStr hc, Alias.text, List.take_of_length_le hlen]

/-! ### The auxiliary section -/

/-- What an alias adds. -/
def add (A : Info) : Alias → Info
  | .formula l n => { A with formulas := A.formulas ++ [(l.toList, n)] }
  | .contract l a b c => { A with contracts := A.contracts ++ [(l.toList, a, b, c)] }

/-- An alias the monitor reads as it was written. -/
def Good : Alias → Prop
  | .formula l n => Aux.Word l.toList ∧ l.length ≤ 63 ∧ n < 10 ^ 9
  | .contract l a b c => Aux.Word l.toList ∧ l.length ≤ 63 ∧ a < 10 ^ 9 ∧ b < 10 ^ 9 ∧ c < 10 ^ 9

theorem loadLoop_tape {lim : Lim} : ∀ (as : List Alias) (A : Info) (n : Nat), as ≠ [] → (∀ a ∈ as, Good a) → as.length ≤ n →
    (as.foldl add A).formulas.length ≤ lim.formulas → (as.foldl add A).contracts.length ≤ lim.contracts →
    loadLoop lim n (tape as) A = some (as.foldl add A)
  | [], _, _, h, _, _, _, _ => absurd rfl h
  | a :: as, A, 0, _, _, hn, _, _ => by simp at hn
  | a :: as, A, n + 1, _, hg, hn, hf, hc => by
      have mono : ∀ (as : List Alias) (A : Info), A.formulas.length ≤ (as.foldl add A).formulas.length ∧ A.contracts.length ≤ (as.foldl add A).contracts.length := by
        intro as
        induction as with
        | nil => intro A; exact ⟨Nat.le_refl _, Nat.le_refl _⟩
        | cons a as ih =>
          intro A
          have := ih (add A a)
          cases a <;> simp only [List.foldl_cons, add, List.length_append, List.length_cons, List.length_nil] at this ⊢ <;> omega
      have he : entry lim A (tape (a :: as)) = some (add A a, a.text.length) := by
        have hm := mono as (add A a)
        have hga := hg a (by simp)
        rw [Aux.tape_cons]
        rw [List.foldl_cons] at hf hc
        cases a with
        | formula l k =>
          have hlen : A.formulas.length < lim.formulas := by simp only [add, List.length_append, List.length_cons, List.length_nil] at hm hf; omega
          have := setFunction_text hga.1 hga.2.1 hga.2.2 (tape as)
          simp only [Alias.text, List.cons_append] at this ⊢
          simp only [entry, if_neg (show ¬ ('F' = 'C') by decide), if_true, if_pos hlen, this, Option.map_some]
          rfl
        | contract l x y z =>
          have hlen : A.contracts.length < lim.contracts := by simp only [add, List.length_append, List.length_cons, List.length_nil] at hm hc; omega
          have := setContract_text hga.1 hga.2.1 hga.2.2.1 hga.2.2.2.1 hga.2.2.2.2 (tape as)
          simp only [Alias.text, List.cons_append] at this ⊢
          simp only [entry, if_true, if_pos hlen, this, Option.map_some]
          rfl
      rw [loadLoop, he, Option.bind_some, Aux.tape_cons, Aux.drop_text, List.foldl_cons]
      cases as with
      | nil => simp [tape]
      | cons a' as =>
        have ih := loadLoop_tape (a' :: as) (add A a) n (by simp) (fun x hx => hg x (by simp [hx])) (by simpa using hn) hf hc
        obtain ⟨c, s, h1, h2⟩ : ∃ c s, tape (a' :: as) = c :: s ∧ c ≠ '\x00' := by
          rw [Aux.tape_cons]
          cases a' <;> exact ⟨_, _, rfl, by decide⟩
        rw [h1] at ih ⊢
        simp only [if_neg h2, ih]

theorem foldl_add (fs : List (String × Nat)) (cs : List (String × Nat × Nat × Nat)) : (fs.map asFormula ++ cs.map asContract).foldl add ⟨[], []⟩ =
    ⟨fs.map fun f => (f.1.toList, f.2), cs.map fun c => (c.1.toList, c.2)⟩ := by
  have h1 : ∀ (fs : List (String × Nat)) (A : Info), (fs.map asFormula).foldl add A = { A with formulas := A.formulas ++ fs.map fun f => (f.1.toList, f.2) } := by
    intro fs
    induction fs with
    | nil => intro A; simp
    | cons f fs ih => intro A; simp [ih, add, asFormula]
  have h2 : ∀ (cs : List (String × Nat × Nat × Nat)) (A : Info), (cs.map asContract).foldl add A = { A with contracts := A.contracts ++ cs.map fun c => (c.1.toList, c.2) } := by
    intro cs
    induction cs with
    | nil => intro A; simp
    | cons f fs ih => intro A; simp [ih, add, asContract]
  rw [List.foldl_append, h1, h2]
  simp

theorem stopAt_load {s : List Nat} : ∀ (n o : Nat) {x : List LoadEv × Nat}, R2U2.loadLoop n s o = some x → stopAt n s o = some x.2
  | 0, _, _, h => by cases h
  | n + 1, o, x, h => by
      unfold R2U2.loadLoop at h
      unfold stopAt
      split at h
      · cases h
      · next len hl =>
        rw [hl]
        split at h
        · next h0 => simp only [if_pos h0]; cases h; rfl
        · next h0 =>
          simp only [if_neg h0]
          split at h
          · next es rest o' h1 h2 => cases h; have := stopAt_load n _ h2; exact this
          · cases h

/-- The tables of a binary. -/
theorem load_packed {is : List Instr} {specs : List (String × Nat)} {contracts : List (String × Nat × Nat × Nat)} {bytes : List Nat}
    (hs : assembleBytes is (Aux.packed (Aux.aliases specs contracts)) = some bytes) (hl : Labels specs contracts) (hne : specs ≠ []) {lim : Lim}
    (hf : specs.length ≤ lim.formulas) (hc : contracts.length ≤ lim.contracts) {fuel : Nat} (hfuel : is.length < fuel) :
    load lim fuel bytes = some ⟨specs.map fun f => (f.1.toList, f.2), contracts.map fun c => (c.1.toList, c.2)⟩ := by
  obtain ⟨es, stop, _, h1, _, h3⟩ := C25_framing is _ bytes hs
  have hlb := h1 fuel hfuel
  unfold loadBinary at hlb
  cases h0 : bytes[0]? with
  | none => rw [h0] at hlb; cases hlb
  | some o =>
    rw [h0] at hlb
    have hst := stopAt_load _ _ hlb
    have hal : Aux.aliases specs contracts = specs.map asFormula ++ contracts.map asContract := by
      rw [Aux.aliases, if_neg]
      · rfl
      · simp only [List.any_eq_true, decide_eq_true_eq, not_exists, not_and, not_lt]
        exact fun s hs => (hl.idents s hs).2.1
    have htape : (Aux.packed (Aux.aliases specs contracts) ++ [0]).map Char.ofNat = tape (specs.map asFormula ++ contracts.map asContract) := by
      rw [hal, Aux.packed, tape, List.map_append, List.map_flatMap]
      congr 1
      refine congrArg (fun g => List.flatMap g _) (funext fun a => ?_)
      rw [List.map_append, List.map_map]
      congr 1
      rw [show Char.ofNat ∘ Char.toNat = id from funext fun c => Char.ofNat_toNat c, List.map_id]
    have hlen : (specs.map asFormula ++ contracts.map asContract).length ≤ bytes.length + 1 := by
      have k1 : ∀ as : List Alias, as.length ≤ (Aux.packed as).length := by
        intro as
        induction as with
        | nil => simp
        | cons a as ih => simp only [Aux.packed, List.flatMap_cons, List.length_append, List.length_cons, List.length_nil] at ih ⊢; omega
      have k2 := k1 (Aux.aliases specs contracts)
      have k3 := congrArg List.length h3
      rw [hal] at k2 k3
      simp only [List.length_append, List.length_cons, List.length_nil, List.length_drop] at k2 k3 ⊢
      omega
    unfold load
    rw [h0, Option.bind_some, hst, Option.bind_some, h3, htape, loadLoop_tape _ _ _ (by simpa using fun h => absurd h hne) ?_ hlen, foldl_add]
    · rw [foldl_add]; simpa using hf
    · rw [foldl_add]; simpa using hc
    · intro a ha
      rcases List.mem_append.1 ha with ha | ha
      · obtain ⟨f, hf, rfl⟩ := List.mem_map.1 ha
        obtain ⟨q1, q2, q3⟩ := hl.idents f hf
        exact ⟨word_of_ident q1, le_trans q2 (by decide), q3⟩
      · obtain ⟨c, hc, rfl⟩ := List.mem_map.1 ha
        obtain ⟨q1, q2, q3⟩ := hl.contracts c hc
        exact ⟨word_of_ident q1, q2, q3⟩

/-! ### Lines -/

theorem line_named {specs : List (String × Nat)} {cs : List (List Char × Nat × Nat × Nat)} (hn : specs.map (fun x => x.2) = List.range specs.length)
    {lim : Lim} (hf : specs.length ≤ lim.formulas) : Info.line ⟨specs.map fun f => (f.1.toList, f.2), cs⟩ lim = named specs := by
  funext x
  unfold Info.line named Info.name
  rw [Aux.find_range hn]
  by_cases hi : x.1 < specs.length
  · rw [if_pos (by omega), List.getElem?_map, List.getElem?_eq_getElem hi]
    cases x.2.truth <;> simp
  · have : (if x.1 < lim.formulas then (((specs.map fun f => (f.1.toList, f.2))[x.1]?).map (·.1)).getD [] else []) = [] := by
      rw [List.getElem?_map, List.getElem?_eq_none (by omega)]; simp
    rw [this, List.getElem?_eq_none (by omega)]
    cases x.2.truth <;> simp

theorem statusText_line (l s : String) (t : Nat) : statusText (l.toList, s, t) = statusLine l s t := by
  unfold statusText statusLine
  generalize natStr t = n
  generalize l.toList = l
  generalize s.toList = s
  simp

theorem statusFor_lines (x : Nat × Verdict) : ∀ (cs : List (String × Nat × Nat × Nat)), (∀ c ∈ cs, Aux.Word c.1.toList) → (cs.flatMap nums).Nodup →
    ((statusFor x (cs.map fun c => (c.1.toList, c.2))).toList.flatMap statusText) = statusLines cs x
  | [], _, _ => rfl
  | c :: cs, hw, hd => by
      have htext : ∀ s, statusText (c.1.toList, s, x.2.time) = statusLine c.1 s x.2.time := fun s => statusText_line _ _ _
      rw [List.flatMap_cons, List.nodup_append] at hd
      obtain ⟨n1, n2, n3⟩ := hd
      have hrest : ∀ s, statusOf c x = some s → statusLines cs x = [] := by
        intro s hs
        have hx := Aux.statusOf_mine hs
        simp only [statusLines, List.flatMap_eq_nil_iff]
        intro d hd'
        rw [Aux.statusOf_other]
        intro hx'
        exact n3 _ hx _ (List.mem_flatMap.2 ⟨d, hd', hx'⟩) rfl
      have hcons : statusLines (c :: cs) x = (match statusOf c x with | some s => statusLine c.1 s x.2.time | none => []) ++ statusLines cs x := rfl
      rw [hcons]
      simp only [List.map_cons, statusFor, if_neg (hw c (by simp)).1]
      by_cases h1 : x.1 = c.2.1 ∧ x.2.truth = false
      · have e : statusOf c x = some "inactive" := by rw [statusOf, if_pos h1]
        rw [if_pos ⟨h1.1.symm, h1.2⟩, hrest _ e, e]
        simp [htext]
      rw [if_neg (fun h => h1 ⟨h.1.symm, h.2⟩)]
      by_cases h2 : x.1 = c.2.2.1 ∧ x.2.truth = false
      · have e : statusOf c x = some "invalid" := by rw [statusOf, if_neg h1, if_pos h2]
        rw [if_pos ⟨h2.1.symm, h2.2⟩, hrest _ e, e]
        simp [htext]
      rw [if_neg (fun h => h2 ⟨h.1.symm, h.2⟩)]
      by_cases h3 : x.1 = c.2.2.2 ∧ x.2.truth = true
      · have e : statusOf c x = some "verified" := by rw [statusOf, if_neg h1, if_neg h2, if_pos h3]
        rw [if_pos ⟨h3.1.symm, h3.2⟩, hrest _ e, e]
        simp [htext]
      rw [if_neg (fun h => h3 ⟨h.1.symm, h.2⟩), statusFor_lines x cs (fun d hd' => hw d (by simp [hd'])) n2]
      have e : statusOf c x = none := by rw [statusOf, if_neg h1, if_neg h2, if_neg h3]
      rw [e]; rfl

theorem statuses_lines {cs : List (String × Nat × Nat × Nat)} (hw : ∀ c ∈ cs, Aux.Word c.1.toList) (hd : (cs.flatMap nums).Nodup) (out : List (Nat × Verdict)) :
    (out.filterMap fun x => statusFor x (cs.map fun c => (c.1.toList, c.2))).flatMap statusText = out.flatMap (statusLines cs) := by
  induction out with
  | nil => rfl
  | cons x out ih =>
    have h := statusFor_lines x cs hw hd
    rw [List.flatMap_cons, ← ih, ← h]
    cases hs : statusFor x (cs.map fun c => (c.1.toList, c.2)) with
    | none => simp only [List.filterMap_cons, hs]; rfl
    | some y => simp only [List.filterMap_cons, hs]; simp

/-! ### Steps -/

variable {F : Type} {ops : Ops F} {readF : List Char → Option F}

theorem loop_eq {lim : BzLimits} {alim : Lim} {A : Info} {ea dc : Bool} {fuel : Nat} : ∀ (rows : List (List (List Char))) (st : Tool.State F),
    (∀ xs, Tool.steps ops lim readF fuel rows st = some xs → ∀ x ∈ xs, x.1.length ≤ alim.statuses) →
    loop ops lim alim A ea dc readF fuel rows st = (Tool.steps ops lim readF fuel rows st).map fun xs => xs.flatMap fun x =>
      if x.2 then x.1.flatMap (if ea then A.line alim else Tool.line) ++
        (if dc then [] else (x.1.filterMap fun y => statusFor y A.contracts).flatMap statusText)
      else "Overflow occurred!!!!\n".toList
  | [], _, _ => rfl
  | r :: rs, st, h => by
      simp only [loop, Tool.steps, Option.map_bind, Option.map_map, Function.comp_def]
      simp only [Tool.steps] at h
      cases h1 : Tool.record lim readF st r with
      | none => rfl
      | some st1 =>
        simp only [h1, Option.bind_some] at h ⊢
        cases h2 : st1.mon.step ops lim fuel st1.sig with
        | none => rfl
        | some x =>
          simp only [h2, Option.bind_some, Option.map_eq_some_iff] at h ⊢
          cases h3 : Tool.steps ops lim readF fuel rs { st1 with mon := x.1 } with
          | none =>
            have := loop_eq (alim := alim) (A := A) (ea := ea) (dc := dc) rs { st1 with mon := x.1 } (fun xs hxs => by rw [h3] at hxs; cases hxs)
            rw [this, h3]
            cases A.statuses alim x.1.tl.outputs <;> rfl
          | some xs =>
            have hh := h _ ⟨xs, h3, rfl⟩
            have hx := hh _ (List.mem_cons_self ..)
            have := loop_eq (alim := alim) (A := A) (ea := ea) (dc := dc) rs { st1 with mon := x.1 }
              (fun ys hys y hy => by rw [h3] at hys; cases hys; exact hh y (by simp [hy]))
            rw [this, h3]
            have hst : A.statuses alim x.1.tl.outputs = some (x.1.tl.outputs.filterMap fun y => statusFor y A.contracts) := by
              unfold Info.statuses
              rw [if_pos (le_trans (List.length_filterMap_le _ _) hx)]
            rw [hst]
            rfl

end Names

/-! ### Room for outputs -/

namespace Monitor

/-- The limits stay, and the outputs stay within them. -/
def Keeps (M M' : Monitor) : Prop := M'.lim = M.lim ∧ (M.idx ≤ M.lim.outputs → M'.idx ≤ M.lim.outputs)

theorem Keeps.refl (M : Monitor) : Keeps M M := ⟨rfl, id⟩

theorem Keeps.trans {M M' M'' : Monitor} (h1 : Keeps M M') (h2 : Keeps M' M'') : Keeps M M'' :=
  ⟨h2.1.trans h1.1, fun h => by have := h2.2 (by rw [h1.1]; exact h1.2 h); rwa [h1.1] at this⟩

theorem keeps_same {M M' : Monitor} (h1 : M'.lim = M.lim) (h2 : M'.idx = M.idx) : Keeps M M' := ⟨h1, fun h => by rw [h2]; exact h⟩

theorem scqWrite_keeps {M M' : Monitor} {q : Nat} {v : Verdict} (h : M.scqWrite q v = some M') : Keeps M M' := by
  simp only [scqWrite, Option.bind_eq_some_iff] at h
  obtain ⟨b, _, p, _, vp, _, vw, _, _, _, h⟩ := h
  split at h
  · cases h
  · cases h; exact keeps_same rfl rfl

theorem operand_keeps {M : Monitor} {i : TlRec} {s : Bool} {x : Monitor × Option Verdict} (h : M.operand i s = some x) : Keeps M x.1 := by
  unfold operand at h
  generalize (if s = true then i.t2 else i.t1) = t at h
  generalize (if s = true then i.v2 else i.v1) = v at h
  split at h
  · split at h
    · split at h <;> cases h; exact .refl _
    · cases h; exact .refl _
  · split at h
    · rw [Option.map_eq_some_iff] at h
      obtain ⟨_, _, rfl⟩ := h
      exact .refl _
    · cases h; exact .refl _
  · simp only [scqRead, Option.bind_eq_some_iff] at h
    obtain ⟨c, _, p, _, _, _, h⟩ := h
    generalize (if s = true then p.read2 else p.read1) = r at h
    split at h
    · cases h; exact .refl _
    · rw [Option.map_eq_some_iff] at h
      obtain ⟨_, _, rfl⟩ := h
      exact keeps_same rfl rfl
  · cases h; exact .refl _

theorem pushResult_keeps {M M' : Monitor} {i : TlRec} {v : Verdict} (h : M.pushResult i v = some M') : Keeps M M' :=
  Keeps.trans (M' := { M with progress := M.progress.flag }) (keeps_same rfl rfl) (scqWrite_keeps h)

theorem finish_keeps {M M' : Monitor} {i : TlRec} {op : Block → Res} (h : M.finish i op = some M') : Keeps M M' := by
  simp only [finish, Option.bind_eq_some_iff] at h
  obtain ⟨b, _, x, _, h⟩ := h
  split at h
  · refine Keeps.trans ?_ (pushResult_keeps h)
    exact keeps_same rfl rfl
  · cases h; exact keeps_same rfl rfl

theorem update_keeps {M M' : Monitor} {i : TlRec} (h : M.update i = some M') : Keeps M M' := by
  have un : ∀ {op}, M.unary i op = some M' → Keeps M M' := by
    intro op h
    simp only [unary, Option.bind_eq_some_iff] at h
    obtain ⟨x, h1, h2⟩ := h
    exact (operand_keeps h1).trans (finish_keeps h2)
  have bi : ∀ {op}, M.binary i op = some M' → Keeps M M' := by
    intro op h
    simp only [binary, Option.bind_eq_some_iff] at h
    obtain ⟨x, h1, y, h2, h3⟩ := h
    exact ((operand_keeps h1).trans (operand_keeps h2)).trans (finish_keeps h3)
  unfold update at h
  split at h
  · simp only [load, Option.bind_eq_some_iff] at h
    obtain ⟨x, h1, h⟩ := h
    split at h
    · rw [Option.bind_eq_some_iff] at h
      obtain ⟨b, _, h⟩ := h
      refine (operand_keeps h1).trans (Keeps.trans ?_ (pushResult_keeps h))
      exact keeps_same rfl rfl
    · cases h; exact operand_keeps h1
  · simp only [ret, Option.bind_eq_some_iff] at h
    obtain ⟨x, h1, h⟩ := h
    split at h
    · rw [Option.bind_eq_some_iff] at h
      obtain ⟨b, _, h⟩ := h
      refine (operand_keeps h1).trans ?_
      split at h
      · next hlt => cases h; exact ⟨rfl, fun _ => hlt⟩
      · cases h
    · cases h; exact operand_keeps h1
  all_goals first
    | exact bi h
    | exact un h
    | (cases h; exact .refl _)

theorem pass_keeps : ∀ (is : List TlRec) {M M' : Monitor}, pass is M = some M' → Keeps M M'
  | [], M, M', h => by cases h; exact .refl _
  | i :: is, M, M', h => by
      simp only [pass, Option.bind_eq_some_iff] at h
      obtain ⟨M1, h1, h2⟩ := h
      exact (update_keeps h1).trans (pass_keeps is h2)

theorem loop_keeps : ∀ (n : Nat) {M M' : Monitor}, loop n M = some M' → Keeps M M'
  | 0, _, _, h => by cases h
  | n + 1, M, M', h => by
      simp only [loop] at h
      split at h
      · cases h
      · next M1 h1 =>
        refine (pass_keeps _ h1).trans ?_
        split at h
        · refine Keeps.trans ?_ (loop_keeps n h)
          exact keeps_same rfl rfl
        · refine Keeps.trans ?_ (loop_keeps n h)
          exact keeps_same rfl rfl
        · split at h <;> cases h <;> exact keeps_same rfl rfl

/-- A step gives no more outputs than there is room for. -/
theorem step_room {M M' : Monitor} {fuel : Nat} {atoms : Nat → Bool} (h : M.step fuel atoms = some M') : M'.outputs.length ≤ M.lim.outputs ∧ M'.lim = M.lim := by
  obtain ⟨h1, h2⟩ := loop_keeps _ h
  exact ⟨by simpa [outputs] using h2 (Nat.zero_le _), h1⟩

theorem frames_lim {s : List Nat} : ∀ (n o : Nat) {N N' : Monitor}, N.max ≤ N.lim.tl → frames n s o N = some N' → N'.lim = N.lim := by
  intro n
  induction n with
  | zero => intro o N N' _ h; cases h
  | succ n ih =>
      intro o N N' hN h
      simp only [frames] at h
      split at h
      · cases h
      · split at h
        · cases h; rfl
        · rw [Option.bind_eq_some_iff] at h
          obtain ⟨N1, h1, h2⟩ := h
          obtain ⟨r1, r2⟩ := frame_room hN h1
          rw [ih _ r1 h2, r2]

end Monitor

theorem getMonitor_lim {lim : Limits} {fuel : Nat} {s : List Nat} {M : Monitor} (h : getMonitor lim fuel s = some M) : M.lim = lim := by
  unfold getMonitor Monitor.process at h
  split at h
  · cases h
  · rw [Option.bind_eq_some_iff] at h
    obtain ⟨M1, h1, h2⟩ := h
    rw [(setNext_program _ h2).2.2, Monitor.frames_lim _ _ (Nat.zero_le _) h1]
    rfl

namespace Tool
variable {F : Type} {ops : Ops F} {readF : List Char → Option F}

theorem loadString_lim {lim : BzLimits} {st st' : State F} {k : Nat} {s : List Char} (h : loadString lim readF st k s = some st') :
    st'.mon.tl.lim = st.mon.tl.lim := by
  unfold loadString at h
  split at h
  · rw [Option.bind_eq_some_iff] at h
    obtain ⟨_, _, h⟩ := h
    split at h <;> cases h; rfl
  · split at h
    · split at h
      · cases h; rfl
      · rw [Option.map_eq_some_iff] at h
        obtain ⟨_, _, rfl⟩ := h
        rfl
    · cases h

theorem loadFrom_lim {lim : BzLimits} : ∀ (fs : List (List Char)) (k : Nat) {st st' : State F}, loadFrom lim readF st k fs = some st' →
    st'.mon.tl.lim = st.mon.tl.lim
  | [], _, _, _, h => by cases h; rfl
  | f :: fs, k, st, st', h => by
      simp only [loadFrom, Option.bind_eq_some_iff] at h
      obtain ⟨st1, h1, h2⟩ := h
      rw [loadFrom_lim fs _ h2, loadString_lim h1]

theorem record_lim {lim : BzLimits} {st st' : State F} {r : List (List Char)} (h : record lim readF st r = some st') : st'.mon.tl.lim = st.mon.tl.lim := by
  unfold record at h
  split at h
  · cases h
  · rw [Option.bind_eq_some_iff] at h
    obtain ⟨st1, h1, h2⟩ := h
    rw [loadFrom_lim _ _ h2]
    split at h1
    · simp only at h1
      split at h1
      · rw [loadString_lim h1]
        split <;> rfl
      · cases h1
    · exact loadString_lim h1

theorem steps_room {lim : BzLimits} {fuel : Nat} : ∀ (rows : List (List (List Char))) (st : State F) {xs : List (List (Nat × Verdict) × Bool)},
    steps ops lim readF fuel rows st = some xs → ∀ x ∈ xs, x.1.length ≤ st.mon.tl.lim.outputs
  | [], st, xs, h => by cases h; simp
  | r :: rs, st, xs, h => by
      simp only [steps, Option.bind_eq_some_iff, Option.map_eq_some_iff] at h
      obtain ⟨st1, h1, ⟨S, b⟩, h2, ys, h3, rfl⟩ := h
      have hl := record_lim h1
      simp only [Full.step, Option.bind_eq_some_iff, Option.map_eq_some_iff] at h2
      obtain ⟨m, _, M, h4, h5⟩ := h2
      obtain ⟨k1, k2⟩ := Monitor.step_room h4
      cases h5
      intro x hx
      rcases List.mem_cons.1 hx with rfl | hx
      · rw [← hl]; exact k1
      · have := steps_room rs _ h3 x hx
        rw [← hl, ← k2]; exact this

end Tool
end Rs
end R2U2
