import Verif.Spec.Map
import Verif.Lemmas.Printing
import Verif.Props.Graph
namespace R2U2
namespace Map

/-! ### characters -/

theorem isDig_of_isDigit {c : Char} (h : c.isDigit = true) : isDig c = true := by
  simpa [Char.isDigit, isDig, Char.le_def] using h

theorem word_of_dig {c : Char} (h : isDig c = true) : isWordC c = true := by simp [isWordC, h]
theorem word_of_letter {c : Char} (h : isLetter c = true) : isWordC c = true := by simp [isWordC, h]
theorem name_of_word {c : Char} (h : isWordC c = true) : isNameC c = true := by simp [isNameC, h]

theorem ne_of_word {c d : Char} (h : isWordC c = true) (hd : isWordC d = false) : c ≠ d := by
  rintro rfl; rw [h] at hd; cases hd

theorem not_space_of_dig {c : Char} (h : isDig c = true) : isSpace c = false := by
  simp only [isDig, Bool.and_eq_true, decide_eq_true_eq, Char.le_def] at h
  have h1 : 48 ≤ c.toNat := h.1
  have h2 : c.toNat ≤ 57 := h.2
  have h3 : c ≠ ' ' := by rintro rfl; revert h1; decide
  simp [isSpace, h3]; omega

theorem ne_under_of_dig {c : Char} (h : isDig c = true) : c ≠ '_' := by
  rintro rfl; revert h; decide

theorem Ident.word {a : List Char} (h : Ident a) : ∀ x ∈ a, isWordC x = true := by
  obtain ⟨c, cs, rfl, hc, hcs⟩ := h
  intro x hx
  rcases List.mem_cons.1 hx with rfl | hx
  · exact word_of_letter hc
  · exact hcs x hx

/-! ### lists -/

theorem takeWhile_append_stop {α : Type} {p : α → Bool} : ∀ {l : List α} {x r}, (∀ y ∈ l, p y = true) → p x = false →
    (l ++ x :: r).takeWhile p = l
  | [], x, r, _, hx => by simp [List.takeWhile_cons, hx]
  | y :: l, x, r, h, hx => by
    simp only [List.cons_append, List.takeWhile_cons, h y (by simp), if_true]
    rw [takeWhile_append_stop (fun z hz => h z (by simp [hz])) hx]

theorem dropWhile_append_stop {α : Type} {p : α → Bool} : ∀ {l : List α} {x r}, (∀ y ∈ l, p y = true) → p x = false →
    (l ++ x :: r).dropWhile p = x :: r
  | [], x, r, _, hx => by simp [List.dropWhile_cons, hx]
  | y :: l, x, r, h, hx => by
    simp only [List.cons_append, List.dropWhile_cons, h y (by simp), if_true]
    exact dropWhile_append_stop (fun z hz => h z (by simp [hz])) hx

theorem takeWhile_all {α : Type} {p : α → Bool} : ∀ {l : List α}, (∀ y ∈ l, p y = true) → l.takeWhile p = l
  | [], _ => rfl
  | y :: l, h => by
    simp only [List.takeWhile_cons, h y (by simp), if_true]
    rw [takeWhile_all (fun z hz => h z (by simp [hz]))]

theorem dropWhile_all {α : Type} {p : α → Bool} : ∀ {l : List α}, (∀ y ∈ l, p y = true) → l.dropWhile p = []
  | [], _ => rfl
  | y :: l, h => by
    simp only [List.dropWhile_cons, h y (by simp), if_true]
    exact dropWhile_all (fun z hz => h z (by simp [hz]))

theorem takeWhile_mem {α : Type} {p : α → Bool} : ∀ (l : List α), ∀ x ∈ l.takeWhile p, p x = true
  | [], _, h => by simp at h
  | y :: l, x, h => by
    rw [List.takeWhile_cons] at h
    split at h
    · rename_i hy
      rcases List.mem_cons.1 h with rfl | h
      · exact hy
      · exact takeWhile_mem l x h
    · cases h

/-! ### numbers -/

theorem digitsU_digits : ∀ (ds : List Char) (acc : Nat), (∀ d ∈ ds, isDig d = true) →
    digitsU acc false ds = some (ds.foldl (fun n d => n * 10 + (d.toNat - 48)) acc)
  | [], acc, _ => by simp [digitsU]
  | d :: ds, acc, h => by
    have hd := h d (by simp)
    have h1 : digitsU acc false (d :: ds) = digitsU (acc * 10 + (d.toNat - 48)) false ds := by
      rw [digitsU]
      · simp [hd]
      · intro he; exact ne_under_of_dig hd he
    rw [h1, digitsU_digits ds _ (fun x hx => h x (by simp [hx]))]
    rfl

theorem dropWhile_eq_self {α : Type} {p : α → Bool} {l : List α} (h : ∀ y ∈ l, p y = false) : l.dropWhile p = l := by
  cases l with
  | nil => rfl
  | cons a l => simp [List.dropWhile_cons, h a (by simp)]

theorem pyInt_number {ds : List Char} {n : Nat} (h : Number ds n) : pyInt ds = some n := by
  obtain ⟨hne, hd, rfl⟩ := h
  have h1 : ds.dropWhile isSpace = ds := dropWhile_eq_self fun y hy => not_space_of_dig (hd y hy)
  have h2 : ds.reverse.dropWhile isSpace = ds.reverse :=
    dropWhile_eq_self fun y hy => not_space_of_dig (hd y (by simpa using hy))
  unfold pyInt
  rw [h1, h2, List.reverse_reverse]
  cases ds with
  | nil => exact absurd rfl hne
  | cons d ds =>
    simp only [hd d (by simp), if_true]
    rw [digitsU_digits ds _ (fun x hx => hd x (by simp [hx]))]
    simp [value]

theorem digitChar_toNat {d : Nat} (h : d < 10) : (Nat.digitChar d).toNat - 48 = d := by
  have : ∀ d : Fin 10, (Nat.digitChar d).toNat - 48 = d := by decide
  exact this ⟨d, h⟩

theorem value_natStr (n : Nat) : value (natStr n) = n := by
  unfold natStr
  split
  · rename_i h; subst h; rfl
  · have h2 : ∀ l : List Nat, (∀ d ∈ l, d < 10) → value ((l.map Nat.digitChar).reverse) = Nat.ofDigits 10 l := by
      intro l hl
      induction l with
      | nil => rfl
      | cons d l ih =>
        have := ih (fun x hx => hl x (by simp [hx]))
        simp only [value, List.map_cons, List.reverse_cons, List.foldl_append, List.foldl_cons, List.foldl_nil] at this ⊢
        rw [this, digitChar_toNat (hl d (by simp)), Nat.ofDigits_cons]
        omega
    rw [h2 _ (fun d hd => Nat.digits_lt_base (by omega) hd), Nat.ofDigits_digits]

theorem number_natStr (n : Nat) : Number (natStr n) n :=
  ⟨natStr_ne_nil n, fun _ hd => isDig_of_isDigit (natStr_digit hd), (value_natStr n).symm⟩

/-! ### lines -/

/-- What is needed of the part before the colon. -/
theorem line_parts {a id ds : List Char} {n : Nat} (hid : ∃ c cs, id = c :: cs ∧ isLetter c = true ∧ ∀ x ∈ cs, isNameC x = true)
    (hds : Number ds n) : lineMatches (id ++ ':' :: ds) = true ∧ beforeColon (id ++ ':' :: ds) = id ∧
      pyInt (afterColon (id ++ ':' :: ds)) = some n := by
  obtain ⟨c, cs, rfl, hc, hcs⟩ := hid
  have hcol : ∀ x, isNameC x = true → decide (x ≠ ':') = true := by
    intro x hx
    have : x ≠ ':' := by rintro rfl; revert hx; decide
    simpa using this
  have hall : ∀ x ∈ c :: cs, decide (x ≠ ':') = true := by
    intro x hx
    rcases List.mem_cons.1 hx with rfl | hx
    · exact hcol _ (name_of_word (word_of_letter hc))
    · exact hcol _ (hcs x hx)
  have hdall : ∀ x ∈ ds, decide (x ≠ ':') = true := fun x hx => hcol x (name_of_word (word_of_dig (hds.2.1 x hx)))
  refine ⟨?_, ?_, ?_⟩
  · obtain ⟨d, ds', rfl⟩ := List.exists_cons_of_ne_nil hds.1
    simp only [List.cons_append, lineMatches, hc, Bool.true_and]
    rw [dropWhile_append_stop hcs (by decide)]
    exact hds.2.1 d (by simp)
  · exact takeWhile_append_stop hall (by simp)
  · unfold afterColon
    rw [dropWhile_append_stop hall (by simp)]
    simp only [List.drop_succ_cons, List.drop_zero]
    rw [takeWhile_all hdall]
    exact pyInt_number hds

theorem lineEntries_name {a ds : List Char} {n : Nat} (ha : Ident a) (hn : Number ds n) :
    lineEntries (a ++ ':' :: ds) = some [(a, n)] := by
  obtain ⟨c, cs, rfl, hc, hcs⟩ := ha
  obtain ⟨h1, h2, h3⟩ := line_parts (a := []) ⟨c, cs, rfl, hc, fun x hx => name_of_word (hcs x hx)⟩ hn
  have h4 : rangeMatches (c :: cs) = false := by
    have : cs.dropWhile isWordC = [] := dropWhile_all hcs
    simp [rangeMatches, this]
  unfold lineEntries
  rw [h1, h2, h3]
  simp [h4]

theorem lineEntries_element {a ix ds : List Char} {i n : Nat} (ha : Ident a) (hi : Number ix i) (hl : ix.length ≤ 2)
    (hn : Number ds n) : lineEntries (a ++ '[' :: (ix ++ ']' :: ':' :: ds)) = some [(a ++ '[' :: (ix ++ [']']), n)] := by
  obtain ⟨c, cs, rfl, hc, hcs⟩ := ha
  have hid : ∃ c' cs', (c :: cs) ++ '[' :: (ix ++ [']']) = c' :: cs' ∧ isLetter c' = true ∧ ∀ x ∈ cs', isNameC x = true := by
    refine ⟨c, cs ++ '[' :: (ix ++ [']']), rfl, hc, ?_⟩
    intro x hx
    simp only [List.mem_append, List.mem_cons, List.not_mem_nil, or_false] at hx
    rcases hx with hx | rfl | hx | rfl
    · exact name_of_word (hcs x hx)
    · decide
    · exact name_of_word (word_of_dig (hi.2.1 x hx))
    · decide
  obtain ⟨h1, h2, h3⟩ := line_parts (a := []) hid hn
  have h4 : rangeMatches ((c :: cs) ++ '[' :: (ix ++ [']'])) = false := by
    simp only [List.cons_append, rangeMatches]
    rw [dropWhile_append_stop hcs (by decide)]
    match ix, hi.1, hl with
    | [x], _, _ => simp
    | [x, y], _, _ => simp
  have he : (c :: cs) ++ '[' :: (ix ++ ']' :: ':' :: ds) = ((c :: cs) ++ '[' :: (ix ++ [']'])) ++ ':' :: ds := by simp
  rw [he]
  unfold lineEntries
  rw [h1, h2, h3]
  simp only [if_true, Option.bind_some, h4]
  rfl

theorem splitDots_range {x : Char} {hi : List Char} (hx : x ≠ '.') (h : ∀ c ∈ hi, c ≠ '.') : splitDots (x :: '.' :: '.' :: hi) = [[x], hi] := by
  have h1 : ∀ l : List Char, (∀ c ∈ l, c ≠ '.') → splitDots l = [l] := by
    intro l hl
    induction l with
    | nil => simp [splitDots]
    | cons c l ih =>
      rw [splitDots, ih (fun y hy => hl y (by simp [hy]))]
      intro cs hc _
      exact hl c (by simp) hc
  rw [splitDots, splitDots, h1 hi h]
  intro cs hc _
  exact hx hc

theorem lineEntries_range {a lo hi ds : List Char} {l h n : Nat} (ha : Ident a) (hlo : Number lo l) (hl1 : lo.length = 1)
    (hhi : Number hi h) (hn : Number ds n) :
    lineEntries (a ++ '[' :: (lo ++ '.' :: '.' :: (hi ++ ']' :: ':' :: ds))) =
      some ((List.range (h + 1 - l)).map fun k => (a ++ '[' :: (natStr (l + k) ++ [']']), n + k)) := by
  have haw := ha.word
  obtain ⟨c, cs, rfl, hc, hcs⟩ := ha
  obtain ⟨x, rfl⟩ := List.length_eq_one_iff.1 hl1
  have hx := hlo.2.1 x (by simp)
  have hid : ∃ c' cs', (c :: cs) ++ '[' :: x :: '.' :: '.' :: (hi ++ [']']) = c' :: cs' ∧ isLetter c' = true ∧ ∀ x ∈ cs', isNameC x = true := by
    refine ⟨c, cs ++ '[' :: x :: '.' :: '.' :: (hi ++ [']']), rfl, hc, ?_⟩
    intro y hy
    simp only [List.mem_append, List.mem_cons, List.not_mem_nil, or_false] at hy
    rcases hy with hy | rfl | rfl | rfl | rfl | hy | rfl
    · exact name_of_word (hcs y hy)
    · decide
    · exact name_of_word (word_of_dig hx)
    · decide
    · decide
    · exact name_of_word (word_of_dig (hhi.2.1 y hy))
    · decide
  obtain ⟨h1, h2, h3⟩ := line_parts (a := []) hid hn
  have h4 : rangeMatches ((c :: cs) ++ '[' :: x :: '.' :: '.' :: (hi ++ [']'])) = true := by
    simp only [List.cons_append, rangeMatches]
    rw [dropWhile_append_stop hcs (by decide)]
    simp only [hc, hx, Bool.true_and]
    rw [dropWhile_append_stop hhi.2.1 (by decide)]
    rfl
  have h5 : base ((c :: cs) ++ '[' :: x :: '.' :: '.' :: (hi ++ [']'])) = c :: cs :=
    takeWhile_append_stop (fun y hy => by
      have := ne_of_word (d := '[') (haw y hy) (by decide)
      simpa using this) (by simp)
  have h6 : inside ((c :: cs) ++ '[' :: x :: '.' :: '.' :: (hi ++ [']'])) = x :: '.' :: '.' :: hi := by
    unfold inside
    rw [h5]
    have : ((c :: cs) ++ '[' :: x :: '.' :: '.' :: (hi ++ [']'])) = ((c :: cs) ++ '[' :: x :: '.' :: '.' :: hi) ++ ']' :: [] := by simp
    rw [this, takeWhile_append_stop (l := (c :: cs) ++ '[' :: x :: '.' :: '.' :: hi) (x := ']') (r := []) ?_ (by simp)]
    · have h : (c :: cs) ++ '[' :: x :: '.' :: '.' :: hi = ((c :: cs) ++ ['[']) ++ (x :: '.' :: '.' :: hi) := by simp
      rw [h, List.drop_append_of_le_length (by simp), List.drop_of_length_le (by simp)]
      rfl
    · intro y hy
      simp only [List.mem_append, List.mem_cons] at hy
      have hw : ∀ z, isWordC z = true → decide (z ≠ ']') = true := fun z hz => by
        have := ne_of_word (d := ']') hz (by decide)
        simpa using this
      rcases hy with (rfl | hy) | rfl | rfl | rfl | rfl | hy
      · exact hw _ (word_of_letter hc)
      · exact hw _ (hcs y hy)
      · decide
      · exact hw _ (word_of_dig hx)
      · decide
      · decide
      · exact hw _ (word_of_dig (hhi.2.1 y hy))
  have hdot : ∀ z, isDig z = true → z ≠ '.' := fun z hz => ne_of_word (word_of_dig hz) (by decide)
  have he : (c :: cs) ++ '[' :: ([x] ++ '.' :: '.' :: (hi ++ ']' :: ':' :: ds)) =
      ((c :: cs) ++ '[' :: x :: '.' :: '.' :: (hi ++ [']'])) ++ ':' :: ds := by simp
  rw [he]
  unfold lineEntries
  rw [h1, h2, h3]
  simp only [if_true, Option.bind_some, h4, h6, splitDots_range (hdot x hx) (fun c hc => hdot c (hhi.2.1 c hc)),
    pyInt_number hlo, pyInt_number hhi, Option.map_some, h5]
  congr 1
  apply List.map_congr_left
  intro k _
  simp [element]

/-! ### the mapping -/

theorem lookup_set (k v : _) (d : List (List Char × Nat)) (s : List Char) :
    (set k v d).lookup s = if s = k then some v else d.lookup s := by
  induction d with
  | nil =>
    simp only [set, List.lookup]
    by_cases h : s = k
    · simp [h]
    · simp [h, beq_eq_false_iff_ne.2 h]
  | cons e d ih =>
    obtain ⟨k', v'⟩ := e
    simp only [set]
    by_cases hk : k' = k
    · subst hk
      simp only [if_true, List.lookup]
      by_cases h : s = k'
      · simp [h]
      · simp [h, beq_eq_false_iff_ne.2 h]
    · rw [if_neg hk]
      simp only [List.lookup]
      by_cases h : s = k'
      · subst h; simp [hk]
      · simp [beq_eq_false_iff_ne.2 h, ih]

theorem lookup_setAll (es : List (List Char × Nat)) : ∀ (m : List (List Char × Nat)) (s : List Char),
    (setAll m es).lookup s = (es.reverse.lookup s).or (m.lookup s) := by
  induction es with
  | nil => intro m s; simp [setAll]
  | cons e es ih =>
    intro m s
    have := ih (set e.1 e.2 m) s
    simp only [setAll, List.foldl_cons] at this ⊢
    rw [this, List.reverse_cons, List.lookup_append, lookup_set, Option.or_assoc]
    congr 1
    obtain ⟨k, v⟩ := e
    by_cases h : s = k
    · simp [h, List.lookup]
    · simp [h, List.lookup, beq_eq_false_iff_ne.2 h]

theorem mapLines_lookup : ∀ {lines : List (List Char)} {ess : List (List (List Char × Nat))} (m : List (List Char × Nat)),
    List.Forall₂ (fun l es => lineEntries l = some es) lines ess →
    ∃ m', mapLines m lines = some m' ∧ ∀ s, m'.lookup s = (ess.flatten.reverse.lookup s).or (m.lookup s)
  | [], _, m, h => by
    cases h
    exact ⟨m, rfl, fun s => by simp⟩
  | l :: ls, _, m, h => by
    cases h with
    | cons h1 h2 =>
      rename_i es ess
      obtain ⟨m', h3, h4⟩ := mapLines_lookup (setAll m es) h2
      refine ⟨m', by simp [mapLines, h1, h3], ?_⟩
      intro s
      rw [h4, lookup_setAll, List.flatten_cons, List.reverse_append, List.lookup_append, Option.or_assoc]

theorem mapLines_some : ∀ {lines : List (List Char)} {m m' : List (List Char × Nat)}, mapLines m lines = some m' →
    ∃ ess, List.Forall₂ (fun l es => lineEntries l = some es) lines ess
  | [], _, _, _ => ⟨[], .nil⟩
  | l :: ls, m, m', h => by
    simp only [mapLines, Option.bind_eq_some_iff] at h
    obtain ⟨es, h1, h2⟩ := h
    obtain ⟨ess, h3⟩ := mapLines_some h2
    exact ⟨es :: ess, .cons h1 h3⟩

/-! ### assigning -/

theorem nodesOf_mem {L : Type} {h : Heap L} (ha : h.Acyclic) : ∀ roots : List Nat, ∃ xs N,
    (∀ fuel, N ≤ fuel → nodesOf fuel h roots = some xs) ∧ ∀ x, x ∈ xs ↔ ∃ r ∈ roots, h.Reachable [r] x
  | [] => ⟨[], 0, fun _ _ => rfl, by simp⟩
  | r :: rs => by
    obtain ⟨xs, N, h1, h2⟩ := nodesOf_mem ha rs
    obtain ⟨ys, M, h3, _, h4, _⟩ := C48_postorder h ha [r]
    refine ⟨ys ++ xs, max N M, ?_, ?_⟩
    · intro fuel hf
      simp [nodesOf, h3 fuel (by omega), h1 fuel (by omega)]
    · intro x
      simp [h4, h2]

theorem nodesOf_mono {L : Type} {h : Heap L} : ∀ {roots : List Nat} {n m : Nat} {xs}, n ≤ m → nodesOf n h roots = some xs →
    nodesOf m h roots = some xs
  | [], _, _, _, _, hx => hx
  | r :: rs, n, m, xs, hnm, hx => by
    simp only [nodesOf, Option.bind_eq_some_iff, Option.map_eq_some_iff] at hx ⊢
    obtain ⟨ys, h1, zs, h2, rfl⟩ := hx
    refine ⟨ys, ?_, zs, nodesOf_mono hnm h2, rfl⟩
    simp only [Heap.postorder, Option.map_eq_some_iff] at h1 ⊢
    obtain ⟨w, h3, h4⟩ := h1
    exact ⟨w, Heap.walk_mono (fun _ _ _ _ h => h) hnm h3, h4⟩

theorem nodesOf_some {L : Type} {h : Heap L} (ha : h.Acyclic) {roots : List Nat} {fuel : Nat} {xs}
    (hx : nodesOf fuel h roots = some xs) (x : Nat) : x ∈ xs ↔ ∃ r ∈ roots, h.Reachable [r] x := by
  obtain ⟨ys, N, h1, h2⟩ := nodesOf_mem ha roots
  have h3 := h1 (max N fuel) (by omega)
  rw [nodesOf_mono (by omega : fuel ≤ max N fuel) hx] at h3
  cases h3
  exact h2 x

theorem assignTo_spec (h : Heap (Option (List Char))) (m : List (List Char × Nat)) : ∀ (xs : List Nat) (ids : Nat → Int),
    (∀ x, (assignTo h m ids xs).1 x =
      if x ∈ xs then (match (h.lab x).bind (m.lookup ·) with | some n => (n : Int) | none => ids x) else ids x) ∧
    ∀ s, s ∈ (assignTo h m ids xs).2 ↔ ∃ x ∈ xs, h.lab x = some s ∧ m.lookup s = none
  | [], ids => by simp [assignTo]
  | y :: xs, ids => by
    cases hl : h.lab y with
    | none =>
      obtain ⟨h1, h2⟩ := assignTo_spec h m xs ids
      have he : assignTo h m ids (y :: xs) = assignTo h m ids xs := by simp [assignTo, hl]
      rw [he]
      constructor
      · intro x
        rw [h1]
        by_cases hx : x = y
        · subst hx; simp [hl]
        · simp [hx]
      · intro s
        rw [h2]
        simp [hl]
    | some t =>
      cases hm : m.lookup t with
      | none =>
        obtain ⟨h1, h2⟩ := assignTo_spec h m xs ids
        have he : assignTo h m ids (y :: xs) = ((assignTo h m ids xs).1, t :: (assignTo h m ids xs).2) := by
          simp [assignTo, hl, hm]
        rw [he]
        constructor
        · intro x
          show (assignTo h m ids xs).1 x = _
          rw [h1]
          by_cases hx : x = y
          · subst hx; simp [hl, hm]
          · simp [hx]
        · intro s
          simp only [List.mem_cons, h2]
          constructor
          · rintro (rfl | ⟨x, hx, h⟩)
            · exact ⟨y, .inl rfl, hl, hm⟩
            · exact ⟨x, .inr hx, h⟩
          · rintro ⟨x, rfl | hx, h⟩
            · rw [hl] at h; simp only [Option.some.injEq] at h; exact .inl h.1.symm
            · exact .inr ⟨x, hx, h⟩
      | some n =>
        obtain ⟨h1, h2⟩ := assignTo_spec h m xs (fun z => if z = y then n else ids z)
        have he : assignTo h m ids (y :: xs) = assignTo h m (fun z => if z = y then n else ids z) xs := by
          simp [assignTo, hl, hm]
        rw [he]
        constructor
        · intro x
          rw [h1]
          by_cases hx : x = y
          · subst hx; simp [hl, hm]
          · simp [hx]
        · intro s
          rw [h2]
          constructor
          · rintro ⟨x, hx, h⟩; exact ⟨x, by simp [hx], h⟩
          · rintro ⟨x, hx, h⟩
            rcases List.mem_cons.1 hx with rfl | hx
            · rw [hl] at h; simp only [Option.some.injEq] at h
              obtain ⟨rfl, h⟩ := h
              rw [hm] at h; cases h
            · exact ⟨x, hx, h⟩

theorem LineMeans.last {b : Bool} {l : List Char} {es} (h : LineMeans b l es) : ∃ d, l.getLast? = some d ∧ isDig d = true := by
  have key : ∀ (p ds : List Char) (n : Nat), Number ds n → ∃ d, (p ++ ds).getLast? = some d ∧ isDig d = true := by
    intro p ds n hn
    obtain ⟨d, hd⟩ : ∃ d, ds.getLast? = some d := by
      cases h : ds.getLast? with
      | none => exact absurd (List.getLast?_eq_none_iff.1 h) hn.1
      | some d => exact ⟨d, rfl⟩
    exact ⟨d, by rw [List.getLast?_append, hd]; rfl, hn.2.1 d (List.mem_of_getLast? hd)⟩
  cases h with
  | @name a ds n _ hn => simpa using key (a ++ [':']) ds n hn
  | @element a ix ds i n _ _ _ hn => simpa using key (a ++ '[' :: (ix ++ ']' :: [':'])) ds n hn
  | @range a lo hi ds l h n _ _ _ _ hn => simpa using key (a ++ '[' :: (lo ++ '.' :: '.' :: (hi ++ ']' :: [':']))) ds n hn

/-! ### dictionaries with distinct keys -/

theorem lookup_iff_mem {l : List (List Char × Nat)} (h : (l.map (·.1)).Nodup) (k : List Char) (v : Nat) :
    l.lookup k = some v ↔ (k, v) ∈ l := by
  induction l with
  | nil => simp
  | cons e l ih =>
    obtain ⟨k', v'⟩ := e
    simp only [List.map_cons, List.nodup_cons] at h
    have ih := ih h.2
    by_cases hk : k = k'
    · subst hk
      simp only [List.lookup, BEq.rfl, Option.some.injEq, List.mem_cons, Prod.mk.injEq, true_and]
      constructor
      · rintro rfl; exact .inl rfl
      · rintro (rfl | hm)
        · rfl
        · exact absurd (List.mem_map.2 ⟨_, hm, rfl⟩) h.1
    · simp [List.lookup, beq_eq_false_iff_ne.2 hk, ih, hk]

theorem lookup_reverse {l : List (List Char × Nat)} (h : (l.map (·.1)).Nodup) (k : List Char) :
    l.reverse.lookup k = l.lookup k := by
  have h' : (l.reverse.map (·.1)).Nodup := by rw [List.map_reverse]; exact (List.reverse_perm _).nodup_iff.2 h
  cases hl : l.lookup k with
  | some v => rw [lookup_iff_mem h', List.mem_reverse]; exact (lookup_iff_mem h k v).1 hl
  | none =>
    cases hr : l.reverse.lookup k with
    | none => rfl
    | some v =>
      rw [lookup_iff_mem h', List.mem_reverse] at hr
      rw [(lookup_iff_mem h k v).2 hr] at hl
      cases hl

theorem zipIdx_keys {l : List (List Char)} (h : l.Nodup) : (l.zipIdx.map (·.1)).Nodup := by
  have : l.zipIdx.map (·.1) = l := by simp
  rw [this]; exact h

theorem natStr_length {k : Nat} (h : k < 100) : (natStr k).length ≤ 2 := by
  have : ∀ k : Fin 100, (natStr k).length ≤ 2 := by decide +kernel
  exact this ⟨k, h⟩

end Map
end R2U2
