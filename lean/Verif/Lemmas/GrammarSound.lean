import Verif.Lemmas.Grammar
/-
Lemmas for `Props/Grammar`: the parser of expressions accepts only what the grammar has.
-/
namespace R2U2
namespace C2po

inductive PreIs (m : Int) : Pre → List Tok → Prop
  | op (o : OpK) : o ∈ [OpK.neg, .bitNeg, .sub] → PreIs m (.op o) [.op o]
  | tmp {i : List Tok} {lb ub : Nat} (k : TmpK) : k ∈ [TmpK.G, .F, .H, .O] → IntervalIs m i lb ub → PreIs m (.tmp k lb ub) (.tl k :: i)

inductive BinIs (m : Int) : Bin → List Tok → Prop
  | op {n : Nat} (o : OpK) : o ∈ infixAt n → BinIs m (.op o n) [.op o]
  | tmp {i : List Tok} {lb ub : Nat} (k : TmpK) : k ∈ [TmpK.U, .R, .S, .T] → IntervalIs m i lb ub → BinIs m (.tmp k lb ub) (.tl k :: i)

abbrev Item := Nat × Nat × List Tok × Src

/-- The frames on the stack and the tokens they stand for. -/
inductive Stack (lits : List String) (m : Int) : List Frame → List Tok → Prop
  | nil : Stack lits m [] []
  | pre {fs : List Frame} {us p : List Tok} {o : Pre} : Stack lits m fs us → PreIs m o p → Stack lits m (.pre o :: fs) (us ++ p)
  | bin {fs : List Frame} {us p t : List Tok} {o : Bin} {lo hi : Nat} {e : Src} : Stack lits m fs us → Reads lits m lo hi t e → BinIs m o p →
      o.level ≤ hi → Under (min lo o.level) fs → Stack lits m (.bin e o :: fs) (us ++ (t ++ p))
  | paren {fs : List Frame} {us : List Tok} : Stack lits m fs us → Stack lits m (.paren :: fs) (us ++ [.lparen])
  | call {fs : List Frame} {us : List Tok} (f : String) (is : List Item) : Stack lits m fs us →
      (∀ i ∈ is, Reads lits m i.1 i.2.1 i.2.2.1 i.2.2.2) →
      Stack lits m (.call f (is.map fun i => i.2.2.2) :: fs) (us ++ .sym f :: .lparen :: is.flatMap fun i => i.2.2.1 ++ [.comma])
  | brace {fs : List Frame} {us : List Tok} (is : List Item) : Stack lits m fs us →
      (∀ i ∈ is, Reads lits m i.1 i.2.1 i.2.2.1 i.2.2.2) →
      Stack lits m (.brace (is.map fun i => i.2.2.2) :: fs) (us ++ .lbrace :: is.flatMap fun i => i.2.2.1 ++ [.comma])
  | fn {fs : List Frame} {us : List Tok} (o : OpK) : o ∈ [OpK.sqrt, .abs] → Stack lits m fs us → Stack lits m (.fn o :: fs) (us ++ [.op o, .lparen])
  | prevFst {fs : List Frame} {us : List Tok} : Stack lits m fs us → Stack lits m (.prevFst :: fs) (us ++ [.op .prev, .lparen])
  | prevSnd {fs : List Frame} {us t : List Tok} {lo hi : Nat} {e : Src} : Stack lits m fs us → Reads lits m lo hi t e →
      Stack lits m (.prevSnd e :: fs) (us ++ .op .prev :: .lparen :: (t ++ [.comma]))
  | aggSet {fs : List Frame} {us : List Tok} (k : AggK) (v : String) : Stack lits m fs us →
      Stack lits m (.aggSet k v :: fs) (us ++ [.agg k, .lparen, .sym v, .colon])
  | aggNum {fs : List Frame} {us t : List Tok} {lo hi : Nat} {e : Src} (k : AggK) (v : String) : counted k = true → Stack lits m fs us →
      Reads lits m lo hi t e → Stack lits m (.aggNum k v e :: fs) (us ++ .agg k :: .lparen :: .sym v :: .colon :: (t ++ [.comma]))
  | all {fs : List Frame} {us t : List Tok} {lo hi : Nat} {e : Src} (k : AggK) (v : String) : counted k = false → Stack lits m fs us →
      Reads lits m lo hi t e →
      Stack lits m (.aggBody k v [e] :: fs) (us ++ .agg k :: .lparen :: .sym v :: .colon :: (t ++ [.rparen, .lparen]))
  | count {fs : List Frame} {us t n : List Tok} {lo hi lo' hi' : Nat} {e c : Src} (k : AggK) (v : String) : counted k = true → Stack lits m fs us →
      Reads lits m lo hi t e → Reads lits m lo' hi' n c →
      Stack lits m (.aggBody k v [e, c] :: fs) (us ++ .agg k :: .lparen :: .sym v :: .colon :: (t ++ .comma :: (n ++ [.rparen, .lparen])))

variable {lits : List String} {m : Int}

theorem PreIs.level_lt {o : Pre} {p : List Tok} (h : PreIs m o p) : o.level < 15 := by
  cases h <;> simp [Pre.level]
theorem BinIs.level_lt {o : Bin} {p : List Tok} (h : BinIs m o p) : o.level < 15 := by
  cases h with
  | op o h => exact Nat.lt_of_le_of_lt (infixLevel_le (infixLevel_of.mp h)) (by omega)
  | tmp => simp [Bin.level]

theorem Stack.under {fs : List Frame} {us : List Tok} (h : Stack lits m fs us) : Under 15 fs := by
  cases h
  case nil => trivial
  case pre h => intro l hl; cases hl; exact h.level_lt
  case bin h _ _ => intro l hl; cases hl; exact h.level_lt
  all_goals intro l hl; cases hl

theorem PreIs.reads {o : Pre} {p t : List Tok} {lo hi : Nat} {e : Src} (h : PreIs m o p) (ht : Reads lits m lo hi t e) (hl : o.level < lo) :
    Reads lits m 15 (min o.level hi) (p ++ t) (o.mk e) := by
  cases h with
  | op o ho => exact .prefix o ho ht hl
  | tmp k hk hi => exact .during k hk hi ht hl

theorem BinIs.reads {o : Bin} {p t u : List Tok} {lo hi lo' hi' : Nat} {e d : Src} (h : BinIs m o p) (ht : Reads lits m lo hi t e)
    (hu : Reads lits m lo' hi' u d) (h1 : o.level ≤ hi) (h2 : o.level < lo') :
    Reads lits m (min lo o.level) (min o.level hi') (t ++ (p ++ u)) (o.mk e d) := by
  cases h with
  | op o ho => exact .infix o ho ht hu h1 h2
  | tmp k hk hi => exact .between k hk hi ht hu h1 h2

theorem reduce_reads : ∀ {fs : List Frame} {us : List Tok}, Stack lits m fs us → ∀ {lo hi l : Nat} {t : List Tok} {e : Src},
    Reads lits m lo hi t e → Under lo fs → l ≤ hi → ∃ us' t' lo' hi', us ++ t = us' ++ t' ∧ Stack lits m (reduce l e fs).2 us' ∧
      Reads lits m lo' hi' t' (reduce l e fs).1 ∧ Under (min lo' l) (reduce l e fs).2 ∧ l ≤ hi' := by
  intro fs
  induction fs with
  | nil => exact fun hs _ _ _ _ _ ht hu hl => ⟨_, _, _, _, rfl, hs, ht, trivial, hl⟩
  | cons f fs ih =>
    intro us hs lo hi l t e ht hu hl
    by_cases hf : ∃ k, f.level = some k ∧ l ≤ k
    · obtain ⟨k, hf, hk⟩ := hf
      cases hs with
      | @pre _ us p o hs hp =>
        cases hf
        rw [reduce_pre hk]
        obtain ⟨us', t', lo', hi', h1, h⟩ := ih hs (hp.reads ht (hu _ rfl)) hs.under (by omega : l ≤ min o.level hi)
        exact ⟨us', t', lo', hi', by rw [← h1, List.append_assoc], h⟩
      | @bin _ us p t1 o lo1 hi1 d hs h1 hp hle hun =>
        cases hf
        rw [reduce_bin hk]
        obtain ⟨us', t', lo', hi', h1, h⟩ := ih hs (hp.reads h1 ht hle (hu _ rfl)) hun (by omega : l ≤ min o.level hi)
        exact ⟨us', t', lo', hi', by rw [← h1]; simp, h⟩
      | _ => cases hf
    · have hun : Under l (f :: fs) := fun k hk => by
        by_contra h
        exact hf ⟨k, hk, by omega⟩
      rw [reduce_under hun]
      refine ⟨us, t, lo, hi, rfl, hs, ht, fun k hk => ?_, hl⟩
      have := hu k hk
      have := hun k hk
      show k < min lo l
      omega

theorem reduce_zero {fs : List Frame} {us : List Tok} (hs : Stack lits m fs us) {t : List Tok} {e : Src} (ht : Reads lits m 15 15 t e) :
    ∃ us' t' lo hi, us ++ t = us' ++ t' ∧ Stack lits m (reduce 0 e fs).2 us' ∧ Reads lits m lo hi t' (reduce 0 e fs).1 := by
  obtain ⟨us', t', lo, hi, h1, h2, h3, _⟩ := reduce_reads hs ht hs.under (Nat.zero_le _)
  exact ⟨us', t', lo, hi, h1, h2, h3⟩

theorem operand_leaf {ts us : List Tok} {e : Src} (h : operand lits m ts = some (.leaf e, us)) : ∃ p, ts = p ++ us ∧ Reads lits m 15 15 p e := by
  unfold operand at h
  split at h
  case h_11 =>
    split at h
    · simp only [Option.map_eq_some_iff] at h
      obtain ⟨i, hi, h⟩ := h
      cases h
    · cases h
  all_goals
    simp only [Option.some.injEq, Prod.mk.injEq, Head.leaf.injEq, reduceCtorEq, false_and] at h
  case h_12 => obtain ⟨rfl, rfl⟩ := h; exact ⟨[_, _, _], rfl, .unit _⟩
  case h_14 =>
    obtain ⟨rfl, rfl⟩ := h
    refine ⟨[_], rfl, ?_⟩
    unfold mkName
    split
    · exact .signal _ ‹_›
    · exact .name _ ‹_›
  case h_15 => obtain ⟨rfl, rfl⟩ := h; exact ⟨[_], rfl, .tru⟩
  case h_16 => obtain ⟨rfl, rfl⟩ := h; exact ⟨[_], rfl, .fls⟩
  case h_17 => obtain ⟨rfl, rfl⟩ := h; exact ⟨[_], rfl, .tau⟩
  case h_18 => obtain ⟨rfl, rfl⟩ := h; exact ⟨[_], rfl, .num _⟩
  case h_19 => obtain ⟨rfl, rfl⟩ := h; exact ⟨[_], rfl, .dec _⟩

theorem operand_push {ts us : List Tok} {f : Frame} (h : operand lits m ts = some (.push f, us)) :
    ∃ p, ts = p ++ us ∧ ∀ {fs : List Frame} {ws : List Tok}, Stack lits m fs ws → Stack lits m (f :: fs) (ws ++ p) := by
  unfold operand at h
  split at h
  case h_11 k ts =>
    split at h
    · rename_i hk
      simp only [Option.map_eq_some_iff] at h
      obtain ⟨⟨lb, ub, us⟩, hi, h⟩ := h
      cases h
      obtain ⟨is, rfl, hi'⟩ := interval_is hi
      exact ⟨.tl k :: is, rfl, fun hs => .pre hs (.tmp k (by cases k <;> simp_all [unary]) hi')⟩
    · cases h
  all_goals
    simp only [Option.some.injEq, Prod.mk.injEq, Head.push.injEq, reduceCtorEq, false_and] at h
  all_goals obtain ⟨rfl, rfl⟩ := h
  case h_1 => exact ⟨[_], rfl, fun hs => .paren hs⟩
  case h_3 => exact ⟨[_], rfl, fun hs => .brace [] hs (by simp)⟩
  case h_4 => exact ⟨[_], rfl, fun hs => .pre hs (.op _ (by simp))⟩
  case h_5 => exact ⟨[_], rfl, fun hs => .pre hs (.op _ (by simp))⟩
  case h_6 => exact ⟨[_], rfl, fun hs => .pre hs (.op _ (by simp))⟩
  case h_7 => exact ⟨[_, _], rfl, fun hs => .fn _ (by simp) hs⟩
  case h_8 => exact ⟨[_, _], rfl, fun hs => .fn _ (by simp) hs⟩
  case h_9 => exact ⟨[_, _], rfl, fun hs => .prevFst hs⟩
  case h_10 => exact ⟨[_, _, _, _], rfl, fun hs => .aggSet _ _ hs⟩
  case h_13 => exact ⟨[_, _], rfl, fun hs => .call _ [] hs (by simp)⟩

theorem after_bin {ts us : List Tok} {o : Bin} (h : after m ts = some (.bin o, us)) : ∃ p, ts = p ++ us ∧ BinIs m o p := by
  unfold after at h
  split at h
  · simp only [Option.map_eq_some_iff] at h
    obtain ⟨l, hl, h⟩ := h
    cases h
    exact ⟨[_], rfl, .op _ (infixLevel_of.mpr hl)⟩
  · rename_i k ts
    split at h
    · cases h
    · simp only [Option.map_eq_some_iff] at h
      obtain ⟨⟨lb, ub, us⟩, hi, h⟩ := h
      cases h
      obtain ⟨is, rfl, hi'⟩ := interval_is hi
      exact ⟨.tl k :: is, rfl, .tmp k (by cases k <;> simp_all [unary]) hi'⟩
  all_goals cases h

theorem after_post {ts us : List Tok} {k : SK} (h : after m ts = some (.post k, us)) :
    ∃ p, ts = p ++ us ∧ ∀ {t : List Tok} {e : Src}, Reads lits m 15 15 t e → Reads lits m 15 15 (t ++ p) (.node k .none [e]) := by
  unfold after at h
  split at h
  · simp only [Option.map_eq_some_iff] at h
    obtain ⟨l, hl, h⟩ := h
    cases h
  · split at h
    · cases h
    · simp only [Option.map_eq_some_iff] at h
      obtain ⟨i, hi, h⟩ := h
      cases h
  · cases h; exact ⟨[_, _], rfl, .access _⟩
  · cases h; exact ⟨[_, _, _], rfl, .index _⟩
  · cases h; exact ⟨[_, _, _, _, _], rfl, .slice _ _⟩
  all_goals cases h

def Closer.toks : Closer → List Tok
  | .paren => [.rparen]
  | .parens => [.rparen, .lparen]
  | .comma => [.comma]
  | .brace => [.rbrace]

theorem after_close {ts us : List Tok} {c : Closer} (h : after m ts = some (.close c, us)) : ts = c.toks ++ us := by
  unfold after at h
  split at h
  · simp only [Option.map_eq_some_iff] at h
    obtain ⟨l, hl, h⟩ := h
    cases h
  · split at h
    · cases h
    · simp only [Option.map_eq_some_iff] at h
      obtain ⟨i, hi, h⟩ := h
      cases h
  all_goals cases h <;> rfl

/-- The commas between the operands. -/
theorem commas {is : List Item} {t : List Tok} {lo hi : Nat} {e : Src} (hi' : ∀ i ∈ is, Reads lits m i.1 i.2.1 i.2.2.1 i.2.2.2)
    (ht : Reads lits m lo hi t e) : ∃ (lo hi : Nat) (u : List Tok) (d : Src) (more : List Item), Reads lits m lo hi u d ∧ (∀ i ∈ more, Reads lits m i.1 i.2.1 i.2.2.1 i.2.2.2) ∧
      (is.flatMap fun i => i.2.2.1 ++ [.comma]) ++ t = u ++ more.flatMap (fun i : Item => .comma :: i.2.2.1) ∧
      is.map (fun i => i.2.2.2) ++ [e] = d :: more.map fun i => i.2.2.2 := by
  induction is with
  | nil => exact ⟨lo, hi, t, e, [], ht, by simp, by simp, by simp⟩
  | cons i is ih =>
    obtain ⟨lo', hi'', u, d, more, h1, h2, h3, h4⟩ := ih fun j hj => hi' j (by simp [hj])
    refine ⟨i.1, i.2.1, i.2.2.1, i.2.2.2, (lo', hi'', u, d) :: more, hi' i (by simp), ?_, ?_, ?_⟩
    · intro j hj
      rcases List.mem_cons.mp hj with rfl | hj
      · exact h1
      · exact h2 j hj
    · simp [h3]
    · simp [h4]

/-- A closing bracket makes an expression. -/
theorem close_inl {fs : List Frame} {f : Frame} {us t : List Tok} {lo hi : Nat} {e e' : Src} {c : Closer} (hs : Stack lits m (f :: fs) us)
    (ht : Reads lits m lo hi t e) (hc : c.on e f = some (.inl e')) :
    ∃ ws t', us ++ (t ++ c.toks) = ws ++ t' ∧ Stack lits m fs ws ∧ Reads lits m 15 15 t' e' := by
  cases hs with
  | pre => cases c <;> cases hc
  | bin => cases c <;> cases hc
  | @paren _ us hs =>
    cases c <;> cases hc
    exact ⟨us, _, by simp [Closer.toks], hs, .paren ht⟩
  | @call _ us f is hs hi' =>
    cases c <;> cases hc
    obtain ⟨lo', hi'', u, d, more, h1, h2, h3, h4⟩ := commas hi' ht
    refine ⟨us, .sym f :: .lparen :: (u ++ (more.flatMap (fun i => .comma :: i.2.2.1) ++ [.rparen])), ?_, hs, ?_⟩
    · simp only [List.append_assoc, List.cons_append, Closer.toks]
      rw [← List.append_assoc u, ← h3]
      simp
    · rw [h4]; exact .call f more h1 h2
  | @brace _ us is hs hi' =>
    cases c <;> cases hc
    obtain ⟨lo', hi'', u, d, more, h1, h2, h3, h4⟩ := commas hi' ht
    refine ⟨us, .lbrace :: (u ++ (more.flatMap (fun i => .comma :: i.2.2.1) ++ [.rbrace])), ?_, hs, ?_⟩
    · simp only [List.append_assoc, List.cons_append, Closer.toks]
      rw [← List.append_assoc u, ← h3]
      simp
    · rw [h4]; exact .array more h1 h2
  | @fn _ us o ho hs =>
    cases c <;> cases hc
    exact ⟨us, _, by simp [Closer.toks], hs, .fn o ho ht⟩
  | prevFst => cases c <;> cases hc
  | @prevSnd _ us t1 _ _ _ hs h1 =>
    cases c <;> cases hc
    exact ⟨us, _, by simp [Closer.toks], hs, .prev h1 ht⟩
  | aggSet k v _ =>
    cases c <;> simp only [Closer.on, reduceCtorEq] at hc
    · split at hc <;> cases hc
    · split at hc <;> cases hc
  | aggNum => cases c <;> cases hc
  | @all _ us t1 _ _ _ k v hk hs h1 =>
    cases c <;> cases hc
    exact ⟨us, _, by simp [Closer.toks], hs, .all k v (by cases k <;> simp_all [counted]) h1 ht⟩
  | @count _ us t1 n _ _ _ _ _ _ k v hk hs h1 h2 =>
    cases c <;> cases hc
    exact ⟨us, _, by simp [Closer.toks], hs, .count k v (by cases k <;> simp_all [counted]) h1 h2 ht⟩

/-- A comma, or `)(`, expects another operand. -/
theorem close_inr {fs : List Frame} {f f' : Frame} {us t : List Tok} {lo hi : Nat} {e : Src} {c : Closer} (hs : Stack lits m (f :: fs) us)
    (ht : Reads lits m lo hi t e) (hc : c.on e f = some (.inr f')) : Stack lits m (f' :: fs) (us ++ (t ++ c.toks)) := by
  cases hs with
  | pre => cases c <;> cases hc
  | bin => cases c <;> cases hc
  | paren => cases c <;> cases hc
  | @call _ us f is hs hi' =>
    cases c <;> cases hc
    have := Stack.call f (is ++ [(lo, hi, t, e)]) hs (by
      intro i hi
      rcases List.mem_append.mp hi with hi | hi
      · exact hi' i hi
      · cases List.mem_singleton.mp hi; exact ht)
    simpa [Closer.toks] using this
  | @brace _ us is hs hi' =>
    cases c <;> cases hc
    have := Stack.brace (is ++ [(lo, hi, t, e)]) hs (by
      intro i hi
      rcases List.mem_append.mp hi with hi | hi
      · exact hi' i hi
      · cases List.mem_singleton.mp hi; exact ht)
    simpa [Closer.toks] using this
  | fn => cases c <;> cases hc
  | @prevFst _ us hs =>
    cases c <;> cases hc
    simpa [Closer.toks] using Stack.prevSnd hs ht
  | prevSnd => cases c <;> cases hc
  | @aggSet _ us k v hs =>
    cases c <;> simp only [Closer.on, reduceCtorEq] at hc
    · split at hc <;> cases hc
      simpa [Closer.toks] using Stack.all k v (Bool.eq_false_iff.mpr ‹_›) hs ht
    · split at hc <;> cases hc
      simpa [Closer.toks] using Stack.aggNum k v ‹_› hs ht
  | @aggNum _ us t1 _ _ _ k v hk hs h1 =>
    cases c <;> cases hc
    simpa [Closer.toks] using Stack.count k v hk hs h1 ht
  | all => cases c <;> cases hc
  | count => cases c <;> cases hc

theorem exprN_reads : ∀ (n : Nat) (fs : List Frame) (cur : Option Src) (ts us t : List Tok) (d : Src) (rest : List Tok),
    exprN lits m n fs cur ts = some (d, rest) → Stack lits m fs us → (match cur with | none => t = [] | some e => Reads lits m 15 15 t e) →
    ∃ r, us ++ (t ++ ts) = r ++ rest ∧ IsExpr lits m r d ∧ Stops m rest := by
  intro n
  induction n with
  | zero => intro fs cur ts us t d rest h; cases h
  | succ n ih =>
    intro fs cur ts us t d rest h hs hc
    cases cur with
    | none =>
      simp only at hc
      subst hc
      simp only [exprN] at h
      cases ho : operand lits m ts with
      | none => rw [ho] at h; cases h
      | some r =>
        obtain ⟨hd, vs⟩ := r
        rw [ho] at h
        simp only [Option.bind_some] at h
        cases hd with
        | leaf e =>
          obtain ⟨p, rfl, hp⟩ := operand_leaf ho
          exact ih fs (some e) vs us p _ _ h hs hp
        | push f =>
          obtain ⟨p, rfl, hp⟩ := operand_push ho
          obtain ⟨r, h1, h2⟩ := ih _ _ _ _ [] _ _ h (hp hs) rfl
          exact ⟨r, by rw [← h1]; simp, h2⟩
    | some e =>
      simp only at hc
      simp only [exprN] at h
      cases ha : after m ts with
      | none =>
        rw [ha] at h
        obtain ⟨us', t', lo, hi, h1, h2, h3⟩ := reduce_zero hs hc
        cases hr : (reduce 0 e fs).2 with
        | nil =>
          rw [hr] at h h2
          cases h
          cases h2
          exact ⟨t', by rw [← List.append_assoc, h1, List.nil_append], ⟨lo, hi, h3⟩, Or.inl ha⟩
        | cons f gs => rw [hr] at h; cases h
      | some r =>
        obtain ⟨tl, vs⟩ := r
        rw [ha] at h
        cases tl with
        | bin o =>
          simp only at h
          obtain ⟨p, rfl, hp⟩ := after_bin ha
          obtain ⟨us', t', lo, hi, h1, h2, h3, h4, h5⟩ := reduce_reads hs hc hs.under (Nat.le_of_lt hp.level_lt)
          obtain ⟨r, h6, h7⟩ := ih _ _ _ _ [] _ _ h (.bin h2 h3 hp h5 h4) rfl
          refine ⟨r, ?_, h7⟩
          rw [← h6, ← List.append_assoc, h1]
          simp
        | post k =>
          simp only at h
          obtain ⟨p, rfl, hp⟩ := after_post (lits := lits) ha
          obtain ⟨r, h6, h7⟩ := ih _ _ _ _ _ _ _ h hs (hp hc)
          exact ⟨r, by rw [← h6]; simp, h7⟩
        | close c =>
          simp only at h
          have hts := after_close ha
          obtain ⟨us', t', lo, hi, h1, h2, h3⟩ := reduce_zero hs hc
          cases hr : (reduce 0 e fs).2 with
          | nil =>
            rw [hr] at h h2
            cases h
            cases h2
            exact ⟨t', by rw [← List.append_assoc, h1, List.nil_append], ⟨lo, hi, h3⟩, Or.inr ⟨c, vs, ha⟩⟩
          | cons f gs =>
            rw [hr] at h h2
            simp only [Option.bind_eq_some_iff] at h
            obtain ⟨r, hon, h⟩ := h
            cases r with
            | inl e' =>
              obtain ⟨ws, t'', h4, h5, h6⟩ := close_inl h2 h3 hon
              obtain ⟨r, h7, h8⟩ := ih _ _ _ _ _ _ _ h h5 h6
              refine ⟨r, ?_, h8⟩
              rw [← h7, hts, ← List.append_assoc, h1, ← List.append_assoc ws, ← h4]
              simp
            | inr f' =>
              obtain ⟨r, h7, h8⟩ := ih _ _ _ _ [] _ _ h (close_inr h2 h3 hon) rfl
              refine ⟨r, ?_, h8⟩
              rw [← h7, hts, ← List.append_assoc, h1]
              simp

theorem expr_is {ts rest : List Tok} {e : Src} (h : expr lits m ts = some (e, rest)) : ∃ t, ts = t ++ rest ∧ IsExpr lits m t e ∧ Stops m rest := by
  obtain ⟨r, h1, h2⟩ := exprN_reads _ _ _ _ _ [] _ _ h .nil rfl
  exact ⟨r, by simpa using h1, h2⟩

end C2po
end R2U2
