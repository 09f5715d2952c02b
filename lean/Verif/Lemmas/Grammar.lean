import Verif.Spec.Grammar
/-
Lemmas for `Props/Grammar`: the parser of expressions follows the grammar.
-/
namespace R2U2
namespace C2po

/-! ### Steps consume tokens -/

theorem interval_lt {m : Int} {ts : List Tok} {i : Nat × Nat × List Tok} (h : interval m ts = some i) : i.2.2.length < ts.length := by
  unfold interval at h
  split at h
  · simp only [Option.map_eq_some_iff] at h
    obtain ⟨_, _, rfl⟩ := h
    simp only [List.length_cons]; omega
  · simp only [Option.bind_eq_some_iff, Option.map_eq_some_iff] at h
    obtain ⟨_, _, _, _, rfl⟩ := h
    simp only [List.length_cons]; omega
  · exact absurd h (by simp)

theorem operand_lt {lits : List String} {m : Int} {ts : List Tok} {h : Head × List Tok} (hh : operand lits m ts = some h) :
    h.2.length < ts.length := by
  unfold operand at hh
  split at hh
  case h_11 =>
    split at hh
    · simp only [Option.map_eq_some_iff] at hh
      obtain ⟨i, hi, rfl⟩ := hh
      have := interval_lt hi
      simp only [List.length_cons]; omega
    · exact absurd hh (by simp)
  all_goals
    first
    | (simp only [Option.some.injEq] at hh; subst hh; simp only [List.length_cons]; omega)
    | cases hh

theorem after_lt {m : Int} {ts : List Tok} {r : Tail × List Tok} (h : after m ts = some r) : r.2.length < ts.length := by
  unfold after at h
  split at h
  · simp only [Option.map_eq_some_iff] at h
    obtain ⟨_, _, rfl⟩ := h
    simp
  · split at h
    · exact absurd h (by simp)
    · simp only [Option.map_eq_some_iff] at h
      obtain ⟨i, hi, rfl⟩ := h
      have := interval_lt hi
      simp only [List.length_cons]; omega
  all_goals
    first
    | (simp only [Option.some.injEq] at h; subst h; simp only [List.length_cons]; omega)
    | cases h

theorem exprN_fuel {lits : List String} {m : Int} : ∀ (n k : Nat) (fs : List Frame) (c : Option Src) (ts : List Tok),
    ts.length < n → ts.length < k → exprN lits m n fs c ts = exprN lits m k fs c ts := by
  intro n
  induction n with
  | zero => intro k fs c ts h; omega
  | succ n ih =>
    intro k fs c ts h1 h2
    obtain ⟨k, rfl⟩ : ∃ j, k = j + 1 := ⟨k - 1, by omega⟩
    cases c with
    | none =>
      simp only [exprN]
      cases ho : operand lits m ts with
      | none => rfl
      | some h =>
        have := operand_lt ho
        simp only [Option.bind_some]
        cases h.1 with
        | leaf e => exact ih _ _ _ _ (by omega) (by omega)
        | push f => exact ih _ _ _ _ (by omega) (by omega)
    | some e =>
      simp only [exprN]
      cases ha : after m ts with
      | none => rfl
      | some r =>
        have := after_lt ha
        obtain ⟨t, us⟩ := r
        simp only at this
        cases t with
        | bin o => exact ih _ _ _ _ (by omega) (by omega)
        | post p => exact ih _ _ _ _ (by omega) (by omega)
        | close c =>
          simp only
          cases (reduce 0 e fs).2 with
          | nil => rfl
          | cons f gs =>
            simp only
            cases c.on (reduce 0 e fs).1 f with
            | none => rfl
            | some r =>
              simp only [Option.bind_some]
              cases r with
              | inl e' => exact ih _ _ _ _ (by omega) (by omega)
              | inr f' => exact ih _ _ _ _ (by omega) (by omega)

/-- The parser without its bound on steps. -/
def run (lits : List String) (m : Int) (fs : List Frame) (c : Option Src) (ts : List Tok) : Option (Src × List Tok) :=
  exprN lits m (ts.length + 1) fs c ts

theorem run_of {lits : List String} {m : Int} {n : Nat} {fs : List Frame} {c : Option Src} {ts : List Tok} (h : ts.length < n) :
    exprN lits m n fs c ts = run lits m fs c ts := exprN_fuel _ _ _ _ _ h (by omega)

theorem run_leaf {lits : List String} {m : Int} {fs : List Frame} {ts us : List Tok} {e : Src}
    (h : operand lits m ts = some (.leaf e, us)) : run lits m fs none ts = run lits m fs (some e) us := by
  have := operand_lt h
  simp only at this
  simp only [run, exprN, h, Option.bind_some]
  exact run_of (by omega)

theorem run_push {lits : List String} {m : Int} {fs : List Frame} {ts us : List Tok} {f : Frame}
    (h : operand lits m ts = some (.push f, us)) : run lits m fs none ts = run lits m (f :: fs) none us := by
  have := operand_lt h
  simp only at this
  simp only [run, exprN, h, Option.bind_some]
  exact run_of (by omega)

theorem run_bin {lits : List String} {m : Int} {fs : List Frame} {ts us : List Tok} {e : Src} {o : Bin}
    (h : after m ts = some (.bin o, us)) :
    run lits m fs (some e) ts = run lits m (.bin (reduce o.level e fs).1 o :: (reduce o.level e fs).2) none us := by
  have := after_lt h
  simp only at this
  simp only [run, exprN, h]
  exact run_of (by omega)

theorem run_post {lits : List String} {m : Int} {fs : List Frame} {ts us : List Tok} {e : Src} {k : SK}
    (h : after m ts = some (.post k, us)) : run lits m fs (some e) ts = run lits m fs (some (.node k .none [e])) us := by
  have := after_lt h
  simp only at this
  simp only [run, exprN, h]
  exact run_of (by omega)

theorem run_close {lits : List String} {m : Int} {fs gs : List Frame} {ts us : List Tok} {e d : Src} {c : Closer} {f : Frame}
    (h : after m ts = some (.close c, us)) (hr : reduce 0 e fs = (d, f :: gs)) :
    run lits m fs (some e) ts = (c.on d f).bind fun r =>
      match r with
      | .inl e' => run lits m gs (some e') us
      | .inr f' => run lits m (f' :: gs) none us := by
  have := after_lt h
  simp only at this
  simp only [run, exprN, h, hr]
  cases c.on d f with
  | none => rfl
  | some r =>
    simp only [Option.bind_some]
    cases r with
    | inl e' => exact run_of (by omega)
    | inr f' => exact run_of (by omega)

/-- The tokens do not continue an expression. -/
def Stops (m : Int) (ts : List Tok) : Prop := after m ts = none ∨ ∃ c us, after m ts = some (.close c, us)

theorem run_stop {lits : List String} {m : Int} {fs : List Frame} {ts : List Tok} {e d : Src}
    (h : Stops m ts) (hr : reduce 0 e fs = (d, [])) : run lits m fs (some e) ts = some (d, ts) := by
  rcases h with h | ⟨c, us, h⟩ <;> simp only [run, exprN, h, hr]

/-! ### Texts of the grammar are read -/

def Frame.level : Frame → Option Nat
  | .pre o => some o.level
  | .bin _ o => some o.level
  | _ => none

/-- The operator on top of the stack, if it is one, is looser than `n`. -/
def Under (n : Nat) : List Frame → Prop
  | [] => True
  | f :: _ => ∀ l, f.level = some l → l < n

theorem Under.mono {n k : Nat} {fs : List Frame} (h : Under n fs) (hk : n ≤ k) : Under k fs := by
  cases fs with
  | nil => trivial
  | cons f fs => exact fun l hl => Nat.lt_of_lt_of_le (h l hl) hk

theorem reduce_under {n : Nat} {fs : List Frame} {e : Src} (h : Under n fs) : reduce n e fs = (e, fs) := by
  cases fs with
  | nil => rfl
  | cons f fs =>
    cases f <;> try rfl
    · have := h _ rfl
      simp only [reduce, if_neg (Nat.not_le.mpr this)]
    · have := h _ rfl
      simp only [reduce, if_neg (Nat.not_le.mpr this)]

theorem infixLevel_le {o : OpK} {l : Nat} (h : infixLevel o = some l) : l ≤ 13 := by
  cases o <;> simp [infixLevel] at h <;> omega

theorem infixLevel_of {o : OpK} {n : Nat} : o ∈ infixAt n ↔ infixLevel o = some n := by
  constructor
  · intro h
    unfold infixAt at h
    split at h <;> simp at h <;> (try rcases h with rfl | rfl | rfl | rfl) <;> (try rcases h with rfl | rfl | rfl) <;>
      (try rcases h with rfl | rfl) <;> (try subst h) <;> rfl
  · intro h
    cases o <;> simp [infixLevel] at h <;> subst h <;> simp [infixAt]

/-- The tokens do not start with `(`: what follows an expression. -/
def NoParen (ts : List Tok) : Prop := ∀ us, ts ≠ .lparen :: us

/-- Reading the tokens leaves a stack that reduces to the expression. -/
def Follows (lits : List String) (m : Int) (lo hi : Nat) (ts : List Tok) (e : Src) : Prop :=
  ∀ (fs : List Frame) (rest : List Tok), Under lo fs → NoParen rest → ∃ fs' c,
    run lits m fs none (ts ++ rest) = run lits m fs' (some c) rest ∧ (∀ l, l ≤ hi → reduce l c fs' = reduce l e fs) ∧
      (hi = 15 → fs' = fs ∧ c = e)

theorem noParen {t : Tok} {ts : List Tok} (h : t ≠ .lparen) : NoParen (t :: ts) := by
  intro us h'
  exact h (List.cons.inj h').1

theorem operand_name {lits : List String} {m : Int} {s : String} {rest : List Tok} (h : NoParen rest) :
    operand lits m (.sym s :: rest) = some (.leaf (mkName lits s), rest) := by
  cases rest with
  | nil => rfl
  | cons t ts => cases t <;> first | rfl | exact absurd rfl (h ts)

theorem after_rparen {m : Int} {rest : List Tok} (h : NoParen rest) : after m (.rparen :: rest) = some (.close .paren, rest) := by
  cases rest with
  | nil => rfl
  | cons t ts => cases t <;> first | rfl | exact absurd rfl (h ts)

theorem operand_brace {lits : List String} {m : Int} {t : Tok} {ts : List Tok} (h : t ≠ .rbrace) :
    operand lits m (.lbrace :: t :: ts) = some (.push (.brace []), t :: ts) := by
  cases t <;> first | rfl | exact absurd rfl h

theorem operand_call {lits : List String} {m : Int} {f : String} {t : Tok} {ts : List Tok} (h : t ≠ .rparen) :
    operand lits m (.sym f :: .lparen :: t :: ts) = some (.push (.call f []), t :: ts) := by
  cases t <;> first | rfl | exact absurd rfl h

theorem boundIs {m : Int} {b : Tok} {n : Nat} : bound m b = some n ↔ BoundIs m b n := by
  constructor
  · intro h
    cases b <;> simp only [bound, reduceCtorEq] at h
    · split at h
      · cases h
      · cases h
        exact .mission _ (by omega)
    · rename_i i
      split at h
      · cases h
      · cases h
        obtain ⟨n, rfl⟩ := Int.eq_ofNat_of_zero_le (a := i) (by omega)
        exact .num n
  · intro h
    cases h with
    | num => simp only [bound]; rw [if_neg (by omega)]; simp
    | mission _ h => simp only [bound]; rw [if_neg (by omega)]; simp [h]

theorem interval_of {m : Int} {is : List Tok} {lb ub : Nat} (h : IntervalIs m is lb ub) (rest : List Tok) :
    interval m (is ++ rest) = some (lb, ub, rest) := by
  cases h with
  | upto h =>
    have := boundIs.mpr h
    cases h <;> simp [interval, this]
  | between ha hb =>
    have h1 := boundIs.mpr ha
    have h2 := boundIs.mpr hb
    cases ha <;> simp [interval, h1, h2]

theorem interval_is {m : Int} {ts rest : List Tok} {lb ub : Nat} (h : interval m ts = some (lb, ub, rest)) :
    ∃ is, ts = is ++ rest ∧ IntervalIs m is lb ub := by
  unfold interval at h
  split at h
  · simp only [Option.map_eq_some_iff, Prod.mk.injEq] at h
    obtain ⟨_, hb, rfl, rfl, rfl⟩ := h
    exact ⟨[_, _, _], rfl, .upto (boundIs.mp hb)⟩
  · simp only [Option.bind_eq_some_iff, Option.map_eq_some_iff, Prod.mk.injEq] at h
    obtain ⟨_, ha, _, hb, rfl, rfl, rfl⟩ := h
    exact ⟨[_, _, _, _, _], rfl, .between (boundIs.mp ha) (boundIs.mp hb)⟩
  · exact absurd h (by simp)

/-- An expression does not start with a closing bracket. -/
theorem Reads.start {lits : List String} {m : Int} {lo hi : Nat} {ts : List Tok} {e : Src} (h : Reads lits m lo hi ts e) :
    ∃ t us, ts = t :: us ∧ t ≠ .rparen ∧ t ≠ .rbrace := by
  induction h
  case access ih | index ih | slice ih | «infix» ih _ | between ih _ =>
    obtain ⟨t, us, rfl, h1, h2⟩ := ih
    exact ⟨t, _, rfl, h1, h2⟩
  all_goals exact ⟨_, _, rfl, by simp, by simp⟩

theorem Follows.leaf {lits : List String} {m : Int} {ts : List Tok} {e : Src}
    (h : ∀ rest, NoParen rest → operand lits m (ts ++ rest) = some (.leaf e, rest)) : Follows lits m 15 15 ts e :=
  fun fs rest _ hr => ⟨fs, e, run_leaf (h rest hr), fun _ _ => rfl, fun _ => ⟨rfl, rfl⟩⟩

/-- An expression between brackets. -/
theorem Follows.bracket {lits : List String} {m : Int} {lo hi : Nat} {ts : List Tok} {e : Src} (h : Follows lits m lo hi ts e)
    {f : Frame} (hf : f.level = none) (fs : List Frame) {c : Closer} {rest us : List Tok} (ha : after m rest = some (.close c, us))
    (hn : NoParen rest) :
    run lits m (f :: fs) none (ts ++ rest) = (c.on e f).bind fun r =>
      match r with
      | .inl e' => run lits m fs (some e') us
      | .inr f' => run lits m (f' :: fs) none us := by
  obtain ⟨fs', d, h1, h2, _⟩ := h (f :: fs) rest (by intro l hl; rw [hf] at hl; cases hl) hn
  rw [h1, run_close ha ((h2 0 (Nat.zero_le _)).trans (reduce_under (by intro l hl; rw [hf] at hl; cases hl)))]

/-- The operands in brackets, with commas. -/
theorem follows_more {lits : List String} {m : Int} {g : List Src → Frame} {k : List Src → Src} {c : Closer} {ct : Tok}
    (hg : ∀ d, (g d).level = none) (h1 : ∀ d e, Closer.comma.on e (g d) = some (.inr (g (d ++ [e]))))
    (h2 : ∀ d e, c.on e (g d) = some (.inl (k (d ++ [e])))) (fs : List Frame) (rest : List Tok)
    (ha : after m (ct :: rest) = some (.close c, rest)) (hc : ct ≠ .lparen) :
    ∀ (more : List (Nat × Nat × List Tok × Src)) (done : List Src) {lo hi : Nat} {t : List Tok} {e : Src}, Follows lits m lo hi t e →
      (∀ i ∈ more, Follows lits m i.1 i.2.1 i.2.2.1 i.2.2.2) →
      run lits m (g done :: fs) none (t ++ (more.flatMap (fun i => .comma :: i.2.2.1) ++ ct :: rest)) =
        run lits m fs (some (k (done ++ e :: more.map fun i => i.2.2.2))) rest := by
  intro more
  induction more with
  | nil =>
    intro done lo hi t e he _
    simp only [List.flatMap_nil, List.nil_append, List.map_nil]
    rw [he.bracket (hg _) fs ha (noParen hc), h2]
    rfl
  | cons i more ih =>
    intro done lo hi t e he hm
    simp only [List.flatMap_cons, List.cons_append, List.append_assoc]
    rw [he.bracket (hg _) fs (c := .comma) (us := i.2.2.1 ++ (more.flatMap (fun i => .comma :: i.2.2.1) ++ ct :: rest)) rfl
      (noParen (by simp)), h1]
    simp only [Option.bind_some]
    rw [ih (done ++ [e]) (hm i (by simp)) (fun j hj => hm j (by simp [hj]))]
    simp

theorem reduce_pre {l : Nat} {e : Src} {o : Pre} {fs : List Frame} (h : l ≤ o.level) : reduce l e (.pre o :: fs) = reduce l (o.mk e) fs := by
  simp only [reduce, if_pos h]
theorem reduce_bin {l : Nat} {e d : Src} {o : Bin} {fs : List Frame} (h : l ≤ o.level) :
    reduce l e (.bin d o :: fs) = reduce l (o.mk d e) fs := by
  simp only [reduce, if_pos h]

theorem follows_pre {lits : List String} {m : Int} {lo hi : Nat} {t p : List Tok} {e : Src} {o : Pre} (h : Follows lits m lo hi t e)
    (ho : o.level < lo) (hl : o.level < 15) (hp : ∀ rest, operand lits m (p ++ rest) = some (.push (.pre o), rest)) :
    Follows lits m 15 (min o.level hi) (p ++ t) (o.mk e) := by
  intro fs rest hu hn
  obtain ⟨fs', c, h1, h2, _⟩ := h (.pre o :: fs) rest (by intro l hl; cases hl; exact ho) hn
  refine ⟨fs', c, ?_, fun l hl => ?_, by omega⟩
  · rw [List.append_assoc, run_push (hp _), h1]
  · rw [h2 l (by omega), reduce_pre (by omega)]

theorem follows_bin {lits : List String} {m : Int} {lo hi lo' hi' : Nat} {t p u : List Tok} {e d : Src} {o : Bin} (h : Follows lits m lo hi t e)
    (h' : Follows lits m lo' hi' u d) (ho : o.level ≤ hi) (ho' : o.level < lo') (hl : o.level < 15)
    (hp : ∀ rest, after m (p ++ rest) = some (.bin o, rest)) (hn : ∀ rest, NoParen (p ++ rest)) :
    Follows lits m (min lo o.level) (min o.level hi') (t ++ (p ++ u)) (o.mk e d) := by
  intro fs rest hu hr
  obtain ⟨fs', c, h1, h2, _⟩ := h fs (p ++ (u ++ rest)) (hu.mono (by omega)) (hn _)
  have h3 := (h2 _ ho).trans (reduce_under (e := e) (hu.mono (Nat.min_le_right lo o.level)))
  obtain ⟨fs'', c', h4, h5, _⟩ := h' (.bin e o :: fs) rest (by intro l hl; cases hl; exact ho') hr
  refine ⟨fs'', c', ?_, fun l hl => ?_, by omega⟩
  · rw [List.append_assoc, List.append_assoc, h1, run_bin (hp _), h3, h4]
  · rw [h5 l (by omega), reduce_bin (by omega)]

theorem follows_post {lits : List String} {m : Int} {t p : List Tok} {e : Src} {k : SK} (h : Follows lits m 15 15 t e)
    (hp : ∀ rest, after m (p ++ rest) = some (.post k, rest)) (hn : ∀ rest, NoParen (p ++ rest)) :
    Follows lits m 15 15 (t ++ p) (.node k .none [e]) := by
  intro fs rest hu hr
  obtain ⟨fs', c, h1, _, h2⟩ := h fs (p ++ rest) hu (hn _)
  obtain ⟨rfl, rfl⟩ := h2 rfl
  exact ⟨fs', _, by rw [List.append_assoc, h1, run_post (hp _)], fun _ _ => rfl, fun _ => ⟨rfl, rfl⟩⟩

theorem follows_whole {lits : List String} {m : Int} {t : List Tok} {e : Src}
    (h : ∀ fs rest, NoParen rest → run lits m fs none (t ++ rest) = run lits m fs (some e) rest) : Follows lits m 15 15 t e :=
  fun fs rest _ hr => ⟨fs, e, h fs rest hr, fun _ _ => rfl, fun _ => ⟨rfl, rfl⟩⟩

theorem reads_follows {lits : List String} {m : Int} {lo hi : Nat} {ts : List Tok} {e : Src} (h : Reads lits m lo hi ts e) :
    Follows lits m lo hi ts e := by
  induction h with
  | tru | fls | num | dec | tau | unit => exact .leaf fun _ _ => rfl
  | signal s hs => exact .leaf fun rest hr => by rw [List.singleton_append, operand_name hr, mkName, if_pos hs]
  | name s hs => exact .leaf fun rest hr => by rw [List.singleton_append, operand_name hr, mkName, if_neg hs]
  | @paren _ _ t e _ ih =>
    refine follows_whole fun fs rest hr => ?_
    rw [List.cons_append, List.append_assoc, List.singleton_append, run_push (f := .paren) rfl,
      ih.bracket rfl fs (after_rparen hr) (noParen (by simp))]
    rfl
  | @call _ _ t e f more h1 h2 ih ihm =>
    obtain ⟨a, us, rfl, ha, _⟩ := h1.start
    refine follows_whole fun fs rest hr => ?_
    have := follows_more (g := Frame.call f) (k := mkCall f) (c := .paren) (ct := .rparen) (fun _ => rfl) (fun _ _ => rfl) (fun _ _ => rfl)
      fs rest (after_rparen hr) (by simp) more [] ih ihm
    simp only [List.cons_append, List.append_assoc, List.nil_append] at this ⊢
    rw [run_push (operand_call ha)]
    exact this
  | @array _ _ t e more h1 h2 ih ihm =>
    obtain ⟨a, us, rfl, _, ha⟩ := h1.start
    refine follows_whole fun fs rest hr => ?_
    have := follows_more (g := Frame.brace) (k := mkArray) (c := .brace) (ct := .rbrace) (fun _ => rfl) (fun _ _ => rfl) (fun _ _ => rfl)
      fs rest rfl (by simp) more [] ih ihm
    simp only [List.cons_append, List.append_assoc, List.nil_append] at this ⊢
    rw [run_push (operand_brace ha)]
    exact this
  | @fn _ _ t e o ho h1 ih =>
    refine follows_whole fun fs rest hr => ?_
    simp only [List.cons_append, List.append_assoc, List.nil_append]
    have : operand lits m (.op o :: .lparen :: (t ++ .rparen :: rest)) = some (.push (.fn o), t ++ .rparen :: rest) := by
      simp only [List.mem_cons, List.not_mem_nil, or_false] at ho
      rcases ho with rfl | rfl <;> rfl
    rw [run_push this, ih.bracket rfl fs (after_rparen hr) (noParen (by simp))]
    rfl
  | @prev _ _ _ _ t u e d _ _ ih ih' =>
    refine follows_whole fun fs rest hr => ?_
    simp only [List.cons_append, List.append_assoc, List.nil_append]
    rw [run_push (f := .prevFst) rfl, ih.bracket rfl fs (c := .comma) rfl (noParen (by simp))]
    simp only [Closer.on, Option.bind_some]
    rw [ih'.bracket rfl fs (after_rparen hr) (noParen (by simp))]
    rfl
  | @all _ _ _ _ t u e d k v hk _ _ ih ih' =>
    refine follows_whole fun fs rest hr => ?_
    simp only [List.cons_append, List.append_assoc, List.nil_append]
    rw [run_push (f := .aggSet k v) rfl, ih.bracket rfl fs (c := .parens) rfl (noParen (by simp))]
    have : counted k = false := by
      simp only [List.mem_cons, List.not_mem_nil, or_false] at hk
      rcases hk with rfl | rfl <;> rfl
    simp only [Closer.on, this, Bool.false_eq_true, if_false, Option.bind_some]
    rw [ih'.bracket rfl fs (after_rparen hr) (noParen (by simp))]
    rfl
  | @count _ _ _ _ _ _ t n u e c d k v hk _ _ _ ih ihn ih' =>
    refine follows_whole fun fs rest hr => ?_
    simp only [List.cons_append, List.append_assoc, List.nil_append]
    rw [run_push (f := .aggSet k v) rfl, ih.bracket rfl fs (c := .comma) rfl (noParen (by simp))]
    have : counted k = true := by
      simp only [List.mem_cons, List.not_mem_nil, or_false] at hk
      rcases hk with rfl | rfl | rfl <;> rfl
    simp only [Closer.on, this, if_true, Option.bind_some]
    rw [ihn.bracket rfl fs (c := .parens) rfl (noParen (by simp))]
    simp only [Closer.on, Option.bind_some]
    rw [ih'.bracket rfl fs (after_rparen hr) (noParen (by simp))]
    rfl
  | access _ _ ih => exact follows_post ih (fun _ => rfl) fun _ => noParen (by simp)
  | index _ _ ih => exact follows_post ih (fun _ => rfl) fun _ => noParen (by simp)
  | slice _ _ _ ih => exact follows_post ih (fun _ => rfl) fun _ => noParen (by simp)
  | «prefix» o ho _ hl ih =>
    refine follows_pre (p := [.op o]) (o := .op o) ih hl (by simp [Pre.level]) fun rest => ?_
    simp only [List.mem_cons, List.not_mem_nil, or_false] at ho
    rcases ho with rfl | rfl | rfl <;> rfl
  | @during _ _ lb ub i t e k hk hi _ hl ih =>
    refine follows_pre (p := .tl k :: i) (o := .tmp k lb ub) ih hl (by simp [Pre.level]) fun rest => ?_
    have : unary k = true := by
      simp only [List.mem_cons, List.not_mem_nil, or_false] at hk
      rcases hk with rfl | rfl | rfl | rfl <;> rfl
    simp only [List.cons_append, operand, this, if_true, interval_of hi, Option.map_some]
  | @«infix» _ _ _ _ n t u e d o ho _ _ h1 h2 ih ih' =>
    have hl := infixLevel_of.mp ho
    exact follows_bin (p := [.op o]) (o := .op o n) ih ih' h1 h2 (Nat.lt_of_le_of_lt (infixLevel_le hl) (by omega))
      (fun rest => by simp [after, hl]) fun _ => noParen (by simp)
  | @between _ _ _ _ lb ub i t u e d k hk hi _ _ h1 h2 ih ih' =>
    refine follows_bin (p := .tl k :: i) (o := .tmp k lb ub) ih ih' h1 h2 (by simp [Bin.level]) (fun rest => ?_) fun _ => noParen (by simp)
    have : unary k = false := by
      simp only [List.mem_cons, List.not_mem_nil, or_false] at hk
      rcases hk with rfl | rfl | rfl | rfl <;> rfl
    simp [after, this, interval_of hi]

theorem expr_of {lits : List String} {m : Int} {ts rest : List Tok} {e : Src} (h : IsExpr lits m ts e) (hs : Stops m rest)
    (hn : NoParen rest) : expr lits m (ts ++ rest) = some (e, rest) := by
  obtain ⟨lo, hi, h⟩ := h
  obtain ⟨fs', c, h1, h2, _⟩ := reads_follows h [] rest trivial hn
  rw [expr, ← run, h1]
  exact run_stop hs (h2 0 (Nat.zero_le _))

end C2po
end R2U2
