import Verif.Lemmas.Mltl
/-
Lemmas for `Props/Mltl`: the parser follows the levels of the grammar.
-/
namespace R2U2
namespace Mltl

/-- The flags of a program of one tense. -/
def OfTense (past ft pt : Bool) : Prop := if past then ft = false else pt = false

/-- Nothing on the stack is reduced by an operator of level `n` to 4. -/
def Held (n : Nat) (fs : List Frame) : Prop :=
  ∀ lvl ft pt e, n ≤ lvl → lvl ≤ 4 → reduce lvl ft pt e fs = some (fs, e, ft, pt)

/-- Reading the tokens leaves a stack that reduces to the expression. -/
def Follows (m : Int) (past : Bool) (n : Nat) (ts : List Tok) (e : Expr Nat) : Prop :=
  ∀ (fs : List Frame) (ft pt : Bool) (sp : List (Expr Nat)) (rest : List Tok), OfTense past ft pt → Held n fs →
    ∃ fs' c ft' pt' ft'' pt'', parseFrom m ⟨fs, none, ft, pt, sp⟩ (ts ++ rest) = parseFrom m ⟨fs', some c, ft', pt', sp⟩ rest ∧
      OfTense past ft'' pt'' ∧ ∀ lvl, lvl ≤ n → reduce lvl ft' pt' c fs' = reduce lvl ft'' pt'' e fs

theorem Held.mono {n k : Nat} {fs : List Frame} (h : Held n fs) (hk : n ≤ k) : Held k fs :=
  fun lvl ft pt e h1 h2 => h lvl ft pt e (by omega) h2

theorem boundIs {m : Int} {b : Tok} {n : Nat} (h : BoundIs m b n) : bound m b = some n := by
  cases h with
  | num => rfl
  | mission _ h => subst h; simp [bound]

theorem intervalIs {m : Int} {is : List Tok} {lb ub : Nat} (h : IntervalIs m is lb ub) (k : TmpK) (st : PState) (rest : List Tok) :
    parseFrom m st (.tl k :: (is ++ rest)) = (st.temporal k lb ub).bind fun st => parseFrom m st rest := by
  cases h with
  | upto h => 
    have := boundIs h
    cases h <;> simp [parseFrom, this]
  | @between a b _ _ ha hb =>
    have h1 := boundIs ha
    have h2 := boundIs hb
    have h3 : parseFrom m st (.tl k :: .lbrack :: a :: .comma :: b :: .rbrack :: rest) =
        (bound m a).bind fun lb => (bound m b).bind fun ub => (st.temporal k lb ub).bind fun st => parseFrom m st rest := by
      rw [parseFrom]
    rw [h1, h2] at h3
    exact h3

theorem Follows.pre {m : Int} {past : Bool} {ts us : List Tok} {e f : Expr Nat} {o : Op1} (h : Follows m past 5 ts e)
    (hu : ∀ st rest, parseFrom m st (us ++ rest) = (st.opening (.pre o)).bind fun st => parseFrom m st rest)
    (hm : ∀ ft pt, OfTense past ft pt → ∃ ft' pt', mk1 ft pt e o = some (f, ft', pt') ∧ OfTense past ft' pt') :
    Follows m past 5 (us ++ ts) f := by
  intro fs ft pt sp rest ht hh
  rw [List.append_assoc, hu]
  simp only [PState.opening, Option.bind_some]
  obtain ⟨fs', c, ft', pt', ft'', pt'', h1, h2, h3⟩ := h (.pre o :: fs) ft pt sp rest ht (fun _ _ _ _ _ _ => by omega)
  obtain ⟨gt, qt, h4, h5⟩ := hm ft'' pt'' h2
  refine ⟨fs', c, ft', pt', gt, qt, h1, h5, fun lvl hl => ?_⟩
  rw [h3 lvl hl, reduce, if_pos (by simpa [prefixLevel] using hl), h4]
  rfl

theorem Follows.bin {m : Int} {past : Bool} {n : Nat} {ls rs us : List Tok} {l r f : Expr Nat} {o : Op2} (hn : n ≤ 4) (hl : Follows m past n ls l)
    (hr : Follows m past (n + 1) rs r) (ho : o.level = n)
    (hu : ∀ st rest, parseFrom m st (us ++ rest) = (st.between o).bind fun st => parseFrom m st rest)
    (hm : ∀ ft pt, OfTense past ft pt → ∃ ft' pt', mk2 ft pt l r o = some (f, ft', pt') ∧ OfTense past ft' pt') :
    Follows m past n (ls ++ (us ++ rs)) f := by
  intro fs ft pt sp rest ht hh
  obtain ⟨fs', c, ft', pt', ft'', pt'', h1, h2, h3⟩ := hl fs ft pt sp (us ++ (rs ++ rest)) ht hh
  simp only [List.append_assoc]
  rw [h1, hu]
  simp only [PState.between, Option.bind_some, ho, h3 n (Nat.le_refl _), hh n _ _ _ (Nat.le_refl _) hn, Option.map_some]
  obtain ⟨gs', d, gt', qt', gt'', qt'', h4, h5, h6⟩ := hr (.bin l o :: fs) ft'' pt'' sp rest h2 (by
    intro lvl a b e h7 h8
    rw [reduce, if_neg (by omega)])
  obtain ⟨gt, qt, h7, h8⟩ := hm gt'' qt'' h5
  refine ⟨gs', d, gt', qt', gt, qt, h4, h8, fun lvl hl => ?_⟩
  rw [h6 lvl (by omega), reduce, if_pos (by omega), h7]
  rfl

theorem Follows.leaf {m : Int} {past : Bool} {t : Tok} {e : Expr Nat}
    (h : ∀ st rest, parseFrom m st (t :: rest) = (st.leaf e).bind fun st => parseFrom m st rest) : Follows m past 6 [t] e := by
  intro fs ft pt sp rest ht hh
  refine ⟨fs, e, ft, pt, ft, pt, ?_, ht, fun _ _ => rfl⟩
  simp [h, PState.leaf]

theorem reads_follows {m : Int} {past : Bool} {n : Nat} {ts : List Tok} {e : Expr Nat} (h : Reads m past n ts e) : Follows m past n ts e := by
  induction h with
  | tru => exact .leaf fun _ _ => by simp [parseFrom]
  | fls => exact .leaf fun _ _ => by simp [parseFrom]
  | atomic n => exact .leaf fun _ _ => by simp [parseFrom]
  | bracket _ ih =>
    intro fs ft pt sp rest ht hh
    rename_i ts e _
    obtain ⟨fs', c, ft', pt', ft'', pt'', h1, h2, h3⟩ := ih (.paren :: fs) ft pt sp (.rparen :: rest) ht (fun _ _ _ _ _ _ => rfl)
    refine ⟨fs, e, ft'', pt'', ft'', pt'', ?_, h2, fun _ _ => rfl⟩
    simp only [List.cons_append, List.append_assoc, List.nil_append, parseFrom, PState.opening, Option.bind_some, h1, PState.close]
    rw [h3 0 (by omega)]
    rfl
  | higher _ ih =>
    intro fs ft pt sp rest ht hh
    obtain ⟨fs', c, ft', pt', ft'', pt'', h1, h2, h3⟩ := ih fs ft pt sp rest ht (hh.mono (by omega))
    exact ⟨fs', c, ft', pt', ft'', pt'', h1, h2, fun lvl hl => h3 lvl (by omega)⟩
  | neg _ ih => exact ih.pre (us := [.neg]) (o := .neg) (fun _ _ => by simp [parseFrom]) (fun a b h => ⟨a, b, rfl, h⟩)
  | @glob is lb ub ts _ p i _ ih =>
    subst p
    exact ih.pre (us := .tl .G :: is) (o := .tmp .G lb ub) (fun st rest => intervalIs i .G st rest)
      (fun a b h => ⟨true, b, by simp_all [mk1, mark, OfTense, TmpK.future], h⟩)
  | @fut is lb ub ts _ p i _ ih =>
    subst p
    exact ih.pre (us := .tl .F :: is) (o := .tmp .F lb ub) (fun st rest => intervalIs i .F st rest)
      (fun a b h => ⟨true, b, by simp_all [mk1, mark, OfTense, TmpK.future], h⟩)
  | @hist is lb ub ts _ p i _ ih =>
    subst p
    exact ih.pre (us := .tl .H :: is) (o := .tmp .H lb ub) (fun st rest => intervalIs i .H st rest)
      (fun a b h => ⟨a, true, by simp_all [mk1, mark, OfTense, TmpK.future], h⟩)
  | @once is lb ub ts _ p i _ ih =>
    subst p
    exact ih.pre (us := .tl .O :: is) (o := .tmp .O lb ub) (fun st rest => intervalIs i .O st rest)
      (fun a b h => ⟨a, true, by simp_all [mk1, mark, OfTense, TmpK.future], h⟩)
  | @untl ls l is lb ub rs r p _ i _ il ir =>
    subst p
    exact Follows.bin (us := .tl .U :: is) (o := .tmp .U lb ub) (by decide) il ir rfl (fun st rest => intervalIs i .U st rest)
      (fun a b h => ⟨true, b, by simp_all [mk2, mark, OfTense, TmpK.future], h⟩)
  | @rel ls l is lb ub rs r p _ i _ il ir =>
    subst p
    exact Follows.bin (us := .tl .R :: is) (o := .tmp .R lb ub) (by decide) il ir rfl (fun st rest => intervalIs i .R st rest)
      (fun a b h => ⟨true, b, by simp_all [mk2, mark, OfTense, TmpK.future], h⟩)
  | @since ls l is lb ub rs r p _ i _ il ir =>
    subst p
    exact Follows.bin (us := .tl .S :: is) (o := .tmp .S lb ub) (by decide) il ir rfl (fun st rest => intervalIs i .S st rest)
      (fun a b h => ⟨a, true, by simp_all [mk2, mark, OfTense, TmpK.future], h⟩)
  | @trig ls l is lb ub rs r p _ i _ il ir =>
    subst p
    exact Follows.bin (us := .tl .T :: is) (o := .tmp .T lb ub) (by decide) il ir rfl (fun st rest => intervalIs i .T st rest)
      (fun a b h => ⟨a, true, by simp_all [mk2, mark, OfTense, TmpK.future], h⟩)
  | and _ _ il ir =>
    exact Follows.bin (us := [.and]) (o := .and) (by decide) il ir rfl (fun _ _ => by simp [parseFrom]) (fun a b h => ⟨a, b, rfl, h⟩)
  | or _ _ il ir =>
    exact Follows.bin (us := [.or]) (o := .or) (by decide) il ir rfl (fun _ _ => by simp [parseFrom]) (fun a b h => ⟨a, b, rfl, h⟩)
  | imp _ _ il ir =>
    exact Follows.bin (us := [.imp]) (o := .imp) (by decide) il ir rfl (fun _ _ => by simp [parseFrom]) (fun a b h => ⟨a, b, rfl, h⟩)
  | iff _ _ il ir =>
    exact Follows.bin (us := [.iff]) (o := .iff) (by decide) il ir rfl (fun _ _ => by simp [parseFrom]) (fun a b h => ⟨a, b, rfl, h⟩)

/-- Lines after lines. -/
theorem reads_lines {m : Int} {past : Bool} : ∀ (ls : List (List Tok × Expr Nat)), (∀ l ∈ ls, Reads m past 1 l.1 l.2) →
    ∀ (ft pt : Bool) (sp : List (Expr Nat)), OfTense past ft pt →
    ∃ ft' pt', parseFrom m ⟨[], none, ft, pt, sp⟩ (ls.flatMap fun l => l.1 ++ [.newline]) = some ⟨[], none, ft', pt', sp ++ ls.map (·.2)⟩ ∧
      OfTense past ft' pt'
  | [], _, ft, pt, sp, ht => ⟨ft, pt, by simp [parseFrom], ht⟩
  | l :: ls, h, ft, pt, sp, ht => by
    obtain ⟨fs', c, ft', pt', ft'', pt'', h1, h2, h3⟩ :=
      reads_follows (h l (by simp)) [] ft pt sp (.newline :: ls.flatMap fun l => l.1 ++ [.newline]) ht (fun _ _ _ _ _ _ => rfl)
    obtain ⟨a, b, h4, h5⟩ := reads_lines ls (fun k hk => h k (by simp [hk])) ft'' pt'' (sp ++ [l.2]) h2
    refine ⟨a, b, ?_, h5⟩
    simp only [List.flatMap_cons, List.append_assoc, List.cons_append, List.nil_append]
    rw [h1, parseFrom, PState.line]
    simp only [Option.bind_some, h3 0 (by omega), reduce, h4]
    simp


/-! ### Whatever is read is in the grammar -/

theorem Reads.mono {m : Int} {past : Bool} {n k : Nat} {ts : List Tok} {e : Expr Nat} (h : Reads m past n ts e) (hk : k ≤ n) : Reads m past k ts e := by
  obtain ⟨d, rfl⟩ := Nat.exists_eq_add_of_le hk
  clear hk
  induction d with
  | zero => exact h
  | succ d ih => exact ih h.higher

/-- The tokens of an operator that waits. -/
def PreToks (m : Int) (o : Op1) (us : List Tok) : Prop :=
  match o with
  | .neg => us = [.neg]
  | .tmp k lb ub => ∃ is, us = .tl k :: is ∧ IntervalIs m is lb ub
def BinToks (m : Int) (o : Op2) (us : List Tok) : Prop :=
  match o with
  | .and => us = [.and]
  | .or => us = [.or]
  | .imp => us = [.imp]
  | .iff => us = [.iff]
  | .tmp k lb ub => ∃ is, us = .tl k :: is ∧ IntervalIs m is lb ub

/-- The level an operand needs under the top of the stack. -/
def need : List Frame → Nat
  | .pre _ :: _ => 5
  | .bin _ o :: _ => o.level + 1
  | _ => 1
def NoPre : List Frame → Prop
  | .pre _ :: _ => False
  | _ => True

/-- The stack and the tokens it was made from. -/
inductive Stack (m : Int) (past : Bool) : List Frame → List Tok → Prop
  | nil : Stack m past [] []
  | paren {fs ts} (h : Stack m past fs ts) : Stack m past (.paren :: fs) (ts ++ [.lparen])
  | pre {fs ts o us} (h : Stack m past fs ts) (hu : PreToks m o us) : Stack m past (.pre o :: fs) (ts ++ us)
  | bin {fs ts o us l ls} (h : Stack m past fs ts) (hl : Reads m past o.level ls l) (hn : need fs ≤ o.level) (hp : NoPre fs)
      (hu : BinToks m o us) : Stack m past (.bin l o :: fs) (ts ++ (ls ++ us))

theorem Op2.level_le (o : Op2) : 1 ≤ o.level ∧ o.level ≤ 4 := by cases o <;> simp [Op2.level]

theorem mark_tense {k : TmpK} {ft pt ft' pt' past : Bool} (h : mark k ft pt = some (ft', pt')) (ht : OfTense past ft' pt') :
    OfTense past ft pt ∧ k.future = !past := by
  unfold mark at h
  cases hk : k.future <;> cases ft <;> cases pt <;> cases past <;> simp_all [OfTense] <;> aesop

theorem mk1_reads {m : Int} {past ft pt ft' pt' : Bool} {o : Op1} {e f : Expr Nat} (h : mk1 ft pt e o = some (f, ft', pt')) (ht : OfTense past ft' pt')
    {us ts : List Tok} (hu : PreToks m o us) : OfTense past ft pt ∧ (Reads m past 5 ts e → Reads m past 5 (us ++ ts) f) := by
  cases o with
  | neg => cases h; cases hu; exact ⟨ht, .neg⟩
  | tmp k lb ub =>
    obtain ⟨is, rfl, hi⟩ := hu
    cases k <;> simp only [mk1, Option.map_eq_some_iff, Prod.mk.injEq, reduceCtorEq] at h <;>
      (obtain ⟨⟨a, b⟩, h1, rfl, h2⟩ := h; cases h2; obtain ⟨h3, h4⟩ := mark_tense h1 ht; refine ⟨h3, fun hr => ?_⟩) <;>
      (cases past <;> simp [TmpK.future] at h4)
    · exact .glob rfl hi hr
    · exact .fut rfl hi hr
    · exact .hist rfl hi hr
    · exact .once rfl hi hr

theorem mk2_reads {m : Int} {past ft pt ft' pt' : Bool} {o : Op2} {l r f : Expr Nat} (h : mk2 ft pt l r o = some (f, ft', pt')) (ht : OfTense past ft' pt')
    {us ls rs : List Tok} (hu : BinToks m o us) : OfTense past ft pt ∧
      (Reads m past o.level ls l → Reads m past (o.level + 1) rs r → Reads m past o.level (ls ++ (us ++ rs)) f) := by
  cases o with
  | imp => cases h; cases hu; exact ⟨ht, .imp⟩
  | iff => cases h; cases hu; exact ⟨ht, .iff⟩
  | or => cases h; cases hu; exact ⟨ht, .or⟩
  | and => cases h; cases hu; exact ⟨ht, .and⟩
  | tmp k lb ub =>
    obtain ⟨is, rfl, hi⟩ := hu
    cases k <;> simp only [mk2, Option.map_eq_some_iff, Prod.mk.injEq, reduceCtorEq] at h <;>
      (obtain ⟨⟨a, b⟩, h1, rfl, h2⟩ := h; cases h2; obtain ⟨h3, h4⟩ := mark_tense h1 ht; refine ⟨h3, fun hl hr => ?_⟩) <;>
      (cases past <;> simp [TmpK.future] at h4)
    · exact .untl rfl hl hi hr
    · exact .rel rfl hl hi hr
    · exact .since rfl hl hi hr
    · exact .trig rfl hl hi hr

/-- Reductions keep the tokens. -/
theorem reduce_reads {m : Int} {past : Bool} {lvl : Nat} (hlvl : lvl ≤ 4) : ∀ (fs : List Frame) (ts us : List Tok) (e : Expr Nat) (k : Nat) (ft pt : Bool)
    {fs' : List Frame} {e' : Expr Nat} {ft' pt' : Bool},
    reduce lvl ft pt e fs = some (fs', e', ft', pt') → OfTense past ft' pt' →
    OfTense past ft pt ∧ ((Stack m past fs ts ∧ Reads m past k us e ∧ need fs ≤ k ∧ lvl ≤ k) →
      ∃ ts' us', ts ++ us = ts' ++ us' ∧ Stack m past fs' ts' ∧ Reads m past (max lvl 1) us' e' ∧ need fs' ≤ max lvl 1 ∧ NoPre fs')
  | [], ts, us, e, k, ft, pt, fs', e', ft', pt', h, ht => by
    cases h
    refine ⟨ht, fun ⟨h1, h2, h3, h4⟩ => ⟨ts, us, rfl, h1, h2.mono ?_, Nat.le_max_right _ _, trivial⟩⟩
    simp only [need] at h3; omega
  | .paren :: fs, ts, us, e, k, ft, pt, fs', e', ft', pt', h, ht => by
    cases h
    refine ⟨ht, fun ⟨h1, h2, h3, h4⟩ => ⟨ts, us, rfl, h1, h2.mono ?_, Nat.le_max_right _ _, trivial⟩⟩
    simp only [need] at h3; omega
  | .pre o :: fs, ts, us, e, k, ft, pt, fs', e', ft', pt', h, ht => by
    rw [reduce, if_pos (by simp only [prefixLevel]; omega)] at h
    obtain ⟨⟨f, gt, qt⟩, h1, h2⟩ := Option.bind_eq_some_iff.1 h
    constructor
    · have := (reduce_reads (m := m) hlvl fs [] [] f 5 gt qt h2 ht).1
      cases o with
      | neg => exact (mk1_reads (m := m) h1 this (us := [.neg]) (ts := []) rfl).1
      | tmp k lb ub => 
        exact (mk1_reads (m := m) h1 this (us := [.tl k, .lbrack, .num lb, .comma, .num ub, .rbrack]) (ts := [])
          ⟨_, rfl, .between (.num _) (.num _)⟩).1
    · rintro ⟨h3, h4, h5, h6⟩
      cases h3 with
      | @pre _ ts0 _ us0 h3 hu =>
        have hg := (reduce_reads (m := m) hlvl fs ts0 (us0 ++ us) f 5 gt qt h2 ht)
        obtain ⟨-, h7⟩ := mk1_reads (m := m) (ts := us) h1 hg.1 hu
        obtain ⟨ts', us', h8, h9⟩ := hg.2 ⟨h3, h7 (h4.mono (by simpa [need] using h5)), by
          cases fs with
          | nil => decide
          | cons g gs => 
            cases g with
            | paren => simp [need]
            | pre => exact Nat.le_refl _
            | bin l o' => have := o'.level_le; simp only [need]; omega, by omega⟩
        exact ⟨ts', us', by rw [← h8, List.append_assoc], h9⟩
  | .bin l o :: fs, ts, us, e, k, ft, pt, fs', e', ft', pt', h, ht => by
    rw [reduce] at h
    by_cases hl : lvl ≤ o.level
    · rw [if_pos hl] at h
      obtain ⟨⟨f, gt, qt⟩, h1, h2⟩ := Option.bind_eq_some_iff.1 h
      constructor
      · have := (reduce_reads (m := m) hlvl fs [] [] f o.level gt qt h2 ht).1
        cases o with
        | tmp k lb ub => 
          exact (mk2_reads (m := m) h1 this (us := [.tl k, .lbrack, .num lb, .comma, .num ub, .rbrack]) (ls := []) (rs := [])
            ⟨_, rfl, .between (.num _) (.num _)⟩).1
        | imp => exact (mk2_reads (m := m) h1 this (us := [.imp]) (ls := []) (rs := []) rfl).1
        | iff => exact (mk2_reads (m := m) h1 this (us := [.iff]) (ls := []) (rs := []) rfl).1
        | or => exact (mk2_reads (m := m) h1 this (us := [.or]) (ls := []) (rs := []) rfl).1
        | and => exact (mk2_reads (m := m) h1 this (us := [.and]) (ls := []) (rs := []) rfl).1
      · rintro ⟨h3, h4, h5, h6⟩
        cases h3 with
        | @bin _ ts0 _ us0 _ ls h3 hl' hn hp hu =>
          have hg := (reduce_reads (m := m) hlvl fs ts0 (ls ++ (us0 ++ us)) f o.level gt qt h2 ht)
          obtain ⟨-, h7⟩ := mk2_reads (m := m) (ls := ls) (rs := us) h1 hg.1 hu
          obtain ⟨ts', us', h8, h9⟩ := hg.2 ⟨h3, h7 hl' (h4.mono (by simpa [need] using h5)), hn, hl⟩
          exact ⟨ts', us', by rw [← h8]; simp, h9⟩
    · rw [if_neg hl] at h
      cases h
      refine ⟨ht, fun ⟨h1, h2, h3, h4⟩ => ⟨ts, us, rfl, h1, h2.mono ?_, ?_, trivial⟩⟩
      · simp only [need] at h3; omega
      · simp only [need]; omega

/-- What has been read: whole lines, and the tokens of the current one. -/
def Read (m : Int) (past : Bool) (st : PState) (ts : List Tok) : Prop :=
  ∃ (ls : List (List Tok × Expr Nat)) (us : List Tok), ts = (ls.flatMap fun l => l.1 ++ [.newline]) ++ us ∧ st.specs = ls.map (·.2) ∧
    (∀ l ∈ ls, Reads m past 1 l.1 l.2) ∧
    match st.cur with
    | none => Stack m past st.frames us
    | some e => ∃ vs ws, us = vs ++ ws ∧ Stack m past st.frames vs ∧ Reads m past 6 ws e

/-- Reading the tokens leads from one state to the other. -/
def Leads (m : Int) (past : Bool) (st st' : PState) (us : List Tok) : Prop :=
  OfTense past st'.ft st'.pt → OfTense past st.ft st.pt ∧ ∀ ts, Read m past st ts → Read m past st' (ts ++ us)

theorem leads_leaf {m : Int} {past : Bool} {st st' : PState} {e : Expr Nat} {us : List Tok} (h : st.leaf e = some st') (he : Reads m past 6 us e) :
    Leads m past st st' us := by
  obtain ⟨fs, cur, ft, pt, sp⟩ := st
  cases cur with
  | some _ => cases h
  | none =>
    cases h
    rintro ht
    refine ⟨ht, ?_⟩
    rintro ts ⟨ls, vs, rfl, h1, h2, h3⟩
    exact ⟨ls, vs ++ us, by simp, h1, h2, vs, us, rfl, h3, he⟩

theorem leads_opening {m : Int} {past : Bool} {st st' : PState} {f : Frame} {us : List Tok} (h : st.opening f = some st')
    (hf : ∀ fs ts, Stack m past fs ts → Stack m past (f :: fs) (ts ++ us)) : Leads m past st st' us := by
  obtain ⟨fs, cur, ft, pt, sp⟩ := st
  cases cur with
  | some _ => cases h
  | none =>
    cases h
    rintro ht
    refine ⟨ht, ?_⟩
    rintro ts ⟨ls, vs, rfl, h1, h2, h3⟩
    exact ⟨ls, vs ++ us, by simp, h1, h2, hf _ _ h3⟩

theorem need_top {fs : List Frame} : need fs ≤ 6 := by
  cases fs with
  | nil => decide
  | cons g gs =>
    cases g with
    | paren => simp [need]
    | pre => simp [need]
    | bin l o' => have := o'.level_le; simp only [need]; omega

theorem leads_between {m : Int} {past : Bool} {st st' : PState} {o : Op2} {us : List Tok} (h : st.between o = some st')
    (hu : BinToks m o us) : Leads m past st st' us := by
  obtain ⟨fs, cur, ft, pt, sp⟩ := st
  cases cur with
  | none => cases h
  | some e =>
    simp only [PState.between, Option.bind_some, Option.map_eq_some_iff] at h
    obtain ⟨⟨fs', e', gt, qt⟩, h1, rfl⟩ := h
    intro ht
    have ho := o.level_le
    have hr := fun ts ws => reduce_reads (m := m) ho.2 fs ts ws e 6 ft pt h1 ht
    refine ⟨(hr [] []).1, ?_⟩
    rintro ts ⟨ls, vs, rfl, h2, h3, vs, ws, rfl, h4, h5⟩
    obtain ⟨ts', us', h6, h7, h8, h9, h10⟩ := (hr vs ws).2 ⟨h4, h5, need_top, by omega⟩
    rw [Nat.max_eq_left ho.1] at h8 h9
    refine ⟨ls, ts' ++ (us' ++ us), ?_, h2, h3, Stack.bin h7 h8 h9 h10 hu⟩
    rw [List.append_assoc, h6]
    simp

theorem leads_close {m : Int} {past : Bool} {st st' : PState} (h : st.close = some st') : Leads m past st st' [.rparen] := by
  obtain ⟨fs, cur, ft, pt, sp⟩ := st
  cases cur with
  | none => cases h
  | some e =>
    simp only [PState.close, Option.bind_some, Option.bind_eq_some_iff] at h
    obtain ⟨⟨fs', e', gt, qt⟩, h1, h⟩ := h
    rcases fs' with _ | ⟨g, gs⟩
    · cases h
    cases g with
    | pre | bin => cases h
    | paren =>
      cases h
      intro ht
      have hr := fun ts ws => reduce_reads (m := m) (by omega) fs ts ws e 6 ft pt h1 ht
      refine ⟨(hr [] []).1, ?_⟩
      rintro ts ⟨ls, vs, rfl, h2, h3, vs, ws, rfl, h4, h5⟩
      obtain ⟨ts', us', h6, h7, h8, h9, h10⟩ := (hr vs ws).2 ⟨h4, h5, need_top, by omega⟩
      cases h7 with
      | @paren _ ts0 h7 =>
        refine ⟨ls, ts0 ++ .lparen :: (us' ++ [.rparen]), ?_, h2, h3, ts0, .lparen :: (us' ++ [.rparen]), rfl, h7, .bracket h8⟩
        rw [List.append_assoc, h6]
        simp

theorem leads_line {m : Int} {past : Bool} {st st' : PState} (h : st.line = some st') : Leads m past st st' [.newline] := by
  obtain ⟨fs, cur, ft, pt, sp⟩ := st
  cases cur with
  | none => cases h
  | some e =>
    simp only [PState.line, Option.bind_some, Option.bind_eq_some_iff] at h
    obtain ⟨⟨fs', e', gt, qt⟩, h1, h⟩ := h
    rcases fs' with _ | ⟨g, gs⟩
    · cases h
      intro ht
      have hr := fun ts ws => reduce_reads (m := m) (by omega) fs ts ws e 6 ft pt h1 ht
      refine ⟨(hr [] []).1, ?_⟩
      rintro ts ⟨ls, vs, rfl, h2, h3, vs, ws, rfl, h4, h5⟩
      obtain ⟨ts', us', h6, h7, h8, h9, h10⟩ := (hr vs ws).2 ⟨h4, h5, need_top, by omega⟩
      cases h7
      refine ⟨ls ++ [(us', e')], [], ?_, ?_, ?_, .nil⟩
      · rw [List.append_assoc, h6]; simp
      · simpa using h2
      · intro l hl
        rcases List.mem_append.1 hl with hl | hl
        · exact h3 l hl
        · cases List.mem_singleton.1 hl; exact h8
    · cases h

theorem leads_temporal {m : Int} {past : Bool} {st st' : PState} {k : TmpK} {lb ub : Nat} {is : List Tok} (h : st.temporal k lb ub = some st')
    (hi : IntervalIs m is lb ub) : Leads m past st st' (.tl k :: is) := by
  have h1 : ∀ k, st.between (.tmp k lb ub) = some st' → Leads m past st st' (.tl k :: is) := fun k h => leads_between h ⟨is, rfl, hi⟩
  have h2 : ∀ k, st.opening (.pre (.tmp k lb ub)) = some st' → Leads m past st st' (.tl k :: is) :=
    fun k h => leads_opening h (fun _ _ hs => .pre hs ⟨is, rfl, hi⟩)
  cases k <;> first | exact h1 _ h | exact h2 _ h

theorem Leads.trans {m : Int} {past : Bool} {a b c : PState} {us vs : List Tok} (h1 : Leads m past a b us) (h2 : Leads m past b c vs) :
    Leads m past a c (us ++ vs) := by
  intro ht
  obtain ⟨h3, h4⟩ := h2 ht
  obtain ⟨h5, h6⟩ := h1 h3
  exact ⟨h5, fun ts h => by rw [← List.append_assoc]; exact h4 _ (h6 _ h)⟩

theorem bound_is {m : Int} {b : Tok} {n : Nat} (h : bound m b = some n) : BoundIs m b n := by
  cases b <;> simp only [bound, reduceCtorEq, Option.some.injEq] at h
  case num => subst h; exact .num _
  case mission =>
    split at h
    · cases h
    · cases h; exact .mission _ (by omega)

theorem parse_leads {m : Int} {past : Bool} (st : PState) (ts : List Tok) : ∀ {st' : PState}, parseFrom m st ts = some st' → Leads m past st st' ts := by
  induction st, ts using parseFrom.induct with
  | case1 st => intro st' h; simp only [parseFrom, Option.some.injEq] at h; subst h; exact fun ht => ⟨ht, fun ts h => by simpa using h⟩
  | case2 st k b ts ih =>
    intro st' h
    simp only [parseFrom, Option.bind_eq_some_iff] at h
    obtain ⟨ub, h1, s1, h2, h3⟩ := h
    exact Leads.trans (us := [.tl k, .lbrack, b, .rbrack]) (leads_temporal h2 (.upto (bound_is h1))) (ih s1 h3)
  | case3 st k a b ts ih =>
    intro st' h
    simp only [parseFrom, Option.bind_eq_some_iff] at h
    obtain ⟨lb, h0, ub, h1, s1, h2, h3⟩ := h
    exact Leads.trans (us := [.tl k, .lbrack, a, .comma, b, .rbrack]) (leads_temporal h2 (.between (bound_is h0) (bound_is h1))) (ih s1 h3)
  | case4 st ts ih =>
    intro st' h
    simp only [parseFrom, Option.bind_eq_some_iff] at h
    obtain ⟨s1, h1, h2⟩ := h
    exact Leads.trans (us := [.neg]) (leads_opening h1 (fun _ _ hs => .pre hs rfl)) (ih s1 h2)
  | case5 st ts ih =>
    intro st' h
    simp only [parseFrom, Option.bind_eq_some_iff] at h
    obtain ⟨s1, h1, h2⟩ := h
    exact Leads.trans (us := [.and]) (leads_between h1 rfl) (ih s1 h2)
  | case6 st ts ih =>
    intro st' h
    simp only [parseFrom, Option.bind_eq_some_iff] at h
    obtain ⟨s1, h1, h2⟩ := h
    exact Leads.trans (us := [.or]) (leads_between h1 rfl) (ih s1 h2)
  | case7 st ts ih =>
    intro st' h
    simp only [parseFrom, Option.bind_eq_some_iff] at h
    obtain ⟨s1, h1, h2⟩ := h
    exact Leads.trans (us := [.imp]) (leads_between h1 rfl) (ih s1 h2)
  | case8 st ts ih =>
    intro st' h
    simp only [parseFrom, Option.bind_eq_some_iff] at h
    obtain ⟨s1, h1, h2⟩ := h
    exact Leads.trans (us := [.iff]) (leads_between h1 rfl) (ih s1 h2)
  | case9 st ts ih =>
    intro st' h
    simp only [parseFrom, Option.bind_eq_some_iff] at h
    obtain ⟨s1, h1, h2⟩ := h
    exact Leads.trans (us := [.newline]) (leads_line h1) (ih s1 h2)
  | case10 st ts ih =>
    intro st' h
    simp only [parseFrom, Option.bind_eq_some_iff] at h
    obtain ⟨s1, h1, h2⟩ := h
    exact Leads.trans (us := [.lparen]) (leads_opening h1 (fun _ _ hs => .paren hs)) (ih s1 h2)
  | case11 st ts ih =>
    intro st' h
    simp only [parseFrom, Option.bind_eq_some_iff] at h
    obtain ⟨s1, h1, h2⟩ := h
    exact Leads.trans (us := [.rparen]) (leads_close h1) (ih s1 h2)
  | case12 st ts ih =>
    intro st' h
    simp only [parseFrom, Option.bind_eq_some_iff] at h
    obtain ⟨s1, h1, h2⟩ := h
    exact Leads.trans (us := [.tru]) (leads_leaf h1 .tru) (ih s1 h2)
  | case13 st ts ih =>
    intro st' h
    simp only [parseFrom, Option.bind_eq_some_iff] at h
    obtain ⟨s1, h1, h2⟩ := h
    exact Leads.trans (us := [.fls]) (leads_leaf h1 .fls) (ih s1 h2)
  | case14 st n ts ih =>
    intro st' h
    simp only [parseFrom, Option.bind_eq_some_iff] at h
    obtain ⟨s1, h1, h2⟩ := h
    exact Leads.trans (us := [.atomic n]) (leads_leaf h1 (.atomic n)) (ih s1 h2)
  | case15 st t ts h1 h2 h3 h4 h5 h6 h7 h8 h9 h10 h11 h12 h13 =>
    intro st' h
    rw [parseFrom] at h <;> first | assumption | cases h

/-! ### One tense at most -/

theorem mark_one {k : TmpK} {ft pt : Bool} {x : Bool × Bool} (h : mark k ft pt = some x) : (x.1 && x.2) = false := by
  unfold mark at h
  cases hk : k.future <;> cases ft <;> cases pt <;> simp_all <;> subst h <;> simp

theorem mk1_one {ft pt : Bool} {o : Op1} {e : Expr Nat} {x : Expr Nat × Bool × Bool} (h : mk1 ft pt e o = some x) (h0 : (ft && pt) = false) :
    (x.2.1 && x.2.2) = false := by
  cases o with
  | neg => cases h; exact h0
  | tmp k lb ub =>
    cases k <;> simp only [mk1, Option.map_eq_some_iff, reduceCtorEq] at h <;> (obtain ⟨y, h1, rfl⟩ := h; exact mark_one h1)

theorem mk2_one {ft pt : Bool} {o : Op2} {l r : Expr Nat} {x : Expr Nat × Bool × Bool} (h : mk2 ft pt l r o = some x) (h0 : (ft && pt) = false) :
    (x.2.1 && x.2.2) = false := by
  cases o with
  | tmp k lb ub =>
    cases k <;> simp only [mk2, Option.map_eq_some_iff, reduceCtorEq] at h <;> (obtain ⟨y, h1, rfl⟩ := h; exact mark_one h1)
  | _ => cases h; exact h0

theorem reduce_one {lvl : Nat} : ∀ (fs : List Frame) {ft pt : Bool} {e : Expr Nat} {x : List Frame × Expr Nat × Bool × Bool},
    reduce lvl ft pt e fs = some x → (ft && pt) = false → (x.2.2.1 && x.2.2.2) = false
  | [], _, _, _, _, h, h0 => by cases h; exact h0
  | .paren :: _, _, _, _, _, h, h0 => by cases h; exact h0
  | .pre o :: fs, _, _, _, _, h, h0 => by
    rw [reduce] at h
    split at h
    · obtain ⟨y, h1, h2⟩ := Option.bind_eq_some_iff.1 h
      exact reduce_one fs h2 (mk1_one h1 h0)
    · cases h; exact h0
  | .bin l o :: fs, _, _, _, _, h, h0 => by
    rw [reduce] at h
    split at h
    · obtain ⟨y, h1, h2⟩ := Option.bind_eq_some_iff.1 h
      exact reduce_one fs h2 (mk2_one h1 h0)
    · cases h; exact h0

def One (st : PState) : Prop := (st.ft && st.pt) = false

theorem leaf_one {st st' : PState} {e : Expr Nat} (h : st.leaf e = some st') (h0 : One st) : One st' := by
  unfold PState.leaf at h
  split at h <;> cases h
  exact h0

theorem opening_one {st st' : PState} {f : Frame} (h : st.opening f = some st') (h0 : One st) : One st' := by
  unfold PState.opening at h
  split at h <;> cases h
  exact h0

theorem between_one {st st' : PState} {o : Op2} (h : st.between o = some st') (h0 : One st) : One st' := by
  simp only [PState.between, Option.bind_eq_some_iff, Option.map_eq_some_iff] at h
  obtain ⟨e, -, x, h1, rfl⟩ := h
  exact reduce_one _ h1 h0

theorem close_one {st st' : PState} (h : st.close = some st') (h0 : One st) : One st' := by
  simp only [PState.close, Option.bind_eq_some_iff] at h
  obtain ⟨e, -, x, h1, h2⟩ := h
  split at h2 <;> cases h2
  exact reduce_one _ h1 h0

theorem line_one {st st' : PState} (h : st.line = some st') (h0 : One st) : One st' := by
  simp only [PState.line, Option.bind_eq_some_iff] at h
  obtain ⟨e, -, x, h1, h2⟩ := h
  split at h2 <;> cases h2
  exact reduce_one _ h1 h0

theorem temporal_one {st st' : PState} {k : TmpK} {lb ub : Nat} (h : st.temporal k lb ub = some st') (h0 : One st) : One st' := by
  cases k <;> first | exact between_one h h0 | exact opening_one h h0

theorem parse_one {m : Int} (st : PState) (ts : List Tok) : ∀ {st' : PState}, parseFrom m st ts = some st' → One st → One st' := by
  induction st, ts using parseFrom.induct with
  | case1 st => intro st' h h0; simp only [parseFrom, Option.some.injEq] at h; subst h; exact h0
  | case2 st k b ts ih =>
    intro st' h h0
    simp only [parseFrom, Option.bind_eq_some_iff] at h
    obtain ⟨ub, h1, s1, h2, h3⟩ := h
    exact ih s1 h3 (temporal_one h2 h0)
  | case3 st k a b ts ih =>
    intro st' h h0
    simp only [parseFrom, Option.bind_eq_some_iff] at h
    obtain ⟨lb, _, ub, h1, s1, h2, h3⟩ := h
    exact ih s1 h3 (temporal_one h2 h0)
  | case15 st t ts h1 h2 h3 h4 h5 h6 h7 h8 h9 h10 h11 h12 h13 =>
    intro st' h
    rw [parseFrom] at h <;> first | assumption | cases h
  | _ =>
    rename_i ih
    intro st' h h0
    simp only [parseFrom, Option.bind_eq_some_iff] at h
    obtain ⟨s1, h1, h2⟩ := h
    first
      | exact ih s1 h2 (leaf_one h1 h0)
      | exact ih s1 h2 (opening_one h1 h0)
      | exact ih s1 h2 (between_one h1 h0)
      | exact ih s1 h2 (close_one h1 h0)
      | exact ih s1 h2 (line_one h1 h0)

end Mltl
end R2U2
