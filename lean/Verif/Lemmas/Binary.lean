import Verif.Spec.Binary
import Mathlib.Tactic.Set
import Mathlib.Data.List.Forall2
/- Helper lemmas about packing and loading. -/
namespace R2U2

theorem at_append (pre l : List Nat) (o : Nat) : (pre ++ l)[pre.length + o]? = l[o]? := by
  rw [List.getElem?_append_right (by omega)]; congr 1; omega

theorem u32At_append (pre l : List Nat) (o : Nat) : u32At (pre ++ l) (pre.length + o) = u32At l o := by
  simp only [u32At, Nat.add_assoc, at_append]

theorem bzIntAt_append (pre l : List Nat) (o : Nat) : bzIntAt (pre ++ l) (pre.length + o) = bzIntAt l o := by
  simp only [bzIntAt, u32At_append]

theorem bzFloatAt_append (pre l : List Nat) (o : Nat) :
    bzFloatAt (pre ++ l) (pre.length + o) = bzFloatAt l o := by
  simp only [bzFloatAt, Nat.add_assoc, u32At_append]

theorem bzRecAt_append (pre l : List Nat) (o : Nat) : bzRecAt (pre ++ l) (pre.length + o) = bzRecAt l o := by
  simp only [bzRecAt, Nat.add_assoc, u32At_append, at_append]

theorem tlRecAt_append (pre l : List Nat) (o : Nat) : tlRecAt (pre ++ l) (pre.length + o) = tlRecAt l o := by
  simp only [tlRecAt, Nat.add_assoc, u32At_append, at_append]

theorem loadFrame_append (pre l : List Nat) : loadFrame (pre ++ l) pre.length = loadFrame l 0 := by
  simp only [loadFrame, at_append, bzRecAt_append, tlRecAt_append, bzIntAt_append, bzFloatAt_append,
    Nat.zero_add]

theorem leBytes4 (n : Nat) :
    leBytes 4 n = [n % 256, n / 256 % 256, n / 256 / 256 % 256, n / 256 / 256 / 256 % 256] := rfl

theorem leBytes8 (n : Nat) : leBytes 8 n = leBytes 4 (n % 2 ^ 32) ++ leBytes 4 (n / 2 ^ 32) := by
  simp only [leBytes, List.cons_append, List.nil_append, List.cons.injEq, and_true]
  refine ⟨?_, ?_, ?_, ?_, ?_, ?_, ?_, ?_⟩ <;> omega

theorem le4_value (n : Nat) (h : n < 2 ^ 32) :
    n % 256 + n / 256 % 256 * 2 ^ 8 + n / 256 / 256 % 256 * 2 ^ 16 +
      n / 256 / 256 / 256 % 256 * 2 ^ 24 = n := by
  omega

theorem u32At_le (n : Nat) (h : n < 2 ^ 32) (l : List Nat) : u32At (leBytes 4 n ++ l) 0 = some n := by
  rw [leBytes4]
  have := le4_value n h
  simpa [u32At] using this

/-- Reading behind a prefix of known length. -/
theorem u32At_at (pre l : List Nat) (k n : Nat) (h : n < 2 ^ 32) (hk : pre.length = k) :
    u32At (pre ++ (leBytes 4 n ++ l)) k = some n := by
  subst hk
  have := u32At_append pre (leBytes 4 n ++ l) 0
  rw [Nat.add_zero] at this
  rw [this, u32At_le n h]

theorem leBytes_length (k n : Nat) : (leBytes k n).length = k := by
  induction k generalizing n with
  | zero => rfl
  | succ k ih => simp [leBytes, ih]

theorem packU32_some {v : Int} {b : List Nat} (h : packU32 v = some b) :
    (0 ≤ v ∧ v < 2 ^ 32) ∧ b = leBytes 4 v.toNat := by
  unfold packU32 at h
  split at h
  · next hv => exact ⟨hv, by simpa using h.symm⟩
  · cases h

theorem packU32_nat {n : Nat} (h : n < 2 ^ 32) : packU32 n = some (leBytes 4 n) := by
  unfold packU32
  rw [if_pos ⟨by omega, by omega⟩]
  simp

theorem packU32_of {v : Int} (h : 0 ≤ v) (h' : v < 2 ^ 32) : packU32 v = some (leBytes 4 v.toNat) := by
  unfold packU32
  rw [if_pos ⟨by omega, by omega⟩]

theorem packI32_of {v : Int} (h : -(2 ^ 31) ≤ v) (h' : v < 2 ^ 31) :
    packI32 v = some (leBytes 4 (v % 2 ^ 32).toNat) := by
  unfold packI32
  rw [if_pos ⟨by omega, by omega⟩]

theorem cBzOp_code (o : BzOp) : cBzOp o.code = some o := by cases o <;> rfl
theorem cTlOp_code (o : TlOp) : cTlOp o.code = some o := by cases o <;> rfl
theorem cOperandT_code (o : OperandT) : cOperandT o.code = some o := by cases o <;> rfl

/-- Shape of a booleanizer payload, `w` and `w'` the two words of the first operand. -/
theorem bz_read (n w w' b c k : Nat) (suf : List Nat) (hw : w < 2 ^ 32) (hw' : w' < 2 ^ 32)
    (hb : b < 2 ^ 32) (hc : c < 2 ^ 32) (tag : Nat) :
    let s := n :: tag :: (leBytes 4 w ++ leBytes 4 w' ++ leBytes 4 b ++ leBytes 4 c ++ [k]) ++ suf
    u32At s 2 = some w ∧ u32At s 6 = some w' ∧ u32At s 10 = some b ∧ u32At s 14 = some c ∧
      s[18]? = some k := by
  intro s
  refine ⟨?_, ?_, ?_, ?_, ?_⟩
  · have : s = [n, tag] ++ (leBytes 4 w ++ (leBytes 4 w' ++ leBytes 4 b ++ leBytes 4 c ++ [k] ++ suf)) := by
      simp [s]
    rw [this]; exact u32At_at _ _ _ _ hw rfl
  · have : s = ([n, tag] ++ leBytes 4 w) ++ (leBytes 4 w' ++ (leBytes 4 b ++ leBytes 4 c ++ [k] ++ suf)) := by
      simp [s]
    rw [this]; exact u32At_at _ _ _ _ hw' rfl
  · have : s = ([n, tag] ++ leBytes 4 w ++ leBytes 4 w') ++ (leBytes 4 b ++ (leBytes 4 c ++ [k] ++ suf)) := by
      simp [s]
    rw [this]; exact u32At_at _ _ _ _ hb rfl
  · have : s = ([n, tag] ++ leBytes 4 w ++ leBytes 4 w' ++ leBytes 4 b) ++ (leBytes 4 c ++ ([k] ++ suf)) := by
      simp [s]
    rw [this]; exact u32At_at _ _ _ _ hc rfl
  · simp [s, leBytes4]

theorem bz_rec (n w w' b c k : Nat) (suf : List Nat) (hw : w < 2 ^ 32) (hw' : w' < 2 ^ 32)
    (hb : b < 2 ^ 32) (hc : c < 2 ^ 32) (tag : Nat) :
    let s := n :: tag :: (leBytes 4 w ++ leBytes 4 w' ++ leBytes 4 b ++ leBytes 4 c ++ [k]) ++ suf
    bzRecAt s 2 = some ⟨w, b, c, cBzOp k⟩ ∧ bzIntAt s 2 = some (toInt32 w) ∧
    bzFloatAt s 2 = some ((((toInt32 w) % 2 ^ 64).toNat + w' * 2 ^ 32) % 2 ^ 64) := by
  intro s
  obtain ⟨h1, h2, h3, h4, h5⟩ := bz_read n w w' b c k suf hw hw' hb hc tag
  refine ⟨?_, ?_, ?_⟩
  · simp only [bzRecAt, s, h1, h3, h4, h5]
  · simp only [bzIntAt, s, h1, Option.map_some]
  · simp only [bzFloatAt, s, h1, h2, Option.map_some]

theorem tl_rec (pre : List Nat) (m a b c t t' k : Nat) (suf : List Nat) (ha : a < 2 ^ 32)
    (hb : b < 2 ^ 32) (hc : c < 2 ^ 32) (hm : pre.length = m) :
    tlRecAt (pre ++ (leBytes 4 a ++ leBytes 4 b ++ leBytes 4 c ++ [t, t', k]) ++ suf) m
      = some ⟨a, b, c, cOperandT t, cOperandT t', cTlOp k⟩ := by
  subst hm
  rw [List.append_assoc, show pre.length = pre.length + 0 from rfl, tlRecAt_append]
  set s := (leBytes 4 a ++ leBytes 4 b ++ leBytes 4 c ++ [t, t', k]) ++ suf with hs
  have h1 : u32At s 0 = some a := by
    rw [hs, show leBytes 4 a ++ leBytes 4 b ++ leBytes 4 c ++ [t, t', k] ++ suf =
      [] ++ (leBytes 4 a ++ (leBytes 4 b ++ leBytes 4 c ++ [t, t', k] ++ suf)) by simp]
    exact u32At_at _ _ _ _ ha rfl
  have h2 : u32At s 4 = some b := by
    rw [hs, show leBytes 4 a ++ leBytes 4 b ++ leBytes 4 c ++ [t, t', k] ++ suf =
      leBytes 4 a ++ (leBytes 4 b ++ (leBytes 4 c ++ [t, t', k] ++ suf)) by simp]
    exact u32At_at _ _ _ _ hb rfl
  have h3 : u32At s 8 = some c := by
    rw [hs, show leBytes 4 a ++ leBytes 4 b ++ leBytes 4 c ++ [t, t', k] ++ suf =
      (leBytes 4 a ++ leBytes 4 b) ++ (leBytes 4 c ++ ([t, t', k] ++ suf)) by simp]
    exact u32At_at _ _ _ _ hc rfl
  have h4 : s[12]? = some t := by simp [hs, leBytes4]
  have h5 : s[13]? = some t' := by simp [hs, leBytes4]
  have h6 : s[14]? = some k := by simp [hs, leBytes4]
  simp only [tlRecAt, Nat.zero_add, h1, h2, h3, h4, h5, h6]


/-- A booleanizer frame with operand words `w`, `w'`. -/
theorem load_bz (w w' b c : Nat) (o : BzOp) (suf : List Nat) (hw : w < 2 ^ 32) (hw' : w' < 2 ^ 32)
    (hb : b < 2 ^ 32) (hc : c < 2 ^ 32) (n : Nat) :
    loadFrame (n :: 5 :: (leBytes 4 w ++ leBytes 4 w' ++ leBytes 4 b ++ leBytes 4 c ++ [o.code]) ++ suf) 0 =
      some [if o = .iconst then .iconst c (toInt32 w)
        else if o = .fconst then .fconst c ((((toInt32 w) % 2 ^ 64).toNat + w' * 2 ^ 32) % 2 ^ 64)
        else .bz ⟨w, b, c, some o⟩] := by
  obtain ⟨h1, h2, h3⟩ := bz_rec n w w' b c o.code suf hw hw' hb hc 5
  unfold loadFrame
  simp only [Nat.zero_add, h1, h2, h3, cBzOp_code, Option.some.injEq]
  simp only [List.cons_append, List.getElem?_cons_succ, List.getElem?_cons_zero]
  simp only [show ¬ ((5 : Nat) = 2) by decide, false_and, if_false, if_true, Option.map_some]
  split
  · rfl
  · split <;> rfl

theorem load_tl (a b c : Nat) (t t' : OperandT) (o : TlOp) (suf : List Nat) (ha : a < 2 ^ 32)
    (hb : b < 2 ^ 32) (hc : c < 2 ^ 32) (n : Nat) :
    loadFrame (n :: 4 :: (leBytes 4 a ++ leBytes 4 b ++ leBytes 4 c ++ [t.code, t'.code, o.code]) ++ suf) 0 =
      some [.tl ⟨a, b, c, some t, some t', some o⟩] := by
  have h := tl_rec [n, 4] 2 a b c t.code t'.code o.code suf ha hb hc rfl
  simp only [List.cons_append, List.nil_append] at h
  unfold loadFrame
  simp only [List.cons_append, Nat.zero_add, h, cTlOp_code, cOperandT_code]
  simp only [List.getElem?_cons_succ, List.getElem?_cons_zero]
  simp

theorem load_cg (a b c : Nat) (t t' : OperandT) (o : TlOp) (suf : List Nat) (ha : a < 2 ^ 32)
    (hb : b < 2 ^ 32) (hc : c < 2 ^ 32) (n : Nat) :
    loadFrame (n :: 2 :: 4 :: (leBytes 4 a ++ leBytes 4 b ++ leBytes 4 c ++ [t.code, t'.code, o.code]) ++ suf) 0 =
      some [.config ⟨a, b, c, some t, some t', some o⟩] := by
  have h := tl_rec [n, 2, 4] 3 a b c t.code t'.code o.code suf ha hb hc rfl
  simp only [List.cons_append, List.nil_append] at h
  unfold loadFrame
  simp only [List.cons_append, Nat.zero_add, h, cTlOp_code, cOperandT_code]
  simp

theorem toInt32_small {v : Int} (h : 0 ≤ v) (h' : v < 2 ^ 31) : toInt32 v.toNat = v := by
  unfold toInt32; rw [if_pos (by omega)]; omega

theorem zeros : leBytes 4 0 = [0, 0, 0, 0] := rfl

theorem float_words {bits : Nat} (hb : bits < 2 ^ 64) (hl : bits % 2 ^ 32 < 2 ^ 31) :
    (((toInt32 (bits % 2 ^ 32)) % 2 ^ 64).toNat + bits / 2 ^ 32 * 2 ^ 32) % 2 ^ 64 = bits := by
  unfold toInt32; rw [if_pos hl]; omega

theorem wrong_float {bits : Nat} (hb : bits < 2 ^ 64) (hl : 2 ^ 31 ≤ bits % 2 ^ 32) :
    (((toInt32 (bits % 2 ^ 32)) % 2 ^ 64).toNat + bits / 2 ^ 32 * 2 ^ 32) % 2 ^ 64 =
      (bits + (2 ^ 64 - 2 ^ 32)) % 2 ^ 64 := by
  unfold toInt32; rw [if_neg (by omega)]; omega

theorem packBz_of (i : BzInstr) (a : List Nat) (ha : packArg i.op i.a = some a) (h1 : i.id < 2 ^ 32)
    (h2 : i.b < 2 ^ 32) :
    packBz i = some (5 :: (a ++ leBytes 4 i.b ++ leBytes 4 i.id ++ [i.op.code])) := by
  simp only [packBz, ha, packU32_nat h1, packU32_nat h2]

theorem packArg_iconst {v : Int} (h : 0 ≤ v) (h' : v < 2 ^ 32) :
    packArg .iconst (.int v) = some (leBytes 4 v.toNat ++ leBytes 4 0) := by
  simp only [packArg, if_true, packU32_of h h', Option.map_some, zeros]

theorem packArg_int {o : BzOp} {v : Int} (ho : o ≠ .iconst) (h : -(2 ^ 31) ≤ v) (h' : v < 2 ^ 31) :
    packArg o (.int v) = some (leBytes 4 (v % 2 ^ 32).toNat ++ leBytes 4 0) := by
  simp only [packArg, if_neg ho, packI32_of h h', Option.map_some, zeros]

/-- The words of the first operand. -/
theorem bz_words (i : BzInstr) (h : (Instr.bz i).Fits) :
    ∃ w w', w < 2 ^ 32 ∧ w' < 2 ^ 32 ∧
      packBz i = some (5 :: (leBytes 4 w ++ leBytes 4 w' ++ leBytes 4 i.b ++ leBytes 4 i.id ++ [i.op.code])) ∧
      (Instr.bz i).event =
        (if i.op = .iconst then .iconst i.id (toInt32 w)
        else if i.op = .fconst then .fconst i.id ((((toInt32 w) % 2 ^ 64).toNat + w' * 2 ^ 32) % 2 ^ 64)
        else .bz ⟨w, i.b, i.id, some i.op⟩) := by
  obtain ⟨h1, h2, h3⟩ := h
  cases ha : i.a with
  | float bits =>
      rw [ha] at h3
      obtain ⟨ho, hb, hl⟩ := h3
      refine ⟨bits % 2 ^ 32, bits / 2 ^ 32, Nat.mod_lt _ (by decide), by omega, ?_, ?_⟩
      · rw [← leBytes8]; exact packBz_of i _ (by rw [ha]; rfl) h1 h2
      · rw [ho, if_neg (by simp), if_pos rfl, float_words hb hl]
        simp only [Instr.event, ho, ha]
  | int v =>
      rw [ha] at h3
      obtain ⟨hf, hlo, hhi⟩ := h3
      by_cases ho : i.op = .iconst
      · rw [if_pos ho] at hlo
        refine ⟨v.toNat, 0, by omega, by omega, ?_, ?_⟩
        · exact packBz_of i _ (by rw [ha, ho]; exact packArg_iconst hlo (by omega)) h1 h2
        · rw [if_pos ho, toInt32_small hlo hhi]
          simp only [Instr.event, ho, ha]
      · rw [if_neg ho] at hlo
        refine ⟨(v % 2 ^ 32).toNat, 0, by omega, by omega, ?_, ?_⟩
        · exact packBz_of i _ (by rw [ha]; exact packArg_int ho hlo hhi) h1 h2
        · rw [if_neg ho, if_neg hf]
          cases hi : i.op <;> simp_all [Instr.event, BzInstr.word]

/-- A frame: its first byte is its length and the loader turns it into the event. -/
theorem frame (i : Instr) (h : i.Fits) :
    ∃ b : List Nat, packInstr i = some ((b.length + 1) :: b) ∧ b.length + 1 < 256 ∧
      ∀ suf, loadFrame ((b.length + 1) :: b ++ suf) 0 = some [i.event] := by
  cases i with
  | bz i =>
      obtain ⟨w, w', hw, hw', hp, he⟩ := bz_words i h
      obtain ⟨h1, h2, _⟩ := h
      refine ⟨5 :: (leBytes 4 w ++ leBytes 4 w' ++ leBytes 4 i.b ++ leBytes 4 i.id ++ [i.op.code]),
        by simp only [packInstr, hp, Option.map_some], by simp [leBytes_length], ?_⟩
      intro suf
      rw [he]
      exact load_bz w w' i.b i.id i.op suf hw hw' h2 h1 _
  | tl i =>
      obtain ⟨h1, h2, h3, h4, h5⟩ := h
      refine ⟨4 :: (leBytes 4 i.v1.toNat ++ leBytes 4 i.v2.toNat ++ leBytes 4 i.id ++
        [i.t1.code, i.t2.code, i.op.code]), by simp only [packInstr, packTl, packU32_of h2 h3,
        packU32_of h4 h5, packU32_nat h1, Option.map_some], by simp [leBytes_length], ?_⟩
      intro suf
      exact load_tl _ _ _ _ _ _ suf (by omega) (by omega) h1 _
  | cg c =>
      obtain ⟨h1, h2, h3, h4, h5⟩ := h
      refine ⟨2 :: 4 :: (leBytes 4 c.instr.v1.toNat ++ leBytes 4 c.instr.v2.toNat ++ leBytes 4 c.instr.id ++
        [c.instr.t1.code, c.instr.t2.code, c.instr.op.code]), by simp only [packInstr, packCg, packTl,
        packU32_of h2 h3, packU32_of h4 h5, packU32_nat h1, Option.map_some], by simp [leBytes_length], ?_⟩
      intro suf
      exact load_cg _ _ _ _ _ _ suf (by omega) (by omega) h1 _

/-- The words of the first operand of any packable instruction. -/
theorem packArg_words {o : BzOp} {x : BzArg} {a : List Nat} (h : packArg o x = some a) :
    ∃ w w', w < 2 ^ 32 ∧ w' < 2 ^ 32 ∧ a = leBytes 4 w ++ leBytes 4 w' := by
  cases x with
  | float bits =>
      simp only [packArg, Option.some.injEq] at h
      refine ⟨bits % 2 ^ 32, bits / 2 ^ 32 % 2 ^ 32, Nat.mod_lt _ (by decide), Nat.mod_lt _ (by decide), ?_⟩
      rw [← h, leBytes8]
      congr 1
      simp only [leBytes4, List.cons.injEq, and_true]
      refine ⟨?_, ?_, ?_, ?_⟩ <;> omega
  | int v =>
      by_cases ho : o = .iconst
      · simp only [packArg, if_pos ho, Option.map_eq_some_iff] at h
        obtain ⟨b, hb, rfl⟩ := h
        obtain ⟨⟨h1, h2⟩, rfl⟩ := packU32_some hb
        exact ⟨v.toNat, 0, by omega, by omega, by rw [zeros]⟩
      · simp only [packArg, if_neg ho, Option.map_eq_some_iff] at h
        obtain ⟨b, hb, rfl⟩ := h
        unfold packI32 at hb
        split at hb
        · simp only [Option.some.injEq] at hb
          exact ⟨(v % 2 ^ 32).toNat, 0, by omega, by omega, by rw [zeros, hb]⟩
        · cases hb

theorem packBz_some {i : BzInstr} {b : List Nat} (h : packBz i = some b) :
    ∃ a, packArg i.op i.a = some a ∧ i.b < 2 ^ 32 ∧ i.id < 2 ^ 32 ∧
      b = 5 :: (a ++ leBytes 4 i.b ++ leBytes 4 i.id ++ [i.op.code]) := by
  unfold packBz at h
  split at h
  · next a c d h1 h2 h3 =>
      obtain ⟨⟨_, h4⟩, rfl⟩ := packU32_some h2
      obtain ⟨⟨_, h5⟩, rfl⟩ := packU32_some h3
      refine ⟨a, h1, by omega, by omega, ?_⟩
      simpa using h.symm
  · cases h

theorem packTl_some {i : TlInstr} {b : List Nat} (h : packTl i = some b) :
    ((0 ≤ i.v1 ∧ i.v1 < 2 ^ 32) ∧ (0 ≤ i.v2 ∧ i.v2 < 2 ^ 32) ∧ i.id < 2 ^ 32) ∧
      b = 4 :: (leBytes 4 i.v1.toNat ++ leBytes 4 i.v2.toNat ++ leBytes 4 i.id ++
        [i.t1.code, i.t2.code, i.op.code]) := by
  unfold packTl at h
  split at h
  · next a c d h1 h2 h3 =>
      obtain ⟨h4, rfl⟩ := packU32_some h1
      obtain ⟨h5, rfl⟩ := packU32_some h2
      obtain ⟨⟨_, h6⟩, rfl⟩ := packU32_some h3
      refine ⟨⟨h4, h5, by omega⟩, ?_⟩
      simpa using h.symm
  · cases h

/-- Every packed frame is its own length and gives one event, whatever follows. -/
theorem frame_any (i : Instr) (f : List Nat) (h : packInstr i = some f) :
    ∃ (b : List Nat) (ev : LoadEv), f = (b.length + 1) :: b ∧ b.length + 1 < 256 ∧
      ∀ suf, loadFrame (f ++ suf) 0 = some [ev] := by
  cases i with
  | bz i =>
      simp only [packInstr, Option.map_eq_some_iff] at h
      obtain ⟨b, hb, rfl⟩ := h
      obtain ⟨a, ha, h1, h2, rfl⟩ := packBz_some hb
      obtain ⟨w, w', hw, hw', rfl⟩ := packArg_words ha
      exact ⟨_, _, rfl, by simp [leBytes_length], fun suf => load_bz w w' i.b i.id i.op suf hw hw' h1 h2 _⟩
  | tl i =>
      simp only [packInstr, Option.map_eq_some_iff] at h
      obtain ⟨b, hb, rfl⟩ := h
      obtain ⟨⟨h1, h2, h3⟩, rfl⟩ := packTl_some hb
      exact ⟨_, _, rfl, by simp [leBytes_length], fun suf =>
        load_tl _ _ _ _ _ _ suf (by omega) (by omega) h3 _⟩
  | cg c =>
      simp only [packInstr, packCg, Option.map_eq_some_iff] at h
      obtain ⟨b, ⟨b', hb, rfl⟩, rfl⟩ := h
      obtain ⟨⟨h1, h2, h3⟩, rfl⟩ := packTl_some hb
      exact ⟨_, _, rfl, by simp [leBytes_length], fun suf =>
        load_cg _ _ _ _ _ _ suf (by omega) (by omega) h3 _⟩

/-- The loop over the frames of `is`, behind any prefix, up to the zero. -/
theorem loop_frames (is : List Instr) (b : List Nat) (h : packAll is = some b) :
    ∃ es, List.Forall₂ LoadsAs is es ∧ ∀ pre suf fuel, is.length < fuel →
      loadLoop fuel (pre ++ (b ++ 0 :: suf)) pre.length = some (es, pre.length + b.length) := by
  induction is generalizing b with
  | nil =>
      obtain rfl : b = [] := by simpa [packAll] using h.symm
      refine ⟨[], .nil, ?_⟩
      intro pre suf fuel hf
      obtain ⟨k, rfl⟩ : ∃ k, fuel = k + 1 := ⟨fuel - 1, by simp at hf; omega⟩
      have := at_append pre (0 :: suf) 0
      simp only [Nat.add_zero] at this
      simp [loadLoop, this]
  | cons i is ih =>
      unfold packAll at h
      split at h
      · next f b' hf hb =>
          obtain ⟨es, hes, hl⟩ := ih b' hb
          obtain ⟨c, ev, rfl, _, hev⟩ := frame_any i f hf
          obtain rfl : (c.length + 1) :: c ++ b' = b := by simpa using h
          refine ⟨ev :: es, .cons ⟨_, hf, by simpa using hev []⟩ hes, ?_⟩
          intro pre suf fuel hfu
          obtain ⟨k, rfl⟩ : ∃ k, fuel = k + 1 := ⟨fuel - 1, by omega⟩
          have h0 : (pre ++ ((((c.length + 1) :: c) ++ b') ++ 0 :: suf))[pre.length]? = some (c.length + 1) := by
            have := at_append pre ((((c.length + 1) :: c) ++ b') ++ 0 :: suf) 0
            simpa using this
          have h1 : loadFrame (pre ++ ((((c.length + 1) :: c) ++ b') ++ 0 :: suf)) pre.length = some [ev] := by
            rw [loadFrame_append, List.append_assoc]; exact hev _
          have h2 := hl (pre ++ ((c.length + 1) :: c)) suf k (by simp at hfu; omega)
          have e : pre ++ ((((c.length + 1) :: c) ++ b') ++ 0 :: suf) =
              (pre ++ ((c.length + 1) :: c)) ++ (b' ++ 0 :: suf) := by simp
          have e' : pre.length + (c.length + 1) = (pre ++ ((c.length + 1) :: c)).length := by simp
          unfold loadLoop
          rw [h0]
          simp only [Nat.add_eq_zero_iff, Nat.one_ne_zero, and_false, if_false, h1]
          rw [e', e, h2]
          simp
          omega
      · cases h

end R2U2
