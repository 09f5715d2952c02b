import Verif.Spec.RustBz
import Mathlib.Tactic.Linarith
/-
C77: what the booleanizer of the Rust monitor computes, instruction by instruction.
-/
namespace R2U2
open Rs
variable {F : Type}

theorem word_iff {v : Int} : Word v ↔ -(2 ^ 31) ≤ v ∧ v < 2 ^ 31 := by
  unfold Word imin imax; omega

theorem int32_word {v : Int} (h : Word v) : int32 v = some v := by
  unfold int32; rw [if_pos (word_iff.1 h)]

theorem int32_not {v : Int} (h : ¬ Word v) : int32 v = none := by
  unfold int32; rw [if_neg (fun h' => h (word_iff.2 h'))]

theorem clamp_word {v : Int} (h : Word v) : clamp v = v := by
  unfold clamp; unfold Word at h; omega

theorem clamp_high {v : Int} (h : ¬ Word v) (hp : 0 ≤ v) : clamp v = imax := by
  unfold clamp; unfold Word imin imax at *; omega

theorem clamp_low {v : Int} (h : ¬ Word v) (hp : v ≤ 0) : clamp v = imin := by
  unfold clamp; unfold Word imin imax at *; omega

/-- The results and flags of the checked functions. -/
theorem checked_ok {o : BzOp} {a b v : Int} (ha : Word a) (hb : Word b) (h : exact o a b = some v) :
    (o = .iadd → (intAdd a b).1 = clamp v ∧ ((intAdd a b).2 = true ↔ ¬ Word v)) ∧
    (o = .isub → (intSub a b).1 = clamp v ∧ ((intSub a b).2 = true ↔ ¬ Word v)) ∧
    (o = .imul → (intMul a b).1 = clamp v ∧ ((intMul a b).2 = true ↔ ¬ Word v)) ∧
    (o = .idiv → (intDiv a b).1 = clamp v ∧ ((intDiv a b).2 = true ↔ ¬ Word v)) ∧
    (o = .ipow → (intPow a b).1 = clamp v ∧ ((intPow a b).2 = true ↔ ¬ Word v)) ∧
    (o = .mod → intMod a b = some (clamp v, false) ∧ Word v) ∧
    (o = .ineg → (intNeg a).1 = clamp v ∧ ((intNeg a).2 = true ↔ ¬ Word v)) ∧
    (o = .iabs → (intAbs a).1 = clamp v ∧ ((intAbs a).2 = true ↔ ¬ Word v)) := by
  have neg : ∀ {a : Int}, Word a → (intNeg a).1 = clamp (-a) ∧ ((intNeg a).2 = true ↔ ¬ Word (-a)) := by
    intro a ha
    unfold intNeg
    by_cases h : a = imin
    · subst h; simp only [if_true]; exact ⟨by decide, by unfold Word imin imax; simp⟩
    · have : Word (-a) := by unfold Word imin imax at *; omega
      rw [if_neg h]; simp [clamp_word this, this]
  refine ⟨?_, ?_, ?_, ?_, ?_, ?_, ?_, ?_⟩ <;> rintro rfl <;> simp only [exact] at h
  · cases h
    unfold intAdd
    by_cases hw : Word (a + b)
    · rw [int32_word hw]; simp [clamp_word hw, hw]
    · rw [int32_not hw]
      by_cases hn : a < 0 ∧ b < 0
      · simp only [if_pos hn]; exact ⟨(clamp_low hw (by omega)).symm, by simp [hw]⟩
      · simp only [if_neg hn]
        refine ⟨(clamp_high hw ?_).symm, by simp [hw]⟩
        unfold Word imin imax at *; omega
  · cases h
    unfold intSub
    by_cases hw : Word (a - b)
    · rw [int32_word hw]; simp [clamp_word hw, hw]
    · rw [int32_not hw]
      by_cases hn : a < 0 ∧ b > 0
      · simp only [if_pos hn]; exact ⟨(clamp_low hw (by omega)).symm, by simp [hw]⟩
      · simp only [if_neg hn]
        refine ⟨(clamp_high hw ?_).symm, by simp [hw]⟩
        unfold Word imin imax at *; omega
  · cases h
    unfold intMul
    by_cases hw : Word (a * b)
    · rw [int32_word hw]; simp [clamp_word hw, hw]
    · rw [int32_not hw]
      by_cases hn : (a < 0 ∧ b > 0) ∨ (a > 0 ∧ b < 0)
      · simp only [if_pos hn]
        refine ⟨(clamp_low hw ?_).symm, by simp [hw]⟩
        rcases hn with hn | hn <;> nlinarith
      · simp only [if_neg hn]
        refine ⟨(clamp_high hw ?_).symm, by simp [hw]⟩
        push Not at hn
        by_contra hlt
        push Not at hlt
        rcases mul_neg_iff.1 hlt with h | h
        · have := hn.2 h.1; omega
        · have := hn.1 h.1; omega
  · split at h
    · cases h
    rename_i hb0
    cases h
    unfold intDiv checkedDiv
    rw [if_neg hb0]
    by_cases hw : Word (a.tdiv b)
    · rw [int32_word hw]; simp [clamp_word hw, hw]
    · rw [int32_not hw]
      have hab : a = imin ∧ b = -1 := by
        by_contra hc
        apply hw
        have h1 : (a.tdiv b).natAbs = a.natAbs / b.natAbs := Int.natAbs_tdiv a b
        have h2 : a.natAbs / b.natAbs ≤ a.natAbs := Nat.div_le_self _ _
        by_cases h3 : a = imin
        · subst h3
          by_cases h4 : b = 1
          · subst h4; rw [Int.tdiv_one]; exact ha
          · have h5 : 2 ≤ b.natAbs := by have : b ≠ -1 := fun h => hc ⟨rfl, h⟩; omega
            have h6 : imin.natAbs / b.natAbs ≤ imin.natAbs / 2 := Nat.div_le_div_left h5 (by decide)
            have h7 : imin.natAbs / 2 = 2 ^ 30 := by decide
            unfold Word imin imax at *; omega
        · unfold Word imin imax at *; omega
      obtain ⟨rfl, rfl⟩ := hab
      exact ⟨by decide, by simp only [hw, not_false_eq_true, iff_true]; decide⟩
  · split at h
    · rename_i hab
      cases h
      unfold intPow
      have : (b % 2 ^ 32).toNat = b.toNat := by unfold Word imin imax at hb; omega
      rw [this]
      have hp : 0 ≤ a ^ b.toNat := pow_nonneg hab.1 _
      by_cases hw : Word (a ^ b.toNat)
      · rw [int32_word hw]; simp [clamp_word hw, hw]
      · rw [int32_not hw, if_neg (by omega)]
        exact ⟨(clamp_high hw hp).symm, by simp [hw]⟩
    · cases h
  · split at h
    · cases h
    rename_i hab
    push Not at hab
    cases h
    unfold intMod
    rw [if_neg hab.1, if_neg (fun h => hab.2 h.1 h.2)]
    have hw : Word (a.tmod b) := by
      have h1 : (a.tmod b).natAbs = a.natAbs % b.natAbs := Int.natAbs_tmod a b
      have h2 : a.natAbs % b.natAbs < b.natAbs := Nat.mod_lt _ (by omega)
      unfold Word imin imax at *; omega
    exact ⟨by rw [clamp_word hw], hw⟩
  · cases h; exact neg ha
  · cases h
    unfold intAbs
    by_cases hn : a < 0
    · rw [if_pos hn, abs_of_neg hn]; exact neg ha
    · rw [if_neg hn, abs_of_nonneg (by omega)]; simp [clamp_word ha, ha]

/-- C77, integers: an arithmetic instruction on 32-bit integers writes the exact result if it is a 32-bit integer, and otherwise the nearest 32-bit
integer; the overflow flag is set in the second case and cleared in the first.  Nothing else changes. -/
theorem C77_saturates_partial (ops : Ops F) (lim : BzLimits) (sig : Signals F) (r : BzRec) (m : Rs.BzMon F) (o : BzOp) (v : Int)
    (hr : r.opcode = some o) (h1 : r.param1 < lim.cells) (h2 : r.param2 < lim.cells) (h3 : r.mem < lim.cells)
    (ha : Word (m.i r.param1)) (hb : Word (m.i r.param2)) (hv : exact o (m.i r.param1) (m.i r.param2) = some v) :
    ∃ m', m.update ops lim sig r = some m' ∧ m'.i r.mem = clamp v ∧ (m'.overflow = true ↔ ¬ Word v) ∧
      (∀ a, a ≠ r.mem → m'.i a = m.i a) ∧ m'.f = m.f ∧ m'.atoms = m.atoms ∧ m'.time = m.time := by
  obtain ⟨k1, k2, k3, k4, k5, k6, k7, k8⟩ := checked_ok ha hb hv
  have two : ∀ g : Int → Int → Option (Int × Bool), ∀ x c, g (m.i r.param1) (m.i r.param2) = some (x, c) → x = clamp v → (c = true ↔ ¬ Word v) →
      ∃ m', m.chk2 lim r g = some m' ∧ m'.i r.mem = clamp v ∧ (m'.overflow = true ↔ ¬ Word v) ∧
      (∀ a, a ≠ r.mem → m'.i a = m.i a) ∧ m'.f = m.f ∧ m'.atoms = m.atoms ∧ m'.time = m.time := by
    intro g x c hg hx hc
    refine ⟨{ m with i := fun b => if b = r.mem then x else m.i b, overflow := c },
      by unfold Rs.BzMon.chk2 Rs.BzMon.putI; rw [if_pos ⟨h1, h2⟩, hg, Option.bind_some, if_pos h3]; rfl, ?_, hc, ?_, rfl, rfl, rfl⟩
    · simp [hx]
    · intro a ha; simp [ha]
  have one : ∀ g : Int → Int × Bool, (g (m.i r.param1)).1 = clamp v → ((g (m.i r.param1)).2 = true ↔ ¬ Word v) →
      ∃ m', m.chk1 lim r g = some m' ∧ m'.i r.mem = clamp v ∧ (m'.overflow = true ↔ ¬ Word v) ∧
      (∀ a, a ≠ r.mem → m'.i a = m.i a) ∧ m'.f = m.f ∧ m'.atoms = m.atoms ∧ m'.time = m.time := by
    intro g hx hc
    refine ⟨{ m with i := fun b => if b = r.mem then (g (m.i r.param1)).1 else m.i b, overflow := (g (m.i r.param1)).2 },
      by unfold Rs.BzMon.chk1 Rs.BzMon.putI; rw [if_pos h1, if_pos h3]; rfl, ?_, hc, ?_, rfl, rfl, rfl⟩
    · simp [hx]
    · intro a ha; simp [ha]
  unfold Rs.BzMon.update
  rw [hr]
  cases o <;> simp only [exact, reduceCtorEq] at hv ⊢
  · exact one _ (k7 rfl).1 (k7 rfl).2
  · exact two _ _ _ rfl (k1 rfl).1 (k1 rfl).2
  · exact two _ _ _ rfl (k2 rfl).1 (k2 rfl).2
  · exact two _ _ _ rfl (k3 rfl).1 (k3 rfl).2
  · exact two _ _ _ rfl (k4 rfl).1 (k4 rfl).2
  · exact two _ _ _ (k6 rfl).1 rfl (by simp [(k6 rfl).2])
  · exact two _ _ _ rfl (k5 rfl).1 (k5 rfl).2
  · exact one _ (k8 rfl).1 (k8 rfl).2

/-- Some 32-bit integers in cells 0 and 1. -/
def cells (a b : Int) : Rs.BzMon Unit := { Rs.BzMon.zero () with i := fun k => if k = 0 then a else if k = 1 then b else 0 }

/-- Arithmetic for the examples on integers. -/
def unitOps : Ops Unit where
  ofBits _ := (); lt _ _ := false; neg _ := (); add _ _ := (); sub _ _ := (); mul _ _ := (); div _ _ := ()
  pow _ _ := (); sqrt _ := (); zero := (); minusOne := (); eps := (); ipow _ _ := none; isqrt _ := none; le _ _ := false

/-- `2000000000 * -2` is `-2³¹`, with the flag set. -/
example : ∃ m', (cells 2000000000 (-2)).update unitOps ⟨3, 1, 1⟩ (fun _ => (0, ())) ⟨0, 1, 2, some .imul⟩ = some m' ∧
    m'.i 2 = -2 ^ 31 ∧ m'.overflow = true := by
  obtain ⟨m', h1, h2, h3, _⟩ := C77_saturates_partial unitOps ⟨3, 1, 1⟩ (fun _ => (0, ())) ⟨0, 1, 2, some .imul⟩ (cells 2000000000 (-2)) .imul
    (-4000000000) rfl (by decide) (by decide) (by decide) (by simp [cells, Word, imin, imax]) (by simp [cells, Word, imin, imax]) (by decide)
  exact ⟨m', h1, h2, h3.2 (by simp [Word, imin])⟩

/-- The cells hold 32-bit integers, from the start and after every instruction, so the condition on the operands in
`C77_saturates_partial` always holds. -/
theorem C77_words (ops : Ops F) (lim : BzLimits) (sig : Signals F) (hsig : ∀ k, Word (sig k).1) (r : BzRec) (m m' : Rs.BzMon F)
    (hm : ∀ a, Word (m.i a)) (h : m.update ops lim sig r = some m') : ∀ a, Word (m'.i a) := by
  have put : ∀ {m m' : Rs.BzMon F} {a v}, (∀ a, Word (m.i a)) → Word v → m.putI lim a v = some m' → ∀ a, Word (m'.i a) := by
    intro m m' a v hm hv h b
    unfold Rs.BzMon.putI at h
    split at h
    · cases h; dsimp only; split
      · exact hv
      · exact hm b
    · cases h
  have putf : ∀ {m m' : Rs.BzMon F} {a v}, (∀ a, Word (m.i a)) → m.putF lim a v = some m' → ∀ a, Word (m'.i a) := by
    intro m m' a v hm h b
    unfold Rs.BzMon.putF at h
    split at h
    · cases h; exact hm b
    · cases h
  have bool : ∀ b, Word (ofBool b) := by intro b; cases b <;> simp [ofBool, Word, imin, imax]
  have bits : ∀ v : BitVec 32, Word v.toInt := by
    intro v
    have h1 := BitVec.toInt_lt (x := v)
    have h2 := BitVec.le_toInt (x := v)
    unfold Word imin imax; norm_num at *; omega
  have opt : ∀ {v w : Int}, int32 v = some w → Word w := by
    intro v w h
    unfold int32 at h
    split at h
    · cases h; exact word_iff.2 ‹_›
    · cases h
  have low : Word imin := by simp [Word, imin, imax]
  have high : Word imax := by simp [Word, imin, imax]
  have zero : Word 0 := by simp [Word, imin, imax]
  have neg : ∀ a, Word a → Word (intNeg a).1 := by
    intro a ha; unfold intNeg; split
    · exact high
    · unfold Word imin imax at *; dsimp only; omega
  have one : ∀ {g : Int → Int}, (∀ a, Word a → Word (g a)) → m.int1 lim r g = some m' → ∀ a, Word (m'.i a) := by
    intro g hg h
    unfold Rs.BzMon.int1 at h
    split at h
    · exact put hm (hg _ (hm _)) h
    · cases h
  have two : ∀ {g : Int → Int → Int}, (∀ a b, Word a → Word b → Word (g a b)) → m.int2 lim r g = some m' → ∀ a, Word (m'.i a) := by
    intro g hg h
    unfold Rs.BzMon.int2 at h
    split at h
    · exact put hm (hg _ _ (hm _) (hm _)) h
    · cases h
  have c1 : ∀ {g : Int → Int × Bool}, (∀ a, Word a → Word (g a).1) → m.chk1 lim r g = some m' → ∀ a, Word (m'.i a) := by
    intro g hg h
    unfold Rs.BzMon.chk1 at h
    split at h
    · obtain ⟨m1, h1, rfl⟩ := Option.map_eq_some_iff.1 h
      exact fun a => put (m' := m1) hm (hg _ (hm _)) h1 a
    · cases h
  have c2 : ∀ {g : Int → Int → Option (Int × Bool)}, (∀ a b v, Word a → Word b → g a b = some v → Word v.1) → m.chk2 lim r g = some m' →
      ∀ a, Word (m'.i a) := by
    intro g hg h
    unfold Rs.BzMon.chk2 at h
    split at h
    · obtain ⟨v, h0, h⟩ := Option.bind_eq_some_iff.1 h
      obtain ⟨m1, h1, rfl⟩ := Option.map_eq_some_iff.1 h
      exact fun a => put (m' := m1) hm (hg _ _ _ (hm _) (hm _) h0) h1 a
    · cases h
  have f1 : ∀ {g : F → F}, m.flt1 lim r g = some m' → ∀ a, Word (m'.i a) := by
    intro g h
    unfold Rs.BzMon.flt1 at h
    split at h
    · exact putf hm h
    · cases h
  have f2 : ∀ {g : F → F → F}, m.flt2 lim r g = some m' → ∀ a, Word (m'.i a) := by
    intro g h
    unfold Rs.BzMon.flt2 at h
    split at h
    · exact putf hm h
    · cases h
  have cm : ∀ {g : F → F → Bool}, m.cmp lim r g = some m' → ∀ a, Word (m'.i a) := by
    intro g h
    unfold Rs.BzMon.cmp at h
    split at h
    · exact put hm (bool _) h
    · cases h
  unfold Rs.BzMon.update at h
  split at h
  · split at h
    · exact put hm (hsig _) h
    · cases h
  · split at h
    · exact putf hm h
    · cases h
  · split at h
    · cases h; exact hm
    · cases h
  · exact one (fun _ _ => bits _) h
  · exact two (fun _ _ _ _ => bits _) h
  · exact two (fun _ _ _ _ => bits _) h
  · exact two (fun _ _ _ _ => bits _) h
  · exact two (fun _ _ _ _ => bool _) h
  · exact cm h
  · exact two (fun _ _ _ _ => bool _) h
  · exact cm h
  · exact two (fun _ _ _ _ => bool _) h
  · exact cm h
  · exact two (fun _ _ _ _ => bool _) h
  · exact cm h
  · exact two (fun _ _ _ _ => bool _) h
  · exact cm h
  · exact two (fun _ _ _ _ => bool _) h
  · exact cm h
  · exact c1 neg h
  · exact f1 h
  · refine c2 ?_ h; rintro a b v _ _ h; cases h; unfold intAdd; split
    · exact opt ‹_›
    · split <;> assumption
  · exact f2 h
  · refine c2 ?_ h; rintro a b v _ _ h; cases h; unfold intSub; split
    · exact opt ‹_›
    · split <;> assumption
  · exact f2 h
  · refine c2 ?_ h; rintro a b v _ _ h; cases h; unfold intMul; split
    · exact opt ‹_›
    · split <;> assumption
  · exact f2 h
  · refine c2 ?_ h; rintro a b v _ _ h; cases h; unfold intDiv checkedDiv; split
    · rename_i h; split at h
      · cases h
      · exact opt h
    · split
      · exact zero
      · split <;> assumption
  · exact f2 h
  · refine c2 ?_ h; rintro a b v ha hb h; unfold intMod at h; split at h
    · cases h; exact zero
    · split at h
      · cases h
      · cases h
        have h1 : (a.tmod b).natAbs = a.natAbs % b.natAbs := Int.natAbs_tmod a b
        have h2 : a.natAbs % b.natAbs < b.natAbs := Nat.mod_lt _ (by omega)
        unfold Word imin imax at *; dsimp only; omega
  · refine c2 ?_ h; rintro a b v _ _ h; cases h; unfold intPow; split
    · exact opt ‹_›
    · split <;> assumption
  · exact f2 h
  · refine one ?_ h; intro a ha; unfold intSqrt; split
    · exact zero
    · have := Nat.sqrt_le_self a.toNat
      unfold Word imin imax at *; omega
  · exact f1 h
  · refine c1 ?_ h; intro a ha; unfold intAbs; split
    · exact neg a ha
    · exact ha
  · exact f1 h
  · unfold Rs.BzMon.copy at h
    split at h
    · obtain ⟨m1, h1, h2⟩ := Option.bind_eq_some_iff.1 h
      exact putf (put hm (hm _) h1) h2
    · cases h
  · refine put hm ?_ h; split
    · exact high
    · unfold Word imin imax; omega
  · cases h; exact hm

/-- The conditions hold at the start, where all is 0, whatever the limits. -/
example : (∀ a, Word ((Rs.BzMon.zero ()).i a)) ∧ ∃ m', (cells 7 5).update unitOps ⟨3, 1, 1⟩ (fun _ => (0, ())) ⟨0, 1, 2, some .bwxor⟩ = some m' ∧ m'.i 2 = 2 :=
  ⟨fun _ => by simp [Rs.BzMon.zero, Word, imin, imax], _, rfl, by decide⟩

/-- C77, roots and divisors 0: the root of a nonnegative integer is rounded down, that of a negative one is 0; dividing by 0 gives 0 and sets the
flag, for `/` and for `%`. -/
theorem C77_roots_and_zero (ops : Ops F) (lim : BzLimits) (sig : Signals F) (r : BzRec) (m : Rs.BzMon F)
    (h1 : r.param1 < lim.cells) (h2 : r.param2 < lim.cells) (h3 : r.mem < lim.cells) :
    (r.opcode = some .isqrt → ∃ m', m.update ops lim sig r = some m' ∧ m'.overflow = m.overflow ∧ 0 ≤ m'.i r.mem ∧
      (0 ≤ m.i r.param1 → m'.i r.mem * m'.i r.mem ≤ m.i r.param1 ∧ m.i r.param1 < (m'.i r.mem + 1) * (m'.i r.mem + 1)) ∧
      (m.i r.param1 < 0 → m'.i r.mem = 0)) ∧
    (r.opcode = some .idiv ∨ r.opcode = some .mod → m.i r.param2 = 0 → ∃ m', m.update ops lim sig r = some m' ∧ m'.i r.mem = 0 ∧ m'.overflow = true) := by
  refine ⟨?_, ?_⟩
  · intro ho
    refine ⟨{ m with i := fun b => if b = r.mem then intSqrt (m.i r.param1) else m.i b }, ?_, rfl, ?_, ?_, ?_⟩
    · unfold Rs.BzMon.update; rw [ho]; unfold Rs.BzMon.int1 Rs.BzMon.putI; simp only; rw [if_pos h1, if_pos h3]
    · simp only [if_true]; unfold intSqrt; split <;> omega
    · intro h0
      simp only [if_true]; unfold intSqrt
      rw [if_neg (by omega)]
      have a := Nat.sqrt_le (m.i r.param1).toNat
      have b := Nat.lt_succ_sqrt (m.i r.param1).toNat
      refine ⟨?_, ?_⟩
      · have : ((Nat.sqrt (m.i r.param1).toNat * Nat.sqrt (m.i r.param1).toNat : Nat) : Int) ≤ ((m.i r.param1).toNat : Int) := by exact_mod_cast a
        push_cast at this; omega
      · have : ((m.i r.param1).toNat : Int) < (((Nat.sqrt (m.i r.param1).toNat + 1) * (Nat.sqrt (m.i r.param1).toNat + 1) : Nat) : Int) := by exact_mod_cast b
        push_cast at this; omega
    · intro h0
      simp only [if_true]; unfold intSqrt; rw [if_pos h0]
  · intro ho h0
    refine ⟨{ m with i := fun b => if b = r.mem then 0 else m.i b, overflow := true }, ?_, by simp, rfl⟩
    unfold Rs.BzMon.update
    rcases ho with ho | ho <;> rw [ho] <;> unfold Rs.BzMon.chk2 Rs.BzMon.putI <;> simp only <;> rw [if_pos ⟨h1, h2⟩]
    · simp [intDiv, checkedDiv, h0, h3]
    · simp [intMod, h0, h3]

/-- The root of 30 is 5. -/
example : ∃ m', (cells 30 0).update unitOps ⟨3, 1, 1⟩ (fun _ => (0, ())) ⟨0, 1, 2, some .isqrt⟩ = some m' ∧ m'.i 2 * m'.i 2 ≤ 30 ∧ 30 < (m'.i 2 + 1) * (m'.i 2 + 1) := by
  obtain ⟨m', h1, _, _, h2, _⟩ := (C77_roots_and_zero unitOps ⟨3, 1, 1⟩ (fun _ => (0, ())) ⟨0, 1, 2, some .isqrt⟩ (cells 30 0) (by decide) (by decide)
    (by decide)).1 rfl
  exact ⟨m', h1, (h2 (by decide)).1, (h2 (by decide)).2⟩

/-- C77 fails for `-2³¹ % -1`: the remainder is 0, the monitor panics. -/
theorem C77_remainder_fails : Int.tmod (-2 ^ 31) (-1) = 0 ∧
    ∀ sig, ((cells (-2 ^ 31) (-1)).update unitOps ⟨3, 1, 1⟩ sig ⟨0, 1, 2, some .mod⟩).isNone := by
  exact ⟨by decide, fun sig => rfl⟩

/-- C77 fails for powers of negative numbers: `(-3)²⁰` is too large, and -2³¹ is written; `(-2)³³` is too small, and 2³¹ - 1 is written. -/
theorem C77_power_fails : (∃ m', (cells (-3) 20).update unitOps ⟨3, 1, 1⟩ (fun _ => (0, ())) ⟨0, 1, 2, some .ipow⟩ = some m' ∧
      (-3 : Int) ^ 20 > 2 ^ 31 - 1 ∧ m'.i 2 = -2 ^ 31) ∧
    ∃ m', (cells (-2) 33).update unitOps ⟨3, 1, 1⟩ (fun _ => (0, ())) ⟨0, 1, 2, some .ipow⟩ = some m' ∧
      (-2 : Int) ^ 33 < -2 ^ 31 ∧ m'.i 2 = 2 ^ 31 - 1 :=
  ⟨⟨_, rfl, by decide, by decide⟩, _, rfl, by decide, by decide⟩

/-- The result of a step does not say whether there was an overflow in it: the flag is that of the last arithmetic instruction.  Here
`2000000000 + 2000000000` overflows and is cut off, and `1 + 1` after it clears the flag. -/
theorem C77_overflow_lost_fails :
    ∃ m1 m2, Rs.BzMon.pass unitOps ⟨5, 1, 2⟩ (fun k => (if k = 0 then 2000000000 else 1, ()))
        [⟨0, 0, 0, some .iload⟩, ⟨1, 0, 1, some .iload⟩, ⟨0, 0, 2, some .iadd⟩] (Rs.BzMon.zero ()) = some m1 ∧ m1.overflow = true ∧
      Rs.BzMon.pass unitOps ⟨5, 1, 2⟩ (fun k => (if k = 0 then 2000000000 else 1, ()))
        [⟨0, 0, 0, some .iload⟩, ⟨1, 0, 1, some .iload⟩, ⟨0, 0, 2, some .iadd⟩, ⟨1, 1, 3, some .iadd⟩] (Rs.BzMon.zero ()) = some m2 ∧
      m2.i 2 = 2 ^ 31 - 1 ∧ m2.overflow = false := by
  refine ⟨_, _, rfl, by decide, rfl, by decide, by decide⟩

/-! ### Comparisons of floats -/

/-- C77, comparisons: on floats without not-a-number values, of `<`, `==` and `>` exactly one holds: `==` if the
two are no further apart than the tolerance, and else the one that is true of them; `!=`, `>=` and `<=` are the opposites of `==`, `<` and `>`. -/
theorem C77_comparisons (ops : Ops F) (ho : Ordered ops) (lim : BzLimits) (sig : Signals F) (r : BzRec) (m : Rs.BzMon F)
    (h1 : r.param1 < lim.cells) (h2 : r.param2 < lim.cells) (h3 : r.mem < lim.cells) :
    ∃ res : BzOp → Bool, (∀ o, o ∈ [BzOp.feq, .fneq, .fgt, .fgte, .flt, .flte] →
        (m.update ops lim sig { r with opcode := some o }).map (·.i r.mem) = some (if res o then 1 else 0)) ∧
      ((res .flt, res .feq, res .fgt) = (true, false, false) ∨ (res .flt, res .feq, res .fgt) = (false, true, false) ∨
        (res .flt, res .feq, res .fgt) = (false, false, true)) ∧
      (res .feq = true ↔ ops.lt ops.eps (distance ops (m.f r.param1) (m.f r.param2)) = false) ∧
      (res .flt = true → ops.lt (m.f r.param1) (m.f r.param2) = true) ∧ (res .fgt = true → ops.lt (m.f r.param2) (m.f r.param1) = true) ∧
      res .fneq = !res .feq ∧ res .fgte = !res .flt ∧ res .flte = !res .fgt := by
  have hc : ∀ g : F → F → Bool, (m.cmp lim { r with opcode := none } g).map (·.i r.mem) = some (ofBool (g (m.f r.param1) (m.f r.param2))) := by
    intro g
    unfold Rs.BzMon.cmp Rs.BzMon.putI
    simp only
    rw [if_pos ⟨h1, h2⟩, if_pos h3]
    simp
  refine ⟨fun o => match o with
    | .feq => feq ops (m.f r.param1) (m.f r.param2)
    | .fneq => fneq ops (m.f r.param1) (m.f r.param2)
    | .fgt => fgt ops (m.f r.param1) (m.f r.param2)
    | .fgte => fgte ops (m.f r.param1) (m.f r.param2)
    | .flt => flt ops (m.f r.param1) (m.f r.param2)
    | .flte => flte ops (m.f r.param1) (m.f r.param2)
    | _ => false, ?_, ?_⟩
  · intro o ho
    simp only [List.mem_cons, List.not_mem_nil, or_false] at ho
    rcases ho with rfl | rfl | rfl | rfl | rfl | rfl <;> exact hc _
  · generalize m.f r.param1 = a
    generalize m.f r.param2 = b
    have hz := ho.zero a
    have hd : ∀ a b, fabs ops (ops.sub a b) = distance ops a b := fun _ _ => rfl
    simp only [hd, feq, fneq, fgt, fgte, flt, flte, ho.le]
    cases hab : ops.lt a b <;> cases hba : ops.lt b a
    · obtain rfl := ho.total a b hab hba
      simp [hz]
    · cases ops.lt ops.eps (distance ops a b) <;> simp
    · cases ops.lt ops.eps (distance ops a b) <;> simp
    · rw [ho.asymm a b hab] at hba; cases hba

/-- Numbers of the form `k/2` tolerances. -/
def halfOps : Ops Int where
  ofBits n := n; lt a b := decide (a < b); neg a := -a; add a b := a + b; sub a b := a - b; mul a b := a * b; div a b := a / b
  pow a _ := a; sqrt a := a; zero := 0; minusOne := -1; eps := 2; ipow _ _ := none; isqrt _ := none; le a b := decide (a ≤ b)

theorem halfOps_ordered : Ordered halfOps where
  le a b := by simp only [halfOps]; by_cases h : b < a <;> (simp [h]; try omega)
  irrefl a := by simp [halfOps]
  asymm a b := by simp only [halfOps, decide_eq_true_eq, decide_eq_false_iff_not]; omega
  total a b := by simp only [halfOps, decide_eq_false_iff_not]; omega
  zero a := by simp [halfOps, distance]

/-- The conditions of `C77_comparisons` hold of these numbers. -/
example : ∃ res : BzOp → Bool, (∀ o, o ∈ [BzOp.feq, .fneq, .fgt, .fgte, .flt, .flte] →
    ((Rs.BzMon.zero (0 : Int)).update halfOps ⟨3, 1, 1⟩ (fun _ => (0, 0)) ⟨0, 1, 2, some o⟩).map (·.i 2) = some (if res o then 1 else 0)) ∧ res .fneq = !res .feq := by
  obtain ⟨res, h1, _, _, _, _, h2, _⟩ := C77_comparisons halfOps halfOps_ordered ⟨3, 1, 1⟩ (fun _ => (0, 0)) ⟨0, 1, 2, none⟩ (Rs.BzMon.zero 0) (by decide) (by decide) (by decide)
  exact ⟨res, h1, h2⟩

/-- The same comparison in C and in Rust: the result for the numbers `a` and `b`. -/
def inC (o : BzOp) (a b : Int) : Option Int :=
  (R2U2.BzMon.update halfOps.toFloatOps ⟨3, 1, 1⟩ (fun _ => .int 0) ⟨0, 1, 2, some o⟩
    ⟨fun k => .flt (if k = 0 then a else b), fun _ => false, 0⟩).bind fun m => (m.vals 2).i
def inRust (o : BzOp) (a b : Int) : Option Int :=
  ((Rs.BzMon.zero (0 : Int)).putF ⟨3, 1, 1⟩ 0 a).bind fun m => (m.putF ⟨3, 1, 1⟩ 1 b).bind fun m =>
    (m.update halfOps ⟨3, 1, 1⟩ (fun _ => (0, 0)) ⟨0, 1, 2, some o⟩).map (·.i 2)

/-- The two monitors compare floats differently, and in C the comparisons contradict each other: of two numbers half the tolerance apart,
the larger is `>` and `==` and `<=` the smaller in C, not `>` in Rust; two numbers exactly the tolerance apart are `==` in Rust only. -/
theorem C77_monitors_differ_fails : inC .fgt 1 0 = some 1 ∧ inC .feq 1 0 = some 1 ∧ inC .flte 1 0 = some 1 ∧ inRust .fgt 1 0 = some 0 ∧
    inRust .feq 1 0 = some 1 ∧ inC .feq 2 0 = some 0 ∧ inRust .feq 2 0 = some 1 := by
  refine ⟨?_, ?_, ?_, ?_, ?_, ?_, ?_⟩ <;> decide

end R2U2
