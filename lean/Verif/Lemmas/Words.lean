import Verif.Model.Word
import Mathlib.Tactic.SplitIfs
import Mathlib.Data.Nat.Bitwise
/-
Verdict words.
-/
namespace R2U2

theorem getTruth_eq (w : Nat) : getTruth w = decide (w / 2 ^ 31 % 2 = 1) := by
  unfold getTruth
  rw [Nat.and_two_pow]
  rw [Nat.testBit_eq_decide_div_mod_eq]
  by_cases h : w / 2 ^ 31 % 2 = 1 <;> simp [h]

theorem getTime_eq (w : Nat) : getTime w = w % 2 ^ 31 := by
  unfold getTime
  exact Nat.and_two_pow_sub_one_eq_mod w 31

theorem word_eq {v : Verdict} (h : v.time < 2 ^ 31) : v.word = (if v.truth then 2 ^ 31 else 0) + v.time := by
  unfold Verdict.word setTrue setFalse
  split
  · have := Nat.two_pow_add_eq_or_of_lt h 1
    rw [Nat.mul_one] at this
    rw [this, Nat.or_comm]
  · rw [Nat.and_two_pow_sub_one_eq_mod, Nat.mod_eq_of_lt h, Nat.zero_add]

theorem word_lt {v : Verdict} (h : v.time < 2 ^ 31) : v.word < 2 ^ 32 := by
  rw [word_eq h]; split <;> omega

theorem unpack_word {v : Verdict} (h : v.time < 2 ^ 31) : unpack v.word = v := by
  unfold unpack
  rw [getTruth_eq, getTime_eq, word_eq h]
  obtain ⟨b, t⟩ := v
  cases b
  · simp at *
    omega
  · simp at *
    omega

theorem word_inf {v : Verdict} (h : v.time < 2 ^ 31) : v.word = infWord ↔ v = .inf := by
  rw [word_eq h]
  obtain ⟨b, t⟩ := v
  unfold infWord Verdict.inf
  cases b <;> simp at * <;> omega

theorem unpack_inf : unpack infWord = .inf := by decide +kernel

theorem unpack_inj {w w' : Nat} (h : w < 2 ^ 32) (h' : w' < 2 ^ 32) (he : unpack w = unpack w') : w = w' := by
  unfold unpack at he
  rw [getTruth_eq, getTime_eq, getTruth_eq, getTime_eq] at he
  simp only [Verdict.mk.injEq, decide_eq_decide] at he
  omega

theorem toSlot_none {w : Nat} : toSlot w = none ↔ w = infWord := by
  unfold toSlot; split <;> simp [*]

theorem toSlot_getD (w : Nat) : (toSlot w).getD .inf = unpack w := by
  unfold toSlot
  split
  · rename_i h; rw [h, unpack_inf]; rfl
  · rfl

theorem toSlot_inj {w w' : Nat} (h : w < 2 ^ 32) (h' : w' < 2 ^ 32) : toSlot w = toSlot w' ↔ w = w' := by
  constructor
  · intro he
    exact unpack_inj h h' (by rw [← toSlot_getD, ← toSlot_getD, he])
  · rintro rfl; rfl

theorem toSlot_word {v : Verdict} (h : v.time < 2 ^ 31 - 1) : toSlot v.word = some v := by
  unfold toSlot
  rw [if_neg, unpack_word (by omega)]
  rw [word_inf (by omega)]
  rintro rfl
  simp [Verdict.inf] at h

end R2U2
