import Verif.Lemmas.Sabre
/-
Lemmas for C37: what `future`, `global` and `until` of the generated code compute, bit by bit.
-/
namespace R2U2
namespace Sabre

/-- The array `a` of `S` words holds the values of `s` at the times of the words `M` to `M + h`. -/
def Holds (L S : Nat) (a : Nat → BitVec (2 ^ L)) (s : Nat → Prop) (M h : Nat) : Prop :=
  ∀ t, M * 2 ^ L ≤ t → t < (M + h + 1) * 2 ^ L →
    ((a (slot S ((t / 2 ^ L : Nat) : Int))).getMsbD (t % 2 ^ L) = true ↔ s t)

theorem slot_cast (S : Nat) (x y : Int) (h : x = y) : slot S x = slot S y := by rw [h]

/-- The buffer after the first loop holds the operand's values from time `M * 2^L + lb` on. -/
theorem shifted_ok (L S : Nat) (a : Nat → BitVec (2 ^ L)) (s : Nat → Prop) (M h lb p : Nat)
    (ha : Holds L S a s M h) (hp : lb + p < (h + 1) * 2 ^ L) :
    (shifted L S a (M : Int) lb (p / 2 ^ L)).getMsbD (p % 2 ^ L) = true ↔ s (M * 2 ^ L + lb + p) := by
  have hW := Nat.two_pow_pos L
  have hq := Nat.mod_lt p hW
  have hM : (M * 2 ^ L + lb + p) / 2 ^ L = M + (p + lb) / 2 ^ L := by
    rw [show M * 2 ^ L + lb + p = (p + lb) + 2 ^ L * M by rw [Nat.mul_comm]; omega,
      Nat.add_mul_div_left _ _ hW, Nat.add_comm]
  have hMm : (M * 2 ^ L + lb + p) % 2 ^ L = (p + lb) % 2 ^ L := by
    rw [show M * 2 ^ L + lb + p = (p + lb) + 2 ^ L * M by rw [Nat.mul_comm]; omega,
      Nat.add_mul_mod_self_left]
  rw [← ha (M * 2 ^ L + lb + p) (by omega) (by
    rw [show M + h + 1 = M + (h + 1) by omega, Nat.add_mul]; omega), hM, hMm]
  unfold shifted
  rw [Nat.and_two_pow_sub_one_eq_mod, Nat.shiftRight_eq_div_pow]
  have hd : 2 ^ L * (lb / 2 ^ L) + lb % 2 ^ L = lb := Nat.div_add_mod lb _
  have hsplit : (p + lb) / 2 ^ L = (p + lb % 2 ^ L) / 2 ^ L + lb / 2 ^ L ∧
      (p + lb) % 2 ^ L = (p + lb % 2 ^ L) % 2 ^ L := by
    rw [show p + lb = (p + lb % 2 ^ L) + 2 ^ L * (lb / 2 ^ L) by omega, Nat.add_mul_div_left _ _ hW,
      Nat.add_mul_mod_self_left]
    exact ⟨rfl, rfl⟩
  rw [hsplit.1, hsplit.2]
  split
  · rename_i h0
    rw [h0, Nat.add_zero]
    rw [slot_cast S ((M : Int) + (p / 2 ^ L : Nat) + (lb / 2 ^ L : Nat))
      ((M + (p / 2 ^ L + lb / 2 ^ L) : Nat) : Int) (by omega)]
  · rename_i h0
    have hr : lb % 2 ^ L < 2 ^ L := Nat.mod_lt _ hW
    rw [look_bit _ _ _ _ (by omega) hr hq]
    split
    · rename_i hlt
      rw [(pos_within hW hlt).1, (pos_within hW hlt).2]
      rw [slot_cast S ((M : Int) + (p / 2 ^ L : Nat) + (lb / 2 ^ L : Nat))
        ((M + (p / 2 ^ L + lb / 2 ^ L) : Nat) : Int) (by omega)]
    · rename_i hge
      rw [(pos_next hW hr hge).1, (pos_next hW hr hge).2]
      rw [slot_cast S ((M : Int) + (p / 2 ^ L : Nat) + (lb / 2 ^ L : Nat) + 1)
        ((M + (p / 2 ^ L + 1 + lb / 2 ^ L) : Nat) : Int) (by omega)]

/-- The buffer is long enough for one word of results. -/
theorem buffer_long (L lb ub : Nat) (h : lb ≤ ub) :
    2 ^ L + (ub - lb + 1) - 1 ≤ bufferSize L lb ub * 2 ^ L := by
  have hW := Nat.two_pow_pos L
  unfold bufferSize
  have h1 : 2 ^ L * ((2 ^ L - 1 + ub) / 2 ^ L) + (2 ^ L - 1 + ub) % 2 ^ L = 2 ^ L - 1 + ub :=
    Nat.div_add_mod _ _
  have h2 : (2 ^ L - 1 + ub) % 2 ^ L < 2 ^ L := Nat.mod_lt _ hW
  have h3 : 2 ^ L * (lb / 2 ^ L) + lb % 2 ^ L = lb := Nat.div_add_mod _ _
  have h4 : lb / 2 ^ L ≤ (2 ^ L - 1 + ub) / 2 ^ L := Nat.div_le_div_right (by omega)
  rw [Nat.add_mul, Nat.one_mul, Nat.sub_mul, Nat.mul_comm _ (2 ^ L), Nat.mul_comm (lb / _) (2 ^ L)]
  omega

/-- Positions of the buffer stay within the operand's words that are known. -/
theorem within (L lb ub p : Nat) (h : lb ≤ ub) (hp : p + 1 ≤ 2 ^ L + (ub - lb + 1) - 1) :
    lb + p < ((2 ^ L - 1 + ub) / 2 ^ L + 1) * 2 ^ L := by
  have hW := Nat.two_pow_pos L
  have h1 : 2 ^ L * ((2 ^ L - 1 + ub) / 2 ^ L) + (2 ^ L - 1 + ub) % 2 ^ L = 2 ^ L - 1 + ub :=
    Nat.div_add_mod _ _
  have h2 : (2 ^ L - 1 + ub) % 2 ^ L < 2 ^ L := Nat.mod_lt _ hW
  rw [Nat.add_mul, Nat.one_mul, Nat.mul_comm _ (2 ^ L)]
  omega

theorem look_rd {W : Nat} (x y : BitVec W) (r q : Nat) (hr : 0 < r) (hrW : r < W) (hq : q < W) :
    (((x <<< r) ||| (y >>> (W - r))).getMsbD q = true) =
      if q + r < W then (x.getMsbD (q + r) = true) else (y.getMsbD (q + r - W) = true) := by
  rw [look_bit x y r q hr hrW hq]
  split <;> rfl

theorem shl_rd {W : Nat} (x : BitVec W) (r q : Nat) (h : q + r < W) :
    (x <<< r).getMsbD q = x.getMsbD (q + r) := by
  rw [BitVec.getMsbD_shiftLeft]

/-- One word of `future` or `global`: `V n p` is the truth value for `n` time steps from position `p`. -/
theorem window_ok (L : Nat) (hL : 0 < L) (op : BitVec (2 ^ L) → BitVec (2 ^ L) → BitVec (2 ^ L))
    (comb : Prop → Prop → Prop)
    (hop : ∀ x y q, q < 2 ^ L → ((op x y).getMsbD q = true) =
      comb (x.getMsbD q = true) (y.getMsbD q = true))
    (V : Nat → Nat → Prop) (hV : ∀ j r p, r ≤ j → V (j + r) p = comb (V j p) (V j (p + r)))
    (S : Nat) (U : Undef (2 ^ L)) (a : Nat → BitVec (2 ^ L)) (s : Nat → Prop) (M lb ub : Nat)
    (hV1 : ∀ p, V 1 p = s (M * 2 ^ L + lb + p)) (hlb : lb ≤ ub)
    (hleft : LeftoverOk L (ub - lb + 1)) (ha : Holds L S a s M ((2 ^ L - 1 + ub) / 2 ^ L))
    (q : Nat) (hq : q < 2 ^ L) :
    ((window L op S U a (bufferSize L lb ub) (M : Int) lb ub).getMsbD q = true) =
      V (ub - lb + 1) q := by
  have hlong := buffer_long L lb ub hlb
  have key := phases_ok L hL (rdAt L (fun (x : BitVec (2 ^ L)) q => x.getMsbD q = true)) comb V hV
    (2 ^ L + (ub - lb + 1) - 1) (ub - lb + 1) (ub - lb + 1) (by omega) (by omega) rfl hleft
    (gBody1 op (fun x y j => (x <<< j) ||| (y >>> (2 ^ L - j))) (fun x j => x <<< j) (bufferSize L lb ub))
    (gBody2 L op (bufferSize L lb ub)) (gBody3 L op (look U) (bufferSize L lb ub))
    (fun j b p hj hjW hp => gBody1_ok L _ comb op _ _ hop
      (fun x y r q hr hrW hq => look_rd x y r q hr hrW hq)
      (fun x r q h => by rw [shl_rd x r q h]) _ _ hlong j b p hj hjW hp)
    (fun j b p hj hjW hp => gBody2_ok L _ comb op hop _ _ hlong j b p hj hjW hp)
    (fun j r b p hr hrW hrj hp => gBody3_ok L _ comb op
      (fun x y j => (x <<< j) ||| (y >>> (2 ^ L - j))) (look U) hop
      (fun x y r q hr hrW hq => look_rd x y r q hr hrW hq)
      (fun x y r h => by unfold look; rw [if_pos h]) _ _ hlong j r b p hr hrW hrj hp)
    (fun i => if i < bufferSize L lb ub then shifted L S a (M : Int) lb i else U.read i)
    (by
      intro p hp
      have hW := Nat.two_pow_pos L
      have hi : p / 2 ^ L < bufferSize L lb ub := by rw [Nat.div_lt_iff_lt_mul hW]; omega
      unfold rdAt
      dsimp only
      rw [if_pos hi, hV1]
      exact propext (shifted_ok L S a s M _ lb p ha (within L lb ub p hlb hp)))
    q (by omega)
  unfold rdAt at key
  rw [Nat.div_eq_of_lt hq, Nat.mod_eq_of_lt hq] at key
  exact key

/-- `future`. -/
theorem future_ok (L : Nat) (hL : 0 < L) (S : Nat) (U : Undef (2 ^ L)) (a : Nat → BitVec (2 ^ L))
    (s : Nat → Prop) (M lb ub : Nat) (hlb : lb ≤ ub) (hleft : LeftoverOk L (ub - lb + 1))
    (ha : Holds L S a s M ((2 ^ L - 1 + ub) / 2 ^ L)) (q : Nat) (hq : q < 2 ^ L) :
    (window L (fun x y => x ||| y) S U a (bufferSize L lb ub) (M : Int) lb ub).getMsbD q = true ↔
      ∃ j, M * 2 ^ L + q + lb ≤ j ∧ j ≤ M * 2 ^ L + q + ub ∧ s j := by
  rw [window_ok L hL (fun x y => x ||| y) Or (by intro x y q _; simp [BitVec.getMsbD_or])
    (fun m p => ∃ k, k < m ∧ s (M * 2 ^ L + lb + p + k)) (by
      intro j r p hr
      apply propext
      constructor
      · rintro ⟨k, hk, h⟩
        by_cases hkj : k < j
        · exact .inl ⟨k, hkj, h⟩
        · refine .inr ⟨k - r, by omega, ?_⟩
          rwa [show M * 2 ^ L + lb + (p + r) + (k - r) = M * 2 ^ L + lb + p + k by omega]
      · rintro (⟨k, hk, h⟩ | ⟨k, hk, h⟩)
        · exact ⟨k, by omega, h⟩
        · refine ⟨k + r, by omega, ?_⟩
          rwa [show M * 2 ^ L + lb + p + (k + r) = M * 2 ^ L + lb + (p + r) + k by omega])
    S U a s M lb ub (by
      intro p
      apply propext
      constructor
      · rintro ⟨k, hk, h⟩
        obtain rfl : k = 0 := by omega
        exact h
      · intro h; exact ⟨0, by omega, h⟩) hlb hleft ha q hq]
  constructor
  · rintro ⟨k, hk, h⟩; exact ⟨_, by omega, by omega, h⟩
  · rintro ⟨j, h1, h2, h⟩
    refine ⟨j - (M * 2 ^ L + lb + q), by omega, ?_⟩
    rwa [show M * 2 ^ L + lb + q + (j - (M * 2 ^ L + lb + q)) = j by omega]

/-- `global`. -/
theorem global_ok (L : Nat) (hL : 0 < L) (S : Nat) (U : Undef (2 ^ L)) (a : Nat → BitVec (2 ^ L))
    (s : Nat → Prop) (M lb ub : Nat) (hlb : lb ≤ ub) (hleft : LeftoverOk L (ub - lb + 1))
    (ha : Holds L S a s M ((2 ^ L - 1 + ub) / 2 ^ L)) (q : Nat) (hq : q < 2 ^ L) :
    (window L (fun x y => x &&& y) S U a (bufferSize L lb ub) (M : Int) lb ub).getMsbD q = true ↔
      ∀ j, M * 2 ^ L + q + lb ≤ j → j ≤ M * 2 ^ L + q + ub → s j := by
  rw [window_ok L hL (fun x y => x &&& y) And (by intro x y q _; simp [BitVec.getMsbD_and])
    (fun m p => ∀ k, k < m → s (M * 2 ^ L + lb + p + k)) (by
      intro j r p hr
      apply propext
      constructor
      · intro h
        refine ⟨fun k hk => h k (by omega), fun k hk => ?_⟩
        have := h (k + r) (by omega)
        rwa [show M * 2 ^ L + lb + p + (k + r) = M * 2 ^ L + lb + (p + r) + k by omega] at this
      · rintro ⟨h1, h2⟩ k hk
        by_cases hkj : k < j
        · exact h1 k hkj
        · have := h2 (k - r) (by omega)
          rwa [show M * 2 ^ L + lb + (p + r) + (k - r) = M * 2 ^ L + lb + p + k by omega] at this)
    S U a s M lb ub (by
      intro p
      apply propext
      constructor
      · intro h; exact h 0 (by omega)
      · intro h k hk
        obtain rfl : k = 0 := by omega
        exact h) hlb hleft ha q hq]
  constructor
  · intro h j h1 h2
    have := h (j - (M * 2 ^ L + lb + q)) (by omega)
    rwa [show M * 2 ^ L + lb + q + (j - (M * 2 ^ L + lb + q)) = j by omega] at this
  · intro h k hk; exact h _ (by omega) (by omega)

/-! The two buffers of `until` as one buffer of pairs. -/

def rd2 {W : Nat} (x : BitVec W × BitVec W) (q : Nat) : Prop × Prop :=
  (x.1.getMsbD q = true, x.2.getMsbD q = true)
def comb2 (x y : Prop × Prop) : Prop × Prop := (x.1 ∧ y.1, x.2 ∨ x.1 ∧ y.2)
def step2 {W : Nat} (x y : BitVec W × BitVec W) : BitVec W × BitVec W := untilStep x y.1 y.2
def lk2 {W : Nat} (x y : BitVec W × BitVec W) (j : Nat) : BitVec W × BitVec W :=
  ((x.1 <<< j) ||| (y.1 >>> (W - j)), (x.2 <<< j) ||| (y.2 >>> (W - j)))
def sh2 {W : Nat} (x : BitVec W × BitVec W) (j : Nat) : BitVec W × BitVec W := (x.1 <<< j, x.2 <<< j)
def lkU2 {W : Nat} (U1 U2 : Undef W) (x y : BitVec W × BitVec W) (r : Nat) : BitVec W × BitVec W :=
  (look U1 x.1 y.1 r, look U2 x.2 y.2 r)

/-- `until`, when both kinds of loops go by the same power of two. -/
theorem until_ok (L : Nat) (hL : 0 < L) (S : Nat) (U1 U2 : Undef (2 ^ L))
    (a1 a2 : Nat → BitVec (2 ^ L)) (s1 s2 : Nat → Prop) (M lb ub : Nat) (hlb : lb ≤ ub)
    (hleft : LeftoverOk L (ub - lb + 1)) (hlog : (ub + 1).log2 = (ub - lb + 1).log2)
    (h1 : Holds L S a1 s1 M ((2 ^ L - 1 + ub) / 2 ^ L))
    (h2 : Holds L S a2 s2 M ((2 ^ L - 1 + ub) / 2 ^ L)) (q : Nat) (hq : q < 2 ^ L) :
    (untilFn L S U1 U2 a1 a2 (bufferSize L lb ub) (M : Int) lb ub).getMsbD q = true ↔
      ∃ j, M * 2 ^ L + q + lb ≤ j ∧ j ≤ M * 2 ^ L + q + ub ∧ s2 j ∧
        ∀ k, M * 2 ^ L + q + lb ≤ k → k < j → s1 k := by
  have hlong := buffer_long L lb ub hlb
  have hstep : ∀ (x y : BitVec (2 ^ L) × BitVec (2 ^ L)) (q : Nat), q < 2 ^ L →
      rd2 (step2 x y) q = comb2 (rd2 x q) (rd2 y q) := by
    intro x y q _
    simp [rd2, comb2, step2, untilStep, BitVec.getMsbD_or, BitVec.getMsbD_and]
  have hlk : ∀ (x y : BitVec (2 ^ L) × BitVec (2 ^ L)) (r q : Nat), 0 < r → r < 2 ^ L → q < 2 ^ L →
      rd2 (lk2 x y r) q = if q + r < 2 ^ L then rd2 x (q + r) else rd2 y (q + r - 2 ^ L) := by
    intro x y r q hr hrW hq
    unfold rd2 lk2
    dsimp only
    rw [look_rd _ _ _ _ hr hrW hq, look_rd _ _ _ _ hr hrW hq]
    split <;> rfl
  let V : Nat → Nat → Prop × Prop := fun m p =>
    ((∀ k, k < m → s1 (M * 2 ^ L + lb + p + k)),
      (∃ k, k < m ∧ s2 (M * 2 ^ L + lb + p + k) ∧ ∀ l, l < k → s1 (M * 2 ^ L + lb + p + l)))
  have hV : ∀ j r p, r ≤ j → V (j + r) p =
      ((V j p).1 ∧ (V j (p + r)).1, (V j p).2 ∨ (V j p).1 ∧ (V j (p + r)).2) := by
    intro j r p hr
    refine Prod.ext (propext ⟨?_, ?_⟩) (propext ⟨?_, ?_⟩)
    · intro h
      refine ⟨fun k hk => h k (by omega), fun k hk => ?_⟩
      have := h (k + r) (by omega)
      rwa [show M * 2 ^ L + lb + p + (k + r) = M * 2 ^ L + lb + (p + r) + k by omega] at this
    · rintro ⟨h1, h2⟩ k hk
      by_cases hkj : k < j
      · exact h1 k hkj
      · have := h2 (k - r) (by omega)
        rwa [show M * 2 ^ L + lb + (p + r) + (k - r) = M * 2 ^ L + lb + p + k by omega] at this
    · rintro ⟨k, hk, h, hl⟩
      by_cases hkj : k < j
      · exact .inl ⟨k, hkj, h, hl⟩
      · refine .inr ⟨fun l hlt => hl l (by omega), k - r, by omega, ?_, ?_⟩
        · rwa [show M * 2 ^ L + lb + (p + r) + (k - r) = M * 2 ^ L + lb + p + k by omega]
        · intro l hlt
          have := hl (l + r) (by omega)
          rwa [show M * 2 ^ L + lb + p + (l + r) = M * 2 ^ L + lb + (p + r) + l by omega] at this
    · rintro (⟨k, hk, h, hl⟩ | ⟨ha, k, hk, h, hl⟩)
      · exact ⟨k, by omega, h, hl⟩
      · refine ⟨k + r, by omega, ?_, ?_⟩
        · rwa [show M * 2 ^ L + lb + p + (k + r) = M * 2 ^ L + lb + (p + r) + k by omega]
        · intro l hlt
          by_cases hlj : l < j
          · exact ha l hlj
          · have := hl (l - r) (by omega)
            rwa [show M * 2 ^ L + lb + (p + r) + (l - r) = M * 2 ^ L + lb + p + l by omega] at this
  have key := phases_ok L hL (rdAt L rd2) comb2 V hV
    (2 ^ L + (ub - lb + 1) - 1) (ub + 1) (ub - lb + 1) (by omega) (by omega) hlog hleft
    (gBody1 step2 lk2 sh2 (bufferSize L lb ub)) (gBody2 L step2 (bufferSize L lb ub))
    (gBody3 L step2 (lkU2 U1 U2) (bufferSize L lb ub))
    (fun j b p hj hjW hp => gBody1_ok L rd2 comb2 step2 lk2 sh2 hstep hlk
      (fun x r q h => by unfold rd2 sh2; dsimp only; rw [shl_rd _ r q h, shl_rd _ r q h]) _ _ hlong j b p hj hjW hp)
    (fun j b p hj hjW hp => gBody2_ok L rd2 comb2 step2 hstep _ _ hlong j b p hj hjW hp)
    (fun j r b p hr hrW hrj hp => gBody3_ok L rd2 comb2 step2 lk2 (lkU2 U1 U2) hstep
      hlk (fun x y r h => by unfold lkU2 look lk2; rw [if_pos h, if_pos h]) _ _ hlong j r b p hr hrW hrj hp)
    (fun i => if i < bufferSize L lb ub then (shifted L S a1 (M : Int) lb i, shifted L S a2 (M : Int) lb i)
      else (U1.read i, U2.read i))
    (by
      intro p hp
      have hW := Nat.two_pow_pos L
      have hi : p / 2 ^ L < bufferSize L lb ub := by rw [Nat.div_lt_iff_lt_mul hW]; omega
      unfold rdAt
      simp only []
      rw [if_pos hi]
      unfold rd2
      have e1 := shifted_ok L S a1 s1 M _ lb p h1 (within L lb ub p hlb hp)
      have e2 := shifted_ok L S a2 s2 M _ lb p h2 (within L lb ub p hlb hp)
      refine Prod.ext (propext ?_) (propext ?_)
      · rw [e1]
        constructor
        · intro h k hk
          obtain rfl : k = 0 := by omega
          exact h
        · intro h; exact h 0 (by omega)
      · rw [e2]
        constructor
        · intro h; exact ⟨0, by omega, h, by intro l hl; omega⟩
        · rintro ⟨k, hk, h, _⟩
          obtain rfl : k = 0 := by omega
          exact h)
    q (by omega)
  unfold rdAt at key
  rw [Nat.div_eq_of_lt hq, Nat.mod_eq_of_lt hq] at key
  have key2 := congrArg Prod.snd key
  unfold rd2 at key2
  dsimp only at key2
  have hfun : untilFn L S U1 U2 a1 a2 (bufferSize L lb ub) (M : Int) lb ub =
      (phases L (ub + 1) (ub - lb + 1)
    (gBody1 step2 lk2 sh2 (bufferSize L lb ub)) (gBody2 L step2 (bufferSize L lb ub))
    (gBody3 L step2 (lkU2 U1 U2) (bufferSize L lb ub))
    (fun i => if i < bufferSize L lb ub then (shifted L S a1 (M : Int) lb i, shifted L S a2 (M : Int) lb i)
      else (U1.read i, U2.read i)) 0).2 := by
    have h3 : (fun (r : Nat) (buf : Nat → BitVec (2 ^ L) × BitVec (2 ^ L)) =>
        forUp (bufferSize L lb ub) (fun b i => untilStep (b i)
          (if r &&& (2 ^ L - 1) = 0 then (b (i + (r >>> L))).1 else look U1 (b i).1 (b (i + 1)).1 r)
          (if r &&& (2 ^ L - 1) = 0 then (b (i + (r >>> L))).2 else look U2 (b i).2 (b (i + 1)).2 r))
        buf) = gBody3 L step2 (lkU2 U1 U2) (bufferSize L lb ub) := by
      funext r buf
      unfold gBody3
      congr 1
      funext b i
      unfold step2 lkU2
      split <;> rfl
    unfold untilFn
    rw [h3]
    rfl
  rw [hfun, key2]
  constructor
  · rintro ⟨k, hk, h, hl⟩
    refine ⟨_, by omega, by omega, h, ?_⟩
    intro l hl1 hl2
    have := hl (l - (M * 2 ^ L + lb + q)) (by omega)
    rwa [show M * 2 ^ L + lb + q + (l - (M * 2 ^ L + lb + q)) = l by omega] at this
  · rintro ⟨j, g1, g2, h, hl⟩
    refine ⟨j - (M * 2 ^ L + lb + q), by omega, ?_, ?_⟩
    · rwa [show M * 2 ^ L + lb + q + (j - (M * 2 ^ L + lb + q)) = j by omega]
    · intro l hlt
      exact hl _ (by omega) (by omega)

end Sabre
end R2U2
