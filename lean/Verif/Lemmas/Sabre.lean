import Verif.Spec.Sabre
import Mathlib.Tactic.ByContra
import Mathlib.Tactic.SplitIfs
import Mathlib.Tactic.Set
/-
Lemmas for C37: the bit-parallel window computation.
-/
namespace R2U2
namespace Sabre

/-! ### In-place loops -/

theorem forUp_succ {β : Type} (n : Nat) (f : (Nat → β) → Nat → β) (b : Nat → β) :
    forUp (n + 1) f b = upd (forUp n f b) n (f (forUp n f b) n) := by
  unfold forUp
  rw [List.range_succ, List.foldl_append]
  rfl

/-- A loop that only reads elements it has not written yet computes all elements from the old
contents. -/
theorem forUp_get {β : Type} (f : (Nat → β) → Nat → β)
    (hf : ∀ b b' i, (∀ k, i ≤ k → b k = b' k) → f b i = f b' i) (b : Nat → β) :
    ∀ n k, forUp n f b k = if k < n then f b k else b k
  | 0, k => by simp [forUp]
  | n + 1, k => by
      have ih := forUp_get f hf b n
      rw [forUp_succ]
      unfold upd
      by_cases hk : k = n
      · subst hk
        simp only [if_true, Nat.lt_succ_self]
        apply hf
        intro m hm
        rw [ih, if_neg (by omega)]
      · rw [if_neg hk, ih]
        split_ifs <;> first | rfl | omega

/-! ### Positions -/

theorem look_bit {W : Nat} (x y : BitVec W) (r q : Nat) (hr : 0 < r) (hrW : r < W) (hq : q < W) :
    ((x <<< r) ||| (y >>> (W - r))).getMsbD q =
      if q + r < W then x.getMsbD (q + r) else y.getMsbD (q + r - W) := by
  rw [BitVec.getMsbD_or, BitVec.getMsbD_shiftLeft, BitVec.getMsbD_ushiftRight]
  split
  · have : ¬ (W - r ≤ q) := by omega
    simp [this]
  · have h1 : W - r ≤ q := by omega
    have h2 : x.getMsbD (q + r) = false := BitVec.getMsbD_of_ge _ _ (by omega)
    have h3 : q - (W - r) = q + r - W := by omega
    have h4 : ¬ q < W - r := by omega
    simp [h2, h3, hq, h4]

theorem pos_within {W p r : Nat} (hW : 0 < W) (h : p % W + r < W) :
    (p + r) / W = p / W ∧ (p + r) % W = p % W + r := by
  have hd : W * (p / W) + p % W = p := Nat.div_add_mod p W
  rw [show p + r = (p % W + r) + W * (p / W) by omega, Nat.add_mul_div_left _ _ hW,
    Nat.div_eq_of_lt h, Nat.zero_add, Nat.add_mul_mod_self_left, Nat.mod_eq_of_lt h]
  exact ⟨rfl, rfl⟩

theorem pos_next {W p r : Nat} (hW : 0 < W) (hr : r < W) (h : ¬ p % W + r < W) :
    (p + r) / W = p / W + 1 ∧ (p + r) % W = p % W + r - W := by
  have hd : W * (p / W) + p % W = p := Nat.div_add_mod p W
  have hm : p % W < W := Nat.mod_lt _ hW
  have e : p + r = (p % W + r - W) + W * (p / W + 1) := by rw [Nat.mul_add]; omega
  rw [e, Nat.add_mul_div_left _ _ hW, Nat.div_eq_of_lt (by omega), Nat.zero_add,
    Nat.add_mul_mod_self_left, Nat.mod_eq_of_lt (by omega)]
  exact ⟨rfl, rfl⟩

theorem pos_words {W p r : Nat} (hW : 0 < W) (h : r % W = 0) :
    (p + r) / W = p / W + r / W ∧ (p + r) % W = p % W := by
  obtain ⟨k, rfl⟩ := Nat.dvd_of_mod_eq_zero h
  rw [Nat.add_mul_div_left _ _ hW, Nat.add_mul_mod_self_left, Nat.mul_div_cancel_left _ hW]
  exact ⟨rfl, rfl⟩

section Generic
/-! The bodies of the loops, over an arbitrary kind of buffer element `γ` of which `rd x q` is the
value at bit `q`. -/
variable {γ β : Type} (L : Nat) (rd : γ → Nat → β) (comb : β → β → β) (step : γ → γ → γ)
  (lk lkU : γ → γ → Nat → γ) (sh : γ → Nat → γ)

/-- The value of a buffer at a position. -/
def rdAt (b : Nat → γ) (p : Nat) : β := rd (b (p / 2 ^ L)) (p % 2 ^ L)

def gBody1 (nbuf j : Nat) (b : Nat → γ) : Nat → γ :=
  let b := forUp (nbuf - 1) (fun b i => step (b i) (lk (b i) (b (i + 1)) j)) b
  upd b (nbuf - 1) (step (b (nbuf - 1)) (sh (b (nbuf - 1)) j))

def gBody2 (nbuf j : Nat) (b : Nat → γ) : Nat → γ :=
  forUp (nbuf - (j >>> L)) (fun b i => step (b i) (b (i + (j >>> L)))) b

def gBody3 (nbuf r : Nat) (b : Nat → γ) : Nat → γ :=
  forUp nbuf (fun b i => step (b i)
    (if r &&& (2 ^ L - 1) = 0 then b (i + (r >>> L)) else lkU (b i) (b (i + 1)) r)) b

variable (hstep : ∀ x y q, q < 2 ^ L → rd (step x y) q = comb (rd x q) (rd y q))
  (hlk : ∀ x y r q, 0 < r → r < 2 ^ L → q < 2 ^ L →
    rd (lk x y r) q = if q + r < 2 ^ L then rd x (q + r) else rd y (q + r - 2 ^ L))
  (hlkU : ∀ x y r, r < 2 ^ L → lkU x y r = lk x y r)
  (hsh : ∀ x r q, q + r < 2 ^ L → rd (sh x r) q = rd x (q + r))

include hlk in
theorem rd_look (b : Nat → γ) (p r : Nat) (hr : 0 < r) (hrW : r < 2 ^ L) :
    rd (lk (b (p / 2 ^ L)) (b (p / 2 ^ L + 1)) r) (p % 2 ^ L) = rdAt L rd b (p + r) := by
  have hW := Nat.two_pow_pos L
  rw [hlk _ _ _ _ hr hrW (Nat.mod_lt _ hW)]
  unfold rdAt
  split
  · rename_i h
    rw [(pos_within hW h).1, (pos_within hW h).2]
  · rename_i h
    rw [(pos_next hW hrW h).1, (pos_next hW hrW h).2]

include hstep hlk hsh in
theorem gBody1_ok (nbuf T : Nat) (hT : T ≤ nbuf * 2 ^ L) (j : Nat) (b : Nat → γ) (p : Nat) (hj : 0 < j)
    (hjW : j < 2 ^ L) (hp : p + 2 * j ≤ T) :
    rdAt L rd (gBody1 step lk sh nbuf j b) p = comb (rdAt L rd b p) (rdAt L rd b (p + j)) := by
  have hW := Nat.two_pow_pos L
  have hi : p / 2 ^ L < nbuf := by rw [Nat.div_lt_iff_lt_mul hW]; omega
  have hq := Nat.mod_lt p hW
  have hget : ∀ k, forUp (nbuf - 1) (fun b i => step (b i) (lk (b i) (b (i + 1)) j)) b k =
      if k < nbuf - 1 then step (b k) (lk (b k) (b (k + 1)) j) else b k :=
    forUp_get _ (fun b b' i h => by rw [h i (by omega), h (i + 1) (by omega)]) b (nbuf - 1)
  unfold gBody1
  dsimp only
  by_cases hlast : p / 2 ^ L = nbuf - 1
  · have hd : 2 ^ L * (p / 2 ^ L) + p % 2 ^ L = p := Nat.div_add_mod p _
    have hqj : p % 2 ^ L + j < 2 ^ L := by
      have : nbuf * 2 ^ L = 2 ^ L * (nbuf - 1) + 2 ^ L := by
        rw [Nat.mul_comm]
        conv_lhs => rw [show nbuf = (nbuf - 1) + 1 by omega, Nat.mul_add, Nat.mul_one]
      rw [hlast] at hd
      omega
    conv_lhs => unfold rdAt upd
    rw [if_pos hlast, hget, if_neg (by omega), hstep _ _ _ hq, hsh _ _ _ hqj]
    unfold rdAt
    rw [(pos_within hW hqj).1, (pos_within hW hqj).2, hlast]
  · conv_lhs => unfold rdAt upd
    rw [if_neg hlast, hget, if_pos (by omega), hstep _ _ _ hq, rd_look L rd lk hlk b p j hj hjW]
    rfl

include hstep in
theorem gBody2_ok (nbuf T : Nat) (hT : T ≤ nbuf * 2 ^ L) (j : Nat) (b : Nat → γ) (p : Nat) (hj : 0 < j)
    (hjW : j % 2 ^ L = 0) (hp : p + 2 * j ≤ T) :
    rdAt L rd (gBody2 L step nbuf j b) p = comb (rdAt L rd b p) (rdAt L rd b (p + j)) := by
  have hW := Nat.two_pow_pos L
  have hi : (p + j) / 2 ^ L < nbuf := by rw [Nat.div_lt_iff_lt_mul hW]; omega
  rw [(pos_words hW hjW).1] at hi
  have hq := Nat.mod_lt p hW
  have hget : ∀ k, gBody2 L step nbuf j b k =
      if k < nbuf - (j >>> L) then step (b k) (b (k + (j >>> L))) else b k :=
    forUp_get _ (fun b b' i h => by rw [h i (by omega), h (i + _) (Nat.le_add_right ..)]) b _
  have hs : j >>> L = j / 2 ^ L := Nat.shiftRight_eq_div_pow ..
  conv_lhs => unfold rdAt
  rw [hget, if_pos (by omega), hstep _ _ _ hq]
  unfold rdAt
  rw [(pos_words hW hjW).1, (pos_words hW hjW).2, hs]

include hstep hlk hlkU in
theorem gBody3_ok (nbuf T : Nat) (hT : T ≤ nbuf * 2 ^ L) (j r : Nat) (b : Nat → γ) (p : Nat) (hr : 0 < r)
    (hrW : r < 2 ^ L ∨ r % 2 ^ L = 0) (hrj : r < j) (hp : p + j + r ≤ T) :
    rdAt L rd (gBody3 L step lkU nbuf r b) p = comb (rdAt L rd b p) (rdAt L rd b (p + r)) := by
  have hW := Nat.two_pow_pos L
  have hi : p / 2 ^ L < nbuf := by rw [Nat.div_lt_iff_lt_mul hW]; omega
  have hq := Nat.mod_lt p hW
  have hget : ∀ k, gBody3 L step lkU nbuf r b k = if k < nbuf then step (b k)
      (if r &&& (2 ^ L - 1) = 0 then b (k + (r >>> L)) else lkU (b k) (b (k + 1)) r) else b k :=
    forUp_get _ (fun b b' i h => by
      rw [h i (by omega), h (i + 1) (by omega), h (i + r >>> L) (Nat.le_add_right ..)]) b _
  have hs : r >>> L = r / 2 ^ L := Nat.shiftRight_eq_div_pow ..
  conv_lhs => unfold rdAt
  rw [hget, if_pos hi, hstep _ _ _ hq, Nat.and_two_pow_sub_one_eq_mod]
  split
  · rename_i h0
    unfold rdAt
    rw [(pos_words hW h0).1, (pos_words hW h0).2, hs]
  · rename_i h0
    have hlt : r < 2 ^ L := by rcases hrW with h | h; exacts [h, absurd h h0]
    rw [hlkU _ _ _ hlt, rd_look L rd lk hlk b p r hr hlt]
    rfl

end Generic

/-! ### The doubling argument -/

/-- What the loops compute, for any kind of buffer `γ` with a reading `bit` of its positions. -/
theorem loop_ok {γ β : Type} (body : Nat → γ → γ) (bit : γ → Nat → β) (comb : β → β → β)
    (V : Nat → Nat → β) (hV : ∀ j r p, r ≤ j → V (j + r) p = comb (V j p) (V j (p + r)))
    (T n bound E : Nat) (hbn : 2 * bound ≤ n)
    (hbody : ∀ e b p, E ≤ e → 2 ^ e ≤ bound → p + 2 * 2 ^ e ≤ T →
      bit (body (2 ^ e) b) p = comb (bit b p) (bit b (p + 2 ^ e))) :
    ∀ (fuel e : Nat) (b : γ), E ≤ e → bound < fuel + 2 ^ e → 2 ^ e ≤ n →
      (∀ p, p + 2 ^ e ≤ T → bit b p = V (2 ^ e) p) →
      ∃ e' b', loopFrom body bound fuel (2 ^ e) b = (2 ^ e', b') ∧ bound < 2 ^ e' ∧ 2 ^ e' ≤ n ∧
        ∀ p, p + 2 ^ e' ≤ T → bit b' p = V (2 ^ e') p
  | 0, e, b, _, h1, h2, h3 => ⟨e, b, rfl, by omega, h2, h3⟩
  | fuel + 1, e, b, hE, h1, h2, h3 => by
      unfold loopFrom
      split
      · rename_i hle
        have hs : 2 ^ e <<< 1 = 2 ^ (e + 1) := by
          rw [Nat.shiftLeft_eq, Nat.pow_succ 2 e]
        have hp : 2 ^ (e + 1) = 2 * 2 ^ e := by rw [Nat.pow_succ]; omega
        rw [hs]
        have hpos : 0 < 2 ^ e := Nat.two_pow_pos e
        exact loop_ok body bit comb V hV T n bound E hbn hbody fuel (e + 1)
          (body (2 ^ e) b) (by omega) (by omega) (by omega) (by
            intro p hpT
            rw [hbody e b p hE hle (by omega), h3 p (by omega), h3 (p + 2 ^ e) (by omega), hp,
              show 2 * 2 ^ e = 2 ^ e + 2 ^ e by omega]
            exact (hV _ _ _ (Nat.le_refl _)).symm)
      · exact ⟨e, b, rfl, by omega, h2, h3⟩

theorem pow_le_of_lt {a e : Nat} (h : 2 ^ a / 2 < 2 ^ e) (ha : 0 < a) : a ≤ e := by
  by_contra hn
  have h1 : 2 ^ a = 2 * 2 ^ (a - 1) := by
    conv_lhs => rw [show a = (a - 1) + 1 by omega, Nat.pow_succ]
    omega
  have h2 : 2 ^ e ≤ 2 ^ (a - 1) := Nat.pow_le_pow_right (by omega) (by omega)
  rw [h1] at h
  omega

/-- The three phases of `future`, `global` and `until` over an arbitrary kind of buffer.  `N` bounds
the loops, `n` is the length of the window. -/
theorem phases_ok {γ β : Type} (L : Nat) (hL : 0 < L) (bit : γ → Nat → β) (comb : β → β → β)
    (V : Nat → Nat → β) (hV : ∀ j r p, r ≤ j → V (j + r) p = comb (V j p) (V j (p + r)))
    (T N n : Nat) (hn : 0 < n) (hN : 0 < N) (hlog : N.log2 = n.log2)
    (hleft : LeftoverOk L n)
    (body1 body2 body3 : Nat → γ → γ)
    (h1 : ∀ j b p, 0 < j → j < 2 ^ L → p + 2 * j ≤ T →
      bit (body1 j b) p = comb (bit b p) (bit b (p + j)))
    (h2 : ∀ j b p, 0 < j → j % 2 ^ L = 0 → p + 2 * j ≤ T → bit (body2 j b) p = comb (bit b p) (bit b (p + j)))
    (h3 : ∀ j r b p, 0 < r → r < 2 ^ L ∨ r % 2 ^ L = 0 → r < j → p + j + r ≤ T →
      bit (body3 r b) p = comb (bit b p) (bit b (p + r)))
    (b : γ) (hb : ∀ p, p + 1 ≤ T → bit b p = V 1 p) :
    ∀ p, p + n ≤ T →
      bit (phases L N n body1 body2 body3 b) p = V n p := by
  have hN2 : N >>> 1 = N / 2 := by rw [Nat.shiftRight_eq_div_pow, Nat.pow_one]
  have hfb : firstBound L N ≤ N / 2 := by unfold firstBound; rw [hN2]; split <;> omega
  have hWpos : 0 < 2 ^ L := Nat.two_pow_pos L
  have hfW : firstBound L N < 2 ^ L := by
    unfold firstBound
    rw [hN2]
    have : 2 ^ L / 2 < 2 ^ L := Nat.div_lt_self hWpos (by omega)
    split <;> omega
  obtain ⟨e1, b1, q1, q3, q4, q5⟩ := loop_ok body1 bit comb V hV T N (firstBound L N) 0 (by omega)
    (fun e b p _ he hp => h1 _ b p (Nat.two_pow_pos e) (by omega) hp) (firstBound L N + 1) 0 b
    (Nat.le_refl _) (by omega) (by rw [Nat.pow_zero]; exact hN) (by rw [Nat.pow_zero]; exact hb)
  have hmul : ∀ e, e1 ≤ e → 2 ^ e ≤ N / 2 → 2 ^ e % 2 ^ L = 0 := by
    intro e he hle
    have hpe : 2 ^ e1 ≤ 2 ^ e := Nat.pow_le_pow_right (by omega) he
    have hLe : L ≤ e1 := by
      apply pow_le_of_lt _ hL
      unfold firstBound at q3
      rw [hN2] at q3
      split at q3
      · exact q3
      · omega
    exact Nat.mod_eq_zero_of_dvd (Nat.pow_dvd_pow 2 (by omega))
  obtain ⟨e2, b2, r1, r3, r4, r5⟩ := loop_ok body2 bit comb V hV T N (N / 2) e1 (by omega)
    (fun e b p he hle hp => h2 _ b p (Nat.two_pow_pos e) (hmul e he hle) hp) (N / 2 + 1) e1 b1 (Nat.le_refl _) (by
      have := Nat.two_pow_pos e1; omega) q4 q5
  have he2 : e2 = N.log2 := by
    symm
    rw [Nat.log2_eq_iff (by omega)]
    exact ⟨r4, by rw [Nat.pow_succ]; omega⟩
  have hn2 : 2 ^ e2 ≤ n ∧ n < 2 ^ (e2 + 1) := by
    rw [he2, hlog]
    exact (Nat.log2_eq_iff (by omega)).1 rfl
  have hr : n &&& (2 ^ e2 - 1) = n - 2 ^ e2 := by
    rw [Nat.and_two_pow_sub_one_eq_mod, Nat.mod_eq_sub_mod hn2.1, Nat.mod_eq_of_lt]
    have := hn2.2
    rw [Nat.pow_succ] at this
    omega
  intro p hp
  rw [Nat.pow_zero] at q1
  unfold phases
  rw [q1]
  dsimp only
  rw [hN2, r1]
  dsimp only
  rw [hr]
  have h5 := hn2.2
  rw [Nat.pow_succ] at h5
  unfold LeftoverOk at hleft
  rw [← hlog, ← he2] at hleft
  split
  · rename_i hne
    rw [h3 (2 ^ e2) _ b2 p (by omega) hleft (by omega) (by omega), r5 p (by omega), r5 _ (by omega)]
    have := hV (2 ^ e2) (n - 2 ^ e2) p (by omega)
    rw [← this]
    congr 1
    omega
  · rename_i hne
    have : n = 2 ^ e2 := by
      simp only [ne_eq, not_not] at hne
      omega
    rw [r5 p (by omega), this]

end Sabre
end R2U2
