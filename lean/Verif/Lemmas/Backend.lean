import Verif.Model.Backend
import Verif.Lemmas.Heap
/- Loop invariants of `compute_scq_sizes`. -/
namespace R2U2
namespace BProg
open Heap

theorem foldr_max_le (l : List Int) (b : Int) : b ≤ l.foldr max b := by
  induction l with
  | nil => simp
  | cons a l ih => simp only [List.foldr_cons]; omega

theorem foldr_max_mem {l : List Int} {a : Int} (b : Int) (h : a ∈ l) : a ≤ l.foldr max b := by
  induction l with
  | nil => simp at h
  | cons c l ih =>
    simp only [List.foldr_cons]
    rcases List.mem_cons.1 h with rfl | h
    · omega
    · have := ih h; omega

theorem scqSize_nonneg {P : BProg} {k : Int} (hk : 0 ≤ k) {x : Nat} {n : Int} (h : P.scqSize k x = some n) :
    0 ≤ n := by
  unfold scqSize at h
  split at h
  · cases h; omega
  · split at h
    · cases h
    · split at h
      · cases h; omega
      · cases h; omega

/-- What the loop of `compute_scq_sizes` maintains after the nodes `done`. -/
structure ScqInv (P : BProg) (k : Int) (done : List Nat) (s : ScqState) : Prop where
  nonneg : 0 ≤ s.total
  assigned : ∀ x, (s.scq x).isSome ↔ x ∈ done ∧ (P.scqSize k x).isSome
  size : ∀ x lo hi, s.scq x = some (lo, hi) →
    0 ≤ lo ∧ hi ≤ s.total ∧ P.scqSize k x = some (hi - lo)
  cover : ∀ i : Int, 0 ≤ i → i < s.total → ∃ x lo hi, s.scq x = some (lo, hi) ∧ lo ≤ i ∧ i < hi
  uniq : ∀ (i : Int) x lo hi y lo' hi', s.scq x = some (lo, hi) → s.scq y = some (lo', hi') →
    lo ≤ i → i < hi → lo' ≤ i → i < hi' → x = y

theorem ScqInv.step {P : BProg} {k : Int} (hk : 0 ≤ k) {done : List Nat} {s : ScqState}
    (h : ScqInv P k done s) {x : Nat} (hx : x ∉ done) : ScqInv P k (done ++ [x]) (P.scqStep k s x) := by
  unfold scqStep
  cases hs : P.scqSize k x with
  | none =>
    refine ⟨h.nonneg, ?_, h.size, h.cover, h.uniq⟩
    intro y
    rw [h.assigned y]
    constructor
    · rintro ⟨h1, h2⟩; exact ⟨by simp [h1], h2⟩
    · rintro ⟨h1, h2⟩
      rcases List.mem_append.1 h1 with h1 | h1
      · exact ⟨h1, h2⟩
      · rw [List.mem_singleton.1 h1, hs] at h2; simp at h2
  | some n =>
    have hn := scqSize_nonneg hk hs
    have hnot : s.scq x = none := by
      cases hsx : s.scq x with
      | none => rfl
      | some r => exact absurd ((h.assigned x).1 (by rw [hsx]; rfl)).1 hx
    refine ⟨by have := h.nonneg; simp only; omega, ?_, ?_, ?_, ?_⟩
    · intro y
      simp only
      by_cases hyx : y = x
      · subst hyx; simp [hs]
      · rw [if_neg hyx, h.assigned y]; simp [hyx]
    · intro y lo hi hy
      simp only at hy ⊢
      split at hy
      · rename_i hyx; subst hyx
        cases hy
        have := h.nonneg
        exact ⟨by omega, by omega, by rw [hs]; congr 1; omega⟩
      · have := h.size y lo hi hy
        exact ⟨this.1, by omega, this.2.2⟩
    · intro i h0 hi
      simp only at hi ⊢
      by_cases hlt : i < s.total
      · obtain ⟨y, lo, hi', hy, h1, h2⟩ := h.cover i h0 hlt
        refine ⟨y, lo, hi', ?_, h1, h2⟩
        rw [if_neg]
        · exact hy
        · rintro rfl; rw [hnot] at hy; cases hy
      · exact ⟨x, s.total + n - n, s.total + n, by simp, by omega, hi⟩
    · intro i y lo hi z lo' hi' hy hz h1 h2 h3 h4
      simp only at hy hz
      split at hy
      · rename_i hyx
        split at hz
        · rename_i hzx; rw [hyx, hzx]
        · cases hy
          have := (h.size z lo' hi' hz).2.1
          omega
      · split at hz
        · cases hz
          have := (h.size y lo hi hy).2.1
          omega
        · exact h.uniq i y lo hi z lo' hi' hy hz h1 h2 h3 h4

theorem ScqInv.fold {P : BProg} {k : Int} (hk : 0 ≤ k) : ∀ (rest done : List Nat) (s : ScqState),
    ScqInv P k done s → (done ++ rest).Nodup → ScqInv P k (done ++ rest) (rest.foldl (P.scqStep k) s)
  | [], done, s, h, _ => by simpa using h
  | x :: rest, done, s, h, hn => by
      have hx : x ∉ done := by
        intro hx
        rw [List.nodup_append] at hn
        exact hn.2.2 x hx x List.mem_cons_self rfl
      have := ScqInv.fold hk rest (done ++ [x]) (P.scqStep k s x) (h.step hk hx)
        (by simpa using hn)
      simpa using this

theorem ScqInv.init {P : BProg} {k : Int} : ScqInv P k [] { total := 0, scq := fun _ => none } := by
  refine ⟨by simp, by simp, by simp, ?_, by simp⟩
  intro i h1 h2
  simp only at h2
  omega

end BProg
end R2U2
