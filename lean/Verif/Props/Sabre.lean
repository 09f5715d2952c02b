import Verif.Lemmas.SabreRun
import Mathlib.Tactic.IntervalCases
/-
C37: what the C program written by `generate_sabre_code` prints.
-/
namespace R2U2
namespace Sabre

/-- C37.  After `n` words of input the generated program has printed one word for every word of time
steps except the last `wordDelay` ones, and bit `q` (from the most significant one) of the `m`-th
word printed says whether the formula holds at time `m * 2^L + q`.  This is so for every input,
whatever the arrays contain at first and whatever an undefined operation gives.

Missing: formulas outside `Supported`, for which see the theorems below; release and past-time
operators, for which no code is generated. -/
theorem C37_output_partial {L nsigs : Nat} {ns : List Node} (hL : 0 < L) (h : Supported L nsigs ns)
    (rows : Nat → Nat → Int) (U : Nat → Nat → Undef (2 ^ L) × Undef (2 ^ L)) (init : St L) (n : Nat) :
    (run U ns nsigs rows init n).2.length = n - wordDelay L (formula ns) ∧
    ∀ (m : Nat) (x : BitVec (2 ^ L)), (run U ns nsigs rows init n).2[m]? = some x →
      ∀ (q : Nat), q < 2 ^ L →
        (x.getMsbD q = true ↔ sat (traceOf rows) (formula ns) (m * 2 ^ L + q)) := by
  have hlen : ns.length - 1 < ns.length := Nat.sub_lt (List.length_pos_iff.2 h.1) Nat.one_pos
  have hd := wordWpd_delay h (ns.length - 1) _ (List.getElem?_eq_getElem hlen)
  obtain ⟨_, h2, h3⟩ := run_inv hL h rows U init n
  exact ⟨by rw [h2, hd]; rfl, h3⟩

/-- `!(G[2,9] (a0 U[1,4] a1) & F[0,20] a0)`, with the atom `a0` shared. -/
def example_nodes : List Node :=
  [.atom 0, .atom 1, .untl 1 4 0 1, .glob 2 9 2, .fut 0 20 0, .and [3, 4], .neg 5]

theorem example_supported : Supported 3 2 example_nodes := by
  refine ⟨by simp [example_nodes], ?_, ?_⟩
  · intro k hk
    have hk : k < 6 := by simp [example_nodes] at hk; omega
    interval_cases k
    · exact ⟨2, _, by omega, rfl, by simp [Node.kids]⟩
    · exact ⟨2, _, by omega, rfl, by simp [Node.kids]⟩
    · exact ⟨3, _, by omega, rfl, by simp [Node.kids]⟩
    · exact ⟨5, _, by omega, rfl, by simp [Node.kids]⟩
    · exact ⟨5, _, by omega, rfl, by simp [Node.kids]⟩
    · exact ⟨6, _, by omega, rfl, by simp [Node.kids]⟩
  · intro k n hn
    have hk : k < 7 := by
      have := (List.getElem?_eq_some_iff.1 hn).1
      simpa [example_nodes] using this
    have log4 : Nat.log2 4 = 2 := by decide +kernel
    have log5 : Nat.log2 5 = 2 := by decide +kernel
    have log8 : Nat.log2 8 = 3 := by decide +kernel
    have log21 : Nat.log2 21 = 4 := by decide +kernel
    interval_cases k <;> simp only [example_nodes, List.getElem?_cons_zero, List.getElem?_cons_succ,
      Option.some.injEq] at hn <;> subst hn <;> simp [NodeOk, LeftoverOk, log4, log5, log8, log21]

/-- The hypotheses are met by a formula with nested and shared operators; the code reads three words ahead. -/
example : formula example_nodes = .neg (.and [.glob 2 9 (.untl 1 4 (.atom 0) (.atom 1)),
    .fut 0 20 (.atom 0)]) ∧ wordDelay 3 (formula example_nodes) = 3 := ⟨rfl, rfl⟩

/-! ### Formulas for which the code is wrong -/

/-- Arrays of zeros. -/
def zeros (L : Nat) : St L := ⟨fun _ _ => 0, fun _ _ => 0⟩

/-- Undefined operations give this word. -/
def giving (L : Nat) (x : BitVec (2 ^ L)) : Nat → Nat → Undef (2 ^ L) × Undef (2 ^ L) :=
  fun _ _ => (⟨fun _ => x, fun _ _ _ => x⟩, ⟨fun _ => x, fun _ _ _ => x⟩)

/-- C37 fails for the constant `true`, which is written as the word 1 instead of a word of ones: the
first seven of eight time steps are printed as false. -/
theorem C37_true_fails : ∃ (x : BitVec (2 ^ 3)),
    (run (giving 3 0) [.const true] 0 (fun _ _ => 0) (zeros 3) 1).2 = [x] ∧
    x.getMsbD 0 = false ∧ sat (traceOf fun _ _ => 0) (formula [.const true]) 0 :=
  ⟨1, by decide +kernel, by decide +kernel, rfl⟩

/-- C37 fails for `a0 <-> a1`, written with the C operator `==`, which compares whole words. -/
theorem C37_iff_fails : ∃ (x : BitVec (2 ^ 3)),
    (run (giving 3 0) [.atom 0, .atom 1, .iff 0 1] 2 (fun _ _ => 0) (zeros 3) 1).2 = [x] ∧
    x.getMsbD 0 = false ∧
    sat (traceOf fun _ _ => 0) (formula [.atom 0, .atom 1, .iff 0 1]) 0 :=
  ⟨1, by decide +kernel, by decide +kernel, by show _ ↔ _; exact Iff.rfl⟩

/-- An input on which `a0` always holds and `a1` holds at time 5 only. -/
def rows5 (t i : Nat) : Int := if i = 0 then 1 else if t = 5 then 1 else 0

/-- C37 fails for `a0 U[3,4] a1`: the loops go by `ub + 1` instead of the length of the interval, so
the code looks at times after the interval's end.  With `a1` at time 5 only it prints true for
time 0. -/
theorem C37_until_fails : ∃ (x : BitVec (2 ^ 3)),
    (run (giving 3 0) [.atom 0, .atom 1, .untl 3 4 0 1] 2 rows5 (zeros 3) 2).2 = [x] ∧
    x.getMsbD 0 = true ∧
    ¬ sat (traceOf rows5) (formula [.atom 0, .atom 1, .untl 3 4 0 1]) 0 := by
  refine ⟨224, by decide +kernel, by decide +kernel, ?_⟩
  rintro ⟨j, h1, h2, h3, _⟩
  have h3 : rows5 j 1 = 1 := h3
  have : j ≠ 5 := by omega
  simp [rows5, this] at h3

/-- C37 fails when a signal's number is not below the number of signals of the formula, as in `!a1`:
one column is read, into `atomics[0]`, and the formula uses `atomics[1]`, which is past the end of
the array. -/
theorem C37_signals_fail : ∃ (x : BitVec (2 ^ 3)),
    (run (giving 3 0) [.atom 1, .neg 0] 1 (fun _ _ => 1) (zeros 3) 1).2 = [x] ∧
    x.getMsbD 0 = true ∧ ¬ sat (traceOf fun _ _ => 1) (formula [.atom 1, .neg 0]) 0 :=
  ⟨255, by decide +kernel, by decide +kernel, fun h => h rfl⟩

/-- C37 fails for `F[0,24] a0` with words of 8 bits: of the 25 time steps 16 are covered by doubling,
and the remaining step of 9 shifts a word by more than its width, which C does not define.  If that
gives ones, the code prints true although `a0` never holds. -/
theorem C37_leftover_fails : ∃ (x : BitVec (2 ^ 3)),
    (run (giving 3 255) [.atom 0, .fut 0 24 0] 1 (fun _ _ => 0) (zeros 3) 4).2 = [x] ∧
    x.getMsbD 0 = true ∧ ¬ sat (traceOf fun _ _ => 0) (formula [.atom 0, .fut 0 24 0]) 0 := by
  have hw : ∀ (s : St 3) (U : Undef (2 ^ 3)), U.look = (fun _ _ _ => 255) → ∀ (a : Nat → BitVec (2 ^ 3)) (base : Int),
      (window 3 (fun x y => x ||| y) 4 U a 4 base 0 24).getMsbD 0 = true := by
    intro s U hU a base
    obtain ⟨X, hX⟩ : ∃ X, window 3 (fun x y => x ||| y) 4 U a 4 base 0 24 =
        forUp 4 (fun b i => b i ||| (if 9 &&& (2 ^ 3 - 1) = 0 then b (i + (9 >>> 3)) else
          look U (b i) (b (i + 1)) 9)) X 0 := ⟨_, rfl⟩
    rw [hX, forUp_get]
    · simp [look, hU, BitVec.getMsbD_or]
    · intro b b' i h
      rw [h i (by omega), h (i + 1) (by omega), h _ (Nat.le_add_right ..)]
  refine ⟨_, rfl, ?_, ?_⟩
  · exact hw (zeros 3) (giving 3 255 3 1).1 rfl _ _
  · rintro ⟨j, _, _, h⟩
    have h : (0 : Int) = 1 := h
    omega

end Sabre
end R2U2
