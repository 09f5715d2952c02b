import Verif.Spec.BzCsv
import Verif.Lemmas.EventCsv
import Verif.Lemmas.Names
/-
The reader of trace files with a booleanizer.
-/
namespace R2U2
namespace Cli

theorem scanD_intText {i : Int} (h1 : -(2 ^ 31) ≤ i) (h2 : i < 2 ^ 31) : scanD (intText i) = some (some i) := by
  have hd : ∀ n, ∀ c ∈ natStr n, isDigit c = true := fun n c hc => natStr_isDigit hc
  have hw : ∀ n, (natStr n).takeWhile isDigit = natStr n := fun n => by
    have := List.takeWhile_append_of_pos (l₂ := []) (hd n)
    simpa using this
  have hv : ∀ n, (natStr n).foldl (fun n d => n * 10 + (d.toNat - 48)) 0 = n := Map.value_natStr
  have hne := natStr_ne_nil
  unfold intText
  split
  · rename_i hneg
    have hs : ('-' :: natStr i.natAbs).dropWhile Aux.isSpace = '-' :: natStr i.natAbs := by
      rw [List.dropWhile_cons_of_neg (by decide)]
    simp only [scanD, hs, List.head?_cons, true_or, if_true, List.drop_succ_cons, List.drop_zero, hw, hne, if_false, hv]
    rw [show -(i.natAbs : Int) = i by omega]
    simp only [int32, if_pos (And.intro h1 h2), Option.map_some]
  · rename_i hneg
    have hc : ∀ c, (natStr i.natAbs).head? = some c → isDigit c = true := fun c hc => hd _ c (List.mem_of_head? hc)
    have hs : (natStr i.natAbs).dropWhile Aux.isSpace = natStr i.natAbs := by
      cases hn : natStr i.natAbs with
      | nil => rfl
      | cons c cs =>
        rw [hn] at hc
        exact List.dropWhile_cons_of_neg (by simp [Aux.isSpace_digit (hc c rfl)])
    have n1 : (natStr i.natAbs).head? ≠ some '-' := fun h => absurd (hc _ h) (by decide)
    have n2 : (natStr i.natAbs).head? ≠ some '+' := fun h => absurd (hc _ h) (by decide)
    simp only [scanD, hs, n1, n2, or_self, if_false, hw, hne, hv]
    rw [show (i.natAbs : Int) = i by omega]
    simp only [int32, if_pos (And.intro h1 h2), Option.map_some]

theorem intText_point (i : Int) : '.' ∉ intText i := by
  have : ∀ n, '.' ∉ natStr n := fun n h => absurd (natStr_isDigit h) (by decide)
  unfold intText
  split
  · simp [this]
  · exact this _

variable {F : Type} {readF : List Char → Option F}

theorem loadValue_eq {lim : BzLimits} {sig : Nat → Cell F} {i : Nat} {f : List Char} {v : Cell F} (hi : i < lim.signals) (h : Stands readF f v) :
    loadValue lim readF sig i f = some fun k => if k = i then v else sig k := by
  cases h with
  | int i h1 h2 => simp only [loadValue, if_pos hi, if_neg (intText_point i), scanD_intText h1 h2, Option.map_some]
  | flt _ v h1 h2 => simp only [loadValue, if_pos hi, if_pos h1, h2]

theorem loadValues_eq {lim : BzLimits} {σ : Nat → Cell F} : ∀ (fs : List (List Char)) (i : Nat) (sig : Nat → Cell F), i + fs.length ≤ lim.signals →
    (∀ k f, fs[k]? = some f → Stands readF f (σ (i + k))) →
    loadValues lim readF sig i fs = some fun k => if i ≤ k ∧ k < i + fs.length then σ k else sig k
  | [], i, sig, _, _ => by
      simp only [loadValues, List.length_nil, Nat.add_zero, Option.some.injEq]
      funext k
      rw [if_neg (by omega)]
  | f :: fs, i, sig, h, hs => by
      simp only [List.length_cons] at h
      have h0 := hs 0 f rfl
      simp only [Nat.add_zero] at h0
      simp only [loadValues, loadValue_eq (show i < lim.signals by omega) h0, Option.bind_some]
      rw [loadValues_eq fs (i + 1) _ (by omega) (fun k g hk => by
        have := hs (k + 1) g (by simpa using hk)
        rwa [show i + 1 + k = i + (k + 1) by omega])]
      simp only [Option.some.injEq, List.length_cons]
      funext k
      by_cases e : k = i
      · subst e; rw [if_neg (by omega), if_pos rfl, if_pos (by omega)]
      · by_cases e2 : i + 1 ≤ k ∧ k < i + 1 + fs.length
        · rw [if_pos e2, if_pos (by omega)]
        · rw [if_neg e2, if_neg e, if_neg (by omega)]

theorem loadRowBz_eq {lim : BzLimits} {r : List (List Char)} {S : BzState F} {σ : Nat → Cell F}
    (hp : ∀ f, r.head? = some f → f.head? ≠ some '#' ∧ f.head? ≠ some '@') (hw : r.length ≤ lim.signals)
    (hv : ∀ i f, r[i]? = some f → Stands readF f (σ i)) (hz : ∀ i, r.length ≤ i → S.sig i = σ i) :
    loadRowBz lim readF S r = some (some { S with sig := σ }) := by
  have key : loadValues lim readF S.sig 0 r = some σ := by
    rw [loadValues_eq (σ := σ) r 0 S.sig (by omega) (by simpa using hv)]
    congr 1
    funext k
    split
    · rfl
    · exact hz k (by omega)
  cases r with
  | nil =>
    simp only [loadValues, Option.some.injEq] at key
    simp only [loadRowBz, ← key]
  | cons f fs =>
    have h := (hp f rfl).2
    unfold loadRowBz
    split
    · rename_i heq; cases heq
    · rename_i heq
      cases heq
      split
      · exact absurd rfl h
      · rw [key]; rfl

theorem loadNextBz_fields {lim : BzLimits} {size : Nat} {r : List (List Char)} {rows : List (List (List Char))} (hr : Lines size (r :: rows))
    (S : BzState F) (rest : List Char) :
    loadNextBz lim readF size S (row r ++ rest) = (loadRowBz lim readF S r).map fun x => x.map fun S => (S, rest) := by
  have h1 := hr.fields r (by simp)
  have h3 := hr.fits r (by simp)
  have h7 := body_head h1 (hr.plain r (by simp))
  have hlen : r.length < (body r ++ ['\n']).length + 1 := by
    have : ∀ r : List (List Char), (∀ f ∈ r, Field f) → r.length ≤ (body r).length + 1 := by
      intro r
      induction r with
      | nil => simp
      | cons f fs ih =>
        intro h
        have := ih fun f hf => h f (by simp [hf])
        have hp : 0 < f.length := List.length_pos_iff.2 (h f (by simp)).1
        cases fs with
        | nil => simp
        | cons g fs => simp only [body, List.length_append, List.length_cons] at this ⊢; omega
    have := this r h1
    simp only [List.length_append, List.length_singleton]; omega
  unfold loadNextBz
  rw [fgets_row h1 h3]
  simp only [if_neg (fun h : S.tl.time = 0 ∧ _ => h7 h.2)]
  rw [← row_body] at hlen ⊢
  rw [tokens_row h1 hlen]

theorem engineRun_front (ops : FloatOps F) (lim : BzLimits) (bprog : List BzRec) (tprog : List TlRec) (fuel : Nat) (σ : Nat → Nat → Cell F) :
    ∀ (k : Nat) (s : BzMon F × Flat), engineRun ops lim bprog tprog fuel σ (k + 1) s =
      ((BzMon.pass ops lim (σ 0) bprog s.1).bind fun m =>
        (Flat.loop tprog fuel { s.2 with atoms := m.atoms }).map fun F' => ({ m with time := m.time + 1 }, F')).bind
      (engineRun ops lim bprog tprog fuel (fun t => σ (t + 1)) k)
  | 0, s => by
      simp only [engineRun, Option.bind_some]
      exact (Option.bind_fun_some _).symm
  | k + 1, s => by
      rw [engineRun, engineRun_front ops lim bprog tprog fuel σ k s, Option.bind_assoc]
      rfl

theorem mainLoopBz_rows {ops : FloatOps F} {lim : BzLimits} {size w : Nat} (bprog : List BzRec) (tprog : List TlRec) (fuel : Nat) :
    ∀ (rows : List (List (List Char))) (n : Nat) (S : BzState F) (σ : Nat → Nat → Cell F), Rows size w rows → Gives readF w rows σ →
      w ≤ lim.signals → (∀ i, w ≤ i → S.sig i = .int 0) → rows.length < n →
      (mainLoopBz ops readF lim size bprog tprog fuel n S (rows.flatMap row)).map (fun S => (S.bz, S.tl)) =
        engineRun ops lim bprog tprog fuel σ rows.length (S.bz, S.tl)
  | [], n, S, σ, _, _, _, _, hn => by
      obtain ⟨m, rfl⟩ : ∃ m, n = m + 1 := ⟨n - 1, by simp at hn; omega⟩
      simp [mainLoopBz, loadNextBz, fgets, engineRun]
  | r :: rows, n, S, σ, hr, hg, hw, hf, hn => by
      obtain ⟨m, rfl⟩ : ∃ m, n = m + 1 := ⟨n - 1, by simp at hn; omega⟩
      have h4 := hr.width r (by simp)
      have hrow : loadRowBz lim readF S r = some (some { S with sig := σ 0 }) :=
        loadRowBz_eq (hr.plain r (by simp)) (by omega) (hg.value 0 r rfl) (fun i hi => by
          rw [hf i (by omega), hg.zero 0 (by simp) i (by omega)])
      simp only [mainLoopBz, List.flatMap_cons, loadNextBz_fields hr.lines, hrow, Option.map_some, Option.bind_some, List.length_cons, engineRun_front,
        stepBz]
      cases hb : BzMon.pass ops lim (σ 0) bprog S.bz with
      | none => rfl
      | some b =>
        simp only [Option.bind_some]
        cases hl : Flat.loop tprog fuel { S.tl with atoms := b.atoms } with
        | none => rfl
        | some G =>
          simp only [Option.map_some, Option.bind_some]
          exact mainLoopBz_rows bprog tprog fuel rows m _ (fun t => σ (t + 1)) ⟨fun r h => hr.width r (by simp [h]), fun r h => hr.fields r (by simp [h]),
            fun r h => hr.plain r (by simp [h]), fun r h => hr.fits r (by simp [h])⟩
            ⟨fun t r h => hg.value (t + 1) r (by simpa using h), fun t h => hg.zero (t + 1) (by simpa using h)⟩ hw
            (fun i hi => hg.zero 0 (by simp) i hi) (by simpa using hn)

theorem mainLoopBz_csv {ops : FloatOps F} {lim : BzLimits} {size w : Nat} (bprog : List BzRec) (tprog : List TlRec) (fuel : Nat)
    {header : Option (List Char)} (hh : ∀ h, header = some h → Header size h)
    {rows : List (List (List Char))} {S : BzState F} {σ : Nat → Nat → Cell F} (hr : Rows size w rows) (hg : Gives readF w rows σ)
    (hw : w ≤ lim.signals) (hf : ∀ i, w ≤ i → S.sig i = .int 0) (ht : S.tl.time = 0) :
    (mainLoopBz ops readF lim size bprog tprog fuel ((csv header rows).length + 1) S (csv header rows)).map (fun S => (S.bz, S.tl)) =
      engineRun ops lim bprog tprog fuel σ rows.length (S.bz, S.tl) := by
  have hl := length_rows rows
  have hn : rows.length < (csv header rows).length + 1 := by simp only [csv, List.length_append]; omega
  rw [← mainLoopBz_rows (w := w) (size := size) bprog tprog fuel rows _ S σ hr hg hw hf hn]
  congr 1
  cases header with
  | none => rfl
  | some h =>
    obtain ⟨h1, h2⟩ := hh h rfl
    have e : csv (some h) rows = ('#' :: h) ++ '\n' :: rows.flatMap row := by simp [csv]
    have k : loadNextBz lim readF size S (csv (some h) rows) = loadNextBz lim readF size S (rows.flatMap row) := by
      rw [e]
      unfold loadNextBz
      have hd : ((('#' :: h) ++ ['\n']).takeWhile (· ≠ '\x00')).head? = some '#' := by
        simp
      rw [fgets_line (by simp [h1]) (by simp only [List.length_cons]; omega)]
      simp only [ht, hd, and_self, if_true]
      cases rows with
      | nil => simp [fgets]
      | cons r rows =>
        have hline := body_head (hr.lines.fields r (by simp)) (hr.lines.plain r (by simp))
        simp only [List.flatMap_cons, fgets_row (hr.lines.fields r (by simp)) (hr.lines.fits r (by simp))]
        simp only [true_and, if_neg hline]
    simp only [mainLoopBz, k]

end Cli
end R2U2
