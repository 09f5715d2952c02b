import Verif.Lemmas.Csv
import Verif.Lemmas.Map
import Verif.Spec.Event
import Verif.Model.Event
import Mathlib.Data.Nat.Digits.Lemmas
/-
Reading trace files with event rows.
-/
namespace R2U2

namespace Flat

theorem loop_time {prog : List TlRec} : ∀ {n : Nat} {F F' : Flat}, F.loop prog n = some F' → F'.time = F.time + 1
  | 0, _, _, h => by cases h
  | n + 1, F, F', h => by
      unfold loop at h
      split at h
      · cases h
      · rename_i G hG
        have k := keeps_pass hG
        split at h
        · have := loop_time h; rw [this]; simp [k.time]
        · have := loop_time h; rw [this]; simp [k.time]
        · cases h; simp [k.time]

end Flat

namespace Cli

theorem strtok_space {f rest : List Char} (hne : f ≠ []) (hf : ' ' ∉ f) :
    strtok (· == ' ') (f ++ ' ' :: rest) = some (f, rest) ∧ strtok (· == ' ') f = some (f, []) := by
  obtain ⟨a, as, rfl⟩ := List.exists_cons_of_ne_nil hne
  have ha : (a == ' ') = false := by simp only [List.mem_cons, not_or] at hf; simpa using Ne.symm hf.1
  have h1 : ∀ l : List Char, ' ' ∉ l → ∀ rest, (l ++ ' ' :: rest).takeWhile (fun x => !(x == ' ')) = l ∧
      (l ++ ' ' :: rest).dropWhile (fun x => !(x == ' ')) = ' ' :: rest ∧
      l.takeWhile (fun x => !(x == ' ')) = l ∧ l.dropWhile (fun x => !(x == ' ')) = [] := by
    intro l hl rest
    induction l with
    | nil => simp
    | cons y ys ih =>
      simp only [List.mem_cons, not_or] at hl
      have := ih hl.2
      have hy : (y == ' ') = false := by simpa using Ne.symm hl.1
      simp only [List.cons_append, List.takeWhile_cons, List.dropWhile_cons, hy, Bool.not_false, if_true, this, and_self]
  obtain ⟨h2, h3, h4, h5⟩ := h1 _ hf rest
  have h6 : (a :: as ++ ' ' :: rest).dropWhile (· == ' ') = a :: as ++ ' ' :: rest := by
    simp only [List.cons_append, List.dropWhile_cons, ha, Bool.false_eq_true, if_false]
  have h7 : (a :: as).dropWhile (· == ' ') = a :: as := by
    simp only [List.dropWhile_cons, ha, Bool.false_eq_true, if_false]
  constructor
  · unfold strtok
    rw [h6]
    simp only [List.cons_append] at h2 h3 ⊢
    simp only [h2, h3, List.drop_succ_cons, List.drop_zero]
  · unfold strtok
    rw [h7]
    simp only [h4, h5, List.drop_nil]

theorem natStr_isDigit {n : Nat} {c : Char} (h : c ∈ natStr n) : isDigit c = true := Map.isDig_of_isDigit (natStr_digit h)

theorem scanU_natStr {T : Nat} (h : T < 2 ^ 32) : scanU (natStr T) = some (some T) := by
  have hd : ∀ c ∈ natStr T, isDigit c = true := fun c hc => natStr_isDigit hc
  have hw : (natStr T).takeWhile isDigit = natStr T := by
    have := List.takeWhile_append_of_pos (l₂ := []) hd
    simpa using this
  have hv : (natStr T).foldl (fun n d => n * 10 + (d.toNat - 48)) 0 = T := Map.value_natStr T
  unfold scanU
  cases hs : natStr T with
  | nil => exact absurd hs (natStr_ne_nil T)
  | cons c cs =>
    rw [hs] at hd hw hv
    simp only [hd c (by simp), if_true, hw, hv, if_pos h]

theorem natStr_length_le {n : Nat} (h : n < 1000000) : (natStr n).length ≤ 6 := by
  unfold natStr
  split
  · simp
  · rename_i h0
    have := (Nat.digits_length_le_iff (b := 10) (k := 6) (by omega) n).2 (by omega)
    simpa using this

theorem natStr_space (T : Nat) : ' ' ∉ natStr T := fun h => by
  have := natStr_isDigit h
  simp [isDigit] at this

/-- What the reader makes of a row. -/
theorem loadRow_stamp {t : Option Nat} {r : List (List Char)} {F : Flat} {w : Nat} (hw : r.length = w) (hf : ∀ f ∈ r, Field f)
    (hp : t = none → ∀ f, r.head? = some f → f.head? ≠ some '#' ∧ f.head? ≠ some '@')
    (ht : t ≠ none → ∃ f, r.head? = some f ∧ ' ' ∉ f) (hT : t.getD F.time < 2 ^ 32)
    (hl : w ≤ F.lim.atomics) (ha : ∀ i, w ≤ i → F.atoms i = false) :
    loadRow F (stamp t r) = some (some { F with time := t.getD F.time, atoms := signal [r] 0 }) := by
  cases t with
  | none =>
    simp only [stamp, Option.getD_none]
    rw [loadRow_eq (hp rfl) (by omega) (by rw [hw]; exact ha)]
  | some T =>
    obtain ⟨f, hr, hs⟩ := ht (by simp)
    cases r with
    | nil => cases hr
    | cons g fs =>
      simp only [List.head?_cons, Option.some.injEq] at hr
      subst hr
      have hg := (hf g (by simp)).1
      simp only [stamp, List.headD_cons, List.tail_cons, List.cons_append]
      simp only [loadRow, (strtok_space (natStr_ne_nil T) (natStr_space T)).1, Option.bind_some,
        scanU_natStr (T := T) (by simpa using hT)]
      rw [show strtok (fun x => x == ' ') g = some (g, []) from (strtok_space (rest := []) hg hs).2]
      simp only [Option.bind_some]
      rw [loadFields_eq _ 0 _ (by simp only [hw]; omega)]
      simp only [Option.map_some, Option.getD_some]
      congr 3
      funext k
      simp only [Nat.not_lt_zero, if_false, Nat.sub_zero, signal, List.getElem?_cons_zero, Option.bind_some]
      by_cases hk : k < (g :: fs).length
      · simp [List.getElem?_eq_getElem hk]
      · simp [List.getElem?_eq_none (Nat.le_of_not_lt hk), ha k (by omega)]

theorem stamp_field {t : Option Nat} {r : List (List Char)} (hf : ∀ f ∈ r, Field f) (ht : t ≠ none → ∃ f, r.head? = some f ∧ ' ' ∉ f) :
    ∀ f ∈ stamp t r, Field f := by
  cases t with
  | none => exact hf
  | some T =>
    obtain ⟨f, hr, hs⟩ := ht (by simp)
    cases r with
    | nil => cases hr
    | cons g fs =>
      intro x hx
      simp only [stamp, List.headD_cons, List.tail_cons, List.mem_cons] at hx
      rcases hx with rfl | hx
      · refine ⟨by simp, fun c hc => ?_⟩
        simp only [List.cons_append, List.mem_cons, List.mem_append] at hc
        rcases hc with rfl | hc | rfl | hc
        · decide
        · have := natStr_isDigit hc
          refine ⟨?_, ?_, ?_⟩ <;> rintro rfl <;> simp [isDigit] at this
        · decide
        · exact (hf g (by simp)).2 c hc
      · exact hf x (by simp [hx])

theorem Events.lines {size w : Nat} {rows : List (Option Nat × List (List Char))} (h : Events size w rows) :
    Lines size (rows.map fun x => stamp x.1 x.2) := by
  refine ⟨?_, ?_, ?_⟩
  · intro r hr
    obtain ⟨x, hx, rfl⟩ := List.mem_map.1 hr
    exact stamp_field (h.fields x hx) (h.timed x hx)
  · intro r hr f hf
    obtain ⟨⟨t, r⟩, hx, rfl⟩ := List.mem_map.1 hr
    cases t with
    | none => exact (h.plain _ hx rfl f hf).1
    | some T => simp only [stamp, List.head?_cons, Option.some.injEq] at hf; subst hf; simp
  · intro r hr
    obtain ⟨x, hx, rfl⟩ := List.mem_map.1 hr
    exact h.fits x hx

/-- The rows with their times, as the monitor sees them. -/
def seen (rows : List (Nat × List (List Char))) : List (Nat × (Nat → Bool)) := rows.map fun x => (x.1, signal [x.2] 0)

theorem mainLoop_events {size w : Nat} (prog : List TlRec) (fuel : Nat) : ∀ (rows : List (Option Nat × List (List Char))) (n : Nat) (F : Flat),
    Lines size (rows.map fun x => stamp x.1 x.2) → (∀ x ∈ rows, x.2.length = w) → (∀ x ∈ rows, ∀ f ∈ x.2, Field f) →
    (∀ x ∈ rows, x.1 = none → ∀ f, x.2.head? = some f → f.head? ≠ some '#' ∧ f.head? ≠ some '@') →
    (∀ x ∈ rows, x.1 ≠ none → ∃ f, x.2.head? = some f ∧ ' ' ∉ f) →
    (∀ x ∈ times F.time rows, x.1 < 2 ^ 32) →
    w ≤ F.lim.atomics → (∀ i, w ≤ i → F.atoms i = false) → rows.length < n →
    mainLoop size prog fuel n F ((rows.map fun x => stamp x.1 x.2).flatMap row) = Flat.runRows prog fuel (seen (times F.time rows)) F
  | [], n, F, _, _, _, _, _, _, _, _, hn => by
      obtain ⟨m, rfl⟩ : ∃ m, n = m + 1 := ⟨n - 1, by simp at hn; omega⟩
      simp [mainLoop, loadNext, fgets, Flat.runRows, times, seen]
  | (t, r) :: rows, n, F, hr, h1, h2, h3, h4, h5, hw, hf, hn => by
      obtain ⟨m, rfl⟩ : ∃ m, n = m + 1 := ⟨n - 1, by simp at hn; omega⟩
      have hm : (t, r) ∈ (t, r) :: rows := by simp
      have hx := loadRow_stamp (F := F) (h1 _ hm) (h2 _ hm) (h3 _ hm) (h4 _ hm) (h5 (t.getD F.time, r) (by simp [times])) hw hf
      simp only [mainLoop, List.map_cons, List.flatMap_cons, loadNext_fields hr, hx, Option.map_some, Option.bind_some, times, seen, Flat.runRows]
      cases hl : Flat.loop prog fuel { F with time := t.getD F.time, atoms := signal [r] 0 } with
      | none => rfl
      | some G =>
        obtain ⟨g1, g2⟩ := Flat.loop_keeps hl
        have g3 := Flat.loop_time hl
        simp only at g1 g2 g3
        simp only [Option.bind_some]
        have hd : ∀ x ∈ rows, x ∈ (t, r) :: rows := fun x hx => by simp [hx]
        have ih := mainLoop_events prog fuel rows m G
          ⟨fun r h => hr.fields r (by simp only [List.map_cons, List.mem_cons]; exact .inr h),
           fun r h => hr.plain r (by simp only [List.map_cons, List.mem_cons]; exact .inr h),
           fun r h => hr.fits r (by simp only [List.map_cons, List.mem_cons]; exact .inr h)⟩
          (fun x hx => h1 x (hd x hx)) (fun x hx => h2 x (hd x hx)) (fun x hx => h3 x (hd x hx)) (fun x hx => h4 x (hd x hx))
          (by rw [g3]; exact fun x hx => h5 x (by simp [times, hx])) (by rw [g2]; exact hw) ?_ (by simpa using hn)
        · rw [ih, g3]; rfl
        · intro i hi
          rw [g1]
          have : r.length = w := h1 _ hm
          simp [signal, List.getElem?_eq_none (show r.length ≤ i by omega)]

theorem rowsSay_congr {tr tr' : Nat → Nat → Bool} : ∀ (rows : List (Nat × (Nat → Bool))) (e : Nat), (∀ s, e ≤ s → tr s = tr' s) →
    RowsSay tr e rows → RowsSay tr' e rows
  | [], _, _, _ => trivial
  | (T, a) :: rows, e, h, hs => by
      obtain ⟨s1, s2, s3⟩ := hs
      exact ⟨s1, fun s h1 h2 => by rw [← h s h1]; exact s2 s h1 h2, rowsSay_congr rows (T + 1) (fun s h1 => h s (by omega)) s3⟩

/-- The values held say what the rows say. -/
theorem heldSignal_says : ∀ (rows : List (Nat × List (List Char))) (e : Nat), (∀ x ∈ rows, e ≤ x.1) → (rows.map (·.1)).Pairwise (· < ·) →
    RowsSay (heldSignal rows) e (seen rows)
  | [], _, _, _ => trivial
  | (T, r) :: rows, e, h, hp => by
      simp only [List.map_cons, List.pairwise_cons] at hp
      refine ⟨h _ (by simp), fun s _ h2 => ?_, ?_⟩
      · funext i
        simp [heldSignal, h2]
      · have ih := heldSignal_says rows (T + 1) (fun x hx => hp.1 x.1 (List.mem_map.2 ⟨x, hx, rfl⟩)) hp.2
        refine rowsSay_congr _ _ (fun s hs => ?_) ih
        funext i
        have : ¬ s ≤ T := by omega
        simp [heldSignal, this]

theorem rowsEnd_seen : ∀ (rows : List (Nat × List (List Char))) (e : Nat), rowsEnd e (seen rows) = if rows = [] then e else extent rows
  | [], e => rfl
  | (T, r) :: rows, e => by
      have ih := rowsEnd_seen rows (T + 1)
      simp only [seen, List.map_cons, rowsEnd] at ih ⊢
      rw [ih]
      cases rows with
      | nil => simp [extent]
      | cons y ys => simp [extent, List.getLast?_cons_cons]

theorem extent_seen (rows : List (Nat × List (List Char))) : rowsEnd 0 (seen rows) = extent rows := by
  rw [rowsEnd_seen]
  cases rows <;> simp [extent]

theorem extent_bound : ∀ (rows : List (Nat × List (List Char))), (rows.map (·.1)).Pairwise (· < ·) → ∀ x ∈ rows, x.1 < extent rows := by
  intro rows hp x hx
  unfold extent
  cases hg : rows.getLast? with
  | none => rw [List.getLast?_eq_none_iff.1 hg] at hx; cases hx
  | some y =>
    obtain ⟨ys, rfl⟩ := List.getLast?_eq_some_iff.1 hg
    simp only [List.map_append, List.pairwise_append] at hp
    simp only [List.mem_append, List.mem_singleton] at hx
    rcases hx with hx | rfl
    · have := hp.2.2 x.1 (List.mem_map.2 ⟨x, hx, rfl⟩) y.1 (by simp)
      simp only; omega
    · simp

theorem mainLoop_eventFile {size w : Nat} (prog : List TlRec) (fuel : Nat) {header : Option (List Char)} (hh : ∀ h, header = some h → Header size h)
    {rows : List (Option Nat × List (List Char))} (hr : Events size w rows) {F : Flat} (hw : w ≤ F.lim.atomics)
    (hf : ∀ i, w ≤ i → F.atoms i = false) (ht : F.time = 0) (hT : extent (times 0 rows) ≤ 2 ^ 32) :
    mainLoop size prog fuel ((eventFile header rows).length + 1) F (eventFile header rows) =
      Flat.runRows prog fuel (seen (times 0 rows)) F := by
  have hl := length_rows (rows.map fun x => stamp x.1 x.2)
  unfold eventFile
  rw [mainLoop_header prog fuel _ hh hr.lines ht, ← ht]
  refine mainLoop_events prog fuel rows _ F hr.lines hr.width hr.fields hr.plain hr.timed ?_ hw hf ?_
  · rw [ht]
    intro x hx
    have := extent_bound _ hr.order x hx
    omega
  · rw [List.length_map] at hl
    simp only [csv, List.length_append]
    omega

end Cli
end R2U2
