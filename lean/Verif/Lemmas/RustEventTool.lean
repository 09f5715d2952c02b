import Verif.Lemmas.RustEvent
import Verif.Lemmas.RustStamps
import Verif.Spec.RustEvent
/-
Records with times in the command line tool of the Rust monitor.
-/
namespace R2U2
namespace Rs
namespace Tool
variable {F : Type} {ops : Ops F} {readF : List Char → Option F}

/-- The clock is set. -/
def setTime (T : Nat) (S : Full F) : Full F := { S with tl := { S.tl with time := T }, bz := { S.bz with time := T } }

theorem setTime_at {S : Full F} {t : Nat} (hs : S.At t) : setTime t S = S := by
  obtain ⟨tl, bz, prog⟩ := S
  obtain ⟨h1, h2⟩ := hs
  simp only at h1 h2
  subst h1
  cases bz
  simp only at h2
  subst h2
  rfl

theorem record_setTime {lim : BzLimits} {st : State F} {t : Nat} (ht : t < 2 ^ 32) (r : List (List Char))
    (hr : ∀ f, r.head? = some f → f.head? ≠ some '@') : record lim readF st (withStamp t r) = record lim readF ⟨setTime t st.mon, st.sig⟩ r := by
  cases r with
  | nil => rfl
  | cons f fs =>
    have hi : ('@' :: (natStr t ++ ' ' :: f)).idxOf? ' ' = some ((natStr t).length + 1) := idxOf_stamp t f
    have e1 : (('@' :: (natStr t ++ ' ' :: f)).take ((natStr t).length + 1)).drop 1 = natStr t := by simp
    have e2 : ('@' :: (natStr t ++ ' ' :: f)).drop ((natStr t).length + 1 + 1) = f := by
      rw [List.drop_succ_cons, List.drop_append]
      simp
    simp only [withStamp, record]
    rw [if_pos (by rfl), if_neg (hr f rfl), hi, Option.getD_some, e1, e2, parseU32_natStr ht]
    rw [if_pos (by simp)]
    rfl

theorem timed_plain {r : List (List Char)} {a : Nat → Bool}
    (hv : ∀ i f, r[i]? = some f → ∃ v : Int, -(2 ^ 31) ≤ v ∧ v < 2 ^ 31 ∧ f = Cli.intText v ∧ (a i = true ↔ v ≠ 0)) :
    ∀ f, r.head? = some f → f.head? ≠ some '@' := by
  intro f hf
  obtain ⟨v, _, _, rfl, _⟩ := hv 0 f (by rw [← List.head?_eq_getElem?]; exact hf)
  unfold Cli.intText
  split
  · simp
  · intro h
    exact absurd (Cli.natStr_isDigit (List.mem_of_head? h)) (by decide)

/-- Without the booleanizer the tool prints what the temporal engine reports on the rows. -/
theorem steps_rows {lim : BzLimits} {fuel w : Nat} (h0 : 0 < w) (hw : w ≤ lim.atomics) {sig : Signals F} : ∀ (rows : List (Option Nat × List (List Char)))
    (seen : List (Nat × (Nat → Bool))) (e : Nat) (S : Full F) (M : Monitor) (outs : List (List (Nat × Verdict))), Timed w e rows seen → S.At e → S.prog = [] →
    S.bz.overflow = false → (∀ j, w ≤ j → S.bz.atoms j = false) → (∀ x ∈ seen, x.1 < maxTime) → S.tl.runRows fuel seen = some (M, outs) →
    steps ops lim readF fuel (rows.map recordOf) ⟨S, sig⟩ = some (outs.map fun o => (o, true))
  | [], [], _, _, _, _, _, _, _, _, _, _, h => by cases h; rfl
  | [], _ :: _, _, _, _, _, ht, _, _, _, _, _, _ => ht.elim
  | _ :: _, [], _, _, _, _, ht, _, _, _, _, _, _ => ht.elim
  | (t, r) :: rows, (T, a) :: seen, e, S, M, outs, ht, hs, hp, ho, ha, hm, h => by
      obtain ⟨rfl, t2, t3, t4, t5, t6⟩ := ht
      have hT := hm _ (List.mem_cons_self ..)
      simp only at hT
      have hplain := timed_plain t4
      have hr0 : record lim readF ⟨S, sig⟩ (recordOf (t, r)) = record lim readF ⟨setTime (t.getD e) S, sig⟩ r := by
        cases t with
        | none =>
          show record lim readF ⟨S, sig⟩ r = record lim readF ⟨setTime e S, sig⟩ r
          rw [setTime_at hs]
        | some T => exact record_setTime (by simp only [Option.getD_some] at hT; unfold maxTime at hT; omega) r hplain
      generalize t.getD e = T at *
      obtain ⟨at', r1, r2⟩ := loadFrom_bits (readF := readF) (lim := lim) (β := a) (sig := sig) r 0 (setTime T S) hp (by omega)
        (fun i f hf => by simpa using t4 i f hf)
      have hβ : at' = a := by
        funext j
        by_cases hj : j < w
        · exact (r2 j).1 (by omega) (by omega)
        · rw [(r2 j).2 (by omega), t5 j (by omega)]
          exact ha j (by omega)
      have hrec : record lim readF ⟨S, sig⟩ (recordOf (t, r)) = some ⟨withAtoms (setTime T S) a, sig⟩ := by
        rw [hr0, ← hβ, ← r1]
        cases r with
        | nil => simp at t3; omega
        | cons f fs =>
          simp only [record, if_neg (hplain f rfl)]
          rfl
      simp only [Monitor.runRows, Option.bind_eq_some_iff, Option.map_eq_some_iff] at h
      obtain ⟨M1, h1, ⟨M2, outs'⟩, h2, h3⟩ := h
      cases h3
      have htime : M1.time = T + 1 := Monitor.loop_time fuel (M := { S.tl with time := T, idx := 0, atoms := a }) hT h1
      have hstep : (withAtoms (setTime T S) a).step ops lim fuel sig = some (⟨M1, { (withAtoms (setTime T S) a).bz with time := M1.time }, []⟩, true) := by
        have hp' : (withAtoms (setTime T S) a).prog = [] := hp
        have ho' : (withAtoms (setTime T S) a).bz.overflow = false := ho
        have h1' : (withAtoms (setTime T S) a).tl.step fuel (withAtoms (setTime T S) a).bz.atoms = some M1 := h1
        simp only [Full.step, hp', BzMon.pass, Option.bind_some, h1', Option.map_some, ho', Bool.not_false]
      have ih := steps_rows h0 hw (sig := sig) rows seen (T + 1) ⟨M1, { (withAtoms (setTime T S) a).bz with time := M1.time }, []⟩ M2 outs' t6 ⟨htime, htime⟩ rfl ho
        (fun j hj => t5 j hj) (fun x hx => hm x (by simp [hx])) h2
      simp only [List.map_cons, steps, hrec, Option.bind_some, hstep, ih, Option.map_some]

end Tool
end Rs
end R2U2
