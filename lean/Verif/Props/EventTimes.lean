import Verif.Props.RustEvent
import Verif.Props.RustStamps
import Verif.Model.Names
/-
C72, C73, C78, C79.  It does not matter which of the rows of a trace have their times written.
-/
namespace R2U2
variable {F : Type}

/-- C72.  On every binary, the C monitor prints the same for two trace files with the same values at the same times, whichever of the rows have
their times written (a row without a time is one step after the row before), and with or without headers. -/
theorem C72_same_times (size : Nat) (lim : Limits) (fuel : Nat) (spec : List Nat) (w : Nat) (hw : w ≤ lim.atomics) (header header' : Option (List Char))
    (hh : ∀ h, header = some h → Cli.Header size h) (hh' : ∀ h, header' = some h → Cli.Header size h)
    (rows rows' : List (Option Nat × List (List Char))) (hr : Cli.Events size w rows) (hr' : Cli.Events size w rows')
    (same : Cli.times 0 rows = Cli.times 0 rows') (hT : Cli.extent (Cli.times 0 rows) ≤ 2 ^ 32) :
    Cli.main size lim fuel spec (Cli.eventFile header rows) = Cli.main size lim fuel spec (Cli.eventFile header' rows') := by
  unfold Cli.main
  refine Option.bind_congr fun x _ => Option.bind_congr fun G hG => ?_
  obtain ⟨k1, k2, k3⟩ := Flat.start_keeps hG
  rw [Cli.mainLoop_eventFile _ _ hh hr (by rw [k2]; exact hw) (by simp [k1]) k3 hT,
    Cli.mainLoop_eventFile _ _ hh' hr' (by rw [k2]; exact hw) (by simp [k1]) k3 (by rw [← same]; exact hT), same]

/-- C73.  The same with names and contracts. -/
theorem C73_same_times (size : Nat) (lim : Limits) (alim : Aux.Lim) (fuel : Nat) (spec : List Nat) (w : Nat) (hw : w ≤ lim.atomics) (header header' : Option (List Char))
    (hh : ∀ h, header = some h → Cli.Header size h) (hh' : ∀ h, header' = some h → Cli.Header size h)
    (rows rows' : List (Option Nat × List (List Char))) (hr : Cli.Events size w rows) (hr' : Cli.Events size w rows')
    (same : Cli.times 0 rows = Cli.times 0 rows') (hT : Cli.extent (Cli.times 0 rows) ≤ 2 ^ 32) :
    Aux.main size lim alim fuel spec (Cli.eventFile header rows) = Aux.main size lim alim fuel spec (Cli.eventFile header' rows') := by
  unfold Aux.main
  refine Option.bind_congr fun x _ => Option.bind_congr fun G hG => Option.bind_congr fun A _ => ?_
  obtain ⟨k1, k2, k3⟩ := Flat.start_keeps hG
  rw [Cli.mainLoop_eventFile _ _ hh hr (by rw [k2]; exact hw) (by simp [k1]) k3 hT,
    Cli.mainLoop_eventFile _ _ hh' hr' (by rw [k2]; exact hw) (by simp [k1]) k3 (by rw [← same]; exact hT), same]

/-- Two trace files that meet the hypotheses. -/
example : Cli.times 0 [(none, ["1".toList]), (some 5, ["0".toList]), (none, ["1".toList])] =
      Cli.times 0 [(some 0, ["1".toList]), (some 5, ["0".toList]), (some 6, ["1".toList])] ∧
    Cli.Events 1024 1 [(none, ["1".toList]), (some 5, ["0".toList]), (none, ["1".toList])] ∧
    Cli.Events 1024 1 [(some 0, ["1".toList]), (some 5, ["0".toList]), (some 6, ["1".toList])] ∧
    Cli.extent (Cli.times 0 [(none, ["1".toList]), (some 5, ["0".toList]), (none, ["1".toList])]) ≤ 2 ^ 32 ∧
    Cli.eventFile none [(none, ["1".toList]), (some 5, ["0".toList]), (none, ["1".toList])] = "1\n@5 0\n1\n".toList ∧
    Cli.eventFile none [(some 0, ["1".toList]), (some 5, ["0".toList]), (some 6, ["1".toList])] = "@0 1\n@5 0\n@6 1\n".toList := by
  refine ⟨by decide, ⟨by simp, ?_, ?_, ?_, by decide, by decide⟩, ⟨by simp, ?_, by simp, ?_, by decide, by decide⟩, by decide, by decide, by decide⟩
  all_goals simp [Cli.Field]

namespace Rs
namespace Tool
variable {ops : Ops F} {readF : List Char → Option F}

theorem record_recordOf {lim : BzLimits} {st : State F} {e : Nat} (hs : st.mon.At e) {t : Option Nat} (ht : t.getD e < 2 ^ 32) {r : List (List Char)}
    (hr : ∀ f, r.head? = some f → f.head? ≠ some '@') : record lim readF st (recordOf (t, r)) = record lim readF ⟨setTime (t.getD e) st.mon, st.sig⟩ r := by
  cases t with
  | none =>
    show record lim readF st r = record lim readF ⟨setTime e st.mon, st.sig⟩ r
    rw [setTime_at hs]
  | some T => exact record_setTime ht r hr

theorem loop_times {lim : BzLimits} {fuel : Nat} : ∀ (rows rows' : List (Option Nat × List (List Char))) (e : Nat) (st : State F),
    Cli.times e rows = Cli.times e rows' → Unstamped (rows.map (·.2)) → (∀ x ∈ Cli.times e rows, x.1 + 1 < 2 ^ 32) → st.mon.At e →
    loop ops lim readF fuel (rows.map recordOf) st = loop ops lim readF fuel (rows'.map recordOf) st
  | [], [], _, _, _, _, _, _ => rfl
  | [], _ :: _, _, _, h, _, _, _ => by simp [Cli.times] at h
  | _ :: _, [], _, _, h, _, _, _ => by simp [Cli.times] at h
  | (t, r) :: rows, (t', r') :: rows', e, st, h, hu, hT, hs => by
      simp only [Cli.times, List.cons.injEq, Prod.mk.injEq] at h
      obtain ⟨⟨h1, rfl⟩, h2⟩ := h
      have ht := hT (t.getD e, r) (by simp [Cli.times])
      simp only at ht
      have hr : ∀ f, r.head? = some f → f.head? ≠ some '@' := hu r (by simp)
      simp only [List.map_cons, loop]
      rw [record_recordOf hs (by omega) hr, record_recordOf hs (by omega) hr, ← h1]
      refine Option.bind_congr fun st1 g1 => Option.bind_congr fun x g2 => ?_
      rw [loop_times rows rows' (t.getD e + 1) _ (by rw [h2, h1]) (fun q hq => hu q (by simp at hq ⊢; exact .inr hq))
        (fun q hq => hT q (by simp [Cli.times, hq])) (Full.step_at (record_at (t := t.getD e) hr ⟨rfl, rfl⟩ g1) (by omega) g2)]

end Tool

namespace Names
variable {ops : Ops F} {readF : List Char → Option F}

theorem loop_times {lim : BzLimits} {alim : Lim} {A : Info} {ea dc : Bool} {fuel : Nat} : ∀ (rows rows' : List (Option Nat × List (List Char))) (e : Nat) (st : Tool.State F),
    Cli.times e rows = Cli.times e rows' → Tool.Unstamped (rows.map (·.2)) → (∀ x ∈ Cli.times e rows, x.1 + 1 < 2 ^ 32) → st.mon.At e →
    loop ops lim alim A ea dc readF fuel (rows.map Tool.recordOf) st = loop ops lim alim A ea dc readF fuel (rows'.map Tool.recordOf) st
  | [], [], _, _, _, _, _, _ => rfl
  | [], _ :: _, _, _, h, _, _, _ => by simp [Cli.times] at h
  | _ :: _, [], _, _, h, _, _, _ => by simp [Cli.times] at h
  | (t, r) :: rows, (t', r') :: rows', e, st, h, hu, hT, hs => by
      simp only [Cli.times, List.cons.injEq, Prod.mk.injEq] at h
      obtain ⟨⟨h1, rfl⟩, h2⟩ := h
      have ht := hT (t.getD e, r) (by simp [Cli.times])
      simp only at ht
      have hr : ∀ f, r.head? = some f → f.head? ≠ some '@' := hu r (by simp)
      simp only [List.map_cons, loop]
      rw [Tool.record_recordOf hs (by omega) hr, Tool.record_recordOf hs (by omega) hr, ← h1]
      refine Option.bind_congr fun st1 g1 => Option.bind_congr fun x g2 => ?_
      rw [loop_times rows rows' (t.getD e + 1) _ (by rw [h2, h1]) (fun q hq => hu q (by simp at hq ⊢; exact .inr hq))
        (fun q hq => hT q (by simp [Cli.times, hq])) (Full.step_at (Tool.record_at (t := t.getD e) hr ⟨rfl, rfl⟩ g1) (by omega) g2)]

end Names
end Rs

/-- C78.  On every binary, with or without the booleanizer, the Rust tool prints the same for two traces with the same values at the same times, whichever of the
records have their times written; the times need not increase. -/
theorem C78_same_times (ops : Rs.Ops F) (readF : List Char → Option F) (lim : Rs.Limits) (nsig fuel : Nat) (bytes : List Nat)
    (rows rows' : List (Option Nat × List (List Char))) (same : Cli.times 0 rows = Cli.times 0 rows')
    (hu : Rs.Tool.Unstamped (rows.map (·.2))) (hT : ∀ x ∈ Cli.times 0 rows, x.1 + 1 < 2 ^ 32) :
    Rs.Tool.run ops readF lim nsig fuel bytes (rows.map Rs.Tool.recordOf) = Rs.Tool.run ops readF lim nsig fuel bytes (rows'.map Rs.Tool.recordOf) := by
  unfold Rs.Tool.run
  exact Option.bind_congr fun S hS => Rs.Tool.loop_times rows rows' 0 _ same hu hT (Rs.getFull_at hS)

/-- C79.  The same with names and contracts. -/
theorem C79_same_times (ops : Rs.Ops F) (readF : List Char → Option F) (lim : Rs.Limits) (alim : Rs.Names.Lim) (ea dc : Bool) (nsig fuel : Nat) (bytes : List Nat)
    (rows rows' : List (Option Nat × List (List Char))) (same : Cli.times 0 rows = Cli.times 0 rows')
    (hu : Rs.Tool.Unstamped (rows.map (·.2))) (hT : ∀ x ∈ Cli.times 0 rows, x.1 + 1 < 2 ^ 32) :
    Rs.Names.run ops readF lim alim ea dc nsig fuel bytes (rows.map Rs.Tool.recordOf) =
      Rs.Names.run ops readF lim alim ea dc nsig fuel bytes (rows'.map Rs.Tool.recordOf) := by
  unfold Rs.Names.run
  exact Option.bind_congr fun S hS => Option.bind_congr fun A _ => Rs.Names.loop_times rows rows' 0 _ same hu hT (Rs.getFull_at hS)

/-- The hypotheses hold of two traces, and the tool prints verdicts for them. -/
example : Cli.times 0 [(none, ["1".toList]), (some 5, ["7".toList]), (none, ["3".toList])] =
      Cli.times 0 [(some 0, ["1".toList]), (some 5, ["7".toList]), (some 6, ["3".toList])] ∧
    Rs.Tool.Unstamped ([(none, ["1".toList]), (some 5, ["7".toList]), (none, ["3".toList])].map fun x : Option Nat × List (List Char) => x.2) ∧
    (∀ x ∈ Cli.times 0 [(none, ["1".toList]), (some 5, ["7".toList]), (none, ["3".toList])], x.1 + 1 < 2 ^ 32) ∧
    twoRun ([(some 0, ["1".toList]), (some 5, ["7".toList]), (some 6, ["3".toList])].map Rs.Tool.recordOf) =
      some "0:0,F\n1:0,F\n0:5,T\n1:5,T\n0:6,T\n1:6,F\n".toList := by
  refine ⟨by decide, ?_, by decide, by decide +kernel⟩
  intro r hr f hf
  simp only [List.map_cons, List.map_nil, List.mem_cons, List.not_mem_nil, or_false] at hr
  rcases hr with rfl | rfl | rfl <;> simp at hf <;> subst hf <;> decide

end R2U2
