import Verif.Lemmas.RustRun
import Verif.Lemmas.RustLoad
import Verif.Props.Monitor
/-
C66: the Rust monitor.
-/
namespace R2U2
open Rs

/-- C66 for programs of future-time operators, once and historically: a loaded Rust monitor never panics (`Rs.Monitor.run` is
`none` on any panic: an index outside an array, a subtraction below zero, an overflow of 32 bits) and every time step
ends; what is read from the output buffer after each step is right, complete within the worst-case delays, and not
early.  Missing: the general since and trigger (the operators compute what those of the C monitor compute, `C45_since_fails`,
`C45_trigger_fails`), the booleanizer, an output buffer smaller than the number of verdicts a step can
have (`C67_outputs_fail`), and times near `2 ^ 32`. -/
theorem C66_rust_verdicts_partial (S : Setup) (ok : S.Ok) (hl : S.lang = .rust) (all : ∀ i, i < S.prog.length → S.own i)
    (M : Rs.Monitor) (ld : Loaded S M) (tb : Rs.InTable S.prog M.lim) (pl : Rs.Placed S.prog.length M.lim M.blocks)
    (cap : S.reportsPerStep S.prog.length ≤ M.lim.outputs) :
    ∃ bound, ∀ fuel, bound ≤ fuel → ∀ (tr : Nat → Nat → Bool) (k : Nat), k < 2 ^ 32 →
      (∀ i, i < S.prog.length → (k : Int) < 2 ^ 32 + S.B i) →
      ∃ M' out, M.run fuel tr k = some (M', out) ∧
        ∀ V, S.Means tr V → ∀ (i : Nat) (r : TlRec), S.prog[i]? = some r → r.opcode = some .ret →
          Answers (V i) (Rs.reports out r.v2) ∧
          (∀ s, s + S.W i < k → ∃ v ∈ Rs.reports out r.v2, s ≤ v.time) ∧
          (∀ v ∈ Rs.reports out r.v2, (v.time : Int) + S.B i < k) := by
  obtain ⟨bound, hb⟩ := C45_ends_partial S ok all
  refine ⟨bound, fun fuel hf tr k hk hkB => ?_⟩
  obtain ⟨m, hm⟩ := hb fuel hf tr k
  obtain ⟨M', h1, _, _⟩ := run_sim ok hl all ld tb pl cap (N := 2 ^ 32 - 2) (by unfold maxTime; omega) fuel k m (by omega)
    (fun i hi => by have := hkB i hi; omega) hm
  refine ⟨M', m.out, h1, fun V hV i r hr hret => ?_⟩
  have ho := all i (List.getElem?_eq_some_iff.1 hr).1
  have h2 := C46_verdicts_partial S ok tr V hV fuel k m hm i r hr ho hret
  exact ⟨C45_verdicts_partial S ok tr V hV fuel k m hm i r hr ho hret, h2.1, h2.2⟩

/-- `exSetup` for the Rust monitor: `a U[1,3] (b & !a)`. -/
def rustSetup : Setup := { exSetup with lang := .rust }

theorem Setup.Ok.lang {S : Setup} (ok : S.Ok) (l : Lang) : ({ S with lang := l } : Setup).Ok := by
  obtain ⟨a1, a2, a3, a4, a5, a6, a7, a8, a9, a10, a11, a12, a13⟩ := ok
  exact ⟨a1, a2, a3, a4, a5, a6, a7, a8, a9, a10, a11, a12, a13⟩

/-- The monitor with arrays of the default sizes (internals/bounds.rs) after loading `rustSetup`. -/
def rustMonitor : Rs.Monitor :=
  { Rs.Monitor.dflt ⟨256, 2048, 256, 256, 256⟩ with
    table := fun k => rustSetup.prog.getD k emptyInstr, max := 6
    blocks := fun k => if k < 6 then ⟨1, 0, 0, 0, if k = 4 then 1 else 0, if k = 4 then 1 else maxTime, if k = 4 then 3 else maxTime, ⟨false, 0⟩, ⟨false, 0⟩, k⟩ else .dflt }

/-- The hypotheses are met. -/
example : rustSetup.Ok ∧ rustSetup.lang = .rust ∧ Loaded rustSetup rustMonitor ∧ Rs.InTable rustSetup.prog rustMonitor.lim ∧
    Rs.Placed rustSetup.prog.length rustMonitor.lim rustMonitor.blocks ∧ rustSetup.reportsPerStep rustSetup.prog.length ≤ rustMonitor.lim.outputs := by
  refine ⟨exSetup_ok.lang _, rfl, ⟨rfl, rfl, rfl, fun _ => rfl, ?_, ?_⟩, ⟨?_, ?_, ?_, by decide⟩, ⟨?_, ?_, ?_⟩, by decide⟩
  · intro i r hr
    rcases i with _ | _ | _ | _ | _ | _ | i <;> simp [rustSetup, exSetup] at hr <;> subst hr <;> decide
  · intro i r hr ht
    rcases i with _ | _ | _ | _ | _ | _ | i <;> simp [rustSetup, exSetup] at hr <;> subst hr <;> revert ht <;> decide
  · intro i r hr
    rcases i with _ | _ | _ | _ | _ | _ | i <;> simp [rustSetup, exSetup] at hr <;> subst hr <;> rfl
  · intro i r k c hr hk
    rcases i with _ | _ | _ | _ | _ | _ | i <;> simp [rustSetup, exSetup] at hr <;> subst hr <;> cases k <;> simp [TlRec.Reads] at hk <;>
      subst hk <;> decide
  · intro i r k c hr hk
    rcases i with _ | _ | _ | _ | _ | _ | i <;> simp [rustSetup, exSetup] at hr <;> subst hr <;> cases k <;> simp [TlRec.ReadsAtom] at hk <;>
      subst hk <;> decide
  · intro i hi
    simp only [rustMonitor, if_pos (show i < 6 from hi)]; decide
  · intro i hi
    simp only [rustMonitor, if_pos (show i < 6 from hi), Rs.Monitor.dflt]
    have : i < 6 := hi
    omega
  · intro i j hij hj
    simp only [rustMonitor, if_pos (show j < 6 from hj), if_pos (show i < 6 from lt_trans hij hj)]
    omega

/-- What is read in five time steps, where `a` holds at 1, 2 and 3, and `b` at 3 and 4. -/
example : (rustMonitor.run 50 (fun t a => if a = 0 then decide (1 ≤ t ∧ t ≤ 3) else decide (3 ≤ t)) 5).map (fun x => Rs.reports x.2 7) =
    some [⟨false, 0⟩, ⟨true, 3⟩] := by decide +kernel

end R2U2
