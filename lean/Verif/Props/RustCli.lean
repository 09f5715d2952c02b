import Verif.Lemmas.RustCli
import Verif.Props.RustFloats
import Verif.Props.BzCsv
/-
C78.  The command line tool of the Rust monitor on a compiled program over numeric expressions and on a trace.
-/
namespace R2U2
open Heap Expr GraphPass
variable {α F : Type}

theorem rust_steps {f : α → Ast} {o : CliOpts} {b : BackEnd} (hA : BzAtoms f b.sid b.bits b.signals)
    (hsep : AtomsSeparate f) (hdes : ∀ a, Desugared false (f a)) {h : Heap Lab} {n ft pt fuel : Nat} {fs ps : List (SpecOf α)}
    (hp : Program f h n ft pt fs ps) (hx : Apart h ft pt) (hnum : ((fs ++ ps).map (·.2.1)).Nodup)
    (hfs : ∀ s ∈ fs, Fit o false s.2.2) (hps : ∀ s ∈ ps, Fit o true s.2.2)
    (hkf : ∀ s ∈ fs, span false s.2.2 ≤ b.slack) (hkp : ∀ s ∈ ps, span true s.2.2 ≤ b.slack)
    {ty : Ast → Bool} (hty : ∀ g n', compileG o fuel ft pt (h, n) = some (g, n') → TypedAs f ty b.ty g) (hne : Rs.NoFloatNe f ty)
    (haux : ∀ x ∈ b.aux, x < 256)
    {bytes : List Nat} {bounds : Bounds} (hc : compileBinaryBz o b fuel ft pt (h, n) = some (bytes, bounds)) (hbz : Rs.Tool.UsesBz bytes)
    (lim : Rs.Limits) (hlim : Rs.Covers lim bounds) (hlb : bounds.maxBz ≤ lim.bz) (nsig : Nat) (hns : bounds.maxSignals ≤ nsig)
    (hcap : (fs.map fun s => span false s.2.2 + 1).sum + (ps.map fun s => span true s.2.2 + 1).sum ≤ lim.outputs)
    (ops : Rs.Ops F) (hops : Rs.Symmetric ops) (readF : List Char → Option F) :
    ∃ bound, ∀ fuel, bound ≤ fuel → ∀ (rows : List (List (List Char))) (w : Nat) (σ : Nat → Nat → Cell F), w ≤ nsig →
      Rs.Tool.Gives ops readF w rows σ → rows.length + b.slack < 2 ^ 32 →
      (∀ t, t < rows.length → ∀ a, (∀ e, Tree.Within e (f a) → ∃ v, Ast.RsValue ops ty b.bits (fun t s => σ t (b.sid s).toNat) t e v) ∧
        ∃ i, Ast.RsValue ops ty b.bits (fun t s => σ t (b.sid s).toNat) t (f a) (.int i)) →
      ∃ (S0 : Rs.Full F) (outs : List (List (Nat × Verdict))), Rs.getFull ops lim nsig fuel bytes = some S0 ∧
        Rs.Tool.steps ops (lim.bzLimits nsig) readF fuel rows ⟨S0, fun _ => (0, ops.zero)⟩ = some (outs.map fun o => (o, true)) ∧
        (∀ s ∈ fs, Answers (sat (fun t a => ∃ i, i ≠ 0 ∧ Ast.RsValue ops ty b.bits (fun t s => σ t (b.sid s).toNat) t (f a) (.int i)) s.2.2)
            (Rs.reports outs.flatten s.2.1) ∧
          ∀ t, t + span false s.2.2 < rows.length → ∃ v ∈ Rs.reports outs.flatten s.2.1, t ≤ v.time) ∧
        (∀ s ∈ ps, Answers (sat (fun t a => ∃ i, i ≠ 0 ∧ Ast.RsValue ops ty b.bits (fun t s => σ t (b.sid s).toNat) t (f a) (.int i)) s.2.2)
            (Rs.reports outs.flatten s.2.1) ∧
          ∀ t, t < rows.length → ∃ v ∈ Rs.reports outs.flatten s.2.1, t ≤ v.time) := by
  obtain ⟨bound, c1⟩ := rust_floats hA hsep hdes hp hx hnum hfs hps hkf hkp hty hne haux hc lim hlim hlb nsig hns hcap ops hops
  refine ⟨bound, fun fl hfl rows w σ hw hg hT hv => ?_⟩
  obtain ⟨S0, c2, ⟨es, stop, c3, c4⟩, c5⟩ := c1 fl hfl
  have hprog : S0.prog ≠ [] := by rw [c4]; exact hbz _ _ _ c3
  obtain ⟨S, out, oks, d1, d2, d3⟩ := c5 σ (Rs.Tool.inputs (lim.bzLimits nsig) readF S0 ops.zero rows σ) rows.length
    (Rs.Tool.inputs_same hg hw hprog) hT hv
  obtain ⟨outs, o1, rfl⟩ := Rs.Tool.loop_ok hg hw hprog (fun t ht => if_pos ht) d1 (by rw [d2]; exact fun b hb => List.eq_of_mem_replicate hb)
  exact ⟨S0, outs, c2, o1, d3⟩

/-- C78.  `r2u2_cli run spec.bin trace.csv --disable-contracts`, on the binary of a specification file with expressions over integer
and floating-point signals, and on a trace without time stamps: when every expression has a value at every record, the tool
prints exactly the verdicts of the monitor, one per line, in the order of the steps; they are right, every specification with only past
operators is answered at every step, and every other specification within its delay.

Missing: time stamps that skip moments (those that count the records: `C78_counting_stamps`; for binaries without instructions for the booleanizer see
`C78_rust_command_line_signals_partial`); contracts (C79); a record on which some arithmetic
overflows (`C78_overflow_drops_fails`); what is missing in `C76_rust_floats_partial`. -/
theorem C78_rust_command_line_partial {f : α → Ast} {o : CliOpts} {b : BackEnd} (hA : BzAtoms f b.sid b.bits b.signals)
    (hsep : AtomsSeparate f) (hdes : ∀ a, Desugared false (f a)) {h : Heap Lab} {n ft pt fuel : Nat} {fs ps : List (SpecOf α)}
    (hp : Program f h n ft pt fs ps) (hx : Apart h ft pt) (hnum : ((fs ++ ps).map (·.2.1)).Nodup)
    (hfs : ∀ s ∈ fs, Fit o false s.2.2) (hps : ∀ s ∈ ps, Fit o true s.2.2)
    (hkf : ∀ s ∈ fs, span false s.2.2 ≤ b.slack) (hkp : ∀ s ∈ ps, span true s.2.2 ≤ b.slack)
    {ty : Ast → Bool} (hty : ∀ g n', compileG o fuel ft pt (h, n) = some (g, n') → TypedAs f ty b.ty g) (hne : Rs.NoFloatNe f ty)
    (haux : ∀ x ∈ b.aux, x < 256)
    {bytes : List Nat} {bounds : Bounds} (hc : compileBinaryBz o b fuel ft pt (h, n) = some (bytes, bounds)) (hbz : Rs.Tool.UsesBz bytes)
    (lim : Rs.Limits) (hlim : Rs.Covers lim bounds) (hlb : bounds.maxBz ≤ lim.bz) (nsig : Nat) (hns : bounds.maxSignals ≤ nsig)
    (hcap : (fs.map fun s => span false s.2.2 + 1).sum + (ps.map fun s => span true s.2.2 + 1).sum ≤ lim.outputs)
    (ops : Rs.Ops F) (hops : Rs.Symmetric ops) (readF : List Char → Option F) :
    ∃ bound, ∀ fuel, bound ≤ fuel → ∀ (rows : List (List (List Char))) (w : Nat) (σ : Nat → Nat → Cell F), w ≤ nsig →
      Rs.Tool.Gives ops readF w rows σ → rows.length + b.slack < 2 ^ 32 →
      (∀ t, t < rows.length → ∀ a, (∀ e, Tree.Within e (f a) → ∃ v, Ast.RsValue ops ty b.bits (fun t s => σ t (b.sid s).toNat) t e v) ∧
        ∃ i, Ast.RsValue ops ty b.bits (fun t s => σ t (b.sid s).toNat) t (f a) (.int i)) →
      ∃ out, Rs.Tool.run ops readF lim nsig fuel bytes rows = some (out.flatMap Rs.Tool.printed) ∧
        (∀ s ∈ fs, Answers (sat (fun t a => ∃ i, i ≠ 0 ∧ Ast.RsValue ops ty b.bits (fun t s => σ t (b.sid s).toNat) t (f a) (.int i)) s.2.2)
            (Rs.reports out s.2.1) ∧
          ∀ t, t + span false s.2.2 < rows.length → ∃ v ∈ Rs.reports out s.2.1, t ≤ v.time) ∧
        (∀ s ∈ ps, Answers (sat (fun t a => ∃ i, i ≠ 0 ∧ Ast.RsValue ops ty b.bits (fun t s => σ t (b.sid s).toNat) t (f a) (.int i)) s.2.2)
            (Rs.reports out s.2.1) ∧
          ∀ t, t < rows.length → ∃ v ∈ Rs.reports out s.2.1, t ≤ v.time) := by
  obtain ⟨bound, c1⟩ := rust_steps hA hsep hdes hp hx hnum hfs hps hkf hkp hty hne haux hc hbz lim hlim hlb nsig hns hcap ops hops readF
  refine ⟨bound, fun fl hfl rows w σ hw hg hT hv => ?_⟩
  obtain ⟨S0, outs, c2, c3, c4⟩ := c1 fl hfl rows w σ hw hg hT hv
  refine ⟨outs.flatten, ?_, c4⟩
  unfold Rs.Tool.run
  rw [c2, Option.bind_some, ← Rs.Tool.line_eq]
  exact Rs.Tool.loop_good c3

theorem rust_signals_steps {nm : α → String} (hnm : Function.Injective nm) (hident : ∀ a, IsIdent (nm a))
    {o : CliOpts} {b : BackEnd} {h : Heap Lab} {n ft pt fuel : Nat} {fs ps : List (SpecOf α)}
    (hp : Program (signalAtoms nm) h n ft pt fs ps) (hx : Apart h ft pt) (hnum : ((fs ++ ps).map (·.2.1)).Nodup)
    (hfs : ∀ s ∈ fs, Fit o false s.2.2) (hps : ∀ s ∈ ps, Fit o true s.2.2)
    (hkf : ∀ s ∈ fs, span false s.2.2 ≤ b.slack) (hkp : ∀ s ∈ ps, span true s.2.2 ≤ b.slack)
    (hsid : ∀ a, 0 ≤ b.sid (nm a)) (haux : ∀ x ∈ b.aux, x < 256) {bytes : List Nat} {bounds : Bounds}
    (hc : compileBinary o b fuel ft pt (h, n) = some (bytes, bounds)) (hat : ∀ a, b.sid (nm a) < bounds.maxAtomics)
    (lim : Rs.Limits) (hlim : Rs.Covers lim bounds) (nsig : Nat)
    (hcap : (fs.map fun s => span false s.2.2 + 1).sum + (ps.map fun s => span true s.2.2 + 1).sum ≤ lim.outputs)
    (ops : Rs.Ops F) (readF : List Char → Option F) :
    ∃ bound, ∀ fuel, bound ≤ fuel → ∀ (rows : List (List (List Char))) (w : Nat) (β : Nat → Nat → Bool), w ≤ lim.atomics →
      Rs.Tool.Truths w rows β → rows.length + b.slack < 2 ^ 32 →
      ∃ (S0 : Rs.Full F) (outs : List (List (Nat × Verdict))), Rs.getFull ops lim nsig fuel bytes = some S0 ∧
        Rs.Tool.steps ops (lim.bzLimits nsig) readF fuel rows ⟨S0, fun _ => (0, ops.zero)⟩ = some (outs.map fun o => (o, true)) ∧
        (∀ s ∈ fs, Answers (sat (fun t a => β t (b.sid (nm a)).toNat = true) s.2.2) (Rs.reports outs.flatten s.2.1) ∧
          ∀ t, t + span false s.2.2 < rows.length → ∃ v ∈ Rs.reports outs.flatten s.2.1, t ≤ v.time) ∧
        (∀ s ∈ ps, Answers (sat (fun t a => β t (b.sid (nm a)).toNat = true) s.2.2) (Rs.reports outs.flatten s.2.1) ∧
          ∀ t, t < rows.length → ∃ v ∈ Rs.reports outs.flatten s.2.1, t ≤ v.time) := by
  obtain ⟨⟨A, a1, a2⟩, bound, c1⟩ := rust_plain hnm hident hp hx hnum hfs hps hkf hkp hsid hc hat lim hlim hcap
  have hfits := assemble_fits a1
  obtain ⟨bytes', es, stop, e1, e2, _, _, e5⟩ := C25_tables_partial A b.aux (by rw [a2]; simp) hfits.1 hfits.2.1 hfits.2.2
  rw [a1] at e1
  cases e1
  rw [a2] at e5
  refine ⟨max bound (A.instrs.length + 1), fun fl hfl rows w β hw hg hT => ?_⟩
  obtain ⟨M0, c2, c3⟩ := c1 fl (by omega)
  obtain ⟨M, out, d1, d2⟩ := c3 β rows.length hT
  obtain ⟨outs, o1, rfl⟩ := Rs.Tool.loop_bits (readF := readF) (ops := ops) (lim := lim.bzLimits nsig) (S0 := ⟨M0, Rs.BzMon.zero ops.zero, []⟩)
    (sig := fun _ => (0, ops.zero)) hg hw rfl rfl (fun _ => rfl) d1
  exact ⟨_, outs, Rs.Tool.getFull_plain (ops := ops) (Rs.assemble_small a1 haux) (e2 fl (by omega)) e5 c2, o1, d2⟩

/-- C78 without the booleanizer: the atoms are signals, and a signal is true where its field is not 0.

Missing: time stamps that skip moments (`C78_rust_event_file_partial`; `C78_counting_stamps` has those that count the records); contracts (C79); what is missing in `C67_rust_compile_and_run_partial`. -/
theorem C78_rust_command_line_signals_partial {nm : α → String} (hnm : Function.Injective nm) (hident : ∀ a, IsIdent (nm a))
    {o : CliOpts} {b : BackEnd} {h : Heap Lab} {n ft pt fuel : Nat} {fs ps : List (SpecOf α)}
    (hp : Program (signalAtoms nm) h n ft pt fs ps) (hx : Apart h ft pt) (hnum : ((fs ++ ps).map (·.2.1)).Nodup)
    (hfs : ∀ s ∈ fs, Fit o false s.2.2) (hps : ∀ s ∈ ps, Fit o true s.2.2)
    (hkf : ∀ s ∈ fs, span false s.2.2 ≤ b.slack) (hkp : ∀ s ∈ ps, span true s.2.2 ≤ b.slack)
    (hsid : ∀ a, 0 ≤ b.sid (nm a)) (haux : ∀ x ∈ b.aux, x < 256) {bytes : List Nat} {bounds : Bounds}
    (hc : compileBinary o b fuel ft pt (h, n) = some (bytes, bounds)) (hat : ∀ a, b.sid (nm a) < bounds.maxAtomics)
    (lim : Rs.Limits) (hlim : Rs.Covers lim bounds) (nsig : Nat)
    (hcap : (fs.map fun s => span false s.2.2 + 1).sum + (ps.map fun s => span true s.2.2 + 1).sum ≤ lim.outputs)
    (ops : Rs.Ops F) (readF : List Char → Option F) :
    ∃ bound, ∀ fuel, bound ≤ fuel → ∀ (rows : List (List (List Char))) (w : Nat) (β : Nat → Nat → Bool), w ≤ lim.atomics →
      Rs.Tool.Truths w rows β → rows.length + b.slack < 2 ^ 32 →
      ∃ out, Rs.Tool.run ops readF lim nsig fuel bytes rows = some (out.flatMap Rs.Tool.printed) ∧
        (∀ s ∈ fs, Answers (sat (fun t a => β t (b.sid (nm a)).toNat = true) s.2.2) (Rs.reports out s.2.1) ∧
          ∀ t, t + span false s.2.2 < rows.length → ∃ v ∈ Rs.reports out s.2.1, t ≤ v.time) ∧
        (∀ s ∈ ps, Answers (sat (fun t a => β t (b.sid (nm a)).toNat = true) s.2.2) (Rs.reports out s.2.1) ∧
          ∀ t, t < rows.length → ∃ v ∈ Rs.reports out s.2.1, t ≤ v.time) := by
  obtain ⟨bound, c1⟩ := rust_signals_steps hnm hident hp hx hnum hfs hps hkf hkp hsid haux hc hat lim hlim nsig hcap ops readF
  refine ⟨bound, fun fl hfl rows w β hw hg hT => ?_⟩
  obtain ⟨S0, outs, c2, c3, c4⟩ := c1 fl hfl rows w β hw hg hT
  refine ⟨outs.flatten, ?_, c4⟩
  unfold Rs.Tool.run
  rw [c2, Option.bind_some, ← Rs.Tool.line_eq]
  exact Rs.Tool.loop_good c3

/-- A trace: 0 or 1 for two signals. -/
def crRows (xs : List (Bool × Bool)) : List (List (List Char)) := xs.map fun p => [if p.1 then ['1'] else ['0'], if p.2 then ['1'] else ['0']]
/-- The signals of that trace. -/
def crIn (xs : List (Bool × Bool)) (t i : Nat) : Bool :=
  if i = 0 then (xs[t]?.getD (false, false)).1 else if i = 1 then (xs[t]?.getD (false, false)).2 else false

theorem cr_truths (xs : List (Bool × Bool)) : Rs.Tool.Truths 2 (crRows xs) (crIn xs) where
  some := by decide
  width := by
    intro r hr
    obtain ⟨p, _, rfl⟩ := List.mem_map.1 hr
    rfl
  value := by
    intro t r hr i f hf
    simp only [crRows, List.getElem?_map, Option.map_eq_some_iff] at hr
    obtain ⟨p, hp, rfl⟩ := hr
    have h0 : Cli.intText 0 = ['0'] := by decide
    have h1 : Cli.intText 1 = ['1'] := by decide
    have key : ∀ x : Bool, f = (if x then ['1'] else ['0']) → crIn xs t i = x →
        ∃ v : Int, -(2 ^ 31) ≤ v ∧ v < 2 ^ 31 ∧ f = Cli.intText v ∧ (crIn xs t i = true ↔ v ≠ 0) := by
      intro x hf hx
      cases x
      · exact ⟨0, by decide, by decide, by rw [hf, h0]; rfl, by simp [hx]⟩
      · exact ⟨1, by decide, by decide, by rw [hf, h1]; rfl, by simp [hx]⟩
    rcases i with _ | _ | i <;> simp at hf
    · exact key p.1 hf.symm (by simp [crIn, hp])
    · exact key p.2 hf.symm (by simp [crIn, hp])
  zero := by
    intro t _ i hi
    simp only [crIn, if_neg (show i ≠ 0 by omega), if_neg (show i ≠ 1 by omega)]

/-- All the hypotheses of `C78_rust_command_line_signals_partial` hold of the program of `C67_rust_compile_and_run_partial`, and of
every trace. -/
example : ∃ bytes bounds, compileBinary ⟨true, false, true⟩ crBack 60 0 9 (crHeap, 13) = some (bytes, bounds) ∧
    ∃ bound, ∀ fuel, bound ≤ fuel → ∀ xs : List (Bool × Bool), xs.length + 3 < 2 ^ 32 →
      ∃ out, Rs.Tool.run rsNoFloats (fun _ => none) { bounds.rust 3 with outputs := 10 } 0 fuel bytes (crRows xs) =
          some (out.flatMap Rs.Tool.printed) ∧
        (∀ s ∈ crFs, Answers (sat (fun t a => crIn xs t (crBack.sid (crName a)).toNat = true) s.2.2) (Rs.reports out s.2.1) ∧
          ∀ t, t + span false s.2.2 < xs.length → ∃ v ∈ Rs.reports out s.2.1, t ≤ v.time) ∧
        (∀ s ∈ crPs, Answers (sat (fun t a => crIn xs t (crBack.sid (crName a)).toNat = true) s.2.2) (Rs.reports out s.2.1) ∧
          ∀ t, t < xs.length → ∃ v ∈ Rs.reports out s.2.1, t ≤ v.time) := by
  have hm : (compileBinary ⟨true, false, true⟩ crBack 60 0 9 (crHeap, 13)).map (fun r => (r.2.maxAtomics, decide (0 ≤ r.2.maxQueueSlots ∧ r.2.maxQueueSlots ≤ 2 ^ 32))) =
    some (2, true) := by decide +kernel
  obtain ⟨⟨bytes, bounds⟩, hr, hb⟩ := Option.map_eq_some_iff.1 hm
  simp only [Prod.mk.injEq, decide_eq_true_eq] at hb
  obtain ⟨hb, hb1, hb2⟩ := hb
  refine ⟨bytes, bounds, hr, ?_⟩
  obtain ⟨bound, c1⟩ := C78_rust_command_line_signals_partial (nm := crName) (b := crBack) (by intro a a'; revert a a'; decide) (by
      intro a
      cases a
      · exact ⟨⟨'y', [], by decide, by decide, by simp⟩, by decide, by decide⟩
      · exact ⟨⟨'x', [], by decide, by decide, by simp⟩, by decide, by decide⟩) crHeap_program crHeap_apart
    (by simp [crFs, crPs]) cr_fit.1 cr_fit.2 (by
      intro s hs
      simp only [crFs, List.mem_cons, List.not_mem_nil, or_false] at hs
      rcases hs with rfl | rfl <;> simp [span, spanL, crBack]) (by
      intro s hs
      simp only [crPs, List.mem_cons, List.not_mem_nil, or_false] at hs
      subst hs
      simp [span, crBack]) (by intro a; cases a <;> decide) (by simp [crBack]) hr (by
      intro a
      rw [hb]
      cases a <;> decide)
    { bounds.rust 3 with outputs := 10 } ⟨Nat.le_refl _, Nat.le_refl _, by simp only [Bounds.rust]; omega, by simp only [Bounds.rust]; omega⟩ 0
    (by simp [crFs, crPs, span, spanL]) rsNoFloats (fun _ => none)
  refine ⟨bound, fun fuel hf xs hT => ?_⟩
  have hlen : (crRows xs).length = xs.length := by simp [crRows]
  rw [← hlen] at hT ⊢
  exact c1 fuel hf (crRows xs) 2 (crIn xs) (by simp only [Bounds.rust]; omega) (cr_truths xs) hT

/-- A trace: two numbers per record. -/
def fzRows (xs : List (Int × Int)) : List (List (List Char)) := xs.map fun p => [Cli.intText p.1, Cli.intText p.2]
/-- The signals of that trace. -/
def fzIn (xs : List (Int × Int)) (t i : Nat) : Int :=
  if i = 0 then (xs[t]?.getD (0, 0)).1 else if i = 1 then (xs[t]?.getD (0, 0)).2 else 0

theorem fz_gives {xs : List (Int × Int)} (h : ∀ p ∈ xs, (-(2 ^ 31) ≤ p.1 ∧ p.1 < 2 ^ 31) ∧ -(2 ^ 31) ≤ p.2 ∧ p.2 < 2 ^ 31) :
    Rs.Tool.Gives rsInts Rs.Tool.parseI32 2 (fzRows xs) (fun t i => .flt (fzIn xs t i)) where
  some := by decide
  width := by
    intro r hr
    obtain ⟨p, _, rfl⟩ := List.mem_map.1 hr
    rfl
  plain := by
    intro r hr f hf
    obtain ⟨p, _, rfl⟩ := List.mem_map.1 hr
    simp only [List.head?_cons, Option.some.injEq] at hf
    subst hf
    unfold Cli.intText
    split
    · simp
    · intro h
      exact absurd (Cli.natStr_isDigit (List.mem_of_head? h)) (by decide)
  value := by
    intro t r hr i f hf
    simp only [fzRows, List.getElem?_map, Option.map_eq_some_iff] at hr
    obtain ⟨p, hp, rfl⟩ := hr
    have hb := h p (List.mem_of_getElem? hp)
    refine .flt _ _ ?_
    rcases i with _ | _ | i <;> simp at hf <;> subst hf
    · rw [Rs.Tool.parseI32_intText hb.1.1 hb.1.2]; simp [fzIn, hp]
    · rw [Rs.Tool.parseI32_intText hb.2.1 hb.2.2]; simp [fzIn, hp]
  zero := by
    intro t _ i hi
    refine .inr ?_
    simp only [fzIn, if_neg (show i ≠ 0 by omega), if_neg (show i ≠ 1 by omega)]
    rfl

/-- All the hypotheses of `C78_rust_command_line_partial` hold of the program of `C76_rust_floats_partial`, and of every trace. -/
example : ∃ bytes bounds, compileBinaryBz ⟨true, false, true⟩ fzBack 60 0 15 (fzHeap, 23) = some (bytes, bounds) ∧
    ∃ bound, ∀ fuel, bound ≤ fuel → ∀ xs : List (Int × Int), (∀ p ∈ xs, (-(2 ^ 31) ≤ p.1 ∧ p.1 < 2 ^ 31) ∧ -(2 ^ 31) ≤ p.2 ∧ p.2 < 2 ^ 31) →
      xs.length + 3 < 2 ^ 32 →
      ∃ out, Rs.Tool.run rsInts Rs.Tool.parseI32 { bounds.rust 3 with outputs := 10 } bounds.maxSignals fuel bytes (fzRows xs) =
          some (out.flatMap Rs.Tool.printed) ∧
        (∀ s ∈ crFs, Answers (sat (fzTrace (fzIn xs)) s.2.2) (Rs.reports out s.2.1) ∧
          ∀ t, t + span false s.2.2 < xs.length → ∃ v ∈ Rs.reports out s.2.1, t ≤ v.time) ∧
        (∀ s ∈ crPs, Answers (sat (fzTrace (fzIn xs)) s.2.2) (Rs.reports out s.2.1) ∧
          ∀ t, t < xs.length → ∃ v ∈ Rs.reports out s.2.1, t ≤ v.time) := by
  have hm : (compileBinaryBz ⟨true, false, true⟩ fzBack 60 0 15 (fzHeap, 23)).map
      (fun r => decide ((0 ≤ r.2.maxQueueSlots ∧ r.2.maxQueueSlots ≤ 2 ^ 32) ∧ 2 ≤ r.2.maxSignals ∧
        (loadBinary 60 r.1).map (fun x => (BzMon.table x.1).isEmpty) = some false)) = some true := by decide +kernel
  obtain ⟨⟨bytes, bounds⟩, hr, hb⟩ := Option.map_eq_some_iff.1 hm
  simp only [decide_eq_true_eq] at hb
  obtain ⟨hb, hw, hl⟩ := hb
  refine ⟨bytes, bounds, hr, ?_⟩
  obtain ⟨bound, c1⟩ := C78_rust_command_line_partial (b := fzBack) fz_atoms fz_separate.1 fz_separate.2
    fzHeap_program fzHeap_apart (by simp [crFs, crPs]) cr_fit.1 cr_fit.2 (by
      intro s hs
      simp only [crFs, List.mem_cons, List.not_mem_nil, or_false] at hs
      rcases hs with rfl | rfl <;> simp [span, spanL, fzBack]) (by
      intro s hs
      simp only [crPs, List.mem_cons, List.not_mem_nil, or_false] at hs
      subst hs
      simp [span, fzBack]) (ty := fun _ => false) (fun g n' _ x s a _ _ => rfl) fz_noNe (by simp [fzBack]) hr (Rs.Tool.usesBz_of 60 hl)
    { bounds.rust 3 with outputs := 10 } ⟨Nat.le_refl _, Nat.le_refl _, by simp only [Bounds.rust]; omega, by simp only [Bounds.rust]; omega⟩
    (Nat.le_refl _) bounds.maxSignals (Nat.le_refl _) (by simp [crFs, crPs, span, spanL]) rsInts rsInts_symmetric Rs.Tool.parseI32
  refine ⟨bound, fun fuel hf xs hxs hT => ?_⟩
  have ht : (fun t a => ∃ i, i ≠ 0 ∧ fzVal (fzIn xs) t (fzAtom a) (.int i)) = fzTrace (fzIn xs) := by
    funext t a
    obtain ⟨i, h1, h2⟩ := fz_atom (fzIn xs) t a
    refine propext ⟨?_, fun h => ⟨i, h2.2 h, h1⟩⟩
    rintro ⟨j, hj, h3⟩
    cases h1.unique rsInts_symmetric (fz_noNe a) h3
    exact h2.1 hj
  have hlen : (fzRows xs).length = xs.length := by simp [fzRows]
  obtain ⟨out, d1, d2, d3⟩ := c1 fuel hf (fzRows xs) 2 (fun t k => .flt (fzIn xs t k)) hw (fz_gives hxs) (by rw [hlen]; exact hT) (by
    intro t _ a
    obtain ⟨i, h1, _⟩ := fz_atom (fzIn xs) t a
    refine ⟨?_, i, h1⟩
    intro e he
    rcases fz_within he with rfl | rfl | rfl | rfl | rfl | rfl
    · exact ⟨_, h1⟩
    · exact ⟨_, fz_x _ t⟩
    · exact ⟨_, fz_y _ t⟩
    · exact ⟨_, .float⟩
    · exact ⟨_, .float⟩
    · exact ⟨_, fz_prev _ t⟩)
  refine ⟨out, d1, ?_⟩
  rw [← ht, ← hlen]
  exact ⟨d2, d3⟩

/-- `x + x >= 5` and `x >= 5`, where `x` is signal 0. -/
def twoProg : BProg where
  heap := ⟨fun | 1 => .formula 0 | 2 => .atomic | 3 => .op .ge true | 4 => .op .add true | 5 => .signal true 0 | 6 => .int 5
               | 7 => .formula 1 | 8 => .atomic | 9 => .op .ge true | _ => .specSet,
    fun | 0 => [1, 7] | 1 => [2] | 2 => [3] | 3 => [4, 6] | 4 => [5, 5] | 7 => [8] | 8 => [9] | 9 => [5, 6] | _ => [],
    fun | 1 => [0] | 2 => [1] | 3 => [2] | 4 => [3] | 5 => [4, 4, 9] | 6 => [3, 9] | 7 => [0] | 8 => [7] | 9 => [8] | _ => []⟩
  bpd := fun _ => 0
  wpd := fun _ => 0
  ft := 0
  pt := 10
  bz := true
  atomicId := fun | 2 => some 0 | 8 => some 1 | _ => none

/-- What the tool prints for that program and a trace. -/
def twoPrints (xs : List Int) : Option (List Char) :=
  ((twoProg.computeScq 100 0).bind fun s => BProg.genAssembly 100 twoProg s.scq).bind fun A => (assembleBytes A.instrs []).bind fun bytes =>
    Rs.Tool.run rsNoFloats (fun _ => none) ⟨4, 4, 2, 10, 2⟩ 1 100 bytes (xs.map fun x => [Cli.intText x])

/-- The verdicts are not all printed: when the sum in the first specification overflows, the tool prints a notice in place of all the
verdicts of that step, so the verdict of the other specification at moment 1, which uses no arithmetic, is lost. -/
theorem C78_overflow_drops_fails :
    twoPrints [1, 2 ^ 31 - 1, 7] = some "0:0,F\n1:0,F\nOverflow occurred!!!!\n0:2,T\n1:2,T\n".toList ∧
    twoPrints [1, 2 ^ 30 - 1, 7] = some "0:0,F\n1:0,F\n0:1,T\n1:1,T\n0:2,T\n1:2,T\n".toList := by decide +kernel

end R2U2
