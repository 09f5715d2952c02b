import Verif.Lemmas.RustNames
import Verif.Props.Names
import Verif.Props.RustCliText
/-
C79: names of specifications and statuses of contracts in the output of the command line tool of the Rust monitor.
-/
namespace R2U2
open Heap Expr GraphPass
namespace Rs
namespace Names
variable {F : Type}

/-- What the tool prints, from the tables and the verdicts of the steps. -/
theorem run_eq {is : List Instr} {specs : List (String × Nat)} {contracts : List (String × Nat × Nat × Nat)} {bytes : List Nat}
    (hs : assembleBytes is (Aux.packed (Aux.aliases specs contracts)) = some bytes) (hl : Labels specs contracts) (hne : specs ≠ [])
    (hn : specs.map (fun x => x.2) = List.range specs.length) (hd : (contracts.flatMap Aux.nums).Nodup) (lim : Limits) {alim : Lim}
    (hf : specs.length ≤ alim.formulas) (hc : contracts.length ≤ alim.contracts) (ho : lim.outputs ≤ alim.statuses)
    (ops : Ops F) (readF : List Char → Option F) (nsig : Nat) {fuel : Nat} (hfuel : is.length < fuel) (trace : List (List (List Char))) (ea dc : Bool) :
    run ops readF lim alim ea dc nsig fuel bytes trace = (getFull ops lim nsig fuel bytes).bind fun S =>
      (Tool.steps ops (lim.bzLimits nsig) readF fuel trace ⟨S, fun _ => (0, ops.zero)⟩).map fun xs => xs.flatMap fun x =>
        if x.2 then shown ea dc specs contracts x.1 else "Overflow occurred!!!!\n".toList := by
  unfold run
  cases hS : getFull ops lim nsig fuel bytes with
  | none => rfl
  | some S =>
    have hlim : S.tl.lim = lim := by
      simp only [getFull, Option.bind_eq_some_iff, Option.map_eq_some_iff] at hS
      obtain ⟨M, h1, _, _, _, _, h⟩ := hS
      cases h
      exact getMonitor_lim h1
    rw [Option.bind_some, load_packed hs hl hne hf hc hfuel, Option.bind_some, Option.bind_some,
      loop_eq trace _ fun xs hxs x hx => by
        have h := Tool.steps_room trace _ hxs x hx
        simp only [hlim] at h
        omega]
    refine congrArg (fun g => Option.map g _) (funext fun xs => congrArg (fun g => List.flatMap g xs) (funext fun x => ?_))
    rw [statuses_lines (fun c hc => Aux.word_of_ident (hl.contracts c hc).1) hd, line_named hn hf, Tool.line_eq]
    rfl

end Names
end Rs

/-- C79.  `specs` are the labels and numbers of the specifications, in the order in which the assembler lists them, and `contracts` the
contracts; the assembler writes them after the instructions.  `r2u2_cli run`, built with enough room, prints for each record what it prints
with neither names nor contracts (`C78`), with two differences: with `--enable-aux`, the label of the specification stands before
each verdict; without `--disable-contracts`, a line for each status of a contract one of the verdicts decides follows the verdicts of the
record.

Partial: the labels are identifiers of at most 50 characters, the numbers have at most nine digits; there is a specification
(`C79_long_label_fails`); the specifications are listed in the order of their numbers (`C79_past_first_fails`); there is room for
as many statuses in a step as for verdicts (`C79_status_room_fails`). -/
theorem C79_rust_names_partial {F : Type} {is : List Instr} {specs : List (String × Nat)} {contracts : List (String × Nat × Nat × Nat)} {bytes : List Nat}
    (hs : assembleBytes is (Aux.packed (Aux.aliases specs contracts)) = some bytes) (hl : Rs.Names.Labels specs contracts) (hne : specs ≠ [])
    (hn : specs.map (fun x => x.2) = List.range specs.length) (hd : (contracts.flatMap fun c => [c.2.1, c.2.2.1, c.2.2.2]).Nodup)
    (lim : Rs.Limits) {alim : Rs.Names.Lim} (hf : specs.length ≤ alim.formulas) (hc : contracts.length ≤ alim.contracts) (ho : lim.outputs ≤ alim.statuses)
    (ops : Rs.Ops F) (readF : List Char → Option F) (nsig : Nat) {fuel : Nat} (hfuel : is.length < fuel) (trace : List (List (List Char))) :
    (Rs.Tool.run ops readF lim nsig fuel bytes trace = none → ∀ enableAux disableContracts,
      Rs.Names.run ops readF lim alim enableAux disableContracts nsig fuel bytes trace = none) ∧
    ∀ text, Rs.Tool.run ops readF lim nsig fuel bytes trace = some text → ∃ outs : List (Option (List (Nat × Verdict))),
      text = outs.flatMap (fun
        | some out => out.flatMap Rs.Tool.printed
        | none => "Overflow occurred!!!!\n".toList) ∧
      ∀ enableAux disableContracts, Rs.Names.run ops readF lim alim enableAux disableContracts nsig fuel bytes trace = some (outs.flatMap fun
        | some out => Rs.Names.shown enableAux disableContracts specs contracts out
        | none => "Overflow occurred!!!!\n".toList) := by
  have hrun := Rs.Names.run_eq hs hl hne hn hd lim hf hc ho ops readF nsig hfuel trace
  have htool : Rs.Tool.run ops readF lim nsig fuel bytes trace = (Rs.getFull ops lim nsig fuel bytes).bind fun S =>
      (Rs.Tool.steps ops (lim.bzLimits nsig) readF fuel trace ⟨S, fun _ => (0, ops.zero)⟩).map fun xs => xs.flatMap fun x =>
        if x.2 then x.1.flatMap Rs.Tool.printed else "Overflow occurred!!!!\n".toList := by
    unfold Rs.Tool.run
    refine congrArg _ (funext fun S => ?_)
    rw [Rs.Tool.loop_steps, Rs.Tool.line_eq]
  generalize "Overflow occurred!!!!\n".toList = msg at hrun htool ⊢
  simp only [hrun, htool]
  cases Rs.getFull ops lim nsig fuel bytes with
  | none => simp
  | some S =>
    simp only [Option.bind_some]
    cases Rs.Tool.steps ops (lim.bzLimits nsig) readF fuel trace ⟨S, fun _ => (0, ops.zero)⟩ with
    | none => simp
    | some xs =>
      refine ⟨by simp, ?_⟩
      rintro _ ⟨⟩
      refine ⟨xs.map fun x => if x.2 then some x.1 else none, ?_, fun ea dc => ?_⟩
      · rw [List.flatMap_map]
        refine congrArg (fun g => List.flatMap g xs) (funext fun x => ?_)
        cases x.2 <;> rfl
      · rw [Option.map_some, List.flatMap_map]
        refine congrArg (fun g => some (List.flatMap g xs)) (funext fun x => ?_)
        cases x.2 <;> rfl

/-- A binary assembled without names (`--no-aux`): with contracts or not, the tool prints what it prints of a binary
without the auxiliary section (`C78`). -/
theorem C79_without_names {F : Type} {is : List Instr} {bytes : List Nat} (hs : assembleBytes is [0] = some bytes) (lim : Rs.Limits) (alim : Rs.Names.Lim)
    (ops : Rs.Ops F) (readF : List Char → Option F) (nsig : Nat) {fuel : Nat} (hfuel : is.length < fuel) (trace : List (List (List Char)))
    (disableContracts : Bool) :
    Rs.Names.run ops readF lim alim false disableContracts nsig fuel bytes trace = Rs.Tool.run ops readF lim nsig fuel bytes trace := by
  obtain ⟨es, stop, _, h1, _, h3⟩ := C25_framing is _ bytes hs
  have hload : Rs.Names.load alim fuel bytes = some ⟨[], []⟩ := by
    have hlb := h1 fuel hfuel
    unfold loadBinary at hlb
    cases h0 : bytes[0]? with
    | none => rw [h0] at hlb; cases hlb
    | some o =>
      rw [h0] at hlb
      unfold Rs.Names.load
      rw [h0, Option.bind_some, Rs.Names.stopAt_load _ _ hlb, Option.bind_some, h3]
      rfl
  unfold Rs.Names.run Rs.Tool.run
  refine congrArg _ (funext fun S => ?_)
  have hnone : ∀ out : List (Nat × Verdict), (out.filterMap fun y => Rs.Names.statusFor y []) = [] := fun out => by simp [Rs.Names.statusFor]
  have hloop : ∀ (rows : List (List (List Char))) (st : Rs.Tool.State F), Rs.Names.loop ops (lim.bzLimits nsig) alim ⟨[], []⟩ false disableContracts readF fuel rows st =
      Rs.Tool.loop ops (lim.bzLimits nsig) readF fuel rows st := by
    intro rows
    induction rows with
    | nil => intro st; rfl
    | cons r rows ih =>
      intro st
      simp only [Rs.Names.loop, Rs.Tool.loop, Rs.Names.Info.statuses, hnone, List.length_nil, Nat.zero_le, if_true, Option.bind_some, ih,
        List.flatMap_nil, ite_self, List.append_nil, Bool.false_eq_true, if_false]
  rw [hload, Option.bind_some, hloop]

/-- A label of more than 50 characters: the assembler writes a binary without names and without the
zero that stands for them, and the tool panics on it before it reads the trace. -/
theorem C79_long_label_fails {F : Type} {is : List Instr} {specs : List (String × Nat)} {contracts : List (String × Nat × Nat × Nat)} {bytes : List Nat}
    (hs : assembleBytes is (Aux.packed (Aux.aliases specs contracts)) = some bytes) {s : String × Nat} (hm : s ∈ specs) (hl : 50 < s.1.length)
    (lim : Rs.Limits) (alim : Rs.Names.Lim) (ops : Rs.Ops F) (readF : List Char → Option F) (nsig : Nat) {fuel : Nat} (hfuel : is.length < fuel)
    (trace : List (List (List Char))) (enableAux disableContracts : Bool) :
    Rs.Names.run ops readF lim alim enableAux disableContracts nsig fuel bytes trace = none := by
  rw [C73_long_label_fails hm hl] at hs
  obtain ⟨es, stop, _, h1, _, h3⟩ := C25_framing is _ bytes hs
  have hload : Rs.Names.load alim fuel bytes = none := by
    have hlb := h1 fuel hfuel
    unfold loadBinary at hlb
    cases h0 : bytes[0]? with
    | none => rw [h0] at hlb; cases hlb
    | some o =>
      rw [h0] at hlb
      unfold Rs.Names.load
      rw [h0, Option.bind_some, Rs.Names.stopAt_load _ _ hlb, Option.bind_some, h3]
      rfl
  unfold Rs.Names.run
  rw [hload]
  cases Rs.getFull ops lim nsig fuel bytes <;> rfl

/-! ### From the text of a program -/

theorem Aux.packed_small {specs : List (String × Nat)} {contracts : List (String × Nat × Nat × Nat)} (hl : Rs.Names.Labels specs contracts) :
    ∀ x ∈ Aux.packed (Aux.aliases specs contracts), x < 256 := by
  have hnat : ∀ (n : Nat), ∀ c ∈ natStr n, c.toNat < 256 := by
    intro n c hc
    have := Cli.natStr_isDigit hc
    simp only [Cli.isDigit, Bool.and_eq_true, decide_eq_true_eq] at this
    have h2 := this.2
    have e : c.toNat ≤ '9'.toNat := h2
    have : '9'.toNat = 57 := rfl
    omega
  have hident : ∀ s : String, IsIdent s → ∀ c ∈ s.toList, c.toNat < 256 := by
    rintro s ⟨⟨d, cs, h1, h2, h3⟩, _, _⟩ c hc
    have hch : isIdentChar c = true := by
      rw [h1] at hc
      rcases List.mem_cons.1 hc with rfl | hc
      · simp only [isIdentStart, isIdentChar, Char.isAlphanum, Bool.or_eq_true] at h2 ⊢
        tauto
      · exact h3 c hc
    simp only [isIdentChar, Char.isAlphanum, Char.isAlpha, Char.isUpper, Char.isLower, Char.isDigit, Bool.or_eq_true, Bool.and_eq_true,
      decide_eq_true_eq, beq_iff_eq] at hch
    have e : c.val.toNat = c.toNat := rfl
    simp only [UInt32.le_iff_toNat_le, ge_iff_le] at hch
    rcases hch with ((⟨_, h⟩ | ⟨_, h⟩) | ⟨_, h⟩) | rfl
    · have : 'Z'.val.toNat = 90 := rfl
      omega
    · have : 'z'.val.toNat = 122 := rfl
      omega
    · have : '9'.val.toNat = 57 := rfl
      omega
    · decide
  intro x hx
  simp only [Aux.packed, List.mem_flatMap, List.mem_append, List.mem_map, List.mem_singleton] at hx
  obtain ⟨a, ha, hx⟩ := hx
  rcases hx with ⟨c, hc, rfl⟩ | rfl
  · unfold Aux.aliases at ha
    split at ha
    · cases ha
    · simp only [List.mem_append, List.mem_map] at ha
      rcases ha with ⟨s, hs, rfl⟩ | ⟨s, hs, rfl⟩
      · simp only [Aux.Alias.text, List.mem_cons, List.mem_append] at hc
        rcases hc with rfl | rfl | hc | rfl | hc
        · decide
        · decide
        · exact hident _ (hl.idents s hs).1 c hc
        · decide
        · exact hnat _ c hc
      · simp only [Aux.Alias.text, List.mem_cons, List.mem_append] at hc
        rcases hc with rfl | rfl | hc | rfl | hc | rfl | hc | rfl | hc
        · decide
        · decide
        · exact hident _ (hl.contracts s hs).1 c hc
        · decide
        · exact hnat _ c hc
        · decide
        · exact hnat _ c hc
        · decide
        · exact hnat _ c hc
  · decide

/-- C79 from the text of a program.  The text is compiled as in C78, with the names of its specifications.  `r2u2_cli run` prints for
each record the verdicts of its step, with labels if they are asked for, and the statuses of the contracts.  For every specification of
the text the verdicts under its number are right (C78).  The statuses say of each contract what its assumption and guarantee, as
written, mean on the trace: `verified` where both hold, `invalid` where only the assumption does, `inactive` elsewhere.

Partial: as C78 and `C79_rust_names_partial`. -/
theorem C79_rust_text_partial {F G : Type} {I : Interp F} {flt : String → String} {mission : Int} {text : List Char} {secs : List C2po.Section}
    (hparse : C2po.parse flt mission text = some secs)
    {Γ₀ Γ : TcCtx} {fuel₀ : Nat} {secs' : List Sec} {fsrc psrc : List (String × Nat × Src)}
    (hfront : frontEnd Γ₀ fuel₀ secs = some ((secs', Γ), fsrc, psrc))
    (hI : I.Fits Γ.scalarDecls) (hD : Γ.scalarDecls.Apart)
    {N : Scope} (hN : N.Declares (fun s d => nameOf (secs', Γ) s = some d) Γ.scalarDecls)
    (hr : ∀ past, ∀ s ∈ specsOf past secs', ∀ e ∈ s.exprs, e.Proper Γ.scalarDecls N (nameOf (secs', Γ)))
    {S : List String} (hS : ∀ s ∈ S, IsIdent s) {fs ps : List (SpecOf {s : String // s ∈ S})}
    (hf : Src.toSpecs S fsrc = some fs) (hp : Src.toSpecs S psrc = some ps)
    {o : CliOpts} {b : BackEnd} {h : Heap Lab} {n ft pt fuel : Nat} (hm : InMemory h n ft pt fsrc psrc) (hx : Apart h ft pt)
    (hfs : ∀ s ∈ fs, Fit o false s.2.2) (hps : ∀ s ∈ ps, Fit o true s.2.2)
    (hkf : ∀ s ∈ fs, span false s.2.2 ≤ b.slack) (hkp : ∀ s ∈ ps, span true s.2.2 ≤ b.slack)
    (hsid : ∀ s ∈ S, 0 ≤ b.sid s) {bytes : List Nat} {bounds : Bounds}
    (hc : compileBinary o b fuel ft pt (h, n) = some (bytes, bounds)) (hat : ∀ s ∈ S, b.sid s < bounds.maxAtomics)
    (lim : Rs.Limits) (hlim : Rs.Covers lim bounds) (nsig : Nat)
    (hcap : (fs.map fun s => span false s.2.2 + 1).sum + (ps.map fun s => span true s.2.2 + 1).sum ≤ lim.outputs)
    (hfirst : FutureFirst secs') (hone : ((contractsIn (allSpecs secs')).map (·.1)).Nodup)
    {specs : List (String × Nat)} (hspecs : specs = (fsrc ++ psrc).map fun s => (s.1, s.2.1)) (hne : specs ≠ [])
    (hl : Rs.Names.Labels specs (contractsOf secs')) (haux : b.aux = Aux.packed (Aux.aliases specs (contractsOf secs'))) {alim : Rs.Names.Lim}
    (hlf : specs.length ≤ alim.formulas) (hlc : (contractsOf secs').length ≤ alim.contracts) (hls : lim.outputs ≤ alim.statuses)
    (ops : Rs.Ops G) (readF : List Char → Option G) :
    ∃ bound, ∀ fuel, bound ≤ fuel → ∀ (rows : List (List (List Char))) (w : Nat) (β : Nat → Nat → Bool), w ≤ lim.atomics →
      Rs.Tool.Truths w rows β → rows.length + b.slack < 2 ^ 32 →
      ∃ outs : List (List (Nat × Verdict)),
        (∀ enableAux disableContracts, Rs.Names.run ops readF lim alim enableAux disableContracts nsig fuel bytes rows =
          some (outs.flatMap (Rs.Names.shown enableAux disableContracts specs (contractsOf secs')))) ∧
        ∀ ρ : Env F, ρ.Fits Γ.scalarDecls Scope.empty → ρ.Respects (fun s d => nameOf (secs', Γ) s = some d) I →
          (∀ s ∈ S, ∀ t, ρ.sig s t = .bool (β t (b.sid s).toNat)) →
          List.Forall₂ (fun v f => v.1 = f.2.1 ∧ Answers (fun t => v.2 t = true) (Rs.reports outs.flatten v.1) ∧
              ∀ t, t + span false f.2.2 < rows.length → ∃ u ∈ Rs.reports outs.flatten v.1, t ≤ u.time)
            ((specsOf true secs').flatMap (Spec.verdicts I ρ)) fs ∧
          List.Forall₂ (fun v f => v.1 = f.2.1 ∧ Answers (fun t => v.2 t = true) (Rs.reports outs.flatten v.1) ∧
              ∀ t, t < rows.length → ∃ u ∈ Rs.reports outs.flatten v.1, t ≤ u.time)
            ((specsOf false secs').flatMap (Spec.verdicts I ρ)) ps ∧
          ∀ l n₀ n₁ n₂ a g, Spec.contract l n₀ n₁ n₂ a g ∈ allSpecs secs' → (l, n₀, n₁, n₂) ∈ contractsOf secs' ∧
            Aux.Tells (fun t => (a.sem I ρ t).isTrue) (fun t => (g.sem I ρ t).isTrue) (l, n₀, n₁, n₂) outs.flatten (rows.length - b.slack) := by
  have hnums : (allSpecs secs').flatMap C2po.numbersOf = secs.flatMap C2po.Section.numbers ∧ specs.map (fun x => x.2) = (allSpecs secs').flatMap C2po.numbersOf := by
    have hfront := hfront
    simp only [frontEnd, Option.bind_eq_some_iff, Option.map_eq_some_iff, Prod.exists, Prod.mk.injEq] at hfront
    obtain ⟨_, _, k1, _, k2, _, k3, ⟨q1, q2⟩, q3, q4⟩ := hfront
    rw [q1, q2] at k1
    rw [q1, q2, q3] at k2
    rw [q1, q2, q4] at k3
    obtain ⟨f1, _, _, _⟩ := set_verdicts' hI hD rfl hN rfl rfl (hr true) k2 hf
    obtain ⟨p1, _, _, _⟩ := set_verdicts' hI hD rfl hN rfl rfl (hr false) k3 hp
    constructor
    · rw [allSpecs_numbers, checkProgram_numbers k1, List.flatMap_map]
      simp only [toSec_numbers]
    · rw [← futureFirst_specs hfirst, List.flatMap_append, ← f1, ← p1, hspecs, List.map_map, ← List.map_append]
      rfl
  obtain ⟨k, hk⟩ := C2po.C61_numbers flt mission text secs hparse
  have hrange : specs.map (fun x => x.2) = List.range specs.length := by
    have e : specs.map (fun x => x.2) = List.range k := by rw [hnums.2, hnums.1, hk]
    have : specs.length = k := by simpa using congrArg List.length e
    rw [this]; exact e
  have hnd : ((allSpecs secs').flatMap C2po.numbersOf).Nodup := by rw [hnums.1, hk]; exact List.nodup_range
  have hcd : ((contractsOf secs').flatMap Aux.nums).Nodup := by rw [contractsOf_eq hone]; exact hnd.sublist (contracts_nums _)
  obtain ⟨hprog, hnum, hv⟩ := text_program hparse hfront hI hD hN hr hf hp hm hfs hps
  obtain ⟨bound, c3⟩ := rust_signals_steps (nm := Subtype.val) Subtype.val_injective (fun a => hS a.1 a.2) hprog hx hnum
    hfs hps hkf hkp (fun a => hsid a.1 a.2) (by rw [haux]; exact Aux.packed_small hl) hc (fun a => hat a.1 a.2) lim hlim nsig hcap ops readF
  obtain ⟨is, his⟩ : ∃ is, assembleBytes is b.aux = some bytes := by
    simp only [compileBinary, assembleG, Option.bind_eq_some_iff, Option.map_eq_some_iff] at hc
    obtain ⟨_, _, _, _, _, _, A, _, bs, hbs, e⟩ := hc
    cases e
    exact ⟨_, hbs⟩
  rw [haux] at his
  refine ⟨max bound (is.length + 1), fun fuel hfuel rows w β hw hg hT => ?_⟩
  obtain ⟨S0, outs, d0, d1, d2, d3⟩ := c3 fuel (le_trans (le_max_left _ _) hfuel) rows w β hw hg hT
  refine ⟨outs, fun ea dc => ?_, fun ρ hρ hres hsig => ?_⟩
  · rw [Rs.Names.run_eq his hl hne hrange hcd lim hlf hlc hls ops readF nsig (le_trans (le_max_right _ _) hfuel) rows ea dc, d0, Option.bind_some, d1,
      Option.map_some, List.flatMap_map]
    rfl
  · have hπ : ∀ (s : {s : String // s ∈ S}) (i : Nat), ∃ c, ρ.sig s.1 i = .bool c ∧ (c = true ↔ β i (b.sid s.1).toNat = true) :=
      fun s i => ⟨_, hsig s.1 s.2 i, Iff.rfl⟩
    obtain ⟨f4, p4⟩ := hv ρ (fun t a => β t (b.sid a.1).toNat = true) hρ hres hπ
    have e3 : List.Forall₂ (fun v f => v.1 = f.2.1 ∧ Answers (fun t => v.2 t = true) (Rs.reports outs.flatten v.1) ∧
              ∀ t, t + span false f.2.2 < rows.length → ∃ u ∈ Rs.reports outs.flatten v.1, t ≤ u.time)
            ((specsOf true secs').flatMap (Spec.verdicts I ρ)) fs := by
      refine (forall2_with f4 d2).imp ?_
      rintro v f ⟨⟨a1, a2⟩, a3, a4⟩
      rw [a1]
      refine ⟨rfl, ?_, a4⟩
      rw [funext fun t => propext (a2 t)]
      exact a3
    have e4 : List.Forall₂ (fun v f => v.1 = f.2.1 ∧ Answers (fun t => v.2 t = true) (Rs.reports outs.flatten v.1) ∧
              ∀ t, t < rows.length → ∃ u ∈ Rs.reports outs.flatten v.1, t ≤ u.time)
            ((specsOf false secs').flatMap (Spec.verdicts I ρ)) ps := by
      refine (forall2_with p4 d3).imp ?_
      rintro v f ⟨⟨a1, a2⟩, a3, a4⟩
      rw [a1]
      refine ⟨rfl, ?_, a4⟩
      rw [funext fun t => propext (a2 t)]
      exact a3
    refine ⟨e3, e4, fun l n₀ n₁ n₂ a g hmem => ?_⟩
    have hin : (l, n₀, n₁, n₂) ∈ contractsOf secs' := by
      rw [contractsOf_eq hone]
      exact List.mem_flatMap.2 ⟨_, hmem, by simp⟩
    refine ⟨hin, ?_⟩
    have hndc : (Aux.nums (l, n₀, n₁, n₂)).Nodup := (List.nodup_flatMap.1 hcd).1 _ hin
    rw [← futureFirst_specs hfirst] at hmem
    have hv : ∀ v ∈ Spec.verdicts I ρ (.contract l n₀ n₁ n₂ a g), Answers (fun t => v.2 t = true) (Rs.reports outs.flatten v.1) ∧
        ∀ t < rows.length - b.slack, ∃ u ∈ Rs.reports outs.flatten v.1, t ≤ u.time := by
      intro v hv
      rcases List.mem_append.1 hmem with hmem | hmem
      · obtain ⟨f, hf1, _, r2, r3⟩ := forall2_mem e3 (List.mem_flatMap.2 ⟨_, hmem, hv⟩)
        exact ⟨r2, fun t ht => r3 t (by have := hkf f hf1; omega)⟩
      · obtain ⟨f, hf1, _, r2, r3⟩ := forall2_mem e4 (List.mem_flatMap.2 ⟨_, hmem, hv⟩)
        exact ⟨r2, fun t ht => r3 t (by omega)⟩
    have v0 := hv (n₀, fun t => (a.sem I ρ t).isTrue) (by simp [Spec.verdicts])
    have v1 := hv (n₁, fun t => !(a.sem I ρ t).isTrue || (g.sem I ρ t).isTrue) (by simp [Spec.verdicts])
    have v2 := hv (n₂, fun t => (a.sem I ρ t).isTrue && (g.sem I ρ t).isTrue) (by simp [Spec.verdicts])
    exact tells hndc v0.1 v1.1 v2.1 v0.2 v1.2 v2.2

namespace FE

theorem rust_labels : Rs.Names.Labels specs [("c", 1, 2, 3)] := by
  refine ⟨?_, ?_⟩
  · intro s hs
    simp only [specs, List.mem_cons, List.not_mem_nil, or_false] at hs
    rcases hs with rfl | rfl | rfl | rfl | rfl <;>
      exact ⟨ident rfl (by decide) (by decide) (by decide) (by decide), by decide, by decide⟩
  · intro c hc
    simp only [List.mem_cons, List.not_mem_nil, or_false] at hc
    subst hc
    exact ⟨ident rfl (by decide) (by decide) (by decide) (by decide), by decide, by decide, by decide, by decide⟩

/-- All the hypotheses hold of the text of C65 with its names and of every trace of two columns: what is printed of the contract
`c: d => F[1,3] y` is right. -/
example : ∃ bytes bounds, compileBinary ⟨true, false, true⟩ named 100 0 17 (heap, 21) = some (bytes, bounds) ∧
      ∃ bound, ∀ fuel, bound ≤ fuel → ∀ xs : List (Bool × Bool), xs.length + 3 < 2 ^ 32 →
        ∃ outs : List (List (Nat × Verdict)),
          (∀ ea dc, Rs.Names.run rsNoFloats (fun _ => none) { bounds.rust 5 with outputs := 15 } ⟨5, 1, 15⟩ ea dc 0 fuel bytes (crRows xs) =
            some (outs.flatMap (Rs.Names.shown ea dc specs [("c", 1, 2, 3)]))) ∧
          Aux.Tells (fun t => ((var "d").sem interp (env (crIn xs)) t).isTrue) (fun t => (Fy.sem interp (env (crIn xs)) t).isTrue)
            ("c", 1, 2, 3) outs.flatten (xs.length - 3) := by
  have hm : (compileBinary ⟨true, false, true⟩ named 100 0 17 (heap, 21)).map
    (fun r => (r.2.maxAtomics, decide (0 ≤ r.2.maxQueueSlots ∧ r.2.maxQueueSlots ≤ 2 ^ 32))) = some (2, true) := by decide +kernel
  obtain ⟨⟨bytes, bounds⟩, hr, hb⟩ := Option.map_eq_some_iff.1 hm
  simp only [Prod.mk.injEq, decide_eq_true_eq] at hb
  obtain ⟨hb, hb1, hb2⟩ := hb
  refine ⟨bytes, bounds, hr, ?_⟩
  obtain ⟨bound, c3⟩ := C79_rust_text_partial (I := interp) (b := named) parse_eq front ⟨rfl, rfl, fun _ _ _ _ _ _ => .err⟩
    (by intro s n ms hs hm; simp [TcCtx.scalarDecls, TcCtx.decls, ctx] at hm) declares proper_all
    (by
      intro s hs
      simp only [List.mem_cons, List.not_mem_nil, or_false] at hs
      rcases hs with rfl | rfl <;> exact ident rfl (by decide) (by decide) (by decide) (by decide))
    fs_eq ps_eq inMemory apart fit_f fit_p
    (by intro s hs; simp only [fs, List.mem_cons, List.not_mem_nil, or_false] at hs; rcases hs with rfl | rfl | rfl | rfl <;> simp [span, spanL, named, back, X, Y])
    (by intro s hs; simp only [ps, List.mem_cons, List.not_mem_nil, or_false] at hs; subst hs; simp [span, named, back, Y])
    (by decide) hr (by rw [hb]; decide) { bounds.rust 5 with outputs := 15 }
    ⟨Nat.le_refl _, Nat.le_refl _, by simp only [Bounds.rust]; omega, by simp only [Bounds.rust]; omega⟩ 0
    (by simp [fs, ps, span, spanL, X, Y])
    (by simp [FutureFirst, secs]) (by simp [contractsIn, allSpecs, secs]) (specs := specs) rfl (by simp [specs])
    (by rw [conts]; exact rust_labels) (by rw [conts]; rfl) (alim := ⟨5, 1, 15⟩) (by decide) (by rw [conts]; decide) (Nat.le_refl _)
    rsNoFloats (fun _ => none)
  rw [conts] at c3
  refine ⟨bound, fun fuel hfuel xs hT => ?_⟩
  have hlen : (crRows xs).length = xs.length := by simp [crRows]
  obtain ⟨outs, d1, d2⟩ := c3 fuel hfuel (crRows xs) 2 (crIn xs) (by simp only [Bounds.rust]; omega) (cr_truths xs) (by rw [hlen]; exact hT)
  obtain ⟨_, _, d3⟩ := d2 (env (crIn xs)) (env_fits _) (env_respects _) (fun s _ t => rfl)
  refine ⟨outs, d1, ?_⟩
  have := (d3 "c" 1 2 3 (var "d") Fy (by simp [allSpecs, secs])).2
  simpa [hlen, named, back] using this

end FE

/-! ### Programs for which the claim fails -/

/-- The contract `c: x => F[0,3] y` in memory. -/
def rnHeap : Heap Lab where
  lab
    | 1 => .formula "__c_active__" 0 | 2 => .name "x" | 3 => .formula "__c_valid__" 1 | 4 => .op .imp | 5 => .name "y"
    | 6 => .formula "__c_verified__" 2 | 7 => .op .and | 8 => .tmp .F 0 3 | _ => .specSet
  kids
    | 0 => [1, 3, 6] | 1 => [2] | 3 => [4] | 4 => [2, 8] | 6 => [7] | 7 => [2, 8] | 8 => [5] | _ => []
  pars
    | 1 => [0] | 2 => [1, 4, 7] | 3 => [0] | 4 => [3] | 8 => [4, 7] | 5 => [8] | 6 => [0] | 7 => [6] | _ => []

def rnSpecs : List (String × Nat) := [("__c_active__", 0), ("__c_valid__", 1), ("__c_verified__", 2)]
def rnContracts : List (String × Nat × Nat × Nat) := [("c", 0, 1, 2)]

/-- The delays are those of the constructors; the node 11 is the `U` that stands for `F` in the end. -/
def rnBack : BackEnd := { xyBack with
  wpd := fun i => if i = 3 ∨ i = 4 ∨ i = 6 ∨ i = 7 ∨ i = 11 then 3 else 0
  aux := Aux.packed (Aux.aliases rnSpecs rnContracts) }

/-- A record for each pair of fields. -/
def rnRows (t : List (String × String)) : List (List (List Char)) := t.map fun r => [r.1.toList, r.2.toList]

/-- What is printed without names and contracts, and what is printed with them, by a monitor with the bounds of the compiler. -/
def rnRun (enableAux disableContracts : Bool) (t : List (String × String)) : Option (Option (List Char) × Option (List Char)) :=
  (compileBinary ⟨false, false, false⟩ rnBack 60 0 9 (rnHeap, 10)).map fun r =>
    (Rs.Tool.run rsNoFloats (fun _ => none) (r.2.rust 3) 0 60 r.1 (rnRows t),
     Rs.Names.run rsNoFloats (fun _ => none) (r.2.rust 3) (Rs.Names.bounds rnSpecs rnContracts) enableAux disableContracts 0 60 r.1 (rnRows t))

/-- As it should be: the contract is verified at time 0, and its assumption fails at time 1. -/
example : rnRun true false [("1", "1"), ("0", "0")] = some (some "0:0,T\n1:0,T\n2:0,T\n0:1,F\n1:1,T\n2:1,F\n".toList,
    some ("__c_active__ (0):0,T\n__c_valid__ (1):0,T\n__c_verified__ (2):0,T\nContract c verified at 0\n" ++
      "__c_active__ (0):1,F\n__c_valid__ (1):1,T\n__c_verified__ (2):1,F\nContract c inactive at 1\n").toList) := by decide +kernel

/-- With room for six statuses, as many as verdicts, all the hypotheses of `C79_rust_names_partial` hold of this program and every trace. -/
example : ∃ bytes bounds, compileBinary ⟨false, false, false⟩ rnBack 60 0 9 (rnHeap, 10) = some (bytes, bounds) ∧ ∃ bound, ∀ fuel, bound ≤ fuel →
    ∀ trace text, Rs.Tool.run rsNoFloats (fun _ => none) (bounds.rust 3) 0 fuel bytes trace = some text →
      ∀ ea dc, ∃ text', Rs.Names.run rsNoFloats (fun _ => none) (bounds.rust 3) ⟨3, 1, 6⟩ ea dc 0 fuel bytes trace = some text' := by
  obtain ⟨⟨bytes, bounds⟩, hc⟩ : ∃ r, compileBinary ⟨false, false, false⟩ rnBack 60 0 9 (rnHeap, 10) = some r := by
    have : (compileBinary ⟨false, false, false⟩ rnBack 60 0 9 (rnHeap, 10)).isSome = true := by decide +kernel
    exact Option.isSome_iff_exists.1 this
  refine ⟨bytes, bounds, hc, ?_⟩
  obtain ⟨is, his⟩ : ∃ is, assembleBytes is rnBack.aux = some bytes := by
    simp only [compileBinary, assembleG, Option.bind_eq_some_iff, Option.map_eq_some_iff] at hc
    obtain ⟨_, _, _, _, _, _, A, _, bs, hbs, e⟩ := hc
    cases e
    exact ⟨_, hbs⟩
  have hl : Rs.Names.Labels rnSpecs rnContracts := by
    refine ⟨?_, ?_⟩
    · intro s hs
      simp only [rnSpecs, List.mem_cons, List.not_mem_nil, or_false] at hs
      rcases hs with rfl | rfl | rfl <;>
        exact ⟨FE.ident rfl (by decide) (by decide) (by decide) (by decide), by decide, by decide⟩
    · intro c hc
      simp only [rnContracts, List.mem_cons, List.not_mem_nil, or_false] at hc
      subst hc
      exact ⟨FE.ident rfl (by decide) (by decide) (by decide) (by decide), by decide, by decide, by decide, by decide⟩
  refine ⟨is.length + 1, fun fuel hfuel trace text ht ea dc => ?_⟩
  obtain ⟨outs, _, h⟩ := (C79_rust_names_partial his hl (by simp [rnSpecs]) rfl (by decide) (bounds.rust 3) (alim := ⟨3, 1, 6⟩) (by decide) (by decide)
    (by simp [Bounds.rust]) rsNoFloats (fun _ => none) 0 hfuel trace).2 text ht
  exact ⟨_, h ea dc⟩

/-- The monitor is built with room for two statuses per contract, which one step can exceed: with the bounds the compiler writes,
`c: x => F[0,3] y` and a trace of four records, the tool panics where without `--enable-aux` and with `--disable-contracts` it prints all the
verdicts. -/
theorem C79_status_room_fails : rnRun false false [("1", "0"), ("0", "0"), ("1", "0"), ("0", "1")] =
    some (some "0:0,T\n0:1,F\n0:2,T\n0:3,F\n1:3,T\n2:0,T\n2:1,F\n2:2,T\n2:3,F\n".toList, none) := by decide +kernel

/-- What the program with PTSPEC before FTSPEC of C73 prints. -/
def pfRustRun (t : List (String × String)) : Option (Option (List Char) × Option (List Char)) :=
  (compileBinary ⟨false, false, false⟩ { xyBack with aux := Aux.packed (Aux.aliases PF.specs []) } 60 0 3 (PF.heap, 6)).map fun r =>
    (Rs.Tool.run rsNoFloats (fun _ => none) (r.2.rust 2) 0 60 r.1 (rnRows t),
     Rs.Names.run rsNoFloats (fun _ => none) (r.2.rust 2) (Rs.Names.bounds PF.specs []) true false 0 60 r.1 (rnRows t))

/-- With a PTSPEC section before an FTSPEC section the names are wrong: in the program `PTSPEC p: x; FTSPEC f: y;` the verdicts on `p` (number 0) are
printed under the name `f`, and those on `f` (number 1) under the name `p`. -/
theorem C79_past_first_fails : C2po.parse id (-1) pfText = some PF.parsed ∧ frontEnd {} 30 PF.parsed = some ((PF.secs, PF.ctx), PF.fsrc, PF.psrc) ∧
    pfRustRun [("1", "0")] = some (some "1:0,F\n0:0,T\n".toList, some "p (1):0,F\nf (0):0,T\n".toList) :=
  ⟨PF.parse_eq, PF.front, by decide +kernel⟩

/-- A binary with a label of 51 characters: the hypotheses of `C79_long_label_fails` can be met. -/
example : ∃ bytes, assembleBytes [] (Aux.packed (Aux.aliases [(String.ofList (List.replicate 51 'a'), 0)] [])) = some bytes ∧
    ∀ trace ea dc, Rs.Names.run rsNoFloats (fun _ => none) ⟨10, 10, 10, 10, 10⟩ ⟨1, 1, 1⟩ ea dc 0 5 bytes trace = none := by
  obtain ⟨bytes, hb⟩ : ∃ bytes, assembleBytes [] (Aux.packed (Aux.aliases [(String.ofList (List.replicate 51 'a'), 0)] [])) = some bytes := ⟨_, rfl⟩
  exact ⟨bytes, hb, fun trace ea dc => C79_long_label_fails hb (List.mem_singleton.2 rfl) (by decide) _ _ _ _ _ (by simp) _ _ _⟩

/-- A binary assembled without names: the contract of `rnRun`. -/
example : ((compileBinary ⟨false, false, false⟩ { rnBack with aux := [0] } 60 0 9 (rnHeap, 10)).map fun r =>
    Rs.Names.run rsNoFloats (fun _ => none) (r.2.rust 3) ⟨0, 0, 0⟩ false false 0 60 r.1 (rnRows [("1", "1"), ("0", "0")])) =
    some (some "0:0,T\n1:0,T\n2:0,T\n0:1,F\n1:1,T\n2:1,F\n".toList) := by decide +kernel

end R2U2
