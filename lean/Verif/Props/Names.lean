import Verif.Lemmas.Names
import Verif.Lemmas.Csv
import Verif.Props.Csv
/-
C73: names of specifications and statuses of contracts in the output of the C monitor built with `R2U2_AUX_STRING_SPECS`.
-/
namespace R2U2
open Heap Expr GraphPass

namespace Aux

/-- The verdicts the command line tool prints. -/
def outs (size : Nat) (lim : Limits) (fuel : Nat) (spec : List Nat) (trace : List Char) : Option (List (Nat × Verdict)) :=
  (loadBinary fuel spec).bind fun (es, _) =>
  (Flat.start lim (LoadEv.configs es) (LoadEv.tlTable es)).bind fun F =>
  (Cli.mainLoop size (LoadEv.tlTable es) fuel (trace.length + 1) F trace).map fun F => F.out

theorem main_outs (size : Nat) (lim : Limits) (fuel : Nat) (spec : List Nat) (trace : List Char) :
    Cli.main size lim fuel spec trace = (outs size lim fuel spec trace).map fun out => out.flatMap Cli.line := by
  simp only [Cli.main, outs, Option.map_bind, Option.map_map, Function.comp_def]

/-- What the monitor that knows names prints.  Of the contracts it knows those before the last for which it was built. -/
theorem named_output {is : List Instr} {specs : List (String × Nat)} {contracts : List (String × Nat × Nat × Nat)} {spec : List Nat}
    (hs : assembleBytes is (packed (aliases specs contracts)) = some spec) (hl : Labels specs contracts) (hne : specs ≠ [])
    (hn : specs.map (fun x => x.2) = List.range specs.length) (hd : (contracts.flatMap nums).Nodup) {alim : Lim}
    (hb : room specs contracts ≤ alim.bytes) (hf : specs.length ≤ alim.formulas) (hc : contracts ≠ [] → 0 < alim.contracts)
    (size : Nat) (lim : Limits) {fuel : Nat} (hfuel : is.length < fuel) (trace : List Char) :
    main size lim alim fuel spec trace = (outs size lim fuel spec trace).map fun out =>
      out.flatMap fun x => nameLine specs x ++ statusLines (contracts.take (alim.contracts - 1)) x := by
  obtain ⟨es, stop, _, h1, _, h3⟩ := C25_framing is _ spec hs
  obtain ⟨A, h4, h5⟩ := load_packed hl hne hb hf hc
  have hrep : ∀ x, A.report x = some (nameLine specs x ++ statusLines (contracts.take (alim.contracts - 1)) x) :=
    report_eq h5 (fun f h => word_of_ident (hl.idents f h).1) (fun c h => word_of_ident (hl.contracts c (List.mem_of_mem_take h)).1) hn
      (hd.sublist ((List.take_sublist _ _).flatMap nums))
  simp only [outs, main, h1 fuel hfuel, Option.bind_some, h3, h4]
  cases hst : Flat.start lim (LoadEv.configs es) (LoadEv.tlTable es) with
  | none => simp
  | some F =>
    simp only [Option.bind_some]
    cases hml : Cli.mainLoop size (LoadEv.tlTable es) fuel (trace.length + 1) F trace with
    | none => simp
    | some F' => simp only [Option.map_some, Option.bind_some]; exact reports_eq hrep _

end Aux

/-- C73.  `specs` are the labels and numbers of the specifications, in the order in which the assembler lists them, and `contracts` the contracts;
the assembler writes them after the instructions.  The monitor that knows names, built with enough room, prints for each verdict that the
monitor without names prints as `number:time,T` or `F` the line with the label of the specification with that number instead, and after it the
status of the contract the verdict decides, if it decides one.

Partial: the labels are identifiers of at most 50 characters; the specifications are listed in the order of their numbers; the monitor is built
for more contracts than there are.  For the last two see `C73_past_first_fails` and `C73_last_contract_fails`. -/
theorem C73_names_partial {is : List Instr} {specs : List (String × Nat)} {contracts : List (String × Nat × Nat × Nat)} {spec : List Nat}
    (hs : assembleBytes is (Aux.packed (Aux.aliases specs contracts)) = some spec) (hl : Aux.Labels specs contracts) (hne : specs ≠ [])
    (hn : specs.map (fun x => x.2) = List.range specs.length) (hd : (contracts.flatMap fun c => [c.2.1, c.2.2.1, c.2.2.2]).Nodup) {alim : Aux.Lim}
    (hb : Aux.room specs contracts ≤ alim.bytes) (hf : specs.length ≤ alim.formulas) (hc : contracts.length < alim.contracts)
    (size : Nat) (lim : Limits) {fuel : Nat} (hfuel : is.length < fuel) (trace : List Char) :
    (Cli.main size lim fuel spec trace = none → Aux.main size lim alim fuel spec trace = none) ∧
      ∀ text, Cli.main size lim fuel spec trace = some text → ∃ out : List (Nat × Verdict), text = out.flatMap Cli.line ∧
        Aux.main size lim alim fuel spec trace = some (out.flatMap fun x => Aux.nameLine specs x ++ Aux.statusLines contracts x) := by
  rw [Aux.named_output hs hl hne hn hd hb hf (fun _ => by omega) size lim hfuel trace, List.take_of_length_le (by omega), Aux.main_outs]
  cases Aux.outs size lim fuel spec trace with
  | none => simp
  | some out =>
    refine ⟨by simp, ?_⟩
    rintro _ ⟨⟩
    exact ⟨out, rfl, rfl⟩

/-- The limits the compiler writes for the names have enough room for them. -/
theorem bounds_room {specs : List (String × Nat)} {contracts : List (String × Nat × Nat × Nat)} (hl : Aux.Labels specs contracts) :
    (Aux.bounds specs contracts).bytes = Aux.room specs contracts := by
  have hal : ¬ (specs.any fun s => 50 < s.1.length) = true := by
    simp only [List.any_eq_true, decide_eq_true_eq, not_exists, not_and, not_lt]
    exact fun s hs => (hl.idents s hs).2.1
  simp only [Aux.bounds, Aux.aliases, if_neg hal, Aux.room, List.map_append, List.map_map, List.sum_append, List.length_append, List.length_map]
  have key : ∀ {β : Type} (l : List β) (f : β → Nat), (l.map fun x => f x + 1).sum = (l.map f).sum + l.length := by
    intro β l f
    induction l with
    | nil => rfl
    | cons a l ih => simp only [List.map_cons, List.sum_cons, List.length_cons, ih]; omega
  rw [key specs fun s => s.1.length, key contracts fun c => c.1.length]
  simp only [Function.comp_def, Aux.Alias.label]
  omega

/-- The monitor is built with the limits the compiler writes for the program.  Then everything is printed except what is about the last contract: of
it, nothing ever is; a program with a single contract is told nothing of it. -/
theorem C73_last_contract_fails {is : List Instr} {specs : List (String × Nat)} {contracts : List (String × Nat × Nat × Nat)} {spec : List Nat}
    (hs : assembleBytes is (Aux.packed (Aux.aliases specs contracts)) = some spec) (hl : Aux.Labels specs contracts) (hne : specs ≠ [])
    (hn : specs.map (fun x => x.2) = List.range specs.length) (hd : (contracts.flatMap fun c => [c.2.1, c.2.2.1, c.2.2.2]).Nodup)
    (size : Nat) (lim : Limits) {fuel : Nat} (hfuel : is.length < fuel) (trace : List Char) (text : List Char)
    (ht : Cli.main size lim fuel spec trace = some text) : ∃ out : List (Nat × Verdict), text = out.flatMap Cli.line ∧
      Aux.main size lim (Aux.bounds specs contracts) fuel spec trace =
        some (out.flatMap fun x => Aux.nameLine specs x ++ Aux.statusLines contracts.dropLast x) := by
  have hout := Aux.named_output (alim := Aux.bounds specs contracts) hs hl hne hn hd (bounds_room hl).ge (Nat.le_refl _)
    (fun h => List.length_pos_iff.2 h) size lim hfuel trace
  rw [show (Aux.bounds specs contracts).contracts = contracts.length from rfl, ← List.dropLast_eq_take] at hout
  rw [Aux.main_outs] at ht
  obtain ⟨out, h1, rfl⟩ := Option.map_eq_some_iff.1 ht
  exact ⟨out, rfl, by rw [hout, h1]; rfl⟩

/-! ### From the text of a program -/

theorem futureFirst_specs : ∀ {secs : List Sec}, FutureFirst secs → specsOf true secs ++ specsOf false secs = allSpecs secs
  | [], _ => rfl
  | s :: secs, h => by
    rw [FutureFirst, List.pairwise_cons] at h
    have ih := futureFirst_specs h.2
    rw [specsOf_cons true, specsOf_cons false]
    have ha : allSpecs (s :: secs) = allSpecs [s] ++ allSpecs secs := by simp [allSpecs]
    rw [ha, ← ih]
    cases s with
    | spec ft ss =>
      cases ft with
      | true => simp [specsOf, allSpecs]
      | false =>
        have : specsOf true secs = [] := by
          simp only [specsOf, List.flatMap_eq_nil_iff]
          intro b hb
          have := h.1 b hb ss
          cases b with
          | spec ft ss' =>
            cases ft with
            | true => exact absurd rfl (this ss' rfl)
            | false => rfl
          | _ => rfl
        rw [this]
        simp [specsOf, allSpecs]
    | _ => simp [specsOf, allSpecs]

theorem allSpecs_numbers (secs : List Sec) : (allSpecs secs).flatMap C2po.numbersOf = secs.flatMap Sec.numbers := by
  rw [allSpecs, List.flatMap_assoc]
  refine congrArg (fun g => List.flatMap g secs) (funext fun s => ?_)
  cases s <;> rfl

theorem foldl_dictPut : ∀ (cs d : List (String × Nat × Nat × Nat)), ((d ++ cs).map (·.1)).Nodup →
    cs.foldl (fun d c => dictPut d c.1 c.2) d = d ++ cs
  | [], d, _ => by simp
  | c :: cs, d, h => by
    have hc : c.1 ∉ d.map (·.1) := by
      rw [List.map_append, List.map_cons, List.nodup_append] at h
      intro hm
      exact h.2.2 _ hm _ (by simp) rfl
    rw [List.foldl_cons, dictPut, if_neg hc, foldl_dictPut cs _ (by simpa using h)]
    simp

theorem contractsOf_eq {secs : List Sec} (h : ((contractsIn (allSpecs secs)).map (·.1)).Nodup) : contractsOf secs = contractsIn (allSpecs secs) := by
  have := foldl_dictPut (contractsIn (allSpecs secs)) [] (by simpa using h)
  rw [List.nil_append] at this
  refine Eq.trans ?_ this
  rw [contractsOf]
  refine congrArg (fun l => List.foldl _ _ (contractsIn l)) ?_
  rw [allSpecs]
  refine congrArg (fun g => List.flatMap g secs) (funext fun s => ?_)
  cases s <;> rfl

theorem contracts_nums : ∀ ss : List Spec, List.Sublist ((contractsIn ss).flatMap Aux.nums) (ss.flatMap C2po.numbersOf)
  | [] => by simp [contractsIn]
  | s :: ss => by
    have h : contractsIn (s :: ss) = contractsIn [s] ++ contractsIn ss := by simp [contractsIn]
    rw [h, List.flatMap_append, List.flatMap_cons]
    refine List.Sublist.append ?_ (contracts_nums ss)
    cases s with
    | formula l n e => simp [contractsIn]
    | contract l a b c _ _ => exact List.Sublist.refl _

/-- The verdict that covers a time. -/
theorem Answers.covers {V : Nat → Prop} {h : List Verdict} (ha : Answers V h) {t : Nat} (hu : ∃ u ∈ h, t ≤ u.time) :
    ∃ u ∈ h, t ≤ u.time ∧ ∀ i, t ≤ i → i ≤ u.time → (V i ↔ u.truth = true) := by
  classical
  have hex : ∃ k : Nat, ∃ u : Verdict, h[k]? = some u ∧ t ≤ u.time := by
    obtain ⟨u, h1, h2⟩ := hu
    obtain ⟨k, hk⟩ := List.getElem?_of_mem h1
    exact ⟨k, u, hk, h2⟩
  obtain ⟨u, h1, h2⟩ := Nat.find_spec hex
  refine ⟨u, List.mem_of_getElem? h1, h2, fun i hi1 hi2 => ha.value _ u i h1 ?_ hi2⟩
  intro j w hj hw
  by_contra hcon
  exact Nat.find_min hex hj ⟨w, hw, by omega⟩

theorem Answers.at_own {V : Nat → Prop} {h : List Verdict} (ha : Answers V h) {u : Verdict} (hu : u ∈ h) : V u.time ↔ u.truth = true := by
  obtain ⟨k, hk⟩ := List.getElem?_of_mem hu
  refine ha.value k u _ hk ?_ (Nat.le_refl _)
  intro j w hj hw
  obtain ⟨hk', e⟩ := List.getElem?_eq_some_iff.1 hk
  obtain ⟨hj', e'⟩ := List.getElem?_eq_some_iff.1 hw
  have := List.pairwise_iff_getElem.1 ha.sorted j k hj' hk' hj
  rwa [e, e'] at this

/-- The statuses of a contract from the verdicts on its three formulas. -/
theorem tells {A G : Nat → Bool} {c : String × Nat × Nat × Nat} {out : List (Nat × Verdict)} {T : Nat} (hn : (Aux.nums c).Nodup)
    (h0 : Answers (fun t => A t = true) ((out.filter fun x => x.1 = c.2.1).map (·.2)))
    (h1 : Answers (fun t => (!A t || G t) = true) ((out.filter fun x => x.1 = c.2.2.1).map (·.2)))
    (h2 : Answers (fun t => (A t && G t) = true) ((out.filter fun x => x.1 = c.2.2.2).map (·.2)))
    (t0 : ∀ t < T, ∃ u ∈ (out.filter fun x => x.1 = c.2.1).map (·.2), t ≤ u.time)
    (t1 : ∀ t < T, ∃ u ∈ (out.filter fun x => x.1 = c.2.2.1).map (·.2), t ≤ u.time)
    (t2 : ∀ t < T, ∃ u ∈ (out.filter fun x => x.1 = c.2.2.2).map (·.2), t ≤ u.time) : Aux.Tells A G c out T := by
  have n01 : c.2.1 ≠ c.2.2.1 := by simp [Aux.nums] at hn; tauto
  have n02 : c.2.1 ≠ c.2.2.2 := by simp [Aux.nums] at hn; tauto
  have n12 : c.2.2.1 ≠ c.2.2.2 := by simp [Aux.nums] at hn; tauto
  have mem : ∀ {k : Nat} {x : Nat × Verdict}, x ∈ out → x.1 = k → x.2 ∈ (out.filter fun x => x.1 = k).map (·.2) := by
    intro k x hx hk
    exact List.mem_map.2 ⟨x, List.mem_filter.2 ⟨hx, by simpa using hk⟩, rfl⟩
  have back : ∀ {k : Nat} {u : Verdict}, u ∈ (out.filter fun x => x.1 = k).map (·.2) → (k, u) ∈ out := by
    intro k u hu
    obtain ⟨x, hx, rfl⟩ := List.mem_map.1 hu
    obtain ⟨hx1, hx2⟩ := List.mem_filter.1 hx
    simp only [decide_eq_true_eq] at hx2
    subst hx2
    exact hx1
  refine ⟨fun x hx s hs => ?_, fun t ht => ?_⟩
  · unfold Aux.statusOf at hs
    split_ifs at hs with g0 g1 g2 <;> simp only [Option.some.injEq] at hs <;> subst hs
    · have := h0.at_own (mem hx g0.1)
      simp only [g0.2, Bool.false_eq_true, iff_false, Bool.not_eq_true] at this
      simp [Aux.status, this]
    · have := h1.at_own (mem hx g1.1)
      simp only [g1.2, Bool.false_eq_true, iff_false, Bool.not_eq_true, Bool.or_eq_false_iff, Bool.not_eq_false'] at this
      simp [Aux.status, this]
    · have := h2.at_own (mem hx g2.1)
      simp only [g2.2, iff_true, Bool.and_eq_true] at this
      simp [Aux.status, this]
  · obtain ⟨u0, a1, a2, a3⟩ := h0.covers (t0 t ht)
    obtain ⟨u1, b1, b2, b3⟩ := h1.covers (t1 t ht)
    obtain ⟨u2, c1, c2, c3⟩ := h2.covers (t2 t ht)
    cases hA : A t with
    | false =>
      have e : u0.truth = false := by have := a3 t (Nat.le_refl _) a2; simpa [hA] using this
      refine ⟨(c.2.1, u0), back a1, a2, fun i hi1 hi2 => ?_⟩
      have := a3 i hi1 hi2
      simp only [e, Bool.false_eq_true, iff_false, Bool.not_eq_true] at this
      simp [Aux.statusOf, Aux.status, e, this]
    | true =>
      cases hG : G t with
      | false =>
        have e : u1.truth = false := by have := b3 t (Nat.le_refl _) b2; simpa [hA, hG] using this
        refine ⟨(c.2.2.1, u1), back b1, b2, fun i hi1 hi2 => ?_⟩
        have := b3 i hi1 hi2
        simp only [e, Bool.false_eq_true, iff_false, Bool.not_eq_true, Bool.or_eq_false_iff, Bool.not_eq_false'] at this
        simp [Aux.statusOf, Aux.status, e, this, Ne.symm n01]
      | true =>
        have e : u2.truth = true := by have := c3 t (Nat.le_refl _) c2; simpa [hA, hG] using this
        refine ⟨(c.2.2.2, u2), back c1, c2, fun i hi1 hi2 => ?_⟩
        have := c3 i hi1 hi2
        simp only [e, iff_true, Bool.and_eq_true] at this
        simp [Aux.statusOf, Aux.status, e, this, Ne.symm n02, Ne.symm n12]

theorem forall2_mem {A B : Type} {R : A → B → Prop} {as : List A} {bs : List B} (h : List.Forall₂ R as bs) {a : A} (ha : a ∈ as) : ∃ b ∈ bs, R a b := by
  induction h with
  | nil => cases ha
  | cons h1 _ ih =>
    rcases List.mem_cons.1 ha with rfl | ha
    · exact ⟨_, by simp, h1⟩
    · obtain ⟨b, hb, hr⟩ := ih ha; exact ⟨b, by simp [hb], hr⟩

/-- C73 from the text of a program.  The text is compiled as in C71, with the names of its specifications.  The command line tool of the monitor
that knows names prints for each verdict the line with the label of its specification (the three formulas of a contract have labels of their own),
then the line about the contract it decides.  What these lines say of the contracts is what their assumptions and guarantees, as written, mean on
the values in the file: `verified` where both hold, `invalid` where only the assumption does, `inactive` elsewhere.

Partial: as C71 and `C73_names_partial`: the program has no PTSPEC section before an FTSPEC section, and the monitor is built for more contracts
than the program has. -/
theorem C73_text_partial {F : Type} {I : Interp F} {flt : String → String} {mission : Int} {text : List Char} {secs : List C2po.Section}
    (hparse : C2po.parse flt mission text = some secs)
    {Γ₀ Γ : TcCtx} {fuel₀ : Nat} {secs' : List Sec} {fsrc psrc : List (String × Nat × Src)}
    (hfront : frontEnd Γ₀ fuel₀ secs = some ((secs', Γ), fsrc, psrc))
    (hI : I.Fits Γ.scalarDecls) (hD : Γ.scalarDecls.Apart)
    {N : Scope} (hN : N.Declares (fun s d => nameOf (secs', Γ) s = some d) Γ.scalarDecls)
    (hr : ∀ past, ∀ s ∈ specsOf past secs', ∀ e ∈ s.exprs, e.Proper Γ.scalarDecls N (nameOf (secs', Γ)))
    {S : List String} (hS : ∀ s ∈ S, IsIdent s) {fs ps : List (SpecOf {s : String // s ∈ S})}
    (hf : Src.toSpecs S fsrc = some fs) (hp : Src.toSpecs S psrc = some ps)
    {o : CliOpts} {b : BackEnd} {h : Heap Lab} {n ft pt fuel : Nat} (hm : InMemory h n ft pt fsrc psrc) (hx : Apart h ft pt)
    (hfs : ∀ s ∈ fs, Fit o false s.2.2) (hps : ∀ s ∈ ps, Fit o true s.2.2)
    (hkf : ∀ s ∈ fs, span false s.2.2 ≤ b.slack) (hkp : ∀ s ∈ ps, span true s.2.2 ≤ b.slack)
    (hsid : ∀ s ∈ S, 0 ≤ b.sid s) {bytes : List Nat} {bounds : Bounds}
    (hc : compileBinary o b fuel ft pt (h, n) = some (bytes, bounds)) (hat : ∀ s ∈ S, b.sid s < bounds.maxAtomics)
    (hfirst : FutureFirst secs') (hone : ((contractsIn (allSpecs secs')).map (·.1)).Nodup)
    {specs : List (String × Nat)} (hspecs : specs = (fsrc ++ psrc).map fun s => (s.1, s.2.1)) (hne : specs ≠ [])
    (hl : Aux.Labels specs (contractsOf secs')) (haux : b.aux = Aux.packed (Aux.aliases specs (contractsOf secs'))) {alim : Aux.Lim}
    (hb : Aux.room specs (contractsOf secs') ≤ alim.bytes) (hlf : specs.length ≤ alim.formulas) (hlc : (contractsOf secs').length < alim.contracts) :
    ∃ bound, ∀ fuel, bound ≤ fuel → ∀ (size w : Nat) (header : Option (List Char)) (rows : List (List (List Char))),
      (∀ h, header = some h → Cli.Header size h) → Cli.Rows size w rows → w ≤ bounds.maxAtomics → rows.length + b.slack < 2 ^ 31 →
      ∃ out : List (Nat × Verdict), Aux.main size bounds.limits alim fuel bytes (Cli.csv header rows) =
          some (out.flatMap fun x => Aux.nameLine specs x ++ Aux.statusLines (contractsOf secs') x) ∧
        ∀ ρ : Env F, ρ.Fits Γ.scalarDecls Scope.empty → ρ.Respects (fun s d => nameOf (secs', Γ) s = some d) I →
          (∀ s ∈ S, ∀ t, ρ.sig s t = .bool (Cli.signal rows t (b.sid s).toNat)) →
          List.Forall₂ (fun v f => v.1 = f.2.1 ∧ Answers (fun t => v.2 t = true) ((out.filter fun x => x.1 = v.1).map (·.2)) ∧
              ∀ t, t + span false f.2.2 < rows.length → ∃ u ∈ (out.filter fun x => x.1 = v.1).map (·.2), t ≤ u.time)
            ((specsOf true secs').flatMap (Spec.verdicts I ρ)) fs ∧
          List.Forall₂ (fun v f => v.1 = f.2.1 ∧ Answers (fun t => v.2 t = true) ((out.filter fun x => x.1 = v.1).map (·.2)) ∧
              ∀ t, t < rows.length → ∃ u ∈ (out.filter fun x => x.1 = v.1).map (·.2), t ≤ u.time)
            ((specsOf false secs').flatMap (Spec.verdicts I ρ)) ps ∧
          ∀ l n₀ n₁ n₂ a g, Spec.contract l n₀ n₁ n₂ a g ∈ allSpecs secs' → (l, n₀, n₁, n₂) ∈ contractsOf secs' ∧
            Aux.Tells (fun t => (a.sem I ρ t).isTrue) (fun t => (g.sem I ρ t).isTrue) (l, n₀, n₁, n₂) out (rows.length - b.slack) := by
  have hnums : (allSpecs secs').flatMap C2po.numbersOf = secs.flatMap C2po.Section.numbers ∧ specs.map (fun x => x.2) = (allSpecs secs').flatMap C2po.numbersOf := by
    simp only [frontEnd, Option.bind_eq_some_iff, Option.map_eq_some_iff, Prod.exists, Prod.mk.injEq] at hfront
    obtain ⟨_, _, k1, _, k2, _, k3, ⟨q1, q2⟩, q3, q4⟩ := hfront
    rw [q1, q2] at k1
    rw [q1, q2, q3] at k2
    rw [q1, q2, q4] at k3
    obtain ⟨f1, _, _, _⟩ := set_verdicts' hI hD rfl hN rfl rfl (hr true) k2 hf
    obtain ⟨p1, _, _, _⟩ := set_verdicts' hI hD rfl hN rfl rfl (hr false) k3 hp
    constructor
    · rw [allSpecs_numbers, checkProgram_numbers k1, List.flatMap_map]
      simp only [toSec_numbers]
    · rw [← futureFirst_specs hfirst, List.flatMap_append, ← f1, ← p1, hspecs, List.map_map, ← List.map_append]
      rfl
  obtain ⟨k, hk⟩ := C2po.C61_numbers flt mission text secs hparse
  have hrange : specs.map (fun x => x.2) = List.range specs.length := by
    have e : specs.map (fun x => x.2) = List.range k := by rw [hnums.2, hnums.1, hk]
    have : specs.length = k := by simpa using congrArg List.length e
    rw [this]; exact e
  have hnd : ((allSpecs secs').flatMap C2po.numbersOf).Nodup := by rw [hnums.1, hk]; exact List.nodup_range
  have hcd : ((contractsOf secs').flatMap Aux.nums).Nodup := by rw [contractsOf_eq hone]; exact hnd.sublist (contracts_nums _)
  obtain ⟨es, stop, F0, bound, c1, c2, c3⟩ := C65_text_to_verdicts_partial hparse hfront hI hD hN hr hS hf hp hm hx hfs hps hkf hkp hsid hc hat
  obtain ⟨is, his⟩ : ∃ is, assembleBytes is b.aux = some bytes := by
    simp only [compileBinary, assembleG, Option.bind_eq_some_iff, Option.map_eq_some_iff] at hc
    obtain ⟨_, _, _, _, _, _, A, _, bs, hbs, e⟩ := hc
    cases e
    exact ⟨_, hbs⟩
  rw [haux] at his
  refine ⟨max bound (is.length + 1), fun fuel hfuel size w header rows hh hrows hw hT => ?_⟩
  have hfuel1 := le_trans (le_max_left _ _) hfuel
  obtain ⟨M, d1, d2⟩ := c3 fuel hfuel1 (Cli.signal rows) rows.length hT
  obtain ⟨k1, k2, k3⟩ := Flat.start_keeps c2
  have houts : Aux.outs size bounds.limits fuel bytes (Cli.csv header rows) = some M.out := by
    simp only [Aux.outs, c1 fuel hfuel1, c2, Option.bind_some]
    rw [Cli.mainLoop_csv _ _ hh hrows (by rw [k2]; exact hw) (by simp [k1]) k3, d1]
    rfl
  refine ⟨M.out, ?_, fun ρ hρ hres hsig => ?_⟩
  · rw [Aux.named_output his hl hne hrange hcd hb hlf (fun _ => by omega) size _ (le_trans (le_max_right _ _) hfuel), houts,
      List.take_of_length_le (by omega)]
    rfl
  · obtain ⟨d3, d4⟩ := d2 ρ hρ hres hsig
    refine ⟨d3, d4, fun l n₀ n₁ n₂ a g hmem => ?_⟩
    have hin : (l, n₀, n₁, n₂) ∈ contractsOf secs' := by
      rw [contractsOf_eq hone]
      exact List.mem_flatMap.2 ⟨_, hmem, by simp⟩
    refine ⟨hin, ?_⟩
    have hndc : (Aux.nums (l, n₀, n₁, n₂)).Nodup := (List.nodup_flatMap.1 hcd).1 _ hin
    rw [← futureFirst_specs hfirst] at hmem
    have hv : ∀ v ∈ Spec.verdicts I ρ (.contract l n₀ n₁ n₂ a g), Answers (fun t => v.2 t = true) ((M.out.filter fun x => x.1 = v.1).map (·.2)) ∧
        ∀ t < rows.length - b.slack, ∃ u ∈ (M.out.filter fun x => x.1 = v.1).map (·.2), t ≤ u.time := by
      intro v hv
      rcases List.mem_append.1 hmem with hmem | hmem
      · obtain ⟨f, hf1, _, r2, r3⟩ := forall2_mem d3 (List.mem_flatMap.2 ⟨_, hmem, hv⟩)
        exact ⟨r2, fun t ht => r3 t (by have := hkf f hf1; omega)⟩
      · obtain ⟨f, hf1, _, r2, r3⟩ := forall2_mem d4 (List.mem_flatMap.2 ⟨_, hmem, hv⟩)
        exact ⟨r2, fun t ht => r3 t (by omega)⟩
    have v0 := hv (n₀, fun t => (a.sem I ρ t).isTrue) (by simp [Spec.verdicts])
    have v1 := hv (n₁, fun t => !(a.sem I ρ t).isTrue || (g.sem I ρ t).isTrue) (by simp [Spec.verdicts])
    have v2 := hv (n₂, fun t => (a.sem I ρ t).isTrue && (g.sem I ρ t).isTrue) (by simp [Spec.verdicts])
    exact tells hndc v0.1 v1.1 v2.1 v0.2 v1.2 v2.2

namespace FE

/-- The program of C65 with the names of its specifications. -/
def specs : List (String × Nat) := [("a", 0), ("__c_active__", 1), ("__c_valid__", 2), ("__c_verified__", 3), ("p", 4)]
def named : BackEnd := { back with aux := Aux.packed (Aux.aliases specs [("c", 1, 2, 3)]) }

theorem conts : contractsOf secs = [("c", 1, 2, 3)] := by
  simp [contractsOf, contractsIn, secs, dictPut]

theorem labels : Aux.Labels specs [("c", 1, 2, 3)] := by
  refine ⟨?_, ?_⟩
  · intro s hs
    simp only [specs, List.mem_cons, List.not_mem_nil, or_false] at hs
    rcases hs with rfl | rfl | rfl | rfl | rfl <;>
      exact ⟨ident rfl (by decide) (by decide) (by decide) (by decide), by decide, by decide⟩
  · intro c hc
    simp only [List.mem_cons, List.not_mem_nil, or_false] at hc
    subst hc
    exact ⟨ident rfl (by decide) (by decide) (by decide) (by decide), by decide⟩

/-- All the hypotheses of C73 hold of this program and every trace of its two signals: what is printed of the contract `c: d => F[1,3] y` is
right. -/
example : ∃ bytes bounds, compileBinary ⟨true, false, true⟩ named 100 0 17 (heap, 21) = some (bytes, bounds) ∧
    ∃ bound, ∀ fuel, bound ≤ fuel → ∀ rows : List (Bool × Bool), rows.length + 3 < 2 ^ 31 →
      ∃ out : List (Nat × Verdict),
        Aux.main 8192 bounds.limits ⟨64, 5, 2⟩ fuel bytes (Cli.csv (some " x,y".toList) (bits rows)) =
          some (out.flatMap fun x => Aux.nameLine specs x ++ Aux.statusLines [("c", 1, 2, 3)] x) ∧
        Aux.Tells (fun t => ((var "d").sem interp (env (Cli.signal (bits rows))) t).isTrue)
          (fun t => (Fy.sem interp (env (Cli.signal (bits rows))) t).isTrue) ("c", 1, 2, 3) out (rows.length - 3) := by
  have hm : (compileBinary ⟨true, false, true⟩ named 100 0 17 (heap, 21)).map (fun r => r.2.maxAtomics) = some 2 := by decide +kernel
  obtain ⟨⟨bytes, bounds⟩, hr, hb⟩ := Option.map_eq_some_iff.1 hm
  refine ⟨bytes, bounds, hr, ?_⟩
  obtain ⟨bound, c3⟩ := C73_text_partial (I := interp) (b := named) parse_eq front ⟨rfl, rfl, fun _ _ _ _ _ _ => .err⟩
    (by intro s n ms hs hm; simp [TcCtx.scalarDecls, TcCtx.decls, ctx] at hm) declares proper_all
    (by
      intro s hs
      simp only [List.mem_cons, List.not_mem_nil, or_false] at hs
      rcases hs with rfl | rfl <;> exact ident rfl (by decide) (by decide) (by decide) (by decide))
    fs_eq ps_eq inMemory apart fit_f fit_p
    (by intro s hs; simp only [fs, List.mem_cons, List.not_mem_nil, or_false] at hs; rcases hs with rfl | rfl | rfl | rfl <;> simp [span, spanL, named, back, X, Y])
    (by intro s hs; simp only [ps, List.mem_cons, List.not_mem_nil, or_false] at hs; subst hs; simp [span, named, back, Y])
    (by decide) hr (by dsimp only at hb; rw [hb]; decide)
    (by simp [FutureFirst, secs]) (by simp [contractsIn, allSpecs, secs]) (specs := specs) rfl (by simp [specs])
    (by rw [conts]; exact labels) (by rw [conts]; rfl) (alim := ⟨64, 5, 2⟩) (by rw [conts]; decide) (by decide) (by rw [conts]; decide)
  rw [conts] at c3
  refine ⟨bound, fun fuel hfuel rows hT => ?_⟩
  obtain ⟨out, d1, d2⟩ := c3 fuel hfuel 8192 2 (some " x,y".toList) (bits rows)
    (by rintro _ ⟨⟩; exact ⟨by decide, by decide⟩)
    (bits_rows rows) (by dsimp only at hb; rw [hb]) (by simpa [bits, named, back] using hT)
  obtain ⟨_, _, d3⟩ := d2 _ (env_fits _) (env_respects _) (fun s _ t => rfl)
  refine ⟨out, d1, ?_⟩
  have := (d3 "c" 1 2 3 (var "d") Fy (by simp [allSpecs, secs])).2
  simpa [bits, named, back] using this

end FE

/-! ### Programs for which the claim fails -/

/-- The contract `c: x => y` in memory. -/
def agcHeap : Heap Lab where
  lab
    | 1 => .formula "__c_active__" 0 | 2 => .name "x" | 3 => .formula "__c_valid__" 1 | 4 => .op .imp | 5 => .name "y"
    | 6 => .formula "__c_verified__" 2 | 7 => .op .and | _ => .specSet
  kids
    | 0 => [1, 3, 6] | 1 => [2] | 3 => [4] | 4 => [2, 5] | 6 => [7] | 7 => [2, 5] | _ => []
  pars
    | 1 => [0] | 2 => [1, 4, 7] | 3 => [0] | 4 => [3] | 5 => [4, 7] | 6 => [0] | 7 => [6] | _ => []

def agcSpecs : List (String × Nat) := [("__c_active__", 0), ("__c_valid__", 1), ("__c_verified__", 2)]
def agcContracts : List (String × Nat × Nat × Nat) := [("c", 0, 1, 2)]

/-- What the command line tool that knows names, built with the limits `alim`, prints for the contract and a trace file. -/
def agcRun (alim : Aux.Lim) (trace : String) : Option (List Char) :=
  (compileBinary ⟨false, false, false⟩ { xyBack with aux := Aux.packed (Aux.aliases agcSpecs agcContracts) } 60 0 8 (agcHeap, 9)).bind fun r =>
    Aux.main 8192 r.2.limits alim 60 r.1 trace.toList

/-- Built for two contracts, it tells the status of the only one. -/
theorem agc_two : agcRun ⟨64, 3, 2⟩ "# x,y\n0,1\n1,0\n1,1\n" = some (
    "__c_active__:0,F\nContract c inactive at 0\n__c_valid__:0,T\n__c_verified__:0,F\n" ++
    "__c_active__:1,T\n__c_valid__:1,F\nContract c invalid at 1\n__c_verified__:1,F\n" ++
    "__c_active__:2,T\n__c_valid__:2,T\n__c_verified__:2,T\nContract c verified at 2\n").toList := by decide +kernel

/-- Built with the limits the compiler writes for the program, it tells nothing of the contract: a case of `C73_last_contract_fails`. -/
theorem C73_only_contract_fails : agcRun (Aux.bounds agcSpecs agcContracts) "# x,y\n0,1\n1,0\n1,1\n" = some (
    "__c_active__:0,F\n__c_valid__:0,T\n__c_verified__:0,F\n" ++
    "__c_active__:1,T\n__c_valid__:1,F\n__c_verified__:1,F\n" ++
    "__c_active__:2,T\n__c_valid__:2,T\n__c_verified__:2,T\n").toList := by decide +kernel

/-- A program with a PTSPEC section before an FTSPEC section. -/
def pfText : List Char := "INPUT x, y: bool; PTSPEC p: x; FTSPEC f: y;".toList

namespace PF
def sig (s : String) : Src := .node (.sig s) .bool []
def parsed : List C2po.Section := [.input [(["x", "y"], .bool)], .spec false [.formula "p" 0 (.node (.sig "x") .none [])],
  .spec true [.formula "f" 1 (.node (.sig "y") .none [])]]
def secs : List Sec := [.input [(["x", "y"], .bool)], .spec false [.formula "p" 0 (sig "x")], .spec true [.formula "f" 1 (sig "y")]]
def ctx : TcCtx := { signals := [("y", .bool), ("x", .bool)], specs := ["f", "p"], ft := true }
def fsrc : List (String × Nat × Src) := [("f", 1, sig "y")]
def psrc : List (String × Nat × Src) := [("p", 0, sig "x")]

theorem parse_eq : C2po.parse id (-1) pfText = some parsed := by rfl
theorem check_eq : Tc.checkProgram {} (parsed.map (·.toSec)) = some (secs, ctx) := by rfl
theorem future_eq : desugarSet (secs, ctx) 30 (specsOf true secs) = some fsrc := by rfl
theorem past_eq : desugarSet (secs, ctx) 30 (specsOf false secs) = some psrc := by rfl
theorem front : frontEnd {} 30 parsed = some ((secs, ctx), fsrc, psrc) := by
  rw [frontEnd, check_eq, Option.bind_some, future_eq, Option.bind_some, past_eq]; rfl

/-- The formulas in memory: the future-time set is node 0, the past-time set node 3. -/
def heap : Heap Lab where
  lab
    | 1 => .formula "f" 1 | 2 => .name "y" | 4 => .formula "p" 0 | 5 => .name "x" | _ => .specSet
  kids
    | 0 => [1] | 1 => [2] | 3 => [4] | 4 => [5] | _ => []
  pars
    | 1 => [0] | 2 => [1] | 4 => [3] | 5 => [4] | _ => []

/-- The assembler lists the names of the future-time set first. -/
def specs : List (String × Nat) := (fsrc ++ psrc).map fun s => (s.1, s.2.1)

/-- What is printed. -/
def run (trace : String) : Option (List Char × List Char) :=
  (compileBinary ⟨false, false, false⟩ { xyBack with aux := Aux.packed (Aux.aliases specs []) } 60 0 3 (heap, 6)).bind fun r =>
    (Cli.main 8192 r.2.limits 60 r.1 trace.toList).bind fun a =>
    (Aux.main 8192 r.2.limits (Aux.bounds specs []) 60 r.1 trace.toList).map fun b => (a, b)

end PF

/-- With a PTSPEC section before an FTSPEC section the names are wrong: in the program `PTSPEC p: x; FTSPEC f: y;` the verdicts on `p` (number 0) are
printed under the name `f`, and those on `f` (number 1) under the name `p`.  The assembler lists the names with their numbers, future-time
specifications first; the monitor takes the place in the list for the number. -/
theorem C73_past_first_fails : C2po.parse id (-1) pfText = some PF.parsed ∧ frontEnd {} 30 PF.parsed = some ((PF.secs, PF.ctx), PF.fsrc, PF.psrc) ∧
    PF.run "# x,y\n1,0\n" = some ("1:0,F\n0:0,T\n".toList, "p:0,F\nf:0,T\n".toList) :=
  ⟨PF.parse_eq, PF.front, by decide +kernel⟩

/-- A label of more than 50 characters: no specification of the program has a name in the binary. -/
theorem C73_long_label_fails {specs : List (String × Nat)} {contracts : List (String × Nat × Nat × Nat)} {s : String × Nat} (h : s ∈ specs)
    (hl : 50 < s.1.length) : Aux.packed (Aux.aliases specs contracts) = [] := by
  rw [Aux.aliases, if_pos (List.any_eq_true.2 ⟨s, h, by simpa using hl⟩)]
  rfl

end R2U2
