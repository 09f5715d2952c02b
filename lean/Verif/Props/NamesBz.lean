import Verif.Model.NamesBz
import Verif.Props.Names
import Verif.Props.BzCsvCompile
import Verif.Props.RustNamesBz
/-
C73 for programs over numeric expressions: names and contract statuses printed by the C monitor.
-/
namespace R2U2
open Heap Expr GraphPass
variable {α F : Type}

namespace Aux

/-- The verdicts the command line tool prints. -/
def outsBz (ops : FloatOps F) (readF : List Char → Option F) (size : Nat) (lim : Limits) (blim : BzLimits) (fuel : Nat) (spec : List Nat) (trace : List Char) :
    Option (List (Nat × Verdict)) :=
  (loadBinary fuel spec).bind fun (es, _) =>
  (BzMon.load ops blim es (BzMon.zero F)).bind fun m =>
  if BzMon.table es = [] then outs size lim fuel spec trace
  else
    (Flat.start lim (LoadEv.configs es) (LoadEv.tlTable es)).bind fun T =>
    (Cli.mainLoopBz ops readF blim size (BzMon.table es) (LoadEv.tlTable es) fuel (trace.length + 1) ⟨fun _ => .int 0, m, T⟩ trace).map fun S => S.tl.out

theorem mainBz_outs (ops : FloatOps F) (readF : List Char → Option F) (size : Nat) (lim : Limits) (blim : BzLimits) (fuel : Nat) (spec : List Nat)
    (trace : List Char) :
    Cli.mainBz ops readF size lim blim fuel spec trace = (outsBz ops readF size lim blim fuel spec trace).map fun out => out.flatMap Cli.line := by
  simp only [Cli.mainBz, outsBz, Option.map_bind, Function.comp_def]
  refine congrArg _ (funext fun x => congrArg _ (funext fun m => ?_))
  split
  · exact main_outs size lim fuel spec trace
  · simp only [Option.map_bind, Option.map_map, Function.comp_def]

/-- What the monitor that knows names prints. -/
theorem named_output_bz {is : List Instr} {specs : List (String × Nat)} {contracts : List (String × Nat × Nat × Nat)} {spec : List Nat}
    (hs : assembleBytes is (packed (aliases specs contracts)) = some spec) (hl : Labels specs contracts) (hne : specs ≠ [])
    (hn : specs.map (fun x => x.2) = List.range specs.length) (hd : (contracts.flatMap nums).Nodup) {alim : Lim}
    (hb : room specs contracts ≤ alim.bytes) (hf : specs.length ≤ alim.formulas) (hc : contracts ≠ [] → 0 < alim.contracts)
    (ops : FloatOps F) (readF : List Char → Option F) (size : Nat) (lim : Limits) (blim : BzLimits) {fuel : Nat} (hfuel : is.length < fuel)
    (trace : List Char) :
    mainBz ops readF size lim blim alim fuel spec trace = (outsBz ops readF size lim blim fuel spec trace).map fun out =>
      out.flatMap fun x => nameLine specs x ++ statusLines (contracts.take (alim.contracts - 1)) x := by
  have hmain := named_output hs hl hne hn hd hb hf hc size lim hfuel trace
  obtain ⟨es, stop, _, h1, _, h3⟩ := C25_framing is _ spec hs
  obtain ⟨A, h4, h5⟩ := load_packed hl hne hb hf hc
  have hrep : ∀ x, A.report x = some (nameLine specs x ++ statusLines (contracts.take (alim.contracts - 1)) x) :=
    report_eq h5 (fun f h => word_of_ident (hl.idents f h).1) (fun c h => word_of_ident (hl.contracts c (List.mem_of_mem_take h)).1) hn
      (hd.sublist ((List.take_sublist _ _).flatMap nums))
  simp only [outsBz, mainBz, h1 fuel hfuel, Option.bind_some, h3, h4, Option.map_bind, Function.comp_def]
  refine congrArg _ (funext fun m => ?_)
  split
  · exact hmain
  · rw [Option.map_bind]
    refine congrArg _ (funext fun T => ?_)
    simp only [Function.comp_def, Option.map_map]
    cases Cli.mainLoopBz ops readF blim size (BzMon.table es) (LoadEv.tlTable es) fuel (trace.length + 1) ⟨fun _ => .int 0, m, T⟩ trace with
    | none => rfl
    | some S => exact reports_eq hrep _

end Aux

/-- C73 with the booleanizer: as `C73_names_partial`, for every binary and every trace, whatever the values in it are.

Partial: as `C73_names_partial`. -/
theorem C73_names_numbers_partial {is : List Instr} {specs : List (String × Nat)} {contracts : List (String × Nat × Nat × Nat)} {spec : List Nat}
    (hs : assembleBytes is (Aux.packed (Aux.aliases specs contracts)) = some spec) (hl : Aux.Labels specs contracts) (hne : specs ≠ [])
    (hn : specs.map (fun x => x.2) = List.range specs.length) (hd : (contracts.flatMap fun c => [c.2.1, c.2.2.1, c.2.2.2]).Nodup) {alim : Aux.Lim}
    (hb : Aux.room specs contracts ≤ alim.bytes) (hf : specs.length ≤ alim.formulas) (hc : contracts.length < alim.contracts)
    (ops : FloatOps F) (readF : List Char → Option F) (size : Nat) (lim : Limits) (blim : BzLimits) {fuel : Nat} (hfuel : is.length < fuel)
    (trace : List Char) :
    (Cli.mainBz ops readF size lim blim fuel spec trace = none → Aux.mainBz ops readF size lim blim alim fuel spec trace = none) ∧
      ∀ text, Cli.mainBz ops readF size lim blim fuel spec trace = some text → ∃ out : List (Nat × Verdict), text = out.flatMap Cli.line ∧
        Aux.mainBz ops readF size lim blim alim fuel spec trace =
          some (out.flatMap fun x => Aux.nameLine specs x ++ Aux.statusLines contracts x) := by
  rw [Aux.named_output_bz hs hl hne hn hd hb hf (fun _ => by omega) ops readF size lim blim hfuel trace, List.take_of_length_le (by omega),
    Aux.mainBz_outs]
  cases Aux.outsBz ops readF size lim blim fuel spec trace with
  | none => simp
  | some out =>
    refine ⟨by simp, ?_⟩
    rintro _ ⟨⟩
    exact ⟨out, rfl, rfl⟩

/-- C73 for a compiled program over numeric expressions, whose binary carries the labels and numbers of its specifications and contracts.  The
command line tool of the monitor that knows names prints for each verdict the line with the label of its specification, then the
line about the contract it decides.  The verdicts are right and in time (C74).  A contract has three specifications: the assumption `a`, `a -> g`, and
`a && g`; what is printed of it is `verified` where `a` and `g` hold, `invalid` where only `a` does, `inactive` elsewhere.

Partial: as C74 and `C73_names_partial`. -/
theorem C73_numbers_partial {f : α → Ast} {o : CliOpts} {b : BackEnd} (hA : BzAtoms f b.sid b.bits b.signals)
    (hsep : AtomsSeparate f) (hdes : ∀ a, Desugared false (f a)) {h : Heap Lab} {n ft pt fuel : Nat} {fs ps : List (SpecOf α)}
    (hp : Program f h n ft pt fs ps) (hx : Apart h ft pt)
    (hfs : ∀ s ∈ fs, Fit o false s.2.2) (hps : ∀ s ∈ ps, Fit o true s.2.2)
    (hkf : ∀ s ∈ fs, span false s.2.2 ≤ b.slack) (hkp : ∀ s ∈ ps, span true s.2.2 ≤ b.slack)
    {ty : Ast → Bool} (hty : ∀ g n', compileG o fuel ft pt (h, n) = some (g, n') → TypedAs f ty b.ty g)
    {bytes : List Nat} {bounds : Bounds} (hc : compileBinaryBz o b fuel ft pt (h, n) = some (bytes, bounds))
    (hbz : ∀ n es stop, loadBinary n bytes = some (es, stop) → BzMon.table es ≠ [])
    {specs : List (String × Nat)} {contracts : List (String × Nat × Nat × Nat)} (hspecs : specs = (fs ++ ps).map fun s => (s.1, s.2.1))
    (hsome : specs ≠ []) (hn : specs.map (fun x => x.2) = List.range specs.length)
    (hd : (contracts.flatMap fun c => [c.2.1, c.2.2.1, c.2.2.2]).Nodup) (hl : Aux.Labels specs contracts)
    (haux : b.aux = Aux.packed (Aux.aliases specs contracts)) {alim : Aux.Lim} (hlb : Aux.room specs contracts ≤ alim.bytes)
    (hlf : specs.length ≤ alim.formulas) (hlc : contracts.length < alim.contracts) (ops : FloatOps F) (readF : List Char → Option F) :
    ∃ bound, ∀ fuel, bound ≤ fuel → ∀ (size w : Nat) (header : Option (List Char)) (rows : List (List (List Char))) (σ : Nat → Nat → Cell F),
      (∀ h, header = some h → Cli.Header size h) → Cli.Rows size w rows → Cli.Gives readF w rows σ → w ≤ bounds.bzLimits.signals →
      rows.length + b.slack < 2 ^ 31 →
      (∀ t, t < rows.length → ∀ a, (∀ e, Tree.Within e (f a) → ∃ v, Ast.Value ops ty b.bits (fun t s => σ t (b.sid s).toNat) t e v) ∧
        ∃ i, Ast.Value ops ty b.bits (fun t s => σ t (b.sid s).toNat) t (f a) (.int i)) →
      ∃ out : List (Nat × Verdict),
        Aux.mainBz ops readF size bounds.limits bounds.bzLimits alim fuel bytes (Cli.csv header rows) =
          some (out.flatMap fun x => Aux.nameLine specs x ++ Aux.statusLines contracts x) ∧
        ∀ π : Trace α, π = (fun t a => ∃ i, i ≠ 0 ∧ Ast.Value ops ty b.bits (fun t s => σ t (b.sid s).toNat) t (f a) (.int i)) →
          (∀ s ∈ fs, Answers (sat π s.2.2) ((out.filter fun x => x.1 = s.2.1).map (·.2)) ∧
            ∀ t, t + span false s.2.2 < rows.length → ∃ v ∈ (out.filter fun x => x.1 = s.2.1).map (·.2), t ≤ v.time) ∧
          (∀ s ∈ ps, Answers (sat π s.2.2) ((out.filter fun x => x.1 = s.2.1).map (·.2)) ∧
            ∀ t, t < rows.length → ∃ v ∈ (out.filter fun x => x.1 = s.2.1).map (·.2), t ≤ v.time) ∧
          ∀ c ∈ contracts, ∀ (l₀ l₁ l₂ : String) (a g : Expr α), (l₀, c.2.1, a) ∈ fs ++ ps → (l₁, c.2.2.1, .imp a g) ∈ fs ++ ps →
            (l₂, c.2.2.2, .and [a, g]) ∈ fs ++ ps →
            ∀ A G : Nat → Bool, (∀ t, A t = true ↔ sat π a t) → (∀ t, G t = true ↔ sat π g t) →
              Aux.Tells A G c out (rows.length - b.slack) := by
  have hnum : ((fs ++ ps).map (·.2.1)).Nodup := by
    have e : (fs ++ ps).map (·.2.1) = specs.map (fun x => x.2) := by rw [hspecs, List.map_map]; rfl
    rw [e, hn]
    exact List.nodup_range
  obtain ⟨es, stop, m0, F0, bound, c2, c3, c4, c5⟩ := C75_compile_and_run_numbers_partial hA hsep hdes hp hx hnum hfs hps hkf hkp hty hc ops
  obtain ⟨is, his⟩ : ∃ is, assembleBytes is b.aux = some bytes := by
    simp only [compileBinaryBz, assembleBzG, Option.bind_eq_some_iff, Option.map_eq_some_iff] at hc
    obtain ⟨_, _, _, _, _, _, A, _, bs, hbs, e⟩ := hc
    cases e
    exact ⟨_, hbs⟩
  rw [haux] at his
  refine ⟨max bound (is.length + 1), fun fuel hfuel size w header rows σ hh hrows hg hw hT hv => ?_⟩
  have hfuel1 := le_trans (le_max_left _ _) hfuel
  have htab := hbz _ _ _ (c2 fuel hfuel1)
  obtain ⟨m, F1, d1, d2, d3⟩ := c5 fuel hfuel1 σ rows.length hT hv
  obtain ⟨-, -, k3⟩ := Flat.start_keeps c4
  have houts : Aux.outsBz ops readF size bounds.limits bounds.bzLimits fuel bytes (Cli.csv header rows) = some F1.out := by
    simp only [Aux.outsBz, c2 fuel hfuel1, c3, c4, Option.bind_some, if_neg htab]
    have := Cli.mainLoopBz_csv (ops := ops) (lim := bounds.bzLimits) (BzMon.table es) (LoadEv.tlTable es) fuel hh
      (S := ⟨fun _ => .int 0, m0, F0⟩) hrows hg hw (fun _ _ => rfl) k3
    rw [d1] at this
    obtain ⟨S, s1, s2⟩ := Option.map_eq_some_iff.1 this
    simp only [Prod.mk.injEq] at s2
    rw [s1, Option.map_some, s2.2]
  refine ⟨F1.out, ?_, ?_⟩
  · rw [Aux.named_output_bz his hl hsome hn hd hlb hlf (fun _ => by omega) ops readF size _ _ (le_trans (le_max_right _ _) hfuel), houts,
      List.take_of_length_le (by omega)]
    rfl
  · rintro π rfl
    refine ⟨d2, d3, fun c hcm l₀ l₁ l₂ a g h0 h1 h2 A G hA hG => ?_⟩
    have both := fun s (hs : s ∈ fs ++ ps) => show Answers (sat _ s.2.2) ((F1.out.filter fun x => x.1 = s.2.1).map (·.2)) ∧
        ∀ t < rows.length - b.slack, ∃ v ∈ (F1.out.filter fun x => x.1 = s.2.1).map (·.2), t ≤ v.time from by
      rcases List.mem_append.1 hs with hs | hs
      · exact ⟨(d2 s hs).1, fun t ht => (d2 s hs).2 t (by have := hkf s hs; omega)⟩
      · exact ⟨(d3 s hs).1, fun t ht => (d3 s hs).2 t (by omega)⟩
    obtain ⟨x0, y0⟩ := both _ h0
    obtain ⟨x1, y1⟩ := both _ h1
    obtain ⟨x2, y2⟩ := both _ h2
    refine tells ((List.nodup_flatMap.1 hd).1 c hcm) ?_ ?_ ?_ y0 y1 y2
    · rw [funext fun t => propext (hA t)]
      exact x0
    · refine Eq.mp (congrArg (fun P => Answers P _) (funext fun t => propext ?_)) x1
      rw [Bool.or_eq_true, Bool.not_eq_true', hG]
      simp only [sat, ← hA]
      cases A t <;> simp
    · refine Eq.mp (congrArg (fun P => Answers P _) (funext fun t => propext ?_)) x2
      rw [Bool.and_eq_true, hG, hA]
      simp [sat, satAll]

/-! ### The hypotheses hold of a contract over numbers -/

/-- The contract `c: x > 5 => F[0,3] (prev(0, x) < y)` in memory. -/
def nzHeap : Heap Lab where
  lab
    | 2 => .op .gt | 10 => .lit (.int 5) | 13 => .lit (.int 0) | x => rzHeap.lab x
  kids := rzHeap.kids
  pars := rzHeap.pars

def nzBack : BackEnd := { czBack with aux := Aux.packed (Aux.aliases rnSpecs rnContracts) }

theorem nzHeap_program : Program czAtom nzHeap 15 0 14 rzFs [] where
  below := ⟨fun p c hc => rzHeap_program.below.1 p c hc, fun p hp => rzHeap_program.below.2 p hp⟩
  acyclic := by
    intro x
    match x with
    | 0 | 1 | 2 | 3 | 4 | 5 | 6 | 7 | 8 | 9 | 10 | 11 | 12 | 13 | 14 => exact ⟨_, 9, rfl⟩
    | n + 15 => exact ⟨.node .specSet [], 1, rfl⟩
  parents := fun p c hc => rzHeap_program.parents p c hc
  ft_lt := by decide
  pt_lt := by decide
  ne := by decide
  ft_top := rfl
  pt_top := rfl
  future := ⟨9, rfl⟩
  past := ⟨9, rfl⟩
  idents := rzHeap_program.idents
  labels := rzHeap_program.labels
  operands := rzHeap_program.operands

theorem nzHeap_apart : Apart nzHeap 0 14 := by
  have h : ∀ {r x}, Reachable nzHeap r x → Reachable rzHeap r x := by
    intro r x h
    induction h with
    | root h => exact .root h
    | kid _ hc ih => exact .kid ih hc
  exact fun x h1 h2 => rzHeap_apart x (h h1) (h h2)

theorem nzLabels : Aux.Labels rnSpecs rnContracts := by
  refine ⟨?_, ?_⟩
  · intro s hs
    have := rnLabels.idents s hs
    exact ⟨this.1, this.2.1, by have := this.2.2; omega⟩
  · intro c hc
    have := rnLabels.contracts c hc
    exact ⟨this.1, by omega⟩

open Classical in
/-- All the hypotheses of `C73_numbers_partial` hold of this program and of every file with two columns of 32-bit integers. -/
example : ∃ bytes bounds, compileBinaryBz ⟨true, false, true⟩ nzBack 60 0 14 (nzHeap, 15) = some (bytes, bounds) ∧
    ∃ bound, ∀ fuel, bound ≤ fuel → ∀ xs : List (Int × Int), czFits xs → xs.length + 3 < 2 ^ 31 →
      ∃ out : List (Nat × Verdict), Aux.mainBz noFloats (fun _ => none) 8192 bounds.limits bounds.bzLimits ⟨64, 3, 2⟩ fuel bytes
          (Cli.csv (some " x,y".toList) (czRows xs)) =
          some (out.flatMap fun x => Aux.nameLine rnSpecs x ++ Aux.statusLines rnContracts x) ∧
        Aux.Tells (fun t => decide (czTrace (czCols xs) t true)) (fun t => decide (sat (czTrace (czCols xs)) (.fut 0 3 (.atom false)) t)) ("c", 0, 1, 2)
          out (xs.length - 3) := by
  have hm : (compileBinaryBz ⟨true, false, true⟩ nzBack 60 0 14 (nzHeap, 15)).map (fun r => decide (2 ≤ r.2.bzLimits.signals ∧
        (loadBinary 60 r.1).map (fun x => (BzMon.table x.1).isEmpty) = some false)) = some true := by decide +kernel
  obtain ⟨⟨bytes, bounds⟩, hr, hb⟩ := Option.map_eq_some_iff.1 hm
  simp only [decide_eq_true_eq] at hb
  obtain ⟨hw, hl⟩ := hb
  refine ⟨bytes, bounds, hr, ?_⟩
  obtain ⟨bound, c4⟩ := C73_numbers_partial (b := nzBack) cz_atoms cz_separate.1 cz_separate.2
    nzHeap_program nzHeap_apart rz_fit (by simp) (by
      intro s hs
      simp only [rzFs, List.mem_cons, List.not_mem_nil, or_false] at hs
      rcases hs with rfl | rfl | rfl <;> simp [span, spanL, nzBack, czBack]) (by simp) (ty := fun _ => true) (fun g n' _ x s a _ _ => rfl) hr
    (Rs.Tool.usesBz_of 60 hl) (specs := rnSpecs) (contracts := rnContracts) rfl (by simp [rnSpecs]) rfl
    (by decide) nzLabels rfl (alim := ⟨64, 3, 2⟩) (by decide) (by decide) (by decide) noFloats (fun _ => none)
  refine ⟨bound, fun fuel hf xs hxs hT => ?_⟩
  have ht : czTrace (czCols xs) = (fun t a => ∃ i, i ≠ 0 ∧ czVal (czCols xs) t (czAtom a) (.int i)) := by
    funext t a
    obtain ⟨i, h1, h2⟩ := cz_atom (czCols xs) t a
    refine propext ⟨fun h => ⟨i, h2.2 h, h1⟩, ?_⟩
    rintro ⟨j, hj, h3⟩
    cases cz_unique h1 _ h3
    exact h2.1 hj
  have hlen : (czRows xs).length = xs.length := by simp [czRows]
  obtain ⟨out, d1, d2⟩ := c4 fuel hf 8192 2 (some " x,y".toList) (czRows xs) (czIn (czCols xs)) (by rintro _ ⟨⟩; exact ⟨by decide, by decide⟩)
    (cz_rows hxs) (cz_gives hxs) hw (by rw [hlen]; exact hT) (by
    intro t _ a
    obtain ⟨i, h1, _⟩ := cz_atom (czCols xs) t a
    refine ⟨?_, i, h1⟩
    intro e he
    rcases cz_within he with rfl | rfl | rfl | rfl | rfl | rfl
    · exact ⟨_, h1⟩
    · exact ⟨_, cz_x _ t⟩
    · exact ⟨_, cz_y _ t⟩
    · exact ⟨_, .int⟩
    · exact ⟨_, .int⟩
    · exact ⟨_, cz_prev _ t⟩)
  refine ⟨out, d1, ?_⟩
  have := (d2 _ ht).2.2 ("c", 0, 1, 2) (by simp [rnContracts]) "__c_active__" "__c_valid__" "__c_verified__" (.atom true) (.fut 0 3 (.atom false))
    (by simp [rzFs]) (by simp [rzFs]) (by simp [rzFs]) (fun t => decide (czTrace (czCols xs) t true))
    (fun t => decide (sat (czTrace (czCols xs)) (.fut 0 3 (.atom false)) t)) (fun t => by simp [sat]) (fun t => by simp)
  simpa [hlen, nzBack, czBack] using this

end R2U2
