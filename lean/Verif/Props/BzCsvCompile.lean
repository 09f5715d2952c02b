import Verif.Props.BzCsv
import Verif.Props.CompileBz
import Verif.Lemmas.RustCli
/-
C74 and C75: from formulas over comparisons of numbers and a trace file to the text the command line tool of the C monitor prints.
-/
namespace R2U2
open Heap Expr GraphPass
variable {α F : Type}

/-- C74 on compiled programs: a desugared program over numeric expressions is given to the compiler with the booleanizer, as in C75; the command line
tool of the C monitor is run on the binary it writes and on a trace file.  If every expression has a value at every line, the tool prints lines
`number:time,T` or `number:time,F` (`out.flatMap line`), and what they say is right for the formulas as written over the values of the expressions as
written, and in time.

Partial: as C74 and C75; the binary has an instruction for the booleanizer. -/
theorem C74_compiled_partial {f : α → Ast} {o : CliOpts} {b : BackEnd} (hA : BzAtoms f b.sid b.bits b.signals)
    (hsep : AtomsSeparate f) (hdes : ∀ a, Desugared false (f a)) {h : Heap Lab} {n ft pt fuel : Nat} {fs ps : List (SpecOf α)}
    (hp : Program f h n ft pt fs ps) (hx : Apart h ft pt) (hnum : ((fs ++ ps).map (·.2.1)).Nodup)
    (hfs : ∀ s ∈ fs, Fit o false s.2.2) (hps : ∀ s ∈ ps, Fit o true s.2.2)
    (hkf : ∀ s ∈ fs, span false s.2.2 ≤ b.slack) (hkp : ∀ s ∈ ps, span true s.2.2 ≤ b.slack)
    {ty : Ast → Bool} (hty : ∀ g n', compileG o fuel ft pt (h, n) = some (g, n') → TypedAs f ty b.ty g)
    {bytes : List Nat} {bounds : Bounds} (hc : compileBinaryBz o b fuel ft pt (h, n) = some (bytes, bounds))
    (hbz : ∀ n es stop, loadBinary n bytes = some (es, stop) → BzMon.table es ≠ []) (ops : FloatOps F) (readF : List Char → Option F) :
    ∃ bound, ∀ fuel, bound ≤ fuel → ∀ (size w : Nat) (header : Option (List Char)) (rows : List (List (List Char))) (σ : Nat → Nat → Cell F),
      (∀ h, header = some h → Cli.Header size h) → Cli.Rows size w rows → Cli.Gives readF w rows σ → w ≤ bounds.bzLimits.signals →
      rows.length + b.slack < 2 ^ 31 →
      (∀ t, t < rows.length → ∀ a, (∀ e, Tree.Within e (f a) → ∃ v, Ast.Value ops ty b.bits (fun t s => σ t (b.sid s).toNat) t e v) ∧ ∃ i, Ast.Value ops ty b.bits (fun t s => σ t (b.sid s).toNat) t (f a) (.int i)) →
      ∃ out : List (Nat × Verdict),
        Cli.mainBz ops readF size bounds.limits bounds.bzLimits fuel bytes (Cli.csv header rows) = some (out.flatMap Cli.line) ∧
        (∀ s ∈ fs, Answers (sat (fun t a => ∃ i, i ≠ 0 ∧ Ast.Value ops ty b.bits (fun t s => σ t (b.sid s).toNat) t (f a) (.int i)) s.2.2) ((out.filter fun x => x.1 = s.2.1).map (·.2)) ∧
          ∀ t, t + span false s.2.2 < rows.length → ∃ v ∈ (out.filter fun x => x.1 = s.2.1).map (·.2), t ≤ v.time) ∧
        (∀ s ∈ ps, Answers (sat (fun t a => ∃ i, i ≠ 0 ∧ Ast.Value ops ty b.bits (fun t s => σ t (b.sid s).toNat) t (f a) (.int i)) s.2.2) ((out.filter fun x => x.1 = s.2.1).map (·.2)) ∧
          ∀ t, t < rows.length → ∃ v ∈ (out.filter fun x => x.1 = s.2.1).map (·.2), t ≤ v.time) := by
  obtain ⟨es, stop, m0, F0, bound, c2, c3, c4, c5⟩ := C75_compile_and_run_numbers_partial hA hsep hdes hp hx hnum hfs hps hkf hkp hty hc ops
  refine ⟨bound, fun fuel hfuel size w header rows σ hh hrows hg hw hn hv => ?_⟩
  have hne := hbz _ _ _ (c2 fuel hfuel)
  obtain ⟨m, F1, d1, d2⟩ := c5 fuel hfuel σ rows.length hn hv
  obtain ⟨-, -, k3⟩ := Flat.start_keeps c4
  refine ⟨F1.out, ?_, d2⟩
  simp only [Cli.mainBz, c2 fuel hfuel, c3, c4, Option.bind_some, if_neg hne]
  have := Cli.mainLoopBz_csv (ops := ops) (lim := bounds.bzLimits) (BzMon.table es) (LoadEv.tlTable es) fuel hh
    (S := ⟨fun _ => .int 0, m0, F0⟩) hrows hg hw (fun _ _ => rfl) k3
  rw [d1] at this
  obtain ⟨S, s1, s2⟩ := Option.map_eq_some_iff.1 this
  simp only [Prod.mk.injEq] at s2
  rw [s1, Option.map_some, s2.2]

/-- A file with two columns of integers. -/
def czRows (xs : List (Int × Int)) : List (List (List Char)) := xs.map fun p => [Cli.intText p.1, Cli.intText p.2]
/-- The values in the columns. -/
def czCols (xs : List (Int × Int)) (t i : Nat) : Int :=
  if i = 0 then (xs[t]?.getD (0, 0)).1 else if i = 1 then (xs[t]?.getD (0, 0)).2 else 0
/-- 32-bit integers. -/
def czFits (xs : List (Int × Int)) : Prop := ∀ p ∈ xs, (-(2 ^ 31) ≤ p.1 ∧ p.1 < 2 ^ 31) ∧ -(2 ^ 31) ≤ p.2 ∧ p.2 < 2 ^ 31

theorem intText_short {i : Int} (h1 : -(2 ^ 31) ≤ i) (h2 : i < 2 ^ 31) : (Cli.intText i).length ≤ 11 := by
  have h : (natStr i.natAbs).length ≤ 10 := by
    unfold natStr
    split
    · decide
    · have := (Nat.digits_length_le_iff (b := 10) (k := 10) (by omega) i.natAbs).2 (by omega)
      simpa using this
  unfold Cli.intText
  split
  · simp only [List.length_cons]; omega
  · omega

theorem cz_rows {xs : List (Int × Int)} (h : czFits xs) : Cli.Rows 8192 2 (czRows xs) := by
  refine ⟨?_, ?_, ?_, ?_⟩
  · intro r hr; obtain ⟨_, _, rfl⟩ := List.mem_map.1 hr; rfl
  · intro r hr f hf
    obtain ⟨x, _, rfl⟩ := List.mem_map.1 hr
    simp only [List.mem_cons, List.not_mem_nil, or_false] at hf
    rcases hf with rfl | rfl <;> exact (BzX.intText_field _).1
  · intro r hr f hf
    obtain ⟨x, _, rfl⟩ := List.mem_map.1 hr
    simp only [List.head?_cons, Option.some.injEq] at hf
    subst hf
    exact (BzX.intText_field _).2
  · intro r hr
    obtain ⟨x, hx, rfl⟩ := List.mem_map.1 hr
    have h1 := intText_short (h x hx).1.1 (h x hx).1.2
    have h2 := intText_short (h x hx).2.1 (h x hx).2.2
    simp only [Cli.row, List.length_append, List.length_cons, List.length_nil]
    omega

theorem cz_gives {xs : List (Int × Int)} (h : czFits xs) : Cli.Gives (fun _ => none) 2 (czRows xs) (czIn (czCols xs)) := by
  refine ⟨?_, ?_⟩
  · intro t r hr i f hf
    simp only [czRows, List.getElem?_map, Option.map_eq_some_iff] at hr
    obtain ⟨x, hx, rfl⟩ := hr
    have hb := h x (List.mem_of_getElem? hx)
    rcases i with _ | _ | i <;> simp at hf <;> subst hf
    · have : czIn (czCols xs) t 0 = .int x.1 := by simp [czIn, czCols, hx]
      rw [this]
      exact .int _ hb.1.1 hb.1.2
    · have : czIn (czCols xs) t (0 + 1) = .int x.2 := by simp [czIn, czCols, hx]
      rw [this]
      exact .int _ hb.2.1 hb.2.2
  · intro t _ i hi
    simp only [czIn, czCols, if_neg (show i ≠ 0 by omega), if_neg (show i ≠ 1 by omega)]

/-- All the hypotheses of `C74_compiled_partial` hold of the program of C75 and of every file with two columns of 32-bit integers. -/
example : ∃ bytes bounds, compileBinaryBz ⟨true, false, true⟩ czBack 60 0 15 (czHeap, 23) = some (bytes, bounds) ∧
    ∃ bound, ∀ fuel, bound ≤ fuel → ∀ xs : List (Int × Int), czFits xs → xs.length + 3 < 2 ^ 31 →
      ∃ out : List (Nat × Verdict), Cli.mainBz noFloats (fun _ => none) 8192 bounds.limits bounds.bzLimits fuel bytes
          (Cli.csv (some " x,y".toList) (czRows xs)) = some (out.flatMap Cli.line) ∧
        (∀ s ∈ crFs, Answers (sat (czTrace (czCols xs)) s.2.2) ((out.filter fun x => x.1 = s.2.1).map (·.2)) ∧
          ∀ t, t + span false s.2.2 < xs.length → ∃ v ∈ (out.filter fun x => x.1 = s.2.1).map (·.2), t ≤ v.time) ∧
        (∀ s ∈ crPs, Answers (sat (czTrace (czCols xs)) s.2.2) ((out.filter fun x => x.1 = s.2.1).map (·.2)) ∧
          ∀ t, t < xs.length → ∃ v ∈ (out.filter fun x => x.1 = s.2.1).map (·.2), t ≤ v.time) := by
  have hm : (compileBinaryBz ⟨true, false, true⟩ czBack 60 0 15 (czHeap, 23)).map (fun r => decide (2 ≤ r.2.bzLimits.signals ∧
        (loadBinary 60 r.1).map (fun x => (BzMon.table x.1).isEmpty) = some false)) = some true := by decide +kernel
  obtain ⟨⟨bytes, bounds⟩, hr, hb⟩ := Option.map_eq_some_iff.1 hm
  simp only [decide_eq_true_eq] at hb
  obtain ⟨hw, hl⟩ := hb
  refine ⟨bytes, bounds, hr, ?_⟩
  obtain ⟨bound, c4⟩ := C74_compiled_partial (b := czBack) cz_atoms cz_separate.1 cz_separate.2
    czHeap_program czHeap_apart (by simp [crFs, crPs]) cr_fit.1 cr_fit.2 (by
      intro s hs
      simp only [crFs, List.mem_cons, List.not_mem_nil, or_false] at hs
      rcases hs with rfl | rfl <;> simp [span, spanL, czBack]) (by
      intro s hs
      simp only [crPs, List.mem_cons, List.not_mem_nil, or_false] at hs
      subst hs
      simp [span, czBack]) (ty := fun _ => true) (fun g n' _ x s a _ _ => rfl) hr (Rs.Tool.usesBz_of 60 hl) noFloats (fun _ => none)
  refine ⟨bound, fun fuel hf xs hxs hT => ?_⟩
  have ht : (fun t a => ∃ i, i ≠ 0 ∧ czVal (czCols xs) t (czAtom a) (.int i)) = czTrace (czCols xs) := by
    funext t a
    obtain ⟨i, h1, h2⟩ := cz_atom (czCols xs) t a
    refine propext ⟨?_, fun h => ⟨i, h2.2 h, h1⟩⟩
    rintro ⟨j, hj, h3⟩
    cases cz_unique h1 _ h3
    exact h2.1 hj
  have hlen : (czRows xs).length = xs.length := by simp [czRows]
  obtain ⟨out, d1, d2, d3⟩ := c4 fuel hf 8192 2 (some " x,y".toList) (czRows xs) (czIn (czCols xs)) (by rintro _ ⟨⟩; exact ⟨by decide, by decide⟩)
    (cz_rows hxs) (cz_gives hxs) hw (by rw [hlen]; exact hT) (by
    intro t _ a
    obtain ⟨i, h1, _⟩ := cz_atom (czCols xs) t a
    refine ⟨?_, i, h1⟩
    intro e he
    rcases cz_within he with rfl | rfl | rfl | rfl | rfl | rfl
    · exact ⟨_, h1⟩
    · exact ⟨_, cz_x _ t⟩
    · exact ⟨_, cz_y _ t⟩
    · exact ⟨_, .int⟩
    · exact ⟨_, .int⟩
    · exact ⟨_, cz_prev _ t⟩)
  refine ⟨out, d1, ?_⟩
  rw [← ht, ← hlen]
  exact ⟨d2, d3⟩

end R2U2
