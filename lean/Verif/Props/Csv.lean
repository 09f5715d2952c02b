import Verif.Lemmas.Csv
import Verif.Lemmas.Printing
import Verif.Props.FrontEnd
/-
C71: the command line tool of the C monitor, from the texts of a program and a trace to the text of the verdicts.
-/
namespace R2U2
open Heap Expr GraphPass

/-- C71.  The text of a program is compiled as in C65.  The command line tool of the C monitor, built with the bounds written with the binary, is run
on the binary and a trace file: an optional header, and one line for each time step with the values of the signals, the column of signal `s`
being the one at index `sid s`.  It reads one time step from each line and prints a text made of lines `number:time,T` or `number:time,F`
(`out.flatMap line`), and for every specification of the program's text what the lines with its number say is what the specification as
written means on the values in the file; all verdicts that the specifications' look-ahead admits are there.

Partial: what C65 leaves out; the values are texts without commas, line ends and zero characters, none empty, as many on each line, of which `0` is
false and all others are true; lines are shorter than the reader's buffer; the first value of a line begins with neither `#` nor `@`.  For the
others see the theorems `C71_…_fails` below. -/
theorem C71_command_line_partial {F : Type} {I : Interp F} {flt : String → String} {mission : Int} {text : List Char} {secs : List C2po.Section}
    (hparse : C2po.parse flt mission text = some secs)
    {Γ₀ Γ : TcCtx} {fuel₀ : Nat} {secs' : List Sec} {fsrc psrc : List (String × Nat × Src)}
    (hfront : frontEnd Γ₀ fuel₀ secs = some ((secs', Γ), fsrc, psrc))
    (hI : I.Fits Γ.scalarDecls) (hD : Γ.scalarDecls.Apart)
    {N : Scope} (hN : N.Declares (fun s d => nameOf (secs', Γ) s = some d) Γ.scalarDecls)
    (hr : ∀ past, ∀ s ∈ specsOf past secs', ∀ e ∈ s.exprs, e.Proper Γ.scalarDecls N (nameOf (secs', Γ)))
    {S : List String} (hS : ∀ s ∈ S, IsIdent s) {fs ps : List (SpecOf {s : String // s ∈ S})}
    (hf : Src.toSpecs S fsrc = some fs) (hp : Src.toSpecs S psrc = some ps)
    {o : CliOpts} {b : BackEnd} {h : Heap Lab} {n ft pt fuel : Nat} (hm : InMemory h n ft pt fsrc psrc) (hx : Apart h ft pt)
    (hfs : ∀ s ∈ fs, Fit o false s.2.2) (hps : ∀ s ∈ ps, Fit o true s.2.2)
    (hkf : ∀ s ∈ fs, span false s.2.2 ≤ b.slack) (hkp : ∀ s ∈ ps, span true s.2.2 ≤ b.slack)
    (hsid : ∀ s ∈ S, 0 ≤ b.sid s) {bytes : List Nat} {bounds : Bounds}
    (hc : compileBinary o b fuel ft pt (h, n) = some (bytes, bounds)) (hat : ∀ s ∈ S, b.sid s < bounds.maxAtomics) :
    ∃ bound, ∀ fuel, bound ≤ fuel → ∀ (size w : Nat) (header : Option (List Char)) (rows : List (List (List Char))),
      (∀ h, header = some h → Cli.Header size h) → Cli.Rows size w rows → w ≤ bounds.maxAtomics → rows.length + b.slack < 2 ^ 31 →
      ∃ out : List (Nat × Verdict), Cli.main size bounds.limits fuel bytes (Cli.csv header rows) = some (out.flatMap Cli.line) ∧
        ∀ ρ : Env F, ρ.Fits Γ.scalarDecls Scope.empty → ρ.Respects (fun s d => nameOf (secs', Γ) s = some d) I →
          (∀ s ∈ S, ∀ t, ρ.sig s t = .bool (Cli.signal rows t (b.sid s).toNat)) →
          List.Forall₂ (fun v f => v.1 = f.2.1 ∧ Answers (fun t => v.2 t = true) ((out.filter fun x => x.1 = v.1).map (·.2)) ∧
              ∀ t, t + span false f.2.2 < rows.length → ∃ u ∈ (out.filter fun x => x.1 = v.1).map (·.2), t ≤ u.time)
            ((specsOf true secs').flatMap (Spec.verdicts I ρ)) fs ∧
          List.Forall₂ (fun v f => v.1 = f.2.1 ∧ Answers (fun t => v.2 t = true) ((out.filter fun x => x.1 = v.1).map (·.2)) ∧
              ∀ t, t < rows.length → ∃ u ∈ (out.filter fun x => x.1 = v.1).map (·.2), t ≤ u.time)
            ((specsOf false secs').flatMap (Spec.verdicts I ρ)) ps := by
  obtain ⟨es, stop, F0, bound, c1, c2, c3⟩ := C65_text_to_verdicts_partial hparse hfront hI hD hN hr hS hf hp hm hx hfs hps hkf hkp hsid hc hat
  refine ⟨bound, fun fuel hfuel size w header rows hh hrows hw hT => ?_⟩
  obtain ⟨M, d1, d2⟩ := c3 fuel hfuel (Cli.signal rows) rows.length hT
  obtain ⟨k1, k2, k3⟩ := Flat.start_keeps c2
  refine ⟨M.out, ?_, d2⟩
  simp only [Cli.main, c1 fuel hfuel, c2, Option.bind_some]
  rw [Cli.mainLoop_csv _ _ hh hrows (by rw [k2]; exact hw) (by simp [k1]) k3, d1]
  rfl

/-- C71: what is printed can be read back: texts made of different verdicts are different (the compiler's numbers fit 31 bits). -/
theorem C71_readable : ∀ (out out' : List (Nat × Verdict)), (∀ x ∈ out, x.1 < 2 ^ 31) → (∀ x ∈ out', x.1 < 2 ^ 31) →
    out.flatMap Cli.line = out'.flatMap Cli.line → out = out' := by
  let p : Char → Bool := fun c => !c.isDigit
  have fr : ∀ n, Free p (natStr n) := fun n c hc => by simp [p, natStr_digit hc]
  intro out
  induction out with
  | nil =>
    intro out' _ _ h
    cases out' with
    | nil => rfl
    | cons x xs => simp [Cli.line] at h
  | cons x xs ih =>
    intro out' h1 h2 h
    cases out' with
    | nil => simp [Cli.line] at h
    | cons y ys =>
      obtain ⟨f, b, t⟩ := x
      obtain ⟨f', b', t'⟩ := y
      have l1 : f < 2 ^ 31 := h1 (f, ⟨b, t⟩) (by simp)
      have l2 : f' < 2 ^ 31 := h2 (f', ⟨b', t'⟩) (by simp)
      simp only [List.flatMap_cons, Cli.line, if_pos l1, if_pos l2, List.append_assoc, List.cons_append, List.nil_append] at h
      obtain ⟨e1, h⟩ := split_word (fr f) (fr f') (headIn_cons (by decide)) (headIn_cons (by decide)) h
      simp only [List.cons.injEq, true_and] at h
      obtain ⟨e2, h⟩ := split_word (fr t) (fr t') (headIn_cons (by decide)) (headIn_cons (by decide)) h
      simp only [List.cons.injEq, true_and] at h
      obtain ⟨e3, h⟩ := h
      rw [natStr_inj e1, natStr_inj e2, ih ys (fun x hx => h1 x (by simp [hx])) (fun x hx => h2 x (by simp [hx])) h]
      cases b <;> cases b' <;> simp_all

namespace FE

/-- The values of two signals as texts. -/
def bits (rows : List (Bool × Bool)) : List (List (List Char)) := rows.map fun r => [[if r.1 then '1' else '0'], [if r.2 then '1' else '0']]

theorem bits_rows (rows : List (Bool × Bool)) : Cli.Rows 8192 2 (bits rows) := by
  refine ⟨?_, ?_, ?_, ?_⟩
  · intro r hr; obtain ⟨_, _, rfl⟩ := List.mem_map.1 hr; rfl
  · intro r hr f hf
    obtain ⟨⟨a, b⟩, _, rfl⟩ := List.mem_map.1 hr
    clear hr
    simp only [List.mem_cons, List.not_mem_nil, or_false] at hf
    rcases hf with rfl | rfl
    · cases a <;> exact ⟨by simp, by simp⟩
    · cases b <;> exact ⟨by simp, by simp⟩
  · intro r hr f hf
    obtain ⟨⟨a, b⟩, _, rfl⟩ := List.mem_map.1 hr
    simp only [List.head?_cons, Option.some.injEq] at hf
    subst hf
    cases a <;> simp
  · intro r hr; obtain ⟨⟨a, b⟩, _, rfl⟩ := List.mem_map.1 hr; simp [Cli.row]

/-- All the hypotheses of C71 hold of the program of C65 and every trace of its two signals. -/
example : ∃ bytes bounds, compileBinary ⟨true, false, true⟩ back 100 0 17 (heap, 21) = some (bytes, bounds) ∧
    ∃ bound, ∀ fuel, bound ≤ fuel → ∀ rows : List (Bool × Bool), rows.length + 3 < 2 ^ 31 →
      ∃ out : List (Nat × Verdict),
        Cli.main 8192 bounds.limits fuel bytes (Cli.csv (some " x,y".toList) (bits rows)) =
          some (out.flatMap Cli.line) ∧
        Answers (fun t => (specA.sem interp (env (Cli.signal (bits rows))) t).isTrue = true)
          ((out.filter fun x => x.1 = 0).map (·.2)) ∧
        ∀ t, t + 2 < rows.length → ∃ u ∈ (out.filter fun x => x.1 = 0).map (·.2), t ≤ u.time := by
  have hm : (compileBinary ⟨true, false, true⟩ back 100 0 17 (heap, 21)).map (fun r => r.2.maxAtomics) = some 2 := by decide +kernel
  obtain ⟨⟨bytes, bounds⟩, hr, hb⟩ := Option.map_eq_some_iff.1 hm
  refine ⟨bytes, bounds, hr, ?_⟩
  obtain ⟨bound, c3⟩ := C71_command_line_partial (I := interp) (b := back) parse_eq front ⟨rfl, rfl, fun _ _ _ _ _ _ => .err⟩
    (by intro s n ms hs hm; simp [TcCtx.scalarDecls, TcCtx.decls, ctx] at hm) declares proper_all
    (by
      intro s hs
      simp only [List.mem_cons, List.not_mem_nil, or_false] at hs
      rcases hs with rfl | rfl <;> exact ident rfl (by decide) (by decide) (by decide) (by decide))
    fs_eq ps_eq inMemory apart fit_f fit_p
    (by intro s hs; simp only [fs, List.mem_cons, List.not_mem_nil, or_false] at hs; rcases hs with rfl | rfl | rfl | rfl <;> simp [span, spanL, back, X, Y])
    (by intro s hs; simp only [ps, List.mem_cons, List.not_mem_nil, or_false] at hs; subst hs; simp [span, back, Y])
    (by decide) hr (by dsimp only at hb; rw [hb]; decide)
  refine ⟨bound, fun fuel hfuel rows hT => ?_⟩
  obtain ⟨out, d1, d2⟩ := c3 fuel hfuel 8192 2 (some " x,y".toList) (bits rows)
    (by rintro _ ⟨⟩; exact ⟨by decide, by decide⟩)
    (bits_rows rows) (by dsimp only at hb; rw [hb]) (by simpa [bits, back] using hT)
  obtain ⟨d3, _⟩ := d2 _ (env_fits _) (env_respects _) (fun s _ t => rfl)
  have v1 : ∀ inp, (specsOf true secs).flatMap (Spec.verdicts interp (env inp)) =
      [(0, fun t => (specA.sem interp (env inp) t).isTrue), (1, fun t => ((var "d").sem interp (env inp) t).isTrue),
       (2, fun t => !((var "d").sem interp (env inp) t).isTrue || (Fy.sem interp (env inp) t).isTrue),
       (3, fun t => ((var "d").sem interp (env inp) t).isTrue && (Fy.sem interp (env inp) t).isTrue)] := fun _ => rfl
  rw [v1] at d3
  simp only [fs, List.forall₂_cons] at d3
  refine ⟨out, d1, d3.1.2.1, fun t ht => d3.1.2.2 t ?_⟩
  simpa [span, spanL, X, Y, bits] using ht

end FE
/-! ### Files for which the claim fails -/

/-- The formulas `x` (number 0) and `y` (number 1). -/
def xyHeap : Heap Lab where
  lab
    | 1 => .formula "a" 0 | 2 => .name "x" | 3 => .formula "b" 1 | 4 => .name "y" | _ => .specSet
  kids
    | 0 => [1, 3] | 1 => [2] | 3 => [4] | _ => []
  pars
    | 1 => [0] | 2 => [1] | 3 => [0] | 4 => [3] | _ => []

/-- `x` and `y` are the inputs 0 and 1. -/
def xyBack : BackEnd :=
  ⟨fun _ => false, fun _ => 0, fun _ => 0, fun s => if s = "x" then 0 else 1, fun _ => 0, 2, 0, []⟩

/-- What the command line tool prints for the compiled formulas and a trace file. -/
def xyRun (size : Nat) (trace : String) : Option (List Char) :=
  (compileBinary ⟨false, false, false⟩ xyBack 60 0 5 (xyHeap, 6)).bind fun r => Cli.main size r.2.limits 60 r.1 trace.toList

/-- As it should be: `x` is false, then true, `y` is true, then false. -/
example : xyRun 8192 "# x,y\n0,1\n1,0\n" = some "0:0,F\n1:0,T\n0:1,T\n1:1,F\n".toList := by decide +kernel

/-- A file with the line ends of Windows: the last signal is `0`, and read as true. -/
theorem C71_line_end_fails : xyRun 8192 "# x,y\r\n0,0\r\n" = some "0:0,F\n1:0,T\n".toList := by decide +kernel

/-- Spaces around a value, and other spellings of zero: `0` is read as true. -/
theorem C71_spaces_fail : xyRun 8192 "# x,y\n0, 0\n" = some "0:0,F\n1:0,T\n".toList ∧ xyRun 8192 "# x,y\n0,0.0\n" = some "0:0,F\n1:0,T\n".toList := by
  constructor <;> decide +kernel

/-- An empty field is skipped, and the fields after it shift by one column: the value of `y` is taken for `x`. -/
theorem C71_empty_field_fails : xyRun 8192 "# x,y\n,1\n" = some "0:0,T\n1:0,F\n".toList := by decide +kernel

/-- A blank line, for example at the end of the file, is a time step with the values of the line before. -/
theorem C71_blank_line_fails : xyRun 8192 "# x,y\n0,1\n\n" = some "0:0,F\n1:0,T\n0:1,F\n1:1,T\n".toList := by decide +kernel

/-- A column the program does not use is stored outside the array of atomics when the monitor is built with the bounds written for the program. -/
theorem C71_columns_fail : xyRun 8192 "# x,y,z\n0,1,1\n" = none := by decide +kernel

/-- A line that does not fit the buffer counts as several: with the smallest buffer C allows, the end of a long header is a time step. -/
theorem C71_long_line_fails : xyRun 256 ("# x,y" ++ String.ofList (List.replicate 300 ' ') ++ "\n0,1\n") = some "0:0,T\n1:0,F\n0:1,F\n1:1,T\n".toList := by
  decide +kernel

end R2U2
