import Verif.Lemmas.BzCsv
import Verif.Props.Booleanizer
import Verif.Props.Csv
/-
C74: the command line tool of the C monitor on programs that compute with numbers.
-/
namespace R2U2
open BProg

/-- A program with an atomic checker has booleanizer instructions. -/
theorem BProg.table_ne_nil (P : BProg) (hr : P.Ready) (hsep : P.Separate) {fuel : Nat} {scq : Nat → Option (Int × Int)} {A : Assembly}
    (h : genAssembly fuel P scq = some A) {x : Nat} (hx : P.NeedsCell x) (hl : P.heap.lab x = .atomic) {es : List LoadEv}
    (he : LoadEv.bzPart es = A.bz.map fun i => (Instr.bz i).event) : BzMon.table es ≠ [] := by
  obtain ⟨cell, L1, L2, T⟩ := bzTable P hr hsep fuel scq A h
  obtain ⟨e, h1, rfl⟩ := (T.needs x).2 hx
  have hm := T.means e h1
  have hi : e.2 ∈ A.bz := by rw [T.code]; exact List.mem_map_of_mem h1
  have hop : e.2.op = .store := by
    unfold BzMeans at hm
    rw [hl] at hm
    revert hm
    split <;> simp_all
  rw [table_bzPart, he, table_eq]
  intro hnil
  rw [List.filterMap_eq_nil_iff] at hnil
  have := hnil _ (List.mem_map_of_mem hi)
  simp [Instr.event, rec?, hop] at this

/-- C74.  A program whose atoms are comparisons of signals with numbers (or boolean signals) is assembled as in C55 and C49.  The command line
tool of the C monitor, built with the bounds written with the binary, is run on the binary and a trace file: an optional header, and one line for
each time step with the values of the signals, integers in decimal or floats with a decimal point.  It prints a text made of lines `number:time,T` or
`number:time,F` (`out.flatMap line`), and for every formula what the lines with its number say is its MLTL value, each comparison being
computed on the numbers written in the file, `prev` on those one line before; all verdicts that the formula's look-ahead admits are there.

Partial: what C49 and C55 leave out; an integer column has no decimal point, a float column has one on each line; fields, lines and columns as in
C71.  For the others see the theorems `C74_…_fails` below. -/
theorem C74_command_line_partial {F : Type} (P : BProg) (hr : P.Ready) (hsep : P.Separate) (hcov : P.Covered) (hbz : P.bz = true)
    (hat : ∃ x, P.NeedsCell x ∧ P.heap.lab x = .atomic)
    (k : Int) (hk : 0 ≤ k) (ahead turn lag : Nat → Int) (hm : P.Monitorable ahead turn lag k) (hflat : P.FlatPrev)
    (fuel fuel' : Nat) (s : ScqState) (hs : P.computeScq fuel k = some s) (A : Assembly)
    (h : genAssembly fuel' P s.scq = some A) (signals : Nat) (ids : List Nat)
    (hid : ∀ x a, P.atomicId x = some a → a < (computeBounds P.bz signals ids A).maxAtomics)
    (hfit : P.BzFits A (computeBounds P.bz signals ids A).bzLimits)
    (aux : List Nat) (hb : ∀ i ∈ A.bz, (Instr.bz i).Fits) (hf : ∀ i ∈ A.ft, (Instr.tl i).Fits)
    (hp : ∀ i ∈ A.pt, (Instr.tl i).Fits) (hc : ∀ i ∈ A.cg, (Instr.cg i).Fits) (ops : FloatOps F) (readF : List Char → Option F) :
    ∃ bytes bound, assembleBytes A.instrs aux = some bytes ∧
      ∀ fuel, bound ≤ fuel → ∀ (size w : Nat) (header : Option (List Char)) (rows : List (List (List Char))) (σ : Nat → Nat → Cell F),
        (∀ h, header = some h → Cli.Header size h) → Cli.Rows size w rows → Cli.Gives readF w rows σ →
        w ≤ (computeBounds P.bz signals ids A).maxSignals →
        rows.length < 2 ^ 31 → (∀ x, P.Live x → (rows.length : Int) < 2 ^ 31 + ahead x) → (∀ t, t < rows.length → P.BzDefined ops σ t) →
        ∃ out : List (Nat × Verdict),
          Cli.mainBz ops readF size (computeBounds P.bz signals ids A).limits (computeBounds P.bz signals ids A).bzLimits fuel bytes
            (Cli.csv header rows) = some (out.flatMap Cli.line) ∧
          ∀ π : Trace Nat, (∀ t, t < rows.length → ∀ a, π t a ↔ P.AtomTrue ops σ t a) →
          ∀ x f c e, P.Live x → P.heap.lab x = .formula f → P.heap.kids x = [c] → P.Says c e →
            Answers (sat π e) ((out.filter fun x => x.1 = f).map (·.2)) ∧
            ∀ t, t + (lag c).toNat < rows.length → ∃ v ∈ (out.filter fun x => x.1 = f).map (·.2), t ≤ v.time := by
  obtain ⟨bytes, es, stop, m0, F0, bound, c1, c2, c3, c4, c5⟩ := C55_signals_partial P hr hsep hcov hbz k hk ahead turn lag hm hflat fuel fuel' s hs A h
    signals ids hid hfit aux hb hf hp hc ops
  obtain ⟨bytes', es', stop', e1, e2, _, _, e5⟩ := C25_tables_partial A aux hb hf hp hc
  rw [c1] at e1
  cases e1
  have := (c2 (A.instrs.length + 1) (by omega)).symm.trans (e2 (A.instrs.length + 1) (by omega))
  cases this
  obtain ⟨x0, hx0, hl0⟩ := hat
  have hne := P.table_ne_nil hr hsep h hx0 hl0 e5
  refine ⟨bytes, max bound (A.instrs.length + 1), c1, fun fuel hfuel size w header rows σ hh hrows hg hw hn hah hd => ?_⟩
  obtain ⟨m, F1, d1, d2⟩ := c5 fuel (by omega) σ rows.length hn hah hd
  obtain ⟨-, -, k3⟩ := Flat.start_keeps c4
  refine ⟨F1.out, ?_, fun π hπ x f c e hx hl hkids hsays => ?_⟩
  · simp only [Cli.mainBz, c2 fuel (by omega), c3, c4, Option.bind_some, if_neg hne]
    have := Cli.mainLoopBz_csv (ops := ops) (lim := (computeBounds P.bz signals ids A).bzLimits) (BzMon.table es) (LoadEv.tlTable es) fuel hh
      (S := ⟨fun _ => .int 0, m0, F0⟩) hrows hg hw (fun _ _ => rfl) k3
    rw [d1] at this
    obtain ⟨S, s1, s2⟩ := Option.map_eq_some_iff.1 this
    simp only [Prod.mk.injEq] at s2
    rw [s1, Option.map_some, s2.2]
  · obtain ⟨r1, r2, -⟩ := d2 π hπ x f c e hx hl hkids hsays
    exact ⟨r1, r2⟩

/-- Programs without booleanizer instructions are run as in C71. -/
theorem C74_without {F : Type} (ops : FloatOps F) (readF : List Char → Option F) (size : Nat) (lim : Limits) (blim : BzLimits) (fuel : Nat)
    (spec : List Nat) (trace : List Char) {es : List LoadEv} {stop : Nat} (h : loadBinary fuel spec = some (es, stop)) (he : LoadEv.bzPart es = []) :
    Cli.mainBz ops readF size lim blim fuel spec trace = Cli.main size lim fuel spec trace := by
  have h1 : BzMon.load ops blim es (BzMon.zero F) = some (BzMon.zero F) := by rw [load_bzPart, he]; rfl
  have h2 : BzMon.table es = [] := by rw [table_bzPart, he]; rfl
  simp only [Cli.mainBz, h, h1, h2, Option.bind_some, if_true]

/-! ### An example -/

namespace BzX

/-- A file with one column of integers. -/
def column (xs : List Int) : List (List (List Char)) := xs.map fun x => [Cli.intText x]

/-- The values in the column. -/
def values (xs : List Int) : Nat → Nat → Cell Unit := fun t i => if i = 0 then .int (xs.getD t 0) else .int 0

/-- Numbers small enough to be added. -/
def Small (xs : List Int) : Prop := ∀ x ∈ xs, -1000 ≤ x ∧ x < 1000

theorem Small.at {xs : List Int} (h : Small xs) (t : Nat) : -1000 ≤ xs.getD t 0 ∧ xs.getD t 0 < 1000 := by
  rw [List.getD_eq_getElem?_getD]
  cases ht : xs[t]? with
  | none => simp
  | some v => exact h v (List.mem_of_getElem? ht)

theorem intText_field (i : Int) : Cli.Field (Cli.intText i) ∧ (Cli.intText i).head? ≠ some '#' ∧ (Cli.intText i).head? ≠ some '@' := by
  have hd : ∀ n, ∀ c ∈ natStr n, c ≠ ',' ∧ c ≠ '\n' ∧ c ≠ '\x00' ∧ c ≠ '#' ∧ c ≠ '@' := by
    intro n c hc
    have := Cli.natStr_isDigit hc
    refine ⟨?_, ?_, ?_, ?_, ?_⟩ <;> rintro rfl <;> exact absurd this (by decide)
  unfold Cli.intText
  split
  · refine ⟨⟨by simp, ?_⟩, by simp, by simp⟩
    intro c hc
    rcases List.mem_cons.1 hc with rfl | hc
    · decide
    · exact ⟨(hd _ c hc).1, (hd _ c hc).2.1, (hd _ c hc).2.2.1⟩
  · refine ⟨⟨natStr_ne_nil _, fun c hc => ⟨(hd _ c hc).1, (hd _ c hc).2.1, (hd _ c hc).2.2.1⟩⟩, ?_, ?_⟩
    · intro h; exact (hd _ _ (List.mem_of_head? h)).2.2.2.1 rfl
    · intro h; exact (hd _ _ (List.mem_of_head? h)).2.2.2.2 rfl

theorem column_rows {xs : List Int} (h : Small xs) : Cli.Rows 8192 1 (column xs) := by
  refine ⟨?_, ?_, ?_, ?_⟩
  · intro r hr; obtain ⟨_, _, rfl⟩ := List.mem_map.1 hr; rfl
  · intro r hr f hf
    obtain ⟨x, _, rfl⟩ := List.mem_map.1 hr
    rw [List.mem_singleton] at hf
    subst hf
    exact (intText_field x).1
  · intro r hr f hf
    obtain ⟨x, _, rfl⟩ := List.mem_map.1 hr
    simp only [List.head?_cons, Option.some.injEq] at hf
    subst hf
    exact (intText_field x).2
  · intro r hr
    obtain ⟨x, hx, rfl⟩ := List.mem_map.1 hr
    have := Cli.natStr_length_le (n := x.natAbs) (by have := h x hx; omega)
    simp only [Cli.row, Cli.intText, List.length_append, List.length_singleton]
    split
    · simp only [List.length_cons]; omega
    · omega

theorem column_gives {xs : List Int} (h : Small xs) (readF : List Char → Option Unit) : Cli.Gives readF 1 (column xs) (values xs) := by
  refine ⟨?_, ?_⟩
  · intro t r hr i f hf
    simp only [column, List.getElem?_map, Option.map_eq_some_iff] at hr
    obtain ⟨x, hx, rfl⟩ := hr
    cases i with
    | zero =>
      simp only [List.getElem?_cons_zero, Option.some.injEq] at hf
      subst hf
      have hs := h x (List.mem_of_getElem? hx)
      have : values xs t 0 = .int x := by simp [values, List.getD_eq_getElem?_getD, hx]
      rw [this]
      exact .int x (by omega) (by omega)
    | succ i => simp at hf
  · intro t _ i hi
    simp [values, show i ≠ 0 by omega]

theorem values_prev (xs : List Int) (t : Nat) :
    bzProg.Value noFloats (values xs) t 6 (.int (if t = 0 then 0 else xs.getD (t - 1) 0)) := by
  cases t with
  | zero => exact .first (c := 8) (d := 5) (ty := true) rfl rfl (.int rfl)
  | succ t => exact .next (c := 8) (d := 5) (ty := true) rfl rfl (.sigI (s := 0) rfl rfl)

theorem values_sum {xs : List Int} (h : Small xs) (t : Nat) :
    bzProg.Value noFloats (values xs) t 4 (.int (xs.getD t 0 + if t = 0 then 0 else xs.getD (t - 1) 0)) := by
  refine .int2 (o := .add) (c := 5) (d := 6) rfl rfl (.sigI (s := 0) rfl rfl) (values_prev xs t) ?_
  have h1 := h.at t
  have h2 := h.at (t - 1)
  simp only [OpK.int2, int32]
  rw [if_pos]
  split <;> constructor <;> omega

theorem values_ge {xs : List Int} (h : Small xs) (t : Nat) :
    bzProg.Value noFloats (values xs) t 3 (.int (if 5 ≤ xs.getD t 0 + (if t = 0 then 0 else xs.getD (t - 1) 0) then 1 else 0)) := by
  refine .int2 (o := .ge) (c := 4) (d := 7) rfl rfl (values_sum h t) (.int (v := 5) rfl) ?_
  simp [OpK.int2]

theorem values_defined {xs : List Int} (h : Small xs) (t : Nat) : bzProg.BzDefined noFloats (values xs) t where
  value := by
    intro x hx hl
    have := bzProg_needs hx
    simp only [List.mem_cons, List.not_mem_nil, or_false] at this
    rcases this with rfl|rfl|rfl|rfl|rfl|rfl|rfl
    · exact absurd rfl hl
    · exact ⟨_, values_ge h t⟩
    · exact ⟨_, values_sum h t⟩
    · exact ⟨_, .sigI (s := 0) rfl rfl⟩
    · exact ⟨_, values_prev xs t⟩
    · exact ⟨_, .int (v := 5) rfl⟩
    · exact ⟨_, .int (v := 0) rfl⟩
  atom := by
    intro x hx hl
    have := bzProg_needs hx
    simp only [List.mem_cons, List.not_mem_nil, or_false] at this
    rcases this with rfl|rfl|rfl|rfl|rfl|rfl|rfl <;> simp [bzProg] at hl
    exact ⟨3, [], _, rfl, values_ge h t⟩

theorem atom_iff {xs : List Int} (h : Small xs) (t a : Nat) : bzProg.AtomTrue noFloats (values xs) t a ↔
    a = 0 ∧ 5 ≤ xs.getD t 0 + (if t = 0 then 0 else xs.getD (t - 1) 0) := by
  have need : bzProg.NeedsCell 2 :=
    ⟨.inl (.kid (p := 1) (.kid (p := 0) (.root (by simp [bzProg])) (by decide)) (by decide)), rfl, by decide⟩
  constructor
  · rintro ⟨x, c, cs, b, hx, hl, ha, hk, hv, hb⟩
    have := bzProg_needs hx
    simp only [List.mem_cons, List.not_mem_nil, or_false] at this
    rcases this with rfl|rfl|rfl|rfl|rfl|rfl|rfl <;> simp [bzProg] at hl
    simp only [bzProg, Option.some.injEq, List.cons.injEq] at ha hk
    obtain ⟨rfl, -⟩ := hk
    have := C49_value_unique _ _ _ hv (values_ge h t)
    simp only [Cell.int.injEq] at this
    refine ⟨ha.symm, ?_⟩
    by_contra hlt
    rw [if_neg hlt] at this
    exact hb this
  · rintro ⟨rfl, h5⟩
    have := values_ge h t
    rw [if_pos h5] at this
    exact ⟨2, 3, [], 1, need, rfl, rfl, rfl, this, by decide⟩

theorem asm_eq : ((bzProg.computeScq 100 0).bind fun s => genAssembly 100 bzProg s.scq) = some bzAsm := by decide +kernel

/-- All the hypotheses of C74 hold of `x + prev(0, x) >= 5` and every column of small numbers. -/
example : ∃ bytes bound, assembleBytes bzAsm.instrs [] = some bytes ∧ ∀ fuel, bound ≤ fuel → ∀ xs : List Int, Small xs → xs.length < 2 ^ 31 →
    ∃ out : List (Nat × Verdict),
      Cli.mainBz noFloats (fun _ => none) 8192 (computeBounds true 1 [0] bzAsm).limits (computeBounds true 1 [0] bzAsm).bzLimits fuel bytes
        (Cli.csv (some " x".toList) (column xs)) = some (out.flatMap Cli.line) ∧
      Answers (fun t => 5 ≤ xs.getD t 0 + (if t = 0 then 0 else xs.getD (t - 1) 0)) ((out.filter fun x => x.1 = 0).map (·.2)) ∧
      ∀ t, t < xs.length → ∃ v ∈ (out.filter fun x => x.1 = 0).map (·.2), t ≤ v.time := by
  obtain ⟨s, hs, hA⟩ := Option.bind_eq_some_iff.1 asm_eq
  have need : bzProg.NeedsCell 2 :=
    ⟨.inl (.kid (p := 1) (.kid (p := 0) (.root (by simp [bzProg])) (by decide)) (by decide)), rfl, by decide⟩
  obtain ⟨bytes, bound, c1, c2⟩ := C74_command_line_partial bzProg bzProg_ready bzProg_separate bzProg_covered rfl ⟨2, need, rfl⟩ 0 (by decide)
    (fun _ => 0) (fun _ => 0) bzProg.wpd bzProg_monitorable bzProg_flat 100 100 s hs bzAsm hA 1 [0]
    (by
      intro x a
      show _ → a < 1
      rcases x with _|_|_|x <;> simp [bzProg] <;> omega)
    bzProg_fits [] (by simp [bzAsm, Instr.Fits, fits]) (by simp [bzAsm, Instr.Fits, fits]) (by simp [bzAsm]) (by simp [bzAsm, Instr.Fits, fits])
    noFloats (fun _ => none)
  refine ⟨bytes, bound, c1, fun fuel hfuel xs hsm hlen => ?_⟩
  have hl : (column xs).length = xs.length := by simp [column]
  obtain ⟨out, d1, d2⟩ := c2 fuel hfuel 8192 1 (some " x".toList) (column xs) (values xs) (by rintro _ ⟨⟩; exact ⟨by decide, by decide⟩)
    (column_rows hsm) (column_gives hsm _) (Nat.le_refl 1) (by rw [hl]; exact hlen) (by intro x _; rw [hl]; omega)
    (fun t _ => values_defined hsm t)
  obtain ⟨r1, r2⟩ := d2 (fun t a => bzProg.AtomTrue noFloats (values xs) t a) (fun _ _ _ => Iff.rfl) 1 0 2 (.atom 0)
    (.inl (.kid (p := 0) (.root (by simp [bzProg])) (by decide))) rfl rfl (.atom rfl)
  refine ⟨out, d1, ?_, fun t ht => r2 t (by rw [hl]; exact ht)⟩
  have : (fun t => 5 ≤ xs.getD t 0 + (if t = 0 then 0 else xs.getD (t - 1) 0)) =
      sat (fun t a => bzProg.AtomTrue noFloats (values xs) t a) (.atom 0) := by
    funext t
    rw [sat, atom_iff hsm]
    simp
  rw [this]
  exact r1

end BzX

/-! ### Files for which the claim fails -/

/-- What the command line tool prints for `x + prev(0, x) >= 5`. -/
def bzRun (trace : String) : Option (List Char) :=
  (assembleBytes bzAsm.instrs []).bind fun bytes =>
    Cli.mainBz noFloats (fun _ => some ()) 8192 (computeBounds true 1 [0] bzAsm).limits (computeBounds true 1 [0] bzAsm).bzLimits 100 bytes trace.toList

/-- As it should be. -/
example : bzRun "# x\n3\n2\n-1\n7\n" = some "0:0,F\n0:1,T\n0:2,F\n0:3,T\n".toList := by decide +kernel

/-- A text that is not a number is taken for the value of the line before. -/
theorem C74_text_fails : bzRun "# x\n9\nnan\nfoo\n" = some "0:0,T\n0:1,T\n0:2,T\n".toList := by decide +kernel

/-- Of a number in scientific notation, or with a separator, only the first digits are read. -/
theorem C74_exponent_fails : bzRun "# x\n1e3\n1'000\n" = some "0:0,F\n0:1,F\n".toList := by decide +kernel

/-- A number that does not fit 32 bits is undefined behaviour. -/
theorem C74_large_fails : bzRun "# x\n4294967296\n" = none := by decide +kernel

/-- An integer written with a decimal point is stored as a double and read as an integer. -/
theorem C74_point_fails : bzRun "# x\n7.0\n" = none := by decide +kernel

/-- `x > 0.0`, where `x` is a float, signal 0. -/
def fltProg : BProg where
  heap := ⟨fun | 1 => .formula 0 | 2 => .atomic | 3 => .op .gt false | 4 => .signal false 0 | 5 => .float 0 | _ => .specSet,
    fun | 0 => [1] | 1 => [2] | 2 => [3] | 3 => [4, 5] | _ => [],
    fun | 1 => [0] | 2 => [1] | 3 => [2] | 4 => [3] | 5 => [3] | _ => []⟩
  bpd := fun _ => 0
  wpd := fun _ => 0
  ft := 0
  pt := 6
  bz := true
  atomicId := fun | 2 => some 0 | _ => none

/-- Numbers for the example: integers. -/
def intFloats : FloatOps Int where
  ofBits b := b; lt a b := a < b; neg a := -a; add := (· + ·); sub := (· - ·); mul := (· * ·); div := (· / ·)
  pow a _ := a; sqrt a := a; zero := 0; minusOne := -1; eps := 0; ipow _ _ := none; isqrt _ := none

/-- What the command line tool prints for `x > 0.0`, if `%lf` reads every text as 1. -/
def fltRun (trace : String) : Option (List Char) :=
  ((fltProg.computeScq 100 0).bind fun s => genAssembly 100 fltProg s.scq).bind fun A =>
  (assembleBytes A.instrs []).bind fun bytes =>
    Cli.mainBz intFloats (fun _ => some 1) 8192 (computeBounds true 1 [0] A).limits (computeBounds true 1 [0] A).bzLimits 100 bytes trace.toList

/-- As it should be. -/
example : fltRun "# x\n1.0\n" = some "0:0,T\n".toList := by decide +kernel

/-- A float written without a decimal point, though a number C and the specification language know, is stored as an integer and read as a double. -/
theorem C74_whole_fails : fltRun "# x\n1\n" = none ∧ fltRun "# x\n1e3\n" = none := by
  constructor <;> decide +kernel

/-- The boolean signal `x`, in a program with the booleanizer. -/
def boolProg : BProg where
  heap := ⟨fun | 1 => .formula 0 | 2 => .atomic | 3 => .signal true 0 | _ => .specSet,
    fun | 0 => [1] | 1 => [2] | 2 => [3] | _ => [],
    fun | 1 => [0] | 2 => [1] | 3 => [2] | _ => []⟩
  bpd := fun _ => 0
  wpd := fun _ => 0
  ft := 0
  pt := 4
  bz := true
  atomicId := fun | 2 => some 0 | _ => none

/-- What the command line tool prints for `x`. -/
def boolRun (trace : String) : Option (List Char) :=
  ((boolProg.computeScq 100 0).bind fun s => genAssembly 100 boolProg s.scq).bind fun A =>
  (assembleBytes A.instrs []).bind fun bytes =>
    Cli.mainBz noFloats (fun _ => some ()) 8192 (computeBounds true 1 [0] A).limits (computeBounds true 1 [0] A).bzLimits 100 bytes trace.toList

/-- The same boolean value is read in two ways: `true` is true without the booleanizer, false with it. -/
theorem C74_true_fails : xyRun 8192 "# x,y\ntrue,true\n" = some "0:0,T\n1:0,T\n".toList ∧ boolRun "# x\ntrue\n" = some "0:0,F\n".toList ∧
    boolRun "# x\n1\n" = some "0:0,T\n".toList := by
  refine ⟨?_, ?_, ?_⟩ <;> decide +kernel

end R2U2
