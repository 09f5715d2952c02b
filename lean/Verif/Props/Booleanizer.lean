import Verif.Lemmas.Booleanizer
import Verif.Props.Binary
import Verif.Props.EndToEnd
import Verif.Model.Engine
/-
C49: the booleanizer.
-/
namespace R2U2
open BProg

variable {F : Type}

/-- The specification gives every node at most one value at every time. -/
theorem C49_value_unique (P : BProg) (ops : FloatOps F) (σ : Nat → Nat → Cell F) {t x : Nat} {v w : Cell F}
    (hv : P.Value ops σ t x v) (hw : P.Value ops σ t x w) : v = w := by
  induction hv generalizing w with
  | sigI hl h => cases hw <;> simp_all
  | sigF hl h => cases hw <;> simp_all
  | int hl => cases hw <;> simp_all
  | float hl => cases hw <;> simp_all
  | tau hl => cases hw <;> simp_all
  | int1 hl hk _ ho ih =>
    cases hw with
    | int1 hl' hk' hv' ho' =>
      rw [hl] at hl'; rw [hk] at hk'; cases hl'; cases hk'
      cases ih hv'; rw [ho] at ho'; cases ho'; rfl
    | int2 _ hk' => rw [hk] at hk'; cases hk'
    | flt2 _ hk' => rw [hk] at hk'; cases hk'
    | first _ hk' => rw [hk] at hk'; cases hk'
    | next _ hk' => rw [hk] at hk'; cases hk'
    | _ => simp_all
  | flt1 hl hk _ ho ih =>
    cases hw with
    | flt1 hl' hk' hv' ho' =>
      rw [hl] at hl'; rw [hk] at hk'; cases hl'; cases hk'
      cases ih hv'; rw [ho] at ho'; cases ho'; rfl
    | int2 _ hk' => rw [hk] at hk'; cases hk'
    | flt2 _ hk' => rw [hk] at hk'; cases hk'
    | first _ hk' => rw [hk] at hk'; cases hk'
    | next _ hk' => rw [hk] at hk'; cases hk'
    | _ => simp_all
  | int2 hl hk _ _ ho ih1 ih2 =>
    cases hw with
    | int2 hl' hk' hv' hv'' ho' =>
      rw [hl] at hl'; rw [hk] at hk'; cases hl'; cases hk'
      cases ih1 hv'; cases ih2 hv''; rw [ho] at ho'; cases ho'; rfl
    | int1 _ hk' => rw [hk] at hk'; cases hk'
    | flt1 _ hk' => rw [hk] at hk'; cases hk'
    | first hl' => rw [hl] at hl'; cases hl'; simp [OpK.int2] at ho
    | next hl' => rw [hl] at hl'; cases hl'; simp [OpK.int2] at ho
    | _ => simp_all
  | flt2 hl hk _ _ ho ih1 ih2 =>
    cases hw with
    | flt2 hl' hk' hv' hv'' ho' =>
      rw [hl] at hl'; rw [hk] at hk'; cases hl'; cases hk'
      cases ih1 hv'; cases ih2 hv''; rw [ho] at ho'; cases ho'; rfl
    | int1 _ hk' => rw [hk] at hk'; cases hk'
    | flt1 _ hk' => rw [hk] at hk'; cases hk'
    | first hl' => rw [hl] at hl'; cases hl'; simp [OpK.flt2] at ho
    | next hl' => rw [hl] at hl'; cases hl'; simp [OpK.flt2] at ho
    | _ => simp_all
  | first hl hk _ ih =>
    cases hw with
    | first hl' hk' hv' => rw [hk] at hk'; cases hk'; exact ih hv'
    | int1 _ hk' => rw [hk] at hk'; cases hk'
    | flt1 _ hk' => rw [hk] at hk'; cases hk'
    | int2 hl' _ _ _ ho => rw [hl] at hl'; cases hl'; simp [OpK.int2] at ho
    | flt2 hl' _ _ _ ho => rw [hl] at hl'; cases hl'; simp [OpK.flt2] at ho
    | _ => simp_all
  | next hl hk _ ih =>
    cases hw with
    | next hl' hk' hv' => rw [hk] at hk'; cases hk'; exact ih hv'
    | int1 _ hk' => rw [hk] at hk'; cases hk'
    | flt1 _ hk' => rw [hk] at hk'; cases hk'
    | int2 hl' _ _ _ ho => rw [hl] at hl'; cases hl'; simp [OpK.int2] at ho
    | flt2 hl' _ _ _ ho => rw [hl] at hl'; cases hl'; simp [OpK.flt2] at ho
    | _ => simp_all

theorem load_bzPart (ops : FloatOps F) (lim : BzLimits) : ∀ (es : List LoadEv) (m : BzMon F),
    BzMon.load ops lim es m = BzMon.load ops lim (LoadEv.bzPart es) m
  | [], _ => rfl
  | e :: es, m => by
      have ih := load_bzPart ops lim es
      cases e <;> simp only [LoadEv.bzPart, List.filter_cons, BzMon.load, BzMon.load1, Option.bind_some, if_true, Bool.false_eq_true, if_false] <;>
        first | (rw [ih]; rfl) | (congr 1; funext m'; rw [ih]; rfl)

theorem table_bzPart (es : List LoadEv) : BzMon.table es = BzMon.table (LoadEv.bzPart es) := by
  induction es with
  | nil => rfl
  | cons e es ih =>
    rw [table_eq, table_eq] at ih ⊢
    cases e <;> simp only [LoadEv.bzPart, List.filter_cons, List.filterMap_cons, rec?, if_true, Bool.false_eq_true, if_false] <;>
      rw [ih] <;> rfl

/-- The atomic proposition `a` at time `t`: the comparison or boolean signal it stands for is true. -/
def BProg.AtomTrue (P : BProg) (ops : FloatOps F) (σ : Nat → Nat → Cell F) (t a : Nat) : Prop :=
  ∃ x c cs b, P.NeedsCell x ∧ P.heap.lab x = .atomic ∧ P.atomicId x = some a ∧ P.heap.kids x = c :: cs ∧
    P.Value ops σ t c (.int b) ∧ b ≠ 0

/-- C49: on every history of signal values, the compiled booleanizer instructions, encoded, loaded and executed step by
step, put into the atomics at every time step the value of their expressions at that time, computed by the
arithmetic of the specification with `prev` the value of one step ago.  Missing: programs whose values are
undefined in C, and `prev` directly applied to `prev` (`C49_nested_prev_fails`). -/
theorem C49_booleanizer_partial (P : BProg) (hr : P.Ready) (hsep : P.Separate) (hflat : P.FlatPrev)
    (fuel : Nat) (scq : Nat → Option (Int × Int)) (A : Assembly) (h : genAssembly fuel P scq = some A)
    (lim : BzLimits) (hfit : P.BzFits A lim) (aux : List Nat) (hb : ∀ i ∈ A.bz, (Instr.bz i).Fits)
    (hf : ∀ i ∈ A.ft, (Instr.tl i).Fits) (hp : ∀ i ∈ A.pt, (Instr.tl i).Fits) (hc : ∀ i ∈ A.cg, (Instr.cg i).Fits)
    (ops : FloatOps F) :
    ∃ bytes es stop m0, assembleBytes A.instrs aux = some bytes ∧
      (∀ fuel, A.instrs.length < fuel → loadBinary fuel bytes = some (es, stop)) ∧
      BzMon.load ops lim es (BzMon.zero F) = some m0 ∧
      ∀ (σ : Nat → Nat → Cell F) (n : Nat), (∀ t, t < n → P.BzDefined ops σ t) →
        ∃ m, BzMon.run ops lim (BzMon.table es) σ n m0 = some m ∧
          ∀ t, n = t + 1 → ∀ x a, P.NeedsCell x → P.heap.lab x = .atomic → P.atomicId x = some a →
            (m.atoms a = true ↔ P.AtomTrue ops σ t a) := by
  obtain ⟨cell, L1, L2, T⟩ := bzTable P hr hsep fuel scq A h
  obtain ⟨bytes, es, stop, e1, e2, _, _, e5⟩ := C25_tables_partial A aux hb hf hp hc
  obtain ⟨m0, g1, _⟩ := T.started (ops := ops) (σ := fun _ _ => .int 0) hr hfit hflat hb
  refine ⟨bytes, es, stop, m0, e1, e2, by rw [load_bzPart, e5]; exact g1, ?_⟩
  intro σ n hd
  obtain ⟨m0', g1', g2⟩ := T.started (ops := ops) (σ := σ) hr hfit hflat hb
  rw [g1] at g1'
  cases g1'
  obtain ⟨m, k1, k2⟩ := T.run hr hfit hflat hb g2 n hd
  refine ⟨m, by rw [table_bzPart, e5]; exact k1, ?_⟩
  intro t hn x a hx hl ha
  subst hn
  have hgood : ∀ y c cs b, P.NeedsCell y → P.heap.lab y = .atomic → P.atomicId y = some a → P.heap.kids y = c :: cs →
      P.Value ops σ t c (.int b) → m.atoms a = decide (b ≠ 0) := by
    intro y c cs b hy hly hay hk hv
    obtain ⟨e, he, rfl⟩ := (T.needs y).2 hy
    rcases List.mem_append.1 he with h1 | h1
    · exact k2.atom t rfl e h1 a c cs b hly hay hk hv
    · obtain ⟨ty, c', d', hl', _⟩ := T.prev2 e h1
      rw [hly] at hl'
      cases hl'
  constructor
  · intro ht
    obtain ⟨c, cs, b, hk, hv⟩ := (hd t (by omega)).atom x hx hl
    refine ⟨x, c, cs, b, hx, hl, ha, hk, hv, ?_⟩
    rw [hgood x c cs b hx hl ha hk hv] at ht
    simpa using ht
  · rintro ⟨y, c, cs, b, hy, hly, hay, hk, hv, hb'⟩
    rw [hgood y c cs b hy hly hay hk hv]
    simpa using hb'

theorem Flat.run_congr {prog : List TlRec} {fuel : Nat} {tr tr' : Nat → Nat → Bool} : ∀ (n : Nat) (F : Flat),
    (∀ t, t < n → tr t = tr' t) → F.run prog fuel tr n = F.run prog fuel tr' n
  | 0, _, _ => rfl
  | n + 1, F, h => by
      simp only [Flat.run]
      rw [Flat.run_congr n F (fun t ht => h t (by omega)), h n (by omega)]

theorem engineRun_split {ops : FloatOps F} {lim : BzLimits} {bprog : List BzRec} {tprog : List TlRec} {fuel : Nat}
    {σ : Nat → Nat → Cell F} {m0 : BzMon F} {F0 : Flat} {m : Nat → BzMon F} : ∀ (n : Nat) (F' : Flat),
    (∀ t, t ≤ n → BzMon.run ops lim bprog σ t m0 = some (m t)) →
    F0.run tprog fuel (fun t a => (m (t + 1)).atoms a) n = some F' →
    engineRun ops lim bprog tprog fuel σ n (m0, F0) = some (m n, F')
  | 0, F', h, h' => by
      have := h 0 (by omega)
      simp only [BzMon.run, Option.some.injEq] at this
      simp only [Flat.run, Option.some.injEq] at h'
      simp [engineRun, ← this, h']
  | n + 1, F', h, h' => by
      simp only [Flat.run, Option.bind_eq_some_iff] at h'
      obtain ⟨F1, h1, h2⟩ := h'
      have ih := engineRun_split n F1 (fun t ht => h t (by omega)) h1
      have hb := h (n + 1) (by omega)
      simp only [BzMon.run, h n (by omega), Option.bind_some, Option.map_eq_some_iff] at hb
      obtain ⟨m', hb1, hb2⟩ := hb
      simp only [engineRun, ih, Option.bind_some, hb1]
      rw [← hb2] at h2 ⊢
      simp only at h2 ⊢
      rw [h2]
      rfl

theorem says_congr {P : BProg} {π π' : Trace Nat} 
    (h : ∀ x a, P.Live x → P.atomicId x = some a → ∀ t, π t a ↔ π' t a) {x : Nat} {e : Expr Nat} (hs : P.Says x e) :
    P.Live x → ∀ t, sat π e t ↔ sat π' e t := by
  induction hs with
  | atom ha => intro hx t; simpa [sat] using h _ _ hx ha t
  | const _ => intro _ t; simp [sat]
  | neg hl hk _ ih => intro hx t; simp [sat, ih (hx.kid (by rw [hk]; simp)) t]
  | and hl hk _ _ ih ih' =>
    intro hx t
    simp [sat, satAll, satAny, ih (hx.kid (by rw [hk]; simp)) t, ih' (hx.kid (by rw [hk]; simp)) t]
  | or hl hk _ _ ih ih' =>
    intro hx t
    simp [sat, satAll, satAny, ih (hx.kid (by rw [hk]; simp)) t, ih' (hx.kid (by rw [hk]; simp)) t]
  | iff hl hk _ _ ih ih' =>
    intro hx t
    simp [sat, satAll, satAny, ih (hx.kid (by rw [hk]; simp)) t, ih' (hx.kid (by rw [hk]; simp)) t]
  | untl hl hk _ _ ih ih' =>
    intro hx t
    simp [sat, ih (hx.kid (by rw [hk]; simp)), ih' (hx.kid (by rw [hk]; simp))]
  | rel hl hk _ _ ih ih' =>
    intro hx t
    simp [sat, ih (hx.kid (by rw [hk]; simp)), ih' (hx.kid (by rw [hk]; simp))]
  | since hl hk _ _ ih ih' =>
    intro hx t
    simp [sat, ih (hx.kid (by rw [hk]; simp)), ih' (hx.kid (by rw [hk]; simp))]
  | trig hl hk _ _ ih ih' =>
    intro hx t
    simp [sat, ih (hx.kid (by rw [hk]; simp)), ih' (hx.kid (by rw [hk]; simp))]

/-- C55 with the booleanizer: from signal values to verdicts.  The compiled program, encoded, loaded, configured and run on any
history of signal values, answers every formula with its MLTL value over the comparisons it contains.  The
assumptions are those of `C55_end_to_end_partial` and `C49_booleanizer_partial`. -/
theorem C55_signals_partial (P : BProg) (hr : P.Ready) (hsep : P.Separate) (hcov : P.Covered) (hbz : P.bz = true)
    (k : Int) (hk : 0 ≤ k) (ahead turn lag : Nat → Int) (hm : P.Monitorable ahead turn lag k) (hflat : P.FlatPrev)
    (fuel fuel' : Nat) (s : ScqState) (hs : P.computeScq fuel k = some s) (A : Assembly)
    (h : genAssembly fuel' P s.scq = some A) (signals : Nat) (ids : List Nat)
    (hid : ∀ x a, P.atomicId x = some a → a < (computeBounds P.bz signals ids A).maxAtomics)
    (hfit : P.BzFits A (computeBounds P.bz signals ids A).bzLimits)
    (aux : List Nat) (hb : ∀ i ∈ A.bz, (Instr.bz i).Fits) (hf : ∀ i ∈ A.ft, (Instr.tl i).Fits)
    (hp : ∀ i ∈ A.pt, (Instr.tl i).Fits) (hc : ∀ i ∈ A.cg, (Instr.cg i).Fits) (ops : FloatOps F) :
    ∃ bytes es stop m0 F0 bound, assembleBytes A.instrs aux = some bytes ∧
      (∀ fuel, A.instrs.length < fuel → loadBinary fuel bytes = some (es, stop)) ∧
      BzMon.load ops (computeBounds P.bz signals ids A).bzLimits es (BzMon.zero F) = some m0 ∧
      Flat.start (computeBounds P.bz signals ids A).limits (LoadEv.configs es) (LoadEv.tlTable es) = some F0 ∧
      ∀ fuel, bound ≤ fuel → ∀ (σ : Nat → Nat → Cell F) (n : Nat), n < 2 ^ 31 → (∀ x, P.Live x → (n : Int) < 2 ^ 31 + ahead x) →
        (∀ t, t < n → P.BzDefined ops σ t) →
        ∃ m F1, engineRun ops (computeBounds P.bz signals ids A).bzLimits (BzMon.table es) (LoadEv.tlTable es) fuel σ n (m0, F0) =
            some (m, F1) ∧
          ∀ π : Trace Nat, (∀ t, t < n → ∀ a, π t a ↔ P.AtomTrue ops σ t a) →
          ∀ x f c e, P.Live x → P.heap.lab x = .formula f → P.heap.kids x = [c] → P.Says c e →
            Answers (sat π e) (F1.reports f) ∧
            (∀ s, s + (lag c).toNat < n → ∃ v ∈ F1.reports f, s ≤ v.time) ∧
            (∀ v ∈ F1.reports f, (v.time : Int) + ahead c < n) := by
  obtain ⟨bytes, es, stop, m0, b1, b2, b3, b4⟩ := C49_booleanizer_partial P hr hsep hflat fuel' s.scq A h
    (computeBounds P.bz signals ids A).bzLimits hfit aux hb hf hp hc ops
  obtain ⟨bytes', es', stop', F0, bound, c1, c2, c3, c4⟩ := C55_end_to_end_partial P hr hsep hcov k hk ahead turn lag hm fuel fuel' s hs A h
    signals ids hid aux hb hf hp hc
  rw [b1] at c1
  cases c1
  have := (b2 (A.instrs.length + 1) (by omega)).symm.trans (c2 (A.instrs.length + 1) (by omega))
  cases this
  refine ⟨bytes, es, stop, m0, F0, bound, b1, b2, b3, c3, ?_⟩
  intro fuel hfuel σ n hn hah hd
  have hex : ∀ t, ∃ m, t ≤ n → BzMon.run ops (computeBounds P.bz signals ids A).bzLimits (BzMon.table es) σ t m0 = some m ∧
      ∀ s, t = s + 1 → ∀ x a, P.NeedsCell x → P.heap.lab x = .atomic → P.atomicId x = some a →
            (m.atoms a = true ↔ P.AtomTrue ops σ s a) := by
    intro t
    by_cases ht : t ≤ n
    · obtain ⟨m, hm'⟩ := b4 σ t (fun s hs => hd s (by omega))
      exact ⟨m, fun _ => hm'⟩
    · exact ⟨m0, fun h => absurd h ht⟩
  obtain ⟨m, hm'⟩ := Classical.axiomOfChoice hex
  obtain ⟨F1, d1, -⟩ := c4 fuel hfuel (fun t a => (m (t + 1)).atoms a) n hn hah
  refine ⟨m n, F1, engineRun_split n F1 (fun t ht => (hm' t ht).1) d1, ?_⟩
  intro π hπ x f c e hx hl hkids hsays
  classical
  let tr : Nat → Nat → Bool := fun t a => if t < n then (m (t + 1)).atoms a else decide (π t a)
  have hrun : F0.run (LoadEv.tlTable es) fuel tr n = some F1 := by
    rw [← d1]
    refine Flat.run_congr n F0 fun t ht => ?_
    funext a
    simp [tr, ht]
  obtain ⟨F2, d2, d3⟩ := c4 fuel hfuel tr n hn hah
  rw [hrun] at d2
  cases d2
  obtain ⟨r1, r2, r3⟩ := d3 x f c e hx hl hkids hsays
  refine ⟨?_, r2, r3⟩
  have hfun : sat π e = sat (fun t a => tr t a = true) e := by
    funext t
    refine propext (says_congr (P := P) ?_ hsays (hx.kid (by rw [hkids]; simp)) t)
    intro y a hy ha t
    by_cases ht : t < n
    · have hly := hr.atomsBz hbz y (by simp [ha])
      have hneed : P.NeedsCell y := ⟨hy, by simp [engine, hly, BNode.engine], by simp [hly, BNode.isConst]⟩
      simp only [tr, ht, if_true]
      rw [hπ t ht a, (hm' (t + 1) (by omega)).2 t rfl y a hneed hly ha]
    · simp [tr, ht]
  rw [hfun]
  exact r1

/-- Floating-point arithmetic for the examples, which use none. -/
def noFloats : FloatOps Unit where
  ofBits _ := (); lt _ _ := false; neg _ := (); add _ _ := (); sub _ _ := (); mul _ _ := (); div _ _ := ()
  pow _ _ := (); sqrt _ := (); zero := (); minusOne := (); eps := (); ipow _ _ := none; isqrt _ := none

/-- `x + prev(0, x) >= 5`, where `x` is signal 0. -/
def bzProg : BProg where
  heap := ⟨fun | 1 => .formula 0 | 2 => .atomic | 3 => .op .ge true | 4 => .op .add true | 5 => .signal true 0
               | 6 => .op .prev true | 7 => .int 5 | 8 => .int 0 | _ => .specSet,
    fun | 0 => [1] | 1 => [2] | 2 => [3] | 3 => [4, 7] | 4 => [5, 6] | 6 => [8, 5] | _ => [],
    fun | 1 => [0] | 2 => [1] | 3 => [2] | 4 => [3] | 5 => [4, 6] | 6 => [4] | 7 => [3] | 8 => [6] | _ => []⟩
  bpd := fun _ => 0
  wpd := fun _ => 0
  ft := 0
  pt := 9
  bz := true
  atomicId := fun | 2 => some 0 | _ => none

theorem bzProg_ready : bzProg.Ready where
  acyclic
    | 0 => ⟨_, 7, rfl⟩ | 1 => ⟨_, 6, rfl⟩ | 2 => ⟨_, 5, rfl⟩ | 3 => ⟨_, 4, rfl⟩ | 4 => ⟨_, 3, rfl⟩
    | 5 => ⟨_, 1, rfl⟩ | 6 => ⟨_, 2, rfl⟩ | 7 => ⟨_, 1, rfl⟩ | 8 => ⟨_, 1, rfl⟩ | 9 => ⟨_, 1, rfl⟩
    | _ + 10 => ⟨_, 1, rfl⟩
  ftSet := rfl
  ptSet := rfl
  arity := by
    intro x _ o t
    rcases x with _|_|_|_|_|_|_|_|_|_|x <;> simp [bzProg] <;> (try (intro h1 h2; subst h1 h2; simp [OpK.bzArity]))
  atomsBz := by
    intro _ x
    rcases x with _|_|_|_|_|_|_|_|_|_|x <;> simp [bzProg]
  atomsNo := by simp [bzProg]

theorem bzProg_reach {x : Nat} (h : bzProg.heap.Reachable [0] x) : x ∈ [0, 1, 2, 3, 4, 5, 6, 7, 8] :=
  reachable_mem (by decide) (by decide) h

theorem bzProg_needs {x : Nat} (h : bzProg.NeedsCell x) : x ∈ [2, 3, 4, 5, 6, 7, 8] := by
  obtain ⟨h1, h2, -⟩ := h
  rcases h1 with h1 | h1
  · have := bzProg_reach h1
    simp only [List.mem_cons, List.not_mem_nil, or_false] at this
    rcases this with rfl|rfl|rfl|rfl|rfl|rfl|rfl|rfl|rfl <;> simp_all [bzProg, BProg.engine, BNode.engine]
  · have := reachable_mem (S := [9]) (by decide) (by decide) h1
    simp only [List.mem_singleton] at this
    subst this
    simp [bzProg, BProg.engine, BNode.engine] at h2

theorem bzProg_separate : bzProg.Separate := by
  intro x h1 h2
  have a := bzProg_reach h1
  have b := reachable_mem (S := [9]) (by decide) (by decide) h2
  simp at a b
  omega

theorem bzProg_flat : bzProg.FlatPrev := by
  rintro x ty c d -
  rcases x with _|_|_|_|_|_|_|_|_|_|x <;> simp [bzProg]
  rintro rfl rfl rfl
  exact ⟨.inl ⟨0, rfl⟩, by simp⟩

def bzAsm : Assembly where
  bz := [⟨0, .iload, .int 0, 0⟩, ⟨1, .iconst, .int 0, 0⟩, ⟨3, .iadd, .int 0, 2⟩, ⟨4, .iconst, .int 5, 0⟩,
    ⟨5, .igte, .int 3, 4⟩, ⟨6, .store, .int 5, 0⟩, ⟨2, .prev, .int 1, 0⟩]
  ft := [⟨0, .load, .atomic, 0, .none, 0⟩, ⟨1, .ret, .subformula, 0, .direct, 0⟩]
  pt := []
  cg := [⟨false, ⟨0, .config, .atomic, 1, .none, 0⟩⟩, ⟨false, ⟨1, .config, .atomic, 1, .none, 0⟩⟩]

theorem bzProg_fits : bzProg.BzFits bzAsm ⟨7, 1, 1⟩ where
  cells := by decide
  signals := by
    intro x ty s hx
    have := bzProg_needs hx
    simp only [List.mem_cons, List.not_mem_nil, or_false] at this
    rcases this with rfl|rfl|rfl|rfl|rfl|rfl|rfl <;> simp [bzProg]
    rintro rfl rfl
    simp
  atomics := by
    intro x hx
    have := bzProg_needs hx
    simp only [List.mem_cons, List.not_mem_nil, or_false] at this
    rcases this with rfl|rfl|rfl|rfl|rfl|rfl|rfl <;> simp [bzProg]
  own := by
    intro x y a hx hy
    have hx := bzProg_needs hx
    have hy := bzProg_needs hy
    simp only [List.mem_cons, List.not_mem_nil, or_false] at hx hy
    rcases hx with rfl|rfl|rfl|rfl|rfl|rfl|rfl <;> simp [bzProg] <;>
      rcases hy with rfl|rfl|rfl|rfl|rfl|rfl|rfl <;> simp [bzProg]

/-- A sawtooth. -/
def saw : Nat → Nat → Cell Unit := fun t _ => .int ((t : Int) % 4)

theorem saw_prev (t : Nat) : ∃ b : Int, 0 ≤ b ∧ b < 4 ∧ bzProg.Value noFloats saw t 6 (.int b) := by
  cases t with
  | zero => exact ⟨0, by omega, by omega, .first (c := 8) (d := 5) (ty := true) rfl rfl (.int rfl)⟩
  | succ t =>
    exact ⟨(t : Int) % 4, by omega, by omega, .next (c := 8) (d := 5) (ty := true) rfl rfl (.sigI (s := 0) rfl rfl)⟩

theorem saw_sum (t : Nat) : ∃ b : Int, bzProg.Value noFloats saw t 4 (.int b) := by
  obtain ⟨b, h1, h2, h3⟩ := saw_prev t
  have h4 : bzProg.Value noFloats saw t 5 (.int ((t : Int) % 4)) := .sigI (s := 0) rfl rfl
  refine ⟨(t : Int) % 4 + b, .int2 (o := .add) (c := 5) (d := 6) rfl rfl h4 h3 ?_⟩
  simp only [OpK.int2, int32]
  rw [if_pos (by omega)]

theorem saw_ge (t : Nat) : ∃ b : Int, bzProg.Value noFloats saw t 3 (.int b) := by
  obtain ⟨a, h⟩ := saw_sum t
  exact ⟨_, .int2 (o := .ge) (c := 4) (d := 7) rfl rfl h (.int (v := 5) rfl) rfl⟩

theorem saw_defined (t : Nat) : bzProg.BzDefined noFloats saw t where
  value := by
    intro x hx hl
    have := bzProg_needs hx
    simp only [List.mem_cons, List.not_mem_nil, or_false] at this
    rcases this with rfl|rfl|rfl|rfl|rfl|rfl|rfl
    · exact absurd rfl hl
    · obtain ⟨b, h⟩ := saw_ge t; exact ⟨_, h⟩
    · obtain ⟨b, h⟩ := saw_sum t; exact ⟨_, h⟩
    · exact ⟨_, .sigI (s := 0) rfl rfl⟩
    · obtain ⟨b, _, _, h⟩ := saw_prev t; exact ⟨_, h⟩
    · exact ⟨_, .int (v := 5) rfl⟩
    · exact ⟨_, .int (v := 0) rfl⟩
  atom := by
    intro x hx hl
    have := bzProg_needs hx
    simp only [List.mem_cons, List.not_mem_nil, or_false] at this
    rcases this with rfl|rfl|rfl|rfl|rfl|rfl|rfl <;> simp [bzProg] at hl
    obtain ⟨b, h⟩ := saw_ge t
    exact ⟨3, [], b, rfl, h⟩

/-- The example meets the hypotheses of `C49_booleanizer_partial`, on an endless history. -/
example : bzProg.Ready ∧ bzProg.Separate ∧ bzProg.FlatPrev ∧
    (∃ A, genAssembly 100 bzProg (fun _ => some (0, 1)) = some A ∧ bzProg.BzFits A ⟨7, 1, 1⟩ ∧
      (∀ i ∈ A.bz, (Instr.bz i).Fits) ∧ (∀ i ∈ A.ft, (Instr.tl i).Fits) ∧
      (∀ i ∈ A.pt, (Instr.tl i).Fits) ∧ (∀ i ∈ A.cg, (Instr.cg i).Fits)) ∧
    (∀ t, bzProg.BzDefined noFloats saw t) ∧ bzProg.AtomTrue noFloats saw 3 0 := by
  refine ⟨bzProg_ready, bzProg_separate, bzProg_flat, ⟨bzAsm, by decide +kernel, bzProg_fits, ?_, ?_, ?_, ?_⟩, saw_defined, ?_⟩
  · simp [bzAsm, Instr.Fits, fits]
  · simp [bzAsm, Instr.Fits, fits]
  · simp [bzAsm]
  · simp [bzAsm, Instr.Fits, fits]
  · have h : bzProg.Value noFloats saw 3 3 (.int 1) :=
      .int2 (o := .ge) (c := 4) (d := 7) (a := 5) (b := 5) rfl rfl
        (.int2 (o := .add) (c := 5) (d := 6) (a := 3) (b := 2) rfl rfl (.sigI (s := 0) rfl rfl)
          (.next (c := 8) (d := 5) (ty := true) rfl rfl (.sigI (s := 0) rfl rfl)) (by decide)) (.int rfl) (by decide)
    exact ⟨2, 3, [], 1, ⟨.inl (.kid (p := 1) (.kid (p := 0) (.root (by simp [bzProg])) (by decide)) (by decide)), rfl, by decide⟩,
      rfl, rfl, rfl, h, by decide⟩

/-- What the atomics are after each of six steps. -/
example : (List.range 6).map (fun n => (BzMon.load noFloats ⟨7, 1, 1⟩ (bzAsm.bz.map fun i => (Instr.bz i).event) (BzMon.zero Unit)).bind fun m =>
    (BzMon.run noFloats ⟨7, 1, 1⟩ (BzMon.table (bzAsm.bz.map fun i => (Instr.bz i).event)) saw (n + 1) m).map fun m => m.atoms 0) =
    [some false, some false, some false, some true, some false, some false] := by decide +kernel

theorem bzProg_covered : bzProg.Covered := by
  rintro p c -
  rcases p with _|_|_|_|_|_|_|_|_|_|p <;>
    simp [bzProg, BProg.engine, BNode.engine, OpK.isLogical] <;>
    (intro h; subst h; simp)

theorem bzProg_monitorable : bzProg.Monitorable (fun _ => 0) (fun _ => 0) bzProg.wpd 0 where
  supported := by
    intro x _
    unfold BProg.Supported
    rcases x with _|_|_|_|_|_|_|_|_|_|x <;>
      simp [bzProg, BProg.engine, BNode.engine, OpK.isLogical, Varies, BNode.isBoolConst]
  top := by
    intro x c _
    rcases x with _|_|_|_|_|_|_|_|_|_|x <;> simp [bzProg, BProg.engine, BNode.engine, OpK.isLogical] <;>
      (intro h; subst h; simp [BNode.isFormula])
  numbers := by
    intro x y n hx hy
    rcases x with _|_|_|_|_|_|_|_|_|_|x <;> simp [bzProg] <;> rintro rfl <;>
      rcases y with _|_|_|_|_|_|_|_|_|_|y <;> simp
  leaf := by intro x _; simp [bzProg]
  soon := by
    intro x c _
    rcases x with _|_|_|_|_|_|_|_|_|_|x <;> simp [bzProg, BProg.engine, BNode.engine, OpK.isLogical, BNode.isFormula, soonBy, lateBy]
  late := by
    intro x c _
    rcases x with _|_|_|_|_|_|_|_|_|_|x <;> simp [bzProg, BProg.engine, BNode.engine, OpK.isLogical, BNode.isFormula, soonBy, lateBy]
  calm := by intro x _; left; simp
  consts := by intros; simp
  room := by
    intro x c _
    rcases x with _|_|_|_|_|_|_|_|_|_|x <;>
      simp [bzProg, BProg.engine, BNode.engine, OpK.isLogical, operands, BNode.isBoolConst]
    rintro rfl; left; exact ⟨(by rintro ⟨lb, ub, h | h⟩ <;> cases h), by decide⟩

/-- The example meets the hypotheses of `C55_signals_partial`. -/
example : bzProg.Ready ∧ bzProg.Separate ∧ bzProg.Covered ∧ bzProg.bz = true ∧ bzProg.Monitorable (fun _ => 0) (fun _ => 0) bzProg.wpd 0 ∧
    bzProg.FlatPrev ∧
    (∃ s A, bzProg.computeScq 100 0 = some s ∧ genAssembly 100 bzProg s.scq = some A ∧
      (∀ x a, bzProg.atomicId x = some a → a < (computeBounds true 1 [0] A).maxAtomics) ∧
      bzProg.BzFits A (computeBounds true 1 [0] A).bzLimits ∧
      (∀ i ∈ A.bz, (Instr.bz i).Fits) ∧ (∀ i ∈ A.ft, (Instr.tl i).Fits) ∧
      (∀ i ∈ A.pt, (Instr.tl i).Fits) ∧ (∀ i ∈ A.cg, (Instr.cg i).Fits)) ∧
    (∀ t, bzProg.BzDefined noFloats saw t) ∧ bzProg.Says 2 (.atom 0) := by
  refine ⟨bzProg_ready, bzProg_separate, bzProg_covered, rfl, bzProg_monitorable, bzProg_flat, ?_, saw_defined, .atom rfl⟩
  have hA : ((bzProg.computeScq 100 0).bind fun s => genAssembly 100 bzProg s.scq) = some bzAsm := by decide +kernel
  rw [Option.bind_eq_some_iff] at hA
  obtain ⟨s, hs, hA⟩ := hA
  refine ⟨s, bzAsm, hs, hA, ?_, bzProg_fits, ?_, ?_, ?_, ?_⟩
  · intro x a
    show _ → a < 1
    rcases x with _|_|_|x <;> simp [bzProg] <;> omega
  all_goals simp [bzAsm, Instr.Fits, fits]

/-- `prev(0, prev(0, x)) >= 5`, which type checking accepts if the inner `prev` is written as a definition
(type_check.py:526-576 looks for nested `prev` before definitions are expanded). -/
def nestedProg : BProg where
  heap := ⟨fun | 1 => .formula 0 | 2 => .atomic | 3 => .op .ge true | 4 => .op .prev true | 5 => .signal true 0
               | 6 => .op .prev true | 7 => .int 5 | 8 => .int 0 | _ => .specSet,
    fun | 0 => [1] | 1 => [2] | 2 => [3] | 3 => [4, 7] | 4 => [8, 6] | 6 => [8, 5] | _ => [],
    fun | 1 => [0] | 2 => [1] | 3 => [2] | 4 => [3] | 5 => [6] | 6 => [4] | 7 => [3] | 8 => [6, 4] | _ => []⟩
  bpd := fun _ => 0
  wpd := fun _ => 0
  ft := 0
  pt := 9
  bz := true
  atomicId := fun | 2 => some 0 | _ => none

/-- 7, then 0 for ever. -/
def pulse : Nat → Nat → Cell Unit := fun t _ => .int (if t = 0 then 7 else 0)

/-- C49 fails for `prev` applied to `prev`: the inner one is updated before the outer one copies it, so the outer one
is one step behind instead of two.  With `x` = 7, 0, ... the atomic is true at time 1; it should be false. -/
theorem C49_nested_prev_fails :
    (∃ A, genAssembly 100 nestedProg (fun _ => some (0, 1)) = some A ∧
      ((BzMon.load noFloats ⟨7, 1, 1⟩ (A.bz.map fun i => (Instr.bz i).event) (BzMon.zero Unit)).bind fun m =>
        (BzMon.run noFloats ⟨7, 1, 1⟩ (BzMon.table (A.bz.map fun i => (Instr.bz i).event)) pulse 2 m).map fun m => m.atoms 0) =
        some true) ∧
    nestedProg.Value noFloats pulse 1 3 (.int 0) ∧ ¬ nestedProg.AtomTrue noFloats pulse 1 0 := by
  have hv : nestedProg.Value noFloats pulse 1 3 (.int 0) :=
    .int2 (o := .ge) (c := 4) (d := 7) (a := 0) (b := 5) rfl rfl
      (.next (c := 8) (d := 6) (ty := true) rfl rfl (.first (c := 8) (d := 5) (ty := true) rfl rfl (.int rfl)))
      (.int rfl) (by decide)
  refine ⟨⟨{ bz := [⟨0, .iconst, .int 0, 0⟩, ⟨1, .iload, .int 0, 0⟩, ⟨4, .iconst, .int 5, 0⟩, ⟨5, .igte, .int 3, 4⟩,
      ⟨6, .store, .int 5, 0⟩, ⟨2, .prev, .int 0, 1⟩, ⟨3, .prev, .int 0, 2⟩], ft := bzAsm.ft, pt := [], cg := bzAsm.cg },
    by decide +kernel, by decide +kernel⟩, hv, ?_⟩
  rintro ⟨x, c, cs, b, -, -, ha, hk, hb, hne⟩
  have hx : x = 2 := by
    rcases x with _|_|_|x <;> simp [nestedProg] at ha ⊢
  subst hx
  simp only [nestedProg, List.cons.injEq] at hk
  obtain ⟨rfl, -⟩ := hk
  have := C49_value_unique _ _ _ hv hb
  simp only [Cell.int.injEq] at this
  exact hne this.symm

end R2U2
