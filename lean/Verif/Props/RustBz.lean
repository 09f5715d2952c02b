import Verif.Lemmas.RustBz
import Verif.Lemmas.RustStart
import Verif.Props.Booleanizer
/-
The booleanizer of the Rust monitor: what it computes, that it agrees with C where both are defined, and where they differ.
-/
namespace R2U2
open Rs
variable {F : Type}

theorem BProg.BzFits.mono {P : BProg} {A : BProg.Assembly} {lim lim' : BzLimits} (h : P.BzFits A lim) (h1 : lim.cells ≤ lim'.cells)
    (h2 : lim.signals ≤ lim'.signals) (h3 : lim.atomics ≤ lim'.atomics) : P.BzFits A lim' where
  cells := le_trans h.cells h1
  signals x ty s hx hl := by have := h.signals x ty s hx hl; omega
  atomics x hx hl := by obtain ⟨a, p, q⟩ := h.atomics x hx hl; exact ⟨a, p, by omega⟩
  own := h.own

/-- What the events of instructions that fit look like. -/
theorem event_facts {i : BzInstr} (h : (Instr.bz i).Fits) :
    (∀ a v, (Instr.bz i).event = .fconst a v → v % 2 ^ 32 < 2 ^ 31) ∧
    ∀ r, (Instr.bz i).event = .bz r → r.opcode = some i.op ∧ i.op ≠ .iconst ∧ i.op ≠ .fconst := by
  obtain ⟨_, _, h⟩ := h
  cases hia : i.a with
  | int v =>
    rw [hia] at h
    obtain ⟨h1, h2, h3⟩ := h
    cases hio : i.op <;> simp_all [Instr.event]
  | float b =>
    rw [hia] at h
    obtain ⟨h1, h2, h3⟩ := h
    simp only [Instr.event, h1, hia]
    exact ⟨fun a v h => by cases h; exact h3, fun r h => by cases h⟩

/-- The Rust monitor on an assembled program, by what the C monitor with the operations `c` computes. -/
theorem BProg.rust_signals (P : BProg) (hr : P.Ready) (hsep : P.Separate) (hcov : P.Covered) (hbz : P.bz = true)
    (k : Int) (hk : 0 ≤ k) (ahead turn lag : Nat → Int) (hm : P.Monitorable ahead turn lag k) (hflat : P.FlatPrev)
    (fuel fuel' : Nat) (s : BProg.ScqState) (hs : P.computeScq fuel k = some s) (A : BProg.Assembly)
    (h : BProg.genAssembly fuel' P s.scq = some A) (signals : Nat) (ids : List Nat)
    (hid : ∀ x a, P.atomicId x = some a → a < (computeBounds P.bz signals ids A).maxAtomics)
    (hfit : P.BzFits A (computeBounds P.bz signals ids A).bzLimits)
    (aux : List Nat) (haux : ∀ b ∈ aux, b < 256) (hb : ∀ i ∈ A.bz, (Instr.bz i).Fits) (hf : ∀ i ∈ A.ft, (Instr.tl i).Fits)
    (hp : ∀ i ∈ A.pt, (Instr.tl i).Fits) (hc : ∀ i ∈ A.cg, (Instr.cg i).Fits)
    (lim : Rs.Limits) (hlim : Rs.Covers lim (computeBounds P.bz signals ids A)) (hlb : A.bz.length ≤ lim.bz) (nsig : Nat) (hns : signals ≤ nsig)
    (hcap : ∀ l : List Nat, l.Nodup → (∀ x ∈ l, P.Live x ∧ (P.heap.lab x).isFormula = true) → (l.map (P.burstAt ahead lag)).sum ≤ lim.outputs)
    {G : Type} {ι : F → G} {c : FloatOps G} {ops : Rs.Ops F} {ok : BzOp → Bool} (hlike : LikeC ι c ops ok) (hsame : ∀ i ∈ A.bz, ok i.op = true) :
    ∃ bytes bound, assembleBytes A.instrs aux = some bytes ∧
      ∀ fuel, bound ≤ fuel → ∃ S0, getFull ops lim nsig fuel bytes = some S0 ∧
        (∃ es stop, loadBinary fuel bytes = some (es, stop) ∧ S0.prog = BzMon.table es) ∧
      ∀ (σ : Nat → Nat → Cell G) (σ' : Nat → Signals F) (n : Nat), (∀ t, SameVia ι (σ t) (σ' t)) → n < 2 ^ 32 →
        (∀ x, P.Live x → (n : Int) < 2 ^ 32 + ahead x) → (∀ t, t < n → P.BzDefined c σ t) →
        ∃ S out oks, S0.run ops (lim.bzLimits nsig) fuel σ' n = some (S, out, oks) ∧ oks = List.replicate n true ∧
          ∀ π : Trace Nat, (∀ t, t < n → ∀ a, π t a ↔ P.AtomTrue c σ t a) →
          ∀ x f c e, P.Live x → P.heap.lab x = .formula f → P.heap.kids x = [c] → P.Says c e →
            Answers (sat π e) (Rs.reports out f) ∧
            (∀ s, s + (lag c).toNat < n → ∃ v ∈ Rs.reports out f, s ≤ v.time) ∧
            (∀ v ∈ Rs.reports out f, (v.time : Int) + ahead c < n) := by
  have hfit' : P.BzFits A (lim.bzLimits nsig) := hfit.mono hlb (by simp only [computeBounds, hbz, Bounds.bzLimits, Limits.bzLimits, if_true]; exact hns) hlim.atomics
  obtain ⟨bytes, es, stop, m0, b1, b2, b3, b4⟩ := C49_booleanizer_partial P hr hsep hflat fuel' s.scq A h
    (lim.bzLimits nsig) hfit' aux hb hf hp hc c
  obtain ⟨bytes', es', stop', e1, e2, e3, e4, e5⟩ := C25_tables_partial A aux hb hf hp hc
  rw [b1] at e1
  cases e1
  have := (b2 (A.instrs.length + 1) (by omega)).symm.trans (e2 (A.instrs.length + 1) (by omega))
  cases this
  have ev : ∀ e ∈ LoadEv.bzPart es, ∃ i ∈ A.bz, e = (Instr.bz i).event := by
    intro e he
    rw [e5, List.mem_map] at he
    obtain ⟨i, hi, rfl⟩ := he
    exact ⟨i, hi, rfl⟩
  have hroom : ∀ es', LoadEv.bzPart es' = A.bz.map (fun i => (Instr.bz i).event) → Rs.BzRoom lim es' := by
    intro es' he
    have hl : BzMon.load c (lim.bzLimits nsig) es' (BzMon.zero G) = some m0 := by rw [load_bzPart, he, ← e5, ← load_bzPart]; exact b3
    obtain ⟨_, f2, f3, f4⟩ := load_facts es' hl
    refine ⟨?_, f2, f3, ?_⟩
    · rw [table_bzPart, he]
      refine le_trans ?_ hlb
      unfold BzMon.table
      refine le_trans (List.length_filterMap_le _ _) ?_
      simp
    · intro r hr'
      have : LoadEv.bz r ∈ LoadEv.bzPart es := by rw [e5, ← he]; exact List.mem_filter.2 ⟨hr', rfl⟩
      obtain ⟨i, hi, hri⟩ := ev _ this
      obtain ⟨p1, p2, p3⟩ := (event_facts (hb i hi)).2 r hri.symm
      rw [p1]
      exact ⟨⟨by simpa using p2, by simpa using p3⟩, fun hpv => f4 r hr' (by rw [p1]; exact hpv)⟩
  obtain ⟨bytes', bound, c1, c2⟩ := BProg.rust_run P hr hsep hcov k hk ahead turn lag hm fuel fuel' s hs A h signals ids hid aux hb hf hp hc
    lim hlim hroom hcap
  rw [b1] at c1
  cases c1
  refine ⟨bytes, max bound (A.instrs.length + 1), b1, ?_⟩
  intro fl hfl
  obtain ⟨M0, c3, c4⟩ := c2 fl (by omega)
  have hld := b2 fl (by omega)
  have hload : ∃ s0, Rs.BzMon.loadEvs ops (lim.bzLimits nsig) es (Rs.BzMon.zero ops.zero) = some s0 ∧ Agrees ι m0 s0 :=
    loadEvs_ok hlike.ofBits es b3 ⟨fun _ _ h => by cases h; rfl, fun _ _ h => (by cases h), rfl, rfl, rfl⟩
  obtain ⟨s0, l1, l2⟩ := hload
  refine ⟨⟨M0, s0, BzMon.table es⟩, ?_, ⟨es, stop, hld, rfl⟩, ?_⟩
  · unfold getFull
    rw [c3]
    unfold loadBinary at hld
    cases h0 : bytes[0]? with
    | none => rw [h0] at hld; cases hld
    | some o =>
      rw [h0] at hld
      simp only [Option.bind_some]
      rw [framesBz_load (assemble_small b1 haux) _ _ _ _ hld (by
        intro a v hav
        obtain ⟨i, hi, he⟩ := ev _ (List.mem_filter.2 ⟨hav, rfl⟩)
        exact (event_facts (hb i hi)).1 a v he.symm), l1]
      rfl
  · intro σ σ' n hσ hn hah hd
    have hex : ∀ t, ∃ m, t ≤ n → BzMon.run c (lim.bzLimits nsig) (BzMon.table es) σ t m0 = some m ∧
        ∀ s, t = s + 1 → ∀ x a, P.NeedsCell x → P.heap.lab x = .atomic → P.atomicId x = some a →
              (m.atoms a = true ↔ P.AtomTrue c σ s a) := by
      intro t
      by_cases ht : t ≤ n
      · obtain ⟨m, hm'⟩ := b4 σ t (fun s hs => hd s (by omega))
        exact ⟨m, fun _ => hm'⟩
      · exact ⟨m0, fun h => absurd h ht⟩
    obtain ⟨m, hm'⟩ := Classical.axiomOfChoice hex
    have hm0 : m 0 = m0 := by have := (hm' 0 (by omega)).1; simp only [BzMon.run, Option.some.injEq] at this; exact this.symm
    have htl : ∀ t, t ≤ n → ∃ M out, M0.run fl (fun t a => (m (t + 1)).atoms a) t = some (M, out) ∧ M.time = t := by
      intro t ht
      obtain ⟨M, out, q1, q2, _⟩ := c4 (fun t a => (m (t + 1)).atoms a) t (by omega) (fun x hx => by have := hah x hx; omega)
      exact ⟨M, out, q1, q2⟩
    obtain ⟨S, out, oks, d1, _, _, d4, d5, d6⟩ := full_run hlike (S0 := ⟨M0, s0, BzMon.table es⟩) (blim := lim.bzLimits nsig) hσ (prog := BzMon.table es) (by
        intro r hr' o ho
        have : LoadEv.bz r ∈ es := by
          unfold BzMon.table at hr'
          rw [List.mem_filterMap] at hr'
          obtain ⟨e, he, h'⟩ := hr'
          cases e <;> simp at h'
          subst h'
          exact he
        obtain ⟨i, hi, he⟩ := ev _ (List.mem_filter.2 ⟨this, rfl⟩)
        obtain ⟨p1, _, _⟩ := (event_facts (hb i hi)).2 r he.symm
        rw [p1] at ho
        cases ho
        exact hsame i hi) (m := m) rfl (by rw [hm0]; exact l2) (by rw [hm0]; exact (load_facts es b3).1) (n := n)
      (fun t ht => by rw [hm0]; exact (hm' t ht).1) htl n (Nat.le_refl _)
    refine ⟨S, out, oks, d1, List.eq_replicate_iff.2 ⟨d5, d6⟩, ?_⟩
    intro π hπ x f c e hx hl hkids hsays
    classical
    let tr : Nat → Nat → Bool := fun t a => if t < n then (m (t + 1)).atoms a else decide (π t a)
    have congr : ∀ (j : Nat), j ≤ n → M0.run fl tr j = M0.run fl (fun t a => (m (t + 1)).atoms a) j := by
      intro j
      induction j with
      | zero => intro _; rfl
      | succ j ih =>
        intro hj
        simp only [Monitor.run]
        rw [ih (by omega), show tr j = (fun a => (m (j + 1)).atoms a) by funext a; simp [tr, show j < n by omega]]
    obtain ⟨M, out', g1, _, g3⟩ := c4 tr n hn hah
    rw [congr n (Nat.le_refl _), d4] at g1
    cases g1
    obtain ⟨r1, r2, r3⟩ := g3 x f c e hx hl hkids hsays
    refine ⟨?_, r2, r3⟩
    have hfun : sat π e = sat (fun t a => tr t a = true) e := by
      funext t
      refine propext (says_congr (P := P) ?_ hsays (hx.kid (by rw [hkids]; simp)) t)
      intro y a hy ha t
      by_cases ht : t < n
      · have hly := hr.atomsBz hbz y (by simp [ha])
        have hneed : P.NeedsCell y := ⟨hy, by simp [BProg.engine, hly, BNode.engine], by simp [hly, BNode.isConst]⟩
        simp only [tr, ht, if_true]
        rw [hπ t ht a, (hm' (t + 1) (by omega)).2 t rfl y a hneed hly ha]
      · simp [tr, ht]
    rw [hfun]
    exact r1

/-- On these operations C and Rust compute the same. -/
theorem same_like (ops : Rs.Ops F) : LikeC id ops.toFloatOps ops sameInBoth where
  ofBits _ := rfl
  neg _ := rfl
  sqrt _ := rfl
  abs _ := rfl
  add _ _ := rfl
  sub _ _ := rfl
  mul _ _ := rfl
  div _ _ := rfl
  pow _ _ := rfl
  eq h := by cases h
  ne h := by cases h
  gt h := by cases h
  ge h := by cases h
  lt h := by cases h
  le h := by cases h
  ipow h := by cases h
  isqrt h := by cases h

/-- C76 on assembled programs: the Rust monitor with the booleanizer, the counterpart of `C55_signals_partial`. -/
theorem C76_rust_signals_partial (P : BProg) (hr : P.Ready) (hsep : P.Separate) (hcov : P.Covered) (hbz : P.bz = true)
    (k : Int) (hk : 0 ≤ k) (ahead turn lag : Nat → Int) (hm : P.Monitorable ahead turn lag k) (hflat : P.FlatPrev)
    (fuel fuel' : Nat) (s : BProg.ScqState) (hs : P.computeScq fuel k = some s) (A : BProg.Assembly)
    (h : BProg.genAssembly fuel' P s.scq = some A) (signals : Nat) (ids : List Nat)
    (hid : ∀ x a, P.atomicId x = some a → a < (computeBounds P.bz signals ids A).maxAtomics)
    (hfit : P.BzFits A (computeBounds P.bz signals ids A).bzLimits)
    (aux : List Nat) (haux : ∀ b ∈ aux, b < 256) (hb : ∀ i ∈ A.bz, (Instr.bz i).Fits) (hf : ∀ i ∈ A.ft, (Instr.tl i).Fits)
    (hp : ∀ i ∈ A.pt, (Instr.tl i).Fits) (hc : ∀ i ∈ A.cg, (Instr.cg i).Fits) (hsame : ∀ i ∈ A.bz, sameInBoth i.op = true)
    (lim : Rs.Limits) (hlim : Rs.Covers lim (computeBounds P.bz signals ids A)) (hlb : A.bz.length ≤ lim.bz) (nsig : Nat) (hns : signals ≤ nsig)
    (hcap : ∀ l : List Nat, l.Nodup → (∀ x ∈ l, P.Live x ∧ (P.heap.lab x).isFormula = true) → (l.map (P.burstAt ahead lag)).sum ≤ lim.outputs)
    (ops : Rs.Ops F) :
    ∃ bytes bound, assembleBytes A.instrs aux = some bytes ∧
      ∀ fuel, bound ≤ fuel → ∃ S0, getFull ops lim nsig fuel bytes = some S0 ∧
      ∀ (σ : Nat → Nat → Cell F) (σ' : Nat → Signals F) (n : Nat), (∀ t, SameSignals (σ t) (σ' t)) → n < 2 ^ 32 →
        (∀ x, P.Live x → (n : Int) < 2 ^ 32 + ahead x) → (∀ t, t < n → P.BzDefined ops.toFloatOps σ t) →
        ∃ S out oks, S0.run ops (lim.bzLimits nsig) fuel σ' n = some (S, out, oks) ∧ oks = List.replicate n true ∧
          ∀ π : Trace Nat, (∀ t, t < n → ∀ a, π t a ↔ P.AtomTrue ops.toFloatOps σ t a) →
          ∀ x f c e, P.Live x → P.heap.lab x = .formula f → P.heap.kids x = [c] → P.Says c e →
            Answers (sat π e) (Rs.reports out f) ∧
            (∀ s, s + (lag c).toNat < n → ∃ v ∈ Rs.reports out f, s ≤ v.time) ∧
            (∀ v ∈ Rs.reports out f, (v.time : Int) + ahead c < n) := by
  obtain ⟨bytes, bound, c1, c2⟩ := P.rust_signals hr hsep hcov hbz k hk ahead turn lag hm hflat fuel fuel' s hs A h signals ids hid hfit aux haux
    hb hf hp hc lim hlim hlb nsig hns hcap (same_like ops) hsame
  refine ⟨bytes, bound, c1, fun fl hfl => ?_⟩
  obtain ⟨S0, c3, _, c4⟩ := c2 fl hfl
  exact ⟨S0, c3, fun σ σ' n hσ => c4 σ σ' n fun t k => ⟨((hσ t) k).1, fun v hv => (((hσ t) k).2 v hv).symm⟩⟩

/-- Floating-point arithmetic for the examples, which use none. -/
def rsNoFloats : Rs.Ops Unit := { noFloats with le := fun _ _ => false }

/-- All the hypotheses hold of `x + prev(0, x) >= 5` on a sawtooth. -/
example : ∃ bytes bound, assembleBytes bzAsm.instrs [] = some bytes ∧ ∀ fuel, bound ≤ fuel → ∃ S0,
    getFull rsNoFloats ⟨2, 2, 1, 7, 1⟩ 1 fuel bytes = some S0 ∧ ∀ n, n < 2 ^ 32 →
      ∃ S out oks, S0.run rsNoFloats ⟨7, 1, 1⟩ fuel (fun t _ => ((t : Int) % 4, ())) n = some (S, out, oks) ∧ oks = List.replicate n true ∧
        Answers (fun t => bzProg.AtomTrue noFloats saw t 0) (Rs.reports out 0) ∧ ∀ t, t < n → ∃ v ∈ Rs.reports out 0, t ≤ v.time := by
  have hA : ((bzProg.computeScq 100 0).bind fun s => BProg.genAssembly 100 bzProg s.scq) = some bzAsm := by decide +kernel
  obtain ⟨s, hs, hA⟩ := Option.bind_eq_some_iff.1 hA
  obtain ⟨bytes, bound, c1, c2⟩ := C76_rust_signals_partial bzProg bzProg_ready bzProg_separate bzProg_covered rfl 0 (by decide)
    (fun _ => 0) (fun _ => 0) bzProg.wpd bzProg_monitorable bzProg_flat 100 100 s hs bzAsm hA 1 [0]
    (by
      intro x a
      show _ → a < 1
      rcases x with _|_|_|x <;> (simp [bzProg]; try omega))
    bzProg_fits [] (by simp) (by simp [bzAsm, Instr.Fits, fits]) (by simp [bzAsm, Instr.Fits, fits]) (by simp [bzAsm]) (by simp [bzAsm, Instr.Fits, fits])
    (by simp [bzAsm, sameInBoth]) ⟨2, 2, 1, 7, 1⟩ ⟨by decide, by decide, by decide, by decide⟩ (by decide) 1 (by decide)
    (by
      intro l hl h
      have h1 : ∀ x ∈ l, x = 1 := by
        intro x hx
        have := (h x hx).2
        rcases x with _|_|_|_|_|_|_|_|_|_|x <;> simp [bzProg, BNode.isFormula] at this ⊢
      match l, hl, h1 with
      | [], _, _ => simp
      | [x], _, h1 => rw [h1 x (by simp)]; decide
      | x :: y :: _, hl, h1 =>
        have a := h1 x (by simp)
        have b := h1 y (by simp)
        subst a b
        simp at hl) rsNoFloats
  refine ⟨bytes, bound, c1, fun fuel hf => ?_⟩
  obtain ⟨S0, c3, c4⟩ := c2 fuel hf
  refine ⟨S0, c3, fun n hn => ?_⟩
  obtain ⟨S, out, oks, d1, d2, d3⟩ := c4 saw (fun t _ => ((t : Int) % 4, ())) n
    (fun t k => ⟨fun _ h => by simp only [saw, Cell.int.injEq] at h; exact h, fun _ h => by simp [saw] at h⟩) hn (fun x _ => by omega)
    (fun t _ => saw_defined t)
  obtain ⟨r1, r2, _⟩ := d3 (fun t a => bzProg.AtomTrue noFloats saw t a) (fun _ _ _ => Iff.rfl) 1 0 2 (.atom 0)
    (.inl (.kid (p := 0) (.root (by simp [bzProg])) (by decide))) rfl rfl (.atom rfl)
  exact ⟨S, out, oks, d1, d2, r1, fun t ht => r2 t (by simpa [bzProg] using ht)⟩

end R2U2
