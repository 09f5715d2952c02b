import Verif.Lemmas.RustValue
import Verif.Props.RustCompileBz
/-
From formulas over comparisons of floating-point numbers to the verdicts of the Rust monitor.
-/
namespace R2U2
open Heap Expr GraphPass
variable {α F : Type}

/-- Without `!=` between floats in the atoms there is none in the instructions. -/
theorem Made.noFneq {f : α → Ast} {b : BackEnd} {g : Heap Lab} {n0 ft pt fuel : Nat} {fs ps : List (SpecOf α)} {h : Heap BNode} {a : AtomState}
    (M : Made f b g n0 ft pt fs ps fuel h a) {ty : Ast → Bool} (hty : TypedAs f ty b.ty g) (hcm : Rs.NoFloatNe f ty)
    {scq : Nat → Option (Int × Int)} {A : BProg.Assembly} (hg : BProg.genAssembly fuel (Made.prog b ft pt h a) scq = some A) :
    ∀ i ∈ A.bz, Rs.notFneq i.op = true := by
  obtain ⟨r1, r2, r3⟩ := M.ready
  obtain ⟨cell, _, _, hm, _⟩ := BProg.C53_code _ r1 r3 r2 fuel scq A hg
  intro i hi
  obtain ⟨x, hx, hmean⟩ := hm i hi
  have hop : ∀ t, h.lab x = .op .ne t → t = true := by
    intro t hl
    obtain ⟨h1, k, e, hw, hd⟩ := M.cell hx.1 hx.2.1 (show h.lab x ≠ .atomic by rw [hl]; simp)
    rw [M.lab h1] at hl
    have hb := hty x e k hd hw
    have hin := M.inner hw
    cases hin <;> rw [denotes_lab hd rfl] at hl <;> simp only [toBNode, BNode.op.injEq, reduceCtorEq] at hl
    all_goals
      obtain ⟨rfl, rfl⟩ := hl
      rw [hb]
      exact hcm k _ hw
  have key : ∀ o t k, h.lab x = .op o t → bzOperator o t = some k → Rs.notFneq k = true := by
    intro o t k hl hk
    cases o
    case ne => cases hop t hl; simp [bzOperator] at hk; subst hk; rfl
    all_goals cases t <;> simp [bzOperator] at hk <;> subst hk <;> rfl
  obtain ⟨id, op, v, w⟩ := i
  unfold BProg.BzMeans at hmean
  split at hmean <;> try simp only [BzInstr.mk.injEq] at hmean
  all_goals first
    | (obtain ⟨_, rfl, _⟩ := hmean; rfl)
    | (rename_i hl _; obtain ⟨k, hk, _, rfl, _⟩ := hmean; exact key _ _ _ hl hk)

/-- `C76_rust_floats_partial`, and the instructions of the monitor. -/
theorem rust_floats {f : α → Ast} {o : CliOpts} {b : BackEnd} (hA : BzAtoms f b.sid b.bits b.signals)
    (hsep : AtomsSeparate f) (hdes : ∀ a, Desugared false (f a)) {h : Heap Lab} {n ft pt fuel : Nat} {fs ps : List (SpecOf α)}
    (hp : Program f h n ft pt fs ps) (hx : Apart h ft pt) (hnum : ((fs ++ ps).map (·.2.1)).Nodup)
    (hfs : ∀ s ∈ fs, Fit o false s.2.2) (hps : ∀ s ∈ ps, Fit o true s.2.2)
    (hkf : ∀ s ∈ fs, span false s.2.2 ≤ b.slack) (hkp : ∀ s ∈ ps, span true s.2.2 ≤ b.slack)
    {ty : Ast → Bool} (hty : ∀ g n', compileG o fuel ft pt (h, n) = some (g, n') → TypedAs f ty b.ty g) (hne : Rs.NoFloatNe f ty)
    (haux : ∀ x ∈ b.aux, x < 256)
    {bytes : List Nat} {bounds : Bounds} (hc : compileBinaryBz o b fuel ft pt (h, n) = some (bytes, bounds))
    (lim : Rs.Limits) (hlim : Rs.Covers lim bounds) (hlb : bounds.maxBz ≤ lim.bz) (nsig : Nat) (hns : bounds.maxSignals ≤ nsig)
    (hcap : (fs.map fun s => span false s.2.2 + 1).sum + (ps.map fun s => span true s.2.2 + 1).sum ≤ lim.outputs)
    (ops : Rs.Ops F) (hops : Rs.Symmetric ops) :
    ∃ bound, ∀ fuel, bound ≤ fuel → ∃ S0, Rs.getFull ops lim nsig fuel bytes = some S0 ∧
      (∃ es stop, loadBinary fuel bytes = some (es, stop) ∧ S0.prog = BzMon.table es) ∧
      ∀ (σ : Nat → Nat → Cell F) (σ' : Nat → Rs.Signals F) (T : Nat), (∀ t, Rs.SameSignals (σ t) (σ' t)) → T + b.slack < 2 ^ 32 →
        (∀ t, t < T → ∀ a, (∀ e, Tree.Within e (f a) → ∃ v, Ast.RsValue ops ty b.bits (fun t s => σ t (b.sid s).toNat) t e v) ∧
          ∃ i, Ast.RsValue ops ty b.bits (fun t s => σ t (b.sid s).toNat) t (f a) (.int i)) →
        ∃ S out oks, S0.run ops (lim.bzLimits nsig) fuel σ' T = some (S, out, oks) ∧ oks = List.replicate T true ∧
          (∀ s ∈ fs, Answers (sat (fun t a => ∃ i, i ≠ 0 ∧ Ast.RsValue ops ty b.bits (fun t s => σ t (b.sid s).toNat) t (f a) (.int i)) s.2.2)
              (Rs.reports out s.2.1) ∧
            ∀ t, t + span false s.2.2 < T → ∃ v ∈ Rs.reports out s.2.1, t ≤ v.time) ∧
          (∀ s ∈ ps, Answers (sat (fun t a => ∃ i, i ≠ 0 ∧ Ast.RsValue ops ty b.bits (fun t s => σ t (b.sid s).toNat) t (f a) (.int i)) s.2.2)
              (Rs.reports out s.2.1) ∧
            ∀ t, t < T → ∃ v ∈ Rs.reports out s.2.1, t ≤ v.time) := by
  obtain ⟨bound, c1⟩ := rust_numbers hA hsep hdes hp hx hnum hfs hps hkf hkp hty haux hc lim hlim hlb nsig hns hcap (Rs.asC_like hops)
    (fun _ _ _ _ _ _ _ _ M ht hg => M.noFneq ht hne hg)
  refine ⟨bound, fun fl hfl => ?_⟩
  obtain ⟨S0, c3, cp, c4⟩ := c1 fl hfl
  refine ⟨S0, c3, cp, fun σ σ' T hσ hT hv => ?_⟩
  have up : ∀ {t a e v}, Tree.Within e (f a) → Ast.RsValue ops ty b.bits (fun t s => σ t (b.sid s).toNat) t e v →
      Ast.Value ops.asC ty b.bits (fun t s => Rs.lift (σ t (b.sid s).toNat)) t e (Rs.lift v) := by
    intro t a e v hw h
    exact h.lift hops fun ts hts => hne a ts (hts.trans hw)
  refine c4 (fun t k => Rs.lift (σ t k)) σ' T ?_ hT ?_ _ ?_
  · intro t k
    simp only
    refine ⟨fun v h => (hσ t k).1 v ?_, fun v h => ?_⟩
    · revert h; cases σ t k <;> simp [Rs.lift]
    · have := (hσ t k).2
      revert h this
      cases σ t k with
      | int w => simp [Rs.lift]
      | flt w => intro h this; cases h; rw [this w rfl]
  · intro t ht a
    obtain ⟨h1, i, h2⟩ := hv t ht a
    refine ⟨fun e he => ?_, i, up .self h2⟩
    obtain ⟨v, hv⟩ := h1 e he
    exact ⟨_, up he hv⟩
  · intro t ht a
    constructor
    · rintro ⟨i, h1, h2⟩
      exact ⟨i, h1, up .self h2⟩
    · rintro ⟨i, h1, h2⟩
      obtain ⟨_, j, h3⟩ := hv t ht a
      have := (up .self h3).unique _ h2
      cases this
      exact ⟨i, h1, h3⟩

/-- C76 with comparisons of floats, and powers and roots of integers: `C76_rust_numbers_partial` with the values as the Rust monitor
computes them, floats being compared up to the tolerance.

Partial: as in C75 and C67.  Also, no atom has `!=` between floats, which for operands that are not numbers is not the negation of `==` in
Rust. -/
theorem C76_rust_floats_partial {f : α → Ast} {o : CliOpts} {b : BackEnd} (hA : BzAtoms f b.sid b.bits b.signals)
    (hsep : AtomsSeparate f) (hdes : ∀ a, Desugared false (f a)) {h : Heap Lab} {n ft pt fuel : Nat} {fs ps : List (SpecOf α)}
    (hp : Program f h n ft pt fs ps) (hx : Apart h ft pt) (hnum : ((fs ++ ps).map (·.2.1)).Nodup)
    (hfs : ∀ s ∈ fs, Fit o false s.2.2) (hps : ∀ s ∈ ps, Fit o true s.2.2)
    (hkf : ∀ s ∈ fs, span false s.2.2 ≤ b.slack) (hkp : ∀ s ∈ ps, span true s.2.2 ≤ b.slack)
    {ty : Ast → Bool} (hty : ∀ g n', compileG o fuel ft pt (h, n) = some (g, n') → TypedAs f ty b.ty g) (hne : Rs.NoFloatNe f ty)
    (haux : ∀ x ∈ b.aux, x < 256)
    {bytes : List Nat} {bounds : Bounds} (hc : compileBinaryBz o b fuel ft pt (h, n) = some (bytes, bounds))
    (lim : Rs.Limits) (hlim : Rs.Covers lim bounds) (hlb : bounds.maxBz ≤ lim.bz) (nsig : Nat) (hns : bounds.maxSignals ≤ nsig)
    (hcap : (fs.map fun s => span false s.2.2 + 1).sum + (ps.map fun s => span true s.2.2 + 1).sum ≤ lim.outputs)
    (ops : Rs.Ops F) (hops : Rs.Symmetric ops) :
    ∃ bound, ∀ fuel, bound ≤ fuel → ∃ S0, Rs.getFull ops lim nsig fuel bytes = some S0 ∧
      ∀ (σ : Nat → Nat → Cell F) (σ' : Nat → Rs.Signals F) (T : Nat), (∀ t, Rs.SameSignals (σ t) (σ' t)) → T + b.slack < 2 ^ 32 →
        (∀ t, t < T → ∀ a, (∀ e, Tree.Within e (f a) → ∃ v, Ast.RsValue ops ty b.bits (fun t s => σ t (b.sid s).toNat) t e v) ∧
          ∃ i, Ast.RsValue ops ty b.bits (fun t s => σ t (b.sid s).toNat) t (f a) (.int i)) →
        ∃ S out oks, S0.run ops (lim.bzLimits nsig) fuel σ' T = some (S, out, oks) ∧ oks = List.replicate T true ∧
          (∀ s ∈ fs, Answers (sat (fun t a => ∃ i, i ≠ 0 ∧ Ast.RsValue ops ty b.bits (fun t s => σ t (b.sid s).toNat) t (f a) (.int i)) s.2.2)
              (Rs.reports out s.2.1) ∧
            ∀ t, t + span false s.2.2 < T → ∃ v ∈ Rs.reports out s.2.1, t ≤ v.time) ∧
          (∀ s ∈ ps, Answers (sat (fun t a => ∃ i, i ≠ 0 ∧ Ast.RsValue ops ty b.bits (fun t s => σ t (b.sid s).toNat) t (f a) (.int i)) s.2.2)
              (Rs.reports out s.2.1) ∧
            ∀ t, t < T → ∃ v ∈ Rs.reports out s.2.1, t ≤ v.time) := by
  obtain ⟨bound, c1⟩ := rust_floats hA hsep hdes hp hx hnum hfs hps hkf hkp hty hne haux hc lim hlim hlb nsig hns hcap ops hops
  refine ⟨bound, fun fl hfl => ?_⟩
  obtain ⟨S0, c3, _, c4⟩ := c1 fl hfl
  exact ⟨S0, c3, c4⟩

/-! ### The hypotheses hold of a program with comparisons of floats -/

/-- Numbers for the example: integers, with the tolerance 1. -/
def rsInts : Rs.Ops Int where
  ofBits n := n
  lt a b := decide (a < b)
  le a b := decide (a ≤ b)
  neg a := -a
  add a b := a + b
  sub a b := a - b
  mul a b := a * b
  div a b := a.tdiv b
  pow a b := a ^ b.toNat
  sqrt a := Nat.sqrt a.toNat
  zero := 0
  minusOne := -1
  eps := 1
  ipow _ _ := none
  isqrt _ := none

theorem rsInts_distance (a b : Int) : Rs.distance rsInts a b = |a - b| := by
  simp only [Rs.distance, rsInts, decide_eq_true_eq]
  split
  · next h => rw [abs_of_neg h]; omega
  · next h => rw [abs_of_nonneg (by omega)]

theorem rsInts_symmetric : Rs.Symmetric rsInts := by
  intro a b
  rw [rsInts_distance, rsInts_distance, abs_sub_comm]
  exact ⟨rfl, rfl⟩

/-- A floating point literal. -/
abbrev fzF (s : String) : Ast := .node (.lit (.float s)) []

/-- `x >= 5.0` and `prev(0.0, x) < y`. -/
def fzAtom (a : Bool) : Ast :=
  if a then .node (.op .ge) [czX, fzF "5.0"] else .node (.op .lt) [.node (.op .prev) [fzF "0.0", czX], czY]

/-- The program of C75 with these atoms. -/
def fzHeap : Heap Lab where
  lab
    | 7 => .op .ge | 10 => .lit (.float "5.0") | 13 => .lit (.float "0.0") | 21 => .lit (.float "0.0") | x => czHeap.lab x
  kids := czHeap.kids
  pars := czHeap.pars

/-- All numbers are floats, written as the integers they are. -/
def fzBack : BackEnd := ⟨fun _ => false, fun _ => 0, fun _ => 0, fun s => if s = "x" then 0 else 1, fun s => if s = "5.0" then 5 else 0, 2, 3, []⟩

theorem fzHeap_program : Program fzAtom fzHeap 23 0 15 crFs crPs where
  below := ⟨fun p c hc => czHeap_program.below.1 p c hc, fun p hp => czHeap_program.below.2 p hp⟩
  acyclic := by
    intro x
    match x with
    | 0 | 1 | 2 | 3 | 4 | 5 | 6 | 7 | 8 | 9 | 10 | 11 | 12 | 13 | 14 | 15 | 16 | 17 | 18 | 19 | 20 | 21 | 22 => exact ⟨_, 9, rfl⟩
    | n + 23 => exact ⟨.node .specSet [], 1, rfl⟩
  parents := fun p c hc => czHeap_program.parents p c hc
  ft_lt := by decide
  pt_lt := by decide
  ne := by decide
  ft_top := rfl
  pt_top := rfl
  future := ⟨9, rfl⟩
  past := ⟨9, rfl⟩
  idents := crHeap_program.idents
  labels := crHeap_program.labels
  operands := crHeap_program.operands

theorem fzHeap_apart : Apart fzHeap 0 15 := by
  have h : ∀ {r x}, Reachable fzHeap r x → Reachable czHeap r x := by
    intro r x h
    induction h with
    | root h => exact .root h
    | kid _ hc ih => exact .kid ih hc
  exact fun x h1 h2 => czHeap_apart x (h h1) (h h2)

theorem fz_within {e : Ast} {a : Bool} (h : Tree.Within e (fzAtom a)) : e = fzAtom a ∨ e = czX ∨ e = czY ∨ e = fzF "0.0" ∨ e = fzF "5.0" ∨
    e = .node (.op .prev) [fzF "0.0", czX] := by
  have leaf : ∀ {l : Lab}, Tree.Within e (.node l []) → e = .node l [] := by
    intro l h
    cases h with
    | self => rfl
    | kid h _ => simp at h
  have prev : Tree.Within e (.node (.op .prev) [fzF "0.0", czX]) → e = fzF "0.0" ∨ e = czX ∨ e = .node (.op .prev) [fzF "0.0", czX] := by
    intro h
    cases h with
    | self => simp
    | kid hc h =>
      simp only [List.mem_cons, List.not_mem_nil, or_false] at hc
      rcases hc with rfl | rfl
      · simp [leaf h]
      · simp [leaf h]
  cases a
  · simp only [fzAtom, Bool.false_eq_true, if_false] at h ⊢
    cases h with
    | self => simp
    | kid hc h =>
      simp only [List.mem_cons, List.not_mem_nil, or_false] at hc
      rcases hc with rfl | rfl
      · rcases prev h with h | h | h <;> simp [h]
      · simp [leaf h]
  · simp only [fzAtom, if_true] at h ⊢
    cases h with
    | self => simp
    | kid hc h =>
      simp only [List.mem_cons, List.not_mem_nil, or_false] at hc
      rcases hc with rfl | rfl <;> simp [leaf h]

theorem fz_atoms : BzAtoms fzAtom fzBack.sid fzBack.bits fzBack.signals where
  plain := by
    have leaf : ∀ l : Lab, l.logical = false → (∀ o, l ≠ .op o) → (Tree.node l [] : Ast).All fun l k => l.logical = false ∧ bzOperands l k :=
      fun l h1 h2 => .node ⟨h1, fun o h => absurd h (h2 o)⟩ (by simp)
    have op : ∀ o : OpK, ∀ s t : Ast, (Lab.op o).logical = false → 2 ∈ o.bzArity → s.All (fun l k => l.logical = false ∧ bzOperands l k) →
        t.All (fun l k => l.logical = false ∧ bzOperands l k) → (Tree.node (.op o) [s, t] : Ast).All fun l k => l.logical = false ∧ bzOperands l k := by
      intro o s t h1 h2 h3 h4
      refine .node ⟨h1, ?_⟩ (by simp [h3, h4])
      intro o' h
      cases h
      exact h2
    have x := leaf (.name "x") rfl (by simp)
    have y := leaf (.name "y") rfl (by simp)
    have i : ∀ i, (fzF i).All fun l k => l.logical = false ∧ bzOperands l k := fun i => leaf (.lit (.float i)) rfl (by simp)
    intro a
    cases a
    · exact ⟨op .lt _ _ rfl (by decide) (op .prev _ _ rfl (by decide) (i "0.0") x) y, by simp [fzAtom]⟩
    · exact ⟨op .ge _ _ rfl (by decide) x (i "5.0"), by simp [fzAtom]⟩
  ints := by
    intro a i h
    have := fz_within h
    cases a <;> simp [fzAtom] at this
  floats := by
    intro a i h
    have := fz_within h
    cases a <;> simp [fzAtom] at this <;> rcases this with h | h <;> subst h <;> decide
  signals := by
    intro a s h
    have := fz_within h
    cases a <;> simp [fzAtom] at this <;> rcases this with h | h <;> subst h <;> decide
  prevs := by
    intro a c d h
    have := fz_within h
    cases a <;> simp [fzAtom] at this <;> obtain ⟨rfl, rfl⟩ := this <;> exact ⟨.inr ⟨_, rfl⟩, by simp [Tree.label]⟩

theorem fz_separate : AtomsSeparate fzAtom ∧ ∀ a, Desugared false (fzAtom a) := by
  constructor
  · intro a e h
    cases e <;> cases a <;> (try (simp [toAst, fzAtom] at h; done))
    all_goals
      rename_i b
      cases b <;> first | rfl | (simp [toAst, fzAtom] at h)
  · intro a
    cases a <;> simp [fzAtom, Desugared, DesugaredL, ident_x, ident_y, IsFloatText]

/-- When the atoms hold: equality is up to 1, and to be less is to be less by more than 1. -/
def fzTrace (v : Nat → Nat → Int) : Trace Bool := fun t a => if a then v t 0 ≥ 4 else (if t = 0 then 0 else v (t - 1) 0) + 1 < v t 1

abbrev fzVal (v : Nat → Nat → Int) : Nat → Ast → Cell Int → Prop :=
  Ast.RsValue rsInts (fun _ => false) fzBack.bits (fun t s => .flt (v t (fzBack.sid s).toNat))

theorem fz_x (v : Nat → Nat → Int) (t : Nat) : fzVal v t czX (.flt (v t 0)) := .sigF rfl rfl
theorem fz_y (v : Nat → Nat → Int) (t : Nat) : fzVal v t czY (.flt (v t 1)) := .sigF rfl rfl
theorem fz_prev (v : Nat → Nat → Int) (t : Nat) : fzVal v t (.node (.op .prev) [fzF "0.0", czX]) (.flt (if t = 0 then 0 else v (t - 1) 0)) := by
  cases t with
  | zero => exact .first .float
  | succ t => exact .next (fz_x v t)
theorem fz_atom (v : Nat → Nat → Int) (t : Nat) (a : Bool) : ∃ i, fzVal v t (fzAtom a) (.int i) ∧ (i ≠ 0 ↔ fzTrace v t a) := by
  cases a
  · refine ⟨_, .flt2 rfl (fz_prev v t) (fz_y v t) rfl, ?_⟩
    simp only [fzTrace, rsInts_distance, Bool.false_eq_true, if_false]
    simp only [rsInts, decide_eq_true_eq, ne_eq, ite_eq_right_iff, one_ne_zero, imp_false, not_not]
    generalize (if t = 0 then (0 : Int) else v (t - 1) 0) = u
    constructor
    · rintro ⟨h1, h2⟩
      rw [abs_of_neg (by omega)] at h2
      omega
    · intro h
      exact ⟨by omega, by rw [abs_of_neg (by omega)]; omega⟩
  · refine ⟨_, .flt2 rfl (fz_x v t) .float rfl, ?_⟩
    simp only [fzTrace, rsInts_distance, if_true]
    simp only [rsInts, fzBack, if_true, decide_eq_true_eq, ne_eq, ite_eq_right_iff, one_ne_zero, imp_false, not_not]
    rw [abs_le]
    omega

theorem fz_noNe : Rs.NoFloatNe fzAtom (fun _ => false) := by
  intro a ts h
  have := fz_within h
  cases a <;> simp [fzAtom] at this

/-- All the hypotheses of `C76_rust_floats_partial` hold of this program and of every history of inputs. -/
example : ∃ bytes bounds, compileBinaryBz ⟨true, false, true⟩ fzBack 60 0 15 (fzHeap, 23) = some (bytes, bounds) ∧
    ∃ bound, ∀ fuel, bound ≤ fuel → ∃ S0, Rs.getFull rsInts { bounds.rust 3 with outputs := 10 } bounds.maxSignals fuel bytes = some S0 ∧
      ∀ (v : Nat → Nat → Int) (T : Nat), T + 3 < 2 ^ 32 →
        ∃ S out oks, S0.run rsInts (({ bounds.rust 3 with outputs := 10 } : Rs.Limits).bzLimits bounds.maxSignals) fuel
            (fun t i => (0, v t i)) T = some (S, out, oks) ∧ oks = List.replicate T true ∧
          (∀ s ∈ crFs, Answers (sat (fzTrace v) s.2.2) (Rs.reports out s.2.1) ∧
            ∀ t, t + span false s.2.2 < T → ∃ v ∈ Rs.reports out s.2.1, t ≤ v.time) ∧
          (∀ s ∈ crPs, Answers (sat (fzTrace v) s.2.2) (Rs.reports out s.2.1) ∧
            ∀ t, t < T → ∃ v ∈ Rs.reports out s.2.1, t ≤ v.time) := by
  have hm : (compileBinaryBz ⟨true, false, true⟩ fzBack 60 0 15 (fzHeap, 23)).map
      (fun r => decide (0 ≤ r.2.maxQueueSlots ∧ r.2.maxQueueSlots ≤ 2 ^ 32)) = some true := by decide +kernel
  obtain ⟨⟨bytes, bounds⟩, hr, hb⟩ := Option.map_eq_some_iff.1 hm
  simp only [decide_eq_true_eq] at hb
  refine ⟨bytes, bounds, hr, ?_⟩
  obtain ⟨bound, c1⟩ := C76_rust_floats_partial (b := fzBack) fz_atoms fz_separate.1 fz_separate.2
    fzHeap_program fzHeap_apart (by simp [crFs, crPs]) cr_fit.1 cr_fit.2 (by
      intro s hs
      simp only [crFs, List.mem_cons, List.not_mem_nil, or_false] at hs
      rcases hs with rfl | rfl <;> simp [span, spanL, fzBack]) (by
      intro s hs
      simp only [crPs, List.mem_cons, List.not_mem_nil, or_false] at hs
      subst hs
      simp [span, fzBack]) (ty := fun _ => false) (fun g n' _ x s a _ _ => rfl) fz_noNe (by simp [fzBack]) hr
    { bounds.rust 3 with outputs := 10 } ⟨Nat.le_refl _, Nat.le_refl _, by simp only [Bounds.rust]; omega, by simp only [Bounds.rust]; omega⟩
    (Nat.le_refl _) bounds.maxSignals (Nat.le_refl _) (by simp [crFs, crPs, span, spanL]) rsInts rsInts_symmetric
  refine ⟨bound, fun fuel hf => ?_⟩
  obtain ⟨S0, c2, c4⟩ := c1 fuel hf
  refine ⟨S0, c2, ?_⟩
  intro v T hT
  have ht : (fun t a => ∃ i, i ≠ 0 ∧ fzVal v t (fzAtom a) (.int i)) = fzTrace v := by
    funext t a
    obtain ⟨i, h1, h2⟩ := fz_atom v t a
    refine propext ⟨?_, fun h => ⟨i, h2.2 h, h1⟩⟩
    rintro ⟨j, hj, h3⟩
    cases h1.unique rsInts_symmetric (fz_noNe a) h3
    exact h2.1 hj
  obtain ⟨S, out, oks, d1, d0, d2, d3⟩ := c4 (fun t k => .flt (v t k)) (fun t i => (0, v t i)) T
      (fun t k => ⟨fun _ h => by simp at h, fun _ h => by simpa using h⟩) hT (by
    intro t _ a
    obtain ⟨i, h1, _⟩ := fz_atom v t a
    refine ⟨?_, i, h1⟩
    intro e he
    rcases fz_within he with rfl | rfl | rfl | rfl | rfl | rfl
    · exact ⟨_, h1⟩
    · exact ⟨_, fz_x v t⟩
    · exact ⟨_, fz_y v t⟩
    · exact ⟨_, .float⟩
    · exact ⟨_, .float⟩
    · exact ⟨_, fz_prev v t⟩)
  refine ⟨S, out, oks, d1, d0, ?_⟩
  rw [← ht]
  exact ⟨d2, d3⟩

end R2U2
