import Verif.Lemmas.Run
import Verif.Lemmas.Schedule
/-
C44, C45, C46: the monitor's queues and its temporal engine.
-/
namespace R2U2
open Setup

/-! ### C44 -/

/-- C44.  Whatever the order of writes and reads, as long as times are written in increasing
order and no more verdicts are outstanding than the queue has slots: every read
ends, and gives a right answer - no verdict is lost, delivered twice or overtaken. -/
theorem C44_queue (op : Option TlOp) (len lb ub : Nat) (hl : 0 < len) (es : List QEv)
    (hs : Supported len es [] 0 0) :
    ∃ res, queueRun es (Ctrl.init op len lb ub) 0 0 = some res ∧
      List.Forall₂ (fun q x => RightAnswer q.1 q.2 x) (askedFor es [] 0) res := by
  have key : ∀ (es : List QEv) (c : Ctrl) (ws h : List Verdict) (n r b : Nat), c.len = len → Ring c h → Lasts ws h →
      At len ws h n r b → b ≤ ws.length → Supported len es ws n b →
      ∃ res, queueRun es c r n = some res ∧ List.Forall₂ (fun q x => RightAnswer q.1 q.2 x) (askedFor es ws n) res := by
    intro es
    induction es with
    | nil => intro c ws h n r b _ _ _ _ _ _; exact ⟨[], rfl, List.Forall₂.nil⟩
    | cons e es ih =>
        intro c ws h n r b hc R S a hb hs
        cases e with
        | write v =>
            obtain ⟨s1, s2, s3⟩ := hs
            obtain ⟨h', e, R', _⟩ := R.push v
            exact ih (c.push v) (ws ++ [v]) h' n r b hc R' (S.write e s1) (a.write hl hb S e s1 s2)
              (by simp; omega) s3
        | want n' =>
            obtain ⟨s1, s2⟩ := hs
            refine ih c ws h n' r b hc R S ?_ hb s2
            rcases a with a | ⟨ρ, u, h1, h2, h3, h4, h5⟩
            · exact Or.inl a
            · exact Or.inr ⟨ρ, u, h1, h2, h3, fun k w hk hw => Nat.lt_of_lt_of_le (h4 k w hk hw) s1, h5⟩
        | read =>
            obtain ⟨r', x, e1, e2, e3⟩ := At.read (c := c) R S (by rw [hc]; exact a)
            obtain ⟨res, f1, f2⟩ := ih c ws h n r' (heldAt ws n) hc R S (by rw [← hc]; exact e2)
              (by unfold heldAt; omega) hs
            exact ⟨x :: res, by simp [queueRun, e1, f1], List.Forall₂.cons e3 f2⟩
  refine key es _ [] [] 0 0 0 rfl ⟨hl, (Nat.zero_mod _).symm, by simp, fun _ => rfl⟩
    ⟨List.Sublist.refl _, List.Pairwise.nil, List.Pairwise.nil, rfl, by simp⟩ (Or.inl ⟨rfl, rfl⟩) (Nat.le_refl _) hs

/-- A schedule with an aggregated verdict, a wrap-around and reads that find nothing. -/
def exSchedule : List QEv :=
  [.read, .write ⟨true, 0⟩, .read, .write ⟨true, 2⟩, .want 1, .read, .want 3, .read, .write ⟨false, 5⟩, .read, .want 6,
   .write ⟨true, 7⟩, .read]

example : Supported 2 exSchedule [] 0 0 ∧
    queueRun exSchedule (Ctrl.init none 2 0 0) 0 0 =
      some [none, some ⟨true, 0⟩, some ⟨true, 2⟩, none, some ⟨false, 5⟩, some ⟨true, 7⟩] := by
  constructor
  · simp [exSchedule, Supported, heldAt, List.findIdx_cons]
  · decide +kernel

/-- One slot too few: the reader asks for time 1 and is told what holds at time 2. -/
theorem C44_capacity_needed : ∃ es, queueRun es (Ctrl.init none 1 0 0) 0 0 = some [some ⟨true, 0⟩, some ⟨true, 2⟩] ∧
    askedFor es [] 0 = [([⟨true, 0⟩], 0), ([⟨true, 0⟩, ⟨false, 1⟩, ⟨true, 2⟩], 1)] ∧
    ¬ RightAnswer [⟨true, 0⟩, ⟨false, 1⟩, ⟨true, 2⟩] 1 (some ⟨true, 2⟩) := by
  refine ⟨[.write ⟨true, 0⟩, .read, .want 1, .write ⟨false, 1⟩, .write ⟨true, 2⟩, .read], by decide +kernel, rfl, ?_⟩
  intro h
  have := h.2 1 (by decide) (by decide)
  simp [writtenFor] at this

/-! ### C45, C46 -/

/-- C45 for the part of a program (`S.own`) built from the future-time operators, once and historically, whatever else
runs beside it: if the
queues have room (`Setup.Room`), everything the monitor reports about a specification is
right - after any number of time steps, on any trace.  Missing: the general since and trigger, where it is false
(`C45_since_fails`, `C45_trigger_fails`). -/
theorem C45_verdicts_partial (S : Setup) (ok : S.Ok) (tr : Nat → Nat → Bool) (V : Nat → Nat → Prop)
    (hV : S.Means tr V) (fuel k : Nat) (m : Mon) (hm : S.run fuel tr k = some m)
    (i : Nat) (r : TlRec) (hr : S.prog[i]? = some r) (ho : S.own i) (hret : r.opcode = some .ret) :
    Answers (V i) (m.reports r.v2) := by
  obtain ⟨h, inv, _⟩ := run_safe ok hV fuel k m hm
  have nd := inv.node i r hr ho
  have h1 := nd.ans
  rw [← nd.ret hret] at h1
  exact h1

/-- C46 for the same programs: after `k` time steps the specification has been answered for
every time more than its worst-case delay ago; and no answer came early (where `S.B i` is negative: not more
than `-S.B i` steps ahead of time). -/
theorem C46_verdicts_partial (S : Setup) (ok : S.Ok) (tr : Nat → Nat → Bool) (V : Nat → Nat → Prop)
    (hV : S.Means tr V) (fuel k : Nat) (m : Mon) (hm : S.run fuel tr k = some m)
    (i : Nat) (r : TlRec) (hr : S.prog[i]? = some r) (ho : S.own i) (hret : r.opcode = some .ret) :
    (∀ s, s + S.W i < k → ∃ v ∈ m.reports r.v2, s ≤ v.time) ∧
    (∀ v ∈ m.reports r.v2, (v.time : Int) + S.B i < k) := by
  obtain ⟨h, inv, he⟩ := run_safe ok hV fuel k m hm
  have nd := inv.node i r hr ho
  have hb := nd.bound
  simp only [dn] at hb
  have hrep := nd.ret hret
  have hrep' : m.reports r.v2 = h i := hrep
  constructor
  · intro s hs
    rw [hrep']
    unfold endOf at hb
    cases hv : (h i).getLast? with
    | none => rw [hv] at hb; simp only at hb; omega
    | some v => rw [hv] at hb; simp only at hb; exact ⟨v, List.mem_of_getLast? hv, by omega⟩
  · rw [hrep']
    exact he i r hr ho

/-- The hypothesis `hV` of the two theorems above can always be met. -/
theorem C45_meaning_exists (S : Setup) (ok : S.Ok) (tr : Nat → Nat → Bool) : ∃ V, S.Means tr V :=
  exists_means ok tr

/-- C45: on a program of such instructions only, every time step ends, on every
trace: the number of passes has a bound that depends on the program alone. -/
theorem C45_ends_partial (S : Setup) (ok : S.Ok) (all : ∀ i, i < S.prog.length → S.own i) :
    ∃ bound, ∀ fuel, bound ≤ fuel → ∀ tr k, ∃ m, S.run fuel tr k = some m := by
  refine ⟨sumTo (fun i => ((S.W i : Int) - S.B i).toNat + 1) S.prog.length + 2, fun fuel hf tr k => ?_⟩
  obtain ⟨V, hV⟩ := exists_means ok tr
  exact run_total ok all hV hf k

/-- `a U[1,3] (b & !a)` with queue lengths as the compiler computes them. -/
def exSetup : Setup where
  prog := [⟨0, 0, 0, some .atomic, none, some .load⟩,
    ⟨1, 0, 1, some .atomic, none, some .load⟩,
    ⟨0, 0, 2, some .subformula, none, some .not⟩,
    ⟨1, 2, 3, some .subformula, some .subformula, some .and⟩,
    ⟨0, 3, 4, some .subformula, some .subformula, some .until⟩,
    ⟨4, 7, 5, some .subformula, some .direct, some .ret⟩]
  len := fun _ => 1
  lb := fun i => if i = 4 then 1 else 0
  ub := fun i => if i = 4 then 3 else 0
  B := fun i => if i = 4 ∨ i = 5 then 1 else 0
  C := fun i => if i = 4 ∨ i = 5 then 1 else 0
  W := fun i => if i = 4 ∨ i = 5 then 3 else 0
  own := fun _ => True
  first := fun _ => False

/-- The hypotheses of the theorems above are met by it. -/
theorem exSetup_ok : exSetup.Ok := by
  have cases6 : ∀ (i : Nat) (r : TlRec), exSetup.prog[i]? = some r → 
     (i = 0 ∧ r = ⟨0, 0, 0, some .atomic, none, some .load⟩) ∨ (i = 1 ∧ r = ⟨1, 0, 1, some .atomic, none, some .load⟩) ∨
     (i = 2 ∧ r = ⟨0, 0, 2, some .subformula, none, some .not⟩) ∨ (i = 3 ∧ r = ⟨1, 2, 3, some .subformula, some .subformula, some .and⟩) ∨
     (i = 4 ∧ r = ⟨0, 3, 4, some .subformula, some .subformula, some .until⟩) ∨ 
     (i = 5 ∧ r = ⟨4, 7, 5, some .subformula, some .direct, some .ret⟩) := by
    intro i r h
    rcases i with _ | _ | _ | _ | _ | _ | i <;> simp_all [exSetup]
  refine ⟨?_, ?_, ?_, ?_, ?_, ?_, ?_, ?_, ?_, ?_, ?_, ?_, ?_⟩
  · intro i r h _
    rcases cases6 i r h with ⟨rfl, rfl⟩ | ⟨rfl, rfl⟩ | ⟨rfl, rfl⟩ | ⟨rfl, rfl⟩ | ⟨rfl, rfl⟩ | ⟨rfl, rfl⟩ <;>
      simp [TlRec.Future, TlRec.Past, TlRec.arg, TlRec.binary]
  · intros; trivial
  · intro i r h
    rcases cases6 i r h with ⟨rfl, rfl⟩ | ⟨rfl, rfl⟩ | ⟨rfl, rfl⟩ | ⟨rfl, rfl⟩ | ⟨rfl, rfl⟩ | ⟨rfl, rfl⟩ <;> rfl
  · intro i j r s h h' _ h1 h2
    rcases cases6 i r h with ⟨rfl, rfl⟩ | ⟨rfl, rfl⟩ | ⟨rfl, rfl⟩ | ⟨rfl, rfl⟩ | ⟨rfl, rfl⟩ | ⟨rfl, rfl⟩ <;>
    rcases cases6 j s h' with ⟨rfl, rfl⟩ | ⟨rfl, rfl⟩ | ⟨rfl, rfl⟩ | ⟨rfl, rfl⟩ | ⟨rfl, rfl⟩ | ⟨rfl, rfl⟩ <;> simp_all
  · intro i c r s k h _ hk hs
    rcases cases6 i r h with ⟨rfl, rfl⟩ | ⟨rfl, rfl⟩ | ⟨rfl, rfl⟩ | ⟨rfl, rfl⟩ | ⟨rfl, rfl⟩ | ⟨rfl, rfl⟩ <;> cases k <;>
      simp [TlRec.arg, TlRec.binary] at hk <;> subst hk <;> simp [exSetup] at hs <;> subst hs <;> simp
  · intro i _; simp only [exSetup]; omega
  · intro i r h _ ht
    simp only [exSetup]; split <;> omega
  · intro i r h _ k
    rcases cases6 i r h with ⟨rfl, rfl⟩ | ⟨rfl, rfl⟩ | ⟨rfl, rfl⟩ | ⟨rfl, rfl⟩ | ⟨rfl, rfl⟩ | ⟨rfl, rfl⟩ <;> cases k <;> decide
  · intro i r h _ k
    rcases cases6 i r h with ⟨rfl, rfl⟩ | ⟨rfl, rfl⟩ | ⟨rfl, rfl⟩ | ⟨rfl, rfl⟩ | ⟨rfl, rfl⟩ | ⟨rfl, rfl⟩ <;> cases k <;> decide
  · intro i r h _
    rcases cases6 i r h with ⟨rfl, rfl⟩ | ⟨rfl, rfl⟩ | ⟨rfl, rfl⟩ | ⟨rfl, rfl⟩ | ⟨rfl, rfl⟩ | ⟨rfl, rfl⟩ <;>
      first
        | exact Or.inl (by decide)
        | exact Or.inr (Or.inl ⟨by decide, by decide, by decide, by
            intro k c hk
            cases k <;> simp [TlRec.arg, TlRec.binary] at hk <;> subst hk <;> decide⟩)
        | exact Or.inr (Or.inr ⟨by decide, by
            intro c hk
            simp [TlRec.arg, TlRec.binary] at hk; subst hk; left; decide⟩)
  · intro i r h _ hp k k' b c hk hk'
    rcases cases6 i r h with ⟨rfl, rfl⟩ | ⟨rfl, rfl⟩ | ⟨rfl, rfl⟩ | ⟨rfl, rfl⟩ | ⟨rfl, rfl⟩ | ⟨rfl, rfl⟩ <;> first | exact absurd hp (by decide) | (cases k <;> simp [TlRec.arg, TlRec.binary] at hk)
  · intro i r h _ k c hk
    rcases cases6 i r h with ⟨rfl, rfl⟩ | ⟨rfl, rfl⟩ | ⟨rfl, rfl⟩ | ⟨rfl, rfl⟩ | ⟨rfl, rfl⟩ | ⟨rfl, rfl⟩ <;> cases k <;>
      simp [TlRec.arg, TlRec.binary] at hk <;> subst hk <;>
      first
        | exact Or.inr (Or.inl (by decide))
        | (left; refine ⟨?_, by decide⟩; intro k c; cases k <;> simp [TlRec.arg, TlRec.binary] <;> exact fun h => h.symm)
  · intro i r h _ hf; exact hf.elim

/-- What it reports in five time steps, where `a` holds at 1, 2 and 3, and `b` at 3 and 4. -/
example : (exSetup.run 50 (fun t a => if a = 0 then decide (1 ≤ t ∧ t ≤ 3) else decide (3 ≤ t)) 5).map (·.reports 7) =
    some [⟨false, 0⟩, ⟨true, 3⟩] := by decide +kernel

/-- `O[1,3] a | !b` with queue lengths as the compiler computes them: one slot more for `O[1,3] a`, whose
verdicts come one step ahead of time. -/
def onceSetup : Setup where
  prog := [⟨0, 0, 0, some .atomic, none, some .load⟩,
    ⟨1, 0, 1, some .direct, some .subformula, some .since⟩,
    ⟨1, 0, 2, some .atomic, none, some .load⟩,
    ⟨2, 0, 3, some .subformula, none, some .not⟩,
    ⟨1, 3, 4, some .subformula, some .subformula, some .or⟩,
    ⟨4, 7, 5, some .subformula, some .direct, some .ret⟩]
  len := fun i => if i = 1 then 2 else 1
  lb := fun i => if i = 1 then 1 else 0
  ub := fun i => if i = 1 then 3 else 0
  B := fun i => if i = 1 ∨ 4 ≤ i then -3 else 0
  C := fun i => if i = 1 ∨ 4 ≤ i then -1 else 0
  W := fun _ => 0
  own := fun _ => True
  first := fun _ => False

/-- The hypotheses of the theorems above are met by it. -/
theorem onceSetup_ok : onceSetup.Ok := by
  have cases6 : ∀ (i : Nat) (r : TlRec), onceSetup.prog[i]? = some r →
     (i = 0 ∧ r = ⟨0, 0, 0, some .atomic, none, some .load⟩) ∨ (i = 1 ∧ r = ⟨1, 0, 1, some .direct, some .subformula, some .since⟩) ∨
     (i = 2 ∧ r = ⟨1, 0, 2, some .atomic, none, some .load⟩) ∨ (i = 3 ∧ r = ⟨2, 0, 3, some .subformula, none, some .not⟩) ∨
     (i = 4 ∧ r = ⟨1, 3, 4, some .subformula, some .subformula, some .or⟩) ∨
     (i = 5 ∧ r = ⟨4, 7, 5, some .subformula, some .direct, some .ret⟩) := by
    intro i r h
    rcases i with _ | _ | _ | _ | _ | _ | i <;> simp_all [onceSetup]
  refine ⟨?_, ?_, ?_, ?_, ?_, ?_, ?_, ?_, ?_, ?_, ?_, ?_, ?_⟩
  · intro i r h _
    rcases cases6 i r h with ⟨rfl, rfl⟩ | ⟨rfl, rfl⟩ | ⟨rfl, rfl⟩ | ⟨rfl, rfl⟩ | ⟨rfl, rfl⟩ | ⟨rfl, rfl⟩ <;>
      simp [TlRec.Future, TlRec.Past, TlRec.arg, TlRec.binary]
  · intros; trivial
  · intro i r h
    rcases cases6 i r h with ⟨rfl, rfl⟩ | ⟨rfl, rfl⟩ | ⟨rfl, rfl⟩ | ⟨rfl, rfl⟩ | ⟨rfl, rfl⟩ | ⟨rfl, rfl⟩ <;> rfl
  · intro i j r s h h' _ h1 h2
    rcases cases6 i r h with ⟨rfl, rfl⟩ | ⟨rfl, rfl⟩ | ⟨rfl, rfl⟩ | ⟨rfl, rfl⟩ | ⟨rfl, rfl⟩ | ⟨rfl, rfl⟩ <;>
    rcases cases6 j s h' with ⟨rfl, rfl⟩ | ⟨rfl, rfl⟩ | ⟨rfl, rfl⟩ | ⟨rfl, rfl⟩ | ⟨rfl, rfl⟩ | ⟨rfl, rfl⟩ <;> simp_all
  · intro i c r s k h _ hk hs
    rcases cases6 i r h with ⟨rfl, rfl⟩ | ⟨rfl, rfl⟩ | ⟨rfl, rfl⟩ | ⟨rfl, rfl⟩ | ⟨rfl, rfl⟩ | ⟨rfl, rfl⟩ <;> cases k <;>
      simp [TlRec.arg, TlRec.binary] at hk <;> subst hk <;> simp [onceSetup] at hs <;> subst hs <;> simp
  · intro i _; simp only [onceSetup]; split <;> omega
  · intro i r h _ ht
    simp only [onceSetup]; split <;> omega
  · intro i r h _ k
    rcases cases6 i r h with ⟨rfl, rfl⟩ | ⟨rfl, rfl⟩ | ⟨rfl, rfl⟩ | ⟨rfl, rfl⟩ | ⟨rfl, rfl⟩ | ⟨rfl, rfl⟩ <;> cases k <;> decide
  · intro i r h _ k
    rcases cases6 i r h with ⟨rfl, rfl⟩ | ⟨rfl, rfl⟩ | ⟨rfl, rfl⟩ | ⟨rfl, rfl⟩ | ⟨rfl, rfl⟩ | ⟨rfl, rfl⟩ <;> cases k <;> decide
  · intro i r h _
    rcases cases6 i r h with ⟨rfl, rfl⟩ | ⟨rfl, rfl⟩ | ⟨rfl, rfl⟩ | ⟨rfl, rfl⟩ | ⟨rfl, rfl⟩ | ⟨rfl, rfl⟩ <;>
      first
        | exact Or.inl (by decide)
        | exact Or.inr (Or.inl ⟨by decide, by decide, by decide, by
            intro k c hk
            cases k <;> simp [TlRec.arg, TlRec.binary] at hk <;> subst hk <;> decide⟩)
        | exact Or.inr (Or.inr ⟨by decide, by
            intro c hk
            simp [TlRec.arg, TlRec.binary] at hk; subst hk; left; decide⟩)
  · intro i r h _ hp k k' b c hk hk'
    rcases cases6 i r h with ⟨rfl, rfl⟩ | ⟨rfl, rfl⟩ | ⟨rfl, rfl⟩ | ⟨rfl, rfl⟩ | ⟨rfl, rfl⟩ | ⟨rfl, rfl⟩ <;> first | exact absurd hp (by decide) | (cases k <;> simp [TlRec.arg, TlRec.binary] at hk)
  · intro i r h _ k c hk
    rcases cases6 i r h with ⟨rfl, rfl⟩ | ⟨rfl, rfl⟩ | ⟨rfl, rfl⟩ | ⟨rfl, rfl⟩ | ⟨rfl, rfl⟩ | ⟨rfl, rfl⟩ <;> cases k <;>
      simp [TlRec.arg, TlRec.binary] at hk <;> subst hk <;>
      first
        | exact Or.inr (Or.inl (by decide))
        | (left; refine ⟨?_, by decide⟩; intro k c; cases k <;> simp [TlRec.arg, TlRec.binary] <;> exact fun h => h.symm)
  · intro i r h _ hf; exact hf.elim

/-- What it reports in seven time steps, where `a` holds at 1 only and `b` always. -/
example : (onceSetup.run 50 (fun t a => if a = 0 then decide (t = 1) else true) 7).map (·.reports 7) =
    some [⟨false, 0⟩, ⟨false, 1⟩, ⟨true, 4⟩, ⟨false, 5⟩, ⟨false, 6⟩] := by decide +kernel

/-! ### Where C45 fails -/

/-- `(F[0,3] r & q) & s` with the queue lengths of `compute_scq_sizes` (scq.py): one slot for
`F[0,3] r & q`. -/
def burstSetup : Setup where
  prog := [⟨0, 0, 0, some .atomic, none, some .load⟩,
    ⟨1, 0, 1, some .direct, some .subformula, some .until⟩,
    ⟨1, 0, 2, some .atomic, none, some .load⟩,
    ⟨1, 2, 3, some .subformula, some .subformula, some .and⟩,
    ⟨2, 0, 4, some .atomic, none, some .load⟩,
    ⟨3, 4, 5, some .subformula, some .subformula, some .and⟩,
    ⟨5, 0, 6, some .subformula, some .direct, some .ret⟩]
  len := fun i => if i = 2 ∨ i = 4 then 4 else 1
  lb := fun _ => 0
  ub := fun i => if i = 1 then 3 else 0
  B := fun _ => 0
  C := fun _ => 0
  W := fun i => if i = 0 ∨ i = 2 ∨ i = 4 then 0 else 3
  own := fun _ => True
  first := fun _ => False

/-- `r` at 3, `q` at 0 to 2, `s` at 0, 2 and 3. -/
def burstTrace : Nat → Nat → Bool := fun t a =>
  if a = 0 then decide (t = 3) else if a = 1 then decide (t ≤ 2) else decide (t ≠ 1)

/-- The queue of the inner conjunction has one slot, but the inner conjunction produces two
verdicts in one time step; the first is overwritten before it was read for time 2.  The monitor reports
false for time 2, where the formula holds. -/
theorem C45_sizes_fail : ∃ m, burstSetup.run 50 burstTrace 4 = some m ∧ m.reports 0 = [⟨true, 0⟩, ⟨false, 3⟩] ∧
    (∀ V, burstSetup.Means burstTrace V → V 6 2) := by
  have h : (burstSetup.run 50 burstTrace 4).map (·.reports 0) = some [⟨true, 0⟩, ⟨false, 3⟩] := by decide +kernel
  simp only [Option.map_eq_some_iff] at h
  obtain ⟨m, h1, h2⟩ := h
  refine ⟨m, h1, h2, ?_⟩
  intro V hV
  have h6 := hV 6 _ rfl trivial 2
  have h5 := hV 5 _ rfl trivial 2
  have h4 := hV 4 _ rfl trivial 2
  have h3 := hV 3 _ rfl trivial 2
  have h2 := hV 2 _ rfl trivial 2
  have h1 := hV 1 _ rfl trivial 2
  have h0 := hV 0 _ rfl trivial 3
  simp [TlRec.holds, argOf, burstTrace, burstSetup] at h0 h1 h2 h3 h4 h5 h6
  exact h6.2 (h5.2 ⟨h3.2 ⟨h1.2 ⟨3, by omega, by omega, h0⟩, h2⟩, h4⟩)

/-- `a S[0,3] b` with the queue lengths of `compute_scq_sizes`. -/
def sinceSetup : Setup where
  prog := [⟨0, 0, 0, some .atomic, none, some .load⟩,
    ⟨1, 0, 1, some .atomic, none, some .load⟩,
    ⟨0, 1, 2, some .subformula, some .subformula, some .since⟩,
    ⟨2, 0, 3, some .subformula, some .direct, some .ret⟩]
  len := fun _ => 1
  lb := fun _ => 0
  ub := fun i => if i = 2 then 3 else 0
  B := fun _ => 0
  C := fun _ => 0
  W := fun _ => 0
  own := fun _ => True
  first := fun _ => False

/-- Since: a later failure of the left operand does not clear the edge.  With `b` at 0 and
`a` at 2 only, the monitor reports true at time 2, where `a S[0,3] b` fails: `a` was false at 1. -/
theorem C45_since_fails : ∃ m, sinceSetup.run 50 (fun t a => decide (if a = 0 then t = 2 else t = 0)) 3 = some m ∧
    m.reports 0 = [⟨true, 0⟩, ⟨false, 1⟩, ⟨true, 2⟩] ∧
    (∀ V, sinceSetup.Means (fun t a => decide (if a = 0 then t = 2 else t = 0)) V → ¬ V 3 2) := by
  have h : (sinceSetup.run 50 (fun t a => decide (if a = 0 then t = 2 else t = 0)) 3).map (·.reports 0) =
    some [⟨true, 0⟩, ⟨false, 1⟩, ⟨true, 2⟩] := by decide +kernel
  simp only [Option.map_eq_some_iff] at h
  obtain ⟨m, h1, h2⟩ := h
  refine ⟨m, h1, h2, ?_⟩
  intro V hV hv
  have h3 := hV 3 _ rfl trivial 2
  have h2 := hV 2 _ rfl trivial 2
  have h1 := hV 1 _ rfl trivial
  have h0 := hV 0 _ rfl trivial
  simp only [TlRec.holds, argOf, sinceSetup] at h0 h1 h2 h3
  simp only [if_true, Nat.one_ne_zero, if_false, decide_eq_true_eq] at h0 h1 h2
  obtain ⟨j, _, _, hb, ha⟩ := h2.1 (h3.1 hv)
  have := (h1 j).1 hb
  subst this
  have := (h0 1).1 (ha 1 (by omega) (by omega))
  omega

/-- `a T[0,3] b` with the queue lengths of `compute_scq_sizes`. -/
def triggerSetup : Setup where
  prog := [⟨0, 0, 0, some .atomic, none, some .load⟩,
    ⟨1, 0, 1, some .atomic, none, some .load⟩,
    ⟨0, 1, 2, some .subformula, some .subformula, some .trigger⟩,
    ⟨2, 0, 3, some .subformula, some .direct, some .ret⟩]
  len := fun _ => 1
  lb := fun _ => 0
  ub := fun i => if i = 2 then 3 else 0
  B := fun _ => 0
  C := fun _ => 0
  W := fun _ => 0
  own := fun _ => True
  first := fun _ => False

/-- Trigger, likewise: with `b` false at 0 only and `a` false at 2 only, the monitor reports false at time 2, where
`a T[0,3] b` holds: `a` held at 1. -/
theorem C45_trigger_fails : ∃ m, triggerSetup.run 50 (fun t a => decide (if a = 0 then t ≠ 2 else t ≠ 0)) 3 = some m ∧
    m.reports 0 = [⟨false, 0⟩, ⟨true, 1⟩, ⟨false, 2⟩] ∧
    (∀ V, triggerSetup.Means (fun t a => decide (if a = 0 then t ≠ 2 else t ≠ 0)) V → V 3 2) := by
  have h : (triggerSetup.run 50 (fun t a => decide (if a = 0 then t ≠ 2 else t ≠ 0)) 3).map (·.reports 0) =
    some [⟨false, 0⟩, ⟨true, 1⟩, ⟨false, 2⟩] := by decide +kernel
  simp only [Option.map_eq_some_iff] at h
  obtain ⟨m, h1, h2⟩ := h
  refine ⟨m, h1, h2, ?_⟩
  intro V hV
  have h3 := hV 3 _ rfl trivial 2
  have h2 := hV 2 _ rfl trivial 2
  have h1 := hV 1 _ rfl trivial
  have h0 := hV 0 _ rfl trivial
  simp only [TlRec.holds, argOf, triggerSetup] at h0 h1 h2 h3
  simp only [if_true, Nat.one_ne_zero, if_false, decide_eq_true_eq] at h0 h1 h2
  refine h3.2 (h2.2 fun j _ hj => ?_)
  by_cases hj0 : j = 0
  · subst hj0
    exact .inr ⟨1, by omega, by omega, (h0 1).2 (by omega)⟩
  · exact .inl ((h1 j).2 hj0)

/-- `O[0,3] H[0,5] a & c` with the queue lengths of `compute_scq_sizes`: one slot each. -/
def nestSetup : Setup where
  prog := [⟨0, 0, 0, some .atomic, none, some .load⟩,
    ⟨0, 0, 1, some .direct, some .subformula, some .trigger⟩,
    ⟨1, 1, 2, some .direct, some .subformula, some .since⟩,
    ⟨1, 0, 3, some .atomic, none, some .load⟩,
    ⟨2, 3, 4, some .subformula, some .subformula, some .and⟩,
    ⟨4, 0, 5, some .subformula, some .direct, some .ret⟩]
  len := fun _ => 1
  lb := fun _ => 0
  ub := fun i => if i = 1 then 5 else if i = 2 then 3 else 0
  B := fun _ => 0
  C := fun _ => 0
  W := fun _ => 0
  own := fun _ => True
  first := fun _ => False

/-- Nested past-time operators know verdicts ahead of time, which `compute_scq_sizes` does not reckon with: `H[0,5] a` turns
false at 1 and is then known up to time 6, so `O[0,3] H[0,5] a` is known to be true up to 3 and false up to 6 in one step; the verdict
for 3 is overwritten before it is used.  With `a` at 0 only and `c` always, the monitor reports false for times 2 and 3, where the
formula holds. -/
theorem C45_past_sizes_fail : ∃ m, nestSetup.run 50 (fun t a => a ≠ 0 ∨ t = 0) 2 = some m ∧
    m.reports 0 = [⟨true, 0⟩, ⟨true, 1⟩, ⟨false, 6⟩] ∧
    (∀ V, nestSetup.Means (fun t a => a ≠ 0 ∨ t = 0) V → V 5 2 ∧ V 5 3) := by
  have h : (nestSetup.run 50 (fun t a => a ≠ 0 ∨ t = 0) 2).map (·.reports 0) =
    some [⟨true, 0⟩, ⟨true, 1⟩, ⟨false, 6⟩] := by decide +kernel
  simp only [Option.map_eq_some_iff] at h
  obtain ⟨m, h1, h2⟩ := h
  refine ⟨m, h1, h2, ?_⟩
  intro V hV
  have h5 := hV 5 _ rfl trivial
  have h4 := hV 4 _ rfl trivial
  have h3 := hV 3 _ rfl trivial
  have h2 := hV 2 _ rfl trivial
  have h1 := hV 1 _ rfl trivial 0
  have h0 := hV 0 _ rfl trivial 0
  simp [TlRec.holds, argOf, nestSetup] at h0 h1 h2 h3 h4 h5
  have hH : V 1 0 := h1.2 h0
  exact ⟨(h5 2).2 ((h4 2).2 ⟨(h2 2).2 ⟨0, by omega, by omega, hH⟩, h3 2⟩),
    (h5 3).2 ((h4 3).2 ⟨(h2 3).2 ⟨0, by omega, by omega, hH⟩, h3 3⟩)⟩

/-- `true & O[1,5] a` with the queue lengths of `compute_scq_sizes`. -/
def aheadProg : List TlRec := [⟨0, 0, 0, some .atomic, none, some .load⟩,
  ⟨1, 0, 1, some .direct, some .subformula, some .since⟩,
  ⟨1, 1, 2, some .direct, some .subformula, some .and⟩,
  ⟨2, 0, 3, some .subformula, some .direct, some .ret⟩]

def aheadStart : Mon :=
  Mon.init aheadProg (fun i => if i = 1 then 2 else 1) (fun i => if i = 1 then 1 else 0) (fun i => if i = 1 then 5 else 0)

/-- The state no pass changes any more: the conjunction gets a verdict for time 0 from the constant and
stops short of the verdict for times 1 to 5 it has from `O[1,5] a`. -/
def aheadStuck : Mon where
  time := 0
  progress := .reloop
  atoms := fun _ => true
  out := [(0, ⟨false, 0⟩)]
  ctrl
    | 0 => ⟨1, 0, 0, 0, 1, fun k => if k = 0 then some ⟨true, 0⟩ else some ⟨false, 0⟩, ⟨false, 0⟩, ⟨false, 0⟩, 0, 0, .c⟩
    | 1 => ⟨2, 0, 0, 0, 1, fun k => if k = 1 then some ⟨true, 5⟩ else some ⟨false, 0⟩, ⟨true, 0⟩, ⟨true, 5⟩, 1, 5, .c⟩
    | 2 => ⟨1, 0, 0, 1, 1, fun k => if k = 0 then some ⟨true, 0⟩ else some ⟨false, 0⟩, ⟨false, 0⟩, ⟨false, 0⟩, 0, 0, .c⟩
    | 3 => ⟨1, 0, 0, 0, 1, fun k => if k = 0 then none else some ⟨false, 0⟩, ⟨false, 0⟩, ⟨false, 0⟩, 0, 0, .c⟩
    | _ + 4 => ⟨1, 0, 0, 0, 0, fun k => if k = 0 then none else some ⟨false, 0⟩, ⟨false, 0⟩, ⟨false, 0⟩, 0, 0, .c⟩

theorem Mon.ext' {m m' : Mon} (h1 : m.time = m'.time) (h2 : m.progress = m'.progress) (h3 : m.atoms = m'.atoms) (h4 : m.out = m'.out)
    (h5 : ∀ q, m.ctrl q = m'.ctrl q) : m = m' := by
  have h6 : m.ctrl = m'.ctrl := funext h5
  cases m; cases m'; simp only at h1 h2 h3 h4 h6; subst h1 h2 h3 h4 h6; rfl

theorem Ctrl.ext' {c c' : Ctrl} (h : (c.len, c.write, c.read1, c.read2, c.next, c.edge, c.prev, c.lb, c.ub, c.lang) =
    (c'.len, c'.write, c'.read1, c'.read2, c'.next, c'.edge, c'.prev, c'.lb, c'.ub, c'.lang)) (h5 : ∀ k, c.slots k = c'.slots k) : c = c' := by
  have h6 : c.slots = c'.slots := funext h5
  cases c; cases c'
  simp only [Prod.mk.injEq] at h h6
  obtain ⟨rfl, rfl, rfl, rfl, rfl, rfl, rfl, rfl, rfl, rfl⟩ := h
  subst h6
  rfl

theorem ahead_fixed : (aheadStuck.pass aheadProg).map (fun m => (m.progress, { m with progress := .reloop })) = some (.again, aheadStuck) := by
  have h : ∃ m, aheadStuck.pass aheadProg = some m ∧ m.progress = .again ∧ { m with progress := .reloop } = aheadStuck := by
    refine ⟨_, rfl, rfl, ?_⟩
    refine Mon.ext' ?_ ?_ ?_ ?_ fun q => ?_
    iterate 4 rfl
    rcases q with _ | _ | _ | _ | q
    · rfl
    · rfl
    · refine Ctrl.ext' ?_ fun k => ?_
      · rfl
      rcases k with _ | k <;> rfl
    · rfl
    · rfl
  obtain ⟨m, h1, h2, h3⟩ := h
  rw [h1, Option.map_some, h2, h3]

theorem ahead_first : ∀ fuel, Mon.loop aheadProg (fuel + 3) { aheadStart with atoms := fun _ => true } = Mon.loop aheadProg fuel aheadStuck := by
  intro fuel
  have h : ∃ m, Mon.loop aheadProg (fuel + 3) { aheadStart with atoms := fun _ => true } = Mon.loop aheadProg fuel m ∧ m = aheadStuck := by
    refine ⟨_, rfl, ?_⟩
    refine Mon.ext' ?_ ?_ ?_ ?_ fun q => ?_
    iterate 4 rfl
    rcases q with _ | _ | _ | _ | q
    · refine Ctrl.ext' ?_ fun k => ?_
      · rfl
      rcases k with _ | k <;> rfl
    · refine Ctrl.ext' ?_ fun k => ?_
      · rfl
      rcases k with _ | _ | k <;> rfl
    · refine Ctrl.ext' ?_ fun k => ?_
      · rfl
      rcases k with _ | k <;> rfl
    · refine Ctrl.ext' ?_ fun k => ?_
      · rfl
      rcases k with _ | k <;> rfl
    · refine Ctrl.ext' ?_ fun k => ?_
      · rfl
      rcases k with _ | k <;> rfl
  obtain ⟨m, h1, rfl⟩ := h
  exact h1

/-- `true & O[1,5] a`: if `a` holds at the start, the first time step never ends, however many passes are made. -/
theorem C45_ahead_fails (fuel : Nat) (tr : Nat → Nat → Bool) (h : ∀ a, tr 0 a = true) (k : Nat) :
    Mon.run aheadProg fuel tr (k + 1) aheadStart = none := by
  have key : ∀ fuel, Mon.loop aheadProg fuel aheadStuck = none := by
    intro fuel
    induction fuel with
    | zero => rfl
    | succ n ih =>
        have hf := ahead_fixed
        rw [Option.map_eq_some_iff] at hf
        obtain ⟨m, h1, h2⟩ := hf
        simp only [Prod.mk.injEq] at h2
        simp only [Mon.loop, h1, h2.1]
        rw [h2.2]
        exact ih
  have h0 : tr 0 = fun _ => true := funext h
  induction k with
  | zero =>
      show Mon.loop aheadProg fuel { aheadStart with atoms := tr 0 } = none
      rw [h0]
      rcases fuel with _ | _ | _ | n
      · rfl
      · rfl
      · rfl
      · rw [ahead_first, key]
  | succ k ih => rw [Mon.run, ih]; rfl
/-- A specification that is a constant (`true`, or `!true`): the return instruction finds a
verdict in every pass, so the first time step never ends, however many passes are made. -/
theorem C45_constants_fail (v f : Nat) (fuel : Nat) (tr : Nat → Nat → Bool) (k : Nat) :
    Mon.run [⟨v, f, 0, some .direct, some .direct, some .ret⟩] fuel tr (k + 1)
      (Mon.init [⟨v, f, 0, some .direct, some .direct, some .ret⟩] (fun _ => 1) (fun _ => 0) (fun _ => 0)) = none := by
  have key : ∀ fuel m, (m.ctrl 0).lang = .c → Mon.loop [⟨v, f, 0, some .direct, some .direct, some .ret⟩] fuel m = none := by
    intro fuel
    induction fuel with
    | zero => intro m _; rfl
    | succ n ih =>
        intro m hc
        simp only [Mon.loop, Mon.pass, Mon.update, Mon.unary, Mon.operand, Option.map_some, Option.bind_some]
        simp only [Mon.apply, retBody, Ctrl.keep]
        cases h : m.progress <;> simp [Progress.flag, h, ih, hc]
  induction k with
  | zero => rw [Mon.run]; exact key _ _ rfl
  | succ k ih => rw [Mon.run, ih]; rfl

end R2U2
