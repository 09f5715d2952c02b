import Verif.Lemmas.Future
import Verif.Lemmas.Once
import Mathlib.Tactic.ByContra
/-
The invariant of the temporal engine, and its preservation by one instruction.
-/
namespace R2U2
open Setup

/-! ### What an instruction leaves alone -/

structure Frame (m m' : Mon) (r : TlRec) : Prop where
  time : m'.time = m.time
  atoms : m'.atoms = m.atoms
  ctrl : ∀ k, k ≠ r.mem → m'.ctrl k = m.ctrl k
  first : m'.progress = .first ↔ m.progress = .first
  reloop : m'.progress = .reloop → m.progress = .reloop
  reports : ∀ f, (r.opcode = some .ret → f ≠ r.v2) → m'.reports f = m.reports f

theorem Frame.refl (m : Mon) (r : TlRec) : Frame m m r :=
  ⟨rfl, rfl, fun _ _ => rfl, Iff.rfl, id, fun _ _ => rfl⟩

theorem Frame.trans {m m' m'' : Mon} {r : TlRec} (a : Frame m m' r) (b : Frame m' m'' r) : Frame m m'' r :=
  ⟨b.time.trans a.time, b.atoms.trans a.atoms, fun k hk => (b.ctrl k hk).trans (a.ctrl k hk),
    b.first.trans a.first, fun h => a.reloop (b.reloop h), fun f hf => (b.reports f hf).trans (a.reports f hf)⟩

theorem frame_upd (m : Mon) (r : TlRec) (f : Ctrl → Ctrl) : Frame m (m.upd r.mem f) r :=
  ⟨rfl, rfl, fun _ hk => upd_ctrl_ne m f hk, Iff.rfl, id, fun _ _ => rfl⟩

theorem frame_operand {m : Mon} {r : TlRec} {k : Bool} {y : Mon × Option Verdict} (h : m.operand r k = some y) :
    Frame m y.1 r := by
  unfold Mon.operand at h
  split at h
  · cases h; exact Frame.refl _ _
  · cases h; exact Frame.refl _ _
  · simp only [Option.map_eq_some_iff] at h
    obtain ⟨z, _, rfl⟩ := h
    simp only []
    exact frame_upd m r _
  · cases h; exact Frame.refl _ _

theorem frame_apply {m : Mon} {r : TlRec} {E : Effect} (h : r.opcode ≠ some .ret → E.report = none) :
    Frame m (m.apply r E) r := by
  refine ⟨rfl, rfl, fun k hk => by simp [Mon.apply, hk], ?_, ?_, ?_⟩
  · simp only [Mon.apply]
    split
    · cases m.progress <;> simp [Progress.flag]
    · exact Iff.rfl
  · simp only [Mon.apply]
    split
    · cases m.progress <;> simp [Progress.flag]
    · exact id
  · intro f hf
    unfold Mon.reports Mon.apply
    simp only []
    cases hr : E.report with
    | none => rfl
    | some v =>
        have hop : r.opcode = some .ret := by
          by_contra hop
          rw [h hop] at hr; cases hr
        have := hf hop
        simp [List.filter_append, Ne.symm this]

theorem frame_unary {m m' : Mon} {r : TlRec} {body : Ctrl → Option Verdict → Effect}
    (hb : ∀ c a, r.opcode ≠ some .ret → (body c a).report = none) (h : m.unary r body = some m') : Frame m m' r := by
  unfold Mon.unary at h
  simp only [Option.map_eq_some_iff] at h
  obtain ⟨x, hx, rfl⟩ := h
  exact (frame_operand hx).trans (frame_apply (hb _ _))

theorem frame_binary {m m' : Mon} {r : TlRec} {body : Ctrl → Option Verdict → Option Verdict → Effect}
    (hb : ∀ c a b, (body c a b).report = none) (h : m.binary r body = some m') : Frame m m' r := by
  unfold Mon.binary at h
  simp only [Option.bind_eq_some_iff, Option.map_eq_some_iff] at h
  obtain ⟨x, hx, y, hy, rfl⟩ := h
  exact ((frame_operand hx).trans (frame_operand hy)).trans (frame_apply fun _ => hb _ _ _)

theorem since_report (c : Ctrl) (a b : Option Verdict) : (sinceBody c a b).report = none := by
  unfold sinceBody
  cases a <;> cases b <;> simp only [Ctrl.keep, Ctrl.emitPrev] <;> split_ifs <;> rfl

theorem trigger_report (c : Ctrl) (a b : Option Verdict) : (triggerBody c a b).report = none := by
  unfold triggerBody
  cases a <;> cases b <;> simp only [Ctrl.keep, Ctrl.emitPrev] <;> split_ifs <;> rfl

theorem update_frame {m m' : Mon} {r : TlRec} (h : m.update r = some m') : Frame m m' r := by
  have hrep : ∀ o, r.opcode = some o → o ≠ .ret → ∀ c a b, (bodyOf r.opcode c a b).report = none := by
    intro o h1 h2 c a b
    exact body_report c a b (by rw [h1]; simpa using h2)
  unfold Mon.update at h
  split at h
  · rename_i hop
    exact frame_unary (fun c a _ => by have := hrep _ hop (by simp) c a none; rw [hop] at this; exact this) h
  · rename_i hop
    exact frame_unary (fun c a hne => absurd hop hne) h
  · rename_i hop
    exact (frame_upd _ _ _).trans (frame_binary (fun c a b => by
      have := hrep _ hop (by simp) c a b; rw [hop] at this; exact this) h)
  · rename_i hop
    exact (frame_upd _ _ _).trans (frame_binary (fun c a b => by
      have := hrep _ hop (by simp) c a b; rw [hop] at this; exact this) h)
  · simp only [] at h
    split at h
    · split at h
      · cases h; exact frame_apply fun _ => rfl
      · exact frame_binary since_report h
    · exact frame_binary (fun c a b => by
        split
        · rfl
        · exact since_report c a b) h
  · simp only [] at h
    split at h
    · split at h
      · cases h; exact frame_apply fun _ => rfl
      · exact frame_binary trigger_report h
    · exact frame_binary (fun c a b => by
        split
        · rfl
        · exact trigger_report c a b) h
  · rename_i hop
    exact frame_unary (fun c a _ => by have := hrep _ hop (by simp) c a none; rw [hop] at this; exact this) h
  · rename_i hop
    exact frame_binary (fun c a b => by have := hrep _ hop (by simp) c a b; rw [hop] at this; exact this) h
  · rename_i hop
    exact frame_binary (fun c a b => by have := hrep _ hop (by simp) c a b; rw [hop] at this; exact this) h
  · rename_i hop
    exact frame_binary (fun c a b => by have := hrep _ hop (by simp) c a b; rw [hop] at this; exact this) h
  · cases h; exact Frame.refl _ _

/-! ### The invariant -/

/-- Instruction `i` has been executed in the current time step. -/
def dn (late : Bool) (pc i : Nat) : Nat := if late = true ∨ i < pc then 1 else 0

/-- The values a once waits for: those of its operand, or, for a historically, their opposite. -/
def pastVal (V : Nat → Nat → Prop) (tr : Nat → Nat → Bool) (r : TlRec) (s : Nat) : Prop :=
  match r.opcode with
  | some .trigger => ¬ valOf V tr (r.arg true) s
  | _ => valOf V tr (r.arg true) s

structure Node (S : Setup) (tr : Nat → Nat → Bool) (V : Nat → Nat → Prop) (t : Nat) (late : Bool) (pc : Nat)
    (m : Mon) (h : Nat → List Verdict) (i : Nat) (r : TlRec) : Prop where
  len : (m.ctrl i).len = S.len i
  lb : (m.ctrl i).lb = S.lb i
  ub : (m.ctrl i).ub = S.ub i
  ring : r.opcode ≠ some .ret → Ring (m.ctrl i) (h i)
  ans : Answers (V i) (h i)
  own : ownOf V tr r (S.lb i) (S.ub i) (m.ctrl i).next (m.ctrl i).prev (endOf (h i))
  past : r.past = true → PastI (pastVal V tr r) (S.lb i) (m.ctrl i).next (m.ctrl i).prev (m.ctrl i).edge (endOf (h i))
  pedge : r.past = true → (m.ctrl i).edge.truth = true → ((m.ctrl i).edge.time : Int) + S.argB (r.arg true) ≤ t
  started : r.past = true → 0 < t + dn late pc i → 0 < S.lb i → (m.ctrl i).prev.truth = true
  early : ∀ u ∈ h i, (u.time : Int) + S.B i ≤ t
  change : ∀ s, s + 1 < endOf (h i) → ¬ (V i s ↔ V i (s + 1)) → (s : Int) + 1 + S.C i ≤ t
  fast : t + (if r.past then 0 else dn late pc i) ≤ (m.ctrl i).next + S.opW r
  bound : t + dn late pc i ≤ endOf (h i) + S.W i
  load : r.opcode = some .load → (m.ctrl i).next = t + dn late pc i
  ret : r.opcode = some .ret → m.reports r.v2 = h i

/-- How far behind a read pointer is, between the execution of its reader `p` and the next
execution of the instruction it reads. -/
def Lag (S : Setup) (t : Nat) (late : Bool) (pc : Nat) (pr : Progress) (r : TlRec) (k : Bool) (p : Nat) (T : Nat) :
    Prop :=
  t ≤ T + S.opW r ∧
  (late = true → p < pc → pr = .reloop → t + 1 ≤ T + S.opW r) ∧
  (r.temporal = false → r.past = false →
    (late = false → pc ≤ p → t ≤ T + S.argW (r.arg (!k))) ∧
    (late = true → p < pc → pr = .reloop → t + 1 ≤ T + S.argW (r.arg (!k))))

/-- The verdicts that are not used yet are the last one. -/
def OneLeft (h : List Verdict) (n : Nat) : Prop := ∀ u ∈ h, n ≤ u.time → u.time + 1 = endOf h

/-- What a once still has to read, before the instruction it reads is executed. -/
def PastR (S : Setup) (t : Nat) (late : Bool) (pc : Nat) (c : Ctrl) (hc : List Verdict) (p : Nat) (r : TlRec) : Prop :=
  t + 1 ≤ c.next + S.opW r ∨ endOf hc ≤ c.next ∨
    (Dead (S.ub p) c.prev c.edge ∧ OneLeft hc c.next ∧ (late = true ∨ p < pc))

/-- What a once has to read, after the instruction it reads was executed. -/
def PastF (S : Setup) (t : Nat) (late : Bool) (pr : Progress) (c : Ctrl) (hc : List Verdict) (p : Nat) (r : TlRec) : Prop :=
  t + 1 ≤ c.next + S.opW r ∨ OneLeft hc c.next ∨ (Dead (S.ub p) c.prev c.edge ∧ pr ≠ .reloop ∧ late = true)

structure EdgeI (S : Setup) (t : Nat) (late : Bool) (pc : Nat) (m : Mon) (h : Nat → List Verdict) (p : Nat)
    (r : TlRec) (k : Bool) (c : Nat) : Prop where
  filled : c < pc → pc ≤ p → Ptr (S.len c) (h c) (m.ctrl p).next (rdp r k (m.ctrl p)) (fun _ => True)
  one : c < pc → pc ≤ p → alone r c → r.past = false → OneLeft (h c) (m.ctrl p).next
  read : ¬ (c < pc ∧ pc ≤ p) →
    Ptr (S.len c) (h c) (m.ctrl p).next (rdp r k (m.ctrl p)) (Lag S t late pc m.progress r k p)
  drained : ¬ (c < pc ∧ pc ≤ p) → alone r c → r.past = false → endOf (h c) ≤ (m.ctrl p).next
  done : S.first p → (late = true ∨ p < pc) → endOf (h c) ≤ (m.ctrl p).next
  pastR : r.past = true → ¬ (c < pc ∧ pc ≤ p) → PastR S t late pc (m.ctrl p) (h c) p r
  pastF : r.past = true → c < pc → pc ≤ p → PastF S t late m.progress (m.ctrl p) (h c) p r
  pastE : r.past = true → late = true → p < pc → m.progress = .reloop →
    endOf (h c) ≤ (m.ctrl p).next ∨ t + 2 ≤ (m.ctrl p).next + S.opW r

structure Inv (S : Setup) (tr : Nat → Nat → Bool) (V : Nat → Nat → Prop) (t : Nat) (late : Bool) (pc : Nat)
    (m : Mon) (h : Nat → List Verdict) : Prop where
  time : m.time = t
  prog : m.progress = .first ↔ late = false
  atoms : late = false → m.atoms = tr t
  node : ∀ i r, S.prog[i]? = some r → S.own i → Node S tr V t late pc m h i r
  edge : ∀ p r, S.prog[p]? = some r → S.own p → ∀ k c, r.arg k = some (.sub c) → EdgeI S t late pc m h p r k c

/-- No time in memory is later than `t`. -/
def Small (t : Nat) (m : Mon) : Prop :=
  ∀ q, (∀ (k : Nat) (v : Verdict), (m.ctrl q).slots k = some v → v.time ≤ t) ∧ (m.ctrl q).prev.time ≤ t ∧ (m.ctrl q).edge.time ≤ t

theorem own_end {V : Nat → Nat → Prop} {tr : Nat → Nat → Bool} {r : TlRec} {lb ub n e : Nat} {p : Verdict}
    (hp : r.past = false) (h : ownOf V tr r lb ub n p e) : n ≤ e + (if r.temporal then ub else 0) := by
  unfold ownOf at h
  unfold TlRec.temporal
  cases hop : r.opcode with
  | none => rw [hop] at h; have : n = e := h; omega
  | some o =>
      rw [hop] at h
      cases o
      case «until» => exact h.2.1
      case release => exact h.2.1
      case since => simp [TlRec.past, hop] at hp
      case trigger => simp [TlRec.past, hop] at hp
      all_goals (have : n = e := h; omega)

theorem opW_le {S : Setup} (ok : S.Ok) {i : Nat} {r : TlRec} (hr : S.prog[i]? = some r) (ho : S.own i) :
    S.opW r + (if r.temporal then S.ub i else 0) ≤ S.W i + (if r.past then S.lb i else 0) := by
  have h1 := ok.late i r hr ho false
  have h2 := ok.late i r hr ho true
  unfold Setup.opW
  omega

theorem endOf_le {h : List Verdict} {n : Nat} (hh : ∀ u ∈ h, u.time < n) : endOf h ≤ n := by
  unfold endOf
  split
  · omega
  · rename_i v hv
    have := hh v (List.mem_of_getLast? hv)
    omega

theorem mem_lt_endOf {h : List Verdict} (s : Sorted h) {u : Verdict} (hu : u ∈ h) : u.time < endOf h := by
  obtain ⟨k, hk⟩ := List.getElem?_of_mem hu
  exact lt_endOf s hk

theorem Ext.mem {h h' : List Verdict} {v : Verdict} (e : Ext h v h') {u : Verdict} (hu : u ∈ h') : u ∈ h ∨ u = v := by
  rcases e with rfl | ⟨l, w, rfl, _, rfl⟩
  · simpa using hu
  · simp only [List.mem_append, List.mem_singleton] at hu ⊢
    tauto

/-- One execution: operands are read, and an effect is applied. -/
structure Upd (m m' : Mon) (r : TlRec) (i : Nat) (c2 : Ctrl) (E : Effect) : Prop where
  same : SameQ (m.ctrl i) c2
  upd : m' = (m.upd i fun _ => c2).apply r E
  ret : r.opcode = some .ret → E.push = none
  report : r.opcode ≠ some .ret → E.report = none

theorem Exec.toUpd {S : Setup} {tr : Nat → Nat → Bool} {V : Nat → Nat → Prop} {t : Nat} {late : Bool}
    {h : Nat → List Verdict} {m m' : Mon} {r : TlRec} {i : Nat} {c2 : Ctrl} {E : Effect} {x : Bool → Option Verdict}
    (X : Exec S tr V t late h m m' r i c2 E x) : Upd m m' r i c2 E := ⟨X.same, X.upd, X.ret, X.report⟩

/-- The new list of verdicts of the executed instruction. -/
theorem ghost {h : Nat → List Verdict} {m m' : Mon} {r : TlRec} {i : Nat} {c2 : Ctrl} {E : Effect}
    (hm : r.mem = i) (X : Upd m m' r i c2 E)
    (hring : r.opcode ≠ some .ret → Ring (m.ctrl i) (h i))
    (hret : r.opcode = some .ret → m.reports r.v2 = h i) (hso : Sorted (h i)) :
    ∃ hi, (E.verdict = none → hi = h i) ∧ (∀ v, E.verdict = some v → Ext (h i) v hi) ∧
      (r.opcode ≠ some .ret → Ring (m'.ctrl i) hi) ∧ (r.opcode = some .ret → m'.reports r.v2 = hi) ∧
      (r.opcode ≠ some .ret → ∀ v, E.verdict = some v → hi = h i ++ [v] →
        (h i).length < (m.ctrl i).len ∨ ∀ u, (h i).getLast? = some u → u.truth ≠ v.truth) := by
  rw [X.upd]
  by_cases hop : r.opcode = some .ret
  · have hp := X.ret hop
    cases hE : E.report with
    | none =>
        refine ⟨h i, fun _ => rfl, ?_, fun hne => absurd hop hne, fun _ => ?_, fun hne => absurd hop hne⟩
        · intro v hv; simp [Effect.verdict, hp, hE] at hv
        · rw [← hret hop]; simp [Mon.reports, Mon.apply, hE, Mon.upd]
    | some v =>
        refine ⟨h i ++ [v], ?_, ?_, fun hne => absurd hop hne, fun _ => ?_, fun hne => absurd hop hne⟩
        · intro hv; simp [Effect.verdict, hp, hE] at hv
        · intro w hv
          simp only [Effect.verdict, hp, hE, Option.some.injEq] at hv
          subst hv
          exact Or.inl rfl
        · rw [← hret hop]; simp [Mon.reports, Mon.apply, hE, Mon.upd, List.filter_append]
  · have hp := X.report hop
    have hR := X.same.ring (hring hop)
    cases hE : E.push with
    | none =>
        refine ⟨h i, fun _ => rfl, ?_, fun _ => ?_, fun hh => absurd hh hop, ?_⟩
        rotate_right
        · intro _ v hv; simp [Effect.verdict, hp, hE] at hv
        · intro v hv; simp [Effect.verdict, hp, hE] at hv
        · simp only [Mon.apply, hE, hm, upd_ctrl_self, if_true]
          exact ⟨hR.pos, hR.write, hR.slot, hR.empty⟩
    | some v =>
        obtain ⟨hi, e, R, hfull⟩ := hR.push v
        refine ⟨hi, ?_, ?_, fun _ => ?_, fun hh => absurd hh hop, ?_⟩
        rotate_right
        · intro _ w hv hw
          simp only [Effect.verdict, hE, Option.some.injEq] at hv
          subst hv
          rw [← X.same.len]
          exact hfull hso hw
        · intro hv; simp [Effect.verdict, hE] at hv
        · intro w hv
          simp only [Effect.verdict, hE, Option.some.injEq] at hv
          subst hv
          exact e
        · simp only [Mon.apply, hE, hm, upd_ctrl_self, if_true]
          exact ⟨R.pos, R.write, R.slot, R.empty⟩

theorem exec_ctrl {m m' : Mon} {r : TlRec} {i : Nat} {c2 : Ctrl} {E : Effect} (hm : r.mem = i) (X : Upd m m' r i c2 E) :
    (m'.ctrl i).next = E.next ∧ (m'.ctrl i).prev = E.prev ∧ (m'.ctrl i).edge = E.edge ∧ (m'.ctrl i).len = (m.ctrl i).len ∧
      (m'.ctrl i).lb = (m.ctrl i).lb ∧ (m'.ctrl i).ub = (m.ctrl i).ub ∧
      ∀ k, rdp r k (m'.ctrl i) = rdp r k c2 := by
  rw [X.upd]
  cases hE : E.push with
  | none =>
      simp only [Mon.apply, hE, hm, upd_ctrl_self, if_true]
      exact ⟨trivial, trivial, trivial, X.same.len, X.same.lb, X.same.ub, fun k => rfl⟩
  | some v =>
      simp only [Mon.apply, hE, hm, upd_ctrl_self, if_true]
      exact ⟨trivial, trivial, trivial, X.same.len, X.same.lb, X.same.ub, fun k => rfl⟩

theorem exec_progress {m m' : Mon} {r : TlRec} {i : Nat} {c2 : Ctrl} {E : Effect} (X : Upd m m' r i c2 E) :
    (E.verdict = none → m'.progress = m.progress) ∧
      (r.opcode ≠ some .ret → ∀ v, E.verdict = some v → m'.progress = m.progress.flag) := by
  refine ⟨?_, fun hop => ?_⟩
  · rw [X.upd]
    unfold Effect.verdict Mon.apply
    cases hp : E.push <;> cases hr : E.report <;> simp [Mon.upd]
  · have hrep := X.report hop
    rw [X.upd]
    unfold Effect.verdict Mon.apply
    rw [hrep]
    cases hp : E.push <;> simp [Mon.upd]

/-- The first operand that is not ready, or all are used up to the new desired time. -/
theorem exec_next {S : Setup} {tr : Nat → Nat → Bool} {V : Nat → Nat → Prop} {t : Nat} {late : Bool}
    {h : Nat → List Verdict} {m m' : Mon} {r : TlRec} {i : Nat} {c2 : Ctrl} {E : Effect} {x : Bool → Option Verdict}
    (X : Exec S tr V t late h m m' r i c2 E x) (hn : E.next = (m.ctrl i).next) :
    ∃ k, opEnd h t (r.arg k) ≤ (m.ctrl i).next := by
  rcases X.rd false with ⟨_, ha⟩ | ⟨u, hu, ha, _⟩
  · exact ⟨false, ha⟩
  · rcases X.rd true with ⟨_, hb⟩ | ⟨v, hv, hb, _⟩
    · exact ⟨true, hb⟩
    · have := X.sound.adv u v hu hv
      omega

theorem exec_small {N : Nat} {m m' : Mon} {r : TlRec} {i : Nat} {c2 : Ctrl} {E : Effect} (hm : r.mem = i)
    (X : Upd m m' r i c2 E) (hv : ∀ v, E.verdict = some v → v.time ≤ N)
    (hb : E.prev = (m.ctrl i).prev ∨ ∃ v, E.push = some v ∧ E.prev = ⟨true, v.time⟩)
    (he : E.edge = (m.ctrl i).edge ∨ E.edge.time ≤ N) (hs : Small N m) : Small N m' := by
  have hpush : ∀ v, E.push = some v → v.time ≤ N := fun v h => hv v (by simp [Effect.verdict, h])
  have hprev : E.prev.time ≤ N := by
    rcases hb with h | ⟨v, h, h'⟩
    · rw [h]; exact (hs i).2.1
    · rw [h']; exact hpush v h
  have hedge : E.edge.time ≤ N := by
    rcases he with h | h
    · rw [h]; exact (hs i).2.2
    · exact h
  intro q
  rw [X.upd]
  by_cases hq : q = i
  · subst hq
    cases hE : E.push with
    | none =>
        simp only [Mon.apply, hE, hm, upd_ctrl_self, if_true]
        exact ⟨by rw [X.same.slots]; exact (hs q).1, hprev, hedge⟩
    | some v =>
        simp only [Mon.apply, hE, hm, upd_ctrl_self, if_true]
        refine ⟨?_, hprev, hedge⟩
        intro k w hw
        have key : ∀ n, (if k = n then some v else c2.slots k) = some w → w.time ≤ N := by
          intro n hn
          by_cases hk : k = n
          · rw [if_pos hk] at hn; cases hn; exact hpush _ hE
          · rw [if_neg hk, X.same.slots] at hn; exact (hs q).1 k w hn
        exact key _ hw
  · simp only [Mon.apply, hm, if_neg hq, upd_ctrl_ne _ _ hq]
    exact hs q

end R2U2
