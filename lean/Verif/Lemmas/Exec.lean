import Verif.Lemmas.Effects
import Mathlib.Tactic.SplitIfs
import Mathlib.Tactic.ByContra
/-
One execution of a future-time instruction, as reads followed by a sound effect.
-/
namespace R2U2
open Setup

/-- The values of an operand. -/
def valOf (V : Nat → Nat → Prop) (tr : Nat → Nat → Bool) : Option Arg → Nat → Prop
  | some (.const b), _ => b = true
  | some (.atom a), t => tr t a = true
  | some (.sub c), t => V c t
  | none, _ => False

/-- Where the verdicts of an operand end during step `t`. -/
def opEnd (h : Nat → List Verdict) (t : Nat) : Option Arg → Nat
  | some (.sub c) => endOf (h c)
  | _ => t + 1

def bodyOf : Option TlOp → Ctrl → Option Verdict → Option Verdict → Effect
  | some .load, c, a, _ => loadBody c a
  | some .ret, c, a, _ => retBody c a
  | some .not, c, a, _ => notBody c a
  | some .and, c, a, b => andBody c a b
  | some .or, c, a, b => orBody c a b
  | some .equiv, c, a, b => equivBody c a b
  | some .until, c, a, b => untilBody c a b
  | some .release, c, a, b => releaseBody c a b
  | _, c, _, _ => c.keep

def ownOf (V : Nat → Nat → Prop) (tr : Nat → Nat → Bool) (r : TlRec) (lb ub : Nat) :
    Nat → Verdict → Nat → Prop :=
  match r.opcode with
  | some .until => ownUntil (valOf V tr (r.arg false)) (valOf V tr (r.arg true)) lb ub
  | some .release => ownUntil (fun s => ¬ valOf V tr (r.arg false) s) (fun s => ¬ valOf V tr (r.arg true) s) lb ub
  | some .since | some .trigger => fun _ _ _ => True
  | _ => ownPlain

theorem valOf_first {V : Nat → Nat → Prop} {tr : Nat → Nat → Bool} {r : TlRec}
    (h : (∃ c, r.arg false = some (.sub c)) ∨ ∃ b, r.arg false = some (.const b)) (t : Nat) :
    valOf V tr (r.arg false) t ↔ argOf V r.t1 r.v1 t := by
  unfold TlRec.arg at *
  simp only [Bool.false_and, Bool.false_eq_true, if_false] at *
  rcases r with ⟨v1, v2, mem, t1, t2, op⟩
  simp only at *
  rcases t1 with _ | _ | _ | _ | _ <;> simp [valOf, argOf] at *

theorem valOf_second {V : Nat → Nat → Prop} {tr : Nat → Nat → Bool} {r : TlRec} (hb : r.binary = true)
    (h : (∃ c, r.arg true = some (.sub c)) ∨ ∃ b, r.arg true = some (.const b)) (t : Nat) :
    valOf V tr (r.arg true) t ↔ argOf V r.t2 r.v2 t := by
  unfold TlRec.arg at *
  simp only [Bool.true_and, hb, if_true] at *
  rcases r with ⟨v1, v2, mem, t1, t2, op⟩
  simp only at *
  rcases t2 with _ | _ | _ | _ | _ <;> simp [valOf, argOf] at *

theorem arg_unary {r : TlRec} (h : r.binary = false) (k : Bool) : r.arg k = r.arg false := by
  unfold TlRec.arg; simp [h]

/-- `Sound` for every opcode. -/
theorem sound_body {V : Nat → Nat → Prop} {tr : Nat → Nat → Bool} {r : TlRec} {i lb ub e ea eb : Nat}
    {a b : Option Verdict} {c : Ctrl} (hf : r.Future i)
    (hV : ∀ t, V i t ↔ r.holds lb ub tr V t) (hlb : c.lb = lb) (hub : c.ub = ub)
    (hlu : r.temporal = true → lb ≤ ub)
    (ha : Rd (valOf V tr (r.arg false)) c.next ea a) (hb : Rd (valOf V tr (r.arg true)) c.next eb b)
    (hab : r.binary = false → a = b) (ho : ownOf V tr r lb ub c.next c.prev e) :
    Sound (V i) (if r.temporal then lb else 0) e a b c.next (ownOf V tr r lb ub) (bodyOf r.opcode c a b) := by
  obtain ⟨_, _, hk⟩ := hf
  have plain : ∀ (o : TlOp), r.opcode = some o → o ≠ .until ∧ o ≠ .since → o ≠ .release ∧ o ≠ .trigger →
      ownOf V tr r lb ub = ownPlain ∧ r.temporal = false := by
    intro o h1 h2 h3
    unfold ownOf TlRec.temporal
    rw [h1]
    cases o <;> simp at *
  have una : r.binary = false → valOf V tr (r.arg true) = valOf V tr (r.arg false) := fun h => by
    rw [arg_unary h true]
  cases hop : r.opcode with
  | none => rw [hop] at hk; exact hk.elim
  | some o =>
  rw [hop] at hk
  cases o <;> simp only [] at hk
  case load =>
      obtain ⟨h1, h2⟩ := plain _ hop (by simp) (by simp)
      have hbin : r.binary = false := by simp [TlRec.binary, hop]
      rw [h1] at ho ⊢
      rw [h2]
      obtain rfl : c.next = e := ho
      have := hab hbin
      subst this
      refine (sound_load ha).congr fun s => ?_
      obtain ⟨x, hx⟩ := hk
      rw [hV, TlRec.holds, hop, hx]
      have : x = r.v1 := by
        unfold TlRec.arg at hx
        simp only [Bool.false_and, Bool.false_eq_true, if_false] at hx
        rcases ht : r.t1 with _ | _ | _ | _ | _ <;> simp [ht] at hx
        exact hx.symm
      simp [valOf, this]
  case ret =>
      obtain ⟨h1, h2⟩ := plain _ hop (by simp) (by simp)
      have hbin : r.binary = false := by simp [TlRec.binary, hop]
      rw [h1] at ho ⊢
      rw [h2]
      obtain rfl : c.next = e := ho
      have := hab hbin
      subst this
      refine (sound_ret ha).congr fun s => ?_
      rw [hV, TlRec.holds, hop, valOf_first (Or.inl hk)]
  case not =>
      obtain ⟨h1, h2⟩ := plain _ hop (by simp) (by simp)
      have hbin : r.binary = false := by simp [TlRec.binary, hop]
      rw [h1] at ho ⊢
      rw [h2]
      obtain rfl : c.next = e := ho
      have := hab hbin
      subst this
      refine (sound_not ha).congr fun s => ?_
      rw [hV, TlRec.holds, hop, valOf_first (Or.inl hk)]
  case and =>
      obtain ⟨h1, h2⟩ := plain _ hop (by simp) (by simp)
      have hbin : r.binary = true := by simp [TlRec.binary, hop]
      rw [h1] at ho ⊢
      rw [h2]
      obtain rfl : c.next = e := ho
      refine (sound_and ha hb).congr fun s => ?_
      rw [hV, TlRec.holds, hop, valOf_first ((hk.2 false).imp_right fun h => ⟨_, h⟩),
        valOf_second hbin ((hk.2 true).imp_right fun h => ⟨_, h⟩)]
  case or =>
      obtain ⟨h1, h2⟩ := plain _ hop (by simp) (by simp)
      have hbin : r.binary = true := by simp [TlRec.binary, hop]
      rw [h1] at ho ⊢
      rw [h2]
      obtain rfl : c.next = e := ho
      refine (sound_or ha hb).congr fun s => ?_
      rw [hV, TlRec.holds, hop, valOf_first ((hk.2 false).imp_right fun h => ⟨_, h⟩),
        valOf_second hbin ((hk.2 true).imp_right fun h => ⟨_, h⟩)]
  case equiv =>
      obtain ⟨h1, h2⟩ := plain _ hop (by simp) (by simp)
      have hbin : r.binary = true := by simp [TlRec.binary, hop]
      rw [h1] at ho ⊢
      rw [h2]
      obtain rfl : c.next = e := ho
      refine (sound_equiv ha hb).congr fun s => ?_
      rw [hV, TlRec.holds, hop, valOf_first (hk.2 false), valOf_second hbin (hk.2 true)]
  case «until» =>
      have hbin : r.binary = true := by simp [TlRec.binary, hop]
      have ht : r.temporal = true := by simp [TlRec.temporal, hop]
      have h1 : ownOf V tr r lb ub = ownUntil (valOf V tr (r.arg false)) (valOf V tr (r.arg true)) lb ub := by
        simp [ownOf, hop]
      rw [h1] at ho ⊢
      rw [ht]
      have hlu := hlu ht
      subst hlb hub
      refine (sound_until hlu ha hb ho).congr fun s => ?_
      rw [hV, TlRec.holds, hop, untilAt]
      simp only [valOf_first hk.2, valOf_second hbin (Or.inl hk.1)]
  case release =>
      have hbin : r.binary = true := by simp [TlRec.binary, hop]
      have ht : r.temporal = true := by simp [TlRec.temporal, hop]
      have h1 : ownOf V tr r lb ub = ownUntil (fun s => ¬ valOf V tr (r.arg false) s)
          (fun s => ¬ valOf V tr (r.arg true) s) lb ub := by
        simp [ownOf, hop]
      rw [h1] at ho ⊢
      rw [ht]
      have hlu := hlu ht
      subst hlb hub
      refine (sound_release hlu ha hb ho).congr fun s => ?_
      rw [hV, TlRec.holds, hop]
      simp only [valOf_first hk.2, valOf_second hbin (Or.inl hk.1)]

theorem rd_const {A : Nat → Prop} {P : Prop} {n e : Nat} {x : Option Verdict} (h : Rd A n e x)
    (hP : ∀ u, x = some u → (P ↔ u.truth = true)) : Rd (fun _ => P) n e x := by
  rcases h with ⟨h1, h2⟩ | ⟨v, h1, h2, h3, _⟩
  · exact Or.inl ⟨h1, h2⟩
  · exact Or.inr ⟨v, h1, h2, h3, fun _ _ _ => hP v h1⟩

/-- A propositional instruction changes its value only where an operand it reads does. -/
theorem turn_body {V : Nat → Nat → Prop} {tr : Nat → Nat → Bool} {r : TlRec} {i lb ub p : Nat} {ea : Bool → Nat}
    {x : Bool → Option Verdict} {c : Ctrl} {v : Verdict} (hf : r.Future i) (ht : r.temporal = false)
    (hnl : r.opcode ≠ some .load) (hV : V i p ↔ r.holds lb ub tr V p)
    (hx : ∀ k, Rd (valOf V tr (r.arg k)) c.next (ea k) (x k)) (hab : r.binary = false → x false = x true)
    (hv : (bodyOf r.opcode c (x false) (x true)).verdict = some v) (hne : ¬ (V i p ↔ v.truth = true)) :
    ∃ k u, x k = some u ∧ ¬ (valOf V tr (r.arg k) p ↔ u.truth = true) := by
  by_contra hcon
  have hP : ∀ k u, x k = some u → (valOf V tr (r.arg k) p ↔ u.truth = true) := by
    intro k u hu
    by_contra h
    exact hcon ⟨k, u, hu, h⟩
  have hA := rd_const (hx false) (hP false)
  have hB := rd_const (hx true) (hP true)
  apply hne
  rw [hV]
  obtain ⟨_, _, hk⟩ := hf
  cases hop : r.opcode with
  | none => rw [hop] at hk; exact hk.elim
  | some o =>
  rw [hop] at hk hv hnl
  cases o <;> simp only [] at hk
  case load => exact absurd rfl hnl
  case «until» => simp [TlRec.temporal, hop] at ht
  case release => simp [TlRec.temporal, hop] at ht
  case ret =>
      have hbin : r.binary = false := by simp [TlRec.binary, hop]
      have h := (sound_ret hA).push v hv
      have := h.2.2 _ (Nat.le_refl _) h.1
      rw [TlRec.holds, hop]
      simp only []
      rw [← valOf_first (Or.inl hk)]
      exact this
  case not =>
      have hbin : r.binary = false := by simp [TlRec.binary, hop]
      have h := (sound_not hA).push v hv
      have := h.2.2 _ (Nat.le_refl _) h.1
      rw [TlRec.holds, hop]
      simp only []
      rw [← valOf_first (Or.inl hk)]
      exact this
  case and =>
      have hbin : r.binary = true := by simp [TlRec.binary, hop]
      have h := (sound_and hA hB).push v hv
      have := h.2.2 _ (Nat.le_refl _) h.1
      rw [TlRec.holds, hop]
      simp only []
      rw [← valOf_first ((hk.2 false).imp_right fun h => ⟨_, h⟩),
        ← valOf_second hbin ((hk.2 true).imp_right fun h => ⟨_, h⟩)]
      exact this
  case or =>
      have hbin : r.binary = true := by simp [TlRec.binary, hop]
      have h := (sound_or hA hB).push v hv
      have := h.2.2 _ (Nat.le_refl _) h.1
      rw [TlRec.holds, hop]
      simp only []
      rw [← valOf_first ((hk.2 false).imp_right fun h => ⟨_, h⟩),
        ← valOf_second hbin ((hk.2 true).imp_right fun h => ⟨_, h⟩)]
      exact this
  case equiv =>
      have hbin : r.binary = true := by simp [TlRec.binary, hop]
      have h := (sound_equiv hA hB).push v hv
      have := h.2.2 _ (Nat.le_refl _) h.1
      rw [TlRec.holds, hop]
      simp only []
      rw [← valOf_first (hk.2 false), ← valOf_second hbin (hk.2 true)]
      exact this

/-- Two control blocks that differ in their read pointers only. -/
structure SameQ (c d : Ctrl) : Prop where
  len : d.len = c.len
  write : d.write = c.write
  next : d.next = c.next
  slots : d.slots = c.slots
  edge : d.edge = c.edge
  prev : d.prev = c.prev
  lb : d.lb = c.lb
  ub : d.ub = c.ub

theorem SameQ.refl (c : Ctrl) : SameQ c c := ⟨rfl, rfl, rfl, rfl, rfl, rfl, rfl, rfl⟩

theorem SameQ.ring {c d : Ctrl} (s : SameQ c d) {h : List Verdict} (R : Ring c h) : Ring d h := by
  refine ⟨s.len ▸ R.pos, by rw [s.write, s.len]; exact R.write, ?_, fun h => by rw [s.slots]; exact R.empty h⟩
  rw [s.len, s.slots]
  exact R.slot

/-- The result of reading an operand. -/
def ReadRes (S : Setup) (tr : Nat → Nat → Bool) (t : Nat) (late : Bool) (h : Nat → List Verdict) (n : Nat)
    (r' : Nat) (x : Option Verdict) : Option Arg → Prop
  | some (.sub c) => Ptr (S.len c) (h c) n r' (fun T => n ≤ T) ∧
      ((∃ (v : Verdict) (k : Nat), x = some v ∧ n ≤ v.time ∧ v.time < endOf (h c) ∧ (h c)[k]? = some v ∧
          ∀ (j : Nat) (u : Verdict), j < k → (h c)[j]? = some u → u.time < n) ∨
        (x = none ∧ endOf (h c) ≤ n))
  | some (.const b) => x = some ⟨b, t⟩
  | some (.atom a) => x = if late then none else some ⟨tr t a, t⟩
  | none => x = none

/-- What the operands of an instruction need to be read. -/
structure Readable (S : Setup) (tr : Nat → Nat → Bool) (t : Nat) (late : Bool) (m : Mon)
    (h : Nat → List Verdict) : Prop where
  time : m.time = t
  prog : m.progress = .first ↔ late = false
  atoms : late = false → m.atoms = tr t

theorem upd_ctrl_self (m : Mon) (q : Nat) (f : Ctrl → Ctrl) : (m.upd q f).ctrl q = f (m.ctrl q) := by
  simp [Mon.upd]

theorem upd_ctrl_ne (m : Mon) {q k : Nat} (f : Ctrl → Ctrl) (h : k ≠ q) : (m.upd q f).ctrl k = m.ctrl k := by
  simp [Mon.upd, h]

theorem upd_upd (m : Mon) (q : Nat) (f g : Ctrl → Ctrl) : (m.upd q f).upd q g = m.upd q (fun c => g (f c)) := by
  unfold Mon.upd
  congr 1
  funext k
  by_cases h : k = q <;> simp [h]

theorem upd_const (m : Mon) (q : Nat) (f : Ctrl → Ctrl) : m.upd q f = m.upd q (fun _ => f (m.ctrl q)) := by
  unfold Mon.upd
  congr 1
  funext k
  by_cases h : k = q <;> simp [h]

theorem upd_self (m : Mon) (q : Nat) : m.upd q (fun _ => m.ctrl q) = m := by
  unfold Mon.upd
  have : (fun k => if k = q then m.ctrl q else m.ctrl k) = m.ctrl := by
    funext k
    by_cases h : k = q <;> simp [h]
  rw [this]

theorem TlRec.Future.notPast {r : TlRec} {i : Nat} (hf : r.Future i) : r.past = false := by
  have hk := hf.2.2
  unfold TlRec.past
  cases hop : r.opcode with
  | none => rfl
  | some o =>
      rw [hop] at hk
      cases o <;> first | rfl | exact hk.elim

theorem TlRec.Past.isPast {r : TlRec} {i : Nat} (hf : r.Past i) : r.past = true := by
  have hk := hf.2.2.2
  unfold TlRec.past
  cases hop : r.opcode with
  | none => rw [hop] at hk; exact hk.elim
  | some o =>
      rw [hop] at hk
      cases o <;> first | rfl | exact hk.elim

/-- Reading one operand. -/
theorem operand_spec {S : Setup} {tr : Nat → Nat → Bool} {t : Nat} {late : Bool} {m : Mon}
    {h : Nat → List Verdict} {r : TlRec} {i : Nat} (hr : Readable S tr t late m h) (hm : r.mem = i) (k : Bool)
    (hns : r.past = false ∨ ∃ c, r.arg k = some (.sub c)) (hk : k = true → r.binary = true)
    (hsub : ∀ c, r.arg k = some (.sub c) → Ring (m.ctrl c) (h c) ∧ Sorted (h c) ∧ (m.ctrl c).len = S.len c ∧
      ∃ P, Ptr (S.len c) (h c) (m.ctrl i).next (if k then (m.ctrl i).read2 else (m.ctrl i).read1) P) :
    ∃ r' x, m.operand r k = some (m.upd i (fun _ => if k then { m.ctrl i with read2 := r' }
        else { m.ctrl i with read1 := r' }), x) ∧
      ReadRes S tr t late h (m.ctrl i).next r' x (r.arg k) := by
  have hkk : (k && r.binary) = k := by
    cases k
    · rfl
    · simp [hk rfl]
  have hns : r.past = false ∨ (if k then r.t2 else r.t1) = some .subformula := by
    rcases hns with h | ⟨c, hc⟩
    · exact Or.inl h
    · right
      unfold TlRec.arg at hc
      rw [hkk] at hc
      rcases ht : (if k then r.t2 else r.t1) with _ | _ | _ | _ | _ <;> simp [ht] at hc
      rfl
  have hself : ∀ x, some (m, x) = some (m.upd i (fun _ => if k then { m.ctrl i with read2 := if k then (m.ctrl i).read2 else (m.ctrl i).read1 }
        else { m.ctrl i with read1 := if k then (m.ctrl i).read2 else (m.ctrl i).read1 }), (x : Option Verdict)) := by
    intro x
    have : (if k then { m.ctrl i with read2 := if k then (m.ctrl i).read2 else (m.ctrl i).read1 }
        else { m.ctrl i with read1 := if k then (m.ctrl i).read2 else (m.ctrl i).read1 }) = m.ctrl i := by
      cases k <;> rfl
    rw [this, upd_self]
  unfold TlRec.arg at hsub ⊢
  rw [hkk] at hsub ⊢
  unfold Mon.operand
  rw [hm]
  rcases ht : (if k then r.t2 else r.t1) with _ | _ | _ | _ | _
  · refine ⟨(if k then (m.ctrl i).read2 else (m.ctrl i).read1), none, ?_, ?_⟩
    rotate_left
    · simp [ReadRes]
    · simp only []; exact hself none
  · -- direct
    refine ⟨(if k then (m.ctrl i).read2 else (m.ctrl i).read1), some ⟨decide ((if k then r.v2 else r.v1) ≠ 0), t⟩, ?_, ?_⟩
    rotate_left
    · simp only [ReadRes]
    · have hns : ¬ (r.opcode = some .since ∨ r.opcode = some .trigger) := by
        rcases hns with h | h
        · rintro (h' | h') <;> simp [TlRec.past, h'] at h
        · rw [ht] at h; cases h
      simp only [if_neg hns, hr.time]
      exact hself _
  · -- atomic
    refine ⟨(if k then (m.ctrl i).read2 else (m.ctrl i).read1), if late then none else some ⟨tr t (if k then r.v2 else r.v1), t⟩, ?_, ?_⟩
    rotate_left
    · simp only [ReadRes]
    · simp only []
      rw [← hself]
      cases late with
      | false =>
          rw [if_pos (hr.prog.2 rfl), hr.atoms rfl, hr.time]; rfl
      | true =>
          rw [if_neg (fun h => by simpa using hr.prog.1 h)]; rfl
  · -- subformula
    have hk' := hsub (if k then r.v2 else r.v1) (by rw [ht])
    obtain ⟨R, s, hl, P, hp⟩ := hk'
    rw [← hl] at hp
    obtain ⟨r', res, e1, e2, e3⟩ := R.read s hp
    refine ⟨r', res, ?_, ?_⟩
    · simp only [e1, Option.map_some]
      rw [upd_const]
    · simp only [ReadRes]
      rw [hl] at e2
      exact ⟨e2, e3⟩
  · refine ⟨(if k then (m.ctrl i).read2 else (m.ctrl i).read1), none, ?_, ?_⟩
    rotate_left
    · simp [ReadRes]
    · simp only []; exact hself none

/-- The read pointer used for operand `k`. -/
def rdp (r : TlRec) (k : Bool) (c : Ctrl) : Nat := if k && r.binary then c.read2 else c.read1

theorem skipToLb_self {m : Mon} {r : TlRec} (h : (m.ctrl r.mem).lb ≤ (m.ctrl r.mem).next) : m.skipToLb r = m := by
  unfold Mon.skipToLb
  rw [upd_const, if_neg (fun hh => by omega), upd_self]

/-- With desired time 0 a read pointer stays where it is. -/
theorem read_zero (c : Ctrl) (r : Nat) : ∃ y, c.read r 0 = some (r, y) := by
  unfold Ctrl.read
  split
  · exact ⟨_, rfl⟩
  · unfold scan
    simp only [Nat.zero_le, if_true]
    exact ⟨_, rfl⟩

theorem operand_zero {m : Mon} {r : TlRec} (k : Bool) (h : (m.ctrl r.mem).next = 0) : ∃ y, m.operand r k = some (m, y) := by
  unfold Mon.operand
  split
  · exact ⟨_, rfl⟩
  · exact ⟨_, rfl⟩
  · rw [h]
    obtain ⟨y, hy⟩ := read_zero (m.ctrl (if k then r.v2 else r.v1)) (if k then (m.ctrl r.mem).read2 else (m.ctrl r.mem).read1)
    refine ⟨y, ?_⟩
    simp only [hy, Option.map_some]
    rw [upd_const]
    cases k
    · simp only [Bool.false_eq_true, if_false]; rw [upd_self]
    · simp only [if_true]; rw [upd_self]
  · exact ⟨_, rfl⟩

/-- The first verdict of a since, in either monitor. -/
theorem since_start {m : Mon} {r : TlRec} (hop : r.opcode = some .since) (hst : (m.ctrl r.mem).starting)
    (h : (m.ctrl r.mem).next = 0) :
    m.update r = some (m.apply r ((m.ctrl r.mem).emitPrev ⟨false, (m.ctrl r.mem).lb - 1⟩ 0)) := by
  unfold Mon.update
  simp only [hop]
  cases (m.ctrl r.mem).lang with
  | c => simp only []; rw [if_pos hst]
  | rust =>
      obtain ⟨a, ha⟩ := operand_zero false h
      obtain ⟨b, hb⟩ := operand_zero true h
      simp only [Mon.binary, ha, hb, Option.bind_some, Option.map_some, if_pos hst, h]

/-- The first verdict of a trigger, in either monitor. -/
theorem trigger_start {m : Mon} {r : TlRec} (hop : r.opcode = some .trigger) (hst : (m.ctrl r.mem).starting)
    (h : (m.ctrl r.mem).next = 0) :
    m.update r = some (m.apply r ((m.ctrl r.mem).emitPrev ⟨true, (m.ctrl r.mem).lb - 1⟩ 0)) := by
  unfold Mon.update
  simp only [hop]
  cases (m.ctrl r.mem).lang with
  | c => simp only []; rw [if_pos hst]
  | rust =>
      obtain ⟨a, ha⟩ := operand_zero false h
      obtain ⟨b, hb⟩ := operand_zero true h
      simp only [Mon.binary, ha, hb, Option.bind_some, Option.map_some, if_pos hst, h]

/-- The reads of one execution. -/
theorem exec_reads {S : Setup} {tr : Nat → Nat → Bool} {t : Nat} {late : Bool} {m : Mon}
    {h : Nat → List Verdict} {r : TlRec} {i : Nat} (hr : Readable S tr t late m h) (hf : r.Future i)
    (hlb : r.temporal = true → (m.ctrl i).lb ≤ (m.ctrl i).next)
    (hsub : ∀ k c, r.arg k = some (.sub c) → Ring (m.ctrl c) (h c) ∧ Sorted (h c) ∧ (m.ctrl c).len = S.len c ∧
      ∃ P, Ptr (S.len c) (h c) (m.ctrl i).next (rdp r k (m.ctrl i)) P) :
    ∃ (c2 : Ctrl) (x : Bool → Option Verdict), SameQ (m.ctrl i) c2 ∧
      m.update r = some ((m.upd i fun _ => c2).apply r (bodyOf r.opcode c2 (x false) (x true))) ∧
      (∀ k, ReadRes S tr t late h (m.ctrl i).next (rdp r k c2) (x k) (r.arg k)) ∧
      (r.binary = false → x true = x false) := by
  have hfm := hf.1
  have hpast := hf.notPast
  obtain ⟨r1, a, e1, f1⟩ := operand_spec hr hfm false (Or.inl hpast) (by simp) (by
    intro c hc
    simpa [rdp] using hsub false c hc)
  simp only [Bool.false_eq_true, if_false] at e1
  cases hb : r.binary with
  | false =>
      refine ⟨{ m.ctrl i with read1 := r1 }, fun _ => a, ⟨rfl, rfl, rfl, rfl, rfl, rfl, rfl, rfl⟩, ?_, ?_, fun _ => rfl⟩
      · have key : ∀ body : Ctrl → Option Verdict → Effect, m.unary r body =
            some ((m.upd i fun _ => { m.ctrl i with read1 := r1 }).apply r (body { m.ctrl i with read1 := r1 } a)) := by
          intro body
          unfold Mon.unary
          rw [e1, Option.map_some, hfm, upd_ctrl_self]
        unfold Mon.update
        have hk := hf.2.2
        cases hop : r.opcode with
        | none => rw [hop] at hk; exact hk.elim
        | some o =>
        rw [hop] at hk
        cases o <;> simp only [] at hk <;> simp only [TlRec.binary, hop, Bool.true_eq_false] at hb <;>
          simp only [bodyOf, key]
      · intro k
        have hrd : rdp r k { m.ctrl i with read1 := r1 } = r1 := by simp [rdp, hb]
        rw [hrd, arg_unary hb k]
        exact f1
  | true =>
      have hr1 : Readable S tr t late (m.upd i fun _ => { m.ctrl i with read1 := r1 }) h :=
        ⟨hr.time, hr.prog, hr.atoms⟩
      obtain ⟨r2, b, e2, f2⟩ := operand_spec hr1 hfm true (Or.inl hpast) (fun _ => hb) (by
        intro c hc
        obtain ⟨g1, g2, g3, P, g4⟩ := hsub true c hc
        have hlt := hf.2.1 true c hc
        rw [upd_ctrl_ne _ _ (by omega), upd_ctrl_self]
        refine ⟨g1, g2, g3, P, ?_⟩
        simpa [rdp, hb] using g4)
      simp only [if_true, upd_ctrl_self, upd_upd] at e2 f2
      refine ⟨{ m.ctrl i with read1 := r1, read2 := r2 }, fun k => if k then b else a,
        ⟨rfl, rfl, rfl, rfl, rfl, rfl, rfl, rfl⟩, ?_, ?_, fun h => by simp at h⟩
      · have key : ∀ body : Ctrl → Option Verdict → Option Verdict → Effect, m.binary r body =
            some ((m.upd i fun _ => { m.ctrl i with read1 := r1, read2 := r2 }).apply r
              (body { m.ctrl i with read1 := r1, read2 := r2 } a b)) := by
          intro body
          unfold Mon.binary
          rw [e1, Option.bind_some, e2, Option.map_some, hfm, upd_ctrl_self]
        have hskip : r.temporal = true → m.skipToLb r = m := fun h =>
          skipToLb_self (by rw [hfm]; exact hlb h)
        unfold Mon.update
        have hk := hf.2.2
        cases hop : r.opcode with
        | none => rw [hop] at hk; exact hk.elim
        | some o =>
        rw [hop] at hk
        cases o <;> simp only [] at hk <;> simp only [TlRec.binary, hop, Bool.false_eq_true] at hb <;>
          simp only [bodyOf, Bool.false_eq_true, if_false, if_true]
        case «until» => rw [hskip (by simp [TlRec.temporal, hop]), key]
        case release => rw [hskip (by simp [TlRec.temporal, hop]), key]
        all_goals rw [key]
      · intro k
        cases k with
        | false => exact f1
        | true =>
            have : rdp r true { m.ctrl i with read1 := r1, read2 := r2 } = r2 := by simp [rdp, hb]
            rw [this]
            exact f2

/-- A constant that was already used up does not matter. -/
theorem filter_body {r : TlRec} {i n t : Nat} (hf : r.Future i) (c : Ctrl) (x x' : Bool → Option Verdict)
    (hx : ∀ k, x' k = x k ∨ ∃ b, r.arg k = some (.const b) ∧ x' k = none ∧ x k = some ⟨b, t⟩ ∧ t < n)
    (hn : ∀ k' b, r.arg k' = some (.const b) → t < n → ∀ k c, r.arg k = some (.sub c) → x k = none) :
    bodyOf r.opcode c (x' false) (x' true) = bodyOf r.opcode c (x false) (x true) := by
  have hk := hf.2.2
  cases hop : r.opcode with
  | none => rfl
  | some o =>
  rw [hop] at hk
  cases o <;> simp only [] at hk <;> simp only [bodyOf]
  case load =>
      rcases hx false with h | ⟨b, h, _⟩
      · rw [h]
      · obtain ⟨a, ha⟩ := hk; rw [ha] at h; cases h
  case ret =>
      rcases hx false with h | ⟨b, h, _⟩
      · rw [h]
      · obtain ⟨a, ha⟩ := hk; rw [ha] at h; cases h
  case not =>
      rcases hx false with h | ⟨b, h, _⟩
      · rw [h]
      · obtain ⟨a, ha⟩ := hk; rw [ha] at h; cases h
  case and =>
      obtain ⟨⟨k0, c0, hc0⟩, hk⟩ := hk
      rcases hx false with h | ⟨b, h, e1, e2, ht⟩ <;> rcases hx true with h' | ⟨b', h', e1', e2', ht'⟩
      · rw [h, h']
      · have : x false = none := by
          cases k0 with
          | false => exact hn _ _ h' ht' _ _ hc0
          | true => rw [hc0] at h'; cases h'
        rw [h, this, e1', e2']
        rcases hk true with ⟨c1, hc1⟩ | hc1
        · rw [hc1] at h'; cases h'
        · rw [hc1] at h'; cases h'; rfl
      · have : x true = none := by
          cases k0 with
          | true => exact hn _ _ h ht _ _ hc0
          | false => rw [hc0] at h; cases h
        rw [h', this, e1, e2]
        rcases hk false with ⟨c1, hc1⟩ | hc1
        · rw [hc1] at h; cases h
        · rw [hc1] at h; cases h; rfl
      · cases k0 with
        | true => rw [hc0] at h'; cases h'
        | false => rw [hc0] at h; cases h
  case or =>
      obtain ⟨⟨k0, c0, hc0⟩, hk⟩ := hk
      rcases hx false with h | ⟨b, h, e1, e2, ht⟩ <;> rcases hx true with h' | ⟨b', h', e1', e2', ht'⟩
      · rw [h, h']
      · have : x false = none := by
          cases k0 with
          | false => exact hn _ _ h' ht' _ _ hc0
          | true => rw [hc0] at h'; cases h'
        rw [h, this, e1', e2']
        rcases hk true with ⟨c1, hc1⟩ | hc1
        · rw [hc1] at h'; cases h'
        · rw [hc1] at h'; cases h'; rfl
      · have : x true = none := by
          cases k0 with
          | true => exact hn _ _ h ht _ _ hc0
          | false => rw [hc0] at h; cases h
        rw [h', this, e1, e2]
        rcases hk false with ⟨c1, hc1⟩ | hc1
        · rw [hc1] at h; cases h
        · rw [hc1] at h; cases h; rfl
      · cases k0 with
        | true => rw [hc0] at h'; cases h'
        | false => rw [hc0] at h; cases h
  case equiv =>
      obtain ⟨⟨k0, c0, hc0⟩, hk⟩ := hk
      rcases hx false with h | ⟨b, h, e1, e2, ht⟩ <;> rcases hx true with h' | ⟨b', h', e1', e2', ht'⟩
      · rw [h, h']
      · have : x false = none := by
          cases k0 with
          | false => exact hn _ _ h' ht' _ _ hc0
          | true => rw [hc0] at h'; cases h'
        rw [h, this, e1', e2']; rfl
      · have : x true = none := by
          cases k0 with
          | true => exact hn _ _ h ht _ _ hc0
          | false => rw [hc0] at h; cases h
        rw [h', this, e1, e2]; rfl
      · cases k0 with
        | true => rw [hc0] at h'; cases h'
        | false => rw [hc0] at h; cases h
  case «until» =>
      obtain ⟨⟨c0, hc0⟩, hk⟩ := hk
      rcases hx true with h' | ⟨b', h', _⟩
      · rcases hx false with h | ⟨b, h, e1, e2, ht⟩
        · rw [h, h']
        · rw [h', hn _ _ h ht _ _ hc0]; rfl
      · rw [hc0] at h'; cases h'
  case release =>
      obtain ⟨⟨c0, hc0⟩, hk⟩ := hk
      rcases hx true with h' | ⟨b', h', _⟩
      · rcases hx false with h | ⟨b, h, e1, e2, ht⟩
        · rw [h, h']
        · rw [h', hn _ _ h ht _ _ hc0]; rfl
      · rw [hc0] at h'; cases h'

theorem body_quiet {op : Option TlOp} (c : Ctrl) (a b : Option Verdict) (h1 : op ≠ some .until)
    (h2 : op ≠ some .release) (hv : (bodyOf op c a b).verdict = none) : (bodyOf op c a b).next = c.next := by
  cases op with
  | none => rfl
  | some o =>
  cases o <;> simp only [bodyOf] at * <;> first
    | rfl
    | exact absurd rfl h1
    | exact absurd rfl h2
    | skip
  case load => cases a <;> simp [loadBody, Ctrl.keep, Ctrl.emit, Effect.verdict] at *
  case ret => cases a <;> simp [retBody, Ctrl.keep, Ctrl.emit, Effect.verdict] at *
  case not => cases a <;> simp [notBody, Ctrl.keep, Ctrl.emit, Effect.verdict] at *
  case and =>
    cases a <;> cases b <;> simp only [andBody, Ctrl.keep, Ctrl.emit, Effect.verdict] at * <;>
      split_ifs at * <;> simp at *
  case or =>
    cases a <;> cases b <;> simp only [orBody, Ctrl.keep, Ctrl.emit, Effect.verdict] at * <;>
      split_ifs at * <;> simp at *
  case equiv =>
    cases a <;> cases b <;> simp [equivBody, Ctrl.keep, Ctrl.emit, Effect.verdict] at *

theorem body_ret (c : Ctrl) (a b : Option Verdict) : (bodyOf (some .ret) c a b).push = none := by
  cases a <;> rfl

theorem body_report {op : Option TlOp} (c : Ctrl) (a b : Option Verdict) (h1 : op ≠ some .ret) :
    (bodyOf op c a b).report = none := by
  cases op with
  | none => rfl
  | some o =>
  cases o <;> simp only [bodyOf] <;> first
    | rfl
    | exact absurd rfl h1
    | skip
  case load => cases a <;> rfl
  case not => cases a <;> rfl
  case and =>
    cases a <;> cases b <;> simp only [andBody, Ctrl.keep, Ctrl.emit] <;> split_ifs <;> rfl
  case or =>
    cases a <;> cases b <;> simp only [orBody, Ctrl.keep, Ctrl.emit] <;> split_ifs <;> rfl
  case equiv => cases a <;> cases b <;> rfl
  case «until» =>
    cases a <;> cases b <;> simp only [untilBody, Ctrl.keep, Ctrl.emitPrev] <;> split_ifs <;> rfl
  case release =>
    cases a <;> cases b <;> simp only [releaseBody, Ctrl.keep, Ctrl.emitPrev] <;> split_ifs <;> rfl

/-- The temporal block after a case. -/
theorem body_block {op : Option TlOp} (c : Ctrl) (a b : Option Verdict) :
    (bodyOf op c a b).edge = c.edge ∧
    ((bodyOf op c a b).prev = c.prev ∨ ∃ v, (bodyOf op c a b).push = some v ∧ (bodyOf op c a b).prev = ⟨true, v.time⟩) := by
  cases op with
  | none => exact ⟨rfl, Or.inl rfl⟩
  | some o =>
  cases o <;> simp only [bodyOf] <;> first
    | exact ⟨rfl, Or.inl rfl⟩
    | skip
  case load => cases a <;> exact ⟨rfl, Or.inl rfl⟩
  case ret => cases a <;> exact ⟨rfl, Or.inl rfl⟩
  case not => cases a <;> exact ⟨rfl, Or.inl rfl⟩
  case and =>
    cases a <;> cases b <;> simp only [andBody, Ctrl.keep, Ctrl.emit] <;> (try split_ifs) <;> simp
  case or =>
    cases a <;> cases b <;> simp only [orBody, Ctrl.keep, Ctrl.emit] <;> (try split_ifs) <;> simp
  case equiv => cases a <;> cases b <;> exact ⟨rfl, Or.inl rfl⟩
  case «until» =>
    cases a <;> cases b <;> simp only [untilBody, Ctrl.keep, Ctrl.emitPrev] <;> (try split_ifs) <;> simp
  case release =>
    cases a <;> cases b <;> simp only [releaseBody, Ctrl.keep, Ctrl.emitPrev] <;> (try split_ifs) <;> simp

/-- Without anything to read there is no verdict. -/
theorem body_idle {r : TlRec} {i t : Nat} (hf : r.Future i) (c : Ctrl) (x : Bool → Option Verdict)
    (hs : ∀ k c, r.arg k = some (.sub c) → x k = none)
    (hc : ∀ k b u, r.arg k = some (.const b) → x k = some u → u = ⟨b, t⟩)
    (hl : r.opcode = some .load → x false = none) :
    (bodyOf r.opcode c (x false) (x true)).verdict = none := by
  have hk := hf.2.2
  cases hop : r.opcode with
  | none => rfl
  | some o =>
  rw [hop] at hk
  cases o <;> simp only [] at hk <;> simp only [bodyOf]
  case load => rw [hl hop]; rfl
  case ret => obtain ⟨a, ha⟩ := hk; rw [hs _ _ ha]; rfl
  case not => obtain ⟨a, ha⟩ := hk; rw [hs _ _ ha]; rfl
  case and =>
      obtain ⟨⟨k0, c0, hc0⟩, hk⟩ := hk
      have h1 := hs _ _ hc0
      cases k0 with
      | false =>
          rw [h1]
          rcases hk true with ⟨c1, hc1⟩ | hc1
          · rw [hs _ _ hc1]; rfl
          · cases hx : x true with
            | none => rfl
            | some u => rw [hc _ _ _ hc1 hx]; rfl
      | true =>
          rw [h1]
          rcases hk false with ⟨c1, hc1⟩ | hc1
          · rw [hs _ _ hc1]; rfl
          · cases hx : x false with
            | none => rfl
            | some u => rw [hc _ _ _ hc1 hx]; rfl
  case or =>
      obtain ⟨⟨k0, c0, hc0⟩, hk⟩ := hk
      have h1 := hs _ _ hc0
      cases k0 with
      | false =>
          rw [h1]
          rcases hk true with ⟨c1, hc1⟩ | hc1
          · rw [hs _ _ hc1]; rfl
          · cases hx : x true with
            | none => rfl
            | some u => rw [hc _ _ _ hc1 hx]; rfl
      | true =>
          rw [h1]
          rcases hk false with ⟨c1, hc1⟩ | hc1
          · rw [hs _ _ hc1]; rfl
          · cases hx : x false with
            | none => rfl
            | some u => rw [hc _ _ _ hc1 hx]; rfl
  case equiv =>
      obtain ⟨⟨k0, c0, hc0⟩, hk⟩ := hk
      have h1 := hs _ _ hc0
      cases k0 with
      | false => rw [h1]; rfl
      | true => rw [h1]; cases x false <;> rfl
  case «until» => rw [hs _ _ hk.1.choose_spec]; rfl
  case release => rw [hs _ _ hk.1.choose_spec]; rfl

end R2U2
