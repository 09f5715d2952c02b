import Verif.Lemmas.RustSim
/-
Instructions, passes, time steps and runs of the Rust monitor.
-/
namespace R2U2
namespace Rs
open Monitor Setup

/-- What reading an operand can give. -/
def Val (t : Nat) (h : Nat → List Verdict) (n ub : Nat) (x : Option Verdict) : Option Arg → Prop
  | some (.sub c) => ∀ v, x = some v → v ∈ h c ∧ n ≤ v.time
  | _ => ∀ v, x = some v → v.time = t + ub

theorem val_of_read {S : Setup} {tr : Nat → Nat → Bool} {t : Nat} {late : Bool} {h : Nat → List Verdict} {n r' : Nat} {x : Option Verdict}
    {a : Option Arg} (H : ReadRes S tr t late h n r' x a) {ub : Nat} (hub : (∃ c, a = some (.sub c)) ∨ ub = 0) : Val t h n ub x a := by
  cases a with
  | none => intro v hv; rw [H] at hv; cases hv
  | some a =>
      cases a with
      | const b =>
          intro v hv
          rw [H] at hv; cases hv
          rcases hub with ⟨c, hc⟩ | rfl
          · cases hc
          · rfl
      | atom a =>
          intro v hv
          rw [H] at hv
          rcases hub with ⟨c, hc⟩ | rfl
          · cases hc
          · split at hv
            · cases hv
            · cases hv; rfl
      | sub c =>
          intro v hv
          rcases H.2 with ⟨w, k, h1, h2, _, h4, _⟩ | ⟨h1, _⟩
          · rw [h1] at hv; cases hv
            exact ⟨List.mem_of_getElem? h4, h2⟩
          · rw [h1] at hv; cases hv

theorem operand_read2 {m : Mon} {r : TlRec} {y : Mon × Option Verdict} (h : m.operand r false = some y) (q : Nat) :
    (y.1.ctrl q).read2 = (m.ctrl q).read2 := by
  unfold Mon.operand at h
  split at h
  · cases h; rfl
  · cases h; rfl
  · simp only [Option.map_eq_some_iff] at h
    obtain ⟨z, _, rfl⟩ := h
    simp only [Mon.upd]
    split <;> rfl
  · cases h; rfl

theorem child {S : Setup} (ok : S.Ok) {tr : Nat → Nat → Bool} {V : Nat → Nat → Prop} {t : Nat} {late : Bool} {i : Nat} {m : Mon}
    {h : Nat → List Verdict} (inv : Inv S tr V t late i m h) {r : TlRec} (hr : S.prog[i]? = some r) (ho : S.own i) {k : Bool} {c : Nat}
    (hk : r.arg k = some (.sub c)) : c < i ∧ Ring (m.ctrl c) (h c) ∧ Sorted (h c) ∧ (m.ctrl c).len = S.len c ∧
      (∃ P, Ptr (S.len c) (h c) (m.ctrl i).next (rdp r k (m.ctrl i)) P) ∧ ∀ u ∈ h c, (u.time : Int) + S.B c ≤ t := by
  have hlt : c < i := by rcases ok.handled i r hr ho with hf | hf <;> exact hf.2.1 k c hk
  obtain ⟨s, hs⟩ := operand_in ok i r k c hr ho hk
  have nd := inv.node c s hs (ok.closed i r hr ho k c hk)
  exact ⟨hlt, nd.ring (ok.noRet i c r s k hr ho hk hs), nd.ans.sorted, nd.len, ⟨_, (inv.edge i r hr ho k c hk).filled hlt (Nat.le_refl _)⟩, nd.early⟩

theorem first_val {S : Setup} (ok : S.Ok) {tr : Nat → Nat → Bool} {V : Nat → Nat → Prop} {t : Nat} {late : Bool} {i : Nat} {m : Mon}
    {h : Nat → List Verdict} (inv : Inv S tr V t late i m h) {r : TlRec} (hr : S.prog[i]? = some r) (ho : S.own i)
    {y : Mon × Option Verdict} (hy : m.operand r false = some y) :
    Val t h (m.ctrl i).next (if r.past then S.ub i else 0) y.2 (r.arg false) := by
  have hm := ok.mem i r hr
  by_cases hns : r.past = false ∨ ∃ c, r.arg false = some (.sub c)
  · obtain ⟨r1, x, e1, f1⟩ := operand_spec (S := S) (tr := tr) (t := t) (late := late) (h := h) ⟨inv.time, inv.prog, inv.atoms⟩ hm false hns (by simp) (by
      intro c hc
      obtain ⟨_, a1, a2, a3, a4, _⟩ := child ok inv hr ho hc
      exact ⟨a1, a2, a3, by simpa [rdp] using a4⟩)
    rw [hy] at e1; cases e1
    refine val_of_read f1 ?_
    rcases hns with h | h
    · exact Or.inr (by rw [h]; rfl)
    · exact Or.inl h
  · have hps : r.past = true := by
      cases hp : r.past with
      | true => rfl
      | false => exact absurd (Or.inl hp) hns
    have hpast : r.Past i := by
      rcases ok.handled i r hr ho with hf | hf
      · have := hf.notPast; rw [hps] at this; cases this
      · exact hf
    have hop : r.opcode = some .since ∨ r.opcode = some .trigger := by
      unfold TlRec.past at hps
      split at hps <;> first | (rename_i h; rw [h]; simp) | cases hps
    have hc : ∃ b, r.arg false = some (.const b) := by
      have := hpast.2.2.2
      rcases hop with h | h <;> (rw [h] at this; exact ⟨_, this⟩)
    obtain ⟨b, hc⟩ := hc
    rw [hc]
    intro v hv
    rw [hps, if_pos rfl]
    have ht1 : r.t1 = some .direct := by
      unfold TlRec.arg at hc
      simp only [Bool.false_and, Bool.false_eq_true, if_false] at hc
      split at hc <;> first | assumption | (simp at hc)
    unfold Mon.operand at hy
    simp only [Bool.false_eq_true, if_false, ht1] at hy
    cases hy
    cases hv
    simp only [if_pos hop, hm, inv.time, (inv.node i r hr ho).ub]

theorem second_val {S : Setup} (ok : S.Ok) {tr : Nat → Nat → Bool} {V : Nat → Nat → Prop} {t : Nat} {late : Bool} {i : Nat} {m : Mon}
    {h : Nat → List Verdict} (inv : Inv S tr V t late i m h) {r : TlRec} (hr : S.prog[i]? = some r) (ho : S.own i) (hb : r.binary = true)
    {y z : Mon × Option Verdict} (hy : m.operand r false = some y) (hz : y.1.operand r true = some z) :
    Val t h (m.ctrl i).next 0 z.2 (r.arg true) := by
  have hm := ok.mem i r hr
  have F := frame_operand hy
  obtain ⟨_, o2, o3⟩ := operand_out hy
  have hns : r.past = false ∨ ∃ c, r.arg true = some (.sub c) := by
    rcases ok.handled i r hr ho with hf | hf
    · exact Or.inl hf.notPast
    · exact Or.inr hf.2.2.1
  obtain ⟨r1, x, e1, f1⟩ := operand_spec (S := S) (tr := tr) (t := t) (late := late) (h := h)
      ⟨o2.trans inv.time, F.first.trans inv.prog, fun hl => F.atoms.trans (inv.atoms hl)⟩ hm true hns (fun _ => hb) (by
    intro c hc
    obtain ⟨a0, a1, a2, a3, ⟨P, a4⟩, _⟩ := child ok inv hr ho hc
    rw [F.ctrl c (by rw [hm]; omega)]
    refine ⟨a1, a2, a3, P, ?_⟩
    simp only [if_true]
    rw [(o3 i).2.2.2.2.2, operand_read2 hy]
    simpa [rdp, hb] using a4)
  rw [hz] at e1; cases e1
  rw [(o3 i).2.2.2.2.2] at f1
  exact val_of_read f1 (Or.inr rfl)

/-- Times of operands are small. -/
theorem val_le {S : Setup} (ok : S.Ok) {tr : Nat → Nat → Bool} {V : Nat → Nat → Prop} {t : Nat} {late : Bool} {i : Nat} {m : Mon}
    {h : Nat → List Verdict} (inv : Inv S tr V t late i m h) {r : TlRec} (hr : S.prog[i]? = some r) (ho : S.own i) {k : Bool} {n ub : Nat} {x : Option Verdict}
    (H : Val t h n ub x (r.arg k)) {N : Nat} (hub : t + ub ≤ N) (hB : ∀ i, i < S.prog.length → (t : Int) ≤ N + S.B i) : ∀ v, x = some v → v.time ≤ N := by
  intro v hv
  have hi := in_prog hr
  cases ha : r.arg k with
  | none => rw [ha] at H; have := H v hv; omega
  | some a =>
      rw [ha] at H
      cases a with
      | const b => have := H v hv; omega
      | atom a => have := H v hv; omega
      | sub c =>
          obtain ⟨h0, _, _, _, _, h5⟩ := child ok inv hr ho ha
          have := h5 v (H v hv).1
          have := hB c (by omega)
          omega

/-- Until and release read nothing before their lower bound. -/
theorem val_lb {S : Setup} (ok : S.Ok) {tr : Nat → Nat → Bool} {V : Nat → Nat → Prop} {t : Nat} {late : Bool} {i : Nat} {m : Mon}
    {h : Nat → List Verdict} (inv : Inv S tr V t late i m h) {r : TlRec} (hr : S.prog[i]? = some r) (ho : S.own i) (ht : r.temporal = true)
    {a b : Option Verdict} (ha : Val t h (m.ctrl i).next 0 a (r.arg false)) (hb : Val t h (m.ctrl i).next 0 b (r.arg true)) :
    (∀ v, b = some v → S.lb i ≤ v.time) ∧ ∀ u v, a = some u → b = some v → S.lb i ≤ min u.time v.time := by
  have nd := inv.node i r hr ho
  have hop : r.opcode = some .until ∨ r.opcode = some .release := by
    unfold TlRec.temporal at ht
    split at ht <;> first | (rename_i h; rw [h]; simp) | cases ht
  have hn : S.lb i ≤ (m.ctrl i).next := by
    have := nd.own
    unfold ownOf at this
    rcases hop with h | h <;> (rw [h] at this; have := this.1; omega)
  have hfut : r.Future i := by
    rcases ok.handled i r hr ho with hf | hf
    · exact hf
    · have := hf.isPast
      unfold TlRec.past at this
      rcases hop with h | h <;> (rw [h] at this; cases this)
  have hsub : (∃ c, r.arg true = some (.sub c)) ∧ ((∃ c, r.arg false = some (.sub c)) ∨ ∃ b, r.arg false = some (.const b)) := by
    have := hfut.2.2
    rcases hop with h | h <;> (rw [h] at this; exact this)
  obtain ⟨⟨c, hc⟩, hsub⟩ := hsub
  have hbv : ∀ v, b = some v → S.lb i ≤ v.time := by
    intro v hv
    rw [hc] at hb
    have := (hb v hv).2
    omega
  refine ⟨hbv, fun u v hu hv => ?_⟩
  have h1 := hbv v hv
  rcases hsub with ⟨c', hc'⟩ | ⟨b', hb'⟩
  · rw [hc'] at ha
    have := (ha u hu).2
    omega
  · have h0 := ok.consts i r hr ho hfut.notPast false true b' c hb' hc
    obtain ⟨_, _, _, _, _, h5⟩ := child ok inv hr ho hc
    rw [hc] at hb
    have h6 := h5 v (hb v hv).1
    rw [hb'] at ha
    have h7 := ha u hu
    omega

theorem update_sim {S : Setup} (ok : S.Ok) {tr : Nat → Nat → Bool} {V : Nat → Nat → Prop} {t N : Nat} (hN : N < maxTime) (ht : t ≤ N)
    (hB : ∀ i, i < S.prog.length → (t : Int) ≤ N + S.B i) {late : Bool} {i : Nat} {m m' : Mon} {h : Nat → List Verdict}
    (inv : Inv S tr V t late i m h) {r : TlRec} (hr : S.prog[i]? = some r) (ho : S.own i) (sm : Small N m) (sm' : Small N m')
    {lim : Limits} (tb : InTable S.prog lim) {log : List (Nat × Verdict)} {M : Monitor} (R : Sim S.prog lim log M m)
    (hlen : m'.out.length ≤ log.length + lim.outputs) (hu : m.update r = some m') :
    ∃ M', M.update r = some M' ∧ Sim S.prog lim log M' m' := by
  have hi := in_prog hr
  have hm := ok.mem i r hr
  have nd := inv.node i r hr ho
  have hpu : r.past = true → t + S.ub i ≤ N := by
    intro hps
    have hop : r.opcode = some .since ∨ r.opcode = some .trigger := by
      unfold TlRec.past at hps
      split at hps <;> first | (rename_i h; rw [h]; simp) | cases hps
    have hsn := ok.soon i r hr ho false
    rcases ok.handled i r hr ho with hf | hf
    · have := hf.notPast; rw [hps] at this; cases this
    · have hk := hf.2.2.2
      have ha : S.argB (r.arg false) = 0 := by
        rcases hop with h | h <;> (rw [h] at hk; simp only [] at hk; rw [hk]; rfl)
      have hnt : r.temporal = false := by rcases hop with h | h <;> simp [TlRec.temporal, h]
      rw [ha, hps, hnt] at hsn
      simp only [Bool.false_eq_true, if_false, if_true] at hsn
      have := hB i hi
      omega
  have hu0 : r.past = true → m.time + (m.ctrl i).ub ≤ N := by
    rw [inv.time, nd.ub]; exact hpu
  have hval1 : ∀ y, m.operand r false = some y → ∀ v, y.2 = some v → v.time ≤ N := by
    intro y hy
    refine val_le ok inv hr ho (first_val ok inv hr ho hy) ?_ hB
    cases hps : r.past with
    | false => simpa using ht
    | true => simpa using hpu hps
  have hval2 : r.binary = true → ∀ y z, m.operand r false = some y → y.1.operand r true = some z → ∀ v, z.2 = some v → v.time ≤ N := by
    intro hb y z hy hz
    exact val_le ok inv hr ho (second_val ok inv hr ho hb hy hz) (by simpa using ht) hB
  have hprev : ∀ y z, m.operand r false = some y → y.1.operand r true = some z → (z.1.ctrl i).prev.time ≤ N := by
    intro y z hy hz
    exact (operand_small hz (operand_small hy sm) i).2.1
  have hc : ∀ y z, m.operand r false = some y → y.1.operand r true = some z → (z.1.ctrl i).lb = S.lb i ∧ (z.1.ctrl i).ub = S.ub i := by
    intro y z hy hz
    have h1 := (operand_out hy).2.2 i
    have h2 := (operand_out hz).2.2 i
    exact ⟨by rw [h2.2.2.2.2.1, h1.2.2.2.2.1, nd.lb], by rw [h2.2.2.2.1, h1.2.2.2.1, nd.ub]⟩
  have hskip : m.skipToLb r = m := by
    unfold Mon.skipToLb
    rw [upd_const, if_neg (by rw [R.lang]; simp), upd_self]
  unfold Mon.update at hu
  unfold Monitor.update
  split at hu
  · rename_i hop
    rw [hop]
    simp only []
    rw [load_eq tb hr (fun x hx => by
      unfold Mon.unary at hu
      simp only [Option.map_eq_some_iff] at hu
      obtain ⟨y, hy, _⟩ := hu
      obtain ⟨M1, h1, R1⟩ := operand_sim tb R hr hN sm hu0 false hy
      rw [hx] at h1; cases h1
      exact R1.block tb hi)]
    refine unary_sim tb R hr hN sm hu0 (fun c a => by cases a <;> rfl) (fun y q hy hl => ?_) hu
    cases hy2 : y.2 with
    | none => exact Does.keep hl
    | some v => exact Does.emit hl hN (hval1 y hy v hy2)
  · rename_i hop
    rw [hop]
    exact ret_sim tb R hr hN sm hu0 hu (fun y v hy => hval1 y hy v) hlen
  · rename_i hop
    rw [hop]
    rw [hskip] at hu
    have htm : r.temporal = true := by simp [TlRec.temporal, hop]
    have hnp : r.past = false := by simp [TlRec.past, hop]
    refine binary_sim tb R hr hN sm hu0 (fun c a b => by have := body_report (op := some .until) c a b (by simp); exact this) (fun y z q hy hz hl hlt _ => ?_) sm' hu
    have hb : r.binary = true := by simp [TlRec.binary, hop]
    obtain ⟨l1, l2⟩ := val_lb ok inv hr ho htm (by simpa [hnp] using first_val ok inv hr ho hy) (second_val ok inv hr ho hb hy hz)
    have hcc := hc y z hy hz
    exact until_does hl (hlt (Or.inl htm)) hN (by rw [hcc.1, hcc.2]; exact ok.interval i r hr ho (Or.inl htm)) (hval1 y hy) (hval2 hb y z hy hz)
      (by rw [hcc.1]; exact l1) (by rw [hcc.1]; exact l2)
  · rename_i hop
    rw [hop]
    rw [hskip] at hu
    have htm : r.temporal = true := by simp [TlRec.temporal, hop]
    have hnp : r.past = false := by simp [TlRec.past, hop]
    refine binary_sim tb R hr hN sm hu0 (fun c a b => by have := body_report (op := some .release) c a b (by simp); exact this) (fun y z q hy hz hl hlt _ => ?_) sm' hu
    have hb : r.binary = true := by simp [TlRec.binary, hop]
    obtain ⟨l1, l2⟩ := val_lb ok inv hr ho htm (by simpa [hnp] using first_val ok inv hr ho hy) (second_val ok inv hr ho hb hy hz)
    have hcc := hc y z hy hz
    exact release_does hl (hlt (Or.inl htm)) hN (by rw [hcc.1, hcc.2]; exact ok.interval i r hr ho (Or.inl htm)) (hval1 y hy) (hval2 hb y z hy hz)
      (by rw [hcc.1]; exact l1) (by rw [hcc.1]; exact l2)
  · rename_i hop
    rw [hop]
    simp only [R.lang] at hu
    have hb : r.binary = true := by simp [TlRec.binary, hop]
    have hps : r.past = true := by simp [TlRec.past, hop]
    refine binary_sim tb R hr hN sm hu0 (fun c a b => by split; · rfl
                                                         exact since_report c a b) (fun y z q hy hz hl hlt hf => ?_) sm' hu
    exact since_does hl (hlt (Or.inr hps)) hN (hprev y z hy hz) (hval2 hb y z hy hz) hf
  · rename_i hop
    rw [hop]
    simp only [R.lang] at hu
    have hb : r.binary = true := by simp [TlRec.binary, hop]
    have hps : r.past = true := by simp [TlRec.past, hop]
    refine binary_sim tb R hr hN sm hu0 (fun c a b => by split; · rfl
                                                         exact trigger_report c a b) (fun y z q hy hz hl hlt hf => ?_) sm' hu
    exact trigger_does hl (hlt (Or.inr hps)) hN (hprev y z hy hz) (hval2 hb y z hy hz) hf
  · rename_i hop
    rw [hop]
    refine unary_sim tb R hr hN sm hu0 (fun c a => by cases a <;> rfl) (fun y q hy hl => ?_) hu
    exact not_does hl hN (hval1 y hy)
  · rename_i hop
    rw [hop]
    have hb : r.binary = true := by simp [TlRec.binary, hop]
    refine binary_sim tb R hr hN sm hu0 (fun c a b => by have := body_report (op := some .and) c a b (by simp); exact this) (fun y z q hy hz hl hlt _ => ?_) sm' hu
    exact and_does hl hN (hval1 y hy) (hval2 hb y z hy hz)
  · rename_i hop
    rw [hop]
    have hb : r.binary = true := by simp [TlRec.binary, hop]
    refine binary_sim tb R hr hN sm hu0 (fun c a b => by have := body_report (op := some .or) c a b (by simp); exact this) (fun y z q hy hz hl hlt _ => ?_) sm' hu
    exact or_does hl hN (hval1 y hy) (hval2 hb y z hy hz)
  · rename_i hop
    rw [hop]
    refine binary_sim tb R hr hN sm hu0 (fun c a b => by have := body_report (op := some .equiv) c a b (by simp); exact this) (fun y z q hy hz hl hlt _ => ?_) sm' hu
    exact equiv_does hl hN (hval1 y hy)
  · cases hu
    split <;> first
      | exact ⟨M, rfl, R⟩
      | (rename_i h1 h2 h3 h4 h5 h6 h7 h8 h9 h10 hop; exfalso; tauto)

/-! ### How much is reported -/

def isRet (S : Setup) (i : Nat) : Prop := S.prog[i]?.bind TlRec.opcode = some .ret

instance (S : Setup) (i : Nat) : Decidable (isRet S i) := by unfold isRet; infer_instance

/-- How far the reports are. -/
def said (S : Setup) (h : Nat → List Verdict) : Nat := sumTo (fun i => if isRet S i then endOf (h i) else 0) S.prog.length

theorem sumTo_add {f g : Nat → Nat} {n i d : Nat} (h : ∀ j, j < n → f j ≤ g j) (hi : i < n) (hd : f i + d ≤ g i) : sumTo f n + d ≤ sumTo g n := by
  induction n with
  | zero => omega
  | succ n ih =>
      simp only [sumTo]
      by_cases hin : i = n
      · subst hin
        have := sumTo_le (n := i) fun j hj => h j (by omega)
        omega
      · have := ih (fun j hj => h j (by omega)) (by omega)
        have := h n (Nat.lt_succ_self _)
        omega

theorem step_said {S : Setup} {tr : Nat → Nat → Bool} {V : Nat → Nat → Prop} {t : Nat} {late : Bool} {i : Nat} {m m' : Mon}
    {h h' : Nat → List Verdict} (inv : Inv S tr V t late i m h) (inv' : Inv S tr V t late (i + 1) m' h') {r : TlRec} (hr : S.prog[i]? = some r)
    (ho : S.own i) {c2 : Ctrl} {E : Effect} (X : Out S tr V t late m m' h r i c2 E) (hmono : ∀ j, endOf (h j) ≤ endOf (h' j)) :
    m'.out.length + said S h ≤ m.out.length + said S h' := by
  have hmono' : ∀ j, j < S.prog.length → (if isRet S j then endOf (h j) else 0) ≤ (if isRet S j then endOf (h' j) else 0) := by
    intro j _
    split
    · exact hmono j
    · exact Nat.le_refl _
  cases hE : E.report with
  | none =>
      have h1 : m'.out = m.out := by rw [X.step.upd]; simp [Mon.apply, hE, Mon.upd]
      rw [h1]
      exact Nat.add_le_add_left (sumTo_le hmono') _
  | some v =>
      have hop : r.opcode = some .ret := by
        by_contra hne
        have := X.step.report hne
        rw [hE] at this; cases this
      have h1 : m'.out = m.out ++ [(r.v2, v)] := by rw [X.step.upd]; simp [Mon.apply, hE, Mon.upd]
      have h2 : h' i = h i ++ [v] := by
        rw [← (inv'.node i r hr ho).ret hop, ← (inv.node i r hr ho).ret hop]
        simp [Mon.reports, h1, List.filter_append]
      have h3 := (X.push v (by simp [Effect.verdict, X.step.ret hop, hE])).1
      have h4 : isRet S i := by simp [isRet, hr, hop]
      have := sumTo_add (d := 1) hmono' (in_prog hr) (by rw [if_pos h4, if_pos h4, h2, endOf_append]; omega)
      rw [h1, List.length_append, List.length_singleton]
      unfold said
      omega

theorem said_le {S : Setup} {t : Nat} {h0 h : Nat → List Verdict} (h1 : ∀ i, i < S.prog.length → t ≤ endOf (h0 i) + S.W i)
    (h2 : ∀ i, i < S.prog.length → ∀ u ∈ h i, (u.time : Int) + S.B i ≤ t) : said S h ≤ said S h0 + S.reportsPerStep S.prog.length := by
  unfold said
  suffices H : ∀ n, n ≤ S.prog.length → sumTo (fun i => if isRet S i then endOf (h i) else 0) n ≤
      sumTo (fun i => if isRet S i then endOf (h0 i) else 0) n + S.reportsPerStep n from H _ (Nat.le_refl _)
  intro n
  induction n with
  | zero => intro _; exact Nat.le_refl _
  | succ n ih =>
      intro hn
      have := ih (by omega)
      simp only [sumTo, Setup.reportsPerStep]
      have e : (isRet S n) = (S.prog[n]?.bind TlRec.opcode = some .ret) := rfl
      by_cases hret : isRet S n
      · rw [if_pos hret, if_pos hret, if_pos (e ▸ hret)]
        have b1 := h1 n (by omega)
        have b2 : endOf (h n) ≤ endOf (h0 n) + S.burst n := by
          unfold Setup.burst
          unfold endOf
          cases hl : (h n).getLast? with
          | none => exact Nat.zero_le _
          | some v =>
              have := h2 n (by omega) v (List.mem_of_getLast? hl)
              unfold endOf at b1
              simp only [] at b1 ⊢
              omega
        omega
      · rw [if_neg hret, if_neg hret, if_neg (e ▸ hret)]
        omega

/-! ### Passes, steps, runs -/

theorem Sim.congr {P : List TlRec} {L : Limits} {log log' : List (Nat × Verdict)} {M M' : Monitor} {m m' : Mon} (R : Sim P L log M m)
    (h0 : M'.program = M.program) (h1 : M'.lim = M.lim) (h2 : M'.blocks = M.blocks) (h3 : M'.mem = M.mem) (h4 : m'.ctrl = m.ctrl)
    (h5 : M'.time = m'.time) (h6 : M'.progress = m'.progress) (h7 : M'.atoms = m'.atoms) (h8 : m'.out = log' ++ M'.outputs) :
    Sim P L log' M' m' := by
  refine ⟨h0.trans R.prog, h1.trans R.lim, h5, h6, h7, h8, fun q => by rw [h4]; exact R.lang q, ?_, ?_, by rw [h2]; exact R.placed,
    fun q hq => by rw [h2]; exact R.write q hq, fun p r k c hp hk => by rw [h2]; exact R.read p r k c hp hk⟩
  · intro q hq
    rw [h2, h3, h4]
    exact R.q q hq
  · intro q r hr ht
    rw [h2, h4]
    exact R.t q r hr ht

theorem small_congr {t t' : Nat} {m m' : Mon} (h : Small t m) (ht : t ≤ t') (hc : m'.ctrl = m.ctrl) : Small t' m' := by
  intro q
  obtain ⟨h1, h2, h3⟩ := h q
  rw [hc]
  exact ⟨fun k v hv => Nat.le_trans (h1 k v hv) ht, Nat.le_trans h2 ht, Nat.le_trans h3 ht⟩

theorem pass_sim {S : Setup} (ok : S.Ok) (all : ∀ i, i < S.prog.length → S.own i)
    {tr : Nat → Nat → Bool} {V : Nat → Nat → Prop} (hV : S.Means tr V) {t N : Nat} (hN : N < maxTime) (ht : t ≤ N)
    (hB : ∀ i, i < S.prog.length → (t : Int) ≤ N + S.B i) {late : Bool} {lim : Limits} (tb : InTable S.prog lim)
    (cap : S.reportsPerStep S.prog.length ≤ lim.outputs) {h0 : Nat → List Verdict} (hw : ∀ i, i < S.prog.length → t ≤ endOf (h0 i) + S.W i)
    {log : List (Nat × Verdict)} :
    ∀ (is : List TlRec) (pc : Nat) (M : Monitor) (m m' : Mon) (h : Nat → List Verdict),
    S.prog.drop pc = is → Inv S tr V t late pc m h → Small N m → Mon.pass is m = some m' → Sim S.prog lim log M m →
    m.out.length + said S h0 ≤ log.length + said S h →
      ∃ M' h', Monitor.pass is M = some M' ∧ Sim S.prog lim log M' m' ∧ Inv S tr V t late (pc + is.length) m' h' ∧ Small N m' ∧
        m'.out.length + said S h0 ≤ log.length + said S h' := by
  intro is
  induction is with
  | nil => rintro pc M m m' h _ inv sm hp R hs; cases hp; exact ⟨M, h, rfl, R, inv, sm, hs⟩
  | cons r is ih =>
      intro pc M m m' h hd inv sm hp R hs
      obtain ⟨hr, hd'⟩ := drop_cons hd
      have hlt := (List.getElem?_eq_some_iff.1 hr).1
      simp only [Mon.pass, Option.bind_eq_some_iff] at hp
      obtain ⟨m1, hu, hp⟩ := hp
      obtain ⟨m2, c2, E, e1, X⟩ := step_any ok hV (operand_in ok) inv hr (all pc hlt)
      rw [hu] at e1; cases e1
      obtain ⟨h2, e2, e3, _, e5⟩ := step_finish ok inv hr (all pc hlt) hu X
      have e5 := e5 N (hB pc hlt) sm
      have e6 := step_said inv e2 hr (all pc hlt) X e3
      have e7 := said_le (S := S) hw (h := h2) (fun j hj => by
        obtain ⟨s, hs⟩ : ∃ s, S.prog[j]? = some s := ⟨_, List.getElem?_eq_some_iff.2 ⟨hj, rfl⟩⟩
        exact (e2.node j s hs (all j hj)).early)
      obtain ⟨M1, f1, f2⟩ := update_sim ok hN ht hB inv hr (all pc hlt) sm e5 tb R (by omega) hu
      obtain ⟨M2, h3, g1, g2, g3, g4, g5⟩ := ih (pc + 1) M1 m1 m' h2 hd' e2 e5 hp f2 (by omega)
      refine ⟨M2, h3, ?_, g2, ?_, g4, g5⟩
      · simp only [Monitor.pass, f1, Option.bind_some, g1]
      · rw [List.length_cons]
        rwa [show pc + (is.length + 1) = pc + 1 + is.length by omega]

theorem loop_sim {S : Setup} (ok : S.Ok) (all : ∀ i, i < S.prog.length → S.own i)
    {tr : Nat → Nat → Bool} {V : Nat → Nat → Prop} (hV : S.Means tr V) {t N : Nat} (hN : N < maxTime) (ht : t ≤ N)
    (hB : ∀ i, i < S.prog.length → (t : Int) ≤ N + S.B i) {lim : Limits} (tb : InTable S.prog lim)
    (cap : S.reportsPerStep S.prog.length ≤ lim.outputs) {h0 : Nat → List Verdict} (hw : ∀ i, i < S.prog.length → t ≤ endOf (h0 i) + S.W i)
    {log : List (Nat × Verdict)} :
    ∀ (fuel : Nat) (late : Bool) (M : Monitor) (m m' : Mon) (h : Nat → List Verdict),
    Inv S tr V t late 0 m h → Small N m → Mon.loop S.prog fuel m = some m' → Sim S.prog lim log M m →
    m.out.length + said S h0 ≤ log.length + said S h →
      ∃ M', Monitor.loop fuel M = some M' ∧ Sim S.prog lim log M' m' ∧ Small N m' := by
  intro fuel
  induction fuel with
  | zero => intro late M m m' h _ _ hl; cases hl
  | succ n ih =>
      intro late M m m' h inv sm hl R hs
      simp only [Mon.loop] at hl
      cases hp : Mon.pass S.prog m with
      | none => rw [hp] at hl; cases hl
      | some m1 =>
          rw [hp] at hl
          simp only at hl
          obtain ⟨M1, h1, g1, g2, g3, g4, g5⟩ := pass_sim ok all hV hN ht hB tb cap hw S.prog 0 M m m1 h (by simp) inv sm hp R hs
          rw [Nat.zero_add] at g3
          unfold Monitor.loop
          rw [R.prog, g1]
          simp only []
          rw [g2.progress]
          have again : ∀ (hl : Mon.loop S.prog n { m1 with progress := .reloop } = some m'),
              ∃ M', Monitor.loop n { M1 with progress := .reloop } = some M' ∧ Sim S.prog lim log M' m' ∧ Small N m' := by
            intro hl
            exact ih true { M1 with progress := .reloop } { m1 with progress := .reloop } m' h1
              (end_pass g3) (small_congr g4 (Nat.le_refl _) rfl) hl (g2.congr rfl rfl rfl rfl rfl g2.time rfl g2.atoms g2.out) g5
          cases hpr : m1.progress with
          | first => rw [hpr] at hl; exact again hl
          | again => rw [hpr] at hl; exact again hl
          | reloop =>
              rw [hpr] at hl
              simp only [Option.some.injEq] at hl
              subst hl
              simp only []
              rw [if_pos (by rw [g2.time, g3.time]; omega)]
              exact ⟨_, rfl, g2.congr rfl rfl rfl rfl rfl (by simp [g2.time]) rfl g2.atoms g2.out, small_congr g4 (Nat.le_refl _) rfl⟩

theorem loaded_sim {S : Setup} (hl : S.lang = .rust) {M : Monitor} (ld : Loaded S M) (tb : InTable S.prog M.lim) (pl : Placed S.prog.length M.lim M.blocks)
    (h0 : M.idx = 0) (ha : M.atoms = fun _ => false) :
    Sim S.prog M.lim [] M (Mon.init S.prog S.len S.lb S.ub S.lang) := by
  have hs : ∀ q, q < S.prog.length → ∃ r, S.prog[q]? = some r := fun q hq => ⟨_, List.getElem?_eq_some_iff.2 ⟨hq, rfl⟩⟩
  refine ⟨ld.prog, rfl, by rw [ld.time]; rfl, by rw [ld.progress]; rfl, by rw [ha]; rfl, ?_, fun _ => hl, ?_, ?_, pl, ?_, ?_⟩
  · simp [Mon.init, Monitor.outputs, h0]
  · intro q hq
    obtain ⟨r, hr⟩ := hs q hq
    obtain ⟨b1, b2, b3, b4, b5, b6, b7⟩ := ld.block q r hr
    refine ⟨b1, b2, b3, b4, ⟨?_, b5, b6⟩, ?_⟩
    · rw [b7]
      simp only [Mon.init, Ctrl.init, hr, Option.bind_some]
      unfold TlRec.temporal
      cases r.opcode with
      | none => rfl
      | some o => cases o <;> simp
    · intro k _
      rw [ld.mem]
      simp [Mon.init, Ctrl.init, hl]
  · intro q r hr ht
    obtain ⟨b1, b2⟩ := ld.interval q r hr ht
    exact ⟨b1, b2⟩
  · intro q hq
    obtain ⟨r, hr⟩ := hs q hq
    rw [(ld.block q r hr).2.1]
    exact pl.pos q hq
  · intro p r k c hp hk
    obtain ⟨_, _, b3, b4, _⟩ := ld.block p r hp
    have : (M.blocks p).rd k = 0 := by
      unfold Block.rd
      split
      · exact b4
      · exact b3
    rw [this]
    exact pl.pos c (tb.sub p r k c hp hk)

theorem run_sim {S : Setup} (ok : S.Ok) (hl : S.lang = .rust) (all : ∀ i, i < S.prog.length → S.own i)
    {tr : Nat → Nat → Bool} {M : Monitor} (ld : Loaded S M) (tb : InTable S.prog M.lim) (pl : Placed S.prog.length M.lim M.blocks)
    (cap : S.reportsPerStep S.prog.length ≤ M.lim.outputs) {N : Nat} (hN : N < maxTime) (fuel : Nat) :
    ∀ (k : Nat) (m : Mon), k ≤ N + 1 → (∀ i, i < S.prog.length → (k : Int) ≤ N + 1 + S.B i) →
    S.run fuel tr k = some m → ∃ M', M.run fuel tr k = some (M', m.out) ∧
      (∀ at' : Nat → Bool, Sim S.prog M.lim m.out { M' with idx := 0, atoms := at' } { m with atoms := at' }) ∧ Small N m := by
  intro k
  obtain ⟨V, hV⟩ := exists_means ok tr
  induction k with
  | zero =>
      intro m _ _ hm
      cases hm
      refine ⟨M, rfl, ?_, ?_⟩
      · intro at'
        have := loaded_sim hl (M := { M with idx := 0, atoms := fun _ => false }) ⟨ld.time, ld.progress, ld.prog, ld.mem, ld.block, ld.interval⟩ tb pl rfl rfl
        exact this.congr rfl rfl rfl rfl rfl this.time this.progress rfl (by simp [Mon.init, Monitor.outputs])
      · intro q
        refine ⟨?_, Nat.zero_le _, Nat.zero_le _⟩
        intro k v hv
        simp only [Mon.init, Ctrl.init] at hv
        split at hv
        · cases hv
        · cases hv; exact Nat.zero_le _
  | succ k ih =>
      intro m hk hkB hm
      simp only [Setup.run, Mon.run, Option.bind_eq_some_iff] at hm
      obtain ⟨m1, h1, h2⟩ := hm
      obtain ⟨M1, a1, a2, a3⟩ := ih m1 (by omega) (fun i hi => by have := hkB i hi; omega) h1
      obtain ⟨h, inv, _⟩ := run_safe ok hV fuel k m1 h1
      obtain ⟨M2, b1, b2, b3⟩ := loop_sim ok all hV (t := k) hN (by omega) (fun i hi => by have := hkB i hi; omega) tb cap (h0 := h)
        (fun i hi => by
          obtain ⟨s, hs⟩ : ∃ s, S.prog[i]? = some s := ⟨_, List.getElem?_eq_some_iff.2 ⟨hi, rfl⟩⟩
          have := (inv.node i s hs (all i hi)).bound
          unfold dn at this
          rw [if_neg (by simp)] at this
          omega)
        fuel false { M1 with idx := 0, atoms := tr k } { m1 with atoms := tr k } m h inv (small_congr a3 (Nat.le_refl _) rfl) h2 (a2 (tr k)) (Nat.le_refl _)
      refine ⟨M2, ?_, ?_, b3⟩
      · simp only [Monitor.run, a1, Option.bind_some, Monitor.step, b1, Option.map_some]
        rw [b2.out]
      · intro at'
        exact b2.congr rfl rfl rfl rfl rfl b2.time b2.progress rfl (by simp [Monitor.outputs])

end Rs
end R2U2
