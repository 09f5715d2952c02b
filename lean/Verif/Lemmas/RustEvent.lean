import Verif.Lemmas.RustRun
import Verif.Lemmas.Event
import Verif.Model.RustEvent
/-
Steps of the Rust monitor that cover several moments.
-/
namespace R2U2
namespace Rs
open Monitor Setup

theorem echild {S : Setup} (ev : S.Eventful) {tr : Nat → Nat → Bool} {V : Nat → Nat → Prop} {t0 T : Nat} {late : Bool} {i : Nat} {m : Mon}
    {h : Nat → List Verdict} (inv : EInv S tr V t0 T late i m h) {r : TlRec} (hr : S.prog[i]? = some r) (ho : S.own i) {k : Bool} {c : Nat}
    (hk : r.arg k = some (.sub c)) : c < i ∧ Ring (m.ctrl c) (h c) ∧ Sorted (h c) ∧ (m.ctrl c).len = S.len c ∧
      (∃ P, Ptr (S.len c) (h c) (m.ctrl i).next (rdp r k (m.ctrl i)) P) ∧ ∀ u ∈ h c, (u.time : Int) + S.B c ≤ T := by
  have ok := ev.ok
  have hlt : c < i := (ev.future i r hr ho).2.1 k c hk
  obtain ⟨s, hs⟩ := operand_in ok i r k c hr ho hk
  have nd := inv.node c s hs (ok.closed i r hr ho k c hk)
  exact ⟨hlt, nd.ring (ok.noRet i c r s k hr ho hk hs), nd.ans.sorted, nd.len, ⟨_, (inv.edge i r hr ho k c hk).filled hlt (Nat.le_refl _)⟩, nd.early⟩

theorem efirst_val {S : Setup} (ev : S.Eventful) {tr : Nat → Nat → Bool} {V : Nat → Nat → Prop} {t0 T : Nat} {late : Bool} {i : Nat} {m : Mon}
    {h : Nat → List Verdict} (inv : EInv S tr V t0 T late i m h) {r : TlRec} (hr : S.prog[i]? = some r) (ho : S.own i)
    {y : Mon × Option Verdict} (hy : m.operand r false = some y) :
    Val T h (m.ctrl i).next 0 y.2 (r.arg false) := by
  have hm := ev.ok.mem i r hr
  obtain ⟨r1, x, e1, f1⟩ := operand_spec (S := S) (tr := tr) (t := T) (late := late) (h := h) ⟨inv.time, inv.prog, inv.atoms⟩ hm false
    (Or.inl (ev.future i r hr ho).notPast) (by simp) (by
      intro c hc
      obtain ⟨_, a1, a2, a3, a4, _⟩ := echild ev inv hr ho hc
      exact ⟨a1, a2, a3, by simpa [rdp] using a4⟩)
  rw [hy] at e1; cases e1
  exact val_of_read f1 (Or.inr rfl)

theorem esecond_val {S : Setup} (ev : S.Eventful) {tr : Nat → Nat → Bool} {V : Nat → Nat → Prop} {t0 T : Nat} {late : Bool} {i : Nat} {m : Mon}
    {h : Nat → List Verdict} (inv : EInv S tr V t0 T late i m h) {r : TlRec} (hr : S.prog[i]? = some r) (ho : S.own i) (hb : r.binary = true)
    {y z : Mon × Option Verdict} (hy : m.operand r false = some y) (hz : y.1.operand r true = some z) :
    Val T h (m.ctrl i).next 0 z.2 (r.arg true) := by
  have hm := ev.ok.mem i r hr
  have F := frame_operand hy
  obtain ⟨_, o2, o3⟩ := operand_out hy
  obtain ⟨r1, x, e1, f1⟩ := operand_spec (S := S) (tr := tr) (t := T) (late := late) (h := h)
      ⟨o2.trans inv.time, F.first.trans inv.prog, fun hl => F.atoms.trans (inv.atoms hl)⟩ hm true (Or.inl (ev.future i r hr ho).notPast) (fun _ => hb) (by
    intro c hc
    obtain ⟨a0, a1, a2, a3, ⟨P, a4⟩, _⟩ := echild ev inv hr ho hc
    rw [F.ctrl c (by rw [hm]; omega)]
    refine ⟨a1, a2, a3, P, ?_⟩
    simp only [if_true]
    rw [(o3 i).2.2.2.2.2, operand_read2 hy]
    simpa [rdp, hb] using a4)
  rw [hz] at e1; cases e1
  rw [(o3 i).2.2.2.2.2] at f1
  exact val_of_read f1 (Or.inr rfl)

/-- Times of operands are small. -/
theorem eval_le {S : Setup} (ev : S.Eventful) {tr : Nat → Nat → Bool} {V : Nat → Nat → Prop} {t0 T : Nat} {late : Bool} {i : Nat} {m : Mon}
    {h : Nat → List Verdict} (inv : EInv S tr V t0 T late i m h) {r : TlRec} (hr : S.prog[i]? = some r) (ho : S.own i) {k : Bool} {n ub : Nat} {x : Option Verdict}
    (H : Val T h n ub x (r.arg k)) {N : Nat} (hub : T + ub ≤ N) (hB : ∀ i, i < S.prog.length → (T : Int) ≤ N + S.B i) : ∀ v, x = some v → v.time ≤ N := by
  intro v hv
  have hi := in_prog hr
  cases ha : r.arg k with
  | none => rw [ha] at H; have := H v hv; omega
  | some a =>
      rw [ha] at H
      cases a with
      | const b => have := H v hv; omega
      | atom a => have := H v hv; omega
      | sub c =>
          obtain ⟨h0, _, _, _, _, h5⟩ := echild ev inv hr ho ha
          have := h5 v (H v hv).1
          have := hB c (by omega)
          omega

/-- Until and release read nothing before their lower bound. -/
theorem eval_lb {S : Setup} (ev : S.Eventful) {tr : Nat → Nat → Bool} {V : Nat → Nat → Prop} {t0 T : Nat} {late : Bool} {i : Nat} {m : Mon}
    {h : Nat → List Verdict} (inv : EInv S tr V t0 T late i m h) {r : TlRec} (hr : S.prog[i]? = some r) (ho : S.own i) (ht : r.temporal = true)
    {a b : Option Verdict} (ha : Val T h (m.ctrl i).next 0 a (r.arg false)) (hb : Val T h (m.ctrl i).next 0 b (r.arg true)) :
    (∀ v, b = some v → S.lb i ≤ v.time) ∧ ∀ u v, a = some u → b = some v → S.lb i ≤ min u.time v.time := by
  have ok := ev.ok
  have nd := inv.node i r hr ho
  have hop : r.opcode = some .until ∨ r.opcode = some .release := by
    unfold TlRec.temporal at ht
    split at ht <;> first | (rename_i h; rw [h]; simp) | cases ht
  have hn : S.lb i ≤ (m.ctrl i).next := by
    have := nd.own
    unfold ownOf at this
    rcases hop with h | h <;> (rw [h] at this; have := this.1; omega)
  have hfut : r.Future i := ev.future i r hr ho
  have hsub : (∃ c, r.arg true = some (.sub c)) ∧ ((∃ c, r.arg false = some (.sub c)) ∨ ∃ b, r.arg false = some (.const b)) := by
    have := hfut.2.2
    rcases hop with h | h <;> (rw [h] at this; exact this)
  obtain ⟨⟨c, hc⟩, hsub⟩ := hsub
  have hbv : ∀ v, b = some v → S.lb i ≤ v.time := by
    intro v hv
    rw [hc] at hb
    have := (hb v hv).2
    omega
  refine ⟨hbv, fun u v hu hv => ?_⟩
  have h1 := hbv v hv
  rcases hsub with ⟨c', hc'⟩ | ⟨b', hb'⟩
  · rw [hc'] at ha
    have := (ha u hu).2
    omega
  · have h0 := ok.consts i r hr ho hfut.notPast false true b' c hb' hc
    obtain ⟨_, _, _, _, _, h5⟩ := echild ev inv hr ho hc
    rw [hc] at hb
    have h6 := h5 v (hb v hv).1
    rw [hb'] at ha
    have h7 := ha u hu
    omega

theorem eupdate_sim {S : Setup} (ev : S.Eventful) {tr : Nat → Nat → Bool} {V : Nat → Nat → Prop} {t0 T N : Nat} (hN : N < maxTime) (ht : T ≤ N)
    (hB : ∀ i, i < S.prog.length → (T : Int) ≤ N + S.B i) {late : Bool} {i : Nat} {m m' : Mon} {h : Nat → List Verdict}
    (inv : EInv S tr V t0 T late i m h) {r : TlRec} (hr : S.prog[i]? = some r) (ho : S.own i) (sm : Small N m) (sm' : Small N m')
    {lim : Limits} (tb : InTable S.prog lim) {log : List (Nat × Verdict)} {M : Monitor} (R : Sim S.prog lim log M m)
    (hlen : m'.out.length ≤ log.length + lim.outputs) (hu : m.update r = some m') :
    ∃ M', M.update r = some M' ∧ Sim S.prog lim log M' m' := by
  have ok := ev.ok
  have hi := in_prog hr
  have hm := ok.mem i r hr
  have nd := inv.node i r hr ho
  have hnp0 : r.past = false := (ev.future i r hr ho).notPast
  have hu0 : r.past = true → m.time + (m.ctrl i).ub ≤ N := by rw [hnp0]; intro h; cases h
  have hval1 : ∀ y, m.operand r false = some y → ∀ v, y.2 = some v → v.time ≤ N := by
    intro y hy
    refine eval_le ev inv hr ho (efirst_val ev inv hr ho hy) (by simpa using ht) hB
  have hval2 : r.binary = true → ∀ y z, m.operand r false = some y → y.1.operand r true = some z → ∀ v, z.2 = some v → v.time ≤ N := by
    intro hb y z hy hz
    exact eval_le ev inv hr ho (esecond_val ev inv hr ho hb hy hz) (by simpa using ht) hB
  have hprev : ∀ y z, m.operand r false = some y → y.1.operand r true = some z → (z.1.ctrl i).prev.time ≤ N := by
    intro y z hy hz
    exact (operand_small hz (operand_small hy sm) i).2.1
  have hc : ∀ y z, m.operand r false = some y → y.1.operand r true = some z → (z.1.ctrl i).lb = S.lb i ∧ (z.1.ctrl i).ub = S.ub i := by
    intro y z hy hz
    have h1 := (operand_out hy).2.2 i
    have h2 := (operand_out hz).2.2 i
    exact ⟨by rw [h2.2.2.2.2.1, h1.2.2.2.2.1, nd.lb], by rw [h2.2.2.2.1, h1.2.2.2.1, nd.ub]⟩
  have hskip : m.skipToLb r = m := by
    unfold Mon.skipToLb
    rw [upd_const, if_neg (by rw [R.lang]; simp), upd_self]
  unfold Mon.update at hu
  unfold Monitor.update
  split at hu
  · rename_i hop
    rw [hop]
    simp only []
    rw [load_eq tb hr (fun x hx => by
      unfold Mon.unary at hu
      simp only [Option.map_eq_some_iff] at hu
      obtain ⟨y, hy, _⟩ := hu
      obtain ⟨M1, h1, R1⟩ := operand_sim tb R hr hN sm hu0 false hy
      rw [hx] at h1; cases h1
      exact R1.block tb hi)]
    refine unary_sim tb R hr hN sm hu0 (fun c a => by cases a <;> rfl) (fun y q hy hl => ?_) hu
    cases hy2 : y.2 with
    | none => exact Does.keep hl
    | some v => exact Does.emit hl hN (hval1 y hy v hy2)
  · rename_i hop
    rw [hop]
    exact ret_sim tb R hr hN sm hu0 hu (fun y v hy => hval1 y hy v) hlen
  · rename_i hop
    rw [hop]
    rw [hskip] at hu
    have htm : r.temporal = true := by simp [TlRec.temporal, hop]
    have hnp : r.past = false := by simp [TlRec.past, hop]
    refine binary_sim tb R hr hN sm hu0 (fun c a b => by have := body_report (op := some .until) c a b (by simp); exact this) (fun y z q hy hz hl hlt _ => ?_) sm' hu
    have hb : r.binary = true := by simp [TlRec.binary, hop]
    obtain ⟨l1, l2⟩ := eval_lb ev inv hr ho htm (efirst_val ev inv hr ho hy) (esecond_val ev inv hr ho hb hy hz)
    have hcc := hc y z hy hz
    exact until_does hl (hlt (Or.inl htm)) hN (by rw [hcc.1, hcc.2]; exact ok.interval i r hr ho (Or.inl htm)) (hval1 y hy) (hval2 hb y z hy hz)
      (by rw [hcc.1]; exact l1) (by rw [hcc.1]; exact l2)
  · rename_i hop
    rw [hop]
    rw [hskip] at hu
    have htm : r.temporal = true := by simp [TlRec.temporal, hop]
    have hnp : r.past = false := by simp [TlRec.past, hop]
    refine binary_sim tb R hr hN sm hu0 (fun c a b => by have := body_report (op := some .release) c a b (by simp); exact this) (fun y z q hy hz hl hlt _ => ?_) sm' hu
    have hb : r.binary = true := by simp [TlRec.binary, hop]
    obtain ⟨l1, l2⟩ := eval_lb ev inv hr ho htm (efirst_val ev inv hr ho hy) (esecond_val ev inv hr ho hb hy hz)
    have hcc := hc y z hy hz
    exact release_does hl (hlt (Or.inl htm)) hN (by rw [hcc.1, hcc.2]; exact ok.interval i r hr ho (Or.inl htm)) (hval1 y hy) (hval2 hb y z hy hz)
      (by rw [hcc.1]; exact l1) (by rw [hcc.1]; exact l2)
  · rename_i hop
    rw [hop]
    simp only [R.lang] at hu
    have hb : r.binary = true := by simp [TlRec.binary, hop]
    have hps : r.past = true := by simp [TlRec.past, hop]
    refine binary_sim tb R hr hN sm hu0 (fun c a b => by split; · rfl
                                                         exact since_report c a b) (fun y z q hy hz hl hlt hf => ?_) sm' hu
    exact since_does hl (hlt (Or.inr hps)) hN (hprev y z hy hz) (hval2 hb y z hy hz) hf
  · rename_i hop
    rw [hop]
    simp only [R.lang] at hu
    have hb : r.binary = true := by simp [TlRec.binary, hop]
    have hps : r.past = true := by simp [TlRec.past, hop]
    refine binary_sim tb R hr hN sm hu0 (fun c a b => by split; · rfl
                                                         exact trigger_report c a b) (fun y z q hy hz hl hlt hf => ?_) sm' hu
    exact trigger_does hl (hlt (Or.inr hps)) hN (hprev y z hy hz) (hval2 hb y z hy hz) hf
  · rename_i hop
    rw [hop]
    refine unary_sim tb R hr hN sm hu0 (fun c a => by cases a <;> rfl) (fun y q hy hl => ?_) hu
    exact not_does hl hN (hval1 y hy)
  · rename_i hop
    rw [hop]
    have hb : r.binary = true := by simp [TlRec.binary, hop]
    refine binary_sim tb R hr hN sm hu0 (fun c a b => by have := body_report (op := some .and) c a b (by simp); exact this) (fun y z q hy hz hl hlt _ => ?_) sm' hu
    exact and_does hl hN (hval1 y hy) (hval2 hb y z hy hz)
  · rename_i hop
    rw [hop]
    have hb : r.binary = true := by simp [TlRec.binary, hop]
    refine binary_sim tb R hr hN sm hu0 (fun c a b => by have := body_report (op := some .or) c a b (by simp); exact this) (fun y z q hy hz hl hlt _ => ?_) sm' hu
    exact or_does hl hN (hval1 y hy) (hval2 hb y z hy hz)
  · rename_i hop
    rw [hop]
    refine binary_sim tb R hr hN sm hu0 (fun c a b => by have := body_report (op := some .equiv) c a b (by simp); exact this) (fun y z q hy hz hl hlt _ => ?_) sm' hu
    exact equiv_does hl hN (hval1 y hy)
  · cases hu
    split <;> first
      | exact ⟨M, rfl, R⟩
      | (rename_i h1 h2 h3 h4 h5 h6 h7 h8 h9 h10 hop; exfalso; tauto)

/-! ### How much is reported -/

theorem estep_said {S : Setup} {tr : Nat → Nat → Bool} {V : Nat → Nat → Prop} {t0 T : Nat} {late : Bool} {i : Nat} {m m' : Mon}
    {h h' : Nat → List Verdict} (inv : EInv S tr V t0 T late i m h) (inv' : EInv S tr V t0 T late (i + 1) m' h') {r : TlRec} (hr : S.prog[i]? = some r)
    (ho : S.own i) {c2 : Ctrl} {E : Effect} (X : EOut S tr V t0 T late m m' h r i c2 E) (hmono : ∀ j, endOf (h j) ≤ endOf (h' j)) :
    m'.out.length + said S h ≤ m.out.length + said S h' := by
  have hmono' : ∀ j, j < S.prog.length → (if isRet S j then endOf (h j) else 0) ≤ (if isRet S j then endOf (h' j) else 0) := by
    intro j _
    split
    · exact hmono j
    · exact Nat.le_refl _
  cases hE : E.report with
  | none =>
      have h1 : m'.out = m.out := by rw [X.step.upd]; simp [Mon.apply, hE, Mon.upd]
      rw [h1]
      exact Nat.add_le_add_left (sumTo_le hmono') _
  | some v =>
      have hop : r.opcode = some .ret := by
        by_contra hne
        have := X.step.report hne
        rw [hE] at this; cases this
      have h1 : m'.out = m.out ++ [(r.v2, v)] := by rw [X.step.upd]; simp [Mon.apply, hE, Mon.upd]
      have h2 : h' i = h i ++ [v] := by
        rw [← (inv'.node i r hr ho).ret hop, ← (inv.node i r hr ho).ret hop]
        simp [Mon.reports, h1, List.filter_append]
      have h3 := (X.push v (by simp [Effect.verdict, X.step.ret hop, hE])).1
      have h4 : isRet S i := by simp [isRet, hr, hop]
      have := sumTo_add (d := 1) hmono' (in_prog hr) (by rw [if_pos h4, if_pos h4, h2, endOf_append]; omega)
      rw [h1, List.length_append, List.length_singleton]
      unfold said
      omega

/-- How many verdicts instructions report in a step that covers `d + 1` moments, at most. -/
def reportsPerRow (S : Setup) (d : Nat) : Nat := sumTo (fun i => if isRet S i then S.burst i + d else 0) S.prog.length

theorem esaid_le {S : Setup} {t0 T d : Nat} (hd : T ≤ t0 + d) {h0 h : Nat → List Verdict} (h1 : ∀ i, i < S.prog.length → t0 ≤ endOf (h0 i) + S.W i)
    (h2 : ∀ i, i < S.prog.length → ∀ u ∈ h i, (u.time : Int) + S.B i ≤ T) : said S h ≤ said S h0 + reportsPerRow S d := by
  unfold said reportsPerRow
  suffices H : ∀ n, n ≤ S.prog.length → sumTo (fun i => if isRet S i then endOf (h i) else 0) n ≤
      sumTo (fun i => if isRet S i then endOf (h0 i) else 0) n + sumTo (fun i => if isRet S i then S.burst i + d else 0) n from H _ (Nat.le_refl _)
  intro n
  induction n with
  | zero => intro _; exact Nat.le_refl _
  | succ n ih =>
      intro hn
      have := ih (by omega)
      simp only [sumTo]
      by_cases hret : isRet S n
      · rw [if_pos hret, if_pos hret, if_pos hret]
        have b1 := h1 n (by omega)
        have b2 : endOf (h n) ≤ endOf (h0 n) + (S.burst n + d) := by
          unfold Setup.burst
          unfold endOf
          cases hl : (h n).getLast? with
          | none => exact Nat.zero_le _
          | some v =>
              have := h2 n (by omega) v (List.mem_of_getLast? hl)
              unfold endOf at b1
              simp only [] at b1 ⊢
              omega
        omega
      · rw [if_neg hret, if_neg hret, if_neg hret]
        omega

/-! ### Passes, steps, runs -/

theorem epass_sim {S : Setup} (ev : S.Eventful) (all : ∀ i, i < S.prog.length → S.own i)
    {tr : Nat → Nat → Bool} {V : Nat → Nat → Prop} (hV : S.Means tr V) {t0 T N d : Nat} (hN : N < maxTime) (ht : T ≤ N) (hd : T ≤ t0 + d)
    (hB : ∀ i, i < S.prog.length → (T : Int) ≤ N + S.B i) {late : Bool} {lim : Limits} (tb : InTable S.prog lim)
    (cap : reportsPerRow S d ≤ lim.outputs) {h0 : Nat → List Verdict} (hw : ∀ i, i < S.prog.length → t0 ≤ endOf (h0 i) + S.W i)
    {log : List (Nat × Verdict)} :
    ∀ (is : List TlRec) (pc : Nat) (M : Monitor) (m m' : Mon) (h : Nat → List Verdict),
    S.prog.drop pc = is → EInv S tr V t0 T late pc m h → Small N m → Mon.pass is m = some m' → Sim S.prog lim log M m →
    m.out.length + said S h0 ≤ log.length + said S h →
      ∃ M' h', Monitor.pass is M = some M' ∧ Sim S.prog lim log M' m' ∧ EInv S tr V t0 T late (pc + is.length) m' h' ∧ Small N m' ∧
        m'.out.length + said S h0 ≤ log.length + said S h' := by
  intro is
  induction is with
  | nil => rintro pc M m m' h _ inv sm hp R hs; cases hp; exact ⟨M, h, rfl, R, inv, sm, hs⟩
  | cons r is ih =>
      intro pc M m m' h hd' inv sm hp R hs
      obtain ⟨hr, hd'⟩ := drop_cons hd'
      have hlt := (List.getElem?_eq_some_iff.1 hr).1
      simp only [Mon.pass, Option.bind_eq_some_iff] at hp
      obtain ⟨m1, hu, hp⟩ := hp
      obtain ⟨m2, c2, E, e1, X⟩ := estep_future ev hV inv hr (all pc hlt)
      rw [hu] at e1; cases e1
      obtain ⟨h2, e2, e3, _, e5⟩ := estep_finish ev inv hr (all pc hlt) hu X
      have e5 := e5 N (hB pc hlt) sm
      have e6 := estep_said inv e2 hr (all pc hlt) X e3
      have e7 := esaid_le (S := S) hd hw (h := h2) (fun j hj => by
        obtain ⟨s, hs⟩ : ∃ s, S.prog[j]? = some s := ⟨_, List.getElem?_eq_some_iff.2 ⟨hj, rfl⟩⟩
        exact (e2.node j s hs (all j hj)).early)
      obtain ⟨M1, f1, f2⟩ := eupdate_sim ev hN ht hB inv hr (all pc hlt) sm e5 tb R (by omega) hu
      obtain ⟨M2, h3, g1, g2, g3, g4, g5⟩ := ih (pc + 1) M1 m1 m' h2 hd' e2 e5 hp f2 (by omega)
      refine ⟨M2, h3, ?_, g2, ?_, g4, g5⟩
      · simp only [Monitor.pass, f1, Option.bind_some, g1]
      · rw [List.length_cons]
        rwa [show pc + (is.length + 1) = pc + 1 + is.length by omega]

theorem eloop_sim {S : Setup} (ev : S.Eventful) (all : ∀ i, i < S.prog.length → S.own i)
    {tr : Nat → Nat → Bool} {V : Nat → Nat → Prop} (hV : S.Means tr V) {t0 T N d : Nat} (hN : N < maxTime) (ht : T ≤ N) (hd : T ≤ t0 + d)
    (hB : ∀ i, i < S.prog.length → (T : Int) ≤ N + S.B i) {lim : Limits} (tb : InTable S.prog lim)
    (cap : reportsPerRow S d ≤ lim.outputs) {h0 : Nat → List Verdict} (hw : ∀ i, i < S.prog.length → t0 ≤ endOf (h0 i) + S.W i)
    {log : List (Nat × Verdict)} :
    ∀ (fuel : Nat) (late : Bool) (M : Monitor) (m m' : Mon) (h : Nat → List Verdict),
    EInv S tr V t0 T late 0 m h → Small N m → Mon.loop S.prog fuel m = some m' → Sim S.prog lim log M m →
    m.out.length + said S h0 ≤ log.length + said S h →
      ∃ M', Monitor.loop fuel M = some M' ∧ Sim S.prog lim log M' m' ∧ Small N m' := by
  intro fuel
  induction fuel with
  | zero => intro late M m m' h _ _ hl; cases hl
  | succ n ih =>
      intro late M m m' h inv sm hl R hs
      simp only [Mon.loop] at hl
      cases hp : Mon.pass S.prog m with
      | none => rw [hp] at hl; cases hl
      | some m1 =>
          rw [hp] at hl
          simp only at hl
          obtain ⟨M1, h1, g1, g2, g3, g4, g5⟩ := epass_sim ev all hV hN ht hd hB tb cap hw S.prog 0 M m m1 h (by simp) inv sm hp R hs
          rw [Nat.zero_add] at g3
          unfold Monitor.loop
          rw [R.prog, g1]
          simp only []
          rw [g2.progress]
          have again : ∀ (hl : Mon.loop S.prog n { m1 with progress := .reloop } = some m'),
              ∃ M', Monitor.loop n { M1 with progress := .reloop } = some M' ∧ Sim S.prog lim log M' m' ∧ Small N m' := by
            intro hl
            exact ih true { M1 with progress := .reloop } { m1 with progress := .reloop } m' h1
              (eend_pass g3) (small_congr g4 (Nat.le_refl _) rfl) hl (g2.congr rfl rfl rfl rfl rfl g2.time rfl g2.atoms g2.out) g5
          cases hpr : m1.progress with
          | first => rw [hpr] at hl; exact again hl
          | again => rw [hpr] at hl; exact again hl
          | reloop =>
              rw [hpr] at hl
              simp only [Option.some.injEq] at hl
              subst hl
              simp only []
              rw [if_pos (by rw [g2.time, g3.time]; omega)]
              exact ⟨_, rfl, g2.congr rfl rfl rfl rfl rfl (by simp [g2.time]) rfl g2.atoms g2.out, small_congr g4 (Nat.le_refl _) rfl⟩

/-- No row covers more than `d + 1` moments. -/
theorem erows_sim {S : Setup} (ev : S.Eventful) (all : ∀ i, i < S.prog.length → S.own i) {tr : Nat → Nat → Bool} {V : Nat → Nat → Prop} (hV : S.Means tr V)
    {lim : Limits} (tb : InTable S.prog lim) {d : Nat} (cap : reportsPerRow S d ≤ lim.outputs) {N : Nat} (hN : N < maxTime) (fuel : Nat) :
    ∀ (rows : List (Nat × (Nat → Bool))) (e : Nat) (M : Monitor) (m m' : Mon) (h : Nat → List Verdict),
    RowsSay tr e rows → Gaps d e rows → rowsEnd e rows ≤ N + 1 → (∀ i, i < S.prog.length → (rowsEnd e rows : Int) ≤ N + 1 + S.B i) →
    EBetween S tr V e m h → Small N m →
    (∀ T (at' : Nat → Bool), Sim S.prog lim m.out { M with idx := 0, time := T, atoms := at' } { m with time := T, atoms := at' }) →
    Mon.runRows S.prog fuel rows m = some m' →
    ∃ M' outs, M.runRows fuel rows = some (M', outs) ∧ m'.out = m.out ++ outs.flatten ∧ outs.length = rows.length := by
  intro rows
  induction rows with
  | nil => intro e M m m' h _ _ _ _ _ _ _ hm; cases hm; exact ⟨M, [], rfl, by simp, rfl⟩
  | cons x rows ih =>
      obtain ⟨T, a⟩ := x
      intro e M m m' h hs hg hk hkB hb sm hsim hm
      simp only [Mon.runRows, Option.bind_eq_some_iff] at hm
      obtain ⟨m1, h1, h2⟩ := hm
      obtain ⟨s1, s2, s3⟩ := hs
      obtain ⟨g1, g2⟩ := hg
      have hle := rowsEnd_le rows (T + 1) s3
      simp only [rowsEnd] at hk hkB
      have inv := hb T a s1 s2
      obtain ⟨M1, b1, b2, b3⟩ := eloop_sim ev all hV (t0 := e) (T := T) hN (by omega) g1 (fun i hi => by have := hkB i hi; omega) tb cap (h0 := h)
        (fun i hi => by
          obtain ⟨s, hs⟩ : ∃ s, S.prog[i]? = some s := ⟨_, List.getElem?_eq_some_iff.2 ⟨hi, rfl⟩⟩
          exact (inv.node i s hs (all i hi)).bound.1)
        fuel false { M with idx := 0, time := T, atoms := a } { m with time := T, atoms := a } m1 h inv (small_congr sm (Nat.le_refl _) rfl) h1 (hsim T a) (Nat.le_refl _)
      obtain ⟨h', inv', _⟩ := eloop_safe ev hV fuel false _ m1 h inv h1
      obtain ⟨M2, outs, c1, c2, c3⟩ := ih (T + 1) M1 m1 m' h' s3 g2 hk hkB inv' b3 (fun T' at' =>
        b2.congr rfl rfl rfl rfl rfl rfl b2.progress rfl (by simp [Monitor.outputs])) h2
      refine ⟨M2, M1.outputs :: outs, ?_, ?_, by simp [c3]⟩
      · simp only [Monitor.runRows, Monitor.step, b1, Option.bind_some, c1, Option.map_some]
      · rw [c2, b2.out]
        simp

end Rs
end R2U2
