import Verif.Lemmas.Invariant
/-
One instruction preserves the invariant.
-/
namespace R2U2
open Setup

theorem dn_ne {late : Bool} {pc i : Nat} (h : i ≠ pc) : dn late (pc + 1) i = dn late pc i := by
  unfold dn
  have : (i < pc + 1) ↔ (i < pc) := by omega
  simp only [this]

theorem dn_self {late : Bool} {pc : Nat} : dn late (pc + 1) pc = 1 := by
  unfold dn
  rw [if_pos (Or.inr (Nat.lt_succ_self _))]

theorem dn_pc {late : Bool} {pc : Nat} : dn late pc pc = if late then 1 else 0 := by
  unfold dn
  cases late <;> simp

theorem lag_ne {S : Setup} {t : Nat} {late : Bool} {pc : Nat} {pr pr' : Progress} {r : TlRec} {k : Bool} {p T : Nat}
    (hp : p ≠ pc) (hpr : pr' = .reloop → pr = .reloop) (h : Lag S t late pc pr r k p T) :
    Lag S t late (pc + 1) pr' r k p T := by
  obtain ⟨h1, h0, h2⟩ := h
  have e1 : (p < pc + 1) ↔ (p < pc) := by omega
  have e2 : (pc + 1 ≤ p) ↔ (pc ≤ p) := by omega
  refine ⟨h1, fun a b c => h0 a (e1.1 b) (hpr c), fun ht hps => ⟨?_, ?_⟩⟩
  · rw [e2]; exact (h2 ht hps).1
  · rw [e1]; exact fun a b c => (h2 ht hps).2 a b (hpr c)

theorem pastR_mono {S : Setup} {t : Nat} {late : Bool} {pc pc' : Nat} {c : Ctrl} {hc : List Verdict} {p : Nat} {r : TlRec}
    (hpc : p < pc → p < pc') (h : PastR S t late pc c hc p r) : PastR S t late pc' c hc p r := by
  rcases h with h | h | ⟨h1, h2, h3⟩
  · exact Or.inl h
  · exact Or.inr (Or.inl h)
  · exact Or.inr (Or.inr ⟨h1, h2, h3.imp_right hpc⟩)

theorem pastF_mono {S : Setup} {t : Nat} {late : Bool} {pr pr' : Progress} {c : Ctrl} {hc : List Verdict} {p : Nat} {r : TlRec}
    (hpr : pr' = .reloop → pr = .reloop) (h : PastF S t late pr c hc p r) : PastF S t late pr' c hc p r := by
  rcases h with h | h | ⟨h1, h2, h3⟩
  · exact Or.inl h
  · exact Or.inr (Or.inl h)
  · exact Or.inr (Or.inr ⟨h1, fun e => h2 (hpr e), h3⟩)

/-- The invariant for readers and operands that were not executed. -/
theorem edge_other {S : Setup} {t : Nat} {late : Bool} {i : Nat} {m m' : Mon} {h h' : Nat → List Verdict} {p : Nat}
    {s : TlRec} {k : Bool} {c : Nat} (hpi : p ≠ i) (hci : c ≠ i) (hc : m'.ctrl p = m.ctrl p) (hh : h' c = h c)
    (hrl : m'.progress = .reloop → m.progress = .reloop)
    (ed : EdgeI S t late i m h p s k c) : EdgeI S t late (i + 1) m' h' p s k c := by
  have e1 : (c < i + 1) ↔ (c < i) := by omega
  have e2 : (i + 1 ≤ p) ↔ (i ≤ p) := by omega
  have e3 : (p < i + 1) ↔ (p < i) := by omega
  refine ⟨?_, ?_, ?_, ?_, ?_, ?_, ?_, ?_⟩ <;> rw [hc, hh] <;> simp only [e1, e2, e3]
  · exact ed.filled
  · exact ed.one
  · intro hne
    exact (ed.read hne).mono (Nat.le_refl _) fun u hu => Or.inl (lag_ne hpi hrl hu)
  · exact ed.drained
  · exact ed.done
  · exact fun a b => pastR_mono (by omega) (ed.pastR a b)
  · exact fun a b d => pastF_mono hrl (ed.pastF a b d)
  · exact fun a b d e => ed.pastE a b d (hrl e)

/-- The invariant for an instruction that was not executed. -/
theorem node_other {S : Setup} {tr : Nat → Nat → Bool} {V : Nat → Nat → Prop} {t : Nat} {late : Bool} {i : Nat}
    {m m' : Mon} {h h' : Nat → List Verdict} {j : Nat} {s : TlRec} (hji : j ≠ i) (hc : m'.ctrl j = m.ctrl j)
    (hh : h' j = h j) (hrep : s.opcode = some .ret → m'.reports s.v2 = m.reports s.v2)
    (ns : Node S tr V t late i m h j s) : Node S tr V t late (i + 1) m' h' j s := by
  refine ⟨?_, ?_, ?_, ?_, ?_, ?_, ?_, ?_, ?_, ?_, ?_, ?_, ?_, ?_, ?_⟩ <;> (try rw [hc]) <;> (try rw [hh]) <;> (try rw [dn_ne hji])
  · exact ns.len
  · exact ns.lb
  · exact ns.ub
  · exact ns.ring
  · exact ns.ans
  · exact ns.own
  · exact ns.past
  · exact ns.pedge
  · exact ns.started
  · exact ns.early
  · exact ns.change
  · exact ns.fast
  · exact ns.bound
  · exact ns.load
  · intro hop; rw [hrep hop]; exact ns.ret hop

/-- Instructions that are not looked at. -/
theorem step_foreign {S : Setup} (ok : S.Ok) {tr : Nat → Nat → Bool} {V : Nat → Nat → Prop} {t : Nat} {late : Bool}
    {pc : Nat} {m m' : Mon} {h : Nat → List Verdict} (inv : Inv S tr V t late pc m h) {r : TlRec}
    (hr : S.prog[pc]? = some r) (ho : ¬ S.own pc) (hu : m.update r = some m') :
    Inv S tr V t late (pc + 1) m' h := by
  have F := update_frame hu
  have hmem := ok.mem pc r hr
  have hne : ∀ i, S.own i → i ≠ pc := fun i hi e => ho (e ▸ hi)
  have hc : ∀ i, S.own i → m'.ctrl i = m.ctrl i := fun i hi => F.ctrl i (by rw [hmem]; exact hne i hi)
  refine ⟨F.time.trans inv.time, F.first.trans inv.prog, fun hl => F.atoms.trans (inv.atoms hl), ?_, ?_⟩
  · intro i s hs hi
    exact node_other (hne i hi) (hc i hi) rfl (fun hret => F.reports _ fun hret' heq =>
      hne i hi (ok.number i pc s r hs hr hi hret hret' heq)) (inv.node i s hs hi)
  · intro p s hs hp k c hk
    exact edge_other (hne p hp) (hne c (ok.closed p s hs hp k c hk)) (hc p hp) rfl F.reloop (inv.edge p s hs hp k c hk)

/-- Where the verdicts end after an effect. -/
def Effect.ends (E : Effect) (e : Nat) : Nat :=
  match E.verdict with
  | some v => v.time + 1
  | none => e

/-- One execution of instruction `i`, as the invariant sees it. -/
structure Out (S : Setup) (tr : Nat → Nat → Bool) (V : Nat → Nat → Prop) (t : Nat) (late : Bool) (m m' : Mon)
    (h : Nat → List Verdict) (r : TlRec) (i : Nat) (c2 : Ctrl) (E : Effect) : Prop where
  step : Upd m m' r i c2 E
  next_le : (m.ctrl i).next ≤ E.next
  push : ∀ v, E.verdict = some v → endOf (h i) ≤ v.time ∧ (v.time : Int) + S.B i ≤ t ∧
    ∀ s, endOf (h i) ≤ s → s ≤ v.time → (V i s ↔ v.truth = true)
  turn : ∀ v p, E.verdict = some v → endOf (h i) = p + 1 → ¬ (V i p ↔ v.truth = true) → (p : Int) + 1 + S.C i ≤ t
  own : ownOf V tr r (S.lb i) (S.ub i) E.next E.prev (E.ends (endOf (h i)))
  past : r.past = true → PastI (pastVal V tr r) (S.lb i) E.next E.prev E.edge (E.ends (endOf (h i)))
  pedge : r.past = true → E.edge.truth = true → (E.edge.time : Int) + S.argB (r.arg true) ≤ t
  started : r.past = true → 0 < S.lb i → E.prev.truth = true
  fast : t + (if r.past then 0 else 1) ≤ E.next + S.opW r
  bound : t + 1 ≤ E.ends (endOf (h i)) + S.W i
  load : r.opcode = some .load → E.next = t + 1
  ptr : ∀ k c, r.arg k = some (.sub c) →
    Ptr (S.len c) (h c) E.next (rdp r k c2) (Lag S t late (i + 1) m'.progress r k i)
  drained : ∀ k c, r.arg k = some (.sub c) → alone r c → r.past = false → endOf (h c) ≤ E.next
  done : ∀ k c, r.arg k = some (.sub c) → S.first i → endOf (h c) ≤ E.next
  pastR : ∀ k c, r.arg k = some (.sub c) → r.past = true → PastR S t late (i + 1) (m'.ctrl i) (h c) i r
  pastE : ∀ k c, r.arg k = some (.sub c) → r.past = true → late = true → m'.progress = .reloop →
    endOf (h c) ≤ E.next ∨ t + 2 ≤ E.next + S.opW r
  idle : late = true → S.first i → E.verdict = none
  block : E.prev = (m.ctrl i).prev ∨ ∃ v, E.push = some v ∧ E.prev = ⟨true, v.time⟩
  edge : E.edge = (m.ctrl i).edge ∨ (E.edge.time : Int) + S.B i ≤ t

theorem flag_reloop {p : Progress} : p.flag ≠ .reloop := by
  cases p <;> simp [Progress.flag]

/-- The operands when an instruction is executed. -/
theorem operands_done {S : Setup} (ok : S.Ok) {tr : Nat → Nat → Bool} {V : Nat → Nat → Prop}
    (hin : ∀ i r k c, S.prog[i]? = some r → S.own i → r.arg k = some (.sub c) → ∃ s, S.prog[c]? = some s)
    {t : Nat} {late : Bool} {i : Nat} {m : Mon} {h : Nat → List Verdict} (inv : Inv S tr V t late i m h)
    {r : TlRec} (hr : S.prog[i]? = some r) (ho : S.own i) (hlt : ∀ k c, r.arg k = some (.sub c) → c < i) :
    (∀ k c, r.arg k = some (.sub c) → c < i ∧ S.own c ∧
      ∃ s, S.prog[c]? = some s ∧ Node S tr V t late i m h c s ∧ s.opcode ≠ some .ret) ∧
    (∀ k, t + 1 ≤ opEnd h t (r.arg k) + S.argW (r.arg k)) := by
  have hsub : ∀ k c, r.arg k = some (.sub c) → c < i ∧ S.own c ∧
      ∃ s, S.prog[c]? = some s ∧ Node S tr V t late i m h c s ∧ s.opcode ≠ some .ret := by
    intro k c hk
    obtain ⟨s, hs⟩ := hin i r k c hr ho hk
    have hoc := ok.closed i r hr ho k c hk
    exact ⟨hlt k c hk, hoc, s, hs, inv.node c s hs hoc, ok.noRet i c r s k hr ho hk hs⟩
  refine ⟨hsub, fun k => ?_⟩
  rcases ha : r.arg k with _ | b | a | c
  · simp [opEnd]
  · simp [opEnd]
  · simp [opEnd]
  · obtain ⟨hlt, hoc, s, hs, ns, hns⟩ := hsub k c ha
    have := ns.bound
    have hd : dn late i c = 1 := by unfold dn; rw [if_pos (Or.inr hlt)]
    simp only [opEnd, argW]
    omega

theorem argW_le (S : Setup) (r : TlRec) (k : Bool) : S.argW (r.arg k) ≤ S.opW r := by
  unfold Setup.opW
  cases k <;> omega

/-- A future-time instruction is executed. -/
theorem step_future {S : Setup} (ok : S.Ok) {tr : Nat → Nat → Bool} {V : Nat → Nat → Prop}
    (hV : ∀ i r, S.prog[i]? = some r → S.own i → ∀ t, V i t ↔ r.holds (S.lb i) (S.ub i) tr V t)
    (hin : ∀ i r k c, S.prog[i]? = some r → S.own i → r.arg k = some (.sub c) → ∃ s, S.prog[c]? = some s)
    {t : Nat} {late : Bool} {i : Nat} {m : Mon} {h : Nat → List Verdict} (inv : Inv S tr V t late i m h)
    {r : TlRec} (hr : S.prog[i]? = some r) (ho : S.own i) (hf : r.Future i) :
    ∃ m' c2 E, m.update r = some m' ∧ Out S tr V t late m m' h r i c2 E := by
  have hm := hf.1
  have nd := inv.node i r hr ho
  have hnp := hf.notPast
  obtain ⟨hsub, hop1⟩ := operands_done ok hin inv hr ho hf.2.1
  obtain ⟨m', c2, E, x, hu, X⟩ := exec_spec (late := late) ⟨inv.time, inv.prog, inv.atoms⟩ hf (hV i r hr ho)
    (fun ht => ok.interval i r hr ho (Or.inl ht)) nd.lb nd.ub nd.own (fun hop => by
      rw [nd.load hop, dn_pc]
      refine ⟨fun hl => by rw [hl]; rfl, fun hl => ?_⟩
      rw [hl]
      exact ⟨Nat.le_refl _, fun s h1 h2 => by
        simp only [Bool.false_eq_true, if_false] at h1
        rw [show s = t by omega]⟩) (fun k c hk => by
    obtain ⟨hlt, hoc, s, hs, ns, hns⟩ := hsub k c hk
    exact ⟨ns.ring hns, ns.ans, ns.len, ns.early, _, (inv.edge i r hr ho k c hk).filled hlt (Nat.le_refl _)⟩)
    (ok.consts i r hr ho hnp)
  obtain ⟨p1, p2⟩ := exec_progress X.toUpd
  have hends : E.ends (endOf (h i)) = (match E.verdict with | some v => v.time + 1 | none => endOf (h i)) := rfl
  have hown : ownOf V tr r (S.lb i) (S.ub i) E.next E.prev (E.ends (endOf (h i))) := X.sound.own
  have hvB : ∀ v, E.verdict = some v → (v.time : Int) + S.B i ≤ t := by
    intro v hE
    obtain ⟨q1, q2, q3⟩ := X.sound.push v hE
    rcases q2 with ⟨u, hu, q2⟩ | ⟨u, hu, q2⟩
    · have h1 := X.soon false u hu
      have h2 := ok.soon i r hr ho false
      rw [hnp] at h2
      simp only [Bool.false_eq_true, if_false] at h2
      omega
    · have h1 := X.soon true u hu
      have h2 := ok.soon i r hr ho true
      rw [hnp] at h2
      simp only [Bool.false_eq_true, if_false] at h2
      omega
  have hopW := argW_le S r
  have hb := nd.fast
  rw [hnp, dn_pc] at hb
  simp only [Bool.false_eq_true, if_false] at hb
  have hfast : t + 1 ≤ E.next + S.opW r := by
    have hle := X.sound.next_le
    rcases Nat.lt_or_ge (m.ctrl i).next E.next with hlt | hge
    · have : t ≤ (m.ctrl i).next + S.opW r := by omega
      omega
    · obtain ⟨k, hk⟩ := exec_next X (by omega)
      have h1 := hop1 k
      have h2 := hopW k
      omega
  have hal : ∀ k c, r.arg k = some (.sub c) → alone r c → endOf (h c) ≤ E.next := by
    intro k c hk hal
    have ed := inv.edge i r hr ho k c hk
    obtain ⟨hlt, hoc, s, hs, ns, hns⟩ := hsub k c hk
    -- every verdict of `c` not used yet is its last one, and is read
    rcases Nat.lt_or_ge (m.ctrl i).next (endOf (h c)) with hlt' | hge
    · have hone := ed.one hlt (Nat.le_refl _) hal hnp
      have hread : ∀ k', ∃ u, x k' = some u ∧ endOf (h c) ≤ u.time + 1 := by
        intro k'
        rcases ha : r.arg k' with _ | b | a | c'
        · exfalso
          -- an instruction has its operands
          have hk := hf.2.2
          cases hop : r.opcode with
          | none => rw [hop] at hk; exact hk
          | some o =>
          rw [hop] at hk
          cases o <;> simp only [] at hk
          case load => obtain ⟨y, hy⟩ := hk; rw [arg_unary (by simp [TlRec.binary, hop])] at ha; rw [hy] at ha; cases ha
          case ret => obtain ⟨y, hy⟩ := hk; rw [arg_unary (by simp [TlRec.binary, hop])] at ha; rw [hy] at ha; cases ha
          case not => obtain ⟨y, hy⟩ := hk; rw [arg_unary (by simp [TlRec.binary, hop])] at ha; rw [hy] at ha; cases ha
          case and => rcases hk.2 k' with ⟨y, hy⟩ | hy <;> (rw [hy] at ha; cases ha)
          case or => rcases hk.2 k' with ⟨y, hy⟩ | hy <;> (rw [hy] at ha; cases ha)
          case equiv => rcases hk.2 k' with ⟨y, hy⟩ | ⟨y, hy⟩ <;> (rw [hy] at ha; cases ha)
          case «until» =>
              cases k' with
              | true => rw [hk.1.choose_spec] at ha; cases ha
              | false => rcases hk.2 with ⟨y, hy⟩ | ⟨y, hy⟩ <;> (rw [hy] at ha; cases ha)
          case release =>
              cases k' with
              | true => rw [hk.1.choose_spec] at ha; cases ha
              | false => rcases hk.2 with ⟨y, hy⟩ | ⟨y, hy⟩ <;> (rw [hy] at ha; cases ha)
        · have hR := X.rd k'
          rw [ha] at hR
          have hB := ok.consts i r hr ho hnp k' k b c ha hk
          have hle : endOf (h c) ≤ t + 1 := endOf_le fun u hu => by have := ns.early u hu; omega
          obtain ⟨u, hu⟩ := hR.ready (by simp only [opEnd]; omega)
          rw [hu] at hR
          have hst := X.const k' b u ha hu
          exact ⟨u, hu, by omega⟩
        · exfalso
          have hop := X.atom k' a ha
          have hk' := hf.2.2
          rw [hop] at hk'
          obtain ⟨y, hy⟩ := hk'
          rw [arg_unary (by simp [TlRec.binary, hop]) k] at hk
          rw [hy] at hk; cases hk
        · have := hal k' c' ha
          subst this
          have hR := X.rd k'
          rw [ha] at hR
          obtain ⟨u, hu⟩ := hR.ready (by simpa only [opEnd] using hlt')
          refine ⟨u, hu, ?_⟩
          rw [hu] at hR
          have := hone u (X.hist k' _ u ha hu) hR.val.1
          omega
      obtain ⟨u, hu, hu2⟩ := hread false
      obtain ⟨v, hv, hv2⟩ := hread true
      have := X.sound.adv u v hu hv
      omega
    · have := X.sound.next_le
      omega
  have hlag : ∀ k c, r.arg k = some (.sub c) → ∀ T, (m.ctrl i).next ≤ T →
      Lag S t late (i + 1) m'.progress r k i T ∨ endOf (h c) ≤ E.next := by
    intro k c hk T hT
    by_cases hret : r.opcode = some .ret
    · refine Or.inr (hal k c hk fun k' c' hk' => ?_)
      have hnb : r.binary = false := by simp [TlRec.binary, hret]
      rw [arg_unary hnb k'] at hk'
      rw [arg_unary hnb k, hk'] at hk
      cases hk; rfl
    by_cases hq : r.temporal = false ∧ late = true ∧ m'.progress = .reloop ∧ E.verdict = none
    · obtain ⟨q1, q2, q3, q4⟩ := hq
      have hn := X.quiet q1 q4
      obtain ⟨k', hk'⟩ := exec_next X hn
      rw [q2] at hb
      simp only [if_true] at hb
      by_cases hkk : k' = k
      · subst hkk
        rw [hk] at hk'
        simp only [opEnd] at hk'
        exact Or.inr (by omega)
      · have hkk : k' = !k := by cases k <;> cases k' <;> simp at hkk ⊢
        subst hkk
        have h1 := hop1 (!k)
        exact Or.inl ⟨by omega, fun _ _ _ => by omega, fun _ _ => ⟨fun h => by simp [q2] at h, fun _ _ _ => by omega⟩⟩
    · refine Or.inl ⟨by omega, fun q2 _ _ => ?_, fun q1 _ => ⟨fun _ h => by omega, fun q2 _ q3 => ?_⟩⟩
      · rw [q2] at hb
        simp only [if_true] at hb
        omega
      · exfalso
        refine hq ⟨q1, q2, q3, ?_⟩
        cases hE : E.verdict with
        | none => rfl
        | some v => rw [p2 hret v hE] at q3; exact absurd q3 flag_reloop
  have hturn : ∀ v p, E.verdict = some v → endOf (h i) = p + 1 → ¬ (V i p ↔ v.truth = true) →
      (p : Int) + 1 + S.C i ≤ t := by
    intro v p hv hp hne
    rcases ok.calm i r hr ho with h1 | ⟨h1, _, h3, h4⟩ | ⟨h1, _⟩
    · have h2 := (X.sound.push v hv).1
      have h3 := hvB v hv
      omega
    · obtain ⟨k, u, hu, hne⟩ := X.turn v p hv h1 h3 hne
      have hR := X.rd k
      have hn0 : (m.ctrl i).next = p + 1 := by
        have := own_end hnp nd.own
        have h0 := nd.own
        unfold ownOf at h0
        unfold TlRec.temporal at h1
        cases hop : r.opcode with
        | none => rw [hop] at h0; exact h0.trans hp
        | some o =>
            rw [hop] at h0 h1
            cases o <;> first | (exact h0.trans hp) | (simp at h1; done) | (simp [TlRec.past, hop] at hnp; done)
      rw [hu] at hR
      obtain ⟨w1, w2, w3⟩ := hR.val
      rcases ha : r.arg k with _ | b | a | c
      · rw [ha] at w3 hne
        exact absurd (w3 _ w1 (Nat.le_refl _)) hne
      · rw [ha] at w3 hne
        exact absurd (w3 _ w1 (Nat.le_refl _)) hne
      · exact absurd (X.atom k a ha) h3
      · rw [ha] at w2 w3 hne
        simp only [opEnd, valOf] at w2 w3 hne
        obtain ⟨_, _, s, hs, ns, _⟩ := hsub k c ha
        have h5 := ns.change p (by omega) (fun hc => hne (hc.trans (w3 (p + 1) (by omega) (by omega))))
        have h6 := h4 k c ha
        omega
    · rw [hnp] at h1; cases h1
  refine ⟨m', c2, E, hu, X.toUpd, X.sound.next_le, ?_, hturn, hown, by simp [hnp], by simp [hnp], by simp [hnp], ?_, ?_, ?_, ?_,
    fun k c hk ha _ => hal k c hk ha, ?_, by simp [hnp], by simp [hnp], ?_, ?_, ?_⟩
  · intro v hv
    obtain ⟨q1, q2, q3⟩ := X.sound.push v hv
    exact ⟨q1, hvB v hv, q3⟩
  · rw [hnp]; exact hfast
  · have h1 := opW_le ok hr ho
    have h2 := own_end hnp hown
    rw [hnp] at h1
    simp only [Bool.false_eq_true, if_false] at h1
    omega
  · intro hop
    -- a load takes the value of this time step
    have hk := hf.2.2
    rw [hop] at hk
    obtain ⟨a, ha⟩ := hk
    have hun := arg_unary (r := r) (by simp [TlRec.binary, hop])
    have hl := nd.load hop
    rw [dn_pc] at hl
    cases late with
    | true =>
        simp only [if_true] at hl
        have hV := X.idle (fun k c hc => by rw [hun k, ha] at hc; cases hc) (fun _ => rfl)
        rw [X.quiet (by simp [TlRec.temporal, hop]) hV, hl]
    | false =>
        simp only [Bool.false_eq_true, if_false] at hl
        have hpl : E.next = E.ends (endOf (h i)) := by
          have := hown
          unfold ownOf at this
          rw [hop] at this
          exact this
        have hw : S.opW r = 0 := by
          unfold Setup.opW
          rw [hun true, ha]
          rfl
        have : E.next ≤ t + 1 := by
          have hpl0 : (m.ctrl i).next = endOf (h i) := by
            have := nd.own
            unfold ownOf at this
            rw [hop] at this
            exact this
          cases hE : E.verdict with
          | none =>
              rw [hpl, hends, hE]
              simp only []
              omega
          | some v =>
              rw [hpl, hends, hE]
              simp only []
              have hB : ∀ k, S.argB (r.arg k) = 0 := fun k => by rw [hun k, ha]; rfl
              rcases (X.sound.push v hE).2.1 with ⟨u, hu, q⟩ | ⟨u, hu, q⟩
              · have := X.soon false u hu
                rw [hB] at this
                omega
              · have := X.soon true u hu
                rw [hB] at this
                omega
        omega
  · intro k c hk
    exact (X.ptr k c hk).mono X.sound.next_le (hlag k c hk)
  · intro k c hk hfst
    rcases (ok.firsts i r hr ho hfst).2 k c hk with ⟨ha, _⟩ | hB
    · exact hal k c hk ha
    · obtain ⟨hlt, hoc, s, hs, ns, hns⟩ := hsub k c hk
      refine endOf_le fun u hu => ?_
      have := ns.early u hu
      omega
  · intro hl hfst
    refine X.idle (fun k' c' hk' => ?_) (fun _ => hl)
    exact (inv.edge i r hr ho k' c' hk').done hfst (Or.inl hl)
  · rw [← X.same.prev]; exact X.block.2
  · rw [← X.same.edge]; exact Or.inl X.block.1

/-- What a once or historically does when it reads. -/
structure PastExec (S : Setup) (V : Nat → Nat → Prop) (tr : Nat → Nat → Bool) (t : Nat) (h : Nat → List Verdict)
    (m m' : Mon) (r : TlRec) (i c : Nat) (c2 : Ctrl) (E : Effect) (x : Option Verdict) : Prop where
  step : Upd m m' r i c2 E
  ptr : Ptr (S.len c) (h c) (m.ctrl i).next (rdp r true c2) (fun T => (m.ctrl i).next ≤ T)
  rd : (x = none ∧ endOf (h c) ≤ (m.ctrl i).next) ∨ ∃ u, x = some u ∧ (m.ctrl i).next ≤ u.time ∧ u ∈ h c
  sound : SoundP (V i) (pastVal V tr r) (S.lb i) (S.ub i) t (endOf (h i)) x c2 E

theorem SoundP.congr {X X' B : Nat → Prop} {lb ub t e : Nat} {b : Option Verdict} {c : Ctrl} {E : Effect}
    (h : SoundP X B lb ub t e b c E) (hX : ∀ s, X' s ↔ X s) : SoundP X' B lb ub t e b c E :=
  ⟨h.next_le, fun v hv => by
    obtain ⟨h1, h2, h3⟩ := h.push v hv
    exact ⟨h1, h2, fun s hs hs2 => (hX s).trans (h3 s hs hs2)⟩, h.report, h.own, h.block, h.edge, h.out⟩

theorem rd_flip {A : Nat → Prop} {n e : Nat} {x : Option Verdict} (h : Rd A n e x) :
    Rd (fun s => ¬ A s) n e (x.map Verdict.flip) := by
  rcases h with ⟨h1, h2⟩ | ⟨v, h1, h2, h3, h4⟩
  · exact Or.inl ⟨by rw [h1]; rfl, h2⟩
  · refine Or.inr ⟨v.flip, by rw [h1]; rfl, h2, h3, fun s hs hs2 => ?_⟩
    have := h4 s hs hs2
    cases hv : v.truth <;> simp [this, Verdict.flip, hv]

theorem past_value {S : Setup} {V : Nat → Nat → Prop} {tr : Nat → Nat → Bool} {r : TlRec} {i c lb ub : Nat}
    (hf : r.Past i) (hc : r.arg true = some (.sub c)) (s : Nat) :
    (r.opcode = some .since → (r.holds lb ub tr V s ↔ onceAt (V c) lb ub s)) ∧
    (r.opcode = some .trigger → (r.holds lb ub tr V s ↔ ¬ onceAt (fun s => ¬ V c s) lb ub s)) := by
  obtain ⟨_, _, _, hk⟩ := hf
  constructor
  · intro hop
    rw [hop] at hk
    simp only [] at hk
    have ha := valOf_first (V := V) (tr := tr) (r := r) (Or.inr ⟨_, hk⟩)
    have hb := valOf_second (V := V) (tr := tr) (r := r) (by simp [TlRec.binary, hop]) (Or.inl ⟨_, hc⟩)
    rw [hk] at ha
    rw [hc] at hb
    simp only [TlRec.holds, hop, onceAt, ← ha, ← hb, valOf]
    simp
  · intro hop
    rw [hop] at hk
    simp only [] at hk
    have ha := valOf_first (V := V) (tr := tr) (r := r) (Or.inr ⟨_, hk⟩)
    have hb := valOf_second (V := V) (tr := tr) (r := r) (by simp [TlRec.binary, hop]) (Or.inl ⟨_, hc⟩)
    rw [hk] at ha
    rw [hc] at hb
    simp only [TlRec.holds, hop, onceAt, ← ha, ← hb, valOf]
    simp

theorem past_spec {S : Setup} {tr : Nat → Nat → Bool} {V : Nat → Nat → Prop} {t : Nat} {late : Bool} {m : Mon}
    {h : Nat → List Verdict} {r : TlRec} {i c : Nat} (hr : Readable S tr t late m h) (hf : r.Past i)
    (hV : ∀ t, V i t ↔ r.holds (S.lb i) (S.ub i) tr V t) (hc : r.arg true = some (.sub c))
    (hlu : S.lb i ≤ S.ub i) (hl : (m.ctrl i).lb = S.lb i) (hu : (m.ctrl i).ub = S.ub i)
    (ho : PastI (pastVal V tr r) (S.lb i) (m.ctrl i).next (m.ctrl i).prev (m.ctrl i).edge (endOf (h i)))
    (hs : ¬ (m.ctrl i).starting)
    (hring : Ring (m.ctrl c) (h c)) (hans : Answers (V c) (h c)) (hlen : (m.ctrl c).len = S.len c)
    (hp : ∃ P, Ptr (S.len c) (h c) (m.ctrl i).next (rdp r true (m.ctrl i)) P) :
    ∃ m' c2 E x, m.update r = some m' ∧ PastExec S V tr t h m m' r i c c2 E x := by
  have hm := hf.1
  have hop : r.opcode = some .since ∨ r.opcode = some .trigger := by
    have hk := hf.2.2.2
    cases hop : r.opcode with
    | none => rw [hop] at hk; exact hk.elim
    | some o => rw [hop] at hk; cases o <;> first | exact hk.elim | simp
  have hb : r.binary = true := by rcases hop with h | h <;> simp [TlRec.binary, h]
  obtain ⟨r2, x, e2, f2⟩ := operand_spec hr hm true (Or.inr ⟨c, hc⟩) (fun _ => hb) (by
    intro c' hc'
    rw [hc] at hc'; cases hc'
    obtain ⟨P, hp⟩ := hp
    refine ⟨hring, hans.sorted, hlen, P, ?_⟩
    simpa [rdp, hb] using hp)
  rw [hc] at f2
  simp only [if_true] at e2
  obtain ⟨f2, f3⟩ := f2
  have hrd : rdp r true { m.ctrl i with read2 := r2 } = r2 := by simp [rdp, hb]
  have hsame : SameQ (m.ctrl i) { m.ctrl i with read2 := r2 } := ⟨rfl, rfl, rfl, rfl, rfl, rfl, rfl, rfl⟩
  have e2 : m.operand r true = some (m.upd i fun _ => { m.ctrl i with read2 := r2 }, x) := e2
  generalize { m.ctrl i with read2 := r2 } = c2 at e2 hrd hsame
  have hRd : Rd (V c) (m.ctrl i).next (endOf (h c)) x := by
    rcases f3 with ⟨v, k', q1, q2, q3, q4, q5⟩ | ⟨q1, q2⟩
    · refine Or.inr ⟨v, q1, q2, q3, fun s h1 h2 => ?_⟩
      refine hans.value k' v s q4 (fun j u hj hu => ?_) h2
      have := q5 j u hj hu
      omega
    · exact Or.inl ⟨q1, q2⟩
  have hrd' : (x = none ∧ endOf (h c) ≤ (m.ctrl i).next) ∨ ∃ u, x = some u ∧ (m.ctrl i).next ≤ u.time ∧ u ∈ h c := by
    rcases f3 with ⟨v, k', q1, q2, q3, q4, q5⟩ | h
    · exact Or.inr ⟨v, q1, q2, List.mem_of_getElem? q4⟩
    · exact Or.inl h
  have e1 : ∀ b, r.arg false = some (.const b) → m.operand r false = some (m, some ⟨b, t + (m.ctrl i).ub⟩) := by
    intro b hb
    unfold TlRec.arg at hb
    simp only [Bool.false_and, Bool.false_eq_true, if_false] at hb
    unfold Mon.operand
    simp only [Bool.false_eq_true, if_false]
    rcases ht : r.t1 with _ | _ | _ | _ | _ <;> simp only [ht] at hb <;> first | cases hb | skip
    simp only []
    rw [if_pos hop, hr.time, hm]
  have key : ∀ b, r.arg false = some (.const b) → ∀ body : Ctrl → Option Verdict → Option Verdict → Effect, m.binary r body =
      some ((m.upd i fun _ => c2).apply r
        (body c2 (some ⟨b, t + (m.ctrl i).ub⟩) x)) := by
    intro b hb body
    unfold Mon.binary
    rw [e1 b hb, Option.bind_some]
    simp only []
    rw [e2, Option.map_some, hm, upd_ctrl_self]
  have hs' : ¬ c2.starting := by
    unfold Ctrl.starting at hs ⊢
    rw [hsame.prev, hsame.lb]; exact hs
  have hk := hf.2.2.2
  rcases hop with hop | hop
  · rw [hop] at hk
    simp only [] at hk
    have hpv : pastVal V tr r = V c := by funext s; simp [pastVal, hop, hc, valOf]
    rw [hpv] at ho
    have S1 := sound_once (t := t) (c := c2) (by rw [hsame.lb, hsame.ub, hl, hu]; exact hlu) (by rw [hsame.next]; exact hRd)
      (by rw [hsame.lb, hsame.next, hsame.prev, hsame.edge, hl]; exact ho) hs'
    rw [hsame.lb, hsame.ub, hl, hu] at S1
    refine ⟨_, c2, sinceBody c2 (some ⟨true, t + S.ub i⟩) x, x, ?_, ⟨hsame, rfl, ?_, ?_⟩, ?_, hrd', ?_⟩
    rotate_left
    · intro h; rw [hop] at h; cases h
    · intro _; exact S1.report
    · rw [hrd]; exact f2
    · rw [hpv]
      exact S1.congr fun s => (hV s).trans ((past_value (S := S) hf hc s).1 hop)
    · unfold Mon.update
      simp only [hop]
      rw [hm]
      cases (m.ctrl i).lang with
      | c => simp only []; rw [if_neg hs, key _ hk, hu]
      | rust => simp only []; rw [key _ hk, if_neg hs', hu]
  · rw [hop] at hk
    simp only [] at hk
    have hpv : pastVal V tr r = fun s => ¬ V c s := by funext s; simp [pastVal, hop, hc, valOf]
    rw [hpv] at ho
    have S1 := (sound_once (t := t) (c := c2) (by rw [hsame.lb, hsame.ub, hl, hu]; exact hlu) (by rw [hsame.next]; exact rd_flip hRd)
      (by rw [hsame.lb, hsame.next, hsame.prev, hsame.edge, hl]; exact ho) hs')
    rw [hsame.lb, hsame.ub, hl, hu] at S1
    have S2 := SoundP.flip S1
    refine ⟨_, c2, (sinceBody c2 (some ⟨true, t + S.ub i⟩) (x.map Verdict.flip)).flip, x, ?_, ⟨hsame, rfl, ?_, ?_⟩, ?_, hrd', ?_⟩
    rotate_left
    · intro h; rw [hop] at h; cases h
    · intro _; exact S2.report
    · rw [hrd]; exact f2
    · rw [hpv]
      exact S2.congr fun s => (hV s).trans ((past_value (S := S) hf hc s).2 hop)
    · unfold Mon.update
      simp only [hop]
      rw [hm]
      cases (m.ctrl i).lang with
      | c => simp only []; rw [if_neg hs, key _ hk, triggerBody_flip, hu]; rfl
      | rust => simp only []; rw [key _ hk, if_neg hs', triggerBody_flip, hu]; rfl

/-- A once or historically is executed. -/
theorem step_past {S : Setup} (ok : S.Ok) {tr : Nat → Nat → Bool} {V : Nat → Nat → Prop}
    (hV : ∀ i r, S.prog[i]? = some r → S.own i → ∀ t, V i t ↔ r.holds (S.lb i) (S.ub i) tr V t)
    (hin : ∀ i r k c, S.prog[i]? = some r → S.own i → r.arg k = some (.sub c) → ∃ s, S.prog[c]? = some s)
    {t : Nat} {late : Bool} {i : Nat} {m : Mon} {h : Nat → List Verdict} (inv : Inv S tr V t late i m h)
    {r : TlRec} (hr : S.prog[i]? = some r) (ho : S.own i) (hf : r.Past i) :
    ∃ m' c2 E, m.update r = some m' ∧ Out S tr V t late m m' h r i c2 E := by
  have hm := hf.1
  have nd := inv.node i r hr ho
  have hps := hf.isPast
  obtain ⟨hsub, hop1⟩ := operands_done ok hin inv hr ho hf.2.1
  obtain ⟨c, hc⟩ := hf.2.2.1
  have hop : r.opcode = some .since ∨ r.opcode = some .trigger := by
    have hk := hf.2.2.2
    cases hop : r.opcode with
    | none => rw [hop] at hk; exact hk.elim
    | some o => rw [hop] at hk; cases o <;> first | exact hk.elim | simp
  have hconst : ∃ b, r.arg false = some (.const b) := by
    have hk := hf.2.2.2
    rcases hop with h | h <;> (rw [h] at hk; exact ⟨_, hk⟩)
  have honly : ∀ k c', r.arg k = some (.sub c') → k = true ∧ c' = c := by
    intro k c' hk
    cases k with
    | true => rw [hc] at hk; cases hk; exact ⟨rfl, rfl⟩
    | false => obtain ⟨b, hb⟩ := hconst; rw [hb] at hk; cases hk
  have hnt : r.temporal = false := by rcases hop with h | h <;> simp [TlRec.temporal, h]
  have hnl : r.opcode ≠ some .load := by rcases hop with h | h <;> rw [h] <;> simp
  have hnr : r.opcode ≠ some .ret := by rcases hop with h | h <;> rw [h] <;> simp
  have hownT : ∀ n p e, ownOf V tr r (S.lb i) (S.ub i) n p e := by
    intro n p e
    unfold ownOf
    rcases hop with h | h <;> rw [h] <;> trivial
  obtain ⟨hlt, hoc, s, hs, ns, hns⟩ := hsub true c hc
  have ed := inv.edge i r hr ho true c hc
  have hfast := nd.fast
  rw [hps] at hfast
  simp only [if_true, Nat.add_zero] at hfast
  have hlu := ok.interval i r hr ho (Or.inr hps)
  have hB := ok.soon i r hr ho true
  have hB0 := ok.soon i r hr ho false
  have hWi := opW_le ok hr ho
  rw [hnt, hps] at hB hB0 hWi
  simp only [Bool.false_eq_true, if_false, if_true] at hB hB0 hWi
  obtain ⟨b0, hb0⟩ := hconst
  rw [hb0] at hB0
  simp only [argB] at hB0
  have hopc : S.argB (r.arg true) = S.B c := by rw [hc]; rfl
  have hcW : S.W c ≤ S.opW r := by have := argW_le S r true; rw [hc] at this; exact this
  have hcend := hop1 true
  rw [hc] at hcend
  simp only [opEnd, argW] at hcend
  have hnf : ¬ S.first i := fun hfst => by have := (ok.firsts i r hr ho hfst).1; rw [hps] at this; cases this
  have hpast := nd.past hps
  have hFF := ed.pastF hps hlt (Nat.le_refl _)
  by_cases hst : (m.ctrl i).starting
  · -- the first verdict
    obtain ⟨z1, z2, z3, z4, z5, z6⟩ := sound_start (t := t) (b := none) (c := m.ctrl i) (B := pastVal V tr r) (e := endOf (h i))
      (by rw [nd.lb]; exact hpast) hst
    rw [nd.lb] at z3 z5 z6
    rw [nd.ub] at z5
    have hfirst : t + dn late i i = 0 := by
      by_contra hne
      have := nd.started hps (by omega) z3
      have := hst.1
      simp_all
    have ht0 : t = 0 := by omega
    have hlate : late = false := by
      rw [dn_pc] at hfirst
      cases late with
      | false => rfl
      | true => simp at hfirst
    obtain ⟨tv, hupd, htv⟩ : ∃ tv, m.update r = some (m.apply r ((m.ctrl i).emitPrev ⟨tv, S.lb i - 1⟩ 0)) ∧
        ∀ s, s ≤ S.lb i - 1 → (V i s ↔ tv = true) := by
      rcases hop with hop | hop
      · refine ⟨false, ?_, ?_⟩
        · have := since_start (m := m) hop (by rw [hm]; exact hst) (by rw [hm]; exact z2)
          rw [this, hm, nd.lb]
        · intro s hs
          rw [hV i r hr ho, (past_value (S := S) hf hc s).1 hop]
          have hpv : pastVal V tr r = V c := by funext s; simp [pastVal, hop, hc, valOf]
          rw [hpv] at z5
          simp [z5 s hs]
      · refine ⟨true, ?_, ?_⟩
        · have := trigger_start (m := m) hop (by rw [hm]; exact hst) (by rw [hm]; exact z2)
          rw [this, hm, nd.lb]
        · intro s hs
          rw [hV i r hr ho, (past_value (S := S) hf hc s).2 hop]
          have hpv : pastVal V tr r = fun s => ¬ V c s := by funext s; simp [pastVal, hop, hc, valOf]
          rw [hpv] at z5
          simp [z5 s hs]
    have hE : ((m.ctrl i).emitPrev ⟨tv, S.lb i - 1⟩ 0).verdict = some ⟨tv, S.lb i - 1⟩ := rfl
    have hends : ((m.ctrl i).emitPrev ⟨tv, S.lb i - 1⟩ 0).ends (endOf (h i)) = S.lb i - 1 + 1 := rfl
    have hU : Upd m (m.apply r ((m.ctrl i).emitPrev ⟨tv, S.lb i - 1⟩ 0)) r i (m.ctrl i)
        ((m.ctrl i).emitPrev ⟨tv, S.lb i - 1⟩ 0) :=
      ⟨SameQ.refl _, by rw [upd_self], fun h => absurd h hnr, fun _ => rfl⟩
    obtain ⟨n1, n2, n2', n3, n4, n5, n6⟩ := exec_ctrl hm hU
    refine ⟨_, _, _, hupd, hU, ?_, ?_, fun _ _ _ h => (by rw [z1] at h; cases h), hownT _ _ _, ?_, ?_, fun _ _ => rfl, ?_, ?_, fun h => absurd h hnl, ?_,
      fun _ _ _ _ h => (by rw [hps] at h; cases h), fun _ _ _ h => absurd h hnf, ?_, ?_, fun _ h => absurd h hnf, ?_, ?_⟩
    · rw [z2]; exact Nat.zero_le _
    · intro v hv
      rw [hE] at hv; cases hv
      rw [z1]
      refine ⟨Nat.zero_le _, ?_, fun s _ hs => htv s hs⟩
      simp only []
      omega
    · intro _
      rw [hends]
      exact z6
    · intro _ h
      have h : (m.ctrl i).edge.truth = true := h
      rw [z4] at h; cases h
    · rw [ht0, hps]; simp
    · rw [hends]
      have := nd.bound
      omega
    · intro k c' hk
      obtain ⟨rfl, rfl⟩ := honly k c' hk
      refine (ed.filled hlt (Nat.le_refl _)).mono (by rw [z2]; exact Nat.zero_le _) fun T _ => Or.inl ⟨?_, ?_, ?_⟩
      · omega
      · intro h; rw [hlate] at h; cases h
      · intro _ h; rw [hps] at h; cases h
    · intro k c' hk _
      obtain ⟨rfl, rfl⟩ := honly k c' hk
      unfold PastR
      rw [n1, n2, n2']
      rcases hFF with h1 | h1 | ⟨_, _, h3⟩
      · left; rw [z2] at h1; exact h1
      · right; right
        refine ⟨Or.inl z4, ?_, Or.inr (Nat.lt_succ_self _)⟩
        rw [z2] at h1; exact h1
      · rw [hlate] at h3; cases h3
    · intro k c' _ _ h; rw [hlate] at h; cases h
    · exact Or.inr ⟨_, rfl, rfl⟩
    · exact Or.inl rfl
  · obtain ⟨m', c2, E, x, hu, X⟩ := past_spec (late := late) ⟨inv.time, inv.prog, inv.atoms⟩ hf (hV i r hr ho) hc hlu
      nd.lb nd.ub hpast hst (ns.ring hns) ns.ans ns.len ⟨_, ed.filled hlt (Nat.le_refl _)⟩
    obtain ⟨n1, n2, n2', n3, n4, n5, n6⟩ := exec_ctrl hm X.step
    obtain ⟨p1, p2⟩ := exec_progress X.step
    have F := update_frame hu
    have hver : E.verdict = E.push := by
      unfold Effect.verdict
      rw [X.sound.report]
      cases E.push <;> rfl
    have hends : E.ends (endOf (h i)) = (match E.push with | some v => v.time + 1 | none => endOf (h i)) := by
      unfold Effect.ends
      rw [hver]
    have hown : PastI (pastVal V tr r) (S.lb i) E.next E.prev E.edge (E.ends (endOf (h i))) := by
      have := X.sound.own
      rw [hends]
      cases hE : E.push with
      | none => rw [hE] at this; exact this
      | some v => rw [hE] at this; exact this
    have hle := X.sound.next_le
    rw [X.step.same.next] at hle
    have hbl := X.sound.block
    rw [X.step.same.prev] at hbl
    have hedg := X.sound.edge
    rw [X.step.same.edge] at hedg
    have hout := X.sound.out
    rw [X.step.same.next, X.step.same.prev, X.step.same.edge] at hout
    -- what is read
    have hxu : ∀ u, x = some u → (m.ctrl i).next ≤ u.time ∧ u ∈ h c ∧ (u.time : Int) + S.B c ≤ t := by
      intro u hxu
      rcases X.rd with ⟨h1, _⟩ | ⟨w, h1, h2, h3⟩
      · rw [h1] at hxu; cases hxu
      · rw [h1] at hxu; cases hxu
        exact ⟨h2, h3, ns.early _ h3⟩
    have hxn : x = none → endOf (h c) ≤ (m.ctrl i).next := by
      intro hx
      rcases X.rd with ⟨_, h1⟩ | ⟨w, h1, _⟩
      · exact h1
      · rw [hx] at h1; cases h1
    have hpedge : E.edge.truth = true → (E.edge.time : Int) + S.B c ≤ t := by
      intro ht
      rcases hedg with h1 | ⟨u, hu, h1⟩
      · rw [h1] at ht ⊢
        rw [← hopc]
        exact nd.pedge hps ht
      · rw [h1]; exact (hxu u hu).2.2
    have hvB : ∀ v, E.push = some v → (v.time : Int) + S.B i ≤ t := by
      intro v hv
      obtain ⟨_, h2, _⟩ := X.sound.push v hv
      rcases h2 with ⟨u, hu, h2⟩ | ⟨h1, h2⟩
      · have := (hxu u hu).2.2
        omega
      · have := hpedge h1
        omega
    have hnl0 : (m.ctrl i).prev.truth = true ∨ S.lb i = 0 := by
      by_contra hcon
      refine hst ⟨by simp at hcon; exact hcon.1, ?_⟩
      have h1 : (m.ctrl i).prev.truth = false := by simp at hcon; exact hcon.1
      have := (hpast.start h1).2.2.1
      rw [nd.lb]; omega
    have hnlb : (m.ctrl i).next + S.lb i ≤ endOf (h i) := by
      cases hp : (m.ctrl i).prev.truth with
      | true => exact (hpast.going hp).2
      | false =>
          obtain ⟨y1, y2, y3, y4⟩ := hpast.start hp
          rw [hp] at hnl0
          have := hnl0.resolve_left (by simp)
          omega
    have hprev' : 0 < S.lb i → E.prev.truth = true := by
      intro hl
      have h1 : (m.ctrl i).prev.truth = true := hnl0.resolve_right (by omega)
      rcases hbl with h2 | ⟨v, _, h2⟩
      · rw [h2]; exact h1
      · rw [h2]
    have hrel : m'.progress = .reloop → E.push = none ∧ m.progress = .reloop := by
      intro hre
      refine ⟨?_, F.reloop hre⟩
      cases hE : E.push with
      | none => rfl
      | some v => rw [p2 hnr v (by rw [hver]; exact hE)] at hre; exact absurd hre flag_reloop
    have hturn : ∀ v p, E.verdict = some v → endOf (h i) = p + 1 → ¬ (V i p ↔ v.truth = true) →
        (p : Int) + 1 + S.C i ≤ t := by
      intro v p hv hp hne
      rw [hver] at hv
      have hsnd := X.sound
      rw [hp] at hsnd hpast hnlb
      obtain ⟨h1, _, h3⟩ := hsnd.push v hv
      have hne' : ¬ (V i p ↔ V i (p + 1)) := fun h => hne (h.trans (h3 _ (Nat.le_refl _) h1))
      rcases ok.calm i r hr ho with h4 | ⟨_, h4, _⟩ | ⟨_, h4⟩
      · have h2 := hvB v hv
        omega
      · rw [hps] at h4; cases h4
      obtain ⟨hB, hBc⟩ : (¬ (onceAt (pastVal V tr r) (S.lb i) (S.ub i) p ↔ onceAt (pastVal V tr r) (S.lb i) (S.ub i) (p + 1))) ∧
          ∀ s, (pastVal V tr r s ↔ pastVal V tr r (s + 1)) ↔ (V c s ↔ V c (s + 1)) := by
        have e1 := hV i r hr ho p
        have e2 := hV i r hr ho (p + 1)
        rcases hop with hop | hop
        · have hpv : pastVal V tr r = V c := by funext s; simp [pastVal, hop, hc, valOf]
          rw [(past_value (S := S) hf hc _).1 hop] at e1 e2
          rw [hpv]
          exact ⟨fun h => hne' (e1.trans (h.trans e2.symm)), fun s => Iff.rfl⟩
        · have hpv : pastVal V tr r = fun s => ¬ V c s := by funext s; simp [pastVal, hop, hc, valOf]
          rw [(past_value (S := S) hf hc _).2 hop] at e1 e2
          rw [hpv]
          exact ⟨fun h => hne' (e1.trans ((not_congr h).trans e2.symm)), fun s => not_iff_not⟩
      obtain ⟨u, hu, hle, hch⟩ := turn_once hsnd hlu hpast X.step.same.edge.symm hnlb hv hB
      obtain ⟨w1, w2, w3⟩ := hxu u hu
      rcases h4 c hc with h4 | ⟨h4, h5⟩
      · omega
      · rcases hch with hch | ⟨s', hs', hch⟩
        · omega
        · have h6 := mem_lt_endOf ns.ans.sorted w2
          have h7 := ns.change s' (by omega) (fun h => hs' ((hBc s').2 h))
          omega
    refine ⟨m', c2, E, hu, X.step, hle, ?_, hturn, hownT _ _ _, fun _ => hown, fun _ => by rw [hopc]; exact hpedge, fun _ => hprev', ?_, ?_,
      fun h => absurd h hnl, ?_, fun _ _ _ _ h => (by rw [hps] at h; cases h), fun _ _ _ h => absurd h hnf, ?_, ?_,
      fun _ h => absurd h hnf, hbl, ?_⟩
    · intro v hv
      rw [hver] at hv
      obtain ⟨h1, _, h3⟩ := X.sound.push v hv
      exact ⟨h1, hvB v hv, h3⟩
    · rw [hps]; simp only [if_true]; omega
    · rcases hout with ⟨hx, hn⟩ | ⟨u, hx, hn⟩ | ⟨hn, hd, h3⟩
      · have h1 := hxn hx
        have h2 : endOf (h i) ≤ E.ends (endOf (h i)) := by
          rw [hends]
          cases hE : E.push with
          | none => exact Nat.le_refl _
          | some v => have := (X.sound.push v hE).1; simp only []; omega
        omega
      · have h1 := (hxu u hx).1
        have h2 : E.next + S.lb i ≤ E.ends (endOf (h i)) := by
          cases hp : E.prev.truth with
          | true => exact (hown.going hp).2
          | false => have := (hown.start hp).2.1; omega
        omega
      · rcases h3 with h3 | ⟨h3, _⟩
        · have h2 : endOf (h i) ≤ E.ends (endOf (h i)) := by
            rw [hends]
            cases hE : E.push with
            | none => exact Nat.le_refl _
            | some v => have := (X.sound.push v hE).1; simp only []; omega
          omega
        · have h2 : endOf (h i) + 1 ≤ E.ends (endOf (h i)) := by
            rw [hends]
            cases hE : E.push with
            | none => exact absurd hE h3
            | some v => have := (X.sound.push v hE).1; simp only []; omega
          have := nd.bound
          omega
    · intro k c' hk
      obtain ⟨rfl, rfl⟩ := honly k c' hk
      refine X.ptr.mono hle fun T hT => ?_
      by_cases hq : late = true ∧ m'.progress = .reloop
      · obtain ⟨q1, q2⟩ := hq
        obtain ⟨q3, q4⟩ := hrel q2
        have key : t + 1 ≤ (m.ctrl i).next + S.opW r ∨ endOf (h c') ≤ E.next := by
          rcases hFF with h1 | h1 | ⟨_, h2, _⟩
          · exact Or.inl h1
          · rcases hout with ⟨hx, hn⟩ | ⟨u, hx, hn⟩ | ⟨hn, hd, h3⟩
            · right; have := hxn hx; omega
            · right
              obtain ⟨w1, w2, _⟩ := hxu u hx
              have := h1 u w2 w1
              omega
            · rcases h3 with h3 | ⟨h3, _⟩
              · left; omega
              · exact absurd q3 h3
          · exact absurd q4 h2
        rcases key with key | key
        · exact Or.inl ⟨by omega, fun _ _ _ => by omega, fun _ h => (by rw [hps] at h; cases h)⟩
        · exact Or.inr key
      · exact Or.inl ⟨by omega, fun a _ b => absurd ⟨a, b⟩ hq, fun _ h => (by rw [hps] at h; cases h)⟩
    · intro k c' hk _
      obtain ⟨rfl, rfl⟩ := honly k c' hk
      unfold PastR
      rw [n1, n2, n2']
      rcases hout with ⟨hx, hn⟩ | ⟨u, hx, hn⟩ | ⟨hn, hd, h3⟩
      · right; left; have := hxn hx; omega
      · left; have := (hxu u hx).1; omega
      · rcases h3 with h3 | ⟨h3, h4⟩
        · left; omega
        · rcases hFF with h1 | h1 | ⟨h1, _⟩
          · left; omega
          · right; right; rw [hn]; exact ⟨h4, h1, Or.inr (Nat.lt_succ_self _)⟩
          · exact absurd h1 hd
    · intro k c' hk _ hl hre
      obtain ⟨rfl, rfl⟩ := honly k c' hk
      obtain ⟨q3, q4⟩ := hrel hre
      rcases hout with ⟨hx, hn⟩ | ⟨u, hx, hn⟩ | ⟨hn, hd, h3⟩
      · left; have := hxn hx; omega
      · obtain ⟨w1, w2, _⟩ := hxu u hx
        rcases hFF with h1 | h1 | ⟨_, h2, _⟩
        · right; omega
        · left; have := h1 u w2 w1; omega
        · exact absurd q4 h2
      · rcases h3 with h3 | ⟨h3, _⟩
        · right; omega
        · exact absurd q3 h3
    · rcases hedg with h1 | ⟨u, hu, h1⟩
      · exact Or.inl h1
      · right
        rw [h1]
        have := (hxu u hu).2.2
        simp only []
        omega

/-- An instruction of the program under consideration. -/
theorem step_any {S : Setup} (ok : S.Ok) {tr : Nat → Nat → Bool} {V : Nat → Nat → Prop}
    (hV : ∀ i r, S.prog[i]? = some r → S.own i → ∀ t, V i t ↔ r.holds (S.lb i) (S.ub i) tr V t)
    (hin : ∀ i r k c, S.prog[i]? = some r → S.own i → r.arg k = some (.sub c) → ∃ s, S.prog[c]? = some s)
    {t : Nat} {late : Bool} {i : Nat} {m : Mon} {h : Nat → List Verdict} (inv : Inv S tr V t late i m h)
    {r : TlRec} (hr : S.prog[i]? = some r) (ho : S.own i) :
    ∃ m' c2 E, m.update r = some m' ∧ Out S tr V t late m m' h r i c2 E := by
  rcases ok.handled i r hr ho with hf | hf
  · exact step_future ok hV hin inv hr ho hf
  · exact step_past ok hV hin inv hr ho hf

/-- The invariant after an execution. -/
theorem step_finish {S : Setup} (ok : S.Ok) {tr : Nat → Nat → Bool} {V : Nat → Nat → Prop}
    {t : Nat} {late : Bool} {i : Nat} {m m' : Mon} {h : Nat → List Verdict} (inv : Inv S tr V t late i m h)
    {r : TlRec} (hr : S.prog[i]? = some r) (ho : S.own i) (hu : m.update r = some m') {c2 : Ctrl} {E : Effect}
    (X : Out S tr V t late m m' h r i c2 E) :
    ∃ h', Inv S tr V t late (i + 1) m' h' ∧ (∀ j, endOf (h j) ≤ endOf (h' j)) ∧
      (m'.progress ≠ m.progress → endOf (h i) < endOf (h' i)) ∧
      ∀ N : Nat, (t : Int) ≤ N + S.B i → Small N m → Small N m' := by
  have hm := ok.mem i r hr
  have nd := inv.node i r hr ho
  have F := update_frame hu
  obtain ⟨hi, g1, g2, g3, g4, g5⟩ := ghost hm X.step nd.ring nd.ret nd.ans.sorted
  obtain ⟨n1, n2, n2', n3, n4, n5, n6⟩ := exec_ctrl hm X.step
  obtain ⟨p1, p2⟩ := exec_progress X.step
  have hcne : ∀ j, j ≠ i → m'.ctrl j = m.ctrl j := fun j hj => F.ctrl j (by rw [hm]; exact hj)
  -- the new verdict
  have hend : endOf hi = E.ends (endOf (h i)) := by
    unfold Effect.ends
    cases hE : E.verdict with
    | none => rw [g1 hE]
    | some v => rw [(g2 v hE).endOf]
  have hmono : endOf (h i) ≤ endOf hi := by
    cases hE : E.verdict with
    | none => rw [g1 hE]; exact Nat.le_refl _
    | some v => rw [(g2 v hE).endOf]; have := (X.push v hE).1; omega
  have hans : Answers (V i) hi := by
    cases hE : E.verdict with
    | none => rw [g1 hE]; exact nd.ans
    | some v =>
        obtain ⟨q1, q2, q3⟩ := X.push v hE
        exact nd.ans.ext (g2 v hE) q1 q3
  have hvB : ∀ v, E.verdict = some v → (v.time : Int) + S.B i ≤ t := fun v hv => (X.push v hv).2.1
  have hearly : ∀ u ∈ hi, (u.time : Int) + S.B i ≤ t := by
    intro u hu
    cases hE : E.verdict with
    | none => rw [g1 hE] at hu; exact nd.early u hu
    | some v =>
        rcases (g2 v hE).mem hu with hu | rfl
        · exact nd.early u hu
        · exact hvB _ hE
  have hchange : ∀ s, s + 1 < endOf hi → ¬ (V i s ↔ V i (s + 1)) → (s : Int) + 1 + S.C i ≤ t := by
    intro s hs hne
    rcases Nat.lt_or_ge (s + 1) (endOf (h i)) with h1 | h1
    · exact nd.change s h1 hne
    · cases hE : E.verdict with
      | none => rw [g1 hE] at hs; omega
      | some v =>
          rw [(g2 v hE).endOf] at hs
          obtain ⟨q1, q2, q3⟩ := X.push v hE
          rcases Nat.lt_or_ge s (endOf (h i)) with h2 | h2
          · exact X.turn v s hE (by omega) fun h => hne (h.trans (q3 (s + 1) (by omega) (by omega)).symm)
          · exact absurd ((q3 s h2 (by omega)).trans (q3 (s + 1) (by omega) (by omega)).symm) hne
  have hlast : r.opcode ≠ some .ret → ∀ v w, E.verdict = some v → (h i).getLast? = some w → w.truth ≠ v.truth →
      (w.time : Int) + 1 + S.C i ≤ t := by
    intro _ v w hE hw hne
    refine X.turn v w.time hE (by unfold endOf; rw [hw]) fun hVv => hne ?_
    rw [List.getLast?_eq_getElem?] at hw
    have := nd.ans.value _ w w.time hw (fun j u hj hu => by have := Sorted.gap nd.ans.sorted hu hw (by omega); omega) (Nat.le_refl _)
    have := this.symm.trans hVv
    cases h1 : w.truth <;> cases h2 : v.truth <;> simp_all
  let h' : Nat → List Verdict := fun j => if j = i then hi else h j
  have h'i : h' i = hi := by simp [h']
  have h'ne : ∀ j, j ≠ i → h' j = h j := fun j hj => by simp [h', hj]
  have hnode : ∀ j s, S.prog[j]? = some s → S.own j → Node S tr V t late (i + 1) m' h' j s := by
    intro j s hs hj
    by_cases hji : j = i
    · subst hji
      rw [hr] at hs
      cases hs
      refine ⟨n3.trans nd.len, n4.trans nd.lb, n5.trans nd.ub, by rw [h'i]; exact g3, by rw [h'i]; exact hans,
        by rw [h'i, n1, n2, hend]; exact X.own, by rw [h'i, n1, n2, n2', hend]; exact X.past, by rw [n2']; exact X.pedge,
        by rw [n2]; exact fun a _ b => X.started a b, by rw [h'i]; exact hearly, by rw [h'i]; exact hchange, by rw [n1, dn_self]; exact X.fast,
        by rw [h'i, dn_self, hend]; exact X.bound, by rw [n1, dn_self]; exact X.load, by rw [h'i]; exact g4⟩
    · exact node_other hji (hcne j hji) (h'ne j hji) (fun hret => F.reports _ fun hret' heq =>
        hji (ok.number j i s r hs hr hj hret hret' heq)) (inv.node j s hs hj)
  refine ⟨h', ⟨F.time.trans inv.time, F.first.trans inv.prog, fun hl => F.atoms.trans (inv.atoms hl), hnode, ?_⟩, ?_, ?_, ?_⟩
  · intro p s hs hp k c hk
    have ed := inv.edge p s hs hp k c hk
    have hlt : c < p := by
      rcases ok.handled p s hs hp with hfp | hfp
      · exact hfp.2.1 k c hk
      · exact hfp.2.1 k c hk
    by_cases hpi : p = i
    · -- the executed instruction reads `c`
      subst hpi
      rw [hr] at hs
      cases hs
      have hci : c ≠ p := by omega
      refine ⟨fun _ h => by omega, fun _ h => by omega, fun _ => ?_, fun _ ha hnp => ?_, fun hfst _ => ?_, fun hp _ => ?_,
        fun _ _ h => by omega, fun hp hl _ hre => ?_⟩
      · rw [h'ne c hci, n1, n6]
        exact X.ptr k c hk
      · rw [h'ne c hci, n1]
        exact X.drained k c hk ha hnp
      · rw [h'ne c hci, n1]
        exact X.done k c hk hfst
      · rw [h'ne c hci]
        exact X.pastR k c hk hp
      · rw [h'ne c hci, n1]
        exact X.pastE k c hk hp hl hre
    · by_cases hci : c = i
      · -- the executed instruction is read by `p`
        subst hci
        have hcp := hcne p hpi
        have hmode : ¬ (c < c ∧ c ≤ p) := by omega
        have nodeP := inv.node p s hs hp
        have hroom := ok.room p s hs hp k c hk
        have honeleft : endOf (h c) ≤ (m.ctrl p).next → OneLeft hi (m.ctrl p).next := by
          intro hd u hu hle
          cases hE : E.verdict with
          | none =>
              rw [g1 hE] at hu
              have := mem_lt_endOf nd.ans.sorted hu
              omega
          | some v =>
              rcases (g2 v hE).mem hu with hu' | rfl
              · have := mem_lt_endOf nd.ans.sorted hu'
                omega
              · rw [(g2 _ hE).endOf]
        refine ⟨fun _ _ => ?_, fun _ _ ha hnp => ?_, fun hn => absurd ⟨Nat.lt_succ_self _, by omega⟩ hn,
          fun hn => absurd ⟨Nat.lt_succ_self _, by omega⟩ hn, fun hfst hl => ?_,
          fun _ hn => absurd ⟨Nat.lt_succ_self _, by omega⟩ hn, fun hps _ _ => ?_, fun _ _ h => by omega⟩
        · rw [hcp, h'i]
          cases hE : E.verdict with
          | none =>
              rw [g1 hE]
              exact (ed.read hmode).mono (Nat.le_refl _) fun _ _ => Or.inl trivial
          | some v =>
              have hext := g2 v hE
              have hv1 := (X.push v hE).1
              have hv2 := hvB v hE
              have hpos := ok.pos c ho
              have hnret := ok.noRet p c s r k hs hp hk hr
              have hfull : hi = h c ++ [v] → (h c).length < S.len c ∨ ∀ u, (h c).getLast? = some u → u.truth ≠ v.truth := by
                rw [← nd.len]; exact g5 hnret v hE
              rcases hroom with ⟨ha, hnp⟩ | hw | ⟨ht, hnp, hfst, hw⟩
              · have hd := ed.drained hmode ha hnp
                exact ((ed.read hmode).mono (P' := fun _ => False) (Nat.le_refl _) fun _ _ => Or.inr hd).push
                  hpos nd.ans.sorted hext hv1 hfull (fun _ _ hF => hF.elim)
              · refine (ed.read hmode).push hpos nd.ans.sorted hext hv1 hfull ?_
                intro T w hT hw hne
                have := hT.1
                have := hlast hnret v w hE hw hne
                omega
              · have hlf : late = false := by
                  cases late with
                  | false => rfl
                  | true => rw [X.idle rfl hfst] at hE; cases hE
                refine (ed.read hmode).push hpos nd.ans.sorted hext hv1 hfull ?_
                intro T w hT hw hne
                have := (hT.2.2 ht hnp).1 hlf (by omega)
                have := hlast hnret v w hE hw hne
                omega
        · rw [hcp, h'i]
          exact honeleft (ed.drained hmode ha hnp)
        · rw [hcp, h'i]
          have hlate : late = true := by
            rcases hl with hl | hl
            · exact hl
            · omega
          obtain ⟨hnp, hfs⟩ := ok.firsts p s hs hp hfst
          rcases hfs k c hk with ⟨ha, hfc⟩ | hB
          · rw [g1 (X.idle hlate hfc)]
            exact ed.done hfst (Or.inl hlate)
          · refine endOf_le fun u hu => ?_
            have h1 := hearly u hu
            have h2 := nodeP.fast
            unfold dn at h2
            rw [if_pos (Or.inl hlate), hnp] at h2
            simp only [Bool.false_eq_true, if_false] at h2
            omega
        · rw [hcp, h'i]
          rcases ed.pastR hps hmode with h1 | h1 | ⟨h1, h2, h3⟩
          · exact Or.inl h1
          · exact Or.inr (Or.inl (honeleft h1))
          · have hlate : late = true := h3.resolve_right (by omega)
            cases hE : E.verdict with
            | none => rw [g1 hE]; exact Or.inr (Or.inl h2)
            | some v => exact Or.inr (Or.inr ⟨h1, by rw [p2 (ok.noRet p c s r k hs hp hk hr) v hE]; exact flag_reloop, hlate⟩)
      · exact edge_other hpi hci (hcne p hpi) (h'ne c hci) F.reloop ed
  · intro j
    by_cases hj : j = i
    · subst hj; rw [h'i]; exact hmono
    · rw [h'ne j hj]; exact Nat.le_refl _
  · intro hne
    rw [h'i]
    cases hE : E.verdict with
    | none => exact absurd (p1 hE) hne
    | some v =>
        rw [(g2 v hE).endOf]
        have := (X.push v hE).1
        omega
  · intro N hN hs
    refine exec_small hm X.step (fun v hv => ?_) X.block ?_ hs
    · have := hvB v hv
      omega
    · rcases X.edge with h | h
      · exact Or.inl h
      · right; omega

theorem step_own {S : Setup} (ok : S.Ok) {tr : Nat → Nat → Bool} {V : Nat → Nat → Prop}
    (hV : ∀ i r, S.prog[i]? = some r → S.own i → ∀ t, V i t ↔ r.holds (S.lb i) (S.ub i) tr V t)
    (hin : ∀ i r k c, S.prog[i]? = some r → S.own i → r.arg k = some (.sub c) → ∃ s, S.prog[c]? = some s)
    {t : Nat} {late : Bool} {i : Nat} {m : Mon} {h : Nat → List Verdict} (inv : Inv S tr V t late i m h)
    {r : TlRec} (hr : S.prog[i]? = some r) (ho : S.own i) :
    ∃ m' h', m.update r = some m' ∧ Inv S tr V t late (i + 1) m' h' ∧ (∀ j, endOf (h j) ≤ endOf (h' j)) ∧
      (m'.progress ≠ m.progress → endOf (h i) < endOf (h' i)) ∧
      ∀ N : Nat, (t : Int) ≤ N + S.B i → Small N m → Small N m' := by
  obtain ⟨m', c2, E, hu, X⟩ := step_any ok hV hin inv hr ho
  obtain ⟨h', h1, h2, h3, h4⟩ := step_finish ok inv hr ho hu X
  exact ⟨m', h', hu, h1, h2, h3, h4⟩

end R2U2
