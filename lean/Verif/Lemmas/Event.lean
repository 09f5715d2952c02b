import Verif.Lemmas.Run
import Verif.Spec.Event
import Verif.Model.Event
/-
Time steps that cover several units of time: the invariant and its preservation.
-/
namespace R2U2
open Setup

/-- Instruction `i` was executed in a pass that has made no progress so far. -/
def caught (late : Bool) (pc : Nat) (pr : Progress) (i : Nat) : Prop := late = true ∧ i < pc ∧ pr = .reloop

/-- As `Node`, in a step that covers the times `t0` to `T`. -/
structure EvNode (S : Setup) (tr : Nat → Nat → Bool) (V : Nat → Nat → Prop) (t0 T : Nat) (late : Bool) (pc : Nat)
    (m : Mon) (h : Nat → List Verdict) (i : Nat) (r : TlRec) : Prop where
  len : (m.ctrl i).len = S.len i
  lb : (m.ctrl i).lb = S.lb i
  ub : (m.ctrl i).ub = S.ub i
  ring : r.opcode ≠ some .ret → Ring (m.ctrl i) (h i)
  ans : Answers (V i) (h i)
  own : ownOf V tr r (S.lb i) (S.ub i) (m.ctrl i).next (m.ctrl i).prev (endOf (h i))
  early : ∀ u ∈ h i, (u.time : Int) + S.B i ≤ T
  change : ∀ s, s + 1 < endOf (h i) → ¬ (V i s ↔ V i (s + 1)) → (s : Int) + 1 + S.C i ≤ t0
  fast : t0 ≤ (m.ctrl i).next + S.opW r ∧ (caught late pc m.progress i → T + 1 ≤ (m.ctrl i).next + S.opW r)
  bound : t0 ≤ endOf (h i) + S.W i ∧ (caught late pc m.progress i → T + 1 ≤ endOf (h i) + S.W i)
  load : r.opcode = some .load → (m.ctrl i).next = if late = true ∨ i < pc then T + 1 else t0
  ret : r.opcode = some .ret → m.reports r.v2 = h i

def ELag (S : Setup) (t0 T : Nat) (late : Bool) (pc : Nat) (pr : Progress) (r : TlRec) (p : Nat) (n : Nat) : Prop :=
  t0 ≤ n + S.opW r ∧ (caught late pc pr p → T + 1 ≤ n + S.opW r)

structure EEdge (S : Setup) (t0 T : Nat) (late : Bool) (pc : Nat) (m : Mon) (h : Nat → List Verdict) (p : Nat)
    (r : TlRec) (k : Bool) (c : Nat) : Prop where
  filled : c < pc → pc ≤ p → Ptr (S.len c) (h c) (m.ctrl p).next (rdp r k (m.ctrl p)) (fun _ => True)
  one : c < pc → pc ≤ p → alone r c → OneLeft (h c) (m.ctrl p).next
  read : ¬ (c < pc ∧ pc ≤ p) →
    Ptr (S.len c) (h c) (m.ctrl p).next (rdp r k (m.ctrl p)) (ELag S t0 T late pc m.progress r p)
  drained : ¬ (c < pc ∧ pc ≤ p) → alone r c → endOf (h c) ≤ (m.ctrl p).next

structure EInv (S : Setup) (tr : Nat → Nat → Bool) (V : Nat → Nat → Prop) (t0 T : Nat) (late : Bool) (pc : Nat)
    (m : Mon) (h : Nat → List Verdict) : Prop where
  le : t0 ≤ T
  same : ∀ s, t0 ≤ s → s ≤ T → tr s = tr T
  time : m.time = T
  prog : m.progress = .first ↔ late = false
  atoms : late = false → m.atoms = tr T
  node : ∀ i r, S.prog[i]? = some r → S.own i → EvNode S tr V t0 T late pc m h i r
  edge : ∀ p r, S.prog[p]? = some r → S.own p → ∀ k c, r.arg k = some (.sub c) → EEdge S t0 T late pc m h p r k c

theorem caught_ne {late : Bool} {pc i : Nat} {pr pr' : Progress} (h : i ≠ pc) (hpr : pr' = .reloop → pr = .reloop)
    (hc : caught late (pc + 1) pr' i) : caught late pc pr i := by
  obtain ⟨h1, h2, h3⟩ := hc
  exact ⟨h1, by omega, hpr h3⟩

theorem eedge_other {S : Setup} {t0 T : Nat} {late : Bool} {i : Nat} {m m' : Mon} {h h' : Nat → List Verdict} {p : Nat}
    {s : TlRec} {k : Bool} {c : Nat} (hpi : p ≠ i) (hci : c ≠ i) (hc : m'.ctrl p = m.ctrl p) (hh : h' c = h c)
    (hrl : m'.progress = .reloop → m.progress = .reloop)
    (ed : EEdge S t0 T late i m h p s k c) : EEdge S t0 T late (i + 1) m' h' p s k c := by
  have e1 : (c < i + 1) ↔ (c < i) := by omega
  have e2 : (i + 1 ≤ p) ↔ (i ≤ p) := by omega
  refine ⟨?_, ?_, ?_, ?_⟩ <;> rw [hc, hh] <;> simp only [e1, e2]
  · exact ed.filled
  · exact ed.one
  · intro hne
    exact (ed.read hne).mono (Nat.le_refl _) fun u hu => Or.inl ⟨hu.1, fun hc => hu.2 (caught_ne hpi hrl hc)⟩
  · exact ed.drained

theorem enode_other {S : Setup} {tr : Nat → Nat → Bool} {V : Nat → Nat → Prop} {t0 T : Nat} {late : Bool} {i : Nat}
    {m m' : Mon} {h h' : Nat → List Verdict} {j : Nat} {s : TlRec} (hji : j ≠ i) (hc : m'.ctrl j = m.ctrl j)
    (hh : h' j = h j) (hrep : s.opcode = some .ret → m'.reports s.v2 = m.reports s.v2)
    (hrl : m'.progress = .reloop → m.progress = .reloop)
    (ns : EvNode S tr V t0 T late i m h j s) : EvNode S tr V t0 T late (i + 1) m' h' j s := by
  have e1 : (j < i + 1) ↔ (j < i) := by omega
  refine ⟨?_, ?_, ?_, ?_, ?_, ?_, ?_, ?_, ?_, ?_, ?_, ?_⟩ <;> (try rw [hc]) <;> (try rw [hh])
  · exact ns.len
  · exact ns.lb
  · exact ns.ub
  · exact ns.ring
  · exact ns.ans
  · exact ns.own
  · exact ns.early
  · exact ns.change
  · exact ⟨ns.fast.1, fun hc => ns.fast.2 (caught_ne hji hrl hc)⟩
  · exact ⟨ns.bound.1, fun hc => ns.bound.2 (caught_ne hji hrl hc)⟩
  · simp only [e1]; exact ns.load
  · intro hop; rw [hrep hop]; exact ns.ret hop

theorem estep_foreign {S : Setup} (ok : S.Ok) {tr : Nat → Nat → Bool} {V : Nat → Nat → Prop} {t0 T : Nat} {late : Bool}
    {pc : Nat} {m m' : Mon} {h : Nat → List Verdict} (inv : EInv S tr V t0 T late pc m h) {r : TlRec}
    (hr : S.prog[pc]? = some r) (ho : ¬ S.own pc) (hu : m.update r = some m') :
    EInv S tr V t0 T late (pc + 1) m' h := by
  have F := update_frame hu
  have hmem := ok.mem pc r hr
  have hne : ∀ i, S.own i → i ≠ pc := fun i hi e => ho (e ▸ hi)
  have hc : ∀ i, S.own i → m'.ctrl i = m.ctrl i := fun i hi => F.ctrl i (by rw [hmem]; exact hne i hi)
  refine ⟨inv.le, inv.same, F.time.trans inv.time, F.first.trans inv.prog, fun hl => F.atoms.trans (inv.atoms hl), ?_, ?_⟩
  · intro i s hs hi
    exact enode_other (hne i hi) (hc i hi) rfl (fun hret => F.reports _ fun hret' heq =>
      hne i hi (ok.number i pc s r hs hr hi hret hret' heq)) F.reloop (inv.node i s hs hi)
  · intro p s hs hp k c hk
    exact eedge_other (hne p hp) (hne c (ok.closed p s hs hp k c hk)) (hc p hp) rfl F.reloop (inv.edge p s hs hp k c hk)

/-- One execution of instruction `i`. -/
structure EOut (S : Setup) (tr : Nat → Nat → Bool) (V : Nat → Nat → Prop) (t0 T : Nat) (late : Bool) (m m' : Mon)
    (h : Nat → List Verdict) (r : TlRec) (i : Nat) (c2 : Ctrl) (E : Effect) : Prop where
  step : Upd m m' r i c2 E
  next_le : (m.ctrl i).next ≤ E.next
  push : ∀ v, E.verdict = some v → endOf (h i) ≤ v.time ∧ (v.time : Int) + S.B i ≤ T ∧
    ∀ s, endOf (h i) ≤ s → s ≤ v.time → (V i s ↔ v.truth = true)
  turn : ∀ v p, E.verdict = some v → endOf (h i) = p + 1 → ¬ (V i p ↔ v.truth = true) → (p : Int) + 1 + S.C i ≤ t0
  own : ownOf V tr r (S.lb i) (S.ub i) E.next E.prev (E.ends (endOf (h i)))
  fast : late = true → m'.progress = .reloop → T + 1 ≤ E.next + S.opW r
  load : r.opcode = some .load → E.next = T + 1
  ptr : ∀ k c, r.arg k = some (.sub c) →
    Ptr (S.len c) (h c) E.next (rdp r k c2) (ELag S t0 T late (i + 1) m'.progress r i)
  drained : ∀ k c, r.arg k = some (.sub c) → alone r c → endOf (h c) ≤ E.next
  block : E.prev = (m.ctrl i).prev ∨ ∃ v, E.push = some v ∧ E.prev = ⟨true, v.time⟩
  edge : E.edge = (m.ctrl i).edge

theorem flips {P : Nat → Prop} {a : Nat} : ∀ b, a ≤ b → ¬ (P a ↔ P b) → ∃ s, a ≤ s ∧ s < b ∧ ¬ (P s ↔ P (s + 1)) := by
  intro b
  induction b with
  | zero => intro h hne; obtain rfl : a = 0 := by omega
            exact absurd Iff.rfl hne
  | succ b ih =>
      intro hab hne
      by_cases heq : a = b + 1
      · subst heq; exact absurd Iff.rfl hne
      · by_cases hb : P a ↔ P b
        · exact ⟨b, by omega, Nat.lt_succ_self _, fun h => hne (hb.trans h)⟩
        · obtain ⟨s, h1, h2, h3⟩ := ih (by omega) hb
          exact ⟨s, h1, by omega, h3⟩

/-- Where an until or release changes, its second operand changes. -/
theorem turn_temporal {A B : Nat → Prop} {lb ub p e : Nat} {tv : Bool} (hlu : lb ≤ ub) (he : p + 1 + lb ≤ e)
    (hB : B e ↔ tv = true)
    (h : ((∃ j, p + lb ≤ j ∧ j ≤ p + ub ∧ B j ∧ ∀ k, p + lb ≤ k → k < j → A k) ∧ tv = false ∧
          ¬ (∃ j, p + 1 + lb ≤ j ∧ j ≤ p + 1 + ub ∧ B j ∧ ∀ k, p + 1 + lb ≤ k → k < j → A k)) ∨
        (¬ (∃ j, p + lb ≤ j ∧ j ≤ p + ub ∧ B j ∧ ∀ k, p + lb ≤ k → k < j → A k) ∧ tv = true)) :
    ∃ s, p + lb ≤ s ∧ s < e ∧ ¬ (B s ↔ B (s + 1)) := by
  rcases h with ⟨⟨j, h1, h2, h3, h4⟩, rfl, h6⟩ | ⟨h1, rfl⟩
  · refine ⟨p + lb, Nat.le_refl _, by omega, fun hiff => ?_⟩
    have hj : j = p + lb := by
      by_contra hne
      exact h6 ⟨j, by omega, by omega, h3, fun k hk hk2 => h4 k (by omega) hk2⟩
    subst hj
    exact h6 ⟨p + lb + 1, by omega, by omega, hiff.1 h3, fun k hk hk2 => by omega⟩
  · have hn : ¬ B (p + lb) := fun hb => h1 ⟨p + lb, Nat.le_refl _, by omega, hb, fun k hk hk2 => by omega⟩
    exact flips e (by omega) (fun hiff => hn (hiff.2 (hB.2 rfl)))

theorem next_plain {V : Nat → Nat → Prop} {tr : Nat → Nat → Bool} {r : TlRec} {lb ub n e : Nat} {p : Verdict}
    (hp : r.past = false) (ht : r.temporal = false) (h : ownOf V tr r lb ub n p e) : n = e := by
  unfold ownOf at h
  unfold TlRec.temporal at ht
  cases hop : r.opcode with
  | none => rw [hop] at h; exact h
  | some o =>
      rw [hop] at h ht
      cases o <;> first | (exact h) | (simp at ht; done) | (simp [TlRec.past, hop] at hp)

/-- An instruction that reads several others is no load, no temporal operator and no return. -/
theorem several {S : Setup} (ev : S.Eventful) {i : Nat} {r : TlRec} (hr : S.prog[i]? = some r) (ho : S.own i)
    {k : Bool} {c : Nat} (hk : r.arg k = some (.sub c)) (ha : ¬ alone r c) :
    r.temporal = false ∧ r.opcode ≠ some .ret := by
  have hun : r.binary = true := by
    by_contra hb
    have hb : r.binary = false := by simpa using hb
    refine ha fun k' c' hk' => ?_
    rw [arg_unary hb k'] at hk'
    rw [arg_unary hb k, hk'] at hk
    cases hk; rfl
  refine ⟨?_, fun hret => by simp [TlRec.binary, hret] at hun⟩
  by_contra ht
  have ht : r.temporal = true := by simpa using ht
  obtain ⟨b, hb⟩ := ev.single i r hr ho ht
  refine ha fun k' c' hk' => ?_
  cases k with
  | false => rw [hb] at hk; cases hk
  | true =>
      cases k' with
      | false => rw [hb] at hk'; cases hk'
      | true => rw [hk'] at hk; cases hk; rfl

theorem turn_op {S : Setup} {V : Nat → Nat → Prop} {tr : Nat → Nat → Bool} {i : Nat} {r : TlRec} (hf : r.Future i)
    (ht : r.temporal = true) (hV : ∀ t, V i t ↔ r.holds (S.lb i) (S.ub i) tr V t) (hlu : S.lb i ≤ S.ub i)
    {p e : Nat} {tv : Bool} (he : p + 1 + S.lb i ≤ e) (hB : valOf V tr (r.arg true) e ↔ tv = true)
    (h1 : V i (p + 1) ↔ tv = true) (h0 : ¬ (V i p ↔ tv = true)) :
    ∃ s, p + S.lb i ≤ s ∧ s < e ∧ ¬ (valOf V tr (r.arg true) s ↔ valOf V tr (r.arg true) (s + 1)) := by
  have hk := hf.2.2
  unfold TlRec.temporal at ht
  rw [hV] at h0 h1
  cases hop : r.opcode with
  | none => simp [hop] at ht
  | some o =>
      rw [hop] at hk
      cases o <;> simp [hop] at ht
      case «until» =>
          have hb2 := valOf_second (V := V) (tr := tr) (r := r) (by simp [TlRec.binary, hop]) (Or.inl hk.1)
          have ha := valOf_first (V := V) (tr := tr) hk.2
          simp only [TlRec.holds, hop] at h0 h1
          simp only [← hb2, ← ha] at h0 h1
          refine turn_temporal (A := valOf V tr (r.arg false)) hlu he hB ?_
          cases tv with
          | true => exact Or.inr ⟨fun h => h0 ⟨fun _ => rfl, fun _ => h⟩, rfl⟩
          | false =>
              refine Or.inl ⟨?_, rfl, fun h => by simpa using h1.1 h⟩
              by_contra h
              exact h0 ⟨fun h' => absurd h' h, fun h' => by cases h'⟩
      case release =>
          have hb2 := valOf_second (V := V) (tr := tr) (r := r) (by simp [TlRec.binary, hop]) (Or.inl hk.1)
          have ha := valOf_first (V := V) (tr := tr) hk.2
          simp only [TlRec.holds, hop] at h0 h1
          simp only [← hb2, ← ha] at h0 h1
          have dual : ∀ q, (∃ j, q + S.lb i ≤ j ∧ j ≤ q + S.ub i ∧ ¬ valOf V tr (r.arg true) j ∧
              ∀ k, q + S.lb i ≤ k → k < j → ¬ valOf V tr (r.arg false) k) ↔
              ¬ ∀ j, q + S.lb i ≤ j → j ≤ q + S.ub i → valOf V tr (r.arg true) j ∨
                ∃ k, q + S.lb i ≤ k ∧ k < j ∧ valOf V tr (r.arg false) k := by
            intro q
            push Not
            rfl
          have key := turn_temporal (A := fun s => ¬ valOf V tr (r.arg false) s)
            (B := fun s => ¬ valOf V tr (r.arg true) s) (tv := !tv) (p := p) (e := e) hlu he
            (by cases tv <;> simp [hB]) (by
              rw [dual, dual]
              cases tv with
              | false =>
                  refine Or.inr ⟨?_, rfl⟩
                  rw [not_not]
                  by_contra h
                  exact h0 ⟨fun h' => absurd h' h, fun h' => by cases h'⟩
              | true =>
                  exact Or.inl ⟨fun h => h0 ⟨fun _ => rfl, fun _ => h⟩, rfl, fun h => h (h1.2 rfl)⟩)
          obtain ⟨s, s1, s2, s3⟩ := key
          exact ⟨s, s1, s2, fun h => s3 (not_congr h)⟩

/-- An instruction is executed. -/
theorem estep_future {S : Setup} (ev : S.Eventful) {tr : Nat → Nat → Bool} {V : Nat → Nat → Prop}
    (hV : Means S tr V) {t0 T : Nat} {late : Bool} {i : Nat} {m : Mon} {h : Nat → List Verdict}
    (inv : EInv S tr V t0 T late i m h) {r : TlRec} (hr : S.prog[i]? = some r) (ho : S.own i) :
    ∃ m' c2 E, m.update r = some m' ∧ EOut S tr V t0 T late m m' h r i c2 E := by
  have ok := ev.ok
  have hf := ev.future i r hr ho
  have nd := inv.node i r hr ho
  have hnp := hf.notPast
  have hsub : ∀ k c, r.arg k = some (.sub c) → c < i ∧ S.own c ∧
      ∃ s, S.prog[c]? = some s ∧ EvNode S tr V t0 T late i m h c s ∧ s.opcode ≠ some .ret := by
    intro k c hk
    obtain ⟨s, hs⟩ := operand_in ok i r k c hr ho hk
    have hoc := ok.closed i r hr ho k c hk
    exact ⟨hf.2.1 k c hk, hoc, s, hs, inv.node c s hs hoc, ok.noRet i c r s k hr ho hk hs⟩
  have hop1 : late = true → m.progress = .reloop → ∀ k, T + 1 ≤ opEnd h T (r.arg k) + S.argW (r.arg k) := by
    intro hl hp k
    rcases ha : r.arg k with _ | b | a | c
    · simp [opEnd]
    · simp [opEnd]
    · simp [opEnd]
    · obtain ⟨hlt, hoc, s, hs, ns, hns⟩ := hsub k c ha
      simp only [opEnd, argW]
      exact ns.bound.2 ⟨hl, hlt, hp⟩
  obtain ⟨m', c2, E, x, hu, X⟩ := exec_spec (late := late) (t := T) ⟨inv.time, inv.prog, inv.atoms⟩ hf (hV i r hr ho)
    (fun ht => ok.interval i r hr ho (Or.inl ht)) nd.lb nd.ub nd.own (fun hop => by
      rw [nd.load hop]
      refine ⟨fun hl => by rw [if_pos (Or.inl hl)], fun hl => ?_⟩
      rw [if_neg (by simp [hl])]
      exact ⟨inv.le, inv.same⟩) (fun k c hk => by
    obtain ⟨hlt, hoc, s, hs, ns, hns⟩ := hsub k c hk
    exact ⟨ns.ring hns, ns.ans, ns.len, ns.early, _, (inv.edge i r hr ho k c hk).filled hlt (Nat.le_refl _)⟩)
    (ok.consts i r hr ho hnp)
  have F := update_frame hu
  obtain ⟨p1, p2⟩ := exec_progress X.toUpd
  have hends : E.ends (endOf (h i)) = (match E.verdict with | some v => v.time + 1 | none => endOf (h i)) := rfl
  have hown : ownOf V tr r (S.lb i) (S.ub i) E.next E.prev (E.ends (endOf (h i))) := X.sound.own
  have hvB : ∀ v, E.verdict = some v → (v.time : Int) + S.B i ≤ T := by
    intro v hE
    obtain ⟨q1, q2, q3⟩ := X.sound.push v hE
    rcases q2 with ⟨u, hu, q2⟩ | ⟨u, hu, q2⟩
    · have h1 := X.soon false u hu
      have h2 := ok.soon i r hr ho false
      rw [hnp] at h2
      simp only [Bool.false_eq_true, if_false] at h2
      omega
    · have h1 := X.soon true u hu
      have h2 := ok.soon i r hr ho true
      rw [hnp] at h2
      simp only [Bool.false_eq_true, if_false] at h2
      omega
  have hopW := argW_le S r
  have hal : ∀ k c, r.arg k = some (.sub c) → alone r c → endOf (h c) ≤ E.next := by
    intro k c hk hal
    have ed := inv.edge i r hr ho k c hk
    obtain ⟨hlt, hoc, s, hs, ns, hns⟩ := hsub k c hk
    -- every verdict of `c` not used yet is its last one, and is read
    rcases Nat.lt_or_ge (m.ctrl i).next (endOf (h c)) with hlt' | hge
    · have hone := ed.one hlt (Nat.le_refl _) hal
      have hread : ∀ k', ∃ u, x k' = some u ∧ endOf (h c) ≤ u.time + 1 := by
        intro k'
        rcases ha : r.arg k' with _ | b | a | c'
        · exfalso
          -- an instruction has its operands
          have hk := hf.2.2
          cases hop : r.opcode with
          | none => rw [hop] at hk; exact hk
          | some o =>
          rw [hop] at hk
          cases o <;> simp only [] at hk
          case load => obtain ⟨y, hy⟩ := hk; rw [arg_unary (by simp [TlRec.binary, hop])] at ha; rw [hy] at ha; cases ha
          case ret => obtain ⟨y, hy⟩ := hk; rw [arg_unary (by simp [TlRec.binary, hop])] at ha; rw [hy] at ha; cases ha
          case not => obtain ⟨y, hy⟩ := hk; rw [arg_unary (by simp [TlRec.binary, hop])] at ha; rw [hy] at ha; cases ha
          case and => rcases hk.2 k' with ⟨y, hy⟩ | hy <;> (rw [hy] at ha; cases ha)
          case or => rcases hk.2 k' with ⟨y, hy⟩ | hy <;> (rw [hy] at ha; cases ha)
          case equiv => rcases hk.2 k' with ⟨y, hy⟩ | ⟨y, hy⟩ <;> (rw [hy] at ha; cases ha)
          case «until» =>
              cases k' with
              | true => rw [hk.1.choose_spec] at ha; cases ha
              | false => rcases hk.2 with ⟨y, hy⟩ | ⟨y, hy⟩ <;> (rw [hy] at ha; cases ha)
          case release =>
              cases k' with
              | true => rw [hk.1.choose_spec] at ha; cases ha
              | false => rcases hk.2 with ⟨y, hy⟩ | ⟨y, hy⟩ <;> (rw [hy] at ha; cases ha)
        · have hR := X.rd k'
          rw [ha] at hR
          have hB := ok.consts i r hr ho hnp k' k b c ha hk
          have hle : endOf (h c) ≤ T + 1 := endOf_le fun u hu => by have := ns.early u hu; omega
          obtain ⟨u, hu⟩ := hR.ready (by simp only [opEnd]; omega)
          rw [hu] at hR
          have hst := X.const k' b u ha hu
          exact ⟨u, hu, by omega⟩
        · exfalso
          have hop := X.atom k' a ha
          have hk' := hf.2.2
          rw [hop] at hk'
          obtain ⟨y, hy⟩ := hk'
          rw [arg_unary (by simp [TlRec.binary, hop]) k] at hk
          rw [hy] at hk; cases hk
        · have := hal k' c' ha
          subst this
          have hR := X.rd k'
          rw [ha] at hR
          obtain ⟨u, hu⟩ := hR.ready (by simpa only [opEnd] using hlt')
          refine ⟨u, hu, ?_⟩
          rw [hu] at hR
          have := hone u (X.hist k' _ u ha hu) hR.val.1
          omega
      obtain ⟨u, hu, hu2⟩ := hread false
      obtain ⟨v, hv, hv2⟩ := hread true
      have := X.sound.adv u v hu hv
      omega
    · have := X.sound.next_le
      omega
  have hload : r.opcode = some .load → E.next = T + 1 := by
    intro hop
    have hk := hf.2.2
    rw [hop] at hk
    obtain ⟨a, ha⟩ := hk
    have hun := arg_unary (r := r) (by simp [TlRec.binary, hop])
    have hl := nd.load hop
    cases late with
    | true =>
        rw [if_pos (Or.inl rfl)] at hl
        have hV := X.idle (fun k c hc => by rw [hun k, ha] at hc; cases hc) (fun _ => rfl)
        rw [X.quiet (by simp [TlRec.temporal, hop]) hV, hl]
    | false =>
        rw [if_neg (by simp)] at hl
        have hle := inv.le
        have hpl := next_plain hnp (by simp [TlRec.temporal, hop]) hown
        have hpl0 := next_plain hnp (by simp [TlRec.temporal, hop]) nd.own
        have hx : ∀ k, ∃ u, x k = some u ∧ u.time = T := by
          intro k
          obtain ⟨u, hu⟩ := (X.rd k).ready (by rw [hun k, ha]; simp only [opEnd]; omega)
          exact ⟨u, hu, X.fresh k a u (by rw [hun k]; exact ha) hu⟩
        obtain ⟨u, hu, hut⟩ := hx false
        obtain ⟨w, hw, hwt⟩ := hx true
        have h1 := X.sound.adv u w hu hw
        have : E.next ≤ T + 1 := by
          cases hE : E.verdict with
          | none =>
              rw [hpl, hends, hE]
              simp only []
              omega
          | some v =>
              rw [hpl, hends, hE]
              simp only []
              have hB : ∀ k, S.argB (r.arg k) = 0 := fun k => by rw [hun k, ha]; rfl
              rcases (X.sound.push v hE).2.1 with ⟨u, hu, q⟩ | ⟨u, hu, q⟩
              · have := X.soon false u hu
                rw [hB] at this
                omega
              · have := X.soon true u hu
                rw [hB] at this
                omega
        omega
  have hslow : late = true → m'.progress = .reloop → r.temporal = false → r.opcode ≠ some .ret →
      T + 1 ≤ (m.ctrl i).next + S.opW r := by
    intro hl hp ht hret
    have hE : E.verdict = none := by
      cases hE : E.verdict with
      | none => rfl
      | some v => rw [p2 hret v hE] at hp; exact absurd hp flag_reloop
    obtain ⟨k', hk'⟩ := exec_next X (X.quiet ht hE)
    have h1 := hop1 hl (F.reloop hp) k'
    have h2 := hopW k'
    omega
  have hturn : ∀ v p, E.verdict = some v → endOf (h i) = p + 1 → ¬ (V i p ↔ v.truth = true) →
      (p : Int) + 1 + S.C i ≤ t0 := by
    intro v p hv hp hne
    by_cases hop : r.opcode = some .load
    · have hC := ev.load i r hr ho hop
      have hpl0 := next_plain hnp (by simp [TlRec.temporal, hop]) nd.own
      have hl := nd.load hop
      cases late with
      | true =>
          have hk := hf.2.2
          rw [hop] at hk
          obtain ⟨a, ha⟩ := hk
          have hun := arg_unary (r := r) (by simp [TlRec.binary, hop])
          rw [X.idle (fun k c hc => by rw [hun k, ha] at hc; cases hc) (fun _ => rfl)] at hv
          cases hv
      | false =>
          rw [if_neg (by simp)] at hl
          omega
    cases ht : r.temporal with
    | false =>
        obtain ⟨k, u, hu, hne⟩ := X.turn v p hv ht hop hne
        have hR := X.rd k
        have hn0 : (m.ctrl i).next = p + 1 := (next_plain hnp ht nd.own).trans hp
        rw [hu] at hR
        obtain ⟨w1, w2, w3⟩ := hR.val
        rcases ha : r.arg k with _ | b | a | c
        · rw [ha] at w3 hne
          exact absurd (w3 _ w1 (Nat.le_refl _)) hne
        · rw [ha] at w3 hne
          exact absurd (w3 _ w1 (Nat.le_refl _)) hne
        · exact absurd (X.atom k a ha) hop
        · rw [ha] at w2 w3 hne
          simp only [opEnd, valOf] at w2 w3 hne
          obtain ⟨_, _, s, hs, ns, _⟩ := hsub k c ha
          have h5 := ns.change p (by omega) (fun hc => hne (hc.trans (w3 (p + 1) (by omega) (by omega))))
          have h6 := ev.calm i r hr ho k c ha
          rw [ht] at h6
          simp only [Bool.false_eq_true, if_false] at h6
          omega
    | true =>
        obtain ⟨u, hu, hlu, htr⟩ := X.ahead ht v hv
        have hR := X.rd true
        rw [hu] at hR
        obtain ⟨w1, w2, w3⟩ := hR.val
        obtain ⟨q1, _, q3⟩ := X.sound.push v hv
        obtain ⟨s, s1, s2, s3⟩ := turn_op hf ht (hV i r hr ho) (ok.interval i r hr ho (Or.inl ht)) (p := p) (e := u.time)
          (tv := v.truth) (by omega) (by rw [htr]; exact w3 u.time w1 (Nat.le_refl _)) (q3 (p + 1) (by omega) (by omega)) hne
        have hk := hf.2.2
        have hsec : ∃ c, r.arg true = some (.sub c) := by
          unfold TlRec.temporal at ht
          cases hop : r.opcode with
          | none => simp [hop] at ht
          | some o =>
              rw [hop] at hk
              cases o <;> simp [hop] at ht <;> exact hk.1
        obtain ⟨c, hc⟩ := hsec
        rw [hc] at w2 s3
        simp only [opEnd, valOf] at w2 s3
        obtain ⟨_, _, y, hs, ns, _⟩ := hsub true c hc
        have h5 := ns.change s (by omega) s3
        have h6 := ev.calm i r hr ho true c hc
        rw [ht] at h6
        simp only [if_true] at h6
        omega
  refine ⟨m', c2, E, hu, X.toUpd, X.sound.next_le, ?_, hturn, hown, ?_, hload, ?_, hal,
    by rw [← X.same.prev]; exact X.block.2, by rw [← X.same.edge]; exact X.block.1⟩
  · intro v hv
    obtain ⟨q1, q2, q3⟩ := X.sound.push v hv
    exact ⟨q1, hvB v hv, q3⟩
  · intro hl hp
    by_cases hop : r.opcode = some .load
    · rw [hload hop]; omega
    by_cases hq : r.temporal = false ∧ r.opcode ≠ some .ret
    · have := hslow hl hp hq.1 hq.2
      have := X.sound.next_le
      omega
    · -- a return or a temporal operator reads one instruction only
      have hone : ∃ k c, r.arg k = some (.sub c) := by
        have hk := hf.2.2
        unfold TlRec.temporal at hq
        cases hop : r.opcode with
        | none => rw [hop] at hk; exact hk.elim
        | some o =>
            rw [hop] at hk hq
            cases o <;> simp at hq
            case ret => exact ⟨false, hk⟩
            case «until» => exact ⟨true, hk.1⟩
            case release => exact ⟨true, hk.1⟩
      obtain ⟨k, c, hk⟩ := hone
      have ha : alone r c := by
        by_contra ha
        exact hq (several ev hr ho hk ha)
      have h1 := hal k c hk ha
      have h2 := hop1 hl (F.reloop hp) k
      have h3 := hopW k
      rw [hk] at h2 h3
      simp only [opEnd] at h2
      omega
  · intro k c hk
    refine (X.ptr k c hk).mono X.sound.next_le fun T' hT => ?_
    by_cases ha : alone r c
    · exact Or.inr (hal k c hk ha)
    · obtain ⟨ht, hret⟩ := several ev hr ho hk ha
      have := nd.fast.1
      exact Or.inl ⟨by omega, fun ⟨hl, _, hp⟩ => by have := hslow hl hp ht hret; omega⟩

theorem estep_finish {S : Setup} (ev : S.Eventful) {tr : Nat → Nat → Bool} {V : Nat → Nat → Prop}
    {t0 T : Nat} {late : Bool} {i : Nat} {m m' : Mon} {h : Nat → List Verdict} (inv : EInv S tr V t0 T late i m h)
    {r : TlRec} (hr : S.prog[i]? = some r) (ho : S.own i) (hu : m.update r = some m') {c2 : Ctrl} {E : Effect}
    (X : EOut S tr V t0 T late m m' h r i c2 E) :
    ∃ h', EInv S tr V t0 T late (i + 1) m' h' ∧ (∀ j, endOf (h j) ≤ endOf (h' j)) ∧
      (m'.progress ≠ m.progress → endOf (h i) < endOf (h' i)) ∧
      ∀ N : Nat, (T : Int) ≤ N + S.B i → Small N m → Small N m' := by
  have ok := ev.ok
  have hf := ev.future i r hr ho
  have hnp := hf.notPast
  have hm := ok.mem i r hr
  have nd := inv.node i r hr ho
  have F := update_frame hu
  obtain ⟨hi, g1, g2, g3, g4, g5⟩ := ghost hm X.step nd.ring nd.ret nd.ans.sorted
  obtain ⟨n1, n2, n2', n3, n4, n5, n6⟩ := exec_ctrl hm X.step
  obtain ⟨p1, p2⟩ := exec_progress X.step
  have hcne : ∀ j, j ≠ i → m'.ctrl j = m.ctrl j := fun j hj => F.ctrl j (by rw [hm]; exact hj)
  have hend : endOf hi = E.ends (endOf (h i)) := by
    unfold Effect.ends
    cases hE : E.verdict with
    | none => rw [g1 hE]
    | some v => rw [(g2 v hE).endOf]
  have hmono : endOf (h i) ≤ endOf hi := by
    cases hE : E.verdict with
    | none => exact Nat.le_of_eq (by rw [g1 hE])
    | some v => rw [(g2 v hE).endOf]; have := (X.push v hE).1; omega
  have hans : Answers (V i) hi := by
    cases hE : E.verdict with
    | none => rw [g1 hE]; exact nd.ans
    | some v =>
        obtain ⟨q1, q2, q3⟩ := X.push v hE
        exact nd.ans.ext (g2 v hE) q1 q3
  have hvB : ∀ v, E.verdict = some v → (v.time : Int) + S.B i ≤ T := fun v hv => (X.push v hv).2.1
  have hearly : ∀ u ∈ hi, (u.time : Int) + S.B i ≤ T := by
    intro u hu
    cases hE : E.verdict with
    | none => rw [g1 hE] at hu; exact nd.early u hu
    | some v =>
        rcases (g2 v hE).mem hu with hu | rfl
        · exact nd.early u hu
        · exact hvB _ hE
  have hchange : ∀ s, s + 1 < endOf hi → ¬ (V i s ↔ V i (s + 1)) → (s : Int) + 1 + S.C i ≤ t0 := by
    intro s hs hne
    rcases Nat.lt_or_ge (s + 1) (endOf (h i)) with h1 | h1
    · exact nd.change s h1 hne
    · cases hE : E.verdict with
      | none => rw [g1 hE] at hs; omega
      | some v =>
          rw [(g2 v hE).endOf] at hs
          obtain ⟨q1, q2, q3⟩ := X.push v hE
          rcases Nat.lt_or_ge s (endOf (h i)) with h2 | h2
          · exact X.turn v s hE (by omega) fun h => hne (h.trans (q3 (s + 1) (by omega) (by omega)).symm)
          · exact absurd ((q3 s h2 (by omega)).trans (q3 (s + 1) (by omega) (by omega)).symm) hne
  have hlast : r.opcode ≠ some .ret → ∀ v w, E.verdict = some v → (h i).getLast? = some w → w.truth ≠ v.truth →
      (w.time : Int) + 1 + S.C i ≤ t0 := by
    intro _ v w hE hw hne
    refine X.turn v w.time hE (by unfold endOf; rw [hw]) fun hVv => hne ?_
    rw [List.getLast?_eq_getElem?] at hw
    have := nd.ans.value _ w w.time hw (fun j u hj hu => by have := Sorted.gap nd.ans.sorted hu hw (by omega); omega) (Nat.le_refl _)
    have := this.symm.trans hVv
    cases h1 : w.truth <;> cases h2 : v.truth <;> simp_all
  let h' : Nat → List Verdict := fun j => if j = i then hi else h j
  have h'i : h' i = hi := by simp [h']
  have h'ne : ∀ j, j ≠ i → h' j = h j := fun j hj => by simp [h', hj]
  have hnode : ∀ j s, S.prog[j]? = some s → S.own j → EvNode S tr V t0 T late (i + 1) m' h' j s := by
    intro j s hs hj
    by_cases hji : j = i
    · subst hji
      rw [hr] at hs
      cases hs
      have hfast1 : t0 ≤ E.next + S.opW r := by have := nd.fast.1; have := X.next_le; omega
      have h1 := opW_le ok hr ho
      have h2 := own_end hnp X.own
      rw [hnp] at h1
      simp only [Bool.false_eq_true, if_false] at h1
      refine ⟨n3.trans nd.len, n4.trans nd.lb, n5.trans nd.ub, by rw [h'i]; exact g3, by rw [h'i]; exact hans,
        by rw [h'i, n1, n2, hend]; exact X.own, by rw [h'i]; exact hearly, by rw [h'i]; exact hchange,
        by rw [n1]; exact ⟨hfast1, fun hc => X.fast hc.1 hc.2.2⟩,
        by rw [h'i, hend]; exact ⟨by omega, fun hc => by have := X.fast hc.1 hc.2.2; omega⟩,
        by rw [n1, if_pos (Or.inr (Nat.lt_succ_self _))]; exact X.load, by rw [h'i]; exact g4⟩
    · exact enode_other hji (hcne j hji) (h'ne j hji) (fun hret => F.reports _ fun hret' heq =>
        hji (ok.number j i s r hs hr hj hret hret' heq)) F.reloop (inv.node j s hs hj)
  refine ⟨h', ⟨inv.le, inv.same, F.time.trans inv.time, F.first.trans inv.prog, fun hl => F.atoms.trans (inv.atoms hl), hnode, ?_⟩, ?_, ?_, ?_⟩
  · intro p s hs hp k c hk
    have ed := inv.edge p s hs hp k c hk
    have hlt : c < p := (ev.future p s hs hp).2.1 k c hk
    by_cases hpi : p = i
    · subst hpi
      rw [hr] at hs
      cases hs
      have hci : c ≠ p := by omega
      refine ⟨fun _ h => by omega, fun _ h => by omega, fun _ => ?_, fun _ ha => ?_⟩
      · rw [h'ne c hci, n1, n6]
        exact X.ptr k c hk
      · rw [h'ne c hci, n1]
        exact X.drained k c hk ha
    · by_cases hci : c = i
      · subst hci
        have hcp := hcne p hpi
        have hmode : ¬ (c < c ∧ c ≤ p) := by omega
        have hroom := ev.room p s hs hp k c hk
        refine ⟨fun _ _ => ?_, fun _ _ ha => ?_, fun hn => absurd ⟨Nat.lt_succ_self _, by omega⟩ hn,
          fun hn => absurd ⟨Nat.lt_succ_self _, by omega⟩ hn⟩
        · rw [hcp, h'i]
          cases hE : E.verdict with
          | none =>
              rw [g1 hE]
              exact (ed.read hmode).mono (Nat.le_refl _) fun _ _ => Or.inl trivial
          | some v =>
              have hext := g2 v hE
              have hv1 := (X.push v hE).1
              have hv2 := hvB v hE
              have hpos := ok.pos c ho
              have hnret := ok.noRet p c s r k hs hp hk hr
              have hfull : hi = h c ++ [v] → (h c).length < S.len c ∨ ∀ u, (h c).getLast? = some u → u.truth ≠ v.truth := by
                rw [← nd.len]; exact g5 hnret v hE
              rcases hroom with ha | hw
              · have hd := ed.drained hmode ha
                exact ((ed.read hmode).mono (P' := fun _ => False) (Nat.le_refl _) fun _ _ => Or.inr hd).push
                  hpos nd.ans.sorted hext hv1 hfull (fun _ _ hF => hF.elim)
              · refine (ed.read hmode).push hpos nd.ans.sorted hext hv1 hfull ?_
                intro T' w hT hw hne
                have := hT.1
                have := hlast hnret v w hE hw hne
                omega
        · rw [hcp, h'i]
          have hd := ed.drained hmode ha
          intro u hu hle
          cases hE : E.verdict with
          | none =>
              rw [g1 hE] at hu
              have := mem_lt_endOf nd.ans.sorted hu
              omega
          | some v =>
              rcases (g2 v hE).mem hu with hu' | rfl
              · have := mem_lt_endOf nd.ans.sorted hu'
                omega
              · rw [(g2 _ hE).endOf]
      · exact eedge_other hpi hci (hcne p hpi) (h'ne c hci) F.reloop ed
  · intro j
    by_cases hj : j = i
    · subst hj; rw [h'i]; exact hmono
    · exact Nat.le_of_eq (by rw [h'ne j hj])
  · intro hne
    rw [h'i]
    cases hE : E.verdict with
    | none => exact absurd (p1 hE) hne
    | some v =>
        rw [(g2 v hE).endOf]
        have := (X.push v hE).1
        omega
  · intro N hN hs
    exact exec_small hm X.step (fun v hv => by have := hvB v hv; omega) X.block (Or.inl X.edge) hs

theorem estep_own {S : Setup} (ev : S.Eventful) {tr : Nat → Nat → Bool} {V : Nat → Nat → Prop}
    (hV : Means S tr V) {t0 T : Nat} {late : Bool} {i : Nat} {m : Mon} {h : Nat → List Verdict}
    (inv : EInv S tr V t0 T late i m h) {r : TlRec} (hr : S.prog[i]? = some r) (ho : S.own i) :
    ∃ m' h', m.update r = some m' ∧ EInv S tr V t0 T late (i + 1) m' h' ∧ (∀ j, endOf (h j) ≤ endOf (h' j)) ∧
      (m'.progress ≠ m.progress → endOf (h i) < endOf (h' i)) ∧
      ∀ N : Nat, (T : Int) ≤ N + S.B i → Small N m → Small N m' := by
  obtain ⟨m', c2, E, hu, X⟩ := estep_future ev hV inv hr ho
  obtain ⟨h', h1, h2, h3, h4⟩ := estep_finish ev inv hr ho hu X
  exact ⟨m', h', hu, h1, h2, h3, h4⟩

theorem epass_safe {S : Setup} (ev : S.Eventful) {tr : Nat → Nat → Bool} {V : Nat → Nat → Prop} (hV : Means S tr V)
    {t0 T : Nat} {late : Bool} : ∀ (is : List TlRec) (pc : Nat) (m m' : Mon) (h : Nat → List Verdict),
    S.prog.drop pc = is → EInv S tr V t0 T late pc m h → Mon.pass is m = some m' →
      ∃ h', EInv S tr V t0 T late (pc + is.length) m' h' := by
  intro is
  induction is with
  | nil => rintro pc m m' h _ inv hp; cases hp; exact ⟨h, inv⟩
  | cons r is ih =>
      intro pc m m' h hd inv hp
      obtain ⟨hr, hd'⟩ := drop_cons hd
      simp only [Mon.pass, Option.bind_eq_some_iff] at hp
      obtain ⟨m1, hu, hp⟩ := hp
      have key : ∃ h1, EInv S tr V t0 T late (pc + 1) m1 h1 := by
        by_cases ho : S.own pc
        · obtain ⟨m2, h2, e1, e2, _⟩ := estep_own ev hV inv hr ho
          rw [hu] at e1; cases e1
          exact ⟨h2, e2⟩
        · exact ⟨h, estep_foreign ev.ok inv hr ho hu⟩
      obtain ⟨h1, inv1⟩ := key
      obtain ⟨h', inv'⟩ := ih (pc + 1) m1 m' h1 hd' inv1 hp
      refine ⟨h', ?_⟩
      rw [List.length_cons]
      rwa [show pc + (is.length + 1) = pc + 1 + is.length by omega]

theorem epass_total {S : Setup} (ev : S.Eventful) (all : ∀ i, i < S.prog.length → S.own i)
    {tr : Nat → Nat → Bool} {V : Nat → Nat → Prop} (hV : Means S tr V) {t0 T : Nat} {late : Bool} :
    ∀ (is : List TlRec) (pc : Nat) (m : Mon) (h : Nat → List Verdict),
    S.prog.drop pc = is → EInv S tr V t0 T late pc m h →
      ∃ m' h', Mon.pass is m = some m' ∧ EInv S tr V t0 T late (pc + is.length) m' h' ∧
        (∀ j, endOf (h j) ≤ endOf (h' j)) ∧
        (m'.progress ≠ m.progress → ∃ i, i < S.prog.length ∧ endOf (h i) < endOf (h' i)) := by
  intro is
  induction is with
  | nil => intro pc m h _ inv; exact ⟨m, h, rfl, inv, fun _ => Nat.le_refl _, fun hne => absurd rfl hne⟩
  | cons r is ih =>
      intro pc m h hd inv
      obtain ⟨hr, hd'⟩ := drop_cons hd
      have hlt := (List.getElem?_eq_some_iff.1 hr).1
      obtain ⟨m1, h1, e1, e2, e3, e4, _⟩ := estep_own ev hV inv hr (all pc hlt)
      obtain ⟨m2, h2, f1, f2, f3, f4⟩ := ih (pc + 1) m1 h1 hd' e2
      refine ⟨m2, h2, ?_, ?_, fun j => Nat.le_trans (e3 j) (f3 j), fun hne => ?_⟩
      · simp only [Mon.pass, e1, Option.bind_some, f1]
      · rw [List.length_cons]
        rwa [show pc + (is.length + 1) = pc + 1 + is.length by omega]
      · by_cases h1e : m1.progress = m.progress
        · obtain ⟨i, hi, hlt⟩ := f4 (by rw [h1e]; exact hne)
          exact ⟨i, hi, Nat.lt_of_le_of_lt (e3 i) hlt⟩
        · exact ⟨pc, hlt, Nat.lt_of_lt_of_le (e4 h1e) (f3 pc)⟩

theorem eend_pass {S : Setup} {tr : Nat → Nat → Bool} {V : Nat → Nat → Prop} {t0 T : Nat} {late : Bool} {m : Mon}
    {h : Nat → List Verdict} (inv : EInv S tr V t0 T late S.prog.length m h) :
    EInv S tr V t0 T true 0 { m with progress := .reloop } h := by
  refine ⟨inv.le, inv.same, inv.time, by simp, fun h => (by cases h), ?_, ?_⟩
  · intro i r hr ho
    have nd := inv.node i r hr ho
    exact ⟨nd.len, nd.lb, nd.ub, nd.ring, nd.ans, nd.own, nd.early, nd.change,
      ⟨nd.fast.1, fun hc => absurd hc.2.1 (Nat.not_lt_zero _)⟩, ⟨nd.bound.1, fun hc => absurd hc.2.1 (Nat.not_lt_zero _)⟩,
      fun hop => by rw [if_pos (Or.inl rfl)]; have := nd.load hop; rwa [if_pos (Or.inr (in_prog hr))] at this, nd.ret⟩
  · intro p r hr ho k c hk
    have ed := inv.edge p r hr ho k c hk
    have hp := in_prog hr
    have hmode : ¬ (c < S.prog.length ∧ S.prog.length ≤ p) := by omega
    refine ⟨fun h => by omega, fun h => by omega, fun _ => ?_, fun _ => ed.drained hmode⟩
    exact (ed.read hmode).mono (Nat.le_refl _) fun u hu => Or.inl ⟨hu.1, fun hc => absurd hc.2.1 (Nat.not_lt_zero _)⟩

/-- EBetween two rows: whatever time the next row covers. -/
def EBetween (S : Setup) (tr : Nat → Nat → Bool) (V : Nat → Nat → Prop) (e : Nat) (m : Mon) (h : Nat → List Verdict) :
    Prop :=
  ∀ T a, e ≤ T → (∀ s, e ≤ s → s ≤ T → tr s = a) → EInv S tr V e T false 0 { m with time := T, atoms := a } h

theorem eend_step {S : Setup} {tr : Nat → Nat → Bool} {V : Nat → Nat → Prop} {t0 T : Nat} {m : Mon}
    {h : Nat → List Verdict} (inv : EInv S tr V t0 T true S.prog.length m h) (hp : m.progress = .reloop) :
    EBetween S tr V (T + 1) { m with time := m.time + 1, progress := .first } h := by
  intro T' a hT hs
  have ha : tr T' = a := hs T' hT (Nat.le_refl _)
  have hle := inv.le
  refine ⟨hT, fun s h1 h2 => by rw [hs s h1 h2, ha], rfl, by simp, fun _ => ha.symm, ?_, ?_⟩
  · intro i r hr ho
    have nd := inv.node i r hr ho
    have hc : caught true S.prog.length m.progress i := ⟨rfl, in_prog hr, hp⟩
    refine ⟨nd.len, nd.lb, nd.ub, nd.ring, nd.ans, nd.own, fun u hu => by have := nd.early u hu; omega,
      fun s h1 h2 => by have := nd.change s h1 h2; omega, ⟨nd.fast.2 hc, fun hc => by cases hc.1⟩,
      ⟨nd.bound.2 hc, fun hc => by cases hc.1⟩, fun hop => ?_, nd.ret⟩
    rw [if_neg (by simp)]
    have := nd.load hop
    rwa [if_pos (Or.inl rfl)] at this
  · intro p r hr ho k c hk
    have ed := inv.edge p r hr ho k c hk
    have hpl := in_prog hr
    have hmode : ¬ (c < S.prog.length ∧ S.prog.length ≤ p) := by omega
    refine ⟨fun h => by omega, fun h => by omega, fun _ => ?_, fun _ => ed.drained hmode⟩
    exact (ed.read hmode).mono (Nat.le_refl _) fun u hu => Or.inl ⟨hu.2 ⟨rfl, hpl, hp⟩, fun hc => by cases hc.1⟩

theorem eloop_safe {S : Setup} (ev : S.Eventful) {tr : Nat → Nat → Bool} {V : Nat → Nat → Prop} (hV : Means S tr V)
    {t0 T : Nat} : ∀ (fuel : Nat) (late : Bool) (m m' : Mon) (h : Nat → List Verdict),
    EInv S tr V t0 T late 0 m h → Mon.loop S.prog fuel m = some m' →
      ∃ h', EBetween S tr V (T + 1) m' h' ∧
        ∀ (i : Nat) (r : TlRec), S.prog[i]? = some r → S.own i → ∀ u ∈ h' i, (u.time : Int) + S.B i ≤ T := by
  intro fuel
  induction fuel with
  | zero => intro late m m' h _ hl; cases hl
  | succ n ih =>
      intro late m m' h inv hl
      simp only [Mon.loop] at hl
      cases hp : Mon.pass S.prog m with
      | none => rw [hp] at hl; cases hl
      | some m1 =>
          rw [hp] at hl
          simp only at hl
          obtain ⟨h1, inv1⟩ := epass_safe ev hV S.prog 0 m m1 h (by simp) inv hp
          rw [Nat.zero_add] at inv1
          cases hpr : m1.progress with
          | first => rw [hpr] at hl; exact ih true _ _ h1 (eend_pass inv1) hl
          | again => rw [hpr] at hl; exact ih true _ _ h1 (eend_pass inv1) hl
          | reloop =>
              rw [hpr] at hl
              simp only [Option.some.injEq] at hl
              subst hl
              have hlate : late = true := by
                cases late with
                | true => rfl
                | false => have := inv1.prog.2 rfl; rw [this] at hpr; cases hpr
              subst hlate
              exact ⟨h1, eend_step inv1 hpr, fun i r hr ho => (inv1.node i r hr ho).early⟩

theorem einit {S : Setup} (ok : S.Ok) (hfut : ∀ i r, S.prog[i]? = some r → S.own i → r.Future i)
    (tr : Nat → Nat → Bool) (V : Nat → Nat → Prop) :
    EBetween S tr V 0 (Mon.init S.prog S.len S.lb S.ub S.lang) (fun _ => []) := by
  intro T a hT hs
  have ha : tr T = a := hs T hT (Nat.le_refl _)
  have inv := init_inv ok tr V
  refine ⟨hT, fun s h1 h2 => by rw [hs s h1 h2, ha], rfl, inv.prog, fun _ => ha.symm, ?_, ?_⟩
  · intro i r hr ho
    have nd := inv.node i r hr ho
    exact ⟨nd.len, nd.lb, nd.ub, nd.ring, nd.ans, nd.own, by simp, fun s h => by simp [endOf] at h,
      ⟨Nat.zero_le _, fun hc => by cases hc.1⟩, ⟨Nat.zero_le _, fun hc => by cases hc.1⟩,
      fun hop => by have := nd.load hop; rw [if_neg (by simp)]; simpa [dn] using this, nd.ret⟩
  · intro p r hr ho k c hk
    have ed := inv.edge p r hr ho k c hk
    have hnp := (hfut p r hr ho).notPast
    refine ⟨fun h => by omega, fun h => by omega, fun hm => ?_, fun hm ha => ed.drained hm ha hnp⟩
    exact (ed.read hm).mono (Nat.le_refl _) fun u hu => Or.inl ⟨Nat.zero_le _, fun hc => by cases hc.1⟩

theorem rowsEnd_le {tr : Nat → Nat → Bool} : ∀ (rows : List (Nat × (Nat → Bool))) (e : Nat), RowsSay tr e rows → e ≤ rowsEnd e rows := by
  intro rows
  induction rows with
  | nil => intro e _; exact Nat.le_refl _
  | cons x rows ih => intro e hs; have := ih _ hs.2.2; have := hs.1; simp only [rowsEnd]; omega

theorem erows_safe {S : Setup} (ev : S.Eventful) {tr : Nat → Nat → Bool} {V : Nat → Nat → Prop} (hV : Means S tr V)
    (fuel : Nat) : ∀ (rows : List (Nat × (Nat → Bool))) (e : Nat) (m m' : Mon) (h : Nat → List Verdict),
    RowsSay tr e rows → EBetween S tr V e m h →
    (∀ (i : Nat) (r : TlRec), S.prog[i]? = some r → S.own i → ∀ u ∈ h i, (u.time : Int) + S.B i < e) →
    Mon.runRows S.prog fuel rows m = some m' →
      ∃ h', EBetween S tr V (rowsEnd e rows) m' h' ∧
        ∀ (i : Nat) (r : TlRec), S.prog[i]? = some r → S.own i → ∀ u ∈ h' i, (u.time : Int) + S.B i < rowsEnd e rows := by
  intro rows
  induction rows with
  | nil => intro e m m' h _ hb he hr; cases hr; exact ⟨h, hb, he⟩
  | cons x rows ih =>
      obtain ⟨T, a⟩ := x
      intro e m m' h hs hb he hr
      simp only [Mon.runRows, Option.bind_eq_some_iff] at hr
      obtain ⟨m1, h1, h2⟩ := hr
      obtain ⟨s1, s2, s3⟩ := hs
      obtain ⟨h', b', e'⟩ := eloop_safe ev hV fuel false _ m1 h (hb T a s1 s2) h1
      exact ih (T + 1) m1 m' h' s3 b' (fun i r hr ho u hu => by have := e' i r hr ho u hu; omega) h2

/-! ### The loop ends -/

theorem eloop_late {S : Setup} (ev : S.Eventful) (all : ∀ i, i < S.prog.length → S.own i)
    {tr : Nat → Nat → Bool} {V : Nat → Nat → Prop} (hV : Means S tr V) {t0 T : Nat} :
    ∀ (fuel : Nat) (m : Mon) (h : Nat → List Verdict),
    EInv S tr V t0 T true 0 m h → m.progress = .reloop → todo S T h < fuel → ∃ m', Mon.loop S.prog fuel m = some m' := by
  intro fuel
  induction fuel with
  | zero => intro m h _ _ hf; omega
  | succ n ih =>
      intro m h inv hpr hf
      obtain ⟨m1, h1, e1, e2, e3, e4⟩ := epass_total ev all hV S.prog 0 m h (by simp) inv
      rw [Nat.zero_add] at e2
      simp only [Mon.loop, e1]
      cases hp1 : m1.progress with
      | first => have := e2.prog.1 hp1; cases this
      | reloop => exact ⟨_, rfl⟩
      | again =>
          refine ih _ h1 (eend_pass e2) rfl ?_
          obtain ⟨i, hi, hlt⟩ := e4 (by rw [hp1, hpr]; simp)
          have hbound : (endOf (h1 i) : Int) ≤ T + 1 - S.B i := by
            obtain ⟨r, hr⟩ : ∃ r, S.prog[i]? = some r := ⟨_, List.getElem?_eq_some_iff.2 ⟨hi, rfl⟩⟩
            have nd := e2.node i r hr (all i hi)
            have hne : endOf (h1 i) ≠ 0 := by omega
            unfold endOf at hne ⊢
            split
            · rename_i h0; rw [h0] at hne; exact absurd rfl hne
            · rename_i v hv
              have := nd.early v (List.mem_of_getLast? hv)
              omega
          have : todo S T h1 < todo S T h :=
            sumTo_lt (fun j _ => by have := e3 j; omega) ⟨i, hi, by omega⟩
          omega

theorem eloop_total {S : Setup} (ev : S.Eventful) (all : ∀ i, i < S.prog.length → S.own i)
    {tr : Nat → Nat → Bool} {V : Nat → Nat → Prop} (hV : Means S tr V) {t0 T fuel : Nat} {m : Mon}
    {h : Nat → List Verdict} (inv : EInv S tr V t0 T false 0 m h)
    (hf : sumTo (fun i => ((T : Int) - t0 + S.W i - S.B i).toNat + 1) S.prog.length + 2 ≤ fuel) :
    ∃ m', Mon.loop S.prog fuel m = some m' := by
  obtain ⟨n, rfl⟩ : ∃ n, fuel = n + 1 := ⟨fuel - 1, by omega⟩
  obtain ⟨m1, h1, e1, e2, e3, e4⟩ := epass_total ev all hV S.prog 0 m h (by simp) inv
  rw [Nat.zero_add] at e2
  have hp1 := e2.prog.2 rfl
  simp only [Mon.loop, e1, hp1]
  refine eloop_late ev all hV n _ h1 (eend_pass e2) rfl ?_
  have : todo S T h1 ≤ sumTo (fun i => ((T : Int) - t0 + S.W i - S.B i).toNat + 1) S.prog.length := by
    refine sumTo_le fun i hi => ?_
    obtain ⟨r, hr⟩ : ∃ r, S.prog[i]? = some r := ⟨_, List.getElem?_eq_some_iff.2 ⟨hi, rfl⟩⟩
    have nd := e2.node i r hr (all i hi)
    have := nd.bound.1
    omega
  omega

theorem erows_total {S : Setup} (ev : S.Eventful) (all : ∀ i, i < S.prog.length → S.own i)
    {tr : Nat → Nat → Bool} {V : Nat → Nat → Prop} (hV : Means S tr V) {fuel gap : Nat}
    (hf : sumTo (fun i => ((gap : Int) + S.W i - S.B i).toNat + 1) S.prog.length + 2 ≤ fuel) :
    ∀ (rows : List (Nat × (Nat → Bool))) (e : Nat) (m : Mon) (h : Nat → List Verdict),
    RowsSay tr e rows → rowsEnd e rows ≤ gap + 1 → EBetween S tr V e m h →
      ∃ m', Mon.runRows S.prog fuel rows m = some m' := by
  intro rows
  induction rows with
  | nil => intro e m h _ _ _; exact ⟨m, rfl⟩
  | cons x rows ih =>
      obtain ⟨T, a⟩ := x
      intro e m h hs hg hb
      obtain ⟨s1, s2, s3⟩ := hs
      have inv := hb T a s1 s2
      have hT : T ≤ gap := by have := rowsEnd_le rows (T + 1) s3; simp only [rowsEnd] at hg; omega
      obtain ⟨m1, h1⟩ := eloop_total (fuel := fuel) ev all hV inv (Nat.le_trans (Nat.add_le_add_right
        (sumTo_le fun i _ => by omega) 2) hf)
      obtain ⟨h', b', _⟩ := eloop_safe ev hV fuel false _ m1 h inv h1
      obtain ⟨m', h2⟩ := ih (T + 1) m1 h' s3 hg b'
      exact ⟨m', by simp only [Mon.runRows, h1, Option.bind_some, h2]⟩

end R2U2
