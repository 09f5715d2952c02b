import Verif.Lemmas.Event
import Verif.Lemmas.EndToEnd
import Verif.Lemmas.Refine
/-
Event rows on the C memory, and for compiled programs.
-/
namespace R2U2
namespace Flat

theorem epass_rel {S : Setup} (ev : S.Eventful) (all : ∀ i, i < S.prog.length → S.own i)
    {tr : Nat → Nat → Bool} {V : Nat → Nat → Prop} (hV : S.Means tr V) {t0 T N : Nat} (hN : N < 2 ^ 31 - 1) (ht : T ≤ N)
    (hB : ∀ i, i < S.prog.length → (T : Int) ≤ N + S.B i) {late : Bool} :
    ∀ (is : List TlRec) (pc : Nat) (F : Flat) (m m' : Mon) (h : Nat → List Verdict),
    S.prog.drop pc = is → EInv S tr V t0 T late pc m h → Small N m → Mon.pass is m = some m' →
    Wf S.prog F → InTable S.prog F.lim → Rel S.prog F m →
      ∃ F' h', F.pass is = some F' ∧ Wf S.prog F' ∧ F'.lim = F.lim ∧ Rel S.prog F' m' ∧
        EInv S tr V t0 T late (pc + is.length) m' h' ∧ Small N m' := by
  intro is
  induction is with
  | nil => rintro pc F m m' h _ inv sm hp w tb R; cases hp; exact ⟨F, h, rfl, w, rfl, R, inv, sm⟩
  | cons r is ih =>
      intro pc F m m' h hd inv sm hp w tb R
      obtain ⟨hr, hd'⟩ := drop_cons hd
      have hlt := (List.getElem?_eq_some_iff.1 hr).1
      simp only [Mon.pass, Option.bind_eq_some_iff] at hp
      obtain ⟨m1, hu, hp⟩ := hp
      obtain ⟨m2, h2, e1, e2, _, _, e5⟩ := estep_own ev hV inv hr (all pc hlt)
      rw [hu] at e1; cases e1
      have fits : Fits r m := by
        constructor
        rw [inv.time]
        split
        · rename_i hop
          have hps : r.past = true := by rcases hop with h | h <;> simp [TlRec.past, h]
          have := (ev.future pc r hr (all pc hlt)).notPast
          rw [hps] at this; cases this
        · omega
      have e5 := e5 N (hB pc hlt)
      obtain ⟨F1, f1, f2, f3, f4⟩ := update_rel w tb R hr fits hN (e5 sm) hu
      obtain ⟨F2, h3, g1, g2, g3, g4, g5, g6⟩ := ih (pc + 1) F1 m1 m' h2 hd' e2 (e5 sm) hp f2 (by rw [f3]; exact tb) f4
      refine ⟨F2, h3, ?_, g2, g3.trans f3, g4, ?_, g6⟩
      · simp only [Flat.pass, f1, Option.bind_some, g1]
      · rw [List.length_cons]
        rwa [show pc + (is.length + 1) = pc + 1 + is.length by omega]

theorem eloop_rel {S : Setup} (ev : S.Eventful) (all : ∀ i, i < S.prog.length → S.own i)
    {tr : Nat → Nat → Bool} {V : Nat → Nat → Prop} (hV : S.Means tr V) {t0 T N : Nat} (hN : N < 2 ^ 31 - 1) (ht : T ≤ N)
    (hB : ∀ i, i < S.prog.length → (T : Int) ≤ N + S.B i) :
    ∀ (fuel : Nat) (late : Bool) (F : Flat) (m m' : Mon) (h : Nat → List Verdict),
    EInv S tr V t0 T late 0 m h → Small N m → Mon.loop S.prog fuel m = some m' →
    Wf S.prog F → InTable S.prog F.lim → Rel S.prog F m →
      ∃ F', F.loop S.prog fuel = some F' ∧ Wf S.prog F' ∧ F'.lim = F.lim ∧ Rel S.prog F' m' ∧ Small N m' := by
  intro fuel
  induction fuel with
  | zero => intro late F m m' h _ _ hl; cases hl
  | succ n ih =>
      intro late F m m' h inv sm hl w tb R
      simp only [Mon.loop] at hl
      cases hp : Mon.pass S.prog m with
      | none => rw [hp] at hl; cases hl
      | some m1 =>
          rw [hp] at hl
          simp only at hl
          obtain ⟨F1, h1, g1, g2, g3, g4, g5, g6⟩ := epass_rel ev all hV hN ht hB S.prog 0 F m m1 h (by simp) inv sm hp w tb R
          rw [Nat.zero_add] at g5
          unfold Flat.loop
          rw [g1]
          simp only []
          rw [g4.progress]
          have again : ∀ (hl : Mon.loop S.prog n { m1 with progress := .reloop } = some m'),
              ∃ F', Flat.loop S.prog n { F1 with progress := .reloop } = some F' ∧ Wf S.prog F' ∧ F'.lim = F.lim ∧
                Rel S.prog F' m' ∧ Small N m' := by
            intro hl
            obtain ⟨F2, a1, a2, a3, a4⟩ := ih true { F1 with progress := .reloop } { m1 with progress := .reloop } m' h1
              (eend_pass g5) (small_congr g6 (Nat.le_refl _) rfl) hl (Wf.congr g2 rfl rfl) (by rw [show ({ F1 with progress := .reloop } : Flat).lim = F1.lim from rfl, g3]; exact tb)
              (rel_congr g4 rfl rfl rfl g4.time rfl g4.atoms g4.out)
            exact ⟨F2, a1, a2, a3.trans g3, a4⟩
          cases hpr : m1.progress with
          | first => rw [hpr] at hl; exact again hl
          | again => rw [hpr] at hl; exact again hl
          | reloop =>
              rw [hpr] at hl
              simp only [Option.some.injEq] at hl
              subst hl
              refine ⟨_, rfl, Wf.congr g2 rfl rfl, g3, ?_, small_congr g6 (Nat.le_refl _) rfl⟩
              exact rel_congr g4 rfl rfl rfl (by simp [g4.time]) rfl g4.atoms g4.out

theorem erows_rel {S : Setup} (ev : S.Eventful) (all : ∀ i, i < S.prog.length → S.own i)
    {tr : Nat → Nat → Bool} {V : Nat → Nat → Prop} (hV : S.Means tr V) {N : Nat} (hN : N < 2 ^ 31 - 1) (fuel : Nat) :
    ∀ (rows : List (Nat × (Nat → Bool))) (e : Nat) (F : Flat) (m m' : Mon) (h : Nat → List Verdict),
    RowsSay tr e rows → rowsEnd e rows ≤ N + 1 → (∀ i, i < S.prog.length → (rowsEnd e rows : Int) ≤ N + 1 + S.B i) →
    EBetween S tr V e m h → Small N m → Mon.runRows S.prog fuel rows m = some m' →
    Wf S.prog F → InTable S.prog F.lim → Rel S.prog F m →
      ∃ F', F.runRows S.prog fuel rows = some F' ∧ Rel S.prog F' m' := by
  intro rows
  induction rows with
  | nil => intro e F m m' h _ _ _ _ _ hr _ _ R; cases hr; exact ⟨F, rfl, R⟩
  | cons x rows ih =>
      obtain ⟨T, a⟩ := x
      intro e F m m' h hs hn hB hb sm hr w tb R
      simp only [Mon.runRows, Option.bind_eq_some_iff] at hr
      obtain ⟨m1, h1, h2⟩ := hr
      obtain ⟨s1, s2, s3⟩ := hs
      have hT : T + 1 ≤ rowsEnd (T + 1) rows := rowsEnd_le rows _ s3
      simp only [rowsEnd] at hn hB
      have inv := hb T a s1 s2
      obtain ⟨F1, b1, b2, b3, b4, b5⟩ := eloop_rel ev all hV hN (by omega) (fun i hi => by have := hB i hi; omega) fuel false
        { F with time := T, atoms := a } _ m1 h inv (small_congr sm (Nat.le_refl _) rfl) h1 (Wf.congr w rfl rfl) tb
        (rel_congr R rfl rfl rfl rfl R.progress rfl R.out)
      obtain ⟨h', b', _⟩ := eloop_safe ev hV fuel false _ m1 h inv h1
      obtain ⟨F2, c1, c2⟩ := ih (T + 1) F1 m1 m' h' s3 hn hB b' b5 h2 b2 (by rw [b3]; exact tb) b4
      exact ⟨F2, by simp only [Flat.runRows, b1, Option.bind_some, c1], c2⟩

theorem small_init (prog : List TlRec) (len : Nat → Nat) (lb ub : Nat → Nat) (N : Nat) : Small N (Mon.init prog len lb ub) := by
  intro q
  refine ⟨?_, Nat.zero_le _, Nat.zero_le _⟩
  intro k v hv
  simp only [Mon.init, Ctrl.init] at hv
  split at hv
  · cases hv
  · cases hv; exact Nat.zero_le _

end Flat

namespace BProg
variable {P : BProg} {scq : Nat → Option (Int × Int)} {A : Assembly} {q : Nat → Nat} {d : Dict TlInstr} {k : Int} {ahead turn lag : Nat → Int}

theorem setup_eventful (T : Table P scq A q d) (hr : P.Ready) (hcov : P.Covered)
    (hm : P.Monitorable ahead turn lag k) (hev : P.EventReady turn lag k)
    (ok : (P.setupOf ahead turn lag scq A d).Ok)
    (hlen : ∀ x, P.NeedsTl P.ft x ∨ P.NeedsTl P.pt x → ∃ n, P.scqSize k x = some n ∧ queueLen scq x = n ∧ 1 ≤ n) :
    (P.setupOf ahead turn lag scq A d).Eventful := by
  have hop : ∀ (i : Nat) (r : TlRec), ((A.ft ++ A.pt).map TlInstr.asRec)[i]? = some r → ∀ b j, r.arg b = some (.sub j) →
      P.engine (nodeAt d i) = .tl ∧ P.Live (nodeAt d i) ∧ Form P q (nodeAt d i) i r ∧
      ∃ c ∈ P.heap.kids (nodeAt d i), P.Varies c ∧ q c = j ∧
        (P.setupOf ahead turn lag scq A d).C j = turn c ∧ P.slots k c + 1 = ((P.setupOf ahead turn lag scq A d).len j : Int) := by
    intro i r hi b j hb
    obtain ⟨h1, _, h3⟩ := T.form hr hm hi
    obtain ⟨he, c, hc, hv, rfl⟩ := form_sub h3 hb
    refine ⟨he, NeedsTl.live h1, h3, c, hc, hv, rfl, ?_⟩
    obtain ⟨h1', r', h2⟩ := T.kid hcov (NeedsTl.live h1) he hc hv
    have hform := hm.top _ c (NeedsTl.live h1) he hc
    have ht : P.tgt c = c := tgt_self hform
    obtain ⟨f1, _, _⟩ := T.form hr hm h2
    rw [h1'] at f1
    obtain ⟨n, h4, h5, h6⟩ := hlen c f1
    have hn : n = max (P.maxWpd c - P.bpd c) 0 + 1 + k := by
      unfold scqSize at h4
      rw [hform] at h4
      simp only [Bool.false_eq_true, if_false] at h4
      split at h4
      · cases h4
      · rw [show (P.heap.lab c).isBoolConst = false from hv] at h4
        simp only [Bool.false_eq_true, if_false, Option.some.injEq] at h4
        exact h4.symm
    have hlt : q c < d.length := by
      have := (List.getElem?_eq_some_iff.1 h2).1
      rw [List.length_map, T.length] at this
      exact this
    have hL : (P.setupOf ahead turn lag scq A d).len (q c) = n.toNat := by
      simp only [setupOf, lenAt, if_pos hlt, h1', h5]
    refine ⟨by simp only [setupOf, h1', ht], ?_⟩
    rw [hL]
    unfold slots
    omega
  have hnp : ∀ (i : Nat) (r : TlRec), ((A.ft ++ A.pt).map TlInstr.asRec)[i]? = some r → r.past = false := by
    intro i r hi
    obtain ⟨h1, _, h3⟩ := T.form hr hm hi
    cases hp : r.past with
    | false => rfl
    | true =>
        obtain ⟨_, _, lb, ub, hl, _⟩ := form_past h3 hp
        exact absurd ⟨lb, ub, hl⟩ (hev.future _ (NeedsTl.live h1))
  have hno : ∀ i r, ((A.ft ++ A.pt).map TlInstr.asRec)[i]? = some r → P.engine (nodeAt d i) = .tl →
      (P.heap.lab (nodeAt d i)).isFormula = true → ∃ c, P.heap.kids (nodeAt d i) = [c] ∧ P.tgt (nodeAt d i) = c ∧ r.temporal = false := by
    intro i r hi he hf
    obtain ⟨h1, _, h3⟩ := T.form hr hm hi
    obtain ⟨n, hl⟩ : ∃ n, P.heap.lab (nodeAt d i) = .formula n := by
      cases hl : P.heap.lab (nodeAt d i) <;> rw [hl] at hf <;> simp [BNode.isFormula] at hf; exact ⟨_, rfl⟩
    obtain ⟨c', hk', ht, hr'⟩ := form_formula h3 (atom_not_tl hr he) hl
    exact ⟨c', hk', ht, by rw [hr']; rfl⟩
  refine ⟨ok, ?_, ?_, ?_, ?_, ?_⟩
  · intro i r hi ho
    rcases ok.handled i r hi ho with h | h
    · exact h
    · have h0 := hnp i r hi
      have h1 := h.2.2.2
      exfalso
      unfold TlRec.past at h0
      revert h0 h1
      cases r.opcode with
      | none => intro _ h; exact h
      | some o => cases o <;> simp
  · intro i r hi _ ht
    obtain ⟨h1, _, h3⟩ := T.form hr hm hi
    obtain ⟨_, o, lb, ub, hl⟩ := form_temporal h3 (.inl ht)
    rcases form_args h3 with ⟨a, h1', ho, _⟩ | ⟨he, ⟨c, hk, hv, h2⟩ | ⟨c, c', hk, h2⟩⟩
    · simp [TlRec.temporal, ho] at ht
    · have := hev.single _ o lb ub c [] (NeedsTl.live h1) hl hk
      rw [hv] at this; cases this
    · have := hev.single _ o lb ub c [c'] (NeedsTl.live h1) hl hk
      rw [h2 false]
      simp only [Bool.false_eq_true, if_false]
      unfold argFor
      cases hl : P.heap.lab c <;> rw [hl] at this <;> simp [BNode.isBoolConst] at this
      exact ⟨_, rfl⟩
  · intro i r hi _ b j hb
    obtain ⟨he, hx, h3, c, hc, hv, rfl, b2, b3⟩ := hop i r hi b j hb
    have hat := atom_not_tl hr he
    rcases hev.room _ c hx he (mem_operands hc hv) with h | h
    · left
      intro b' c' h'
      obtain ⟨_, e, he', hv', rfl⟩ := form_sub h3 h'
      rw [h e (mem_operands he' hv')]
    · right
      have key : ∀ b', ((P.setupOf ahead turn lag scq A d).argW (r.arg b') : Int) + 1 ≤
          (P.setupOf ahead turn lag scq A d).C (q c) + (P.setupOf ahead turn lag scq A d).len (q c) := by
        intro b'
        rcases form_kids h3 b' with ⟨a, ha, _⟩ | ⟨_, e, hek, heb⟩
        · rw [hat] at ha; cases ha
        · rw [heb, T.argW hcov hm hx he hek]
          have := h e hek
          split <;> omega
      have k1 := key false
      have k2 := key true
      unfold Setup.opW
      omega
  · intro i r hi _ ho
    obtain ⟨h1, _, h3⟩ := T.form hr hm hi
    obtain ⟨a, ha⟩ := form_load h3 ho
    have hnt : P.engine (nodeAt d i) ≠ .tl := hr.atoms_tl _ (by simp [ha])
    have ht : P.tgt (nodeAt d i) = nodeAt d i := by
      unfold tgt
      cases hl : P.heap.lab (nodeAt d i) <;> try rfl
      simp [engine, hl, BNode.engine] at hnt
    show turn (P.tgt (nodeAt d i)) ≤ 0
    rw [ht]
    exact hev.leaf _ (by simp [ha])
  · intro i r hi _ b j hb
    obtain ⟨he, hx, h3, c, hc, hv, rfl, b2, b3⟩ := hop i r hi b j hb
    rw [b2]
    show turn (P.tgt (nodeAt d i)) ≤ turn c + ((if r.temporal then (P.heap.lab (nodeAt d i)).lo else 0 : Nat) : Int)
    by_cases hf : (P.heap.lab (nodeAt d i)).isFormula = true
    · obtain ⟨c', hk', ht, htm⟩ := hno i r hi he hf
      rw [hk'] at hc
      simp at hc
      subst hc
      rw [ht, htm]
      simp
    · have := hev.calm _ c hx he (by simpa using hf) (mem_operands hc hv)
      rw [tgt_self (by simpa using hf)]
      obtain ⟨i1, _, _⟩ := form_interval h3 he (atom_not_tl hr he)
      rw [hnp i r hi] at i1
      simp only [Bool.false_eq_true, if_false] at i1
      omega

end BProg
end R2U2
