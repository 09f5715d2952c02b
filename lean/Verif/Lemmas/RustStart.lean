import Verif.Lemmas.RustLoad
import Verif.Lemmas.EndToEnd
import Verif.Props.Rust
import Verif.Props.Binary
import Verif.Props.Arena
import Mathlib.Data.List.Nodup
/-
The Rust monitor on what the compiler writes.
-/
namespace R2U2
open BProg

/-- The sum of the recorded lengths is what the queues of the Rust monitor take. -/
theorem sum_lens {P : BProg} {scq : Nat → Option (Int × Int)} {len : Nat → Nat} {tmp : Nat → Bool} {lb ub : Nat → Nat} :
    ∀ (d : Dict TlInstr) (n : Nat), Fits4 P scq n d len tmp lb ub → (∀ e ∈ d, 0 ≤ queueLen scq e.1) →
    slotSum (cgOf P scq d) + sumTo len n = sumTo len (n + d.length) := by
  intro d
  induction d with
  | nil => intro n _ _; simp [slotSum, cgOf]
  | cons e d ih =>
      intro n hf hp
      have i1 := ih (n + 1) hf.tail fun e' he' => hp e' (List.mem_cons_of_mem _ he')
      have h1 := hf.len 0 e rfl
      simp only [Nat.add_zero] at h1
      have hpe := hp e List.mem_cons_self
      have hlen : n + (e :: d).length = n + 1 + d.length := by simp; omega
      have hs : slotSum (cgOf P scq (e :: d)) = queueLen scq e.1 + slotSum (cgOf P scq d) := by
        rw [cgOf_cons]
        unfold slotSum genScq
        cases P.heap.lab e.1 <;> simp
      rw [hlen, ← i1, hs]
      simp only [sumTo]
      rw [h1]
      push_cast
      omega

namespace BProg

theorem Table.rust {P : BProg} {scq : Nat → Option (Int × Int)} {A : Assembly} {q : Nat → Nat} {d : Dict TlInstr}
    (T : Table P scq A q d) (hreads : ∀ pre i post, A.ft ++ A.pt = pre ++ i :: post → ∀ r ∈ i.reads, ∃ j ∈ pre, (j.id : Int) = r)
    (hlen : ∀ e ∈ d, 1 ≤ queueLen scq e.1) (bz : Bool) (signals : Nat) (ids : List Nat)
    (hid : ∀ e ∈ d, ∀ a, P.atomicId e.1 = some a → a < countDistinct ids)
    (lim : Rs.Limits) (hlim : Rs.Covers lim (computeBounds bz signals ids A)) (ahead turn lag : Nat → Int)
    {bytes : List Nat} {es : List LoadEv} {stop fuel : Nat}
    (hl : loadBinary fuel bytes = some (es, stop)) (hb : Rs.BzRoom lim es) (ht : LoadEv.tlTable es = (A.ft ++ A.pt).map TlInstr.asRec)
    (hc : LoadEv.configs es = A.cg.map (·.instr.asRec)) :
    Rs.InTable ((A.ft ++ A.pt).map TlInstr.asRec) lim ∧
    ∃ M, Rs.getMonitor lim fuel bytes = some M ∧ Rs.Loaded { P.setupOf ahead turn lag scq A d with lang := .rust } M ∧ M.lim = lim ∧
      Rs.Placed ((A.ft ++ A.pt).map TlInstr.asRec).length lim M.blocks := by
  obtain ⟨tb0, _⟩ := T.start hreads hlen bz signals ids hid
  have tb : Rs.InTable ((A.ft ++ A.pt).map TlInstr.asRec) lim := by
    refine ⟨tb0.mem, tb0.sub, fun i r k a h1 h2 => lt_of_lt_of_le (tb0.atom i r k a h1 h2) hlim.atomics, ?_⟩
    rw [List.length_map]
    exact hlim.tl
  refine ⟨tb, ?_⟩
  have hn := T.length
  have hfit := fits4 P scq d
  have hpos : ∀ j, 0 < lenAt scq d j := by
    intro j
    unfold lenAt
    split
    · rename_i h
      have he : d[j]? = some d[j] := List.getElem?_eq_getElem h
      rw [nodeAt_some he]
      have := hlen d[j] (List.getElem_mem h)
      omega
    · omega
  obtain ⟨c1, c2⟩ := shape d 0 T.ids hfit
  have s1 := sum_lens d 0 hfit (fun e he => by have := hlen e he; omega)
  have hcfg : A.cg.map (·.instr.asRec) = (List.range ((A.ft ++ A.pt).map TlInstr.asRec).length).map
        (sizeRec (lenAt scq d) (fun i => (P.heap.lab (nodeAt d i)).isTemp)) ++
      ((List.range ((A.ft ++ A.pt).map TlInstr.asRec).length).filter (fun i => (P.heap.lab (nodeAt d i)).isTemp)).map
        (tempRec (fun i => (P.heap.lab (nodeAt d i)).lo) (fun i => (P.heap.lab (nodeAt d i)).hi)) := by
    rw [T.cg, List.map_append, c1, c2, List.length_map, hn, List.range_eq_range']
  have hslots : sumTo (lenAt scq d) ((A.ft ++ A.pt).map TlInstr.asRec).length ≤ lim.slots := by
    rw [List.length_map, hn]
    have g1 : A.cg.filter (fun c => !c.temp) = (cgOf P scq d).filter (fun c => !c.temp) := by
      rw [T.cg, List.filter_append, List.filter_filter, List.filter_filter]; simp
    have h1 := hlim.slots
    simp only [computeBounds, g1] at h1
    have h0 : sumTo (lenAt scq d) 0 = 0 := rfl
    rw [h0] at s1
    simp only [Nat.zero_add] at s1
    unfold slotSum at s1
    omega
  exact Rs.load_ok (S := { P.setupOf ahead turn lag scq A d with lang := .rust }) hl hb ht (by rw [hc]; exact hcfg) tb hpos hslots hlim.small (by
      intro i r hr ht
      obtain ⟨e, _, he, h, _, hn⟩ := T.at hr
      show (P.heap.lab (nodeAt d i)).isTemp = true
      rw [hn, T.isTemp he]
      subst h
      unfold TlRec.temporal TlRec.past at ht
      simp only [TlInstr.asRec] at ht
      revert ht
      cases e.2.op <;> simp [TlOp.isTemporal])

/-- The nodes of the instructions that report. -/
def retNodes (prog : List TlRec) (d : Dict TlInstr) (n : Nat) : List Nat :=
  ((List.range n).filter fun i => decide (prog[i]?.bind TlRec.opcode = some .ret)).map (nodeAt d)

theorem reports_sum (S : Setup) (d : Dict TlInstr) (w : Nat → Nat) (hw : ∀ i, S.burst i = w (nodeAt d i)) (n : Nat) :
    S.reportsPerStep n = ((retNodes S.prog d n).map w).sum := by
  induction n with
  | zero => rfl
  | succ n ih =>
      simp only [Setup.reportsPerStep, ih, retNodes, List.range_succ, List.filter_append, List.map_append, List.sum_append]
      congr 1
      by_cases h : S.prog[n]?.bind TlRec.opcode = some .ret
      · rw [if_pos h]; simp [h, hw]
      · rw [if_neg h]; simp [h]

theorem nodeAt_inj {d : Dict TlInstr} (hd : (Dict.keys d).Nodup) {i j : Nat} (hi : i < d.length) (hj : j < d.length) (h : nodeAt d i = nodeAt d j) : i = j := by
  have e1 : d[i]? = some d[i] := List.getElem?_eq_getElem hi
  have e2 : d[j]? = some d[j] := List.getElem?_eq_getElem hj
  rw [nodeAt_some e1, nodeAt_some e2] at h
  unfold Dict.keys at hd
  exact (List.Nodup.getElem_inj_iff hd (hi := by simpa using hi) (hj := by simpa using hj)).1 (by simpa using h)

/-- What a formula's verdicts of one step can be. -/
def burstAt (P : BProg) (ahead lag : Nat → Int) (x : Nat) : Nat := (((lag (P.tgt x)).toNat : Int) - ahead (P.tgt x) + 1).toNat

/-- The Rust monitor on an assembled program, with the atomics as given: the counterpart of `C55_end_to_end_partial`. -/
theorem rust_run (P : BProg) (hr : P.Ready) (hsep : P.Separate) (hcov : P.Covered)
    (k : Int) (hk : 0 ≤ k) (ahead turn lag : Nat → Int) (hm : P.Monitorable ahead turn lag k)
    (fuel fuel' : Nat) (s : ScqState) (hs : P.computeScq fuel k = some s) (A : Assembly)
    (h : genAssembly fuel' P s.scq = some A) (signals : Nat) (ids : List Nat)
    (hid : ∀ x a, P.atomicId x = some a → a < (computeBounds P.bz signals ids A).maxAtomics)
    (aux : List Nat) (hb : ∀ i ∈ A.bz, (Instr.bz i).Fits) (hf : ∀ i ∈ A.ft, (Instr.tl i).Fits)
    (hp : ∀ i ∈ A.pt, (Instr.tl i).Fits) (hc : ∀ i ∈ A.cg, (Instr.cg i).Fits)
    (lim : Rs.Limits) (hlim : Rs.Covers lim (computeBounds P.bz signals ids A))
    (hroom : ∀ es, LoadEv.bzPart es = A.bz.map (fun i => (Instr.bz i).event) → Rs.BzRoom lim es)
    (hcap : ∀ l : List Nat, l.Nodup → (∀ x ∈ l, P.Live x ∧ (P.heap.lab x).isFormula = true) → (l.map (P.burstAt ahead lag)).sum ≤ lim.outputs) :
    ∃ bytes bound, assembleBytes A.instrs aux = some bytes ∧
      ∀ fuel, bound ≤ fuel → ∃ M0, Rs.getMonitor lim fuel bytes = some M0 ∧
      ∀ (tr : Nat → Nat → Bool) (n : Nat), n < 2 ^ 32 → (∀ x, P.Live x → (n : Int) < 2 ^ 32 + ahead x) →
        ∃ M out, M0.run fuel tr n = some (M, out) ∧ M.time = n ∧
          ∀ x f c e, P.Live x → P.heap.lab x = .formula f → P.heap.kids x = [c] → P.Says c e →
            Answers (R2U2.sat (fun t a => tr t a = true) e) (Rs.reports out f) ∧
            (∀ s, s + (lag c).toNat < n → ∃ v ∈ Rs.reports out f, s ≤ v.time) ∧
            (∀ v ∈ Rs.reports out f, (v.time : Int) + ahead c < n) := by
  obtain ⟨q, d, T⟩ := table P hr hsep hcov fuel' s.scq A h
  have hlen : ∀ x, P.NeedsTl P.ft x ∨ P.NeedsTl P.pt x → ∃ n, P.scqSize k x = some n ∧ queueLen s.scq x = n ∧ 1 ≤ n :=
    fun x hx => queue_pos hr hk hs hx
  have hreads := (C22_operands P hr hsep fuel' s.scq A h).2
  have hlen1 : ∀ e ∈ d, 1 ≤ queueLen s.scq e.1 := by
    intro e he
    obtain ⟨n, _, h5, h6⟩ := hlen e.1 ((T.needs e.1).1 (List.mem_map.2 ⟨e, he, rfl⟩))
    omega
  obtain ⟨bytes, es, stop, e1, e2, e3, e4, e5⟩ := C25_tables_partial A aux hb hf hp hc
  rw [← List.map_append] at e3
  obtain ⟨tb, _⟩ := T.start hreads hlen1 P.bz signals ids (fun e _ a ha => hid e.1 a ha)
  have ok : (P.setupOf ahead turn lag s.scq A d).Ok := setup_ok T hr hcov hk hm tb.mem hreads hlen
  have okr := ok.lang .rust
  have all : ∀ i, i < ({ P.setupOf ahead turn lag s.scq A d with lang := .rust } : Setup).prog.length →
    ({ P.setupOf ahead turn lag s.scq A d with lang := .rust } : Setup).own i := fun _ _ => trivial
  have start : ∀ fl, A.instrs.length < fl → _ := fun fl hfl =>
    T.rust hreads hlen1 P.bz signals ids (fun e _ a ha => hid e.1 a ha) lim hlim ahead turn lag (e2 fl hfl) (hroom es e5) e3 e4
  have tgtlive : ∀ i, i < (P.setupOf ahead turn lag s.scq A d).prog.length → P.Live (P.tgt (nodeAt d i)) := by
    intro i hi
    obtain ⟨r, hri⟩ : ∃ r, (P.setupOf ahead turn lag s.scq A d).prog[i]? = some r := ⟨_, List.getElem?_eq_some_iff.2 ⟨hi, rfl⟩⟩
    obtain ⟨f1, _, f3⟩ := T.form hr hm hri
    by_cases hf : (P.heap.lab (nodeAt d i)).isFormula = true
    · obtain ⟨n, hl⟩ : ∃ n, P.heap.lab (nodeAt d i) = .formula n := by
        cases hl : P.heap.lab (nodeAt d i) <;> rw [hl] at hf <;> simp [BNode.isFormula] at hf; exact ⟨_, rfl⟩
      obtain ⟨c', hk', ht, _⟩ := form_formula f3 (atom_not_tl hr (by simp [engine, hl, BNode.engine])) hl
      rw [ht]
      exact (NeedsTl.live f1).kid (by rw [hk']; simp)
    · rw [tgt_self (by simpa using hf)]
      exact NeedsTl.live f1
  have cap : ({ P.setupOf ahead turn lag s.scq A d with lang := .rust } : Setup).reportsPerStep (P.setupOf ahead turn lag s.scq A d).prog.length ≤ lim.outputs := by
    rw [reports_sum _ d (P.burstAt ahead lag) (fun i => rfl)]
    apply hcap
    · unfold retNodes
      refine List.Nodup.map_on ?_ (List.Nodup.filter _ List.nodup_range)
      intro i hi j hj hij
      rw [List.mem_filter, List.mem_range] at hi hj
      have hl : (P.setupOf ahead turn lag s.scq A d).prog.length = d.length := by
        show ((A.ft ++ A.pt).map TlInstr.asRec).length = _
        rw [List.length_map, T.length]
      rw [hl] at hi hj
      exact nodeAt_inj T.nodup hi.1 hj.1 hij
    · intro x hx
      unfold retNodes at hx
      rw [List.mem_map] at hx
      obtain ⟨i, hi, rfl⟩ := hx
      rw [List.mem_filter, List.mem_range, decide_eq_true_eq, Option.bind_eq_some_iff] at hi
      obtain ⟨_, r, hri, hop⟩ := hi
      obtain ⟨f1, _, f3⟩ := T.form hr hm hri
      refine ⟨NeedsTl.live f1, ?_⟩
      cases f3 with
      | ret c n h1 h2 => rw [h2]; rfl
      | _ => simp [binRec] at hop
  obtain ⟨_, M0, _⟩ := start (A.instrs.length + 1) (Nat.lt_succ_self _)
  have mons : ∃ bound, ∀ fl, bound ≤ fl → ∃ M0, Rs.getMonitor lim fl bytes = some M0 ∧ ∀ (tr : Nat → Nat → Bool) (n : Nat), n < 2 ^ 32 →
      (∀ i, i < (P.setupOf ahead turn lag s.scq A d).prog.length → (n : Int) < 2 ^ 32 + (P.setupOf ahead turn lag s.scq A d).B i) →
      ∃ m, (P.setupOf ahead turn lag s.scq A d).Means tr m ∧ ∃ M out, M0.run fl tr n = some (M, out) ∧ M.time = n ∧
        ∀ (i : Nat) (r : TlRec), (P.setupOf ahead turn lag s.scq A d).prog[i]? = some r → r.opcode = some .ret →
          Answers (m i) (Rs.reports out r.v2) ∧
          (∀ s', s' + (P.setupOf ahead turn lag s.scq A d).W i < n → ∃ v ∈ Rs.reports out r.v2, s' ≤ v.time) ∧
          (∀ v ∈ Rs.reports out r.v2, (v.time : Int) + (P.setupOf ahead turn lag s.scq A d).B i < n) := by
    obtain ⟨bound, hbound⟩ := C45_ends_partial _ okr all
    refine ⟨max bound (A.instrs.length + 1), fun fl hfl => ?_⟩
    obtain ⟨tb', M0, m1, m2, m3, m4⟩ := start fl (by omega)
    refine ⟨M0, m1, fun tr n hn hB => ?_⟩
    obtain ⟨V, hV⟩ := exists_means ok tr
    refine ⟨V, hV, ?_⟩
    obtain ⟨m, hm'⟩ := hbound fl (by omega) tr n
    obtain ⟨M', h1, hsim, _⟩ := Rs.run_sim okr rfl all m2 (by rw [m3]; exact tb') (by rw [m3]; exact m4) (by rw [m3]; exact cap) (N := 2 ^ 32 - 2)
      (by unfold Rs.maxTime; omega) fl n m (by omega) (fun i hi => by have := hB i hi; show (n : Int) ≤ _ + (P.setupOf ahead turn lag s.scq A d).B i; omega) hm'
    have hV' : ({ P.setupOf ahead turn lag s.scq A d with lang := .rust } : Setup).Means tr V := hV
    obtain ⟨_, inv, _⟩ := run_safe okr hV' fl n m hm'
    refine ⟨M', m.out, h1, (hsim fun _ => false).time.trans inv.time, fun i r hr' hret => ?_⟩
    have h2 := C46_verdicts_partial _ okr tr V hV' fl n m hm' i r hr' trivial hret
    exact ⟨C45_verdicts_partial _ okr tr V hV' fl n m hm' i r hr' trivial hret, h2.1, h2.2⟩
  obtain ⟨bound, hbound⟩ := mons
  refine ⟨bytes, bound, e1, fun fl hfl => ?_⟩
  obtain ⟨M0, g0, g1⟩ := hbound fl hfl
  refine ⟨M0, g0, fun tr n hn hah => ?_⟩
  obtain ⟨V, hV, M, out, g2, gt, g3⟩ := g1 tr n hn (fun i hi => hah _ (tgtlive i hi))
  refine ⟨M, out, g2, gt, ?_⟩
  intro x f c e hx hl hkids hsays
  have he : P.engine x = .tl := by simp [engine, hl, BNode.engine]
  have hneeds := needs_of hx (.inr ⟨he, by rw [hl]; rfl⟩)
  obtain ⟨k1, r, k2, k3⟩ := T.entry hr hm hneeds
  have hform : r = ⟨q c, f, q x, some .subformula, some .direct, some .ret⟩ ∧ P.Varies c := by
    have := atom_not_tl hr he
    cases k3 <;> simp_all
  obtain ⟨rfl, hv⟩ := hform
  have hVc : ∀ t, V (q x) t ↔ R2U2.sat (fun t a => tr t a = true) e t := by
    intro t
    rw [hV (q x) _ k2 trivial t]
    have := T.sat hr hcov hm hV hsays (Table.needsKid hcov hx he (by rw [hkids]; simp)) t
    rw [val_varies hv] at this
    simp only [TlRec.holds, argOf]
    exact this
  have htgt : P.tgt x = c := by simp [tgt, hl, hkids]
  obtain ⟨j1, j2, j3⟩ := g3 (q x) _ k2 rfl
  refine ⟨?_, ?_, ?_⟩
  · have hfun : V (q x) = R2U2.sat (fun t a => tr t a = true) e := funext fun t => propext (hVc t)
    rw [← hfun]
    exact j1
  · intro s' hs'
    apply j2
    show s' + (lag (P.tgt (nodeAt d (q x)))).toNat < n
    rw [k1, htgt]
    exact hs'
  · intro v hv'
    have := j3 v hv'
    simp only [setupOf, k1, htgt] at this
    exact this

end BProg
end R2U2
