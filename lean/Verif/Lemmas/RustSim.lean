import Verif.Lemmas.RustOps
import Verif.Lemmas.Run
/-
The Rust monitor does the same as the queue-level model, as long as times are below `2 ^ 32 - 1` and the output buffer does not run over.
-/
namespace R2U2
namespace Rs
open Monitor

/-- One queue. -/
structure SimQ (q : Block) (mem : Nat → Verdict) (c : Ctrl) : Prop where
  len : q.len = c.len
  write : q.write = c.write
  read1 : q.read1 = c.read1
  read2 : q.read2 = c.read2
  like : Like q c
  slot : ∀ k, k < q.len → mem (q.ref + k) = (c.slots k).getD dflt

/-- The read pointer for operand `k`. -/
def Block.rd (q : Block) (k : Bool) : Nat := if k then q.read2 else q.read1

structure Sim (P : List TlRec) (L : Limits) (log : List (Nat × Verdict)) (M : Monitor) (m : Mon) : Prop where
  prog : M.program = P
  lim : M.lim = L
  time : M.time = m.time
  progress : M.progress = m.progress
  atoms : M.atoms = m.atoms
  out : m.out = log ++ M.outputs
  lang : ∀ q, (m.ctrl q).lang = .rust
  q : ∀ q, q < P.length → SimQ (M.blocks q) M.mem (m.ctrl q)
  t : ∀ (q : Nat) (r : TlRec), P[q]? = some r → r.temporal = true ∨ r.past = true → LikeT (M.blocks q) (m.ctrl q)
  placed : Placed P.length L M.blocks
  write : ∀ q, q < P.length → (M.blocks q).write < (M.blocks q).len
  read : ∀ (p : Nat) (r : TlRec) k c, P[p]? = some r → r.Reads k c → (M.blocks p).rd k < (M.blocks c).len

variable {prog : List TlRec} {lim : Limits} {log : List (Nat × Verdict)} {M M' : Monitor} {m m' : Mon} {i : Nat} {r : TlRec}

/-- A change of the queue of instruction `i`. -/
theorem Sim.set (R : Sim prog lim log M m) (hr : prog[i]? = some r) (h1 : M'.program = M.program) (h2 : M'.lim = M.lim)
    (h3 : M'.time = M.time ∧ m'.time = m.time) (h4 : M'.progress = m'.progress) (h5 : M'.atoms = M.atoms ∧ m'.atoms = m.atoms)
    (h6 : m'.out = log ++ M'.outputs) (hb : ∀ q, q ≠ i → M'.blocks q = M.blocks q) (hc : ∀ q, q ≠ i → m'.ctrl q = m.ctrl q)
    (hmem : ∀ a, ¬ ((M.blocks i).ref ≤ a ∧ a < (M.blocks i).ref + (M.blocks i).len) → M'.mem a = M.mem a)
    (hq : SimQ (M'.blocks i) M'.mem (m'.ctrl i))
    (hs : (M'.blocks i).len = (M.blocks i).len ∧ (M'.blocks i).ref = (M.blocks i).ref ∧ (M'.blocks i).lb = (M.blocks i).lb ∧
      (M'.blocks i).ub = (M.blocks i).ub)
    (hs' : (m'.ctrl i).lb = (m.ctrl i).lb ∧ (m'.ctrl i).ub = (m.ctrl i).ub ∧ (m'.ctrl i).lang = (m.ctrl i).lang)
    (hw : (M'.blocks i).write < (M.blocks i).len) (hrd : ∀ k c, r.Reads k c → (M'.blocks i).rd k < (M.blocks c).len) :
    Sim prog lim log M' m' := by
  have hi := (List.getElem?_eq_some_iff.1 hr).1
  have hlen : ∀ q, (M'.blocks q).len = (M.blocks q).len := by
    intro q
    by_cases h : q = i
    · subst h; exact hs.1
    · rw [hb q h]
  have href : ∀ q, (M'.blocks q).ref = (M.blocks q).ref := by
    intro q
    by_cases h : q = i
    · subst h; exact hs.2.1
    · rw [hb q h]
  refine ⟨h1.trans R.prog, h2.trans R.lim, by rw [h3.1, h3.2, R.time], h4, by rw [h5.1, h5.2, R.atoms], h6, ?_, ?_, ?_, ?_, ?_, ?_⟩
  · intro q
    by_cases h : q = i
    · subst h; rw [hs'.2.2]; exact R.lang q
    · rw [hc q h]; exact R.lang q
  · intro q hq'
    by_cases h : q = i
    · subst h; exact hq
    · have Q := R.q q hq'
      rw [hb q h, hc q h]
      refine ⟨Q.len, Q.write, Q.read1, Q.read2, Q.like, fun k hk => ?_⟩
      rw [hmem _ ?_]
      · exact Q.slot k hk
      · rintro ⟨a1, a2⟩
        rcases Nat.lt_or_gt_of_ne h with hlt | hlt
        · have := R.placed.apart q i hlt hi; omega
        · have := R.placed.apart i q hlt hq'; omega
  · intro q s hs0 ht
    by_cases h : q = i
    · subst h
      have T := R.t q s hs0 ht
      exact ⟨by rw [hs.2.2.1, hs'.1, T.lb], by rw [hs.2.2.2, hs'.2.1, T.ub]⟩
    · rw [hb q h, hc q h]; exact R.t q s hs0 ht
  · refine ⟨fun q hq' => ?_, fun q hq' => ?_, fun q p hqp hp => ?_⟩
    · rw [hlen]; exact R.placed.pos q hq'
    · rw [hlen, href]; exact R.placed.fit q hq'
    · rw [hlen, href, href]; exact R.placed.apart q p hqp hp
  · intro q hq'
    rw [hlen]
    by_cases h : q = i
    · subst h; exact hw
    · rw [hb q h]; exact R.write q hq'
  · intro p s k c hs0 hk
    rw [hlen]
    by_cases h : p = i
    · subst h
      rw [hr] at hs0; cases hs0
      exact hrd k c hk
    · rw [hb p h]; exact R.read p s k c hs0 hk

theorem Sim.block (R : Sim prog lim log M m) (tb : InTable prog lim) (hi : i < prog.length) : M.block i = some (M.blocks i) := by
  unfold Monitor.block
  rw [if_pos (by rw [R.lim]; have := tb.blocks; omega)]

theorem Sim.slot (R : Sim prog lim log M m) (hi : i < prog.length) {k : Nat} (hk : k < (M.blocks i).len) :
    M.slot ((M.blocks i).ref + k) = some (M.mem ((M.blocks i).ref + k)) := by
  unfold Monitor.slot
  rw [if_pos (by rw [R.lim]; have := R.placed.fit i hi; omega)]

theorem Sim.empty (R : Sim prog lim log M m) {N : Nat} (hN : N < maxTime) (sm : Small N m) (hi : i < prog.length) {k : Nat}
    (hk : k < (M.blocks i).len) : (M.mem ((M.blocks i).ref + k)).time = maxTime ↔ (m.ctrl i).slots k = none := by
  rw [(R.q i hi).slot k hk]
  cases hs : (m.ctrl i).slots k with
  | none => simp [dflt]
  | some v =>
      have := (sm i).1 k v hs
      simp; omega

/-! ### Reading -/

theorem scan_sim (R : Sim prog lim log M m) (hi : i < prog.length) (next : Nat) :
    ∀ (n x : Nat), x < (M.blocks i).len →
      M.scan (M.blocks i) next n x = R2U2.scan dflt (m.ctrl i).slots (m.ctrl i).len (m.ctrl i).write next n x ∧
      ∀ y, M.scan (M.blocks i) next n x = some y → y.1 < (M.blocks i).len := by
  have Q := R.q i hi
  have hp := R.placed.pos i hi
  have hw := R.write i hi
  intro n
  induction n with
  | zero => intro x _; exact ⟨rfl, fun y h => by cases h⟩
  | succ n ih =>
      intro x hx
      unfold Monitor.scan R2U2.scan
      rw [R.slot hi hx, ← Q.slot x hx]
      simp only [Option.bind_some]
      by_cases h1 : next ≤ (M.mem ((M.blocks i).ref + x)).time
      · rw [if_pos h1, if_pos h1]
        refine ⟨rfl, fun y h => ?_⟩
        cases h; exact hx
      · rw [if_neg h1, if_neg h1, if_neg (by omega), ← Q.len, ← Q.write]
        by_cases h2 : (x + 1) % (M.blocks i).len = (M.blocks i).write
        · rw [if_pos h2, if_pos h2]
          by_cases h3 : (x + 1) % (M.blocks i).len = 0
          · rw [if_pos h3, if_pos h3, sub?_le (by omega)]
            refine ⟨rfl, fun y h => ?_⟩
            cases h; simp only []; omega
          · rw [if_neg h3, if_neg h3]
            refine ⟨rfl, fun y h => ?_⟩
            cases h; simp only []; omega
        · rw [if_neg h2, if_neg h2, Q.len, Q.write]
          have := ih ((x + 1) % (M.blocks i).len) (Nat.mod_lt _ hp)
          rw [Q.len] at this
          exact this

theorem operand_sim (tb : InTable prog lim) (R : Sim prog lim log M m) (hr : prog[i]? = some r) {N : Nat} (hN : N < maxTime) (sm : Small N m)
    (hu : r.past = true → m.time + (m.ctrl i).ub ≤ N) (k : Bool) {y : Mon × Option Verdict} (hy : m.operand r k = some y) :
    ∃ M', M.operand r k = some (M', y.2) ∧ Sim prog lim log M' y.1 := by
  have hi := (List.getElem?_eq_some_iff.1 hr).1
  have hm := tb.mem i r hr
  unfold Monitor.operand
  unfold Mon.operand at hy
  cases hd : (if k = true then r.t2 else r.t1) with
  | none => simp only [hd] at hy ⊢; cases hy; exact ⟨M, rfl, R⟩
  | some o =>
  cases o
  case direct =>
      simp only [hd] at hy ⊢
      simp only [Option.some.injEq] at hy
      subst hy
      refine ⟨M, ?_, R⟩
      by_cases hst : r.opcode = some .since ∨ r.opcode = some .trigger
      · have hps : r.past = true := by rcases hst with h | h <;> simp [TlRec.past, h]
        have := hu hps
        rw [if_pos hst, if_pos hst, hm, R.block tb hi]
        simp only [Option.map_some]
        rw [(R.t i r hr (Or.inr hps)).ub, R.time, satAdd_lt hN (by omega)]
      · rw [if_neg hst, if_neg hst, R.time]
  case atomic =>
      simp only [hd] at hy ⊢
      simp only [Option.some.injEq] at hy
      subst hy
      refine ⟨M, ?_, R⟩
      rw [R.progress]
      by_cases hp : m.progress = .first
      · rw [if_pos hp, if_pos (by rw [R.lim]; exact tb.atom i r k _ hr ⟨hd, rfl⟩), R.time, R.atoms]
        simp [hp]
      · rw [if_neg hp]; simp [hp]
  case subformula =>
      simp only [hd] at hy ⊢
      have hv := tb.sub i r k _ hr ⟨hd, rfl⟩
      have hrd := R.read i r k _ hr ⟨hd, rfl⟩
      simp only [Option.map_eq_some_iff] at hy
      obtain ⟨u, hu', rfl⟩ := hy
      generalize hcc : (if k = true then r.v2 else r.v1) = c at hv hrd hu' ⊢
      have Q := R.q i hi
      have Qc := R.q c hv
      unfold Monitor.scqRead
      rw [hm] at hu' ⊢
      rw [R.block tb hv, R.block tb hi]
      simp only [Option.bind_some]
      have hrd2 : (if k = true then (m.ctrl i).read2 else (m.ctrl i).read1) = (M.blocks i).rd k := by
        unfold Block.rd; rw [Q.read1, Q.read2]
      have hrd3 : (if k = true then (M.blocks i).read2 else (M.blocks i).read1) = (M.blocks i).rd k := rfl
      rw [hrd2] at hu'
      rw [hrd3, R.slot hv hrd]
      simp only [Option.bind_some]
      have hem := R.empty hN sm hv hrd
      unfold Ctrl.read at hu'
      have key : ∀ x : Nat, x < (M.blocks c).len →
          Sim prog lim log (M.setBlock i (if k = true then { M.blocks i with read2 := x } else { M.blocks i with read1 := x }))
            (m.upd i fun d => if k = true then { d with read2 := x } else { d with read1 := x }) := by
        intro x hx
        have eb : (M.setBlock i (if k = true then { M.blocks i with read2 := x } else { M.blocks i with read1 := x })).blocks i =
            if k = true then { M.blocks i with read2 := x } else { M.blocks i with read1 := x } := by simp [Monitor.setBlock]
        have ec := upd_ctrl_self m i (fun d => if k = true then { d with read2 := x } else { d with read1 := x })
        refine R.set hr rfl rfl ⟨rfl, rfl⟩ R.progress ⟨rfl, rfl⟩ R.out (fun q h => by simp [Monitor.setBlock, h]) (fun q h => upd_ctrl_ne m _ h)
          (fun a _ => rfl) ?_ ?_ ?_ ?_ ?_
        · rw [eb, ec]
          cases k
          · exact ⟨Q.len, Q.write, rfl, Q.read2, ⟨Q.like.next, Q.like.edge, Q.like.prev⟩, Q.slot⟩
          · exact ⟨Q.len, Q.write, Q.read1, rfl, ⟨Q.like.next, Q.like.edge, Q.like.prev⟩, Q.slot⟩
        · rw [eb]; cases k <;> exact ⟨rfl, rfl, rfl, rfl⟩
        · rw [ec]; cases k <;> exact ⟨rfl, rfl, rfl⟩
        · rw [eb]; cases k <;> exact R.write i hi
        · intro k' c' hk'
          rw [eb]
          have old := R.read i r k' c' hr hk'
          by_cases hkk : k' = k
          · subst hkk
            have : c' = c := by rw [← hk'.2, hcc]
            subst this
            cases k' <;> exact hx
          · cases k <;> cases k' <;> first | exact absurd rfl hkk | exact old
      by_cases he : (M.mem ((M.blocks c).ref + (M.blocks i).rd k)).time = maxTime ∧ (M.blocks i).rd k = 0
      · rw [if_pos he]
        rw [if_pos ⟨hem.1 he.1, Or.inr he.2⟩] at hu'
        cases hu'
        refine ⟨M, rfl, ?_⟩
        have := key _ hrd
        have e1 : M.setBlock i (if k = true then { M.blocks i with read2 := (M.blocks i).rd k } else { M.blocks i with read1 := (M.blocks i).rd k }) = M := by
          unfold Monitor.setBlock
          have : (fun q => if q = i then (if k = true then { M.blocks i with read2 := (M.blocks i).rd k } else { M.blocks i with read1 := (M.blocks i).rd k }) else M.blocks q) = M.blocks := by
            funext q
            by_cases h : q = i
            · subst h; rw [if_pos rfl]; cases k <;> rfl
            · rw [if_neg h]
          rw [this]
        rw [e1] at this
        exact this
      · rw [if_neg he]
        rw [if_neg (by rw [R.lang c]; rintro ⟨a, b⟩; rcases b with b | b; · cases b
                       exact he ⟨hem.2 a, b⟩)] at hu'
        obtain ⟨s1, s2⟩ := scan_sim R hv (M.blocks i).next ((M.blocks c).len + 1) ((M.blocks i).rd k) hrd
        rw [R.lang c] at hu'
        have hu2 : M.scan (M.blocks c) (M.blocks i).next ((M.blocks c).len + 1) ((M.blocks i).rd k) = some u := by
          rw [s1, Q.like.next, Qc.len]; exact hu'
        rw [hu2]
        exact ⟨_, rfl, key u.1 (s2 u hu2)⟩
  all_goals (simp only [hd] at hy ⊢; cases hy; exact ⟨M, rfl, R⟩)

theorem operand_out {m : Mon} {k : Bool} {y : Mon × Option Verdict} (h : m.operand r k = some y) : y.1.out = m.out ∧ y.1.time = m.time ∧
    (∀ q, (y.1.ctrl q).slots = (m.ctrl q).slots ∧ (y.1.ctrl q).prev = (m.ctrl q).prev ∧ (y.1.ctrl q).edge = (m.ctrl q).edge ∧
      (y.1.ctrl q).ub = (m.ctrl q).ub ∧ (y.1.ctrl q).lb = (m.ctrl q).lb ∧ (y.1.ctrl q).next = (m.ctrl q).next) := by
  unfold Mon.operand at h
  split at h
  · cases h; exact ⟨rfl, rfl, fun _ => ⟨rfl, rfl, rfl, rfl, rfl, rfl⟩⟩
  · cases h; exact ⟨rfl, rfl, fun _ => ⟨rfl, rfl, rfl, rfl, rfl, rfl⟩⟩
  · simp only [Option.map_eq_some_iff] at h
    obtain ⟨z, _, rfl⟩ := h
    refine ⟨rfl, rfl, fun q => ?_⟩
    simp only [Mon.upd]
    split
    · cases k <;> exact ⟨rfl, rfl, rfl, rfl, rfl, rfl⟩
    · exact ⟨rfl, rfl, rfl, rfl, rfl, rfl⟩
  · cases h; exact ⟨rfl, rfl, fun _ => ⟨rfl, rfl, rfl, rfl, rfl, rfl⟩⟩

theorem operand_small {m : Mon} {k : Bool} {y : Mon × Option Verdict} (h : m.operand r k = some y) {N : Nat} (sm : Small N m) : Small N y.1 := by
  intro q
  obtain ⟨_, _, h3⟩ := operand_out h
  obtain ⟨a, b, c, _⟩ := h3 q
  obtain ⟨s1, s2, s3⟩ := sm q
  exact ⟨by rw [a]; exact s1, by rw [b]; exact s2, by rw [c]; exact s3⟩

/-! ### Writing -/

/-- The slot a push writes to. -/
def slotFor (c : Ctrl) (v : Verdict) : Nat :=
  let p := if c.write = 0 then c.len - 1 else c.write - 1
  if ((c.slots p).getD c.lang.inf).truth = v.truth ∧ c.merges p then p else c.write

theorem push_eq (c : Ctrl) (v : Verdict) : c.push v = { c with
    slots := fun k => if k = slotFor c v then some v else c.slots k
    write := (slotFor c v + 1) % c.len } := rfl

/-- A new control block, with a push or without. -/
theorem finish_sim (tb : InTable prog lim) (R : Sim prog lim log M m) (hr : prog[i]? = some r) {N : Nat} (hN : N < maxTime) (sm : Small N m)
    {E : Effect} (hrep : E.report = none) {op : Block → Res} (hop : Does (M.blocks i) (op (M.blocks i)) E) :
    ∃ M', M.finish r op = some M' ∧ Sim prog lim log M' (m.apply r E) := by
  have hi := (List.getElem?_eq_some_iff.1 hr).1
  have hm := tb.mem i r hr
  have Q := R.q i hi
  have hw := R.write i hi
  have hp := R.placed.pos i hi
  unfold Does at hop
  unfold Monitor.finish
  rw [hm, R.block tb hi]
  simp only [Option.bind_some]
  rw [hop]
  simp only [Option.bind_some]
  cases hE : E.push with
  | none =>
      refine ⟨_, rfl, ?_⟩
      refine R.set hr rfl rfl ⟨rfl, rfl⟩ ?_ ⟨rfl, rfl⟩ ?_ (fun q h => by simp [Monitor.setBlock, h]) (fun q h => by simp [Mon.apply, hm, h])
        (fun a _ => rfl) ?_ ?_ ?_ ?_ ?_
      · simp [Mon.apply, hE, hrep, R.progress, Monitor.setBlock]
      · simp only [Mon.apply, hrep]; exact R.out
      · simp only [Monitor.setBlock, Mon.apply, hm, if_true, hE]
        exact ⟨Q.len, Q.write, Q.read1, Q.read2, ⟨rfl, rfl, rfl⟩, Q.slot⟩
      · simp [Monitor.setBlock]
      · simp [Mon.apply, hm, hE]
      · simp only [Monitor.setBlock, if_true]; exact hw
      · intro k c hk
        simp only [Monitor.setBlock, if_true]
        exact R.read i r k c hr hk
  | some v =>
      have hpp : (if (M.blocks i).write = 0 then (M.blocks i).len - 1 else (M.blocks i).write - 1) < (M.blocks i).len := by
        split <;> omega
      have hsl : slotFor (m.ctrl i) v = (let p := if (M.blocks i).write = 0 then (M.blocks i).len - 1 else (M.blocks i).write - 1
          if (M.mem ((M.blocks i).ref + p)).truth = v.truth ∧ ¬ ((M.mem ((M.blocks i).ref + (M.blocks i).write)).time = maxTime ∧ (M.blocks i).write = 0)
          then p else (M.blocks i).write) := by
        unfold slotFor Ctrl.merges
        simp only [R.lang i]
        rw [← Q.len, ← Q.write, Q.slot _ hpp]
        have he := R.empty hN sm hi hw
        simp only [he]
        rfl
      have hlt : slotFor (m.ctrl i) v < (M.blocks i).len := by
        rw [hsl]; simp only []
        generalize (if (M.blocks i).write = 0 then (M.blocks i).len - 1 else (M.blocks i).write - 1) = p at hpp
        split
        · exact hpp
        · exact hw
      simp only []
      unfold Monitor.pushResult Monitor.scqWrite
      rw [hm]
      have hblk : ({ M.setBlock i { M.blocks i with next := E.next, prev := E.prev, edge := E.edge } with progress := (M.setBlock i { M.blocks i with next := E.next, prev := E.prev, edge := E.edge }).progress.flag } : Monitor).block i =
          some { M.blocks i with next := E.next, prev := E.prev, edge := E.edge } := by
        unfold Monitor.block Monitor.setBlock
        simp only [if_true]
        rw [if_pos (by rw [R.lim]; have := tb.blocks; omega)]
      have hslot : ∀ k, k < (M.blocks i).len → ({ M.setBlock i { M.blocks i with next := E.next, prev := E.prev, edge := E.edge } with progress := (M.setBlock i { M.blocks i with next := E.next, prev := E.prev, edge := E.edge }).progress.flag } : Monitor).slot
          ((M.blocks i).ref + k) = some (M.mem ((M.blocks i).ref + k)) := fun k hk => R.slot hi hk
      rw [hblk]
      simp only [Option.bind_some]
      have hpre : (if (M.blocks i).write = 0 then sub? (M.blocks i).len 1 else some ((M.blocks i).write - 1)) =
          some (if (M.blocks i).write = 0 then (M.blocks i).len - 1 else (M.blocks i).write - 1) := by
        rw [sub?_le (by omega)]
        split <;> rfl
      rw [hpre]
      simp only [Option.bind_some]
      rw [hslot _ hpp, hslot _ hw]
      simp only [Option.bind_some]
      rw [← hsl, hslot _ hlt]
      simp only [Option.bind_some]
      rw [if_neg (by omega)]
      refine ⟨_, rfl, ?_⟩
      refine R.set hr rfl rfl ⟨rfl, rfl⟩ ?_ ⟨rfl, rfl⟩ ?_ (fun q h => by simp [Monitor.setBlock, h]) (fun q h => by simp [Mon.apply, hm, h])
        (fun a ha => ?_) ?_ ?_ ?_ ?_ ?_
      · simp [Mon.apply, hE, R.progress, Monitor.setBlock]
      · simp only [Mon.apply, hrep]; exact R.out
      · simp only [Monitor.setBlock]
        rw [if_neg (by omega)]
      · simp only [Monitor.setBlock, Mon.apply, hm, if_true, hE, push_eq]
        refine ⟨Q.len, ?_, Q.read1, Q.read2, ⟨rfl, rfl, rfl⟩, fun k hk => ?_⟩
        · rw [Q.len]
        · by_cases hks : k = slotFor (m.ctrl i) v
          · subst hks; simp
          · have : (M.blocks i).ref + k ≠ (M.blocks i).ref + slotFor (m.ctrl i) v := by omega
            simp only [if_neg this, if_neg hks]; exact Q.slot k hk
      · simp [Monitor.setBlock]
      · simp [Mon.apply, hm, hE, push_eq]
      · simp only [Monitor.setBlock, if_true]; exact Nat.mod_lt _ hp
      · intro k c hk
        simp only [Monitor.setBlock, if_true]
        exact R.read i r k c hr hk

/-- A report. -/
theorem ret_sim (tb : InTable prog lim) (R : Sim prog lim log M m) (hr : prog[i]? = some r) {N : Nat} (hN : N < maxTime) (sm : Small N m)
    (hu : r.past = true → m.time + (m.ctrl i).ub ≤ N) (hop : m.unary r retBody = some m')
    (hv : ∀ y v, m.operand r false = some y → y.2 = some v → v.time ≤ N)
    (hlen : m'.out.length ≤ log.length + lim.outputs) :
    ∃ M', M.ret r = some M' ∧ Sim prog lim log M' m' := by
  have hi := (List.getElem?_eq_some_iff.1 hr).1
  have hm := tb.mem i r hr
  unfold Mon.unary at hop
  simp only [Option.map_eq_some_iff] at hop
  obtain ⟨y, hy, rfl⟩ := hop
  obtain ⟨M1, h1, R1⟩ := operand_sim tb R hr hN sm hu false hy
  have Q := R1.q i hi
  unfold Monitor.ret
  rw [h1]
  simp only [Option.bind_some]
  cases hy2 : y.2 with
  | none =>
      refine ⟨M1, rfl, ?_⟩
      have : y.1.apply r (retBody (y.1.ctrl r.mem) none) = y.1 := by
        unfold Mon.apply retBody Ctrl.keep
        simp only [Option.isSome_none, Bool.false_eq_true, false_and, or_self, if_false]
        have : (fun k => if k = r.mem then { y.1.ctrl k with next := (y.1.ctrl r.mem).next, prev := (y.1.ctrl r.mem).prev, edge := (y.1.ctrl r.mem).edge } else y.1.ctrl k) = y.1.ctrl := by
          funext k
          by_cases h : k = r.mem
          · subst h; rw [if_pos rfl]
          · rw [if_neg h]
        rw [this]
      rw [this]
      exact R1
  | some v =>
      simp only []
      have hvN := hv y v hy hy2
      rw [hm, R1.block tb hi]
      simp only [Option.bind_some]
      have hidx : M1.idx < M1.lim.outputs := by
        rw [hy2] at hlen
        simp only [Mon.apply, retBody, R1.out, List.length_append, List.length_singleton, Monitor.outputs, List.length_map, List.length_range] at hlen
        rw [R1.lim]; omega
      rw [if_pos (by simpa [Monitor.setBlock] using hidx)]
      refine ⟨_, rfl, ?_⟩
      refine R1.set hr rfl rfl ⟨rfl, rfl⟩ ?_ ⟨rfl, rfl⟩ ?_ (fun q h => by simp [Monitor.setBlock, h]) (fun q h => by simp [Mon.apply, hm, h])
        (fun a _ => rfl) ?_ ?_ ?_ ?_ ?_
      · have := R1.lang i
        simp [Mon.apply, retBody, Ctrl.keep, hm, this, R1.progress, Monitor.setBlock]
      · simp only [Mon.apply, retBody, R1.out, Monitor.outputs, Monitor.setBlock, List.range_succ, List.map_append, List.map_cons, List.map_nil, if_true,
          List.append_assoc]
        congr 2
        refine List.map_congr_left fun k hk => ?_
        have := List.mem_range.1 hk
        exact (if_neg (show ¬ k = M1.idx by omega)).symm
      · simp only [Monitor.setBlock, Mon.apply, hm, if_true, retBody, Ctrl.keep]
        refine ⟨Q.len, Q.write, Q.read1, Q.read2, ⟨?_, Q.like.edge, Q.like.prev⟩, Q.slot⟩
        exact satAdd_lt hN (by omega)
      · simp [Monitor.setBlock]
      · simp [Mon.apply, hm, retBody, Ctrl.keep]
      · simp only [Monitor.setBlock, if_true]; exact R1.write i hi
      · intro k c hk
        simp only [Monitor.setBlock, if_true]
        exact R1.read i r k c hr hk

theorem setBlock_self (M : Monitor) (i : Nat) : M.setBlock i (M.blocks i) = M := by
  unfold Monitor.setBlock
  have : (fun q => if q = i then M.blocks i else M.blocks q) = M.blocks := by
    funext q
    by_cases h : q = i
    · subst h; rw [if_pos rfl]
    · rw [if_neg h]
  rw [this]

/-- `load`, as an operator function. -/
def loadOp (q : Block) : Option Verdict → Res
  | some v => q.emit v
  | none => some (q, none)

theorem load_eq (tb : InTable prog lim) (hr : prog[i]? = some r) (hb : ∀ x, M.operand r false = some x → x.1.block i = some (x.1.blocks i)) :
    M.load r = M.unary r loadOp := by
  have hm := tb.mem i r hr
  unfold Monitor.load Monitor.unary
  cases h : M.operand r false with
  | none => rfl
  | some x =>
      simp only [Option.bind_some]
      unfold Monitor.finish
      rw [hm, hb x h]
      cases hx : x.2 with
      | none => simp [loadOp, setBlock_self]
      | some v => simp [loadOp, Block.emit]

theorem push_small {m : Mon} {E : Effect} {N : Nat} (hs : Small N (m.apply r E)) {v : Verdict} (hv : E.push = some v) : v.time ≤ N := by
  obtain ⟨h1, h2, h3⟩ := hs r.mem
  simp only [Mon.apply, if_true] at h1 h2 h3
  have hk : ∃ k, ((m.ctrl r.mem).push v).slots k = some v := by
    unfold Ctrl.push
    exact ⟨_, if_pos rfl⟩
  obtain ⟨k, hk⟩ := hk
  exact h1 k v (by rw [hv]; exact hk)

theorem unary_sim (tb : InTable prog lim) (R : Sim prog lim log M m) (hr : prog[i]? = some r) {N : Nat} (hN : N < maxTime) (sm : Small N m)
    (hu : r.past = true → m.time + (m.ctrl i).ub ≤ N) {body : Ctrl → Option Verdict → Effect} {op : Block → Option Verdict → Res}
    (hrep : ∀ c a, (body c a).report = none)
    (hdo : ∀ y q, m.operand r false = some y → Like q (y.1.ctrl i) → Does q (op q y.2) (body (y.1.ctrl i) y.2))
    (hm' : m.unary r body = some m') : ∃ M', M.unary r op = some M' ∧ Sim prog lim log M' m' := by
  have hi := (List.getElem?_eq_some_iff.1 hr).1
  have hm := tb.mem i r hr
  unfold Mon.unary at hm'
  simp only [Option.map_eq_some_iff] at hm'
  obtain ⟨y, hy, rfl⟩ := hm'
  obtain ⟨M1, h1, R1⟩ := operand_sim tb R hr hN sm hu false hy
  unfold Monitor.unary
  rw [h1]
  simp only [Option.bind_some]
  rw [hm]
  exact finish_sim tb R1 hr hN (operand_small hy sm) (hrep _ _) (hdo y _ hy (R1.q i hi).like)

theorem binary_sim (tb : InTable prog lim) (R : Sim prog lim log M m) (hr : prog[i]? = some r) {N : Nat} (hN : N < maxTime) (sm : Small N m)
    (hu : r.past = true → m.time + (m.ctrl i).ub ≤ N) {body : Ctrl → Option Verdict → Option Verdict → Effect}
    {op : Block → Option Verdict → Option Verdict → Res} (hrep : ∀ c a b, (body c a b).report = none)
    (hdo : ∀ y z q, m.operand r false = some y → y.1.operand r true = some z → Like q (z.1.ctrl i) →
      (r.temporal = true ∨ r.past = true → LikeT q (z.1.ctrl i)) →
      (∀ v, (body (z.1.ctrl i) y.2 z.2).push = some v → v.time ≤ N) → Does q (op q y.2 z.2) (body (z.1.ctrl i) y.2 z.2))
    (sm' : Small N m') (hm' : m.binary r body = some m') : ∃ M', M.binary r op = some M' ∧ Sim prog lim log M' m' := by
  have hi := (List.getElem?_eq_some_iff.1 hr).1
  have hm := tb.mem i r hr
  unfold Mon.binary at hm'
  simp only [Option.bind_eq_some_iff, Option.map_eq_some_iff] at hm'
  obtain ⟨y, hy, z, hz, rfl⟩ := hm'
  obtain ⟨M1, h1, R1⟩ := operand_sim tb R hr hN sm hu false hy
  have sm1 := operand_small hy sm
  obtain ⟨_, ht1, hc1⟩ := operand_out hy
  obtain ⟨M2, h2, R2⟩ := operand_sim tb R1 hr hN sm1 (fun h => by rw [ht1, (hc1 i).2.2.2.1]; exact hu h) true hz
  unfold Monitor.binary
  rw [h1]
  simp only [Option.bind_some]
  rw [h2]
  simp only [Option.bind_some]
  rw [hm] at sm' ⊢
  refine finish_sim tb R2 hr hN (operand_small hz sm1) (hrep _ _ _) (hdo y z _ hy hz (R2.q i hi).like (R2.t i r hr) fun v hv => ?_)
  exact push_small (by simpa [hm] using sm') hv

end Rs
end R2U2
