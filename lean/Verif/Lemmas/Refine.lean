import Verif.Lemmas.Arena
import Verif.Lemmas.Run
/-
The monitor with its queues in one array of words does the same as the one with a
queue of verdicts per instruction, as long as times are below `2 ^ 31 - 1`.
-/
namespace R2U2
namespace Flat

structure RelQ (F : Flat) (m : Mon) (q : Nat) : Prop where
  len : (F.blocks q).len = (m.ctrl q).len
  write : (F.blocks q).write = (m.ctrl q).write
  read1 : (F.blocks q).read1 = (m.ctrl q).read1
  read2 : (F.blocks q).read2 = (m.ctrl q).read2
  next : (F.blocks q).next = (m.ctrl q).next
  slot : ∀ k, k < (F.blocks q).len → toSlot (F.mem ((F.blocks q).off + k)) = (m.ctrl q).slots k
  word : ∀ k, k < (F.blocks q).len → F.mem ((F.blocks q).off + k) < 2 ^ 32

structure RelT (F : Flat) (m : Mon) (q : Nat) : Prop where
  edge : unpack (F.mem ((F.blocks q).off + (F.blocks q).len)) = (m.ctrl q).edge
  prev : unpack (F.mem ((F.blocks q).off + (F.blocks q).len + 1)) = (m.ctrl q).prev
  lb : F.mem ((F.blocks q).off + (F.blocks q).len + 2) = (m.ctrl q).lb
  ub : F.mem ((F.blocks q).off + (F.blocks q).len + 3) = (m.ctrl q).ub

structure Rel (prog : List TlRec) (F : Flat) (m : Mon) : Prop where
  time : F.time = m.time
  progress : F.progress = m.progress
  atoms : F.atoms = m.atoms
  out : F.out = m.out
  q : ∀ q, q < prog.length → RelQ F m q
  t : ∀ (q : Nat) (r : TlRec), prog[q]? = some r → isTemporal r.opcode = true → RelT F m q
  lang : ∀ q, (m.ctrl q).lang = .c

/-- Changing read pointers and the desired time. -/
theorem rel_ptr {prog : List TlRec} {F : Flat} {m : Mon} (R : Rel prog F m) {i : Nat} {b : Block} {f : Ctrl → Ctrl}
    (h1 : b.len = (F.blocks i).len) (h2 : b.off = (F.blocks i).off) (h3 : b.write = (F.blocks i).write)
    (h4 : ∀ c, (f c).len = c.len ∧ (f c).write = c.write ∧ (f c).slots = c.slots ∧ (f c).edge = c.edge ∧ (f c).prev = c.prev ∧
      (f c).lb = c.lb ∧ (f c).ub = c.ub ∧ (f c).lang = c.lang)
    (h5 : i < prog.length → b.read1 = (f (m.ctrl i)).read1 ∧ b.read2 = (f (m.ctrl i)).read2 ∧ b.next = (f (m.ctrl i)).next) :
    Rel prog (F.setBlock i b) (m.upd i f) := by
  refine ⟨R.time, R.progress, R.atoms, R.out, ?_, ?_, fun q => by have := R.lang q; simp only [Mon.upd]; split <;> simp_all⟩
  · intro q hq
    have Q := R.q q hq
    by_cases hqi : q = i
    · subst hqi
      obtain ⟨a1, a2, a3, a4, a5, a6, a7, _⟩ := h4 (m.ctrl q)
      obtain ⟨b1, b2, b3⟩ := h5 hq
      refine ⟨?_, ?_, ?_, ?_, ?_, ?_, ?_⟩ <;>
        simp only [Flat.setBlock, Mon.upd, if_true]
      · rw [h1, a1]; exact Q.len
      · rw [h3, a2]; exact Q.write
      · exact b1
      · exact b2
      · exact b3
      · rw [h1, h2, a3]; exact Q.slot
      · rw [h1, h2]; exact Q.word
    · refine ⟨?_, ?_, ?_, ?_, ?_, ?_, ?_⟩ <;>
        simp only [Flat.setBlock, Mon.upd, if_neg hqi]
      · exact Q.len
      · exact Q.write
      · exact Q.read1
      · exact Q.read2
      · exact Q.next
      · exact Q.slot
      · exact Q.word
  · intro q r hr ht
    have T := R.t q r hr ht
    by_cases hqi : q = i
    · subst hqi
      obtain ⟨a1, a2, a3, a4, a5, a6, a7, _⟩ := h4 (m.ctrl q)
      refine ⟨?_, ?_, ?_, ?_⟩ <;> simp only [Flat.setBlock, Mon.upd, if_true] <;> rw [h1, h2]
      · rw [a4]; exact T.edge
      · rw [a5]; exact T.prev
      · rw [a6]; exact T.lb
      · rw [a7]; exact T.ub
    · refine ⟨?_, ?_, ?_, ?_⟩ <;> simp only [Flat.setBlock, Mon.upd, if_neg hqi]
      · exact T.edge
      · exact T.prev
      · exact T.lb
      · exact T.ub

theorem upd_id (m : Mon) (i : Nat) : m.upd i (fun c => c) = m := by
  unfold Mon.upd; simp

/-! ### Reading -/

theorem scan_rel {F : Flat} {b : Block} {slots : Nat → Slot} {next : Nat}
    (hs : ∀ k, k < b.len → b.off + k < F.lim.slots) (hp : 0 < b.len)
    (hq : ∀ k, k < b.len → toSlot (F.mem (b.off + k)) = slots k) :
    ∀ (n r : Nat), r < b.len →
      (F.scan b next n r).map (fun x => (x.1, x.2.map unpack)) = R2U2.scan .inf slots b.len b.write next n r := by
  intro n
  induction n with
  | zero => intro r _; rfl
  | succ n ih =>
      intro r hr
      have hu : (slots r).getD .inf = unpack (F.mem (b.off + r)) := by rw [← hq r hr, toSlot_getD]
      unfold Flat.scan R2U2.scan
      rw [load_lt (hs r hr)]
      simp only [Option.bind_some]
      rw [hu]
      by_cases h1 : next ≤ getTime (F.mem (b.off + r))
      · rw [if_pos h1, if_pos (show next ≤ (unpack (F.mem (b.off + r))).time from h1)]; rfl
      · rw [if_neg h1, if_neg (show ¬ next ≤ (unpack (F.mem (b.off + r))).time from h1)]
        by_cases h2 : (r + 1) % b.len = b.write
        · rw [if_pos h2, if_pos h2]; rfl
        · rw [if_neg h2, if_neg h2]
          exact ih _ (Nat.mod_lt _ hp)

theorem read_rel {prog : List TlRec} {F : Flat} {m : Mon} (w : Wf prog F) (R : Rel prog F m) {q r next : Nat}
    (hq : q < prog.length) (hr : r < (F.blocks q).len) :
    (F.read (F.blocks q) r next).map (fun x => (x.1, x.2.map unpack)) = (m.ctrl q).read r next := by
  have Q := R.q q hq
  have hs := Q.slot r hr
  unfold Flat.read Ctrl.read
  rw [load_lt (in_slots w hq hr)]
  simp only [Option.bind_some]
  split
  · rename_i h
    rw [h, toSlot_none.2 rfl] at hs
    rw [← hs, if_pos ⟨rfl, Or.inl (R.lang q)⟩]; rfl
  · rename_i h
    cases hc : (m.ctrl q).slots r with
    | none => rw [hc, toSlot_none] at hs; exact absurd hs h
    | some v =>
        rw [if_neg (by simp), R.lang q, ← Q.len, ← Q.write]
        exact scan_rel (fun k hk => in_slots w hq hk) (w.placed.pos q hq) Q.slot _ _ hr

/-- Times the words can hold. -/
structure Fits (r : TlRec) (m : Mon) : Prop where
  direct : m.time + (if r.opcode = some .since ∨ r.opcode = some .trigger then (m.ctrl r.mem).ub else 0) < 2 ^ 31

theorem operand_rel {prog : List TlRec} {F : Flat} {m : Mon} (w : Wf prog F) (tb : InTable prog F.lim) (R : Rel prog F m)
    {i : Nat} {r : TlRec} (hr : prog[i]? = some r) (fits : Fits r m) (k : Bool) {y : Mon × Option Verdict}
    (hy : m.operand r k = some y) :
    ∃ x, F.operand r k = some x ∧ Wf prog x.1 ∧ x.1.lim = F.lim ∧ Rel prog x.1 y.1 ∧ x.2.map unpack = y.2 := by
  obtain ⟨x, hx, wx, lx⟩ := operand_ok w tb hr k
  refine ⟨x, hx, wx, lx, ?_⟩
  have hi := (List.getElem?_eq_some_iff.1 hr).1
  have hm := tb.mem i r hr
  have hb := tb.blocks
  have hfit := fits.direct
  unfold operand at hx
  unfold Mon.operand at hy
  cases hd : (if k = true then r.t2 else r.t1) with
  | none => simp only [hd] at hx hy; cases hx; cases hy; exact ⟨R, rfl⟩
  | some o =>
  cases o
  case direct =>
      simp only [hd] at hx hy
      have hc := ctrlOf_ok w tb hr
      rw [hc] at hx
      simp only [Option.map_some, Option.some.injEq] at hx
      subst hx
      simp only [Option.some.injEq] at hy
      subst hy
      refine ⟨R, ?_⟩
      simp only [Option.map_some]
      have ht : (if r.opcode = some .since ∨ r.opcode = some .trigger then F.time + (F.seen i r).ub else F.time) =
          if r.opcode = some .since ∨ r.opcode = some .trigger then m.time + (m.ctrl r.mem).ub else m.time := by
        by_cases hst : r.opcode = some .since ∨ r.opcode = some .trigger
        · rw [if_pos hst, if_pos hst, R.time]
          have htm : isTemporal r.opcode = true := by
            rcases hst with h | h <;> rw [h] <;> rfl
          have := (R.t i r hr htm).ub
          unfold seen
          simp only []
          rw [if_pos htm, hm]
          simp only [this]
        · rw [if_neg hst, if_neg hst, R.time]
      rw [ht, unpack_word]
      by_cases hst : r.opcode = some .since ∨ r.opcode = some .trigger
      · rw [if_pos hst] at hfit ⊢; exact hfit
      · rw [if_neg hst] at hfit ⊢; exact hfit
  case atomic =>
      simp only [hd] at hx hy
      simp only [Option.some.injEq] at hy
      subst hy
      rw [R.progress] at hx
      by_cases hp : m.progress = .first
      · rw [if_pos hp] at hx
        rw [if_pos (tb.atom i r k _ hr ⟨hd, rfl⟩)] at hx
        simp only [Option.some.injEq] at hx
        subst hx
        refine ⟨R, ?_⟩
        simp only [Option.map_some, if_pos hp]
        rw [unpack_word (by show F.time < _; rw [R.time]; omega), R.time, R.atoms]
      · rw [if_neg hp] at hx
        simp only [Option.some.injEq] at hx
        subst hx
        exact ⟨R, by simp [hp]⟩
  case subformula =>
      simp only [hd] at hx hy
      have hv := tb.sub i r k _ hr ⟨hd, rfl⟩
      have hrd := w.read i r k _ hr ⟨hd, rfl⟩
      rw [hm, block_lt (by omega), block_lt (by omega)] at hx
      simp only [Option.bind_some, Option.map_eq_some_iff] at hx hy
      obtain ⟨z, hz, rfl⟩ := hx
      obtain ⟨u, hu, rfl⟩ := hy
      have Q := R.q i hi
      have key := read_rel w R (next := (F.blocks i).next) hv hrd
      rw [hm] at hu
      have hrd2 : (if k = true then (m.ctrl i).read2 else (m.ctrl i).read1) = (F.blocks i).rd k := by
        unfold Block.rd; rw [Q.read1, Q.read2]
      rw [hrd2, ← Q.next, ← key] at hu
      have hz' : F.read (F.blocks (if k = true then r.v2 else r.v1)) ((F.blocks i).rd k) (F.blocks i).next = some z := hz
      rw [hz'] at hu
      simp only [Option.map_some, Option.some.injEq] at hu
      subst hu
      refine ⟨?_, rfl⟩
      simp only []
      rw [hm]
      refine rel_ptr R ?_ ?_ ?_ ?_ ?_
      · split <;> rfl
      · split <;> rfl
      · split <;> rfl
      · intro c; cases k <;> simp
      · intro _
        cases k
        · exact ⟨rfl, Q.read2, Q.next⟩
        · exact ⟨Q.read1, rfl, Q.next⟩
  all_goals (simp only [hd] at hx hy; cases hx; cases hy; exact ⟨R, rfl⟩)

/-! ### Writing -/

theorem addr_ne {prog : List TlRec} {F : Flat} (w : Wf prog F) {p q : Nat} {r s : TlRec} (hp : prog[p]? = some r)
    (hq : prog[q]? = some s) (hne : p ≠ q) {k k' : Nat} (hk : k < r.words (F.blocks p).len)
    (hk' : k' < s.words (F.blocks q).len) : (F.blocks p).off + k ≠ (F.blocks q).off + k' := by
  have h1 := (List.getElem?_eq_some_iff.1 hp).1
  have h2 := (List.getElem?_eq_some_iff.1 hq).1
  rcases Nat.lt_or_gt_of_ne hne with h | h
  · have := w.placed.apart p q r hp h h2; omega
  · have := w.placed.apart q p s hq h h1; omega

theorem slotFor_rel {prog : List TlRec} {F : Flat} {m : Mon} (w : Wf prog F) (R : Rel prog F m) {i : Nat}
    (hi : i < prog.length) {v : Verdict} (hv : v.time < 2 ^ 31) :
    (m.ctrl i).push v = { m.ctrl i with
      slots := fun k => if k = F.slotFor (F.blocks i) v.word then some v else (m.ctrl i).slots k
      write := (F.slotFor (F.blocks i) v.word + 1) % (F.blocks i).len } := by
  have Q := R.q i hi
  have hw := w.write i hi
  have hp : (if (F.blocks i).write = 0 then (F.blocks i).len - 1 else (F.blocks i).write - 1) < (F.blocks i).len := by
    split_ifs <;> omega
  have key : (let p := if (m.ctrl i).write = 0 then (m.ctrl i).len - 1 else (m.ctrl i).write - 1
      if (((m.ctrl i).slots p).getD .inf).truth = v.truth ∧ (m.ctrl i).slots p ≠ (m.ctrl i).slots (m.ctrl i).write ∧
        (m.ctrl i).slots (m.ctrl i).write ≠ none then p else (m.ctrl i).write) = F.slotFor (F.blocks i) v.word := by
    unfold slotFor
    simp only []
    rw [← Q.len, ← Q.write]
    have hcond : ((((m.ctrl i).slots (if (F.blocks i).write = 0 then (F.blocks i).len - 1 else (F.blocks i).write - 1)).getD .inf).truth = v.truth ∧
        (m.ctrl i).slots (if (F.blocks i).write = 0 then (F.blocks i).len - 1 else (F.blocks i).write - 1) ≠ (m.ctrl i).slots (F.blocks i).write ∧
        (m.ctrl i).slots (F.blocks i).write ≠ none) ↔
        (getTruth (F.mem ((F.blocks i).off + (if (F.blocks i).write = 0 then (F.blocks i).len - 1 else (F.blocks i).write - 1))) = getTruth v.word ∧
        F.mem ((F.blocks i).off + (if (F.blocks i).write = 0 then (F.blocks i).len - 1 else (F.blocks i).write - 1)) ≠ F.mem ((F.blocks i).off + (F.blocks i).write) ∧
        F.mem ((F.blocks i).off + (F.blocks i).write) ≠ infWord) := by
      rw [← Q.slot _ hp, ← Q.slot _ hw, toSlot_getD]
      have h1 : getTruth v.word = v.truth := by
        have := congrArg Verdict.truth (unpack_word hv); exact this
      rw [h1]
      have h2 := toSlot_inj (Q.word _ hp) (Q.word _ hw)
      have h3 := toSlot_none (w := F.mem ((F.blocks i).off + (F.blocks i).write))
      simp only [ne_eq, h2, h3]
      rfl
    by_cases hc : (((m.ctrl i).slots (if (F.blocks i).write = 0 then (F.blocks i).len - 1 else (F.blocks i).write - 1)).getD .inf).truth = v.truth ∧
        (m.ctrl i).slots (if (F.blocks i).write = 0 then (F.blocks i).len - 1 else (F.blocks i).write - 1) ≠ (m.ctrl i).slots (F.blocks i).write ∧
        (m.ctrl i).slots (F.blocks i).write ≠ none
    · rw [if_pos hc, if_pos (hcond.1 hc)]
    · rw [if_neg hc, if_neg (fun h => hc (hcond.2 h))]
  rw [← key, Q.len]
  have hl := R.lang i
  have hm : ∀ p, (m.ctrl i).merges p ↔ (m.ctrl i).slots p ≠ (m.ctrl i).slots (m.ctrl i).write ∧ (m.ctrl i).slots (m.ctrl i).write ≠ none := by
    intro p; unfold Ctrl.merges; rw [hl]
  simp only [Ctrl.push, hm, hl, Lang.inf]

theorem push_rel {prog : List TlRec} {F : Flat} {m : Mon} (w : Wf prog F) (tb : InTable prog F.lim) (R : Rel prog F m)
    {i : Nat} (hi : i < prog.length) {v : Verdict} (hv : v.time < 2 ^ 31 - 1) :
    ∃ F', F.push i v.word = some F' ∧ Wf prog F' ∧ F'.lim = F.lim ∧ Rel prog F' (m.upd i fun c => c.push v) := by
  obtain ⟨F', hF, wF, lF⟩ := push_wf (v := v.word) w hi tb.blocks
  refine ⟨F', hF, wF, lF, ?_⟩
  rw [push_eq w hi tb.blocks] at hF
  cases hF
  have hs := slotFor_rel w R hi (v := v) (by omega)
  have hlt := slotFor_lt (F := F) (w := v.word) (w.write i hi)
  generalize F.slotFor (F.blocks i) v.word = s at hs hlt ⊢
  have hri := List.getElem?_eq_getElem hi
  have hoff : ∀ q, q < prog.length → q ≠ i → ∀ k, k < (prog[q]?.elim 0 fun r => r.words (F.blocks q).len) →
      (F.blocks q).off + k ≠ (F.blocks i).off + s := by
    intro q hq hne k hk
    have hrq := List.getElem?_eq_getElem hq
    rw [hrq] at hk
    refine addr_ne w hrq hri hne hk ?_
    unfold TlRec.words; omega
  refine ⟨R.time, R.progress, R.atoms, R.out, ?_, ?_, fun q => by have := R.lang q; simp only [Mon.upd]; split <;> simp_all⟩
  · intro q hq
    have Q := R.q q hq
    by_cases hqi : q = i
    · subst hqi
      refine ⟨?_, ?_, ?_, ?_, ?_, ?_, ?_⟩ <;>
        simp only [Flat.setBlock, Mon.upd, if_true, hs]
      · exact Q.len
      · exact Q.read1
      · exact Q.read2
      · exact Q.next
      · intro k hk
        by_cases hks : k = s
        · subst hks; simp only [if_true]; exact toSlot_word hv
        · have : (F.blocks q).off + k ≠ (F.blocks q).off + s := by omega
          simp only [if_neg this, if_neg hks]; exact Q.slot k hk
      · intro k hk
        by_cases hks : k = s
        · subst hks; simp only [if_true]; exact word_lt (by omega)
        · have : (F.blocks q).off + k ≠ (F.blocks q).off + s := by omega
          simp only [if_neg this]; exact Q.word k hk
    · have ho : ∀ k, k < (F.blocks q).len → (F.blocks q).off + k ≠ (F.blocks i).off + s := by
        intro k hk
        refine hoff q hq hqi k ?_
        rw [List.getElem?_eq_getElem hq]
        show k < TlRec.words _ _
        unfold TlRec.words; omega
      refine ⟨?_, ?_, ?_, ?_, ?_, ?_, ?_⟩ <;>
        simp only [Flat.setBlock, Mon.upd, if_neg hqi]
      · exact Q.len
      · exact Q.write
      · exact Q.read1
      · exact Q.read2
      · exact Q.next
      · intro k hk; rw [if_neg (ho k hk)]; exact Q.slot k hk
      · intro k hk; rw [if_neg (ho k hk)]; exact Q.word k hk
  · intro q r hr ht
    have T := R.t q r hr ht
    have hq := (List.getElem?_eq_some_iff.1 hr).1
    by_cases hqi : q = i
    · subst hqi
      have ho : ∀ k, (F.blocks q).off + (F.blocks q).len + k ≠ (F.blocks q).off + s := by intro k; omega
      have ho0 := ho 0
      rw [Nat.add_zero] at ho0
      refine ⟨?_, ?_, ?_, ?_⟩ <;> simp only [Flat.setBlock, Mon.upd, if_true, hs, if_neg (ho _), if_neg ho0]
      · exact T.edge
      · exact T.prev
      · exact T.lb
      · exact T.ub
    · have ho : ∀ k, k < 4 → (F.blocks q).off + (F.blocks q).len + k ≠ (F.blocks i).off + s := by
        intro k hk
        have := hoff q hq hqi ((F.blocks q).len + k) (by
          rw [hr]
          show _ < TlRec.words _ _
          unfold TlRec.words
          rw [if_pos ht]; omega)
        omega
      have ho0 := ho 0 (by omega)
      rw [Nat.add_zero] at ho0
      refine ⟨?_, ?_, ?_, ?_⟩ <;> simp only [Flat.setBlock, Mon.upd, if_neg hqi]
      · rw [if_neg ho0]; exact T.edge
      · rw [if_neg (ho 1 (by omega))]; exact T.prev
      · rw [if_neg (ho 2 (by omega))]; exact T.lb
      · rw [if_neg (ho 3 (by omega))]; exact T.ub

theorem writeBack_rel {prog : List TlRec} {F : Flat} {m : Mon} (w : Wf prog F) (tb : InTable prog F.lim) (R : Rel prog F m)
    {i : Nat} {r : TlRec} (hr : prog[i]? = some r) {E E' : Effect} (hn : E'.next = E.next)
    (ht : isTemporal r.opcode = true → E'.edge = E.edge ∧ E'.prev = E.prev ∧ E.edge.time < 2 ^ 31 ∧ E.prev.time < 2 ^ 31) :
    ∃ F', F.writeBack r E' = some F' ∧ Wf prog F' ∧ F'.lim = F.lim ∧
      Rel prog F' (m.upd i fun c => { c with next := E.next, prev := E.prev, edge := E.edge }) := by
  obtain ⟨F', hF, wF, lF⟩ := writeBack_ok w tb hr E'
  refine ⟨F', hF, wF, lF, ?_⟩
  have hi := (List.getElem?_eq_some_iff.1 hr).1
  have hm := tb.mem i r hr
  have hb := tb.blocks
  unfold writeBack at hF
  rw [hm, block_lt (by omega)] at hF
  simp only [Option.bind_some] at hF
  by_cases htm : isTemporal r.opcode = true
  · rw [if_pos htm] at hF
    obtain ⟨e1, e2, e3, e4⟩ := ht htm
    have h0 : (F.blocks i).off + (F.blocks i).len < F.lim.slots := in_block w hr htm (k := 0) (by omega)
    have h1 := in_block w hr htm (k := 1) (by omega)
    rw [store_lt (by exact h0)] at hF
    simp only [Option.bind_some] at hF
    rw [store_lt (by exact h1)] at hF
    cases hF
    have hne : ∀ (q k : Nat) (s : TlRec), prog[q]? = some s → q ≠ i → k < s.words (F.blocks q).len →
        (F.blocks q).off + k ≠ (F.blocks i).off + (F.blocks i).len ∧ (F.blocks q).off + k ≠ (F.blocks i).off + (F.blocks i).len + 1 := by
      intro q k s hs hq hk
      have hw : r.words (F.blocks i).len = (F.blocks i).len + 4 := by unfold TlRec.words; rw [if_pos htm]
      have a1 := addr_ne w hs hr hq hk (k' := (F.blocks i).len) (by omega)
      have a2 := addr_ne w hs hr hq hk (k' := (F.blocks i).len + 1) (by omega)
      omega
    refine ⟨R.time, R.progress, R.atoms, R.out, ?_, ?_, fun q => by have := R.lang q; simp only [Mon.upd]; split <;> simp_all⟩
    · intro q hq
      have Q := R.q q hq
      have hsame : ∀ k, k < (F.blocks q).len → (F.blocks q).off + k ≠ (F.blocks i).off + (F.blocks i).len ∧
          (F.blocks q).off + k ≠ (F.blocks i).off + (F.blocks i).len + 1 := by
        intro k hk
        by_cases hqi : q = i
        · subst hqi; omega
        · refine hne q k _ (List.getElem?_eq_getElem hq) hqi ?_
          unfold TlRec.words; omega
      by_cases hqi : q = i
      · subst hqi
        refine ⟨?_, ?_, ?_, ?_, ?_, ?_, ?_⟩ <;>
          simp only [Flat.setBlock, Mon.upd, if_true]
        · exact Q.len
        · exact Q.write
        · exact Q.read1
        · exact Q.read2
        · exact hn
        · intro k hk; rw [if_neg (hsame k hk).2, if_neg (hsame k hk).1]; exact Q.slot k hk
        · intro k hk; rw [if_neg (hsame k hk).2, if_neg (hsame k hk).1]; exact Q.word k hk
      · refine ⟨?_, ?_, ?_, ?_, ?_, ?_, ?_⟩ <;>
          simp only [Flat.setBlock, Mon.upd, if_neg hqi]
        · exact Q.len
        · exact Q.write
        · exact Q.read1
        · exact Q.read2
        · exact Q.next
        · intro k hk; rw [if_neg (hsame k hk).2, if_neg (hsame k hk).1]; exact Q.slot k hk
        · intro k hk; rw [if_neg (hsame k hk).2, if_neg (hsame k hk).1]; exact Q.word k hk
    · intro q s hs hts
      have T := R.t q s hs hts
      by_cases hqi : q = i
      · subst hqi
        have n1 : (F.blocks q).off + (F.blocks q).len ≠ (F.blocks q).off + (F.blocks q).len + 1 := by omega
        have n2 : (F.blocks q).off + (F.blocks q).len + 2 ≠ (F.blocks q).off + (F.blocks q).len := by omega
        have n3 : (F.blocks q).off + (F.blocks q).len + 3 ≠ (F.blocks q).off + (F.blocks q).len := by omega
        have n4 : (F.blocks q).off + (F.blocks q).len + 2 ≠ (F.blocks q).off + (F.blocks q).len + 1 := by omega
        have n5 : (F.blocks q).off + (F.blocks q).len + 3 ≠ (F.blocks q).off + (F.blocks q).len + 1 := by omega
        refine ⟨?_, ?_, ?_, ?_⟩ <;> simp only [Flat.setBlock, Mon.upd, if_true]
        · rw [if_neg n1, e1, unpack_word e3]
        · rw [e2, unpack_word e4]
        · rw [if_neg n4, if_neg n2]; exact T.lb
        · rw [if_neg n5, if_neg n3]; exact T.ub
      · have hw : s.words (F.blocks q).len = (F.blocks q).len + 4 := by unfold TlRec.words; rw [if_pos hts]
        have a0 := hne q ((F.blocks q).len) s hs hqi (by omega)
        have a1 := hne q ((F.blocks q).len + 1) s hs hqi (by omega)
        have a2 := hne q ((F.blocks q).len + 2) s hs hqi (by omega)
        have a3 := hne q ((F.blocks q).len + 3) s hs hqi (by omega)
        simp only [← Nat.add_assoc] at a1 a2 a3
        refine ⟨?_, ?_, ?_, ?_⟩ <;> simp only [Flat.setBlock, Mon.upd, if_neg hqi]
        · rw [if_neg a0.2, if_neg a0.1]; exact T.edge
        · rw [if_neg a1.2, if_neg a1.1]; exact T.prev
        · rw [if_neg a2.2, if_neg a2.1]; exact T.lb
        · rw [if_neg a3.2, if_neg a3.1]; exact T.ub
  · rw [if_neg htm] at hF
    cases hF
    have Qi := R.q i hi
    refine ⟨R.time, R.progress, R.atoms, R.out, ?_, ?_, fun q => by have := R.lang q; simp only [Mon.upd]; split <;> simp_all⟩
    · intro q hq
      have Q := R.q q hq
      by_cases hqi : q = i
      · subst hqi
        refine ⟨?_, ?_, ?_, ?_, ?_, ?_, ?_⟩ <;>
          simp only [Flat.setBlock, Mon.upd, if_true]
        · exact Q.len
        · exact Q.write
        · exact Q.read1
        · exact Q.read2
        · exact hn
        · exact Q.slot
        · exact Q.word
      · refine ⟨?_, ?_, ?_, ?_, ?_, ?_, ?_⟩ <;>
          simp only [Flat.setBlock, Mon.upd, if_neg hqi]
        · exact Q.len
        · exact Q.write
        · exact Q.read1
        · exact Q.read2
        · exact Q.next
        · exact Q.slot
        · exact Q.word
    · intro q s hs hts
      have T := R.t q s hs hts
      have hqi : q ≠ i := by rintro rfl; rw [hr] at hs; cases hs; exact htm hts
      refine ⟨?_, ?_, ?_, ?_⟩ <;> simp only [Flat.setBlock, Mon.upd, if_neg hqi]
      · exact T.edge
      · exact T.prev
      · exact T.lb
      · exact T.ub

/-- Two effects that do the same. -/
structure SameE (r : TlRec) (E' E : Effect) : Prop where
  push : E'.push = E.push
  report : E'.report = E.report
  next : E'.next = E.next
  block : isTemporal r.opcode = true → E'.edge = E.edge ∧ E'.prev = E.prev

/-- The times of an effect fit into words. -/
structure FitsE (r : TlRec) (E : Effect) : Prop where
  push : ∀ v, E.push = some v → v.time < 2 ^ 31 - 1
  block : isTemporal r.opcode = true → E.edge.time < 2 ^ 31 ∧ E.prev.time < 2 ^ 31

theorem apply_rel {prog : List TlRec} {F : Flat} {m : Mon} (w : Wf prog F) (tb : InTable prog F.lim) (R : Rel prog F m)
    {i : Nat} {r : TlRec} (hr : prog[i]? = some r) {E E' : Effect} (hs : SameE r E' E) (hf : FitsE r E) :
    ∃ F', F.apply r E' = some F' ∧ Wf prog F' ∧ F'.lim = F.lim ∧ Rel prog F' (m.apply r E) := by
  have hi := (List.getElem?_eq_some_iff.1 hr).1
  have hm := tb.mem i r hr
  have key : ∃ F1, F.pushed r.mem E'.push = some F1 ∧ Wf prog F1 ∧ F1.lim = F.lim ∧
      Rel prog F1 (m.upd i fun c => match E.push with
        | some v => c.push v
        | none => c) := by
    rw [hs.push, hm]
    cases hp : E.push with
    | none =>
        refine ⟨F, rfl, w, rfl, ?_⟩
        rw [upd_id]; exact R
    | some v => exact push_rel w tb R hi (hf.push v hp)
  obtain ⟨F1, h1, w1, l1, R1⟩ := key
  obtain ⟨F2, h2, w2, l2, R2⟩ := writeBack_rel w1 (by rw [l1]; exact tb) R1 hr hs.next (fun ht =>
    ⟨(hs.block ht).1, (hs.block ht).2, (hf.block ht).1, (hf.block ht).2⟩)
  unfold Flat.apply
  rw [h1]
  simp only [Option.bind_some]
  rw [h2]
  refine ⟨_, rfl, Wf.congr w2 rfl rfl, l2.trans l1, ?_⟩
  have hctrl : (m.apply r E).ctrl = ((m.upd i fun c => match E.push with
        | some v => c.push v
        | none => c).upd i fun c => { c with next := E.next, prev := E.prev, edge := E.edge }).ctrl := by
    funext k
    simp only [Mon.apply, Mon.upd, hm]
    split
    · rfl
    · rfl
  refine ⟨R2.time, ?_, R2.atoms, ?_, ?_, ?_, fun q => by rw [hctrl]; exact R2.lang q⟩
  · simp only [Mon.apply]
    rw [hs.push, hs.report]
    have := R2.progress
    simp only [Mon.upd] at this
    rw [this]
    simp only [R.lang, and_true]
  · simp only [Mon.apply]
    rw [hs.report]
    have := R2.out
    simp only [Mon.upd] at this
    rw [this]
    cases E.report <;> rfl
  · intro q hq
    have Q := R2.q q hq
    refine ⟨?_, ?_, ?_, ?_, ?_, ?_, ?_⟩ <;> (try rw [hctrl])
    · exact Q.len
    · exact Q.write
    · exact Q.read1
    · exact Q.read2
    · exact Q.next
    · exact Q.slot
    · exact Q.word
  · intro q s hs' hts
    have T := R2.t q s hs' hts
    refine ⟨?_, ?_, ?_, ?_⟩ <;> rw [hctrl]
    · exact T.edge
    · exact T.prev
    · exact T.lb
    · exact T.ub

/-! ### Instructions -/

/-- What the cases use of a control block. -/
structure SameC (r : TlRec) (c' c : Ctrl) : Prop where
  next : c'.next = c.next
  block : isTemporal r.opcode = true → c'.edge = c.edge ∧ c'.prev = c.prev ∧ c'.lb = c.lb ∧ c'.ub = c.ub

theorem seen_rel {prog : List TlRec} {F : Flat} {m : Mon} (R : Rel prog F m) {i : Nat} {r : TlRec}
    (hr : prog[i]? = some r) : SameC r (F.seen i r) (m.ctrl i) := by
  have hi := (List.getElem?_eq_some_iff.1 hr).1
  have Q := R.q i hi
  unfold seen
  simp only []
  split
  · rename_i ht
    have T := R.t i r hr ht
    exact ⟨Q.next, fun _ => ⟨T.edge, T.prev, T.lb, T.ub⟩⟩
  · rename_i ht
    exact ⟨Q.next, fun h => absurd h ht⟩

theorem load_same {r : TlRec} {c' c : Ctrl} (h : SameC r c' c) (hn : isTemporal r.opcode = false) (a : Option Verdict) :
    SameE r (loadBody c' a) (loadBody c a) := by
  cases a <;> exact ⟨rfl, rfl, by first | rfl | exact h.next, fun ht => by rw [hn] at ht; cases ht⟩

theorem ret_same {r : TlRec} {c' c : Ctrl} (h : SameC r c' c) (hn : isTemporal r.opcode = false) (a : Option Verdict) :
    SameE r (retBody c' a) (retBody c a) := by
  cases a <;> exact ⟨rfl, rfl, by first | rfl | exact h.next, fun ht => by rw [hn] at ht; cases ht⟩

theorem not_same {r : TlRec} {c' c : Ctrl} (h : SameC r c' c) (hn : isTemporal r.opcode = false) (a : Option Verdict) :
    SameE r (notBody c' a) (notBody c a) := by
  cases a <;> exact ⟨rfl, rfl, by first | rfl | exact h.next, fun ht => by rw [hn] at ht; cases ht⟩

theorem and_same {r : TlRec} {c' c : Ctrl} (h : SameC r c' c) (hn : isTemporal r.opcode = false) (a b : Option Verdict) :
    SameE r (andBody c' a b) (andBody c a b) := by
  have hx := h.next
  cases a <;> cases b <;> simp only [andBody, Ctrl.keep, Ctrl.emit] <;> (try split_ifs) <;>
    exact ⟨rfl, rfl, by first | rfl | exact h.next, fun ht => by rw [hn] at ht; cases ht⟩

theorem or_same {r : TlRec} {c' c : Ctrl} (h : SameC r c' c) (hn : isTemporal r.opcode = false) (a b : Option Verdict) :
    SameE r (orBody c' a b) (orBody c a b) := by
  cases a <;> cases b <;> simp only [orBody, Ctrl.keep, Ctrl.emit] <;> (try split_ifs) <;>
    exact ⟨rfl, rfl, by first | rfl | exact h.next, fun ht => by rw [hn] at ht; cases ht⟩

theorem equiv_same {r : TlRec} {c' c : Ctrl} (h : SameC r c' c) (hn : isTemporal r.opcode = false) (a b : Option Verdict) :
    SameE r (equivBody c' a b) (equivBody c a b) := by
  cases a <;> cases b <;> simp only [equivBody, Ctrl.keep, Ctrl.emit] <;>
    exact ⟨rfl, rfl, by first | rfl | exact h.next, fun ht => by rw [hn] at ht; cases ht⟩

theorem SameE.of_eq {r : TlRec} {E' E : Effect} (h : E' = E) : SameE r E' E := by
  subst h; exact ⟨rfl, rfl, rfl, fun _ => ⟨rfl, rfl⟩⟩

theorem until_same {r : TlRec} {c' c : Ctrl} (h : SameC r c' c) (hn : isTemporal r.opcode = true) (a b : Option Verdict) :
    SameE r (untilBody c' a b) (untilBody c a b) := by
  obtain ⟨h1, h2, h3, h4⟩ := h.block hn
  have h0 := h.next
  clear h
  obtain ⟨_, _, _, _, _, _, _, _, _, _⟩ := c'
  obtain ⟨_, _, _, _, _, _, _, _, _, _⟩ := c
  simp only [] at h0 h1 h2 h3 h4
  subst h0 h1 h2 h3 h4
  exact SameE.of_eq rfl

theorem release_same {r : TlRec} {c' c : Ctrl} (h : SameC r c' c) (hn : isTemporal r.opcode = true) (a b : Option Verdict) :
    SameE r (releaseBody c' a b) (releaseBody c a b) := by
  obtain ⟨h1, h2, h3, h4⟩ := h.block hn
  have h0 := h.next
  clear h
  obtain ⟨_, _, _, _, _, _, _, _, _, _⟩ := c'
  obtain ⟨_, _, _, _, _, _, _, _, _, _⟩ := c
  simp only [] at h0 h1 h2 h3 h4
  subst h0 h1 h2 h3 h4
  exact SameE.of_eq rfl

theorem since_same {r : TlRec} {c' c : Ctrl} (h : SameC r c' c) (hn : isTemporal r.opcode = true) (a b : Option Verdict) :
    SameE r (sinceBody c' a b) (sinceBody c a b) := by
  obtain ⟨h1, h2, h3, h4⟩ := h.block hn
  have h0 := h.next
  clear h
  obtain ⟨_, _, _, _, _, _, _, _, _, _⟩ := c'
  obtain ⟨_, _, _, _, _, _, _, _, _, _⟩ := c
  simp only [] at h0 h1 h2 h3 h4
  subst h0 h1 h2 h3 h4
  exact SameE.of_eq rfl

theorem trigger_same {r : TlRec} {c' c : Ctrl} (h : SameC r c' c) (hn : isTemporal r.opcode = true) (a b : Option Verdict) :
    SameE r (triggerBody c' a b) (triggerBody c a b) := by
  obtain ⟨h1, h2, h3, h4⟩ := h.block hn
  have h0 := h.next
  clear h
  obtain ⟨_, _, _, _, _, _, _, _, _, _⟩ := c'
  obtain ⟨_, _, _, _, _, _, _, _, _, _⟩ := c
  simp only [] at h0 h1 h2 h3 h4
  subst h0 h1 h2 h3 h4
  exact SameE.of_eq rfl

/-- The times in memory after an instruction fit into words. -/
theorem fitsE_of_small {m : Mon} {r : TlRec} {E : Effect} {t : Nat} (ht : t < 2 ^ 31 - 1) (hs : Small t (m.apply r E)) :
    FitsE r E := by
  obtain ⟨h1, h2, h3⟩ := hs r.mem
  simp only [Mon.apply, if_true] at h1 h2 h3
  refine ⟨fun v hv => ?_, fun _ => ⟨by omega, by omega⟩⟩
  have hk : ∃ k, ((m.ctrl r.mem).push v).slots k = some v := by
    unfold Ctrl.push
    exact ⟨_, if_pos rfl⟩
  obtain ⟨k, hk⟩ := hk
  have := h1 k v (by rw [hv]; exact hk)
  omega

theorem unary_rel {prog : List TlRec} {F : Flat} {m m' : Mon} (w : Wf prog F) (tb : InTable prog F.lim) (R : Rel prog F m)
    {i : Nat} {r : TlRec} (hr : prog[i]? = some r) (fits : Fits r m) {body : Ctrl → Option Verdict → Effect}
    (hb : ∀ c' c a, SameC r c' c → SameE r (body c' a) (body c a)) {t : Nat} (ht : t < 2 ^ 31 - 1) (hs : Small t m')
    (hu : m.unary r body = some m') :
    ∃ F', F.unary r body = some F' ∧ Wf prog F' ∧ F'.lim = F.lim ∧ Rel prog F' m' := by
  have hm := tb.mem i r hr
  unfold Mon.unary at hu
  simp only [Option.map_eq_some_iff] at hu
  obtain ⟨y, hy, rfl⟩ := hu
  obtain ⟨x, hx, wx, lx, Rx, ex⟩ := operand_rel w tb R hr fits false hy
  have tb' : InTable prog x.1.lim := by rw [lx]; exact tb
  obtain ⟨F', hF, wF, lF, RF⟩ := apply_rel wx tb' Rx hr (hb _ _ y.2 (by rw [hm]; exact seen_rel Rx hr)) (fitsE_of_small ht hs)
  refine ⟨F', ?_, wF, lF.trans lx, RF⟩
  unfold Flat.unary
  rw [hx]
  simp only [Option.bind_some]
  rw [ctrlOf_ok wx tb' hr]
  simp only [Option.bind_some]
  rw [ex]
  exact hF

theorem fits_operand {m : Mon} {r : TlRec} {k : Bool} {y : Mon × Option Verdict} (h : m.operand r k = some y)
    (f : Fits r m) : Fits r y.1 := by
  unfold Mon.operand at h
  split at h
  · cases h; exact f
  · cases h; exact f
  · simp only [Option.map_eq_some_iff] at h
    obtain ⟨z, _, rfl⟩ := h
    constructor
    have := f.direct
    simp only [Mon.upd, if_true]
    cases k <;> exact this
  · cases h; exact f

theorem binary_rel {prog : List TlRec} {F : Flat} {m m' : Mon} (w : Wf prog F) (tb : InTable prog F.lim) (R : Rel prog F m)
    {i : Nat} {r : TlRec} (hr : prog[i]? = some r) (fits : Fits r m)
    {body : Ctrl → Option Verdict → Option Verdict → Effect}
    (hb : ∀ c' c a b, SameC r c' c → SameE r (body c' a b) (body c a b)) {t : Nat} (ht : t < 2 ^ 31 - 1) (hs : Small t m')
    (hu : m.binary r body = some m') :
    ∃ F', F.binary r body = some F' ∧ Wf prog F' ∧ F'.lim = F.lim ∧ Rel prog F' m' := by
  have hm := tb.mem i r hr
  unfold Mon.binary at hu
  simp only [Option.bind_eq_some_iff, Option.map_eq_some_iff] at hu
  obtain ⟨y, hy, z, hz, rfl⟩ := hu
  obtain ⟨x, hx, wx, lx, Rx, ex⟩ := operand_rel w tb R hr fits false hy
  have tb' : InTable prog x.1.lim := by rw [lx]; exact tb
  obtain ⟨u, hu, wu, lu, Ru, eu⟩ := operand_rel wx tb' Rx hr (fits_operand hy fits) true hz
  have tb2 : InTable prog u.1.lim := by rw [lu]; exact tb'
  obtain ⟨F', hF, wF, lF, RF⟩ := apply_rel wu tb2 Ru hr (hb _ _ y.2 z.2 (by rw [hm]; exact seen_rel Ru hr)) (fitsE_of_small ht hs)
  refine ⟨F', ?_, wF, lF.trans (lu.trans lx), RF⟩
  unfold Flat.binary
  rw [hx]
  simp only [Option.bind_some]
  rw [hu]
  simp only [Option.bind_some]
  rw [ctrlOf_ok wu tb2 hr]
  simp only [Option.bind_some]
  rw [ex, eu]
  exact hF

theorem skip_rel {prog : List TlRec} {F : Flat} {m : Mon} (w : Wf prog F) (tb : InTable prog F.lim) (R : Rel prog F m)
    {i : Nat} {r : TlRec} (hr : prog[i]? = some r) (ht : isTemporal r.opcode = true) :
    ∃ F', F.skipToLb r = some F' ∧ Wf prog F' ∧ F'.lim = F.lim ∧ Rel prog F' (m.skipToLb r) := by
  obtain ⟨F', hF, wF, lF⟩ := skip_ok w tb hr
  refine ⟨F', hF, wF, lF, ?_⟩
  have hi := (List.getElem?_eq_some_iff.1 hr).1
  have hm := tb.mem i r hr
  have hb := tb.blocks
  have Q := R.q i hi
  unfold skipToLb at hF
  rw [ctrlOf_ok w tb hr] at hF
  simp only [Option.bind_some] at hF
  rw [hm, block_lt (by omega)] at hF
  simp only [Option.map_some, Option.some.injEq] at hF
  subst hF
  have hlb := ((seen_rel R hr).block ht).2.2.1
  rw [hlb, Q.next]
  unfold Mon.skipToLb
  have hc := R.lang i
  rw [hm]
  by_cases hlt : (m.ctrl i).next < (m.ctrl i).lb
  · rw [if_pos hlt]
    refine rel_ptr R rfl rfl rfl ?_ ?_
    · intro c; split <;> simp
    · intro _
      rw [if_pos ⟨hc, hlt⟩]
      exact ⟨Q.read1, Q.read2, rfl⟩
  · rw [if_neg hlt]
    have : (m.upd i fun c => if c.lang = .c ∧ c.next < c.lb then { c with next := c.lb } else c) = m := by
      unfold Mon.upd
      have : (fun k => if k = i then (if (m.ctrl k).lang = .c ∧ (m.ctrl k).next < (m.ctrl k).lb then { m.ctrl k with next := (m.ctrl k).lb } else m.ctrl k)
          else m.ctrl k) = m.ctrl := by
        funext k
        by_cases hk : k = i
        · subst hk; rw [if_pos rfl, if_neg fun h => hlt h.2]
        · rw [if_neg hk]
      simp only [this]
    rw [this]
    exact R

theorem update_rel {prog : List TlRec} {F : Flat} {m m' : Mon} (w : Wf prog F) (tb : InTable prog F.lim) (R : Rel prog F m)
    {i : Nat} {r : TlRec} (hr : prog[i]? = some r) (fits : Fits r m) {t : Nat} (ht : t < 2 ^ 31 - 1) (hs : Small t m')
    (hu : m.update r = some m') :
    ∃ F', F.update r = some F' ∧ Wf prog F' ∧ F'.lim = F.lim ∧ Rel prog F' m' := by
  have hm := tb.mem i r hr
  have hc := ctrlOf_ok w tb hr
  have hsn := seen_rel R hr
  unfold Mon.update at hu
  unfold Flat.update
  split at hu
  · rename_i hop
    rw [hop]
    exact unary_rel w tb R hr fits (fun c' c a h => load_same h (by rw [hop]; rfl) a) ht hs hu
  · rename_i hop
    rw [hop]
    exact unary_rel w tb R hr fits (fun c' c a h => ret_same h (by rw [hop]; rfl) a) ht hs hu
  · rename_i hop
    obtain ⟨F1, h1, w1, l1, R1⟩ := skip_rel w tb R hr (by rw [hop]; rfl)
    have f1 : Fits r (m.skipToLb r) := ⟨by have := fits.direct; rw [hop] at this ⊢; simpa [Mon.skipToLb, Mon.upd] using this⟩
    rw [hop]
    simp only []
    rw [h1]
    obtain ⟨F2, a1, a2, a3, a4⟩ := binary_rel w1 (by rw [l1]; exact tb) R1 hr f1
      (fun c' c a b h => until_same h (by rw [hop]; rfl) a b) ht hs hu
    exact ⟨F2, a1, a2, a3.trans l1, a4⟩
  · rename_i hop
    obtain ⟨F1, h1, w1, l1, R1⟩ := skip_rel w tb R hr (by rw [hop]; rfl)
    have f1 : Fits r (m.skipToLb r) := ⟨by have := fits.direct; rw [hop] at this ⊢; simpa [Mon.skipToLb, Mon.upd] using this⟩
    rw [hop]
    simp only []
    rw [h1]
    obtain ⟨F2, a1, a2, a3, a4⟩ := binary_rel w1 (by rw [l1]; exact tb) R1 hr f1
      (fun c' c a b h => release_same h (by rw [hop]; rfl) a b) ht hs hu
    exact ⟨F2, a1, a2, a3.trans l1, a4⟩
  · rename_i hop
    have htm : isTemporal r.opcode = true := by rw [hop]; rfl
    obtain ⟨e1, e2, e3, e4⟩ := hsn.block htm
    simp only [R.lang] at hu
    rw [hop]
    simp only []
    rw [hc]
    simp only [Option.bind_some]
    have hst : (F.seen i r).starting ↔ (m.ctrl r.mem).starting := by
      unfold Ctrl.starting; rw [e2, e3, hm]
    by_cases hx : (m.ctrl r.mem).starting
    · rw [if_pos hx] at hu
      rw [if_pos (hst.2 hx)]
      simp only [Option.some.injEq] at hu
      subst hu
      refine apply_rel w tb R hr (SameE.of_eq ?_) (fitsE_of_small ht hs)
      simp only [Ctrl.emitPrev, Ctrl.keep, e1, e3, hm]
    · rw [if_neg hx] at hu
      rw [if_neg (fun h => hx (hst.1 h))]
      exact binary_rel w tb R hr fits (fun c' c a b h => since_same h htm a b) ht hs hu
  · rename_i hop
    have htm : isTemporal r.opcode = true := by rw [hop]; rfl
    obtain ⟨e1, e2, e3, e4⟩ := hsn.block htm
    simp only [R.lang] at hu
    rw [hop]
    simp only []
    rw [hc]
    simp only [Option.bind_some]
    have hst : (F.seen i r).starting ↔ (m.ctrl r.mem).starting := by
      unfold Ctrl.starting; rw [e2, e3, hm]
    by_cases hx : (m.ctrl r.mem).starting
    · rw [if_pos hx] at hu
      rw [if_pos (hst.2 hx)]
      simp only [Option.some.injEq] at hu
      subst hu
      refine apply_rel w tb R hr (SameE.of_eq ?_) (fitsE_of_small ht hs)
      simp only [Ctrl.emitPrev, Ctrl.keep, e1, e3, hm]
    · rw [if_neg hx] at hu
      rw [if_neg (fun h => hx (hst.1 h))]
      exact binary_rel w tb R hr fits (fun c' c a b h => trigger_same h htm a b) ht hs hu
  · rename_i hop
    rw [hop]
    exact unary_rel w tb R hr fits (fun c' c a h => not_same h (by rw [hop]; rfl) a) ht hs hu
  · rename_i hop
    rw [hop]
    exact binary_rel w tb R hr fits (fun c' c a b h => and_same h (by rw [hop]; rfl) a b) ht hs hu
  · rename_i hop
    rw [hop]
    exact binary_rel w tb R hr fits (fun c' c a b h => or_same h (by rw [hop]; rfl) a b) ht hs hu
  · rename_i hop
    rw [hop]
    exact binary_rel w tb R hr fits (fun c' c a b h => equiv_same h (by rw [hop]; rfl) a b) ht hs hu
  · cases hu
    split <;> first
      | exact ⟨F, rfl, w, rfl, R⟩
      | (rename_i h1 h2 h3 h4 h5 h6 h7 h8 h9 h10 hop; exfalso; tauto)

/-! ### Passes, steps, runs -/

theorem small_congr {t t' : Nat} {m m' : Mon} (h : Small t m) (ht : t ≤ t') (hc : m'.ctrl = m.ctrl) : Small t' m' := by
  intro q
  obtain ⟨h1, h2, h3⟩ := h q
  rw [hc]
  exact ⟨fun k v hv => Nat.le_trans (h1 k v hv) ht, Nat.le_trans h2 ht, Nat.le_trans h3 ht⟩

theorem rel_congr {prog : List TlRec} {F F' : Flat} {m m' : Mon} (R : Rel prog F m) (h1 : F'.blocks = F.blocks)
    (h2 : F'.mem = F.mem) (h3 : m'.ctrl = m.ctrl) (h4 : F'.time = m'.time) (h5 : F'.progress = m'.progress)
    (h6 : F'.atoms = m'.atoms) (h7 : F'.out = m'.out) : Rel prog F' m' := by
  refine ⟨h4, h5, h6, h7, ?_, ?_, fun q => by rw [h3]; exact R.lang q⟩
  · intro q hq
    have Q := R.q q hq
    exact ⟨by rw [h1, h3]; exact Q.len, by rw [h1, h3]; exact Q.write, by rw [h1, h3]; exact Q.read1,
      by rw [h1, h3]; exact Q.read2, by rw [h1, h3]; exact Q.next, by rw [h1, h2, h3]; exact Q.slot, by rw [h1, h2]; exact Q.word⟩
  · intro q r hr ht
    have T := R.t q r hr ht
    exact ⟨by rw [h1, h2, h3]; exact T.edge, by rw [h1, h2, h3]; exact T.prev, by rw [h1, h2, h3]; exact T.lb,
      by rw [h1, h2, h3]; exact T.ub⟩

theorem pass_rel {S : Setup} (ok : S.Ok) (all : ∀ i, i < S.prog.length → S.own i)
    {tr : Nat → Nat → Bool} {V : Nat → Nat → Prop} (hV : S.Means tr V) {t N : Nat} (hN : N < 2 ^ 31 - 1) (ht : t ≤ N)
    (hB : ∀ i, i < S.prog.length → (t : Int) ≤ N + S.B i) {late : Bool} :
    ∀ (is : List TlRec) (pc : Nat) (F : Flat) (m m' : Mon) (h : Nat → List Verdict),
    S.prog.drop pc = is → Inv S tr V t late pc m h → Small N m → Mon.pass is m = some m' →
    Wf S.prog F → InTable S.prog F.lim → Rel S.prog F m →
      ∃ F' h', F.pass is = some F' ∧ Wf S.prog F' ∧ F'.lim = F.lim ∧ Rel S.prog F' m' ∧
        Inv S tr V t late (pc + is.length) m' h' ∧ Small N m' := by
  intro is
  induction is with
  | nil => rintro pc F m m' h _ inv sm hp w tb R; cases hp; exact ⟨F, h, rfl, w, rfl, R, inv, sm⟩
  | cons r is ih =>
      intro pc F m m' h hd inv sm hp w tb R
      obtain ⟨hr, hd'⟩ := drop_cons hd
      have hlt := (List.getElem?_eq_some_iff.1 hr).1
      simp only [Mon.pass, Option.bind_eq_some_iff] at hp
      obtain ⟨m1, hu, hp⟩ := hp
      obtain ⟨m2, h2, e1, e2, _, _, e5⟩ := step_own ok hV (operand_in ok) inv hr (all pc hlt)
      rw [hu] at e1; cases e1
      have fits : Fits r m := by
        constructor
        rw [inv.time]
        split
        · rename_i hop
          have hps : r.past = true := by rcases hop with h | h <;> simp [TlRec.past, h]
          have hsn := ok.soon pc r hr (all pc hlt) false
          rcases ok.handled pc r hr (all pc hlt) with hf | hf
          · have := hf.notPast; rw [hps] at this; cases this
          · have hk := hf.2.2.2
            have ha : S.argB (r.arg false) = 0 := by
              rcases hop with h | h <;> (rw [h] at hk; simp only [] at hk; rw [hk]; rfl)
            have hnt : r.temporal = false := by rcases hop with h | h <;> simp [TlRec.temporal, h]
            rw [ha, hps, hnt] at hsn
            simp only [Bool.false_eq_true, if_false, if_true] at hsn
            rw [hf.1, (inv.node pc r hr (all pc hlt)).ub]
            have := hB pc hlt
            omega
        · omega
      have e5 := e5 N (hB pc hlt)
      obtain ⟨F1, f1, f2, f3, f4⟩ := update_rel w tb R hr fits hN (e5 sm) hu
      obtain ⟨F2, h3, g1, g2, g3, g4, g5, g6⟩ := ih (pc + 1) F1 m1 m' h2 hd' e2 (e5 sm) hp f2 (by rw [f3]; exact tb) f4
      refine ⟨F2, h3, ?_, g2, g3.trans f3, g4, ?_, g6⟩
      · simp only [Flat.pass, f1, Option.bind_some, g1]
      · rw [List.length_cons]
        rwa [show pc + (is.length + 1) = pc + 1 + is.length by omega]

theorem loop_rel {S : Setup} (ok : S.Ok) (all : ∀ i, i < S.prog.length → S.own i)
    {tr : Nat → Nat → Bool} {V : Nat → Nat → Prop} (hV : S.Means tr V) {t N : Nat} (hN : N < 2 ^ 31 - 1) (ht : t ≤ N)
    (hB : ∀ i, i < S.prog.length → (t : Int) ≤ N + S.B i) :
    ∀ (fuel : Nat) (late : Bool) (F : Flat) (m m' : Mon) (h : Nat → List Verdict),
    Inv S tr V t late 0 m h → Small N m → Mon.loop S.prog fuel m = some m' →
    Wf S.prog F → InTable S.prog F.lim → Rel S.prog F m →
      ∃ F', F.loop S.prog fuel = some F' ∧ Wf S.prog F' ∧ F'.lim = F.lim ∧ Rel S.prog F' m' ∧ Small N m' := by
  intro fuel
  induction fuel with
  | zero => intro late F m m' h _ _ hl; cases hl
  | succ n ih =>
      intro late F m m' h inv sm hl w tb R
      simp only [Mon.loop] at hl
      cases hp : Mon.pass S.prog m with
      | none => rw [hp] at hl; cases hl
      | some m1 =>
          rw [hp] at hl
          simp only at hl
          obtain ⟨F1, h1, g1, g2, g3, g4, g5, g6⟩ := pass_rel ok all hV hN ht hB S.prog 0 F m m1 h (by simp) inv sm hp w tb R
          rw [Nat.zero_add] at g5
          unfold Flat.loop
          rw [g1]
          simp only []
          rw [g4.progress]
          have again : ∀ (hl : Mon.loop S.prog n { m1 with progress := .reloop } = some m'),
              ∃ F', Flat.loop S.prog n { F1 with progress := .reloop } = some F' ∧ Wf S.prog F' ∧ F'.lim = F.lim ∧
                Rel S.prog F' m' ∧ Small N m' := by
            intro hl
            obtain ⟨F2, a1, a2, a3, a4⟩ := ih true { F1 with progress := .reloop } { m1 with progress := .reloop } m' h1
              (end_pass g5) (small_congr g6 (Nat.le_refl _) rfl) hl (Wf.congr g2 rfl rfl) (by rw [show ({ F1 with progress := .reloop } : Flat).lim = F1.lim from rfl, g3]; exact tb)
              (rel_congr g4 rfl rfl rfl g4.time rfl g4.atoms g4.out)
            exact ⟨F2, a1, a2, a3.trans g3, a4⟩
          cases hpr : m1.progress with
          | first => rw [hpr] at hl; exact again hl
          | again => rw [hpr] at hl; exact again hl
          | reloop =>
              rw [hpr] at hl
              simp only [Option.some.injEq] at hl
              subst hl
              refine ⟨_, rfl, Wf.congr g2 rfl rfl, g3, ?_, small_congr g6 (Nat.le_refl _) rfl⟩
              exact rel_congr g4 rfl rfl rfl (by simp [g4.time]) rfl g4.atoms g4.out

theorem run_rel {S : Setup} (ok : S.Ok) (hl : S.lang = .c) (all : ∀ i, i < S.prog.length → S.own i)
    {tr : Nat → Nat → Bool} {F : Flat} (w : Wf S.prog F) (tb : InTable S.prog F.lim)
    (R : Rel S.prog F (Mon.init S.prog S.len S.lb S.ub)) {N : Nat} (hN : N < 2 ^ 31 - 1) (fuel : Nat) :
    ∀ (k : Nat) (m : Mon), k ≤ N + 1 → (∀ i, i < S.prog.length → (k : Int) ≤ N + 1 + S.B i) →
    Mon.run S.prog fuel tr k (Mon.init S.prog S.len S.lb S.ub) = some m →
      ∃ F', F.run S.prog fuel tr k = some F' ∧ Wf S.prog F' ∧ F'.lim = F.lim ∧ Rel S.prog F' m ∧ Small N m := by
  intro k
  obtain ⟨V, hV⟩ := exists_means ok tr
  induction k with
  | zero =>
      intro m _ _ hm
      cases hm
      refine ⟨F, rfl, w, rfl, R, ?_⟩
      intro q
      refine ⟨?_, Nat.zero_le _, Nat.zero_le _⟩
      intro k v hv
      simp only [Mon.init, Ctrl.init] at hv
      split at hv
      · cases hv
      · cases hv; exact Nat.zero_le _
  | succ k ih =>
      intro m hk hkB hm
      simp only [Mon.run, Option.bind_eq_some_iff] at hm
      obtain ⟨m1, h1, h2⟩ := hm
      obtain ⟨F1, a1, a2, a3, a4, a5⟩ := ih m1 (by omega) (fun i hi => by have := hkB i hi; omega) h1
      obtain ⟨h, inv, _⟩ := run_safe ok hV fuel k m1 (by rw [hl]; exact h1)
      obtain ⟨F2, b1, b2, b3, b4, b5⟩ := loop_rel ok all hV (t := k) hN (by omega) (fun i hi => by have := hkB i hi; omega) fuel false { F1 with atoms := tr k }
        { m1 with atoms := tr k } m h inv (small_congr a5 (Nat.le_refl _) rfl) h2 (Wf.congr a2 rfl rfl)
        (by rw [show ({ F1 with atoms := tr k } : Flat).lim = F1.lim from rfl, a3]; exact tb)
        (rel_congr a4 rfl rfl rfl a4.time a4.progress rfl a4.out)
      refine ⟨F2, ?_, b2, b3.trans a3, b4, b5⟩
      simp only [Flat.run, a1, Option.bind_some]
      exact b1

end Flat
end R2U2
