import Verif.Spec.Arena
import Verif.Lemmas.Words
import Mathlib.Tactic.SplitIfs
/-
Accesses stay inside the arrays.
-/
namespace R2U2
namespace Flat

/-- The read pointer for operand `k`. -/
def _root_.R2U2.Block.rd (b : Block) (k : Bool) : Nat := if k then b.read2 else b.read1

/-- All pointers are inside their queues. -/
structure Wf (prog : List TlRec) (F : Flat) : Prop where
  placed : Placed prog F.lim F.blocks
  write : ∀ i, i < prog.length → (F.blocks i).write < (F.blocks i).len
  read : ∀ (i : Nat) (r : TlRec) k c, prog[i]? = some r → r.Reads k c → (F.blocks i).rd k < (F.blocks c).len

theorem load_lt {F : Flat} {a : Nat} (h : a < F.lim.slots) : F.load a = some (F.mem a) := if_pos h

theorem store_lt {F : Flat} {a w : Nat} (h : a < F.lim.slots) :
    F.store a w = some { F with mem := fun k => if k = a then w else F.mem k } := if_pos h

theorem block_lt {F : Flat} {q : Nat} (h : q < F.lim.blocks) : F.block q = some (F.blocks q) := if_pos h

theorem Wf.congr {prog : List TlRec} {F F' : Flat} (w : Wf prog F) (hl : F'.lim = F.lim) (hb : F'.blocks = F.blocks) :
    Wf prog F' := by
  refine ⟨?_, ?_, ?_⟩
  · rw [hl, hb]; exact w.placed
  · rw [hb]; exact w.write
  · rw [hb]; exact w.read

/-- Changing a block without moving it. -/
theorem Wf.setBlock {prog : List TlRec} {F : Flat} (w : Wf prog F) {q : Nat} {b : Block}
    (hlen : b.len = (F.blocks q).len) (hoff : b.off = (F.blocks q).off) (hw : q < prog.length → b.write < b.len)
    (hr : ∀ (r : TlRec) k c, prog[q]? = some r → r.Reads k c → b.rd k < (F.blocks c).len) :
    Wf prog (F.setBlock q b) := by
  have l : ∀ i, ((F.setBlock q b).blocks i).len = (F.blocks i).len := by
    intro i; simp only [Flat.setBlock]; split
    · rename_i h; rw [h]; exact hlen
    · rfl
  have o : ∀ i, ((F.setBlock q b).blocks i).off = (F.blocks i).off := by
    intro i; simp only [Flat.setBlock]; split
    · rename_i h; rw [h]; exact hoff
    · rfl
  refine ⟨⟨?_, ?_, ?_⟩, ?_, ?_⟩
  · intro i hi; rw [l]; exact w.placed.pos i hi
  · intro i r h; rw [l, o]; exact w.placed.fit i r h
  · intro i j r h h1 h2; rw [l, o, o]; exact w.placed.apart i j r h h1 h2
  · intro i hi
    rw [l]
    simp only [Flat.setBlock]
    split
    · rename_i h; subst h; rw [← hlen]; exact hw hi
    · exact w.write i hi
  · intro i r k c h hk
    rw [l]
    simp only [Flat.setBlock]
    split
    · rename_i h'; subst h'; exact hr r k c h hk
    · exact w.read i r k c h hk

theorem in_slots {prog : List TlRec} {F : Flat} (w : Wf prog F) {q k : Nat} (hq : q < prog.length)
    (hk : k < (F.blocks q).len) : (F.blocks q).off + k < F.lim.slots := by
  have hr := List.getElem?_eq_getElem hq
  have := w.placed.fit q _ hr
  unfold TlRec.words at this
  omega

theorem in_block {prog : List TlRec} {F : Flat} (w : Wf prog F) {q : Nat} {r : TlRec} (hr : prog[q]? = some r)
    (ht : isTemporal r.opcode = true) {k : Nat} (hk : k < 4) : (F.blocks q).off + (F.blocks q).len + k < F.lim.slots := by
  have := w.placed.fit q _ hr
  unfold TlRec.words at this
  rw [if_pos ht] at this
  omega

/-- Where `push` writes. -/
def slotFor (F : Flat) (b : Block) (w : Nat) : Nat :=
  let p := if b.write = 0 then b.len - 1 else b.write - 1
  if getTruth (F.mem (b.off + p)) = getTruth w ∧ F.mem (b.off + p) ≠ F.mem (b.off + b.write) ∧
      F.mem (b.off + b.write) ≠ infWord then p else b.write

theorem slotFor_lt {F : Flat} {b : Block} {w : Nat} (h : b.write < b.len) : F.slotFor b w < b.len := by
  unfold slotFor
  simp only []
  split_ifs <;> omega

theorem push_eq {prog : List TlRec} {F : Flat} (w : Wf prog F) {q v : Nat} (hq : q < prog.length)
    (hb : prog.length ≤ F.lim.blocks) :
    F.push q v = some (({ F with mem := fun k => if k = (F.blocks q).off + F.slotFor (F.blocks q) v then v else F.mem k } : Flat).setBlock q
      { F.blocks q with write := (F.slotFor (F.blocks q) v + 1) % (F.blocks q).len }) := by
  have hw := w.write q hq
  have hp : (if (F.blocks q).write = 0 then (F.blocks q).len - 1 else (F.blocks q).write - 1) < (F.blocks q).len := by
    split_ifs <;> omega
  unfold Flat.push
  rw [block_lt (by omega)]
  simp only [Option.bind_some]
  rw [load_lt (in_slots w hq hp), load_lt (in_slots w hq hw)]
  simp only [Option.bind_some]
  have hs := in_slots w hq (slotFor_lt (F := F) (w := v) hw)
  unfold slotFor at hs ⊢
  simp only [] at hs ⊢
  rw [store_lt hs]
  rfl

theorem push_wf {prog : List TlRec} {F : Flat} (w : Wf prog F) {q v : Nat} (hq : q < prog.length)
    (hb : prog.length ≤ F.lim.blocks) :
    ∃ F', F.push q v = some F' ∧ Wf prog F' ∧ F'.lim = F.lim := by
  have w1 : Wf prog { F with mem := fun k => if k = (F.blocks q).off + F.slotFor (F.blocks q) v then v else F.mem k } :=
    Wf.congr w rfl rfl
  exact ⟨_, push_eq w hq hb, w1.setBlock (q := q) rfl rfl (fun _ => Nat.mod_lt _ (w.placed.pos q hq))
    fun r k c hr hk => w.read q r k c hr hk, rfl⟩

/-- The steps from one place of a ring to another. -/
def dist (len r w : Nat) : Nat := if r < w then w - r else w + len - r

theorem dist_succ {len r w : Nat} (hr : r < len) (hw : w < len) (hne : (r + 1) % len ≠ w) :
    dist len ((r + 1) % len) w + 1 = dist len r w := by
  unfold dist
  rcases Nat.lt_or_ge (r + 1) len with h | h
  · rw [Nat.mod_eq_of_lt h] at *
    split_ifs <;> omega
  · have he : r + 1 = len := by omega
    have hm : (r + 1) % len = 0 := by rw [he]; exact Nat.mod_self _
    rw [hm] at hne ⊢
    split_ifs <;> omega

theorem scan_ok {F : Flat} {b : Block} {next : Nat} (hs : ∀ k, k < b.len → b.off + k < F.lim.slots) (hp : 0 < b.len)
    (hw : b.write < b.len) : ∀ (n r : Nat), r < b.len → dist b.len r b.write ≤ n →
      ∃ x, F.scan b next n r = some x ∧ x.1 < b.len := by
  intro n
  induction n with
  | zero =>
      intro r hr hd
      unfold dist at hd
      split_ifs at hd <;> omega
  | succ n ih =>
      intro r hr hd
      unfold scan
      rw [load_lt (hs r hr)]
      simp only [Option.bind_some]
      split
      · exact ⟨_, rfl, hr⟩
      · split
        · refine ⟨_, rfl, ?_⟩
          simp only []
          split_ifs
          · omega
          · have := Nat.mod_lt (r + 1) hp; omega
        · rename_i h
          exact ih _ (Nat.mod_lt _ hp) (by have := dist_succ hr hw h; omega)

theorem read_ok {prog : List TlRec} {F : Flat} (w : Wf prog F) {q r next : Nat} (hq : q < prog.length)
    (hr : r < (F.blocks q).len) : ∃ x, F.read (F.blocks q) r next = some x ∧ x.1 < (F.blocks q).len := by
  unfold Flat.read
  rw [load_lt (in_slots w hq hr)]
  simp only [Option.bind_some]
  split
  · exact ⟨_, rfl, hr⟩
  · have hw := w.write q hq
    refine scan_ok (fun k hk => in_slots w hq hk) (w.placed.pos q hq) hw _ _ hr ?_
    unfold dist
    split_ifs <;> omega

/-- The control block as the cases see it. -/
def seen (F : Flat) (i : Nat) (r : TlRec) : Ctrl :=
  let b := F.blocks i
  if isTemporal r.opcode then
    ⟨b.len, b.write, b.read1, b.read2, b.next, fun _ => none, unpack (F.mem (b.off + b.len)),
      unpack (F.mem (b.off + b.len + 1)), F.mem (b.off + b.len + 2), F.mem (b.off + b.len + 3), .c⟩
  else ⟨b.len, b.write, b.read1, b.read2, b.next, fun _ => none, ⟨false, 0⟩, ⟨false, 0⟩, 0, 0, .c⟩

theorem ctrlOf_ok {prog : List TlRec} {F : Flat} (w : Wf prog F) (tb : InTable prog F.lim) {i : Nat} {r : TlRec}
    (hr : prog[i]? = some r) : F.ctrlOf r = some (F.seen i r) := by
  have hi := (List.getElem?_eq_some_iff.1 hr).1
  have hm := tb.mem i r hr
  have hb := tb.blocks
  unfold ctrlOf seen
  rw [hm, block_lt (by omega)]
  simp only [Option.bind_some]
  split
  · rename_i ht
    have h0 : (F.blocks i).off + (F.blocks i).len < F.lim.slots := in_block w hr ht (k := 0) (by omega)
    rw [load_lt h0, load_lt (in_block w hr ht (k := 1) (by omega)), load_lt (in_block w hr ht (k := 2) (by omega)),
      load_lt (in_block w hr ht (k := 3) (by omega))]
    rfl
  · rfl

theorem operand_ok {prog : List TlRec} {F : Flat} (w : Wf prog F) (tb : InTable prog F.lim) {i : Nat} {r : TlRec}
    (hr : prog[i]? = some r) (k : Bool) : ∃ x, F.operand r k = some x ∧ Wf prog x.1 ∧ x.1.lim = F.lim := by
  have hi := (List.getElem?_eq_some_iff.1 hr).1
  have hm := tb.mem i r hr
  have hb := tb.blocks
  unfold operand
  split
  · have hc := ctrlOf_ok w tb hr
    rw [hc]
    exact ⟨_, rfl, w, rfl⟩
  · rename_i h
    split
    · rw [if_pos (tb.atom i r k _ hr ⟨h, rfl⟩)]
      exact ⟨_, rfl, w, rfl⟩
    · exact ⟨_, rfl, w, rfl⟩
  · rename_i h
    have hv := tb.sub i r k _ hr ⟨h, rfl⟩
    have hrd := w.read i r k _ hr ⟨h, rfl⟩
    rw [hm, block_lt (by omega), block_lt (by omega)]
    simp only [Option.bind_some]
    obtain ⟨x, hx, hl⟩ := read_ok w (r := (F.blocks i).rd k) (next := (F.blocks i).next) hv hrd
    unfold Block.rd at hx
    rw [hx]
    refine ⟨_, rfl, ?_, rfl⟩
    simp only []
    cases k
    · refine Wf.setBlock w rfl rfl (fun h => w.write i h) ?_
      intro r' k' c hr' hk
      rw [hr] at hr'; cases hr'
      cases k'
      · have := h; simp only [Bool.false_eq_true, if_false] at *
        have : c = r.v1 := by have := hk.2; simpa using this.symm
        subst this
        exact hl
      · exact w.read i r true c hr hk
    · refine Wf.setBlock w rfl rfl (fun h => w.write i h) ?_
      intro r' k' c hr' hk
      rw [hr] at hr'; cases hr'
      cases k'
      · exact w.read i r false c hr hk
      · have : c = r.v2 := by have := hk.2; simpa using this.symm
        subst this
        exact hl
  · exact ⟨_, rfl, w, rfl⟩

theorem writeBack_ok {prog : List TlRec} {F : Flat} (w : Wf prog F) (tb : InTable prog F.lim) {i : Nat} {r : TlRec}
    (hr : prog[i]? = some r) (E : Effect) : ∃ F', F.writeBack r E = some F' ∧ Wf prog F' ∧ F'.lim = F.lim := by
  have hi := (List.getElem?_eq_some_iff.1 hr).1
  have hm := tb.mem i r hr
  have hb := tb.blocks
  have w1 : Wf prog (F.setBlock i { F.blocks i with next := E.next }) :=
    Wf.setBlock w rfl rfl (fun h => w.write i h) (fun r k c h hk => w.read i r k c h hk)
  unfold writeBack
  rw [hm, block_lt (by omega)]
  simp only [Option.bind_some]
  split
  · rename_i ht
    have h0 := in_block w hr ht (k := 0) (by omega)
    have h1 := in_block w hr ht (k := 1) (by omega)
    rw [store_lt (by exact h0)]
    simp only [Option.bind_some]
    rw [store_lt (by exact h1)]
    exact ⟨_, rfl, Wf.congr w1 rfl rfl, rfl⟩
  · exact ⟨_, rfl, w1, rfl⟩

theorem apply_ok {prog : List TlRec} {F : Flat} (w : Wf prog F) (tb : InTable prog F.lim) {i : Nat} {r : TlRec}
    (hr : prog[i]? = some r) (E : Effect) : ∃ F', F.apply r E = some F' ∧ Wf prog F' ∧ F'.lim = F.lim := by
  have hi := (List.getElem?_eq_some_iff.1 hr).1
  have hm := tb.mem i r hr
  have hb := tb.blocks
  have key : ∃ F1, F.pushed r.mem E.push = some F1 ∧ Wf prog F1 ∧ F1.lim = F.lim := by
    cases E.push with
    | none => exact ⟨F, rfl, w, rfl⟩
    | some v => rw [hm]; exact push_wf w hi hb
  obtain ⟨F1, h1, w1, l1⟩ := key
  obtain ⟨F2, h2, w2, l2⟩ := writeBack_ok w1 (by rw [l1]; exact tb) hr E
  unfold Flat.apply
  rw [h1]
  simp only [Option.bind_some]
  rw [h2]
  exact ⟨_, rfl, Wf.congr w2 rfl rfl, l2.trans l1⟩

theorem unary_ok {prog : List TlRec} {F : Flat} (w : Wf prog F) (tb : InTable prog F.lim) {i : Nat} {r : TlRec}
    (hr : prog[i]? = some r) (body : Ctrl → Option Verdict → Effect) :
    ∃ F', F.unary r body = some F' ∧ Wf prog F' ∧ F'.lim = F.lim := by
  obtain ⟨x, hx, wx, lx⟩ := operand_ok w tb hr false
  have tb' : InTable prog x.1.lim := by rw [lx]; exact tb
  have hc := ctrlOf_ok wx tb' hr
  obtain ⟨F', hF, wF, lF⟩ := apply_ok wx tb' hr (body _ (x.2.map unpack))
  refine ⟨F', ?_, wF, lF.trans lx⟩
  unfold Flat.unary
  rw [hx]
  simp only [Option.bind_some]
  rw [hc]
  exact hF

theorem binary_ok {prog : List TlRec} {F : Flat} (w : Wf prog F) (tb : InTable prog F.lim) {i : Nat} {r : TlRec}
    (hr : prog[i]? = some r) (body : Ctrl → Option Verdict → Option Verdict → Effect) :
    ∃ F', F.binary r body = some F' ∧ Wf prog F' ∧ F'.lim = F.lim := by
  obtain ⟨x, hx, wx, lx⟩ := operand_ok w tb hr false
  have tb' : InTable prog x.1.lim := by rw [lx]; exact tb
  obtain ⟨y, hy, wy, ly⟩ := operand_ok wx tb' hr true
  have tb2 : InTable prog y.1.lim := by rw [ly]; exact tb'
  have hc := ctrlOf_ok wy tb2 hr
  obtain ⟨F', hF, wF, lF⟩ := apply_ok wy tb2 hr (body _ (x.2.map unpack) (y.2.map unpack))
  refine ⟨F', ?_, wF, lF.trans (ly.trans lx)⟩
  unfold Flat.binary
  rw [hx]
  simp only [Option.bind_some]
  rw [hy]
  simp only [Option.bind_some]
  rw [hc]
  exact hF

theorem skip_ok {prog : List TlRec} {F : Flat} (w : Wf prog F) (tb : InTable prog F.lim) {i : Nat} {r : TlRec}
    (hr : prog[i]? = some r) : ∃ F', F.skipToLb r = some F' ∧ Wf prog F' ∧ F'.lim = F.lim := by
  have hi := (List.getElem?_eq_some_iff.1 hr).1
  have hm := tb.mem i r hr
  have hb := tb.blocks
  have hc := ctrlOf_ok w tb hr
  unfold skipToLb
  rw [hc]
  simp only [Option.bind_some]
  rw [hm, block_lt (by omega)]
  refine ⟨_, rfl, ?_, ?_⟩
  · simp only []
    split
    · exact Wf.setBlock w rfl rfl (fun h => w.write i h) (fun r k c h hk => w.read i r k c h hk)
    · exact w
  · simp only []
    split <;> rfl

theorem update_ok {prog : List TlRec} {F : Flat} (w : Wf prog F) (tb : InTable prog F.lim) {i : Nat} {r : TlRec}
    (hr : prog[i]? = some r) : ∃ F', F.update r = some F' ∧ Wf prog F' ∧ F'.lim = F.lim := by
  obtain ⟨F1, h1, w1, l1⟩ := skip_ok w tb hr
  have tb1 : InTable prog F1.lim := by rw [l1]; exact tb
  have hc := ctrlOf_ok w tb hr
  unfold update
  split
  · exact unary_ok w tb hr _
  · exact unary_ok w tb hr _
  · rw [h1]
    obtain ⟨F', a, b, c⟩ := binary_ok w1 tb1 hr untilBody
    exact ⟨F', a, b, c.trans l1⟩
  · rw [h1]
    obtain ⟨F', a, b, c⟩ := binary_ok w1 tb1 hr releaseBody
    exact ⟨F', a, b, c.trans l1⟩
  · rw [hc]
    simp only [Option.bind_some]
    split
    · exact apply_ok w tb hr _
    · exact binary_ok w tb hr _
  · rw [hc]
    simp only [Option.bind_some]
    split
    · exact apply_ok w tb hr _
    · exact binary_ok w tb hr _
  · exact unary_ok w tb hr _
  · exact binary_ok w tb hr _
  · exact binary_ok w tb hr _
  · exact binary_ok w tb hr _
  · exact ⟨F, rfl, w, rfl⟩

theorem pass_ok {prog : List TlRec} : ∀ (is : List TlRec) (F : Flat), (∀ r ∈ is, ∃ i : Nat, prog[i]? = some r) → Wf prog F →
    InTable prog F.lim → ∃ F', F.pass is = some F' ∧ Wf prog F' ∧ F'.lim = F.lim := by
  intro is
  induction is with
  | nil => intro F _ w _; exact ⟨F, rfl, w, rfl⟩
  | cons r is ih =>
      intro F hin w tb
      obtain ⟨i, hi⟩ := hin r (by simp)
      obtain ⟨F1, h1, w1, l1⟩ := update_ok w tb hi
      obtain ⟨F2, h2, w2, l2⟩ := ih F1 (fun s hs => hin s (by simp [hs])) w1 (by rw [l1]; exact tb)
      refine ⟨F2, ?_, w2, l2.trans l1⟩
      simp only [pass, h1, Option.bind_some, h2]

end Flat
end R2U2
