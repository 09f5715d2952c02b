import Verif.Spec.RustBz
import Verif.Lemmas.RustLoad
import Verif.Lemmas.Binary
/-
The booleanizers of the two monitors side by side.
-/
namespace R2U2
namespace Rs
variable {F G : Type} {ι : F → G}

theorem put_int {m m' : R2U2.BzMon G} {s : BzMon F} {lim : BzLimits} {a : Nat} {v : Int} (h : m.put lim a (.int v) = some m') (g : Agrees ι m s) :
    ∃ s', s.putI lim a v = some s' ∧ Agrees ι m' s' := by
  unfold R2U2.BzMon.put at h
  split at h
  · next hc =>
    cases h
    refine ⟨{ s with i := fun b => if b = a then v else s.i b }, if_pos hc, ⟨?_, ?_, g.atoms, g.time, g.calm⟩⟩
    · intro b w hb
      simp only at hb ⊢
      by_cases hba : b = a
      · rw [if_pos hba] at hb ⊢; cases hb; rfl
      · rw [if_neg hba] at hb ⊢; exact g.int b w hb
    · intro b w hb
      simp only at hb ⊢
      by_cases hba : b = a
      · rw [if_pos hba] at hb; cases hb
      · rw [if_neg hba] at hb; exact g.flt b w hb
  · cases h

theorem put_flt {m m' : R2U2.BzMon G} {s : BzMon F} {lim : BzLimits} {a : Nat} {v : F} (h : m.put lim a (.flt (ι v)) = some m') (g : Agrees ι m s) :
    ∃ s', s.putF lim a v = some s' ∧ Agrees ι m' s' := by
  unfold R2U2.BzMon.put at h
  split at h
  · next hc =>
    cases h
    refine ⟨{ s with f := fun b => if b = a then v else s.f b }, if_pos hc, ⟨?_, ?_, g.atoms, g.time, g.calm⟩⟩
    · intro b w hb
      simp only at hb ⊢
      by_cases hba : b = a
      · rw [if_pos hba] at hb; cases hb
      · rw [if_neg hba] at hb; exact g.int b w hb
    · intro b w hb
      simp only at hb ⊢
      by_cases hba : b = a
      · rw [if_pos hba] at hb ⊢; cases hb; rfl
      · rw [if_neg hba] at hb ⊢; exact g.flt b w hb
  · cases h

theorem get_some {m : R2U2.BzMon G} {lim : BzLimits} {a : Nat} {c : Cell G} (h : m.get lim a = some c) : a < lim.cells ∧ m.vals a = c := by
  unfold R2U2.BzMon.get at h
  split at h
  · cases h; exact ⟨by assumption, rfl⟩
  · cases h

theorem cell_i {c : Cell G} {v : Int} (h : c.i = some v) : c = .int v := by cases c <;> cases h; rfl
theorem cell_f {c : Cell G} {v : G} (h : c.f = some v) : c = .flt v := by cases c <;> cases h; rfl

theorem copy_ok {m m' : R2U2.BzMon G} {s : BzMon F} {lim : BzLimits} {a b : Nat}
    (h : ((m.get lim b).bind fun v => m.put lim a v) = some m') (g : Agrees ι m s) :
    ∃ s', s.copy lim a b = some s' ∧ Agrees ι m' s' := by
  rw [Option.bind_eq_some_iff] at h
  obtain ⟨c, hc, h⟩ := h
  obtain ⟨h1, rfl⟩ := get_some hc
  unfold R2U2.BzMon.put at h
  split at h
  · next ha =>
    cases h
    refine ⟨{ s with i := fun k => if k = a then s.i b else s.i k, f := fun k => if k = a then s.f b else s.f k }, by simp only [BzMon.copy, if_pos h1, BzMon.putI, if_pos ha, Option.bind_some, BzMon.putF], ⟨?_, ?_, g.atoms, g.time, g.calm⟩⟩
    · intro k w hk
      simp only at hk ⊢
      by_cases hka : k = a
      · rw [if_pos hka] at hk ⊢; exact g.int b w hk
      · rw [if_neg hka] at hk ⊢; exact g.int k w hk
    · intro k w hk
      simp only at hk ⊢
      by_cases hka : k = a
      · rw [if_pos hka] at hk ⊢; exact g.flt b w hk
      · rw [if_neg hka] at hk ⊢; exact g.flt k w hk
  · cases h

theorem int1_ok {m m' : R2U2.BzMon G} {s : BzMon F} {lim : BzLimits} {r : BzRec} {f : Int → Option Int} {f' : Int → Int}
    (h : m.int1 lim r f = some m') (g : Agrees ι m s) (hf : ∀ a v, f a = some v → f' a = v) :
    ∃ s', s.int1 lim r f' = some s' ∧ Agrees ι m' s' := by
  simp only [R2U2.BzMon.int1, Option.bind_eq_some_iff] at h
  obtain ⟨c, hc, a, ha, v, hv, h⟩ := h
  obtain ⟨h1, rfl⟩ := get_some hc
  have := g.int _ _ (cell_i ha)
  unfold BzMon.int1
  rw [if_pos h1, this, hf a v hv]
  exact put_int h g

theorem chk1_ok {m m' : R2U2.BzMon G} {s : BzMon F} {lim : BzLimits} {r : BzRec} {f : Int → Option Int} {f' : Int → Int × Bool}
    (h : m.int1 lim r f = some m') (g : Agrees ι m s) (hf : ∀ a v, f a = some v → f' a = (v, false)) :
    ∃ s', s.chk1 lim r f' = some s' ∧ Agrees ι m' s' := by
  simp only [R2U2.BzMon.int1, Option.bind_eq_some_iff] at h
  obtain ⟨c, hc, a, ha, v, hv, h⟩ := h
  obtain ⟨h1, rfl⟩ := get_some hc
  have := g.int _ _ (cell_i ha)
  unfold BzMon.chk1
  rw [if_pos h1, this, hf a v hv]
  obtain ⟨s', p, q⟩ := put_int h g
  rw [p]
  exact ⟨_, rfl, ⟨q.int, q.flt, q.atoms, q.time, rfl⟩⟩

theorem int2_ok {m m' : R2U2.BzMon G} {s : BzMon F} {lim : BzLimits} {r : BzRec} {f : Int → Int → Option Int} {f' : Int → Int → Int}
    (h : m.int2 lim r f = some m') (g : Agrees ι m s) (hf : ∀ a b v, f a b = some v → f' a b = v) :
    ∃ s', s.int2 lim r f' = some s' ∧ Agrees ι m' s' := by
  simp only [R2U2.BzMon.int2, Option.bind_eq_some_iff] at h
  obtain ⟨c, hc, a, ha, d, hd, b, hb, v, hv, h⟩ := h
  obtain ⟨h1, rfl⟩ := get_some hc
  obtain ⟨h2, rfl⟩ := get_some hd
  unfold BzMon.int2
  rw [if_pos ⟨h1, h2⟩, g.int _ _ (cell_i ha), g.int _ _ (cell_i hb), hf a b v hv]
  exact put_int h g

theorem chk2_ok {m m' : R2U2.BzMon G} {s : BzMon F} {lim : BzLimits} {r : BzRec} {f : Int → Int → Option Int}
    {f' : Int → Int → Option (Int × Bool)}
    (h : m.int2 lim r f = some m') (g : Agrees ι m s) (hf : ∀ a b v, f a b = some v → f' a b = some (v, false)) :
    ∃ s', s.chk2 lim r f' = some s' ∧ Agrees ι m' s' := by
  simp only [R2U2.BzMon.int2, Option.bind_eq_some_iff] at h
  obtain ⟨c, hc, a, ha, d, hd, b, hb, v, hv, h⟩ := h
  obtain ⟨h1, rfl⟩ := get_some hc
  obtain ⟨h2, rfl⟩ := get_some hd
  unfold BzMon.chk2
  rw [if_pos ⟨h1, h2⟩, g.int _ _ (cell_i ha), g.int _ _ (cell_i hb), hf a b v hv]
  obtain ⟨s', p, q⟩ := put_int h g
  simp only [Option.bind_some, p, Option.map_some]
  exact ⟨_, rfl, ⟨q.int, q.flt, q.atoms, q.time, rfl⟩⟩

theorem flt1_ok {m m' : R2U2.BzMon G} {s : BzMon F} {lim : BzLimits} {r : BzRec} {f : G → G} {f' : F → F}
    (h : m.flt1 lim r (fun a => .flt (f a)) = some m') (g : Agrees ι m s) (hf : ∀ a, f (ι a) = ι (f' a)) :
    ∃ s', s.flt1 lim r f' = some s' ∧ Agrees ι m' s' := by
  simp only [R2U2.BzMon.flt1, Option.bind_eq_some_iff] at h
  obtain ⟨c, hc, a, ha, h⟩ := h
  obtain ⟨h1, rfl⟩ := get_some hc
  unfold BzMon.flt1
  rw [g.flt _ _ (cell_f ha), hf] at h
  rw [if_pos h1]
  exact put_flt h g

theorem flt2_ok {m m' : R2U2.BzMon G} {s : BzMon F} {lim : BzLimits} {r : BzRec} {f : G → G → G} {f' : F → F → F}
    (h : m.flt2 lim r (fun a b => .flt (f a b)) = some m') (g : Agrees ι m s) (hf : ∀ a b, f (ι a) (ι b) = ι (f' a b)) :
    ∃ s', s.flt2 lim r f' = some s' ∧ Agrees ι m' s' := by
  simp only [R2U2.BzMon.flt2, Option.bind_eq_some_iff] at h
  obtain ⟨c, hc, a, ha, d, hd, b, hb, h⟩ := h
  obtain ⟨h1, rfl⟩ := get_some hc
  obtain ⟨h2, rfl⟩ := get_some hd
  unfold BzMon.flt2
  rw [g.flt _ _ (cell_f ha), g.flt _ _ (cell_f hb), hf] at h
  rw [if_pos ⟨h1, h2⟩]
  exact put_flt h g

theorem cmp_ok {m m' : R2U2.BzMon G} {s : BzMon F} {lim : BzLimits} {r : BzRec} {f : G → G → Bool} {f' : F → F → Bool}
    (h : m.flt2 lim r (fun a b => .int (ofBool (f a b))) = some m') (g : Agrees ι m s) (hf : ∀ a b, f (ι a) (ι b) = f' a b) :
    ∃ s', s.cmp lim r f' = some s' ∧ Agrees ι m' s' := by
  simp only [R2U2.BzMon.flt2, Option.bind_eq_some_iff] at h
  obtain ⟨c, hc, a, ha, d, hd, b, hb, h⟩ := h
  obtain ⟨h1, rfl⟩ := get_some hc
  obtain ⟨h2, rfl⟩ := get_some hd
  unfold BzMon.cmp
  rw [g.flt _ _ (cell_f ha), g.flt _ _ (cell_f hb), hf] at h
  rw [if_pos ⟨h1, h2⟩]
  exact put_int h g

theorem int32_some {v w : Int} (h : int32 v = some w) : (-(2 ^ 31) ≤ v ∧ v < 2 ^ 31) ∧ w = v := by
  unfold int32 at h
  split at h
  · cases h; exact ⟨by assumption, rfl⟩
  · cases h

theorem intNeg_ok {a v : Int} (h : int32 (-a) = some v) : intNeg a = (v, false) := by
  obtain ⟨h1, rfl⟩ := int32_some h
  unfold intNeg imin
  rw [if_neg (by omega)]

theorem intAdd_ok {a b v : Int} (h : int32 (a + b) = some v) : intAdd a b = (v, false) := by unfold intAdd; rw [h]
theorem intSub_ok {a b v : Int} (h : int32 (a - b) = some v) : intSub a b = (v, false) := by unfold intSub; rw [h]
theorem intMul_ok {a b v : Int} (h : int32 (a * b) = some v) : intMul a b = (v, false) := by unfold intMul; rw [h]
theorem intDiv_ok {a b v : Int} (h : (if b = 0 then none else int32 (a.tdiv b)) = some v) : intDiv a b = (v, false) := by
  unfold intDiv checkedDiv; rw [h]

theorem intMod_ok {a b v : Int} (h : (if b = 0 then none else (int32 (a.tdiv b)).map fun _ => a.tmod b) = some v) :
    intMod a b = some (v, false) := by
  unfold intMod
  split at h
  · cases h
  · next hb =>
    rw [Option.map_eq_some_iff] at h
    obtain ⟨w, hw, rfl⟩ := h
    obtain ⟨h1, _⟩ := int32_some hw
    rw [if_neg hb, if_neg]
    rintro ⟨rfl, rfl⟩
    revert h1
    decide

/-- Wherever C computes a value, Rust computes it as well. -/
theorem update_ok {c : FloatOps G} {ops : Ops F} {ok : BzOp → Bool} (hl : LikeC ι c ops ok) {lim : BzLimits} {sig : Nat → Cell G} {sig' : Signals F} (hs : SameVia ι sig sig') {r : BzRec}
    (ho : ∀ o, r.opcode = some o → ok o = true) {m m' : R2U2.BzMon G} {s : BzMon F}
    (h : m.update c lim sig r = some m') (g : Agrees ι m s) : ∃ s', s.update ops lim sig' r = some s' ∧ Agrees ι m' s' := by
  unfold R2U2.BzMon.update at h
  unfold BzMon.update
  cases hop : r.opcode with
  | none => rw [hop] at h; cases h; exact ⟨s, rfl, g⟩
  | some o =>
    have hsame := ho o hop
    rw [hop] at h
    cases o <;> simp only at h ⊢
    case none => cases h; exact ⟨s, rfl, g⟩
    case iconst => cases h; exact ⟨s, rfl, g⟩
    case fconst => cases h; exact ⟨s, rfl, g⟩
    case iload =>
      split at h
      · next h1 =>
        rw [Option.bind_eq_some_iff] at h
        obtain ⟨v, hv, h⟩ := h
        rw [if_pos h1, (hs _).1 v (cell_i hv)]
        exact put_int h g
      · cases h
    case fload =>
      split at h
      · next h1 =>
        rw [Option.bind_eq_some_iff] at h
        obtain ⟨v, hv, h⟩ := h
        rw [(hs _).2 v (cell_f hv)] at h
        rw [if_pos h1]
        exact put_flt h g
      · cases h
    case store =>
      simp only [Option.bind_eq_some_iff] at h
      obtain ⟨c, hc, a, ha, h⟩ := h
      obtain ⟨h1, rfl⟩ := get_some hc
      split at h
      · next h2 =>
        cases h
        rw [if_pos ⟨h1, h2⟩, g.int _ _ (cell_i ha)]
        exact ⟨_, rfl, ⟨g.int, g.flt, by simp only [g.atoms], g.time, g.calm⟩⟩
      · cases h
    case ineg => exact chk1_ok h g fun a v hv => intNeg_ok hv
    case iadd => exact chk2_ok h g fun a b v hv => by rw [intAdd_ok hv]
    case isub => exact chk2_ok h g fun a b v hv => by rw [intSub_ok hv]
    case imul => exact chk2_ok h g fun a b v hv => by rw [intMul_ok hv]
    case idiv => exact chk2_ok h g fun a b v hv => by rw [intDiv_ok hv]
    case mod => exact chk2_ok h g fun a b v hv => intMod_ok hv
    case iabs =>
      refine chk1_ok h g fun a v hv => ?_
      unfold intAbs
      split at hv
      · next ha => rw [if_pos ha]; exact intNeg_ok (by rw [← hv]; congr 1; omega)
      · next ha => rw [if_neg ha]; cases hv; rfl
    case fneg => exact flt1_ok h g hl.neg
    case fsqrt => exact flt1_ok h g hl.sqrt
    case fabs => exact flt1_ok h g hl.abs
    case fadd => exact flt2_ok h g hl.add
    case fsub => exact flt2_ok h g hl.sub
    case fmul => exact flt2_ok h g hl.mul
    case fdiv => exact flt2_ok h g hl.div
    case fpow => exact flt2_ok h g hl.pow
    case feq => exact cmp_ok h g (hl.eq hsame)
    case fneq => exact cmp_ok h g (hl.ne hsame)
    case fgt => exact cmp_ok h g (hl.gt hsame)
    case fgte => exact cmp_ok h g (hl.ge hsame)
    case flt => exact cmp_ok h g (hl.lt hsame)
    case flte => exact cmp_ok h g (hl.le hsame)
    case ipow => exact chk2_ok h g fun a b v hv => by rw [hl.ipow hsame a b v hv]
    case isqrt => exact int1_ok h g (hl.isqrt hsame)
    case prev => exact copy_ok h g
    case ts =>
      rw [g.time]
      exact put_int h g
    case bwneg => exact int1_ok h g fun a v hv => by cases hv; rfl
    all_goals exact int2_ok h g fun a b v hv => by cases hv; rfl

theorem pass_ok {c : FloatOps G} {ops : Ops F} {ok : BzOp → Bool} (hl : LikeC ι c ops ok) {lim : BzLimits} {sig : Nat → Cell G} {sig' : Signals F} (hs : SameVia ι sig sig') :
    ∀ (prog : List BzRec) {m m' : R2U2.BzMon G} {s : BzMon F}, (∀ r ∈ prog, ∀ o, r.opcode = some o → ok o = true) →
    m.pass c lim sig prog = some m' → Agrees ι m s → ∃ s', s.pass ops lim sig' prog = some s' ∧ Agrees ι m' s'
  | [], m, m', s, _, h, g => by cases h; exact ⟨s, rfl, g⟩
  | r :: rs, m, m', s, hp, h, g => by
      simp only [R2U2.BzMon.pass, Option.bind_eq_some_iff] at h
      obtain ⟨m1, h1, h2⟩ := h
      obtain ⟨s1, p, q⟩ := update_ok hl hs (hp r List.mem_cons_self) h1 g
      obtain ⟨s2, p', q'⟩ := pass_ok hl hs rs (fun r hr => hp r (List.mem_cons_of_mem _ hr)) h2 q
      exact ⟨s2, by simp only [BzMon.pass, p, Option.bind_some, p'], q'⟩

/-! ### Loading -/

/-- What a frame does to the values. -/
def BzMon.loadEv (ops : Ops F) (lim : BzLimits) (m : BzMon F) : LoadEv → Option (BzMon F)
  | .iconst a v => m.putI lim a v
  | .fconst a b => m.putF lim a (ops.ofBits b)
  | .bz r => if r.opcode = some .prev then m.copy lim r.mem r.param1 else some m
  | _ => some m

def BzMon.loadEvs (ops : Ops F) (lim : BzLimits) : List LoadEv → BzMon F → Option (BzMon F)
  | [], m => some m
  | e :: es, m => (m.loadEv ops lim e).bind (loadEvs ops lim es)

theorem loadEvs_append (ops : Ops F) (lim : BzLimits) : ∀ (l l' : List LoadEv) (m : BzMon F),
    BzMon.loadEvs ops lim (l ++ l') m = (BzMon.loadEvs ops lim l m).bind (BzMon.loadEvs ops lim l')
  | [], _, m => rfl
  | e :: l, l', m => by
      simp only [List.cons_append, BzMon.loadEvs]
      cases m.loadEv ops lim e with
      | none => rfl
      | some m1 => simp only [Option.bind_some]; exact loadEvs_append ops lim l l' m1

theorem loadEvs_ok {c : FloatOps G} {ops : Ops F} (ho : ∀ n, c.ofBits n = ι (ops.ofBits n)) {lim : BzLimits} : ∀ (es : List LoadEv) {m m' : R2U2.BzMon G} {s : BzMon F},
    R2U2.BzMon.load c lim es m = some m' → Agrees ι m s → ∃ s', BzMon.loadEvs ops lim es s = some s' ∧ Agrees ι m' s'
  | [], m, m', s, h, g => by cases h; exact ⟨s, rfl, g⟩
  | e :: es, m, m', s, h, g => by
      simp only [R2U2.BzMon.load, Option.bind_eq_some_iff] at h
      obtain ⟨m1, h1, h2⟩ := h
      have : ∃ s1, s.loadEv ops lim e = some s1 ∧ Agrees ι m1 s1 := by
        cases e with
        | iconst a v => exact put_int h1 g
        | fconst a v => simp only [R2U2.BzMon.load1, ho] at h1; exact put_flt h1 g
        | bz r =>
          simp only [R2U2.BzMon.load1] at h1
          simp only [BzMon.loadEv]
          by_cases hp : r.opcode = some .prev
          · rw [if_pos hp]; rw [hp] at h1; exact copy_ok h1 g
          · rw [if_neg hp]
            split at h1
            · next h' => exact absurd h' hp
            · cases h1; exact ⟨s, rfl, g⟩
        | tl r => cases h1; exact ⟨s, rfl, g⟩
        | config r => cases h1; exact ⟨s, rfl, g⟩
      obtain ⟨s1, p, q⟩ := this
      obtain ⟨s2, p', q'⟩ := loadEvs_ok ho es h2 q
      exact ⟨s2, by simp only [BzMon.loadEvs, p, Option.bind_some, p'], q'⟩

theorem u32_there {s : List Nat} {o : Nat} (h : o + 3 < s.length) : ∃ v, u32At s o = some v := by
  unfold u32At
  rw [List.getElem?_eq_getElem (show o < s.length by omega), List.getElem?_eq_getElem (show o + 1 < s.length by omega),
    List.getElem?_eq_getElem (show o + 2 < s.length by omega), List.getElem?_eq_getElem h]
  exact ⟨_, rfl⟩

theorem u32_small {s : List Nat} (hs : ∀ b ∈ s, b < 256) {o v : Nat} (h : u32At s o = some v) : v < 2 ^ 32 := by
  unfold u32At at h
  split at h
  · next a b c d h1 h2 h3 h4 =>
    cases h
    have := hs a (List.mem_of_getElem? h1)
    have := hs b (List.mem_of_getElem? h2)
    have := hs c (List.mem_of_getElem? h3)
    have := hs d (List.mem_of_getElem? h4)
    omega
  · cases h

theorem float_same {s : List Nat} (hs : ∀ b ∈ s, b < 256) {o v : Nat} (h : bzFloatAt s o = some v) (hv : v % 2 ^ 32 < 2 ^ 31) :
    paramFloat s o = some v := by
  unfold bzFloatAt at h
  unfold paramFloat
  split at h
  · next lo hi h1 h2 =>
    rw [h1, h2]
    have b1 := u32_small hs h1
    have b2 := u32_small hs h2
    simp only [Option.bind_some, Option.map_some, Option.some.injEq] at h ⊢
    unfold toInt32 at h
    split at h
    · omega
    · omega
  · cases h

theorem rec_length {s : List Nat} {o : Nat} {r : BzRec} (h : bzRecAt s o = some r) : o + 16 < s.length := by
  unfold bzRecAt at h
  split at h
  · next h4 => exact (List.getElem?_eq_some_iff.1 h4).1
  · cases h

theorem framesBz_load {ops : Ops F} {lim : BzLimits} {s : List Nat} (hs : ∀ b ∈ s, b < 256) : ∀ (n o : Nat) (es : List LoadEv) (stop : Nat),
    loadLoop n s o = some (es, stop) → (∀ a v, .fconst a v ∈ es → v % 2 ^ 32 < 2 ^ 31) → ∀ st : BzMon F × List BzRec,
    framesBz ops lim n s o st = (BzMon.loadEvs ops lim es st.1).map fun m => (m, st.2 ++ R2U2.BzMon.table es) := by
  intro n
  induction n with
  | zero => intro o es stop h; cases h
  | succ n ih =>
      intro o es stop h hf st
      simp only [loadLoop] at h
      simp only [framesBz]
      cases hso : s[o]? with
      | none => rw [hso] at h; cases h
      | some len =>
        rw [hso] at h
        simp only at h ⊢
        by_cases h0 : len = 0
        · rw [if_pos h0] at h ⊢
          cases h
          simp [BzMon.loadEvs, R2U2.BzMon.table]
        · rw [if_neg h0] at h ⊢
          cases hfr : loadFrame s o with
          | none => rw [hfr] at h; cases h
          | some e1 =>
            cases hl : loadLoop n s (o + len) with
            | none => rw [hfr, hl] at h; cases h
            | some x =>
              obtain ⟨rest, o'⟩ := x
              rw [hfr, hl] at h
              cases h
              have ih' := ih _ _ _ hl (fun a v ha => hf a v (List.mem_append_right _ ha))
              have hf' : ∀ a v, .fconst a v ∈ e1 → v % 2 ^ 32 < 2 ^ 31 := fun a v ha => hf a v (List.mem_append_left _ ha)
              have htab : ∀ l : List LoadEv, R2U2.BzMon.table (l ++ rest) = R2U2.BzMon.table l ++ R2U2.BzMon.table rest := fun l => List.filterMap_append
              rw [loadEvs_append, htab]
              unfold loadFrame at hfr
              cases ht : s[o + 1]? with
              | none => rw [ht] at hfr; cases hfr
              | some tag =>
                rw [ht] at hfr
                simp only [Option.some.injEq] at hfr ⊢
                by_cases h5 : tag = 5
                · rw [if_neg (by omega), if_pos h5] at hfr
                  rw [if_pos h5]
                  cases hr : bzRecAt s (o + 2) with
                  | none => rw [hr] at hfr; cases hfr
                  | some r =>
                    rw [hr] at hfr
                    have hlen := rec_length hr
                    obtain ⟨w, hw⟩ := u32_there (s := s) (o := o + 2) (by omega)
                    obtain ⟨w', hw'⟩ := u32_there (s := s) (o := o + 2 + 4) (by omega)
                    have hpi : paramInt s (o + 2) = some (toInt32 w) := by unfold paramInt; rw [hw]; rfl
                    have hpf : ∃ pf, paramFloat s (o + 2) = some pf := by unfold paramFloat; rw [hw, hw']; exact ⟨_, rfl⟩
                    obtain ⟨pf, hpf⟩ := hpf
                    simp only [Option.bind_some, hpi, hpf]
                    simp only at hfr
                    by_cases hi : r.opcode = some .iconst
                    · rw [if_pos hi, Option.map_eq_some_iff] at hfr
                      obtain ⟨v, hv, rfl⟩ := hfr
                      have : bzIntAt s (o + 2) = some (toInt32 w) := by unfold bzIntAt; rw [hw]; rfl
                      rw [this] at hv
                      cases hv
                      simp only [BzMon.load1, hi, BzMon.loadEvs, BzMon.loadEv, R2U2.BzMon.table, List.filterMap_cons, List.filterMap_nil]
                      cases st.1.putI lim r.mem (toInt32 w) with
                      | none => rfl
                      | some m1 => simp only [Option.bind_some, true_or, if_true]; rw [ih']; simp [R2U2.BzMon.table]
                    · rw [if_neg hi] at hfr
                      by_cases hfc : r.opcode = some .fconst
                      · rw [if_pos hfc, Option.map_eq_some_iff] at hfr
                        obtain ⟨v, hv, rfl⟩ := hfr
                        have := float_same hs hv (hf' r.mem v (by simp))
                        rw [hpf] at this
                        cases this
                        simp only [BzMon.load1, hfc, BzMon.loadEvs, BzMon.loadEv, R2U2.BzMon.table, List.filterMap_cons, List.filterMap_nil]
                        cases st.1.putF lim r.mem (ops.ofBits pf) with
                        | none => rfl
                        | some m1 => simp only [Option.bind_some, or_true, if_true]; rw [ih']; simp [R2U2.BzMon.table]
                      · rw [if_neg hfc, Option.some.injEq] at hfr
                        subst hfr
                        have : st.1.load1 ops lim r (toInt32 w) pf = st.1.loadEv ops lim (.bz r) := by
                          unfold BzMon.load1 BzMon.loadEv
                          simp only
                          split
                          · contradiction
                          · contradiction
                          · next h' => rw [if_pos h']
                          · next h' => rw [if_neg h']
                        rw [this, if_neg (by rintro (h' | h'); exact hi h'; exact hfc h')]
                        simp only [BzMon.loadEvs, R2U2.BzMon.table, List.filterMap_cons, List.filterMap_nil]
                        cases st.1.loadEv ops lim (.bz r) with
                        | none => rfl
                        | some m1 => simp only [Option.bind_some]; rw [ih']; simp [R2U2.BzMon.table]
                · rw [if_neg h5]
                  rw [if_neg h5] at hfr
                  rw [ih']
                  have : BzMon.loadEvs ops lim e1 st.1 = some st.1 ∧ R2U2.BzMon.table e1 = [] := by
                    split at hfr
                    · rw [Option.map_eq_some_iff] at hfr; obtain ⟨r, _, rfl⟩ := hfr; exact ⟨rfl, rfl⟩
                    · split at hfr
                      · rw [Option.map_eq_some_iff] at hfr; obtain ⟨r, _, rfl⟩ := hfr; exact ⟨rfl, rfl⟩
                      · cases hfr; exact ⟨rfl, rfl⟩
                  rw [this.1, this.2]
                  rfl

/-! ### The bytes of a binary -/

theorem leBytes_small : ∀ (k n : Nat), ∀ b ∈ leBytes k n, b < 256
  | 0, _ => by simp [leBytes]
  | k + 1, n => by
      intro b hb
      simp only [leBytes, List.mem_cons] at hb
      rcases hb with rfl | hb
      · omega
      · exact leBytes_small k _ b hb

theorem packU32_small {v : Int} {l : List Nat} (h : packU32 v = some l) : ∀ b ∈ l, b < 256 := by
  unfold packU32 at h
  split at h
  · cases h; exact leBytes_small _ _
  · cases h

theorem packTl_small {i : TlInstr} {l : List Nat} (h : packTl i = some l) : ∀ b ∈ l, b < 256 := by
  unfold packTl at h
  split at h
  · next a b c h1 h2 h3 =>
    cases h
    intro x hx
    simp only [List.mem_cons, List.mem_append, List.not_mem_nil, or_false] at hx
    have t : ∀ o : OperandT, o.code < 256 := by intro o; cases o <;> decide
    have t' : ∀ o : TlOp, o.code < 256 := by intro o; cases o <;> decide
    rcases hx with rfl | ((hx | hx) | hx) | rfl | rfl | rfl
    · omega
    · exact packU32_small h1 x hx
    · exact packU32_small h2 x hx
    · exact packU32_small h3 x hx
    · exact t _
    · exact t _
    · exact t' _
  · cases h

theorem packBz_small {i : BzInstr} {l : List Nat} (h : packBz i = some l) : ∀ b ∈ l, b < 256 := by
  unfold packBz at h
  split at h
  · next a b c h1 h2 h3 =>
    cases h
    intro x hx
    simp only [List.mem_cons, List.mem_append, List.not_mem_nil, or_false] at hx
    have t' : ∀ o : BzOp, o.code < 256 := by intro o; cases o <;> decide
    rcases hx with rfl | ((hx | hx) | hx) | rfl
    · omega
    · cases hia : i.a with
      | float bits => rw [hia] at h1; simp only [packArg, Option.some.injEq] at h1; subst h1; exact leBytes_small _ _ x hx
      | int v =>
        rw [hia] at h1
        simp only [packArg, Option.map_eq_some_iff] at h1
        obtain ⟨l, hl, rfl⟩ := h1
        rw [List.mem_append] at hx
        rcases hx with hx | hx
        · split at hl
          · exact packU32_small hl x hx
          · unfold packI32 at hl
            split at hl
            · cases hl; exact leBytes_small _ _ x hx
            · cases hl
        · simp at hx; omega
    · exact packU32_small h2 x hx
    · exact packU32_small h3 x hx
    · exact t' _
  · cases h

theorem packInstr_small {i : Instr} {l : List Nat} (h : packInstr i = some l) : ∀ b ∈ l, b < 256 := by
  obtain ⟨b, _, rfl, hb, _⟩ := frame_any i l h
  intro x hx
  rw [List.mem_cons] at hx
  rcases hx with rfl | hx
  · exact hb
  · cases i with
    | bz i =>
      simp only [packInstr, Option.map_eq_some_iff, List.cons.injEq] at h
      obtain ⟨l, hl, _, rfl⟩ := h
      exact packBz_small hl x hx
    | tl i =>
      simp only [packInstr, Option.map_eq_some_iff, List.cons.injEq] at h
      obtain ⟨l, hl, _, rfl⟩ := h
      exact packTl_small hl x hx
    | cg i =>
      simp only [packInstr, packCg, Option.map_eq_some_iff, List.cons.injEq] at h
      obtain ⟨l, ⟨l', hl, rfl⟩, _, rfl⟩ := h
      rw [List.mem_cons] at hx
      rcases hx with rfl | hx
      · omega
      · exact packTl_small hl x hx

theorem packAll_small : ∀ (is : List Instr) {l : List Nat}, packAll is = some l → ∀ b ∈ l, b < 256
  | [], l, h => by cases h; simp
  | i :: is, l, h => by
      simp only [packAll] at h
      split at h
      · next h1 h2 =>
        cases h
        intro x hx
        rw [List.mem_append] at hx
        rcases hx with hx | hx
        · exact packInstr_small h1 x hx
        · exact packAll_small is h2 x hx
      · cases h

theorem assemble_small {is : List Instr} {aux bytes : List Nat} (h : assembleBytes is aux = some bytes) (ha : ∀ b ∈ aux, b < 256) :
    ∀ b ∈ bytes, b < 256 := by
  simp only [assembleBytes, Option.map_eq_some_iff] at h
  obtain ⟨l, hl, rfl⟩ := h
  have hh : ∀ b ∈ headerText, b < 256 := by decide
  have hk : headerText.length + 1 < 256 := by decide
  intro x hx
  simp only [List.mem_cons, List.mem_append, List.cons_append, List.not_mem_nil, or_false] at hx
  rcases hx with rfl | hx | hx | rfl | hx | rfl
  · exact hk
  · exact hh x hx
  · exact packAll_small is hl x hx
  · omega
  · exact ha x hx
  · omega

/-! ### The clock, and what successful loading says -/

theorem put_time {m m' : R2U2.BzMon F} {lim : BzLimits} {a : Nat} {c : Cell F} (h : m.put lim a c = some m') : a < lim.cells ∧ m'.time = m.time := by
  unfold R2U2.BzMon.put at h
  split at h
  · cases h; exact ⟨by assumption, rfl⟩
  · cases h

theorem update_time {ops : FloatOps F} {lim : BzLimits} {sig : Nat → Cell F} {r : BzRec} {m m' : R2U2.BzMon F}
    (h : m.update ops lim sig r = some m') : m'.time = m.time := by
  have i1 : ∀ f, m.int1 lim r f = some m' → m'.time = m.time := by
    intro f h
    simp only [R2U2.BzMon.int1, Option.bind_eq_some_iff] at h
    obtain ⟨_, _, _, _, _, _, h⟩ := h
    exact (put_time h).2
  have i2 : ∀ f, m.int2 lim r f = some m' → m'.time = m.time := by
    intro f h
    simp only [R2U2.BzMon.int2, Option.bind_eq_some_iff] at h
    obtain ⟨_, _, _, _, _, _, _, _, _, _, h⟩ := h
    exact (put_time h).2
  have f1 : ∀ f, m.flt1 lim r f = some m' → m'.time = m.time := by
    intro f h
    simp only [R2U2.BzMon.flt1, Option.bind_eq_some_iff] at h
    obtain ⟨_, _, _, _, h⟩ := h
    exact (put_time h).2
  have f2 : ∀ f, m.flt2 lim r f = some m' → m'.time = m.time := by
    intro f h
    simp only [R2U2.BzMon.flt2, Option.bind_eq_some_iff] at h
    obtain ⟨_, _, _, _, _, _, _, _, h⟩ := h
    exact (put_time h).2
  unfold R2U2.BzMon.update at h
  split at h
  case h_1 => split at h; · rw [Option.bind_eq_some_iff] at h; obtain ⟨_, _, h⟩ := h; exact (put_time h).2
              · cases h
  case h_2 => split at h; · rw [Option.bind_eq_some_iff] at h; obtain ⟨_, _, h⟩ := h; exact (put_time h).2
              · cases h
  case h_3 =>
    simp only [Option.bind_eq_some_iff] at h
    obtain ⟨_, _, _, _, h⟩ := h
    split at h
    · cases h; rfl
    · cases h
  all_goals first | exact i1 _ h | exact i2 _ h | exact f1 _ h | exact f2 _ h | exact (put_time h).2 | skip
  · rw [Option.bind_eq_some_iff] at h; obtain ⟨_, _, h⟩ := h; exact (put_time h).2
  · cases h; rfl

theorem pass_time {ops : FloatOps F} {lim : BzLimits} {sig : Nat → Cell F} : ∀ (prog : List BzRec) {m m' : R2U2.BzMon F},
    m.pass ops lim sig prog = some m' → m'.time = m.time
  | [], m, m', h => by cases h; rfl
  | r :: rs, m, m', h => by
      simp only [R2U2.BzMon.pass, Option.bind_eq_some_iff] at h
      obtain ⟨m1, h1, h2⟩ := h
      rw [pass_time rs h2, update_time h1]

theorem bzRun_time {ops : FloatOps F} {lim : BzLimits} {prog : List BzRec} {σ : Nat → Nat → Cell F} : ∀ (n : Nat) {m m' : R2U2.BzMon F},
    m.run ops lim prog σ n = some m' → m'.time = m.time + n
  | 0, m, m', h => by cases h; rfl
  | n + 1, m, m', h => by
      simp only [R2U2.BzMon.run, Option.bind_eq_some_iff, Option.map_eq_some_iff] at h
      obtain ⟨m1, h1, m2, h2, rfl⟩ := h
      have := bzRun_time n h1
      have := pass_time _ h2
      simp only
      omega

theorem load_facts {ops : FloatOps F} {lim : BzLimits} : ∀ (es : List LoadEv) {m m' : R2U2.BzMon F}, R2U2.BzMon.load ops lim es m = some m' →
    m'.time = m.time ∧ (∀ a v, .iconst a v ∈ es → a < lim.cells) ∧ (∀ a v, .fconst a v ∈ es → a < lim.cells) ∧
    ∀ r, .bz r ∈ es → r.opcode = some .prev → r.mem < lim.cells ∧ r.param1 < lim.cells
  | [], m, m', h => by cases h; simp
  | e :: es, m, m', h => by
      simp only [R2U2.BzMon.load, Option.bind_eq_some_iff] at h
      obtain ⟨m1, h1, h2⟩ := h
      obtain ⟨i1, i2, i3, i4⟩ := load_facts es h2
      have : m1.time = m.time ∧ (∀ a v, LoadEv.iconst a v = e → a < lim.cells) ∧ (∀ a v, LoadEv.fconst a v = e → a < lim.cells) ∧
          ∀ r, LoadEv.bz r = e → r.opcode = some .prev → r.mem < lim.cells ∧ r.param1 < lim.cells := by
        cases e with
        | iconst a v => exact ⟨(put_time h1).2, by intro a' v' h'; cases h'; exact (put_time h1).1, by simp, by simp⟩
        | fconst a v => exact ⟨(put_time h1).2, by simp, by intro a' v' h'; cases h'; exact (put_time h1).1, by simp⟩
        | bz r =>
          simp only [R2U2.BzMon.load1] at h1
          split at h1
          · rw [Option.bind_eq_some_iff] at h1
            obtain ⟨c, hc, h1⟩ := h1
            exact ⟨(put_time h1).2, by simp, by simp, by intro r' h' _; cases h'; exact ⟨(put_time h1).1, (get_some hc).1⟩⟩
          · next hne => cases h1; exact ⟨rfl, by simp, by simp, by intro r' h' hp; cases h'; exact absurd hp hne⟩
        | tl r => cases h1; simp
        | config r => cases h1; simp
      obtain ⟨j1, j2, j3, j4⟩ := this
      refine ⟨i1.trans j1, ?_, ?_, ?_⟩
      · intro a v ha; rcases List.mem_cons.1 ha with h' | h'; exact j2 a v h'; exact i2 a v h'
      · intro a v ha; rcases List.mem_cons.1 ha with h' | h'; exact j3 a v h'; exact i3 a v h'
      · intro r ha; rcases List.mem_cons.1 ha with h' | h'; exact j4 r h'; exact i4 r h'

/-! ### The whole monitor -/

theorem full_run {c : FloatOps G} {ops : Ops F} {ok : BzOp → Bool} (hl : LikeC ι c ops ok) {blim : BzLimits} {fuel : Nat} {σ : Nat → Nat → Cell G} {σ' : Nat → Signals F}
    (hs : ∀ t, SameVia ι (σ t) (σ' t)) {prog : List BzRec} (hp : ∀ r ∈ prog, ∀ o, r.opcode = some o → ok o = true)
    {m : Nat → R2U2.BzMon G} {S0 : Full F} (h0 : S0.prog = prog) (g0 : Agrees ι (m 0) S0.bz) (ht : (m 0).time = 0) {n : Nat}
    (hm : ∀ t, t ≤ n → (m 0).run c blim prog σ t = some (m t))
    (htl : ∀ t, t ≤ n → ∃ M out, S0.tl.run fuel (fun t a => (m (t + 1)).atoms a) t = some (M, out) ∧ M.time = t) :
    ∀ k, k ≤ n → ∃ S out oks, S0.run ops blim fuel σ' k = some (S, out, oks) ∧ S.prog = prog ∧ Agrees ι (m k) S.bz ∧
      S0.tl.run fuel (fun t a => (m (t + 1)).atoms a) k = some (S.tl, out) ∧ oks.length = k ∧ ∀ b ∈ oks, b = true := by
  intro k
  induction k with
  | zero => intro _; exact ⟨S0, [], [], rfl, h0, g0, rfl, rfl, by simp⟩
  | succ k ih =>
    intro hk
    obtain ⟨S, out, oks, a1, a2, a3, a4, a5, a6⟩ := ih (by omega)
    have h1 := hm (k + 1) hk
    simp only [R2U2.BzMon.run, hm k (by omega), Option.bind_some, Option.map_eq_some_iff] at h1
    obtain ⟨m1, b1, b2⟩ := h1
    obtain ⟨s1, c1, c2⟩ := pass_ok hl (hs k) prog hp b1 a3
    obtain ⟨M, out', d1, d2⟩ := htl (k + 1) hk
    have d1' := d1
    simp only [Monitor.run, a4, Option.bind_some, Option.map_eq_some_iff] at d1
    obtain ⟨M', e1, e2⟩ := d1
    cases e2
    have hat : s1.atoms = (m (k + 1)).atoms := by rw [c2.atoms, ← b2]
    have hmt := bzRun_time k (hm k (by omega))
    have hpt := pass_time _ b1
    refine ⟨⟨M, { s1 with time := M.time }, S.prog⟩, out ++ M.outputs, oks ++ [!s1.overflow], ?_, a2, ?_, d1', by simp [a5], ?_⟩
    · simp only [Full.run, a1, Option.bind_some, Full.step, a2, c1, hat]
      rw [show S.tl.step fuel (m (k + 1)).atoms = some M from e1]
      rfl
    · refine ⟨fun a v h => c2.int a v (by rw [← b2] at h; exact h), fun a v h => c2.flt a v (by rw [← b2] at h; exact h), hat, ?_, c2.calm⟩
      simp only [d2, ← b2]
      omega
    · intro b hb
      rcases List.mem_append.1 hb with hb | hb
      · exact a6 b hb
      · simp only [List.mem_singleton] at hb; rw [hb, c2.calm]; rfl

end Rs
end R2U2
