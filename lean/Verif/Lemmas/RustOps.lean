import Verif.Spec.Rust
import Mathlib.Tactic.SplitIfs
/-
The operator functions of the Rust monitor do what the cases of the queue-level model do, as long as times are below `2 ^ 32 - 1`.
-/
namespace R2U2
namespace Rs

theorem satAdd_lt {a b N : Nat} (hN : N < maxTime) (h : a + b ≤ N + 1) : satAdd a b = a + b := by
  unfold satAdd; omega

theorem sub?_le {a b : Nat} (h : b ≤ a) : sub? a b = some (a - b) := by
  unfold sub?; rw [if_pos h]

/-- What the operator functions use of a control block. -/
structure Like (q : Block) (c : Ctrl) : Prop where
  next : q.next = c.next
  edge : q.edge = c.edge
  prev : q.prev = c.prev

structure LikeT (q : Block) (c : Ctrl) : Prop where
  lb : q.lb = c.lb
  ub : q.ub = c.ub

/-- The operator function has effect `E`. -/
def Does (q : Block) (x : Res) (E : Effect) : Prop :=
  x = some ({ q with next := E.next, prev := E.prev, edge := E.edge }, E.push)

theorem Does.keep {q : Block} {c : Ctrl} (h : Like q c) : Does q (some (q, none)) c.keep := by
  unfold Does Ctrl.keep
  rw [← h.next, ← h.edge, ← h.prev]

theorem Does.emit {q : Block} {c : Ctrl} (h : Like q c) {v : Verdict} {N : Nat} (hN : N < maxTime) (hv : v.time ≤ N) :
    Does q (q.emit v) (c.emit v (v.time + 1)) := by
  unfold Does Block.emit Ctrl.emit Ctrl.keep
  rw [satAdd_lt hN (by omega)]
  simp only [← h.edge, ← h.prev]

theorem not_does {q : Block} {c : Ctrl} (h : Like q c) {N : Nat} (hN : N < maxTime) {a : Option Verdict}
    (ha : ∀ v, a = some v → v.time ≤ N) : Does q (notOp q a) (notBody c a) := by
  cases a with
  | none => exact Does.keep h
  | some a => exact Does.emit h hN (v := ⟨!a.truth, a.time⟩) (ha a rfl)

theorem and_does {q : Block} {c : Ctrl} (h : Like q c) {N : Nat} (hN : N < maxTime) {a b : Option Verdict}
    (ha : ∀ v, a = some v → v.time ≤ N) (hb : ∀ v, b = some v → v.time ≤ N) : Does q (andOp q a b) (andBody c a b) := by
  cases a with
  | none =>
      cases b with
      | none => exact Does.keep h
      | some b =>
          have := hb b rfl
          simp only [andOp, andBody]
          split
          · exact Does.emit h hN (v := ⟨false, b.time⟩) this
          · exact Does.keep h
  | some a =>
      have h1 := ha a rfl
      cases b with
      | none =>
          simp only [andOp, andBody]
          split
          · exact Does.emit h hN (v := ⟨false, a.time⟩) h1
          · exact Does.keep h
      | some b =>
          have h2 := hb b rfl
          simp only [andOp, andBody]
          split
          · exact Does.emit h hN (v := ⟨true, min a.time b.time⟩) (by simp only []; omega)
          · split
            · exact Does.emit h hN (v := ⟨false, max a.time b.time⟩) (by simp only []; omega)
            · split
              · exact Does.emit h hN (v := ⟨false, a.time⟩) h1
              · rename_i k1 k2 k3
                rw [if_pos (by cases e1 : a.truth <;> cases e2 : b.truth <;> simp_all)]
                exact Does.emit h hN (v := ⟨false, b.time⟩) h2

theorem or_does {q : Block} {c : Ctrl} (h : Like q c) {N : Nat} (hN : N < maxTime) {a b : Option Verdict}
    (ha : ∀ v, a = some v → v.time ≤ N) (hb : ∀ v, b = some v → v.time ≤ N) : Does q (orOp q a b) (orBody c a b) := by
  cases a with
  | none =>
      cases b with
      | none => exact Does.keep h
      | some b =>
          have := hb b rfl
          simp only [orOp, orBody]
          split
          · exact Does.emit h hN (v := ⟨true, b.time⟩) this
          · exact Does.keep h
  | some a =>
      have h1 := ha a rfl
      cases b with
      | none =>
          simp only [orOp, orBody]
          split
          · exact Does.emit h hN (v := ⟨true, a.time⟩) h1
          · exact Does.keep h
      | some b =>
          have h2 := hb b rfl
          simp only [orOp, orBody]
          split
          · exact Does.emit h hN (v := ⟨true, max a.time b.time⟩) (by simp only []; omega)
          · split
            · exact Does.emit h hN (v := ⟨false, min a.time b.time⟩) (by simp only []; omega)
            · split
              · exact Does.emit h hN (v := ⟨true, a.time⟩) h1
              · rename_i k1 k2 k3
                rw [if_pos (by cases e1 : a.truth <;> cases e2 : b.truth <;> simp_all)]
                exact Does.emit h hN (v := ⟨true, b.time⟩) h2

theorem equiv_does {q : Block} {c : Ctrl} (h : Like q c) {N : Nat} (hN : N < maxTime) {a b : Option Verdict}
    (ha : ∀ v, a = some v → v.time ≤ N) : Does q (equivOp q a b) (equivBody c a b) := by
  cases a with
  | none => exact Does.keep h
  | some a =>
      have h1 := ha a rfl
      cases b with
      | none => exact Does.keep h
      | some b =>
          simp only [equivOp, equivBody]
          split
          · rename_i hh
            have : decide (a.truth = b.truth) = true := by
              cases e1 : a.truth <;> cases e2 : b.truth <;> simp_all
            rw [this]
            exact Does.emit h hN (v := ⟨true, min a.time b.time⟩) (by simp only []; omega)
          · rename_i hh
            have : decide (a.truth = b.truth) = false := by
              cases e1 : a.truth <;> cases e2 : b.truth <;> simp_all
            rw [this]
            exact Does.emit h hN (v := ⟨false, min a.time b.time⟩) (by simp only []; omega)

/-- The last case of until and release. -/
theorem rest_does {q : Block} {c : Ctrl} (h : Like q c) (ht : LikeT q c) {N : Nat} (hN : N < maxTime) (hlu : c.lb ≤ c.ub) {b : Verdict}
    (hb : b.time ≤ N) (next : Nat) (tv : Bool) :
    Does q (if satAdd q.prev.time q.ub ≤ b.time then
        (sub? b.time q.ub).map fun t =>
          if ({ q with next := next } : Block).isNew t then
            ({ q with next := max next (satAdd (satAdd t q.lb) 1), prev := ⟨true, t⟩ }, some ⟨tv, t⟩)
          else ({ q with next := next }, none)
      else some ({ q with next := next }, none))
      (if c.prev.time + c.ub ≤ b.time ∧
          (c.prev.time < b.time - c.ub ∨ (b.time - c.ub = 0 ∧ c.prev.truth = false)) then
        c.emitPrev ⟨tv, b.time - c.ub⟩ (max next (b.time - c.ub + c.lb + 1))
      else { c.keep with next := next }) := by
  rw [← ht.lb, ← ht.ub] at hlu
  simp only [Ctrl.emitPrev, Ctrl.keep, ← h.prev, ← ht.ub, ← ht.lb, ← h.edge]
  have e : satAdd q.prev.time q.ub ≤ b.time ↔ q.prev.time + q.ub ≤ b.time := by unfold satAdd; omega
  by_cases h1 : q.prev.time + q.ub ≤ b.time
  · rw [if_pos (e.2 h1), sub?_le (by omega)]
    simp only [Option.map_some]
    by_cases h2 : q.prev.time < b.time - q.ub ∨ (b.time - q.ub = 0 ∧ q.prev.truth = false)
    · rw [if_pos (show Block.isNew { q with next := next } _ from h2), if_pos ⟨h1, h2⟩, satAdd_lt (a := b.time - q.ub) hN (by omega), satAdd_lt hN (by omega)]
      rfl
    · rw [if_neg (show ¬ Block.isNew { q with next := next } _ from h2), if_neg (fun x => h2 x.2)]
      rfl
  · rw [if_neg (fun x => h1 (e.1 x)), if_neg (fun x => h1 x.1)]
    rfl

theorem until_does {q : Block} {c : Ctrl} (h : Like q c) (ht : LikeT q c) {N : Nat} (hN : N < maxTime) (hlu : c.lb ≤ c.ub)
    {a b : Option Verdict} (ha : ∀ v, a = some v → v.time ≤ N) (hb : ∀ v, b = some v → v.time ≤ N)
    (hlb : ∀ v, b = some v → c.lb ≤ v.time) (hla : ∀ u v, a = some u → b = some v → c.lb ≤ min u.time v.time) :
    Does q (untilOp q a b) (untilBody c a b) := by
  cases b with
  | none => exact Does.keep h
  | some b =>
      have h2 := hb b rfl
      have h3 := hlb b rfl
      simp only [untilOp, untilBody]
      split
      · rw [← ht.lb] at h3 ⊢
        rw [sub?_le h3, satAdd_lt hN (by omega)]
        unfold Does Ctrl.emitPrev Ctrl.keep
        simp only [Option.map_some, ← h.edge]
      · cases a with
        | none =>
            simp only []
            rw [← h.next]
            exact rest_does h ht hN hlu h2 q.next false
        | some a =>
            have h4 := hla a b rfl rfl
            simp only []
            rw [satAdd_lt hN (by have := ha a rfl; omega)]
            split
            · rw [← ht.lb] at h4 ⊢
              rw [sub?_le h4]
              unfold Does Ctrl.emitPrev Ctrl.keep
              simp only [Option.map_some, ← h.edge]
            · exact rest_does h ht hN hlu h2 (min a.time b.time + 1) false

theorem release_does {q : Block} {c : Ctrl} (h : Like q c) (ht : LikeT q c) {N : Nat} (hN : N < maxTime) (hlu : c.lb ≤ c.ub)
    {a b : Option Verdict} (ha : ∀ v, a = some v → v.time ≤ N) (hb : ∀ v, b = some v → v.time ≤ N)
    (hlb : ∀ v, b = some v → c.lb ≤ v.time) (hla : ∀ u v, a = some u → b = some v → c.lb ≤ min u.time v.time) :
    Does q (releaseOp q a b) (releaseBody c a b) := by
  cases b with
  | none => exact Does.keep h
  | some b =>
      have h2 := hb b rfl
      have h3 := hlb b rfl
      simp only [releaseOp, releaseBody]
      split
      · rw [← ht.lb] at h3 ⊢
        rw [sub?_le h3, satAdd_lt hN (by omega)]
        unfold Does Ctrl.emitPrev Ctrl.keep
        simp only [Option.map_some, ← h.edge]
      · cases a with
        | none =>
            simp only []
            rw [← h.next]
            exact rest_does h ht hN hlu h2 q.next true
        | some a =>
            have h4 := hla a b rfl rfl
            simp only []
            rw [satAdd_lt hN (by have := ha a rfl; omega)]
            split
            · rw [← ht.lb] at h4 ⊢
              rw [sub?_le h4]
              unfold Does Ctrl.emitPrev Ctrl.keep
              simp only [Option.map_some, ← h.edge]
            · exact rest_does h ht hN hlu h2 (min a.time b.time + 1) true

/-- A result of since or trigger. -/
theorem upTo_does {q : Block} {c : Ctrl} (h : Like q c) (ht : LikeT q c) {N : Nat} (hN : N < maxTime) (hp : c.prev.time ≤ N) {b : Verdict}
    {tv : Bool} {next : Nat} {edge : Verdict} {x : Res} {E : Effect}
    (hf : ∀ v, (if c.prev.time - c.lb ≤ b.time ∧ c.isNew (b.time + c.lb) then
        { c.emitPrev ⟨tv, b.time + c.lb⟩ next with edge := edge } else E).push = some v → v.time ≤ N)
    (hx : ¬ (c.prev.time - c.lb ≤ b.time ∧ c.isNew (b.time + c.lb)) → Does q x E) :
    Does q (match ({ q with next := next, edge := edge } : Block).upTo b tv with
        | some r => some r
        | none => x)
      (if c.prev.time - c.lb ≤ b.time ∧ c.isNew (b.time + c.lb) then
        { c.emitPrev ⟨tv, b.time + c.lb⟩ next with edge := edge } else E) := by
  have hle : c.prev.time - c.lb ≤ b.time ∧ c.isNew (b.time + c.lb) → b.time + c.lb ≤ N := by
    intro hh
    rw [if_pos hh] at hf
    exact hf _ rfl
  have e : (q.prev.time - q.lb ≤ b.time ∧
      (q.prev.time < satAdd b.time q.lb ∨ (satAdd b.time q.lb = 0 ∧ q.prev.truth = false))) ↔
      (c.prev.time - c.lb ≤ b.time ∧ c.isNew (b.time + c.lb)) := by
    rw [h.prev, ht.lb]
    by_cases hle' : b.time + c.lb ≤ N
    · rw [satAdd_lt hN (by omega)]; rfl
    · exact absurd (hle ⟨by omega, Or.inl (by omega)⟩) hle'
  by_cases hh : c.prev.time - c.lb ≤ b.time ∧ c.isNew (b.time + c.lb)
  · have := hle hh
    rw [if_pos hh]
    have : ({ q with next := next, edge := edge } : Block).upTo b tv =
        some ({ q with next := next, edge := edge, prev := ⟨true, satAdd b.time q.lb⟩ }, some ⟨tv, satAdd b.time q.lb⟩) := by
      unfold Block.upTo
      exact if_pos (e.2 hh)
    rw [this, ht.lb, satAdd_lt hN (by omega)]
    unfold Does Ctrl.emitPrev Ctrl.keep
    simp only [ht.lb]
  · rw [if_neg hh]
    have : ({ q with next := next, edge := edge } : Block).upTo b tv = none := by
      unfold Block.upTo
      exact if_neg (fun y => hh (e.1 y))
    rw [this]
    exact hx hh

/-- The last case of since and trigger. -/
def lastE (c : Ctrl) (tv : Bool) (next : Nat) (edge : Verdict) : Option Verdict → Effect
  | some a =>
      if a.truth = tv ∧ c.prev.time - c.lb ≤ a.time ∧ edge.truth = true ∧
          (c.prev.time - c.ub < edge.time ∨ c.prev.time < c.ub) then
        if c.isNew (min (a.time + c.lb) (edge.time + c.ub)) then
          { c.emitPrev ⟨tv, min (a.time + c.lb) (edge.time + c.ub)⟩ (max next (min (a.time + c.lb) (edge.time + c.ub) - c.ub + 1)) with edge := edge }
        else { c.keep with next := next, edge := edge }
      else { c.keep with next := next, edge := edge }
  | none => { c.keep with next := next, edge := edge }

theorem last_does {q : Block} {c : Ctrl} (h : Like q c) (ht : LikeT q c) {N : Nat} (hN : N < maxTime) (hp : c.prev.time ≤ N)
    {a : Option Verdict} {tv : Bool} {next : Nat} {edge : Verdict} (hf : ∀ v, (lastE c tv next edge a).push = some v → v.time ≤ N) :
    Does q (({ q with next := next, edge := edge } : Block).holding tv a) (lastE c tv next edge a) := by
  have hk : Does q (some ({ q with next := next, edge := edge }, none)) { c.keep with next := next, edge := edge } := by
    unfold Does Ctrl.keep
    simp only [← h.prev]
  cases a with
  | none => exact hk
  | some a =>
      unfold lastE at hf ⊢
      unfold Block.holding
      simp only [h.prev, ht.lb, ht.ub] at hf ⊢
      have e1 : (sub? c.prev.time c.ub = none ∨ (sub? c.prev.time c.ub).getD 0 < edge.time) ↔
          (c.prev.time - c.ub < edge.time ∨ c.prev.time < c.ub) := by
        unfold sub?
        by_cases hu : c.ub ≤ c.prev.time
        · rw [if_pos hu]; simp; omega
        · rw [if_neg hu]; simp; omega
      by_cases h1 : a.truth = tv ∧ c.prev.time - c.lb ≤ a.time ∧ edge.truth = true ∧ (c.prev.time - c.ub < edge.time ∨ c.prev.time < c.ub)
      · rw [if_pos h1] at hf ⊢
        rw [if_pos ⟨h1.1, h1.2.1, h1.2.2.1, e1.2 h1.2.2.2⟩]
        have hle : c.isNew (min (a.time + c.lb) (edge.time + c.ub)) → min (a.time + c.lb) (edge.time + c.ub) ≤ N := by
          intro hh
          rw [if_pos hh] at hf
          exact hf _ rfl
        have e2 : min (satAdd a.time c.lb) (satAdd edge.time c.ub) = min (min (a.time + c.lb) (edge.time + c.ub)) maxTime := by
          unfold satAdd; omega
        rw [e2]
        have e3 : (c.prev.time < min (min (a.time + c.lb) (edge.time + c.ub)) maxTime ∨
            (min (min (a.time + c.lb) (edge.time + c.ub)) maxTime = 0 ∧ c.prev.truth = false)) ↔
            c.isNew (min (a.time + c.lb) (edge.time + c.ub)) := by
          by_cases hle' : min (a.time + c.lb) (edge.time + c.ub) ≤ N
          · rw [show min (min (a.time + c.lb) (edge.time + c.ub)) maxTime = min (a.time + c.lb) (edge.time + c.ub) by omega]
            rfl
          · exact absurd (hle (Or.inl (by omega))) hle'
        have e4 : ∀ q' : Block, q'.prev = c.prev → (q'.isNew (min (min (a.time + c.lb) (edge.time + c.ub)) maxTime) ↔
            c.isNew (min (a.time + c.lb) (edge.time + c.ub))) := by
          intro q' hq
          unfold Block.isNew
          rw [hq]
          exact e3
        by_cases h2 : c.isNew (min (a.time + c.lb) (edge.time + c.ub))
        · have h3 := hle h2
          rw [if_pos ((e4 _ rfl).2 h2), if_pos h2]
          rw [show min (min (a.time + c.lb) (edge.time + c.ub)) maxTime = min (a.time + c.lb) (edge.time + c.ub) by omega, satAdd_lt hN (by omega)]
          unfold Does Ctrl.emitPrev Ctrl.keep
          simp only [ht.lb, ht.ub]
        · rw [if_neg (fun y => h2 ((e4 _ rfl).1 y)), if_neg h2]
          rw [← h.prev, ← ht.lb, ← ht.ub]
          exact hk
      · rw [if_neg h1, if_neg (fun y => h1 ⟨y.1, y.2.1, y.2.2.1, e1.1 y.2.2.2⟩)]
        rw [← h.prev, ← ht.lb, ← ht.ub]
        exact hk

theorem since_eq (c : Ctrl) (a b : Option Verdict) : sinceBody c a b =
    match b with
    | none => lastE c true c.next c.edge a
    | some b =>
        if b.truth then
          if c.prev.time - c.lb ≤ b.time ∧ c.isNew (b.time + c.lb) then
            { c.emitPrev ⟨true, b.time + c.lb⟩ (b.time + 1) with edge := ⟨true, b.time⟩ }
          else lastE c true (b.time + 1) ⟨true, b.time⟩ a
        else if c.edge.truth = false ∨ (c.edge.time ≤ c.prev.time - c.ub ∧ c.ub ≤ c.prev.time) then
          if c.prev.time - c.lb ≤ b.time ∧ c.isNew (b.time + c.lb) then c.emitPrev ⟨false, b.time + c.lb⟩ (b.time + 1)
          else lastE c true (b.time + 1) c.edge a
        else if a.map (·.truth) = some false then
          if c.prev.time - c.lb ≤ b.time ∧ c.isNew (b.time + c.lb) then c.emitPrev ⟨false, b.time + c.lb⟩ (b.time + 1)
          else lastE c true (b.time + 1) c.edge a
        else lastE c true c.next c.edge a := by
  cases a <;> cases b <;> rfl

theorem trigger_eq (c : Ctrl) (a b : Option Verdict) : triggerBody c a b =
    match b with
    | none => lastE c false c.next c.edge a
    | some b =>
        if b.truth = false then
          if c.prev.time - c.lb ≤ b.time ∧ c.isNew (b.time + c.lb) then
            { c.emitPrev ⟨false, b.time + c.lb⟩ (b.time + 1) with edge := ⟨true, b.time⟩ }
          else lastE c false (b.time + 1) ⟨true, b.time⟩ a
        else if c.edge.truth = false ∨ (c.edge.time ≤ c.prev.time - c.ub ∧ c.ub ≤ c.prev.time) then
          if c.prev.time - c.lb ≤ b.time ∧ c.isNew (b.time + c.lb) then c.emitPrev ⟨true, b.time + c.lb⟩ (b.time + 1)
          else lastE c false (b.time + 1) c.edge a
        else if a.map (·.truth) = some true then
          if c.prev.time - c.lb ≤ b.time ∧ c.isNew (b.time + c.lb) then c.emitPrev ⟨true, b.time + c.lb⟩ (b.time + 1)
          else lastE c false (b.time + 1) c.edge a
        else lastE c false c.next c.edge a := by
  cases a <;> cases b <;> rfl

theorem old_iff {q : Block} {c : Ctrl} (h : Like q c) (ht : LikeT q c) :
    (q.edge.truth = false ∨ ((sub? q.prev.time q.ub).isSome ∧ q.edge.time ≤ (sub? q.prev.time q.ub).getD 0)) ↔
      (c.edge.truth = false ∨ (c.edge.time ≤ c.prev.time - c.ub ∧ c.ub ≤ c.prev.time)) := by
  rw [h.edge, h.prev, ht.ub]
  unfold sub?
  by_cases hu : c.ub ≤ c.prev.time
  · rw [if_pos hu]; simp [hu]
  · rw [if_neg hu]; simp [hu]

theorem since_does {q : Block} {c : Ctrl} (h : Like q c) (ht : LikeT q c) {N : Nat} (hN : N < maxTime) (hp : c.prev.time ≤ N)
    {a b : Option Verdict} (hb : ∀ v, b = some v → v.time ≤ N)
    (hf : ∀ v, (if c.starting then c.emitPrev ⟨false, c.lb - 1⟩ c.next else sinceBody c a b).push = some v → v.time ≤ N) :
    Does q (sinceOp q a b) (if c.starting then c.emitPrev ⟨false, c.lb - 1⟩ c.next else sinceBody c a b) := by
  unfold sinceOp
  have e0 : (q.prev.truth = false ∧ q.prev.time < q.lb) ↔ c.starting := by
    unfold Ctrl.starting; rw [h.prev, ht.lb]
  by_cases hs : c.starting
  · rw [if_pos (e0.2 hs), if_pos hs]
    unfold Does Ctrl.emitPrev Ctrl.keep
    simp only [← h.next, ← h.edge, ← ht.lb]
  · rw [if_neg (fun y => hs (e0.1 y)), if_neg hs]
    rw [if_neg hs] at hf
    have last : ∀ (next : Nat) (edge : Verdict), (∀ v, (lastE c true next edge a).push = some v → v.time ≤ N) →
        Does q (({ q with next := next, edge := edge } : Block).holding true a) (lastE c true next edge a) :=
      fun next edge hf => last_does h ht hN hp hf
    rw [since_eq] at hf ⊢
    cases b with
    | none =>
        simp only [] at hf ⊢
        have := last c.next c.edge hf
        rw [← h.next, ← h.edge] at this ⊢
        exact this
    | some b =>
        have hbN := hb b rfl
        simp only [] at hf ⊢
        rw [satAdd_lt hN (by omega)]
        by_cases hbt : b.truth = true
        · rw [if_pos hbt] at hf ⊢
          rw [if_pos hbt]
          refine upTo_does h ht hN hp (tv := true) (next := b.time + 1) (edge := ⟨true, b.time⟩) hf fun hh => ?_
          rw [if_neg hh] at hf
          exact last (b.time + 1) ⟨true, b.time⟩ hf
        · rw [if_neg hbt] at hf ⊢
          rw [if_neg hbt]
          have eo := old_iff h ht
          by_cases ho : c.edge.truth = false ∨ (c.edge.time ≤ c.prev.time - c.ub ∧ c.ub ≤ c.prev.time)
          · simp only [if_pos (eo.2 ho)]
            rw [if_pos ho] at hf ⊢
            have hE : c.emitPrev ⟨false, b.time + c.lb⟩ (b.time + 1) =
                { c.emitPrev ⟨false, b.time + c.lb⟩ (b.time + 1) with edge := q.edge } := by rw [h.edge]; rfl
            rw [hE] at hf ⊢
            refine upTo_does h ht hN hp (tv := false) (next := b.time + 1) (edge := q.edge) hf fun hh => ?_
            rw [if_neg hh] at hf
            have key := last (b.time + 1) c.edge hf
            rw [← h.edge] at key ⊢
            split
            · have : ({ q with next := b.time + 1 } : Block).upTo b false = none := by
                unfold Block.upTo
                rw [if_neg]
                intro y
                apply hh
                unfold Block.isNew at y
                simp only [h.prev, ht.lb] at y
                by_cases hle : b.time + c.lb ≤ N
                · rw [satAdd_lt hN (by omega)] at y; exact y
                · exact ⟨by omega, Or.inl (by omega)⟩
              rw [this]
              exact key
            · exact key
          · simp only [if_neg (fun y => ho (eo.1 y))]
            rw [if_neg ho] at hf ⊢
            by_cases ha : a.map (·.truth) = some false
            · rw [if_pos ha] at hf ⊢
              rw [if_pos ha]
              have hE : c.emitPrev ⟨false, b.time + c.lb⟩ (b.time + 1) =
                  { c.emitPrev ⟨false, b.time + c.lb⟩ (b.time + 1) with edge := q.edge } := by rw [h.edge]; rfl
              rw [hE] at hf ⊢
              refine upTo_does h ht hN hp (tv := false) (next := b.time + 1) (edge := q.edge) hf fun hh => ?_
              rw [if_neg hh] at hf
              have key := last (b.time + 1) c.edge hf
              rw [← h.edge] at key ⊢
              exact key
            · rw [if_neg ha] at hf ⊢
              rw [if_neg ha]
              have key := last c.next c.edge hf
              rw [← h.next, ← h.edge] at key ⊢
              exact key

theorem trigger_does {q : Block} {c : Ctrl} (h : Like q c) (ht : LikeT q c) {N : Nat} (hN : N < maxTime) (hp : c.prev.time ≤ N)
    {a b : Option Verdict} (hb : ∀ v, b = some v → v.time ≤ N)
    (hf : ∀ v, (if c.starting then c.emitPrev ⟨true, c.lb - 1⟩ c.next else triggerBody c a b).push = some v → v.time ≤ N) :
    Does q (triggerOp q a b) (if c.starting then c.emitPrev ⟨true, c.lb - 1⟩ c.next else triggerBody c a b) := by
  unfold triggerOp
  have e0 : (q.prev.truth = false ∧ q.prev.time < q.lb) ↔ c.starting := by
    unfold Ctrl.starting; rw [h.prev, ht.lb]
  by_cases hs : c.starting
  · rw [if_pos (e0.2 hs), if_pos hs]
    unfold Does Ctrl.emitPrev Ctrl.keep
    simp only [← h.next, ← h.edge, ← ht.lb]
  · rw [if_neg (fun y => hs (e0.1 y)), if_neg hs]
    rw [if_neg hs] at hf
    have last : ∀ (next : Nat) (edge : Verdict), (∀ v, (lastE c false next edge a).push = some v → v.time ≤ N) →
        Does q (({ q with next := next, edge := edge } : Block).holding false a) (lastE c false next edge a) :=
      fun next edge hf => last_does h ht hN hp hf
    rw [trigger_eq] at hf ⊢
    cases b with
    | none =>
        simp only [] at hf ⊢
        have := last c.next c.edge hf
        rw [← h.next, ← h.edge] at this ⊢
        exact this
    | some b =>
        have hbN := hb b rfl
        simp only [] at hf ⊢
        rw [satAdd_lt hN (by omega)]
        by_cases hbt : b.truth = false
        · rw [if_pos hbt] at hf ⊢
          rw [if_pos hbt]
          refine upTo_does h ht hN hp (tv := false) (next := b.time + 1) (edge := ⟨true, b.time⟩) hf fun hh => ?_
          rw [if_neg hh] at hf
          exact last (b.time + 1) ⟨true, b.time⟩ hf
        · rw [if_neg hbt] at hf ⊢
          rw [if_neg hbt]
          have eo := old_iff h ht
          by_cases ho : c.edge.truth = false ∨ (c.edge.time ≤ c.prev.time - c.ub ∧ c.ub ≤ c.prev.time)
          · simp only [if_pos (eo.2 ho)]
            rw [if_pos ho] at hf ⊢
            have hE : c.emitPrev ⟨true, b.time + c.lb⟩ (b.time + 1) =
                { c.emitPrev ⟨true, b.time + c.lb⟩ (b.time + 1) with edge := q.edge } := by rw [h.edge]; rfl
            rw [hE] at hf ⊢
            refine upTo_does h ht hN hp (tv := true) (next := b.time + 1) (edge := q.edge) hf fun hh => ?_
            rw [if_neg hh] at hf
            have key := last (b.time + 1) c.edge hf
            rw [← h.edge] at key ⊢
            split
            · have : ({ q with next := b.time + 1 } : Block).upTo b true = none := by
                unfold Block.upTo
                rw [if_neg]
                intro y
                apply hh
                unfold Block.isNew at y
                simp only [h.prev, ht.lb] at y
                by_cases hle : b.time + c.lb ≤ N
                · rw [satAdd_lt hN (by omega)] at y; exact y
                · exact ⟨by omega, Or.inl (by omega)⟩
              rw [this]
              exact key
            · exact key
          · simp only [if_neg (fun y => ho (eo.1 y))]
            rw [if_neg ho] at hf ⊢
            by_cases ha : a.map (·.truth) = some true
            · rw [if_pos ha] at hf ⊢
              rw [if_pos ha]
              have hE : c.emitPrev ⟨true, b.time + c.lb⟩ (b.time + 1) =
                  { c.emitPrev ⟨true, b.time + c.lb⟩ (b.time + 1) with edge := q.edge } := by rw [h.edge]; rfl
              rw [hE] at hf ⊢
              refine upTo_does h ht hN hp (tv := true) (next := b.time + 1) (edge := q.edge) hf fun hh => ?_
              rw [if_neg hh] at hf
              have key := last (b.time + 1) c.edge hf
              rw [← h.edge] at key ⊢
              exact key
            · rw [if_neg ha] at hf ⊢
              rw [if_neg ha]
              have key := last c.next c.edge hf
              rw [← h.next, ← h.edge] at key ⊢
              exact key

end Rs
end R2U2
