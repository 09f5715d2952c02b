import Verif.Spec.RustCli
import Verif.Lemmas.BzCsv
import Verif.Lemmas.RustBz
import Verif.Props.Booleanizer
/-
The command line tool of the Rust monitor.
-/
namespace R2U2
namespace Rs
namespace Tool
variable {F : Type} {ops : Ops F} {readF : List Char → Option F}

theorem digits_natStr (n : Nat) : digits (natStr n) = some n := by
  unfold digits
  rw [if_neg]
  · exact congrArg some (Map.value_natStr n)
  · rintro (h | h)
    · exact natStr_ne_nil n h
    · rw [List.any_eq_true] at h
      obtain ⟨c, hc, h⟩ := h
      simp [Cli.natStr_isDigit hc] at h

theorem parseI32_intText {i : Int} (h1 : -(2 ^ 31) ≤ i) (h2 : i < 2 ^ 31) : parseI32 (Cli.intText i) = some i := by
  unfold Cli.intText
  split
  · simp only [parseI32, digits_natStr, Option.bind_some]
    rw [show -(i.natAbs : Int) = i by omega]
    simp only [int32, if_pos (And.intro h1 h2)]
  · have hd : ∀ c, (natStr i.natAbs).head? = some c → Cli.isDigit c = true := fun c hc => Cli.natStr_isDigit (List.mem_of_head? hc)
    have : parseI32 (natStr i.natAbs) = (digits (natStr i.natAbs)).bind fun n => int32 n := by
      cases hn : natStr i.natAbs with
      | nil => rfl
      | cons c cs =>
        rw [hn] at hd
        have := hd c rfl
        unfold parseI32
        split
        · next h => cases h; exact absurd this (by decide)
        · next h => cases h; exact absurd this (by decide)
        · rfl
    rw [this, digits_natStr, Option.bind_some, show (i.natAbs : Int) = i by omega]
    simp only [int32, if_pos (And.intro h1 h2)]

/-- A value and what is in the buffer. -/
def Holds (c : Cell F) (x : Int × F) : Prop := (∀ v, c = .int v → x.1 = v) ∧ ∀ v, c = .flt v → x.2 = v

theorem loadString_ok {lim : BzLimits} {st : State F} {k : Nat} {f : List Char} {c : Cell F} (hp : st.mon.prog ≠ []) (hk : k < lim.signals)
    (h : Stands readF f c) : ∃ x, loadString lim readF st k f = some { st with sig := fun j => if j = k then x else st.sig j } ∧ Holds c x := by
  unfold loadString
  rw [if_neg hp, if_pos hk]
  cases h with
  | int i h1 h2 =>
    rw [parseI32_intText h1 h2]
    exact ⟨_, rfl, fun v hv => by cases hv; rfl, fun v hv => by cases hv⟩
  | flt f v hv =>
    cases parseI32 f with
    | some n =>
      refine ⟨(n, v), by rw [hv]; rfl, ?_⟩
      exact ⟨fun w hw => (nomatch hw), fun w hw => by cases hw; rfl⟩
    | none =>
      refine ⟨((st.sig k).1, v), by rw [hv]; rfl, ?_⟩
      exact ⟨fun w hw => (nomatch hw), fun w hw => by cases hw; rfl⟩

theorem loadFrom_ok {lim : BzLimits} {c : Nat → Cell F} : ∀ (fs : List (List Char)) (k : Nat) (st : State F), st.mon.prog ≠ [] → k + fs.length ≤ lim.signals →
    (∀ i f, fs[i]? = some f → Stands readF f (c (k + i))) →
    ∃ sig, loadFrom lim readF st k fs = some { st with sig := sig } ∧
      ∀ j, (k ≤ j → j < k + fs.length → Holds (c j) (sig j)) ∧ (j < k ∨ k + fs.length ≤ j → sig j = st.sig j)
  | [], k, st, _, _, _ => ⟨st.sig, rfl, fun j => ⟨fun h1 h2 => by simp at h2; omega, fun _ => rfl⟩⟩
  | f :: fs, k, st, hp, hk, h => by
      simp only [List.length_cons] at hk
      obtain ⟨x, h1, h2⟩ := loadString_ok (st := st) hp (show k < lim.signals by omega) (h 0 f rfl)
      obtain ⟨sig, h3, h4⟩ := loadFrom_ok (lim := lim) (c := c) fs (k + 1) { st with sig := fun j => if j = k then x else st.sig j } hp (by omega)
        (fun i g hg => by have := h (i + 1) g hg; rwa [show k + (i + 1) = k + 1 + i by omega] at this)
      refine ⟨sig, by simp only [loadFrom, h1, Option.bind_some, h3], fun j => ⟨fun a b => ?_, fun a => ?_⟩⟩
      · by_cases hj : j = k
        · subst hj
          rw [(h4 j).2 (by omega)]
          simpa using h2
        · exact (h4 j).1 (by omega) (by simp only [List.length_cons] at b; omega)
      · simp only [List.length_cons] at a
        rw [(h4 j).2 (by omega)]
        exact if_neg (by omega)

theorem record_ok {lim : BzLimits} {c : Nat → Cell F} {r : List (List Char)} {st : State F} (hr : 0 < r.length) (hp : st.mon.prog ≠ []) (hk : r.length ≤ lim.signals)
    (ha : ∀ f, r.head? = some f → f.head? ≠ some '@') (h : ∀ i f, r[i]? = some f → Stands readF f (c i)) :
    ∃ sig, record lim readF st r = some { st with sig := sig } ∧
      ∀ j, (j < r.length → Holds (c j) (sig j)) ∧ (r.length ≤ j → sig j = st.sig j) := by
  cases r with
  | nil => simp at hr
  | cons f fs =>
    obtain ⟨sig, h1, h2⟩ := loadFrom_ok (lim := lim) (c := c) (f :: fs) 0 st hp (by simpa using hk) (fun i g hg => by simpa using h i g hg)
    refine ⟨sig, ?_, fun j => ⟨fun hj => (h2 j).1 (by omega) (by omega), fun hj => (h2 j).2 (by omega)⟩⟩
    simp only [record, if_neg (ha f rfl)]
    exact h1

theorem step_prog {lim : BzLimits} {fuel : Nat} {sig : Signals F} {S S' : Full F} {b : Bool} (h : S.step ops lim fuel sig = some (S', b)) : S'.prog = S.prog := by
  simp only [Full.step, Option.bind_eq_some_iff, Option.map_eq_some_iff] at h
  obtain ⟨_, _, _, _, h⟩ := h
  cases h
  rfl

/-- A run that succeeds is one of steps that do. -/
theorem run_split {lim : BzLimits} {fuel : Nat} {σ : Nat → Signals F} {S0 : Full F} : ∀ (T : Nat) {x : Full F × List (Nat × Verdict) × List Bool},
    S0.run ops lim fuel σ T = some x → ∀ t, t ≤ T → ∃ S out oks, S0.run ops lim fuel σ t = some (S, out, oks) ∧ ∀ b ∈ oks, b ∈ x.2.2
  | 0, x, h, t, ht => by
      obtain rfl : t = 0 := by omega
      exact ⟨_, _, _, h, fun b hb => hb⟩
  | T + 1, x, h, t, ht => by
      by_cases e : t = T + 1
      · subst e; exact ⟨_, _, _, h, fun b hb => hb⟩
      · simp only [Full.run, Option.bind_eq_some_iff, Option.map_eq_some_iff] at h
        obtain ⟨y, h1, z, _, h3⟩ := h
        obtain ⟨S, out, oks, h4, h5⟩ := run_split T h1 t (by omega)
        refine ⟨S, out, oks, h4, fun b hb => ?_⟩
        rw [← h3]
        exact List.mem_append_left _ (h5 b hb)

/-- The buffer after the records before `t`. -/
def buffer (lim : BzLimits) (readF : List Char → Option F) (S : Full F) (z : F) (rows : List (List (List Char))) : Nat → Signals F
  | 0 => fun _ => (0, z)
  | t + 1 => match rows[t]? with
      | some r => ((record lim readF ⟨S, buffer lim readF S z rows t⟩ r).map (·.sig)).getD (buffer lim readF S z rows t)
      | none => buffer lim readF S z rows t

theorem buffer_ok {lim : BzLimits} {w : Nat} {rows : List (List (List Char))} {σ : Nat → Nat → Cell F} (hg : Gives ops readF w rows σ) (hw : w ≤ lim.signals)
    {S : Full F} (hp : S.prog ≠ []) : ∀ t, t ≤ rows.length → (∀ j, w ≤ j → buffer lim readF S ops.zero rows t j = (0, ops.zero)) ∧
      ∀ r, rows[t]? = some r → ∀ S' : Full F, S'.prog = S.prog →
        record lim readF ⟨S', buffer lim readF S ops.zero rows t⟩ r = some ⟨S', buffer lim readF S ops.zero rows (t + 1)⟩ ∧
        SameSignals (σ t) (buffer lim readF S ops.zero rows (t + 1)) := by
  have one : ∀ t, (∀ j, w ≤ j → buffer lim readF S ops.zero rows t j = (0, ops.zero)) → ∀ r, rows[t]? = some r → ∀ S' : Full F, S'.prog = S.prog →
      record lim readF ⟨S', buffer lim readF S ops.zero rows t⟩ r = some ⟨S', buffer lim readF S ops.zero rows (t + 1)⟩ ∧
      (∀ j, w ≤ j → buffer lim readF S ops.zero rows (t + 1) j = (0, ops.zero)) ∧
      SameSignals (σ t) (buffer lim readF S ops.zero rows (t + 1)) := by
    intro t hz r hr
    have hmem := List.mem_of_getElem? hr
    have hlen := hg.width r hmem
    have hpos := hg.some
    have hlt : t < rows.length := (List.getElem?_eq_some_iff.1 hr).1
    have key : ∀ S' : Full F, S'.prog = S.prog → ∃ sig, record lim readF ⟨S', buffer lim readF S ops.zero rows t⟩ r = some ⟨S', sig⟩ ∧
        ∀ j, (j < r.length → Holds (σ t j) (sig j)) ∧ (r.length ≤ j → sig j = buffer lim readF S ops.zero rows t j) := by
      intro S' hS
      exact record_ok (st := ⟨S', buffer lim readF S ops.zero rows t⟩) (by omega) (by rw [hS]; exact hp) (by omega) (hg.plain r hmem) (hg.value t r hr)
    obtain ⟨sig, k1, k2⟩ := key S rfl
    have hb : buffer lim readF S ops.zero rows (t + 1) = sig := by simp only [buffer, hr, k1, Option.map_some, Option.getD_some]
    rw [hb]
    intro S' hS
    have hsame : record lim readF ⟨S', buffer lim readF S ops.zero rows t⟩ r = some ⟨S', sig⟩ := by
      have go : ∀ (fs : List (List Char)) (k : Nat) (s s' : Signals F), loadFrom lim readF ⟨S, s⟩ k fs = some ⟨S, s'⟩ → loadFrom lim readF ⟨S', s⟩ k fs = some ⟨S', s'⟩ := by
        intro fs
        induction fs with
        | nil => intro k s s' h; cases h; rfl
        | cons f fs ih =>
          intro k s s' h
          simp only [loadFrom, Option.bind_eq_some_iff] at h ⊢
          obtain ⟨⟨S1, s1⟩, h1, h2⟩ := h
          have : S1 = S ∧ loadString lim readF ⟨S', s⟩ k f = some ⟨S', s1⟩ := by
            unfold loadString at h1 ⊢
            simp only [if_neg hp, hS] at h1 ⊢
            split at h1
            · next hk =>
              rw [if_pos hk]
              split at h1
              · next hpz => cases h1; exact ⟨rfl, rfl⟩
              · next hpz =>
                rw [Option.map_eq_some_iff] at h1
                obtain ⟨v, hv, h1⟩ := h1
                cases h1
                exact ⟨rfl, by rw [hv]; rfl⟩
            · cases h1
          obtain ⟨rfl, h3⟩ := this
          exact ⟨_, h3, ih _ _ _ h2⟩
      cases r with
      | nil => simp at hlen; omega
      | cons f fs =>
        simp only [record, if_neg (hg.plain _ hmem f rfl)] at k1 ⊢
        exact go (f :: fs) 0 _ _ k1
    refine ⟨hsame, fun j hj => ?_, fun j => ?_⟩
    · rw [(k2 j).2 (by omega)]; exact hz j hj
    · by_cases hj : j < r.length
      · exact (k2 j).1 hj
      · rw [(k2 j).2 (by omega), hz j (by omega)]
        rcases hg.zero t hlt j (by omega) with h | h
        · rw [h]; exact ⟨fun v hv => by cases hv; rfl, fun v hv => by cases hv⟩
        · rw [h]; exact ⟨fun v hv => (by cases hv), fun v hv => by cases hv; rfl⟩
  intro t
  induction t with
  | zero => intro _; exact ⟨fun _ _ => rfl, fun r hr S' hS => ⟨(one 0 (fun _ _ => rfl) r hr S' hS).1, (one 0 (fun _ _ => rfl) r hr S' hS).2.2⟩⟩
  | succ t ih =>
    intro ht
    obtain ⟨i1, _⟩ := ih (by omega)
    have hz := (one t i1 rows[t] (List.getElem?_eq_getElem (by omega)) S rfl).2.1
    exact ⟨hz, fun r hr S' hS => ⟨(one (t + 1) hz r hr S' hS).1, (one (t + 1) hz r hr S' hS).2.2⟩⟩

/-- The verdicts of the steps, and whether they are without overflow. -/
def steps (ops : Ops F) (lim : BzLimits) (readF : List Char → Option F) (fuel : Nat) : List (List (List Char)) → State F → Option (List (List (Nat × Verdict) × Bool))
  | [], _ => some []
  | r :: rs, st =>
      (record lim readF st r).bind fun st => (st.mon.step ops lim fuel st.sig).bind fun x =>
        (steps ops lim readF fuel rs { st with mon := x.1 }).map fun xs => (x.1.tl.outputs, x.2) :: xs

theorem loop_steps {lim : BzLimits} {fuel : Nat} : ∀ (rows : List (List (List Char))) (st : State F),
    loop ops lim readF fuel rows st = (steps ops lim readF fuel rows st).map fun xs =>
      xs.flatMap fun x => if x.2 then x.1.flatMap line else "Overflow occurred!!!!\n".toList
  | [], _ => rfl
  | r :: rs, st => by
      simp only [loop, steps, Option.map_bind, Option.map_map, Function.comp_def]
      refine congrArg _ (funext fun st' => congrArg _ (funext fun x => ?_))
      rw [loop_steps rs, Option.map_map]
      rfl

theorem loop_good {lim : BzLimits} {fuel : Nat} {rows : List (List (List Char))} {st : State F} {outs : List (List (Nat × Verdict))}
    (h : steps ops lim readF fuel rows st = some (outs.map fun o => (o, true))) : loop ops lim readF fuel rows st = some (outs.flatten.flatMap line) := by
  rw [loop_steps, h, Option.map_some, List.flatMap_map, List.flatMap_def, List.flatMap_def, List.map_flatten, List.flatten_flatten, List.map_map]
  congr 2

/-- The tool prints what the monitor reports. -/
theorem loop_ok {lim : BzLimits} {fuel w : Nat} {rows : List (List (List Char))} {σ : Nat → Nat → Cell F} (hg : Gives ops readF w rows σ) (hw : w ≤ lim.signals)
    {S0 : Full F} (hp : S0.prog ≠ []) {S : Full F} {out : List (Nat × Verdict)} {oks : List Bool} {σ' : Nat → Signals F}
    (hσ : ∀ t, t < rows.length → σ' t = buffer lim readF S0 ops.zero rows (t + 1))
    (hrun : S0.run ops lim fuel σ' rows.length = some (S, out, oks)) (hok : ∀ b ∈ oks, b = true) :
    ∃ outs : List (List (Nat × Verdict)), steps ops lim readF fuel rows ⟨S0, fun _ => (0, ops.zero)⟩ = some (outs.map fun o => (o, true)) ∧ outs.flatten = out := by
  have key : ∀ d t, t + d = rows.length → ∀ St outt okt, S0.run ops lim fuel σ' t = some (St, outt, okt) →
      St.prog = S0.prog →
      ∃ rest : List (List (Nat × Verdict)), steps ops lim readF fuel (rows.drop t) ⟨St, buffer lim readF S0 ops.zero rows t⟩ = some (rest.map fun o => (o, true)) ∧ out = outt ++ rest.flatten := by
    intro d
    induction d with
    | zero =>
      intro t ht St outt okt h _
      obtain rfl : t = rows.length := by omega
      rw [hrun] at h
      cases h
      exact ⟨[], by rw [List.drop_eq_nil_of_le (by omega)]; rfl, by simp⟩
    | succ d ih =>
      intro t ht St outt okt h hpt
      have hlt : t < rows.length := by omega
      obtain ⟨S1, out1, ok1, h1, h2⟩ := run_split rows.length hrun (t + 1) (by omega)
      have h1' := h1
      simp only [Full.run, h, Option.bind_some, Option.map_eq_some_iff, hσ t hlt] at h1
      obtain ⟨⟨S2, b⟩, h3, h4⟩ := h1
      cases h4
      have hb : b = true := hok b (h2 b (by simp))
      obtain ⟨rest, r1, r2⟩ := ih (t + 1) (by omega) _ _ _ h1' ((step_prog h3).trans hpt)
      have hrow : rows[t]? = some rows[t] := List.getElem?_eq_getElem hlt
      have hrec := ((buffer_ok hg hw hp t (by omega)).2 _ hrow St hpt).1
      refine ⟨S2.tl.outputs :: rest, ?_, by rw [r2, List.flatten_cons, List.append_assoc]⟩
      rw [List.drop_eq_getElem_cons hlt]
      simp only [steps, hrec, Option.bind_some, h3, r1, Option.map_some, hb, List.map_cons]
  obtain ⟨rest, r1, r2⟩ := key rows.length 0 (by omega) S0 [] [] rfl rfl
  rw [List.nil_append] at r2
  exact ⟨rest, r1, r2.symm⟩

theorem line_eq : (line : Nat × Verdict → List Char) = printed := by
  funext x
  unfold line printed
  cases x.2.truth <;> simp

/-- Inputs that agree with the values from every moment on: the buffer, and after the trace anything that agrees. -/
def inputs (lim : BzLimits) (readF : List Char → Option F) (S : Full F) (z : F) (rows : List (List (List Char))) (σ : Nat → Nat → Cell F) (t : Nat) : Signals F :=
  if t < rows.length then buffer lim readF S z rows (t + 1)
  else fun j => match σ t j with
    | .int v => (v, z)
    | .flt v => (0, v)

theorem inputs_same {lim : BzLimits} {w : Nat} {rows : List (List (List Char))} {σ : Nat → Nat → Cell F} (hg : Gives ops readF w rows σ) (hw : w ≤ lim.signals)
    {S : Full F} (hp : S.prog ≠ []) (t : Nat) : SameSignals (σ t) (inputs lim readF S ops.zero rows σ t) := by
  unfold inputs
  split
  · next h => exact ((buffer_ok hg hw hp t (by omega)).2 _ (List.getElem?_eq_getElem h) S rfl).2
  · intro j
    simp only
    split
    · next v h => rw [h]; exact ⟨fun w hw => by cases hw; rfl, fun w hw => nomatch hw⟩
    · next v h => rw [h]; exact ⟨fun w hw => (nomatch hw), fun w hw => by cases hw; rfl⟩

/-! ### Without the booleanizer -/

/-- The same monitor with other atomics. -/
def withAtoms (S : Full F) (at' : Nat → Bool) : Full F := { S with bz := { S.bz with atoms := at' } }

theorem loadFrom_bits {lim : BzLimits} {β : Nat → Bool} {sig : Signals F} : ∀ (fs : List (List Char)) (k : Nat) (S : Full F), S.prog = [] → k + fs.length ≤ lim.atomics →
    (∀ i f, fs[i]? = some f → ∃ v : Int, -(2 ^ 31) ≤ v ∧ v < 2 ^ 31 ∧ f = Cli.intText v ∧ (β (k + i) = true ↔ v ≠ 0)) →
    ∃ at', loadFrom lim readF ⟨S, sig⟩ k fs = some ⟨withAtoms S at', sig⟩ ∧
      ∀ j, (k ≤ j → j < k + fs.length → at' j = β j) ∧ (j < k ∨ k + fs.length ≤ j → at' j = S.bz.atoms j)
  | [], k, S, _, _, _ => ⟨S.bz.atoms, rfl, fun j => ⟨fun h1 h2 => by simp at h2; omega, fun _ => rfl⟩⟩
  | f :: fs, k, S, hp, hk, h => by
      simp only [List.length_cons] at hk
      obtain ⟨v, v1, v2, rfl, v3⟩ := h 0 f rfl
      have h1 : loadString lim readF ⟨S, sig⟩ k (Cli.intText v) = some ⟨withAtoms S (fun a => if a = k then decide (v ≠ 0) else S.bz.atoms a), sig⟩ := by
        unfold loadString
        rw [if_pos hp, parseI32_intText v1 v2, Option.bind_some, if_pos (by omega)]
        rfl
      obtain ⟨at', h3, h4⟩ := loadFrom_bits (lim := lim) (β := β) (sig := sig) fs (k + 1) (withAtoms S (fun a => if a = k then decide (v ≠ 0) else S.bz.atoms a)) hp (by omega)
        (fun i g hg => by have := h (i + 1) g hg; rwa [show k + (i + 1) = k + 1 + i by omega] at this)
      refine ⟨at', by simp only [loadFrom, h1, Option.bind_some, h3]; rfl, fun j => ⟨fun a b => ?_, fun a => ?_⟩⟩
      · by_cases hj : j = k
        · subst hj
          rw [(h4 j).2 (by omega)]
          simp only [withAtoms, if_true]
          cases hβ : β j
          · have : ¬ v ≠ 0 := fun hv => by have := v3.2 hv; simp [hβ] at this
            simpa using this
          · simpa using v3.1 hβ
        · exact (h4 j).1 (by omega) (by simp only [List.length_cons] at b; omega)
      · simp only [List.length_cons] at a
        rw [(h4 j).2 (by omega)]
        exact if_neg (by omega)

/-- Without the booleanizer the tool prints what the temporal engine reports on the truth values. -/
theorem loop_bits {lim : BzLimits} {fuel w : Nat} {rows : List (List (List Char))} {β : Nat → Nat → Bool} (hg : Truths w rows β) (hw : w ≤ lim.atomics)
    {S0 : Full F} (hp : S0.prog = []) (ho : S0.bz.overflow = false) (ha : ∀ j, S0.bz.atoms j = false) {sig : Signals F} {M : Monitor} {out : List (Nat × Verdict)}
    (hrun : S0.tl.run fuel β rows.length = some (M, out)) :
    ∃ outs : List (List (Nat × Verdict)), steps ops lim readF fuel rows ⟨S0, sig⟩ = some (outs.map fun o => (o, true)) ∧ outs.flatten = out := by
  have split : ∀ (T : Nat) {x : Monitor × List (Nat × Verdict)}, S0.tl.run fuel β T = some x → ∀ t, t ≤ T → ∃ y, S0.tl.run fuel β t = some y := by
    intro T
    induction T with
    | zero => intro x h t ht; obtain rfl : t = 0 := by omega
              exact ⟨_, h⟩
    | succ T ih =>
      intro x h t ht
      by_cases e : t = T + 1
      · subst e; exact ⟨_, h⟩
      · simp only [Monitor.run, Option.bind_eq_some_iff] at h
        obtain ⟨y, h1, _⟩ := h
        exact ih h1 t (by omega)
  have key : ∀ d t, t + d = rows.length → ∀ (S : Full F) outt, S0.tl.run fuel β t = some (S.tl, outt) → S.prog = [] → S.bz.overflow = false →
      (∀ j, w ≤ j → S.bz.atoms j = false) →
      ∃ rest : List (List (Nat × Verdict)), steps ops lim readF fuel (rows.drop t) ⟨S, sig⟩ = some (rest.map fun o => (o, true)) ∧ out = outt ++ rest.flatten := by
    intro d
    induction d with
    | zero =>
      intro t ht S outt h _ _ _
      obtain rfl : t = rows.length := by omega
      rw [hrun] at h
      cases h
      exact ⟨[], by rw [List.drop_eq_nil_of_le (by omega)]; rfl, by simp⟩
    | succ d ih =>
      intro t ht S outt h hpt hot hat
      have hlt : t < rows.length := by omega
      have hrow : rows[t]? = some rows[t] := List.getElem?_eq_getElem hlt
      have hlen := hg.width _ (List.getElem_mem hlt)
      obtain ⟨at', r1, r2⟩ := loadFrom_bits (readF := readF) (lim := lim) (β := β t) (sig := sig) rows[t] 0 S hpt (by omega)
        (fun i f hf => by simpa using hg.value t _ hrow i f hf)
      have hβ : at' = β t := by
        funext j
        by_cases hj : j < w
        · exact (r2 j).1 (by omega) (by omega)
        · rw [(r2 j).2 (by omega), hat j (by omega), hg.zero t hlt j (by omega)]
      have hrec : record lim readF ⟨S, sig⟩ rows[t] = some ⟨withAtoms S (β t), sig⟩ := by
        rw [← hβ, ← r1]
        have hpos := hg.some
        cases hr : rows[t] with
        | nil => rw [hr] at hlen; simp at hlen; omega
        | cons f fs =>
          have hf : f.head? ≠ some '@' := by
            obtain ⟨v, _, _, rfl, _⟩ := hg.value t _ hrow 0 f (by rw [hr]; rfl)
            unfold Cli.intText
            split
            · simp
            · intro h
              exact absurd (Cli.natStr_isDigit (List.mem_of_head? h)) (by decide)
          simp only [record, if_neg hf]
          rfl
      obtain ⟨⟨M1, out1⟩, h1⟩ := split rows.length hrun (t + 1) (by omega)
      have h1' := h1
      simp only [Monitor.run, h, Option.bind_some, Option.map_eq_some_iff] at h1
      obtain ⟨M2, h3, h4⟩ := h1
      cases h4
      have hstep : (withAtoms S (β t)).step ops lim fuel sig = some (⟨M1, { (withAtoms S (β t)).bz with time := M1.time }, []⟩, true) := by
        simp only [Full.step, withAtoms, hpt, BzMon.pass, Option.bind_some, h3, Option.map_some, hot, Bool.not_false]
      obtain ⟨rest, q1, q2⟩ := ih (t + 1) (by omega) ⟨M1, { (withAtoms S (β t)).bz with time := M1.time }, []⟩ _ h1' rfl hot
        (fun j hj => hg.zero t hlt j hj)
      refine ⟨M1.outputs :: rest, ?_, by rw [q2, List.flatten_cons, List.append_assoc]⟩
      rw [List.drop_eq_getElem_cons hlt]
      simp only [steps, hrec, Option.bind_some, hstep, q1, Option.map_some, List.map_cons]
  obtain ⟨rest, r1, r2⟩ := key rows.length 0 (by omega) S0 [] rfl hp ho (fun j _ => ha j)
  rw [List.nil_append] at r2
  exact ⟨rest, r1, r2.symm⟩

theorem loadEvs_none {lim : BzLimits} : ∀ (es : List LoadEv) (m : BzMon F), LoadEv.bzPart es = [] → BzMon.loadEvs ops lim es m = some m
  | [], _, _ => rfl
  | e :: es, m, h => by
      cases e <;> simp [LoadEv.bzPart] at h
      all_goals
        simp only [BzMon.loadEvs, BzMon.loadEv, Option.bind_some]
        exact loadEvs_none es m (by simpa [LoadEv.bzPart] using h)

/-- The monitor of a binary without instructions for the booleanizer. -/
theorem getFull_plain {lim : Limits} {signals fuel : Nat} {bytes : List Nat} {es : List LoadEv} {stop : Nat} {M : Monitor} (hs : ∀ b ∈ bytes, b < 256)
    (hl : loadBinary fuel bytes = some (es, stop)) (hn : LoadEv.bzPart es = []) (hM : getMonitor lim fuel bytes = some M) :
    getFull ops lim signals fuel bytes = some ⟨M, BzMon.zero ops.zero, []⟩ := by
  unfold getFull
  rw [hM]
  unfold loadBinary at hl
  cases h0 : bytes[0]? with
  | none => rw [h0] at hl; cases hl
  | some o =>
    rw [h0] at hl
    simp only [Option.bind_some]
    rw [framesBz_load hs _ _ _ _ hl (by
      intro a v hav
      have : LoadEv.fconst a v ∈ LoadEv.bzPart es := List.mem_filter.2 ⟨hav, rfl⟩
      rw [hn] at this
      cases this), loadEvs_none es _ hn]
    have : R2U2.BzMon.table es = [] := by rw [table_bzPart, hn]; rfl
    rw [this]
    rfl

theorem loadLoop_more (s : List Nat) : ∀ (n m o : Nat) {x : List LoadEv × Nat}, loadLoop n s o = some x → n ≤ m → loadLoop m s o = some x
  | 0, _, _, _, h, _ => by cases h
  | n + 1, 0, _, _, _, hm => by omega
  | n + 1, m + 1, o, x, h, hm => by
      unfold loadLoop at h ⊢
      split at h
      · cases h
      · next len hl =>
        split at h
        · next h0 => rw [if_pos h0]; exact h
        · next h0 =>
          rw [if_neg h0]
          split at h
          · next es rest o' h1 h2 => rw [h1, loadLoop_more s n m _ h2 (by omega)]; exact h
          · cases h

/-- What a binary loads does not depend on the fuel. -/
theorem loadBinary_unique {s : List Nat} {n m : Nat} {x y : List LoadEv × Nat} (h1 : loadBinary n s = some x) (h2 : loadBinary m s = some y) : x = y := by
  unfold loadBinary at h1 h2
  split at h1
  · cases h1
  · next o ho =>
    rw [ho] at h2
    simp only at h2
    rcases Nat.le_total n m with h | h
    · rw [loadLoop_more s n m o h1 h] at h2; exact Option.some.inj h2
    · rw [loadLoop_more s m n o h2 h] at h1; exact (Option.some.inj h1).symm

theorem usesBz_of {bytes : List Nat} (n : Nat) (h : (loadBinary n bytes).map (fun x => (R2U2.BzMon.table x.1).isEmpty) = some false) : UsesBz bytes := by
  intro m es stop h1 h2
  obtain ⟨x, h3, h4⟩ := Option.map_eq_some_iff.1 h
  rw [loadBinary_unique h3 h1, h2] at h4
  simp at h4

end Tool
end Rs
end R2U2
