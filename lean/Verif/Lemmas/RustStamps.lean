import Verif.Lemmas.RustNames
import Verif.Lemmas.EventCsv
import Verif.Spec.RustStamps
/-
The clock of the Rust monitor, and records with time stamps.
-/
namespace R2U2
namespace Rs

namespace Monitor

theorem scqWrite_time {M M' : Monitor} {q : Nat} {v : Verdict} (h : M.scqWrite q v = some M') : M'.time = M.time := by
  simp only [scqWrite, Option.bind_eq_some_iff] at h
  obtain ⟨b, _, p, _, vp, _, vw, _, _, _, h⟩ := h
  split at h
  · cases h
  · cases h; rfl

theorem operand_time {M : Monitor} {i : TlRec} {s : Bool} {x : Monitor × Option Verdict} (h : M.operand i s = some x) : x.1.time = M.time := by
  unfold operand at h
  generalize (if s = true then i.t2 else i.t1) = t at h
  generalize (if s = true then i.v2 else i.v1) = v at h
  split at h
  · split at h
    · split at h <;> cases h; rfl
    · cases h; rfl
  · split at h
    · rw [Option.map_eq_some_iff] at h
      obtain ⟨_, _, rfl⟩ := h
      rfl
    · cases h; rfl
  · simp only [scqRead, Option.bind_eq_some_iff] at h
    obtain ⟨c, _, p, _, _, _, h⟩ := h
    generalize (if s = true then p.read2 else p.read1) = r at h
    split at h
    · cases h; rfl
    · rw [Option.map_eq_some_iff] at h
      obtain ⟨_, _, rfl⟩ := h
      rfl
  · cases h; rfl

theorem pushResult_time {M M' : Monitor} {i : TlRec} {v : Verdict} (h : M.pushResult i v = some M') : M'.time = M.time :=
  (scqWrite_time (M := { M with progress := M.progress.flag }) h).trans rfl

theorem finish_time {M M' : Monitor} {i : TlRec} {op : Block → Res} (h : M.finish i op = some M') : M'.time = M.time := by
  simp only [finish, Option.bind_eq_some_iff] at h
  obtain ⟨b, _, x, _, h⟩ := h
  split at h
  · exact (pushResult_time h).trans rfl
  · cases h; rfl

theorem update_time {M M' : Monitor} {i : TlRec} (h : M.update i = some M') : M'.time = M.time := by
  have un : ∀ {op}, M.unary i op = some M' → M'.time = M.time := by
    intro op h
    simp only [unary, Option.bind_eq_some_iff] at h
    obtain ⟨x, h1, h2⟩ := h
    exact (finish_time h2).trans (operand_time h1)
  have bi : ∀ {op}, M.binary i op = some M' → M'.time = M.time := by
    intro op h
    simp only [binary, Option.bind_eq_some_iff] at h
    obtain ⟨x, h1, y, h2, h3⟩ := h
    exact (finish_time h3).trans ((operand_time h2).trans (operand_time h1))
  unfold update at h
  split at h
  · simp only [load, Option.bind_eq_some_iff] at h
    obtain ⟨x, h1, h⟩ := h
    split at h
    · rw [Option.bind_eq_some_iff] at h
      obtain ⟨b, _, h⟩ := h
      exact (pushResult_time h).trans (operand_time h1)
    · cases h; exact operand_time h1
  · simp only [ret, Option.bind_eq_some_iff] at h
    obtain ⟨x, h1, h⟩ := h
    split at h
    · rw [Option.bind_eq_some_iff] at h
      obtain ⟨b, _, h⟩ := h
      split at h
      · cases h; exact operand_time h1
      · cases h
    · cases h; exact operand_time h1
  all_goals first
    | exact bi h
    | exact un h
    | (cases h; rfl)

theorem pass_time : ∀ (is : List TlRec) {M M' : Monitor}, pass is M = some M' → M'.time = M.time
  | [], M, M', h => by cases h; rfl
  | i :: is, M, M', h => by
      simp only [pass, Option.bind_eq_some_iff] at h
      obtain ⟨M1, h1, h2⟩ := h
      exact (pass_time is h2).trans (update_time h1)

theorem loop_time : ∀ (n : Nat) {M M' : Monitor}, M.time < maxTime → loop n M = some M' → M'.time = M.time + 1
  | 0, _, _, _, h => by cases h
  | n + 1, M, M', hM, h => by
      simp only [loop] at h
      split at h
      · cases h
      · next M1 h1 =>
        have h1 := pass_time _ h1
        split at h
        · exact (loop_time n (M := { M1 with progress := .reloop }) (h1.trans_lt hM) h).trans (by rw [← h1])
        · exact (loop_time n (M := { M1 with progress := .reloop }) (h1.trans_lt hM) h).trans (by rw [← h1])
        · rw [if_pos (h1.trans_lt hM)] at h
          cases h
          rw [← h1]

theorem frame_time {s : List Nat} {o : Nat} {N N' : Monitor} (h : N.frame s o = some N') : N'.time = N.time := by
  unfold frame at h
  split at h
  · cases h
  · split at h
    · cases h
    · split at h
      · rw [Option.bind_eq_some_iff] at h
        obtain ⟨r, _, h⟩ := h
        unfold configure at h
        split at h
        · rw [Option.bind_eq_some_iff] at h
          obtain ⟨_, _, h⟩ := h
          split at h
          · rw [Option.map_eq_some_iff] at h
            obtain ⟨_, _, rfl⟩ := h
            rfl
          · cases h
        · rw [Option.map_eq_some_iff] at h
          obtain ⟨_, _, rfl⟩ := h
          rfl
        · cases h; rfl
      · split at h
        · rw [Option.bind_eq_some_iff] at h
          obtain ⟨r, _, h⟩ := h
          unfold Monitor.storeBz at h
          split at h
          · split at h <;> cases h; rfl
          · split at h
            · cases h
            · split at h <;> cases h; rfl
        · split at h
          · rw [Option.bind_eq_some_iff] at h
            obtain ⟨r, _, h⟩ := h
            unfold storeTl at h
            split at h <;> cases h; rfl
          · cases h; rfl

theorem frames_time {s : List Nat} : ∀ (n o : Nat) {N N' : Monitor}, frames n s o N = some N' → N'.time = N.time := by
  intro n
  induction n with
  | zero => intro o N N' h; cases h
  | succ n ih =>
      intro o N N' h
      simp only [frames] at h
      split at h
      · cases h
      · split at h
        · cases h; rfl
        · rw [Option.bind_eq_some_iff] at h
          obtain ⟨N1, h1, h2⟩ := h
          exact (ih _ h2).trans (frame_time h1)

theorem setNext_time (is : List TlRec) : ∀ {M M' : Monitor}, setNext is M = some M' → M'.time = M.time := by
  induction is with
  | nil => intro M M' h; cases h; rfl
  | cons r is ih =>
      intro M M' h
      simp only [setNext] at h
      split at h
      · rw [Option.bind_eq_some_iff] at h
        obtain ⟨b, _, h⟩ := h
        exact (ih h).trans rfl
      · exact ih h

end Monitor

variable {F : Type} {ops : Ops F} {readF : List Char → Option F}

theorem getMonitor_time {lim : Limits} {fuel : Nat} {s : List Nat} {M : Monitor} (h : getMonitor lim fuel s = some M) : M.time = 0 := by
  unfold getMonitor Monitor.process at h
  split at h
  · cases h
  · rw [Option.bind_eq_some_iff] at h
    obtain ⟨M1, h1, h2⟩ := h
    exact (Monitor.setNext_time _ h2).trans ((Monitor.frames_time _ _ h1).trans rfl)

namespace BzMon

theorem putI_time {lim : BzLimits} {m m' : BzMon F} {a : Nat} {v : Int} (h : m.putI lim a v = some m') : m'.time = m.time := by
  unfold putI at h
  split at h <;> cases h; rfl

theorem putF_time {lim : BzLimits} {m m' : BzMon F} {a : Nat} {v : F} (h : m.putF lim a v = some m') : m'.time = m.time := by
  unfold putF at h
  split at h <;> cases h; rfl

theorem load1_time {lim : BzLimits} {r : BzRec} {pi : Int} {pf : Nat} {m m' : BzMon F} (h : m.load1 ops lim r pi pf = some m') : m'.time = m.time := by
  unfold load1 at h
  split at h
  · exact putI_time h
  · exact putF_time h
  · unfold copy at h
    split at h
    · rw [Option.bind_eq_some_iff] at h
      obtain ⟨_, h1, h2⟩ := h
      exact (putF_time h2).trans (putI_time h1)
    · cases h
  · cases h; rfl

end BzMon

theorem framesBz_time {lim : BzLimits} {s : List Nat} : ∀ (n o : Nat) {x y : BzMon F × List BzRec}, framesBz ops lim n s o x = some y → y.1.time = x.1.time := by
  intro n
  induction n with
  | zero => intro o x y h; cases h
  | succ n ih =>
      intro o x y h
      simp only [framesBz] at h
      split at h
      · cases h
      · split at h
        · cases h; rfl
        · split at h
          · simp only [Option.bind_eq_some_iff] at h
            obtain ⟨_, _, _, _, _, _, m', h1, h2⟩ := h
            exact (ih _ h2).trans (BzMon.load1_time h1)
          · exact ih _ h

/-- Both copies of the clock. -/
def Full.At (S : Full F) (t : Nat) : Prop := S.tl.time = t ∧ S.bz.time = t

theorem getFull_at {lim : Limits} {sg fuel : Nat} {s : List Nat} {S : Full F} (h : getFull ops lim sg fuel s = some S) : S.At 0 := by
  simp only [getFull, Option.bind_eq_some_iff, Option.map_eq_some_iff] at h
  obtain ⟨M, h1, o, _, x, h2, rfl⟩ := h
  exact ⟨getMonitor_time h1, framesBz_time _ _ h2⟩

theorem Full.step_at {lim : BzLimits} {fuel t : Nat} {sig : Signals F} {S : Full F} {x : Full F × Bool} (hS : S.At t) (ht : t + 1 < 2 ^ 32)
    (h : S.step ops lim fuel sig = some x) : x.1.At (t + 1) := by
  simp only [Full.step, Option.bind_eq_some_iff, Option.map_eq_some_iff] at h
  obtain ⟨m, _, M, h1, rfl⟩ := h
  have h2 := hS.1
  have : M.time = t + 1 := by
    rw [← h2]
    exact Monitor.loop_time fuel (M := { S.tl with idx := 0, atoms := m.atoms }) (by show S.tl.time < maxTime; unfold maxTime; omega) h1
  exact ⟨this, this⟩

namespace Tool

theorem loadString_at {lim : BzLimits} {st st' : State F} {k t : Nat} {s : List Char} (hs : st.mon.At t) (h : loadString lim readF st k s = some st') : st'.mon.At t := by
  unfold loadString at h
  split at h
  · rw [Option.bind_eq_some_iff] at h
    obtain ⟨_, _, h⟩ := h
    split at h <;> cases h; exact hs
  · split at h
    · split at h
      · cases h; exact hs
      · rw [Option.map_eq_some_iff] at h
        obtain ⟨_, _, rfl⟩ := h
        exact hs
    · cases h

theorem loadFrom_at {lim : BzLimits} {t : Nat} : ∀ (fs : List (List Char)) (k : Nat) {st st' : State F}, st.mon.At t → loadFrom lim readF st k fs = some st' →
    st'.mon.At t
  | [], _, _, _, hs, h => by cases h; exact hs
  | f :: fs, k, st, st', hs, h => by
      simp only [loadFrom, Option.bind_eq_some_iff] at h
      obtain ⟨st1, h1, h2⟩ := h
      exact loadFrom_at fs _ (loadString_at hs h1) h2

theorem record_at {lim : BzLimits} {st st' : State F} {t : Nat} {r : List (List Char)} (hr : ∀ f, r.head? = some f → f.head? ≠ some '@') (hs : st.mon.At t)
    (h : record lim readF st r = some st') : st'.mon.At t := by
  unfold record at h
  split at h
  · cases h
  · rw [Option.bind_eq_some_iff] at h
    obtain ⟨st1, h1, h2⟩ := h
    rw [if_neg (hr _ rfl)] at h1
    exact loadFrom_at _ _ (loadString_at hs h1) h2

theorem parseU32_natStr {t : Nat} (h : t < 2 ^ 32) : parseU32 (natStr t) = some t := by
  have hd : digits (natStr t) = some t := by
    unfold digits
    rw [if_neg]
    · exact congrArg some (Map.value_natStr t)
    · rintro (h | h)
      · exact natStr_ne_nil t h
      · rw [List.any_eq_true] at h
        obtain ⟨c, hc, h⟩ := h
        rw [Cli.natStr_isDigit hc] at h
        cases h
  unfold parseU32
  split
  · next w hw =>
    have := Cli.natStr_isDigit (n := t) (c := '+') (by rw [hw]; simp)
    exact absurd this (by decide)
  · rw [hd, Option.bind_some, if_pos h]

theorem idxOf_stamp (t : Nat) (f : List Char) : ('@' :: (natStr t ++ ' ' :: f)).idxOf? ' ' = some ((natStr t).length + 1) := by
  rw [List.idxOf?, List.findIdx?_eq_some_iff_getElem]
  refine ⟨by simp, by simp, ?_⟩
  intro j hj
  cases j with
  | zero => simp
  | succ j =>
    have hj : j < (natStr t).length := by omega
    rw [List.getElem_cons_succ, List.getElem_append_left hj]
    simp only [beq_iff_eq]
    intro h
    exact Cli.natStr_space t (h ▸ List.getElem_mem hj)

theorem record_withStamp {lim : BzLimits} {st : State F} {t : Nat} (ht : t < 2 ^ 32) (hs : st.mon.At t) (r : List (List Char))
    (hr : ∀ f, r.head? = some f → f.head? ≠ some '@') : record lim readF st (withStamp t r) = record lim readF st r := by
  cases r with
  | nil => rfl
  | cons f fs =>
    have hi := idxOf_stamp t f
    have hst : ({ st with mon := { st.mon with tl := { st.mon.tl with time := t }, bz := { st.mon.bz with time := t } } } : State F) = st := by
      obtain ⟨⟨tl, bz, prog⟩, sig⟩ := st
      obtain ⟨h1, h2⟩ := hs
      simp only at h1 h2
      subst h1
      cases bz
      simp only at h2
      subst h2
      rfl
    have e1 : (('@' :: (natStr t ++ ' ' :: f)).take ((natStr t).length + 1)).drop 1 = natStr t := by simp
    have e2 : ('@' :: (natStr t ++ ' ' :: f)).drop ((natStr t).length + 1 + 1) = f := by
      rw [List.drop_succ_cons, List.drop_append]
      simp
    simp only [withStamp, record]
    rw [if_pos (by rfl), if_neg (hr f rfl), hi, Option.getD_some, e1, e2, parseU32_natStr ht]
    simp only [hst]
    rw [if_pos (by simp)]

theorem record_alone {lim : BzLimits} {c : Char} {w : List Char} (hc : ' ' ∉ c :: w) (hw : w.head? ≠ some '@') {fs : List (List Char)} {st : State F} :
    record lim readF st (('@' :: c :: w) :: fs) = record lim readF st (w :: fs) := by
  have hi : ('@' :: c :: w).idxOf? ' ' = none := by
    rw [List.idxOf?, List.findIdx?_eq_none_iff]
    intro x hx
    rw [beq_eq_false_iff_ne]
    rintro rfl
    rcases List.mem_cons.1 hx with h | h
    · exact absurd h (by decide)
    · exact hc h
  have hp : parseU32 [] = none := by decide
  simp only [record]
  rw [if_pos (by rfl), if_neg hw, hi, Option.getD_none]
  simp only [List.take_succ_cons, List.take_zero, List.drop_succ_cons, List.drop_zero, hp]
  rw [if_pos (by simp)]

theorem loop_stamped {lim : BzLimits} {fuel : Nat} {on : Nat → Bool} : ∀ (rows : List (List (List Char))) (t : Nat) (st : State F), Unstamped rows →
    t + rows.length < 2 ^ 32 → st.mon.At t → loop ops lim readF fuel (stamped on t rows) st = loop ops lim readF fuel rows st
  | [], _, _, _, _, _ => rfl
  | r :: rs, t, st, hu, ht, hs => by
      have hr := hu r (by simp)
      simp only [List.length_cons] at ht
      have e : record lim readF st (if on t then withStamp t r else r) = record lim readF st r := by
        split
        · exact record_withStamp (by omega) hs r hr
        · rfl
      simp only [stamped, loop, e]
      refine Option.bind_congr fun st1 h1 => Option.bind_congr fun x h2 => ?_
      rw [loop_stamped rs (t + 1) _ (fun r' h' => hu r' (by simp [h'])) (by omega) (Full.step_at (record_at hr hs h1) (by omega) h2)]

end Tool

namespace Names

theorem loop_stamped {lim : BzLimits} {alim : Lim} {A : Info} {ea dc : Bool} {fuel : Nat} {on : Nat → Bool} : ∀ (rows : List (List (List Char))) (t : Nat)
    (st : Tool.State F), Tool.Unstamped rows → t + rows.length < 2 ^ 32 → st.mon.At t →
    loop ops lim alim A ea dc readF fuel (Tool.stamped on t rows) st = loop ops lim alim A ea dc readF fuel rows st
  | [], _, _, _, _, _ => rfl
  | r :: rs, t, st, hu, ht, hs => by
      have hr := hu r (by simp)
      simp only [List.length_cons] at ht
      have e : Tool.record lim readF st (if on t then Tool.withStamp t r else r) = Tool.record lim readF st r := by
        split
        · exact Tool.record_withStamp (by omega) hs r hr
        · rfl
      simp only [Tool.stamped, loop, e]
      refine Option.bind_congr fun st1 h1 => Option.bind_congr fun x h2 => ?_
      rw [loop_stamped rs (t + 1) _ (fun r' h' => hu r' (by simp [h'])) (by omega) (Full.step_at (Tool.record_at hr hs h1) (by omega) h2)]

end Names
end Rs
end R2U2
