import Verif.Spec.Monitor
/-
The ring buffer of a queue as a window on the list of all verdicts written to it.
-/
namespace R2U2

theorem endOf_nil : endOf [] = 0 := rfl

theorem endOf_append (h : List Verdict) (v : Verdict) : endOf (h ++ [v]) = v.time + 1 := by
  simp [endOf]

def Sorted (h : List Verdict) : Prop := h.Pairwise (fun u v => u.time < v.time)

theorem Sorted.gap {h : List Verdict} (s : Sorted h) {i j : Nat} {u v : Verdict}
    (hi : h[i]? = some u) (hj : h[j]? = some v) (hij : i ≤ j) : u.time + (j - i) ≤ v.time := by
  induction j generalizing v with
  | zero =>
      obtain rfl : i = 0 := by omega
      rw [hi] at hj; cases hj; omega
  | succ j ih =>
      rcases Nat.lt_or_ge j i with hlt | hge
      · obtain rfl : i = j + 1 := by omega
        rw [hi] at hj; cases hj; omega
      · obtain ⟨hj1, hj2⟩ := List.getElem?_eq_some_iff.1 hj
        have hw : h[j]? = some h[j] := List.getElem?_eq_getElem (by omega)
        have := ih hw hge
        have h2 := List.pairwise_iff_getElem.1 s j (j + 1) (by omega) hj1 (by omega)
        rw [hj2] at h2
        omega

theorem lt_endOf {h : List Verdict} (s : Sorted h) {k : Nat} {u : Verdict} (hk : h[k]? = some u) :
    u.time < endOf h := by
  rcases List.eq_nil_or_concat h with rfl | ⟨l, v, rfl⟩
  · simp at hk
  · rw [List.concat_eq_append] at *
    rw [endOf_append]
    have hl : (l ++ [v])[l.length]? = some v := by simp
    have : k ≤ l.length := by
      have := (List.getElem?_eq_some_iff.1 hk).1
      simp at this; omega
    have := s.gap hk hl this
    omega

/-- The queue `c` holds the last `len` entries of `h`. -/
structure Ring (c : Ctrl) (h : List Verdict) : Prop where
  pos : 0 < c.len
  write : c.write = h.length % c.len
  slot : ∀ k v, h[k]? = some v → h.length ≤ k + c.len → c.slots (k % c.len) = some v
  empty : h = [] → c.slots 0 = none

/-- `h'` is `h` with `v` written: appended, or in the place of a last entry of the same
truth. -/
def Ext (h : List Verdict) (v : Verdict) (h' : List Verdict) : Prop :=
  h' = h ++ [v] ∨ ∃ l u, h = l ++ [u] ∧ u.truth = v.truth ∧ h' = l ++ [v]

theorem pred_mod {n len : Nat} (hl : 0 < len) :
    (if (n + 1) % len = 0 then len - 1 else (n + 1) % len - 1) = n % len := by
  have h1 := Nat.div_add_mod n len
  have h2 := Nat.mod_lt n hl
  rcases Nat.lt_or_ge (n % len + 1) len with h | h
  · have : (n + 1) % len = n % len + 1 := by
      rw [Nat.add_mod, Nat.mod_eq_of_lt (a := 1) (by omega), Nat.mod_eq_of_lt h]
    rw [this, if_neg (by omega)]; omega
  · have : (n + 1) % len = 0 := by
      have : n % len = len - 1 := by omega
      rw [show n + 1 = len * (n / len) + len by omega]
      simp
    rw [this, if_pos rfl]; omega

theorem mod_inj {a b len : Nat} (h : a ≤ b) (h2 : b < a + len) (he : a % len = b % len) : a = b := by
  have h1 := Nat.div_add_mod a len
  have h3 := Nat.div_add_mod b len
  rcases Nat.lt_trichotomy (a / len) (b / len) with hl | hl | hl
  · have : len * (a / len) + len ≤ len * (b / len) := by
      have := Nat.mul_le_mul_left len hl
      rw [Nat.mul_succ] at this; exact this
    omega
  · rw [hl] at h1; omega
  · have := Nat.div_le_div_right (c := len) h
    omega

/-- Writing. -/
theorem Ring.push {c : Ctrl} {h : List Verdict} (r : Ring c h) (v : Verdict) :
    ∃ h', Ext h v h' ∧ Ring (c.push v) h' ∧
      (Sorted h → h' = h ++ [v] → h.length < c.len ∨ ∀ u, h.getLast? = some u → u.truth ≠ v.truth) := by
  have hl := r.pos
  rcases List.eq_nil_or_concat h with rfl | ⟨l, u, rfl⟩
  · refine ⟨[v], Or.inl rfl, ?_, fun _ _ => Or.inl hl⟩
    have h0 := r.empty rfl
    have hw : c.write = 0 := by rw [r.write]; simp
    have hp : c.push v = { c with
        slots := fun k => if k = 0 then some v else c.slots k, write := (0 + 1) % c.len } := by
      have hm : ¬ c.merges (if c.write = 0 then c.len - 1 else c.write - 1) := by
        unfold Ctrl.merges
        cases c.lang <;> simp [hw, h0]
      unfold Ctrl.push
      simp only [hm, and_false, if_false]
      rw [hw]
    rw [hp]
    refine ⟨hl, by simp, ?_, by simp⟩
    intro k w hk _
    cases k with
    | zero => simp at hk; subst hk; simp
    | succ k => simp at hk
  · rw [List.concat_eq_append] at *
    have hlast : c.slots (l.length % c.len) = some u :=
      r.slot l.length u (by simp) (by simp; omega)
    have hp : (if c.write = 0 then c.len - 1 else c.write - 1) = l.length % c.len := by
      rw [r.write, List.length_append, List.length_singleton]; exact pred_mod hl
    have key : ∀ w, c.push v = { c with
        slots := fun k => if k = w then some v else c.slots k, write := (w + 1) % c.len } →
        (w = l.length % c.len ∧ u.truth = v.truth) ∨ (w = c.write ∧ (Sorted (l ++ [u]) → l.length + 1 < c.len ∨ u.truth ≠ v.truth)) →
        ∃ h', Ext (l ++ [u]) v h' ∧ Ring (c.push v) h' ∧
          (Sorted (l ++ [u]) → h' = l ++ [u] ++ [v] → (l ++ [u]).length < c.len ∨ ∀ x, (l ++ [u]).getLast? = some x → x.truth ≠ v.truth) := by
      rintro w hw (⟨rfl, ht⟩ | ⟨rfl, hfull⟩)
      · refine ⟨l ++ [v], Or.inr ⟨l, u, rfl, ht, rfl⟩, ?_, fun _ h => by
          have := congrArg List.length h
          simp at this⟩
        rw [hw]
        refine ⟨hl, by simp, ?_, by simp⟩
        intro k w hk hk2
        simp only [List.length_append, List.length_singleton] at hk2
        have hkl : k ≤ l.length := by
          have := (List.getElem?_eq_some_iff.1 hk).1
          simp at this; omega
        rcases Nat.lt_or_ge k l.length with hlt | hge
        · have hne : k % c.len ≠ l.length % c.len := fun he => by
            have := mod_inj (by omega) (by show l.length < k + c.len; exact hk2) he
            omega
          simp only [if_neg hne]
          rw [List.getElem?_append_left hlt] at hk
          exact r.slot k w (by rw [List.getElem?_append_left hlt]; exact hk)
            (by simp only [List.length_append, List.length_singleton]; exact hk2)
        · obtain rfl : k = l.length := by omega
          simp at hk; subst hk; simp
      · refine ⟨l ++ [u] ++ [v], Or.inl rfl, ?_, fun hs _ => ?_⟩
        rotate_left
        · rcases hfull hs with h | h
          · left; simpa using h
          · right; intro x hx; simp at hx; rw [← hx]; exact h
        rw [hw]
        refine ⟨hl, ?_, ?_, by simp⟩
        · simp only [r.write, List.length_append, List.length_singleton]
          rw [Nat.add_mod, Nat.mod_mod, ← Nat.add_mod]
        intro k w hk hk2
        simp only [List.length_append, List.length_singleton] at hk2
        have hkl : k ≤ l.length + 1 := by
          have := (List.getElem?_eq_some_iff.1 hk).1
          simp at this; omega
        rcases Nat.lt_or_ge k (l.length + 1) with hlt | hge
        · have hne : k % c.len ≠ c.write := fun he => by
            rw [r.write, List.length_append, List.length_singleton] at he
            have := mod_inj (by omega) (by show l.length + 1 < k + c.len; exact hk2) he
            omega
          simp only [if_neg hne]
          rw [List.getElem?_append_left (by simpa using hlt)] at hk
          exact r.slot k w hk (by simp only [List.length_append, List.length_singleton]; omega)
        · obtain rfl : k = l.length + 1 := by omega
          have : w = v := by
            rw [List.getElem?_append_right (by simp)] at hk
            simp at hk; exact hk.symm
          subst this
          have : (l.length + 1) % c.len = c.write := by rw [r.write]; simp
          simp [this]
    by_cases hc : ((c.slots (l.length % c.len)).getD c.lang.inf).truth = v.truth ∧ c.merges (l.length % c.len)
    · refine key (l.length % c.len) ?_ (Or.inl ⟨rfl, ?_⟩)
      · unfold Ctrl.push; simp only [hp, if_pos hc]
      · rw [hlast] at hc; exact hc.1
    · have hpush : c.push v = { c with
          slots := fun k => if k = c.write then some v else c.slots k, write := (c.write + 1) % c.len } := by
        unfold Ctrl.push; simp only [hp, if_neg hc]
      have hwr : c.write = (l.length + 1) % c.len := by rw [r.write]; simp
      by_cases ht : u.truth = v.truth
      · rcases Nat.lt_or_ge (l.length + 1) c.len with hlt | hge
        · exact key c.write hpush (Or.inr ⟨rfl, fun _ => Or.inl hlt⟩)
        · -- a full ring
          rcases Nat.lt_or_ge 1 c.len with h1 | h1
          · refine key c.write hpush (Or.inr ⟨rfl, fun hs => ?_⟩)
            exfalso
            have hb : l.length + 1 - c.len < (l ++ [u]).length := by simp; omega
            have hk : (l ++ [u])[l.length + 1 - c.len]? = some ((l ++ [u])[l.length + 1 - c.len]'hb) :=
              List.getElem?_eq_getElem hb
            have hold := r.slot _ _ hk (by simp; omega)
            have he : (l.length + 1 - c.len) % c.len = c.write := by
              rw [hwr]
              have h2 := Nat.add_mod_right (l.length + 1 - c.len) c.len
              rw [show l.length + 1 - c.len + c.len = l.length + 1 by omega] at h2
              exact h2.symm
            rw [he] at hold
            have hgap := hs.gap hk (j := l.length) (v := u) (by simp) (by omega)
            refine hc ⟨by rw [hlast]; exact ht, ?_⟩
            unfold Ctrl.merges
            rw [hlast, hold]
            cases c.lang with
            | rust => simp
            | c =>
                refine ⟨?_, by simp⟩
                intro heq
                rw [← Option.some.inj heq] at hgap
                omega
          · have : c.len = 1 := by omega
            refine key (l.length % c.len) ?_ (Or.inl ⟨rfl, ht⟩)
            have h2 : l.length % c.len = c.write := by rw [hwr, this, Nat.mod_one, Nat.mod_one]
            rw [h2]; exact hpush
      · exact key c.write hpush (Or.inr ⟨rfl, fun _ => Or.inr ht⟩)

theorem push_len (c : Ctrl) (v : Verdict) : (c.push v).len = c.len := rfl

/-- A read pointer: it stands at an entry still in the ring, everything before it is
older than `n`; and either everything is older than `n` or the entry it stands at
satisfies `P`. -/
def Ptr (len : Nat) (h : List Verdict) (n r : Nat) (P : Nat → Prop) : Prop :=
  (h = [] ∧ r = 0) ∨ ∃ ρ u, h[ρ]? = some u ∧ h.length ≤ ρ + len ∧ r = ρ % len ∧
    (∀ k w, k < ρ → h[k]? = some w → w.time < n) ∧ (endOf h ≤ n ∨ P u.time)

theorem Ptr.mono {len : Nat} {h : List Verdict} {n n' r : Nat} {P P' : Nat → Prop}
    (p : Ptr len h n r P) (hn : n ≤ n') (hP : ∀ u, P u → P' u ∨ endOf h ≤ n') : Ptr len h n' r P' := by
  rcases p with ⟨h1, h2⟩ | ⟨ρ, u, h1, h2, h3, h4, h5⟩
  · exact Or.inl ⟨h1, h2⟩
  · refine Or.inr ⟨ρ, u, h1, h2, h3, fun k w hk hw => Nat.lt_of_lt_of_le (h4 k w hk hw) hn, ?_⟩
    rcases h5 with h5 | h5
    · exact Or.inl (by omega)
    · exact (hP _ h5).symm

theorem Ext.endOf {h h' : List Verdict} {v : Verdict} (e : Ext h v h') : endOf h' = v.time + 1 := by
  rcases e with rfl | ⟨l, u, _, _, rfl⟩ <;> exact endOf_append _ _

theorem Ext.sorted {h h' : List Verdict} {v : Verdict} (e : Ext h v h') (s : Sorted h)
    (hv : R2U2.endOf h ≤ v.time) : Sorted h' := by
  have key : ∀ l : List Verdict, (∀ u ∈ l, u ∈ h) → Sorted l → Sorted (l ++ [v]) := by
    intro l hl sl
    refine List.pairwise_append.2 ⟨sl, List.pairwise_singleton _ _, ?_⟩
    intro u hu w hw
    simp only [List.mem_singleton] at hw
    subst hw
    obtain ⟨k, hk⟩ := List.getElem?_of_mem (hl u hu)
    have := lt_endOf s hk
    omega
  rcases e with rfl | ⟨l, u, rfl, _, rfl⟩
  · exact key h (fun _ h => h) s
  · exact key l (fun _ h => List.mem_append_left _ h) (List.pairwise_append.1 s).1

theorem Answers.ext {V : Nat → Prop} {h h' : List Verdict} {v : Verdict} (e : Ext h v h')
    (a : Answers V h) (hv : R2U2.endOf h ≤ v.time)
    (hV : ∀ s, R2U2.endOf h ≤ s → s ≤ v.time → (V s ↔ v.truth = true)) : Answers V h' := by
  refine ⟨e.sorted a.sorted hv, ?_⟩
  rcases e with rfl | ⟨l, u, rfl, ht, rfl⟩
  · intro k w s hk hlt hs
    rcases Nat.lt_or_ge k h.length with hlt' | hge
    · rw [List.getElem?_append_left hlt'] at hk
      exact a.value k w s hk (fun j u hj hu => hlt j u hj
        (by rw [List.getElem?_append_left (by omega)]; exact hu)) hs
    · have : k = h.length := by
        have := (List.getElem?_eq_some_iff.1 hk).1
        simp at this; omega
      subst this
      simp at hk; subst hk
      refine hV s ?_ hs
      rcases List.eq_nil_or_concat h with rfl | ⟨l, u, rfl⟩
      · exact Nat.zero_le _
      · rw [List.concat_eq_append] at *
        rw [endOf_append]
        exact hlt l.length u (by simp) (by simp)
  · intro k w s hk hlt hs
    rcases Nat.lt_or_ge k l.length with hlt' | hge
    · rw [List.getElem?_append_left hlt'] at hk
      exact a.value k w s (by rw [List.getElem?_append_left hlt']; exact hk)
        (fun j u hj hu => hlt j u hj (by
          rw [List.getElem?_append_left (by omega)] at hu ⊢; exact hu)) hs
    · have : k = l.length := by
        have := (List.getElem?_eq_some_iff.1 hk).1
        simp at this; omega
      subst this
      simp at hk; subst hk
      rw [endOf_append] at hV
      rcases Nat.lt_or_ge u.time s with h1 | h1
      · exact hV s h1 hs
      · rw [← ht]
        exact a.value l.length u s (by simp) (fun j x hj hx => hlt j x hj (by
          rw [List.getElem?_append_left (by omega)] at hx ⊢; exact hx)) h1

/-- A write keeps a read pointer in order, if the ring has room for it. -/
theorem Ptr.push {len : Nat} {h h' : List Verdict} {n r : Nat} {P : Nat → Prop} {v : Verdict}
    (hl : 0 < len) (p : Ptr len h n r P) (s : Sorted h) (e : Ext h v h') (hv : R2U2.endOf h ≤ v.time)
    (hfull : h' = h ++ [v] → h.length < len ∨ ∀ u, h.getLast? = some u → u.truth ≠ v.truth)
    (hroom : ∀ T w, P T → h.getLast? = some w → w.truth ≠ v.truth → w.time + 1 < T + len) :
    Ptr len h' n r (fun _ => True) := by
  rcases p with ⟨rfl, rfl⟩ | ⟨ρ, u, h1, h2, h3, h4, h5⟩
  · have : h' = [v] := by
      rcases e with rfl | ⟨l, u, hl, _⟩
      · rfl
      · simp at hl
    subst this
    exact Or.inr ⟨0, v, rfl, by simp; omega, by simp, by simp, Or.inr trivial⟩
  · have hρ := (List.getElem?_eq_some_iff.1 h1).1
    rcases e with rfl | ⟨l, x, rfl, _, rfl⟩
    · rcases Nat.lt_or_ge h.length (ρ + len) with hlt | hge
      · refine Or.inr ⟨ρ, u, by rw [List.getElem?_append_left hρ]; exact h1, by simp; omega, h3, ?_, Or.inr trivial⟩
        intro k w hk hw
        rw [List.getElem?_append_left (by omega)] at hw
        exact h4 k w hk hw
      · have he : h.length = ρ + len := by omega
        rcases h5 with h5 | h5
        · refine Or.inr ⟨h.length, v, by simp, by simp; omega, by rw [h3, he]; simp, ?_, Or.inr trivial⟩
          intro k w hk hw
          rw [List.getElem?_append_left (by omega)] at hw
          have := lt_endOf s hw
          omega
        · exfalso
          have hlast : h[h.length - 1]? = some h[h.length - 1] := List.getElem?_eq_getElem (by omega)
          have g1 := s.gap h1 hlast (by omega)
          have g2 := lt_endOf s hlast
          have hne := (hfull rfl).resolve_left (by omega) h[h.length - 1] (by
            rw [List.getLast?_eq_getElem?]; exact hlast)
          have := hroom _ _ h5 (by rw [List.getLast?_eq_getElem?]; exact hlast) hne
          omega
    · simp only [List.length_append, List.length_singleton] at hρ h2
      rcases Nat.lt_or_ge ρ l.length with hlt | hge
      · refine Or.inr ⟨ρ, u, by rw [List.getElem?_append_left hlt] at h1 ⊢; exact h1, by simp; omega, h3, ?_,
          Or.inr trivial⟩
        intro k w hk hw
        rw [List.getElem?_append_left (by omega)] at hw
        exact h4 k w hk (by rw [List.getElem?_append_left (by omega)]; exact hw)
      · obtain rfl : ρ = l.length := by omega
        refine Or.inr ⟨l.length, v, by simp, by simp; omega, h3, ?_, Or.inr trivial⟩
        intro k w hk hw
        rw [List.getElem?_append_left (by omega)] at hw
        exact h4 k w hk (by rw [List.getElem?_append_left (by omega)]; exact hw)

theorem scan_spec {c : Ctrl} {h : List Verdict} (R : Ring c h) (s : Sorted h) (n : Nat) :
    ∀ d ρ fuel u, ρ + d = h.length → h[ρ]? = some u → h.length ≤ ρ + c.len → d < fuel →
      (∀ k w, k < ρ → h[k]? = some w → w.time < n) →
      ∃ r' res, scan c.lang.inf c.slots c.len c.write n fuel (ρ % c.len) = some (r', res) ∧
        ∃ ρ' u', h[ρ']? = some u' ∧ h.length ≤ ρ' + c.len ∧ r' = ρ' % c.len ∧
          (∀ k w, k < ρ' → h[k]? = some w → w.time < n) ∧
          ((res = some u' ∧ n ≤ u'.time) ∨ (res = none ∧ endOf h ≤ n ∧ ρ' + 1 = h.length)) := by
  intro d
  induction d with
  | zero =>
      intro ρ fuel u h1 h2
      have := (List.getElem?_eq_some_iff.1 h2).1
      omega
  | succ d ih =>
      intro ρ fuel u h1 h2 h3 h4 h5
      obtain ⟨f, rfl⟩ : ∃ f, fuel = f + 1 := ⟨fuel - 1, by omega⟩
      have hs := R.slot ρ u h2 h3
      simp only [scan, hs, Option.getD_some]
      by_cases hn : n ≤ u.time
      · rw [if_pos hn]
        exact ⟨_, _, rfl, ρ, u, h2, h3, rfl, h5, Or.inl ⟨rfl, hn⟩⟩
      · rw [if_neg hn]
        have hr : (ρ % c.len + 1) % c.len = (ρ + 1) % c.len := by
          rw [Nat.add_mod, Nat.mod_mod, ← Nat.add_mod]
        rw [hr]
        have hstep : ∀ k w, k < ρ + 1 → h[k]? = some w → w.time < n := by
          intro k w hk hw
          rcases Nat.lt_or_ge k ρ with hlt | hge
          · exact h5 k w hlt hw
          · obtain rfl : k = ρ := by omega
            rw [h2] at hw; cases hw; omega
        by_cases hw : (ρ + 1) % c.len = c.write
        · rw [if_pos hw, pred_mod R.pos]
          have heq : ρ + 1 = h.length := by
            have hρ := (List.getElem?_eq_some_iff.1 h2).1
            rw [R.write] at hw
            exact mod_inj (by omega) (by have := R.pos; omega) hw
          refine ⟨_, _, rfl, ρ, u, h2, h3, rfl, h5, Or.inr ⟨rfl, ?_, heq⟩⟩
          rcases List.eq_nil_or_concat h with rfl | ⟨l, x, rfl⟩
          · simp at h2
          · rw [List.concat_eq_append] at *
            rw [endOf_append]
            have := hstep l.length x (by simp at heq; omega) (by simp)
            omega
        · rw [if_neg hw]
          have hne : ρ + 1 < h.length := by
            rcases Nat.lt_or_ge (ρ + 1) h.length with hlt | hge
            · exact hlt
            · have hρ := (List.getElem?_eq_some_iff.1 h2).1
              exact absurd (by rw [R.write]; congr 1; omega) hw
          exact ih (ρ + 1) f h[ρ + 1] (by omega) (List.getElem?_eq_getElem hne) (by omega) (by omega) hstep

/-- Reading: the first entry not older than `n`, if there is one. -/
theorem Ring.read {c : Ctrl} {h : List Verdict} (R : Ring c h) (s : Sorted h) {n r : Nat}
    {P : Nat → Prop} (p : Ptr c.len h n r P) :
    ∃ r' res, c.read r n = some (r', res) ∧ Ptr c.len h n r' (fun T => n ≤ T) ∧
      ((∃ (v : Verdict) (k : Nat), res = some v ∧ n ≤ v.time ∧ v.time < endOf h ∧ h[k]? = some v ∧
          ∀ (j : Nat) (u : Verdict), j < k → h[j]? = some u → u.time < n) ∨
        (res = none ∧ endOf h ≤ n)) := by
  rcases p with ⟨rfl, rfl⟩ | ⟨ρ, u, h1, h2, h3, h4, _⟩
  · refine ⟨0, none, ?_, Or.inl ⟨rfl, rfl⟩, Or.inr ⟨rfl, Nat.zero_le _⟩⟩
    simp [Ctrl.read, R.empty rfl]
  · have hρ := (List.getElem?_eq_some_iff.1 h1).1
    have hs := R.slot ρ u h1 h2
    have hr : c.read r n = scan c.lang.inf c.slots c.len c.write n (c.len + 1) r := by
      simp [Ctrl.read, h3, hs]
    obtain ⟨r', res, e1, ρ', u', e2, e3, e4, e5, e6⟩ :=
      scan_spec R s n (h.length - ρ) ρ (c.len + 1) u (by omega) h1 h2 (by omega) h4
    refine ⟨r', res, by rw [hr, h3]; exact e1, ?_, ?_⟩
    · refine Or.inr ⟨ρ', u', e2, e3, e4, e5, ?_⟩
      rcases e6 with ⟨_, h⟩ | ⟨_, h⟩
      · exact Or.inr h
      · exact Or.inl h.1
    · rcases e6 with ⟨rfl, h⟩ | ⟨rfl, h⟩
      · exact Or.inl ⟨u', ρ', rfl, h, lt_endOf s e2, e2, e5⟩
      · exact Or.inr ⟨rfl, h.1⟩

end R2U2
