import Verif.Lemmas.Step
/-
Passes, time steps and runs.
-/
namespace R2U2
open Setup

theorem operand_in {S : Setup} (ok : S.Ok) (i : Nat) (r : TlRec) (k : Bool) (c : Nat) (hr : S.prog[i]? = some r)
    (ho : S.own i) (hk : r.arg k = some (.sub c)) : ∃ s, S.prog[c]? = some s := by
  have h1 : c < i := by
    rcases ok.handled i r hr ho with h | h <;> exact h.2.1 k c hk
  have h2 := (List.getElem?_eq_some_iff.1 hr).1
  exact ⟨S.prog[c]'(by omega), List.getElem?_eq_some_iff.2 ⟨by omega, rfl⟩⟩

theorem drop_cons {α : Type} {l : List α} {pc : Nat} {x : α} {xs : List α} (h : l.drop pc = x :: xs) :
    l[pc]? = some x ∧ l.drop (pc + 1) = xs := by
  constructor
  · have := congrArg (·[0]?) h
    simpa using this
  · have := congrArg (List.drop 1) h
    simpa [List.drop_drop] using this

theorem pass_safe {S : Setup} (ok : S.Ok) {tr : Nat → Nat → Bool} {V : Nat → Nat → Prop} (hV : Means S tr V)
    {t : Nat} {late : Bool} : ∀ (is : List TlRec) (pc : Nat) (m m' : Mon) (h : Nat → List Verdict),
    S.prog.drop pc = is → Inv S tr V t late pc m h → Mon.pass is m = some m' →
      ∃ h', Inv S tr V t late (pc + is.length) m' h' := by
  intro is
  induction is with
  | nil => rintro pc m m' h _ inv hp; cases hp; exact ⟨h, inv⟩
  | cons r is ih =>
      intro pc m m' h hd inv hp
      obtain ⟨hr, hd'⟩ := drop_cons hd
      simp only [Mon.pass, Option.bind_eq_some_iff] at hp
      obtain ⟨m1, hu, hp⟩ := hp
      have key : ∃ h1, Inv S tr V t late (pc + 1) m1 h1 := by
        by_cases ho : S.own pc
        · obtain ⟨m2, h2, e1, e2, _⟩ := step_own ok hV (operand_in ok) inv hr ho
          rw [hu] at e1; cases e1
          exact ⟨h2, e2⟩
        · exact ⟨h, step_foreign ok inv hr ho hu⟩
      obtain ⟨h1, inv1⟩ := key
      obtain ⟨h', inv'⟩ := ih (pc + 1) m1 m' h1 hd' inv1 hp
      refine ⟨h', ?_⟩
      rw [List.length_cons]
      rwa [show pc + (is.length + 1) = pc + 1 + is.length by omega]

theorem pass_total {S : Setup} (ok : S.Ok) (all : ∀ i, i < S.prog.length → S.own i)
    {tr : Nat → Nat → Bool} {V : Nat → Nat → Prop} (hV : Means S tr V)
    {t : Nat} {late : Bool} : ∀ (is : List TlRec) (pc : Nat) (m : Mon) (h : Nat → List Verdict),
    S.prog.drop pc = is → Inv S tr V t late pc m h →
      ∃ m' h', Mon.pass is m = some m' ∧ Inv S tr V t late (pc + is.length) m' h' ∧
        (∀ j, endOf (h j) ≤ endOf (h' j)) ∧
        (m'.progress ≠ m.progress → ∃ i, i < S.prog.length ∧ endOf (h i) < endOf (h' i)) := by
  intro is
  induction is with
  | nil => intro pc m h _ inv; exact ⟨m, h, rfl, inv, fun _ => Nat.le_refl _, fun hne => absurd rfl hne⟩
  | cons r is ih =>
      intro pc m h hd inv
      obtain ⟨hr, hd'⟩ := drop_cons hd
      have hlt := (List.getElem?_eq_some_iff.1 hr).1
      obtain ⟨m1, h1, e1, e2, e3, e4, _⟩ := step_own ok hV (operand_in ok) inv hr (all pc hlt)
      obtain ⟨m2, h2, f1, f2, f3, f4⟩ := ih (pc + 1) m1 h1 hd' e2
      refine ⟨m2, h2, ?_, ?_, fun j => Nat.le_trans (e3 j) (f3 j), fun hne => ?_⟩
      · simp only [Mon.pass, e1, Option.bind_some, f1]
      · rw [List.length_cons]
        rwa [show pc + (is.length + 1) = pc + 1 + is.length by omega]
      · by_cases h1e : m1.progress = m.progress
        · obtain ⟨i, hi, hlt⟩ := f4 (by rw [h1e]; exact hne)
          exact ⟨i, hi, Nat.lt_of_le_of_lt (e3 i) hlt⟩
        · exact ⟨pc, hlt, Nat.lt_of_lt_of_le (e4 h1e) (f3 pc)⟩

theorem in_prog {S : Setup} {i : Nat} {r : TlRec} (h : S.prog[i]? = some r) : i < S.prog.length :=
  (List.getElem?_eq_some_iff.1 h).1

/-- The end of a pass that is followed by another one. -/
theorem end_pass {S : Setup} {tr : Nat → Nat → Bool} {V : Nat → Nat → Prop} {t : Nat} {late : Bool} {m : Mon}
    {h : Nat → List Verdict} (inv : Inv S tr V t late S.prog.length m h) :
    Inv S tr V t true 0 { m with progress := .reloop } h := by
  refine ⟨inv.time, by simp, fun h => (by cases h), ?_, ?_⟩
  · intro i r hr ho
    have nd := inv.node i r hr ho
    have hd : dn late S.prog.length i = dn true 0 i := by
      unfold dn
      rw [if_pos (Or.inr (in_prog hr)), if_pos (Or.inl rfl)]
    exact ⟨nd.len, nd.lb, nd.ub, nd.ring, nd.ans, nd.own, nd.past, nd.pedge, hd ▸ nd.started, nd.early, nd.change, hd ▸ nd.fast,
      hd ▸ nd.bound, hd ▸ nd.load, nd.ret⟩
  · intro p r hr ho k c hk
    have ed := inv.edge p r hr ho k c hk
    have hp := in_prog hr
    have hmode : ¬ (c < S.prog.length ∧ S.prog.length ≤ p) := by omega
    refine ⟨fun h => by omega, fun h => by omega, fun _ => ?_, fun _ => ed.drained hmode,
      fun hf _ => ed.done hf (Or.inr hp), fun hps _ => ?_, fun _ h => by omega, fun _ _ h => by omega⟩
    · refine (ed.read hmode).mono (Nat.le_refl _) fun T hT => Or.inl ?_
      obtain ⟨h1, h0, h2⟩ := hT
      exact ⟨h1, fun _ h => (by omega), fun ht _ => ⟨fun h => (by cases h), fun _ h => (by omega)⟩⟩
    · rcases ed.pastR hps hmode with h | h | ⟨h1, h2, h3⟩
      · exact Or.inl h
      · exact Or.inr (Or.inl h)
      · exact Or.inr (Or.inr ⟨h1, h2, Or.inl rfl⟩)

/-- The end of a time step. -/
theorem end_step {S : Setup} (ok : S.Ok) {tr : Nat → Nat → Bool} {V : Nat → Nat → Prop} {t : Nat} {m : Mon}
    {h : Nat → List Verdict} (inv : Inv S tr V t true S.prog.length m h) (hp : m.progress = .reloop) :
    Inv S tr V (t + 1) false 0 { m with time := m.time + 1, progress := .first, atoms := tr (t + 1) } h := by
  refine ⟨by simp [inv.time], by simp, fun _ => rfl, ?_, ?_⟩
  · intro i r hr ho
    have nd := inv.node i r hr ho
    have hd : t + dn true S.prog.length i = t + 1 + dn false 0 i := by
      unfold dn
      rw [if_pos (Or.inl rfl), if_neg (by simp)]
    refine ⟨nd.len, nd.lb, nd.ub, nd.ring, nd.ans, nd.own, nd.past, fun hps ht => ?_, hd ▸ nd.started,
      fun u hu => ?_, fun s hs hne => ?_, ?_, hd ▸ nd.bound, hd ▸ nd.load, nd.ret⟩
    · have : ((m.ctrl i).edge.time : Int) + S.argB (r.arg true) ≤ t := nd.pedge hps ht
      simp only []
      omega
    · have := nd.early u hu
      omega
    · have := nd.change s hs hne
      omega
    · have hfast := nd.fast
      cases hps : r.past with
      | false =>
          rw [hps] at hfast
          simp only [Bool.false_eq_true, if_false] at hfast ⊢
          exact hd ▸ hfast
      | true =>
          simp only [if_true]
          have hf : r.Past i := by
            rcases ok.handled i r hr ho with hf | hf
            · have := hf.notPast; rw [hps] at this; cases this
            · exact hf
          obtain ⟨c, hc⟩ := hf.2.2.1
          rcases (inv.edge i r hr ho true c hc).pastE hps rfl (in_prog hr) hp with h1 | h1
          · obtain ⟨s, hs⟩ := operand_in ok i r true c hr ho hc
            have hb := (inv.node c s hs (ok.closed i r hr ho true c hc)).bound
            have hw := argW_le S r true
            rw [hc] at hw
            simp only [argW] at hw
            unfold dn at hb
            rw [if_pos (Or.inl rfl)] at hb
            omega
          · omega
  · intro p r hr ho k c hk
    have ed := inv.edge p r hr ho k c hk
    have hpl := in_prog hr
    have hmode : ¬ (c < S.prog.length ∧ S.prog.length ≤ p) := by omega
    refine ⟨fun h => by omega, fun h => by omega, fun _ => ?_, fun _ => ed.drained hmode, fun _ h => ?_, fun hps _ => ?_,
      fun _ h => by omega, fun _ h => by cases h⟩
    · refine (ed.read hmode).mono (Nat.le_refl _) fun T hT => Or.inl ?_
      obtain ⟨h1, h0, h2⟩ := hT
      exact ⟨h0 rfl hpl hp, fun h => (by cases h), fun ht hn => ⟨fun _ _ => (h2 ht hn).2 rfl hpl hp, fun h => by cases h⟩⟩
    · rcases h with h | h
      · cases h
      · omega
    · rcases ed.pastE hps rfl hpl hp with h | h
      · exact Or.inr (Or.inl h)
      · exact Or.inl (by simp only []; omega)

theorem loop_safe {S : Setup} (ok : S.Ok) {tr : Nat → Nat → Bool} {V : Nat → Nat → Prop} (hV : Means S tr V)
    {t : Nat} : ∀ (fuel : Nat) (late : Bool) (m m' : Mon) (h : Nat → List Verdict),
    Inv S tr V t late 0 m h → Mon.loop S.prog fuel m = some m' →
      ∃ h', Inv S tr V (t + 1) false 0 { m' with atoms := tr (t + 1) } h' ∧
        ∀ (i : Nat) (r : TlRec), S.prog[i]? = some r → S.own i → ∀ u ∈ h' i, (u.time : Int) + S.B i ≤ t := by
  intro fuel
  induction fuel with
  | zero => intro late m m' h _ hl; cases hl
  | succ n ih =>
      intro late m m' h inv hl
      simp only [Mon.loop] at hl
      cases hp : Mon.pass S.prog m with
      | none => rw [hp] at hl; cases hl
      | some m1 =>
          rw [hp] at hl
          simp only at hl
          obtain ⟨h1, inv1⟩ := pass_safe ok hV S.prog 0 m m1 h (by simp) inv hp
          rw [Nat.zero_add] at inv1
          cases hpr : m1.progress with
          | first => rw [hpr] at hl; exact ih true _ _ h1 (end_pass inv1) hl
          | again => rw [hpr] at hl; exact ih true _ _ h1 (end_pass inv1) hl
          | reloop =>
              rw [hpr] at hl
              simp only [Option.some.injEq] at hl
              subst hl
              have hlate : late = true := by
                cases late with
                | true => rfl
                | false => have := inv1.prog.2 rfl; rw [this] at hpr; cases hpr
              subst hlate
              exact ⟨h1, end_step ok inv1 hpr, fun i r hr ho => (inv1.node i r hr ho).early⟩

theorem init_inv {S : Setup} (ok : S.Ok) (tr : Nat → Nat → Bool) (V : Nat → Nat → Prop) :
    Inv S tr V 0 false 0 { Mon.init S.prog S.len S.lb S.ub S.lang with atoms := tr 0 } (fun _ => []) := by
  refine ⟨rfl, by simp [Mon.init], fun _ => rfl, ?_, ?_⟩
  · intro i r hr ho
    have hop : (S.prog[i]?.bind TlRec.opcode) = r.opcode := by rw [hr]; rfl
    refine ⟨rfl, rfl, rfl, ?_, ⟨List.Pairwise.nil, by simp⟩, ?_, fun _ => ?_, fun _ h => ?_, fun _ h => ?_,
      by simp, fun s h => by simp [endOf] at h, by simp [dn], by simp [dn], ?_, fun _ => rfl⟩
    · intro _
      exact ⟨ok.pos i ho, (Nat.zero_mod _).symm, by simp, fun _ => rfl⟩
    · have hint := ok.interval i r hr ho
      simp only [Mon.init, Ctrl.init, hop]
      unfold ownOf
      unfold TlRec.temporal at hint
      cases h : r.opcode with
      | none => simp [ownPlain, endOf]
      | some o =>
          rw [h] at hint
          cases o
          case «until» => simp [ownUntil, endOf, hint (Or.inl rfl)]; intros; omega
          case release => simp [ownUntil, endOf, hint (Or.inl rfl)]; intros; omega
          all_goals simp [ownPlain, endOf]
    · rename_i hps
      have hnext : (Ctrl.init (S.prog[i]?.bind TlRec.opcode) (S.len i) (S.lb i) (S.ub i) S.lang).next = 0 := by
        rw [hop]
        unfold TlRec.past at hps
        simp only [Ctrl.init]
        rw [if_neg]
        rintro (h | h) <;> simp [h] at hps
      simp only [Mon.init, hnext]
      exact ⟨fun _ => ⟨rfl, rfl, rfl, rfl⟩, fun h => by simp [Ctrl.init] at h, fun h => by simp [Ctrl.init] at h, fun _ s hs => by omega⟩
    · simp [Mon.init, Ctrl.init] at h
    · simp [dn] at h
    · intro h
      simp only [Mon.init, Ctrl.init, hop, h, dn]
      simp
  · intro p r hr ho k c hk
    refine ⟨fun h => by omega, fun h => by omega, fun _ => Or.inl ⟨rfl, ?_⟩, fun _ _ => by simp [endOf], fun _ _ => by simp [endOf],
      fun _ _ => Or.inr (Or.inl (by simp [endOf])), fun _ h => by omega, fun _ h => by cases h⟩
    unfold rdp
    split <;> rfl

theorem run_safe {S : Setup} (ok : S.Ok) {tr : Nat → Nat → Bool} {V : Nat → Nat → Prop} (hV : Means S tr V)
    (fuel : Nat) : ∀ (k : Nat) (m : Mon),
    Mon.run S.prog fuel tr k (Mon.init S.prog S.len S.lb S.ub S.lang) = some m →
      ∃ h, Inv S tr V k false 0 { m with atoms := tr k } h ∧
        ∀ (i : Nat) (r : TlRec), S.prog[i]? = some r → S.own i → ∀ u ∈ h i, (u.time : Int) + S.B i < k := by
  intro k
  induction k with
  | zero =>
      intro m hm
      cases hm
      exact ⟨_, init_inv ok tr V, by simp⟩
  | succ k ih =>
      intro m hm
      simp only [Mon.run, Option.bind_eq_some_iff] at hm
      obtain ⟨m1, h1, h2⟩ := hm
      obtain ⟨h, inv, _⟩ := ih m1 h1
      obtain ⟨h', inv', he⟩ := loop_safe ok hV fuel false _ m h inv h2
      exact ⟨h', inv', fun i r hr ho u hu => by have := he i r hr ho u hu; omega⟩

/-! ### There is a meaning -/

theorem argOf_congr {V V' : Nat → Nat → Prop} {r : TlRec} {i : Nat} (hf : ∀ k c, r.arg k = some (.sub c) → c < i)
    (hv : ∀ c, c < i → V c = V' c) (hl : r.opcode ≠ some .load) :
    argOf V r.t1 r.v1 = argOf V' r.t1 r.v1 ∧ (r.binary = true → argOf V r.t2 r.v2 = argOf V' r.t2 r.v2) := by
  have h := hf
  constructor
  · funext t
    unfold argOf
    split
    · rfl
    · rename_i h1
      have := h false r.v1 (by simp [TlRec.arg, h1])
      rw [hv _ this]
    · rfl
  · intro hb
    funext t
    unfold argOf
    split
    · rfl
    · rename_i h1
      have := h true r.v2 (by simp [TlRec.arg, hb, h1])
      rw [hv _ this]
    · rfl

theorem holds_congr {V V' : Nat → Nat → Prop} {r : TlRec} {i lb ub : Nat} {tr : Nat → Nat → Bool} (hf : ∀ k c, r.arg k = some (.sub c) → c < i)
    (hv : ∀ c, c < i → V c = V' c) (t : Nat) : r.holds lb ub tr V t ↔ r.holds lb ub tr V' t := by
  unfold TlRec.holds
  have key := argOf_congr hf hv
  cases hop : r.opcode with
  | none => exact Iff.rfl
  | some o =>
      rw [hop] at key
      cases o <;> first
        | exact Iff.rfl
        | (obtain ⟨e1, e2⟩ := key (by simp)
           simp only [TlRec.binary, hop] at e2
           first
             | (rw [e1, e2 trivial])
             | (simp only []; rw [e1]))

/-- Meanings of the first `n` instructions. -/
def meanings (S : Setup) (tr : Nat → Nat → Bool) : Nat → Nat → Nat → Prop
  | 0 => fun _ _ => False
  | n + 1 => fun i t =>
      if i = n then
        match S.prog[i]? with
        | some r => r.holds (S.lb i) (S.ub i) tr (meanings S tr n) t
        | none => False
      else meanings S tr n i t

theorem meanings_stable (S : Setup) (tr : Nat → Nat → Bool) (i : Nat) : ∀ n, i < n → meanings S tr n i = meanings S tr (i + 1) i := by
  intro n
  induction n with
  | zero => intro h; omega
  | succ n ih =>
      intro h
      by_cases hi : i = n
      · subst hi; rfl
      · rw [← ih (by omega)]
        funext t
        show (if i = n then _ else meanings S tr n i t) = _
        rw [if_neg hi]

theorem exists_means {S : Setup} (ok : S.Ok) (tr : Nat → Nat → Bool) : ∃ V, Means S tr V := by
  refine ⟨fun i => meanings S tr (i + 1) i, ?_⟩
  intro i r hr ho t
  show (if i = i then _ else _) ↔ _
  rw [if_pos rfl, hr]
  refine holds_congr (fun k c hk => ?_) (fun c hc => meanings_stable S tr c i hc) t
  rcases ok.handled i r hr ho with h | h <;> exact h.2.1 k c hk

/-! ### The loop ends -/

def sumTo (f : Nat → Nat) : Nat → Nat
  | 0 => 0
  | n + 1 => sumTo f n + f n

theorem sumTo_le {f g : Nat → Nat} {n : Nat} (h : ∀ i, i < n → f i ≤ g i) : sumTo f n ≤ sumTo g n := by
  induction n with
  | zero => exact Nat.le_refl _
  | succ n ih =>
      have h1 := ih fun i hi => h i (by omega)
      have h2 := h n (Nat.lt_succ_self _)
      simp only [sumTo]
      omega

theorem sumTo_lt {f g : Nat → Nat} {n : Nat} (h : ∀ i, i < n → f i ≤ g i) (h' : ∃ i, i < n ∧ f i < g i) :
    sumTo f n < sumTo g n := by
  induction n with
  | zero => obtain ⟨i, hi, _⟩ := h'; omega
  | succ n ih =>
      obtain ⟨i, hi, hlt⟩ := h'
      have h1 := sumTo_le (n := n) fun i hi => h i (by omega)
      have h2 := h n (Nat.lt_succ_self _)
      simp only [sumTo]
      by_cases hin : i = n
      · subst hin; omega
      · have := ih (fun i hi => h i (by omega)) ⟨i, by omega, hlt⟩
        omega

/-- What is left to be said in time step `t`. -/
def todo (S : Setup) (t : Nat) (h : Nat → List Verdict) : Nat :=
  sumTo (fun i => ((t : Int) + 1 - S.B i - endOf (h i)).toNat) S.prog.length

theorem loop_late {S : Setup} (ok : S.Ok) (all : ∀ i, i < S.prog.length → S.own i)
    {tr : Nat → Nat → Bool} {V : Nat → Nat → Prop} (hV : Means S tr V) {t : Nat} :
    ∀ (fuel : Nat) (m : Mon) (h : Nat → List Verdict),
    Inv S tr V t true 0 m h → m.progress = .reloop → todo S t h < fuel → ∃ m', Mon.loop S.prog fuel m = some m' := by
  intro fuel
  induction fuel with
  | zero => intro m h _ _ hf; omega
  | succ n ih =>
      intro m h inv hpr hf
      obtain ⟨m1, h1, e1, e2, e3, e4⟩ := pass_total ok all hV S.prog 0 m h (by simp) inv
      rw [Nat.zero_add] at e2
      simp only [Mon.loop, e1]
      cases hp1 : m1.progress with
      | first => have := e2.prog.1 hp1; cases this
      | reloop => exact ⟨_, rfl⟩
      | again =>
          refine ih _ h1 (end_pass e2) rfl ?_
          obtain ⟨i, hi, hlt⟩ := e4 (by rw [hp1, hpr]; simp)
          have hbound : (endOf (h1 i) : Int) ≤ t + 1 - S.B i := by
            obtain ⟨r, hr⟩ : ∃ r, S.prog[i]? = some r := ⟨_, List.getElem?_eq_some_iff.2 ⟨hi, rfl⟩⟩
            have nd := e2.node i r hr (all i hi)
            have hne : endOf (h1 i) ≠ 0 := by omega
            unfold endOf at hne ⊢
            split
            · rename_i h0; rw [h0] at hne; exact absurd rfl hne
            · rename_i v hv
              have := nd.early v (List.mem_of_getLast? hv)
              omega
          have : todo S t h1 < todo S t h :=
            sumTo_lt (fun j _ => by have := e3 j; omega) ⟨i, hi, by omega⟩
          omega

theorem loop_total {S : Setup} (ok : S.Ok) (all : ∀ i, i < S.prog.length → S.own i)
    {tr : Nat → Nat → Bool} {V : Nat → Nat → Prop} (hV : Means S tr V) {t fuel : Nat} {m : Mon}
    {h : Nat → List Verdict} (inv : Inv S tr V t false 0 m h)
    (hf : sumTo (fun i => ((S.W i : Int) - S.B i).toNat + 1) S.prog.length + 2 ≤ fuel) : ∃ m', Mon.loop S.prog fuel m = some m' := by
  obtain ⟨n, rfl⟩ : ∃ n, fuel = n + 1 := ⟨fuel - 1, by omega⟩
  obtain ⟨m1, h1, e1, e2, e3, e4⟩ := pass_total ok all hV S.prog 0 m h (by simp) inv
  rw [Nat.zero_add] at e2
  have hp1 := e2.prog.2 rfl
  simp only [Mon.loop, e1, hp1]
  refine loop_late ok all hV n _ h1 (end_pass e2) rfl ?_
  have : todo S t h1 ≤ sumTo (fun i => ((S.W i : Int) - S.B i).toNat + 1) S.prog.length := by
    refine sumTo_le fun i hi => ?_
    obtain ⟨r, hr⟩ : ∃ r, S.prog[i]? = some r := ⟨_, List.getElem?_eq_some_iff.2 ⟨hi, rfl⟩⟩
    have nd := e2.node i r hr (all i hi)
    have := nd.bound
    unfold dn at this
    rw [if_pos (Or.inr hi)] at this
    omega
  omega

theorem run_total {S : Setup} (ok : S.Ok) (all : ∀ i, i < S.prog.length → S.own i)
    {tr : Nat → Nat → Bool} {V : Nat → Nat → Prop} (hV : Means S tr V) {fuel : Nat}
    (hf : sumTo (fun i => ((S.W i : Int) - S.B i).toNat + 1) S.prog.length + 2 ≤ fuel) : ∀ k,
    ∃ m, Mon.run S.prog fuel tr k (Mon.init S.prog S.len S.lb S.ub S.lang) = some m := by
  intro k
  induction k with
  | zero => exact ⟨_, rfl⟩
  | succ k ih =>
      obtain ⟨m, hm⟩ := ih
      obtain ⟨h, inv, _⟩ := run_safe ok hV fuel k m hm
      simp only [Mon.run, hm, Option.bind_some]
      exact loop_total ok all hV inv hf

end R2U2
