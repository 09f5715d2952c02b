import Verif.Lemmas.SabreOps
import Mathlib.Data.List.Induction
/-
Lemmas for C37: the arrays of the generated program hold the truth values they should.
-/
namespace R2U2
namespace Sabre

/-! ### Scans -/

theorem scan_snoc {β : Type} (f : List β → Node → β) (ns : List Node) (n : Node) :
    scan f (ns ++ [n]) = scan f ns ++ [f (scan f ns) n] := by
  unfold scan
  rw [List.foldl_append]
  rfl

theorem scan_length {β : Type} (f : List β → Node → β) (ns : List Node) :
    (scan f ns).length = ns.length := by
  induction ns using List.reverseRecOn with
  | nil => rfl
  | append_singleton ns n ih => rw [scan_snoc]; simp [ih]

/-- What is recorded for a node, when it only depends on what was recorded for its operands. -/
theorem scan_get {β : Type} (d : β) (f : List β → Node → β)
    (hf : ∀ bs bs' (n : Node), (∀ c ∈ n.kids, bs.getD c d = bs'.getD c d) → f bs n = f bs' n)
    (ns : List Node) (hk : ∀ k (n : Node), ns[k]? = some n → ∀ c ∈ n.kids, c < k) :
    ∀ k n, ns[k]? = some n → (scan f ns).getD k d = f (scan f ns) n := by
  induction ns using List.reverseRecOn with
  | nil => intro k n h; simp at h
  | append_singleton ns m ih =>
      intro k n h
      have hlt : k < ns.length + 1 := by
        have := (List.getElem?_eq_some_iff.1 h).1
        simpa using this
      have hkids := hk k n h
      have hext : f (scan f (ns ++ [m])) n = f (scan f ns) n := by
        apply hf
        intro c hc
        have : c < ns.length := by have := hkids c hc; omega
        rw [scan_snoc, List.getD_eq_getElem?_getD, List.getElem?_append_left (by rw [scan_length]; exact this),
          ← List.getD_eq_getElem?_getD]
      rw [hext]
      by_cases hkl : k < ns.length
      · rw [List.getElem?_append_left hkl] at h
        rw [scan_snoc, List.getD_eq_getElem?_getD, List.getElem?_append_left (by rw [scan_length]; exact hkl),
          ← List.getD_eq_getElem?_getD]
        exact ih (fun k n h => hk k n (by
          rw [List.getElem?_append_left (List.getElem?_eq_some_iff.1 h).1]; exact h)) k n h
      · obtain rfl : k = ns.length := by omega
        rw [List.getElem?_append_right (Nat.le_refl _), Nat.sub_self] at h
        simp only [List.getElem?_cons_zero, Option.some.injEq] at h
        subst h
        rw [scan_snoc, List.getD_eq_getElem?_getD, List.getElem?_append_right (by rw [scan_length]; exact Nat.le_refl _),
          scan_length, Nat.sub_self]
        rfl

theorem NodeOk.kids_lt {L nsigs k : Nat} {n : Node} (h : NodeOk L nsigs k n) : ∀ c ∈ n.kids, c < k := by
  cases n <;> simp only [NodeOk, Node.kids] at h ⊢
  case neg => simpa using h
  case fut => simpa using h.1
  case glob => simpa using h.1
  case and => exact h.2
  case or => exact h.2
  case imp => simpa using h
  case xor => simpa using h
  case untl => simpa using ⟨h.1, h.2.1⟩
  all_goals simp_all

variable {L nsigs : Nat} {ns : List Node}

theorem Supported.kids_lt (h : Supported L nsigs ns) :
    ∀ k (n : Node), ns[k]? = some n → ∀ c ∈ n.kids, c < k :=
  fun k n hn => (h.2.2 k n hn).kids_lt

theorem exprAt_eq (h : Supported L nsigs ns) (k : Nat) (n : Node) (hn : ns[k]? = some n) :
    exprAt ns k = nodeExpr (scan nodeExpr ns) n := by
  apply scan_get _ _ _ _ h.kids_lt k n hn
  intro bs bs' n hk
  cases n <;> simp only [nodeExpr, Node.kids] at hk ⊢ <;>
    simp_all

theorem wordWpd_eq (h : Supported L nsigs ns) (k : Nat) (n : Node) (hn : ns[k]? = some n) :
    wordWpd L ns k = ((2 ^ L - 1) + n.ub) / 2 ^ L + (n.kids.map fun c => wordWpd L ns c).foldr max 0 := by
  apply scan_get _ _ _ _ h.kids_lt k n hn
  intro bs bs' n hk
  unfold nodeWpd
  rw [List.map_congr_left hk]

theorem wordDelays_map (L : Nat) (f : Nat → Expr Nat) : ∀ ks : List Nat,
    wordDelays L (ks.map f) = (ks.map fun k => wordDelay L (f k)).foldr max 0
  | [] => rfl
  | k :: ks => by simp [wordDelays, wordDelays_map L f ks]

/-- The delay the code generator computes for a node is that of its formula. -/
theorem wordWpd_delay (h : Supported L nsigs ns) : ∀ (k : Nat) (n : Node), ns[k]? = some n →
    wordWpd L ns k = wordDelay L (exprAt ns k) := by
  intro k
  induction k using Nat.strongRecOn with
  | ind k ih =>
      intro n hn
      have hkid : ∀ c ∈ n.kids, wordWpd L ns c = wordDelay L ((scan nodeExpr ns).getD c (.const false)) := by
        intro c hc
        have hlt := h.kids_lt k n hn c hc
        have hk := (List.getElem?_eq_some_iff.1 hn).1
        exact ih c hlt _ (List.getElem?_eq_getElem (by omega))
      have hW := Nat.two_pow_pos L
      rw [wordWpd_eq h k n hn, exprAt_eq h k n hn, List.map_congr_left hkid]
      have hz : (2 ^ L - 1) / 2 ^ L = 0 := Nat.div_eq_of_lt (by omega)
      have hc : ∀ ub, 2 ^ L - 1 + ub = ub + 2 ^ L - 1 := by intro ub; omega
      cases n <;> simp [Node.kids, Node.ub, nodeExpr, wordDelay, wordDelays_map, hz, hc]

theorem le_foldr_max (l : List Nat) : ∀ x ∈ l, x ≤ l.foldr max 0 := by
  induction l with
  | nil => simp
  | cons y l ih =>
      intro x hx
      rw [List.foldr_cons]
      rcases List.mem_cons.1 hx with rfl | hx
      · exact Nat.le_max_left ..
      · exact Nat.le_trans (ih x hx) (Nat.le_max_right ..)

theorem wordWpd_kid (h : Supported L nsigs ns) {k : Nat} {n : Node} (hn : ns[k]? = some n) {c : Nat}
    (hc : c ∈ n.kids) : wordWpd L ns c + ((2 ^ L - 1) + n.ub) / 2 ^ L ≤ wordWpd L ns k := by
  rw [wordWpd_eq h k n hn]
  have := le_foldr_max (n.kids.map fun c => wordWpd L ns c) _ (List.mem_map_of_mem hc)
  omega

/-- No node has a larger delay than the root. -/
theorem wordWpd_le_root (h : Supported L nsigs ns) : ∀ (d k : Nat), ns.length - 1 - k = d → k < ns.length →
    wordWpd L ns k ≤ wordWpd L ns (ns.length - 1) := by
  intro d
  induction d using Nat.strongRecOn with
  | ind d ih =>
      intro k hd hk
      by_cases hroot : k = ns.length - 1
      · exact Nat.le_of_eq (by rw [← hroot])
      · obtain ⟨j, n, hj, hn, hmem⟩ := h.2.1 k (by omega)
        have hjl := (List.getElem?_eq_some_iff.1 hn).1
        have h1 := wordWpd_kid h hn hmem
        have h2 := ih (ns.length - 1 - j) (by omega) j rfl hjl
        exact Nat.le_trans (Nat.le_trans (Nat.le_add_right ..) h1) h2

theorem lt_ringSize (h : Supported L nsigs ns) (k : Nat) (hk : k < ns.length) :
    wordWpd L ns k < ringSize L ns := by
  apply Nat.lt_of_le_of_lt (wordWpd_le_root h _ k rfl hk)
  unfold ringSize bitLength
  rw [Nat.shiftLeft_eq, Nat.one_mul]
  split
  · rename_i h0; rw [h0]; exact Nat.two_pow_pos 0
  · exact Nat.lt_log2_self

theorem ceil_zero (L : Nat) : ((2 ^ L - 1) + 0) / 2 ^ L = 0 := by
  have := Nat.two_pow_pos L
  exact Nat.div_eq_of_lt (by omega)

/-! ### The value assigned at a node -/

theorem foldl_and_bit {W : Nat} (q : Nat) : ∀ (xs : List (BitVec W)) (x : BitVec W),
    (xs.foldl (fun a b => a &&& b) x).getMsbD q = true ↔
      x.getMsbD q = true ∧ ∀ y ∈ xs, y.getMsbD q = true
  | [], x => by simp
  | y :: xs, x => by
      rw [List.foldl_cons, foldl_and_bit q xs]
      simp [BitVec.getMsbD_and, and_assoc]

theorem foldl_or_bit {W : Nat} (q : Nat) : ∀ (xs : List (BitVec W)) (x : BitVec W),
    (xs.foldl (fun a b => a ||| b) x).getMsbD q = true ↔
      x.getMsbD q = true ∨ ∃ y ∈ xs, y.getMsbD q = true
  | [], x => by simp
  | y :: xs, x => by
      rw [List.foldl_cons, foldl_or_bit q xs]
      simp [BitVec.getMsbD_or, or_assoc]

theorem satAll_map (π : Trace Nat) (f : Nat → Expr Nat) (i : Nat) : ∀ ks : List Nat,
    satAll π (ks.map f) i ↔ ∀ k ∈ ks, sat π (f k) i
  | [] => by simp [satAll]
  | k :: ks => by simp [satAll, satAll_map π f i ks]

theorem satAny_map (π : Trace Nat) (f : Nat → Expr Nat) (i : Nat) : ∀ ks : List Nat,
    satAny π (ks.map f) i ↔ ∃ k ∈ ks, sat π (f k) i
  | [] => by simp [satAny]
  | k :: ks => by simp [satAny, satAny_map π f i ks]

/-- The first word of what an array holds. -/
theorem Holds.word {S : Nat} {a : Nat → BitVec (2 ^ L)} {s : Nat → Prop} {M h : Nat}
    (ha : Holds L S a s M h) (q : Nat) (hq : q < 2 ^ L) :
    (a (slot S (M : Int))).getMsbD q = true ↔ s (M * 2 ^ L + q) := by
  have hW := Nat.two_pow_pos L
  have := ha (M * 2 ^ L + q) (by omega) (by rw [Nat.add_mul, Nat.add_mul]; omega)
  rw [show (M * 2 ^ L + q) / 2 ^ L = M by
      rw [show M * 2 ^ L + q = q + 2 ^ L * M by rw [Nat.mul_comm]; omega, Nat.add_mul_div_left _ _ hW,
        Nat.div_eq_of_lt hq, Nat.zero_add],
    show (M * 2 ^ L + q) % 2 ^ L = q by
      rw [show M * 2 ^ L + q = q + 2 ^ L * M by rw [Nat.mul_comm]; omega, Nat.add_mul_mod_self_left,
        Nat.mod_eq_of_lt hq]] at this
  exact this

theorem value_ok (hL : 0 < L) (U1 U2 : Undef (2 ^ L)) (st : St L) (π : Trace Nat)
    (es : List (Expr Nat)) (M k : Nat) (n : Node) (hn : NodeOk L nsigs k n) (hat : ∀ a, n ≠ .atom a)
    (hk : ∀ c ∈ n.kids, Holds L (ringSize L ns) (arr ns st c) (sat π (es.getD c (.const false))) M
      ((2 ^ L - 1 + n.ub) / 2 ^ L)) (q : Nat) (hq : q < 2 ^ L) :
    (value U1 U2 ns st (M : Int) n).getMsbD q = true ↔ sat π (nodeExpr es n) (M * 2 ^ L + q) := by
  cases n with
  | atom a => exact absurd rfl (hat a)
  | const b =>
      simp only [NodeOk] at hn
      subst hn
      simp [value, nodeExpr, sat]
  | neg c =>
      have hc := (hk c (by simp [Node.kids])).word q hq
      simp only [value, nodeExpr, sat]
      rw [← hc]
      simp [BitVec.getMsbD_not, hq]
  | and cs =>
      have hc : ∀ c ∈ cs, _ := fun c h => (hk c h).word q hq
      simp only [NodeOk] at hn
      simp only [value, nodeExpr, sat, satAll_map]
      obtain ⟨c, cs', rfl⟩ := List.exists_cons_of_ne_nil hn.1
      simp only [List.map_cons]
      rw [foldl_and_bit]
      simp only [List.mem_map, forall_exists_index, and_imp, forall_apply_eq_imp_iff₂, List.mem_cons,
        forall_eq_or_imp] at hc ⊢
      rw [hc.1]
      exact and_congr_right fun _ => forall_congr' fun x => forall_congr' fun hx => hc.2 x hx
  | or cs =>
      have hc : ∀ c ∈ cs, _ := fun c h => (hk c h).word q hq
      simp only [NodeOk] at hn
      simp only [value, nodeExpr, sat, satAny_map]
      obtain ⟨c, cs', rfl⟩ := List.exists_cons_of_ne_nil hn.1
      simp only [List.map_cons]
      rw [foldl_or_bit]
      simp only [List.mem_map, exists_exists_and_eq_and, List.mem_cons, forall_eq_or_imp,
        exists_eq_or_imp] at hc ⊢
      rw [hc.1]
      exact or_congr_right (exists_congr fun x => and_congr_right fun hx => hc.2 x hx)
  | imp l r =>
      have h1 := (hk l (by simp [Node.kids])).word q hq
      have h2 := (hk r (by simp [Node.kids])).word q hq
      simp only [value, nodeExpr, sat]
      rw [← h1, ← h2, BitVec.getMsbD_or, BitVec.getMsbD_not]
      simp only [hq, decide_true, Bool.true_and, Bool.or_eq_true, Bool.not_eq_true']
      by_cases h : (arr ns st l (slot (ringSize L ns) ↑M)).getMsbD q = true <;> simp [h]
  | iff l r => exact absurd hn (by simp [NodeOk])
  | xor l r =>
      have h1 := (hk l (by simp [Node.kids])).word q hq
      have h2 := (hk r (by simp [Node.kids])).word q hq
      simp only [value, nodeExpr, sat]
      rw [← h1, ← h2, BitVec.getMsbD_xor]
      cases (arr ns st l (slot (ringSize L ns) ↑M)).getMsbD q <;>
        cases (arr ns st r (slot (ringSize L ns) ↑M)).getMsbD q <;> simp
  | fut lb ub c =>
      simp only [NodeOk] at hn
      simp only [value, nodeExpr, sat]
      exact future_ok L hL _ U1 _ _ M lb ub hn.2.1 hn.2.2 (hk c (by simp [Node.kids])) q hq
  | glob lb ub c =>
      simp only [NodeOk] at hn
      simp only [value, nodeExpr, sat]
      exact global_ok L hL _ U1 _ _ M lb ub hn.2.1 hn.2.2 (hk c (by simp [Node.kids])) q hq
  | untl lb ub l r =>
      simp only [NodeOk] at hn
      simp only [value, nodeExpr, sat]
      exact until_ok L hL _ U1 U2 _ _ _ _ M lb ub hn.2.2.1 hn.2.2.2.1 hn.2.2.2.2
        (hk l (by simp [Node.kids])) (hk r (by simp [Node.kids])) q hq

/-! ### Slots -/

theorem slot_nat (S m : Nat) : slot S (m : Int) = m % S := by
  unfold slot
  omega

theorem slot_inj {S a b : Nat} (h : a % S = b % S) (h1 : a < b + S) (h2 : b < a + S) : a = b := by
  have h3 := Nat.div_add_mod a S
  have h4 := Nat.div_add_mod b S
  rcases Nat.lt_trichotomy (a / S) (b / S) with hlt | heq | hgt
  · have : S * (a / S + 1) ≤ S * (b / S) := Nat.mul_le_mul_left _ hlt
    rw [Nat.mul_add] at this
    omega
  · rw [heq] at h3; omega
  · have : S * (b / S + 1) ≤ S * (a / S) := Nat.mul_le_mul_left _ hgt
    rw [Nat.mul_add] at this
    omega

/-! ### One word of input -/

theorem fold_bits {W : Nat} (f : Nat → Prop) [DecidablePred f] (x : BitVec W) :
    ∀ n, n ≤ W → ∀ q, q < W →
      (((List.range n).foldl (fun (x : BitVec W) q => (x <<< 1) ||| (if f q then 1 else 0)) x).getMsbD q = true ↔
        if q < W - n then x.getMsbD (q + n) = true else f (q - (W - n)))
  | 0, _, q, hq => by simp [hq]
  | n + 1, hn, q, hq => by
      rw [List.range_succ, List.foldl_append, List.foldl_cons, List.foldl_nil, BitVec.getMsbD_or,
        BitVec.getMsbD_shiftLeft, Bool.or_eq_true]
      by_cases hlast : q = W - 1
      · have h1 : (BitVec.getMsbD ((List.range n).foldl
            (fun (x : BitVec W) q => (x <<< 1) ||| (if f q then 1 else 0)) x) (q + 1)) = false :=
          BitVec.getMsbD_of_ge _ _ (by omega)
        have hsub : q - (W - (n + 1)) = n := by omega
        rw [h1, if_neg (show ¬ q < W - (n + 1) by omega), hsub]
        by_cases hf : f n
        · rw [if_pos hf]
          have : (1 : BitVec W).getMsbD q = true := by
            rw [BitVec.getMsbD_eq_getLsbD, hlast]
            have : W - 1 - (W - 1) = 0 := by omega
            simp [this]
            omega
          exact ⟨fun _ => hf, fun _ => .inr this⟩
        · rw [if_neg hf]
          simp [hf]
      · have h0 : (if f n then (1 : BitVec W) else 0).getMsbD q = false := by
          split
          · rw [BitVec.getMsbD_eq_getLsbD]
            have : W - 1 - q ≠ 0 := by omega
            simp [this]
          · simp
        rw [h0, fold_bits f x n (by omega) (q + 1) (by omega)]
        simp only [Bool.false_eq_true, or_false]
        by_cases hlt : q + 1 < W - n
        · rw [if_pos hlt, if_pos (by omega), show q + 1 + n = q + (n + 1) by omega]
        · rw [if_neg hlt, if_neg (by omega), show q + 1 - (W - n) = q - (W - (n + 1)) by omega]

/-! ### The invariant -/

/-- The array of node `k` holds word `m` of its truth values. -/
def Good (ns : List Node) (π : Trace Nat) (s : St L) (k m : Nat) : Prop :=
  ∀ q, q < 2 ^ L → ((arr ns s k (slot (ringSize L ns) (m : Int))).getMsbD q = true ↔
    sat π (exprAt ns k) (m * 2 ^ L + q))

/-- Is the node a signal? -/
def isAtom (ns : List Node) (k : Nat) : Prop := ∃ a, ns[k]? = some (.atom a)

/-- What the arrays hold during iteration `word`, when the nodes before `j` have been computed. -/
def Mid (ns : List Node) (π : Trace Nat) (word j : Nat) (s : St L) : Prop :=
  ∀ k m, k < ns.length → (m + wordWpd L ns k < word ∨ (isAtom ns k ∨ k < j) ∧ m + wordWpd L ns k ≤ word) →
    word < m + ringSize L ns → Good ns π s k m

/-- What the arrays hold before iteration `word`. -/
def Inv (ns : List Node) (π : Trace Nat) (word : Nat) (s : St L) : Prop :=
  ∀ k m, k < ns.length → m + wordWpd L ns k < word → word < m + ringSize L ns → Good ns π s k m

theorem arr_atom {s : St L} {k a : Nat} (h : ns[k]? = some (.atom a)) : arr ns s k = s.atm a := by
  unfold arr; rw [h]

theorem arr_mem {s : St L} {k : Nat} (h : ¬ isAtom ns k) : arr ns s k = s.mem k := by
  unfold arr
  split
  · rename_i a ha; exact absurd ⟨a, ha⟩ h
  · rfl

theorem readInputs_ok (h : Supported L nsigs ns) (rows : Nat → Nat → Int) (word : Nat) (s : St L)
    (hs : Inv ns (traceOf rows) word s) :
    Mid ns (traceOf rows) word 0 (readInputs L nsigs (ringSize L ns) rows word s) := by
  intro k m hk hm hlt
  by_cases hat : isAtom ns k
  · obtain ⟨a, ha⟩ := hat
    have hw : wordWpd L ns k = 0 := by
      rw [wordWpd_eq h k _ ha]
      simp only [Node.ub, Node.kids, List.map_nil, List.foldr_nil, ceil_zero]
    have hns := h.2.2 k _ ha
    simp only [NodeOk] at hns
    intro q hq
    rw [arr_atom ha, slot_nat]
    by_cases heq : m = word
    · subst heq
      unfold readInputs
      dsimp only
      rw [if_pos ⟨hns, rfl⟩]
      have := fold_bits (fun q => rows (m * 2 ^ L + q) a = 1) (s.atm a (m % ringSize L ns)) (2 ^ L)
        (Nat.le_refl _) q hq
      rw [Nat.sub_self, if_neg (by omega), Nat.sub_zero] at this
      rw [this, exprAt_eq h k _ ha]
      simp [nodeExpr, sat, traceOf]
    · have hne : m % ringSize L ns ≠ word % ringSize L ns := fun he =>
        heq (slot_inj he (by omega) hlt)
      have hg := hs k m hk (by omega) hlt q hq
      rw [arr_atom ha, slot_nat] at hg
      rw [← hg]
      unfold readInputs
      dsimp only
      rw [if_neg (fun hh => hne hh.2)]
  · intro q hq
    have hm' : m + wordWpd L ns k < word := by
      rcases hm with hm | ⟨hm | hm, _⟩
      · exact hm
      · exact absurd hm hat
      · omega
    have hg := hs k m hk hm' hlt q hq
    rw [arr_mem hat] at hg ⊢
    exact hg

theorem assign_ok (hL : 0 < L) (h : Supported L nsigs ns) (π : Trace Nat)
    (U : Nat → Nat → Undef (2 ^ L) × Undef (2 ^ L)) (word j : Nat) (hj : j < ns.length) (s : St L)
    (hs : Mid ns π word j s) : Mid ns π word (j + 1) (assign U ns word s j) := by
  obtain ⟨n, hn⟩ : ∃ n, ns[j]? = some n := ⟨_, List.getElem?_eq_getElem hj⟩
  by_cases hat : isAtom ns j
  · obtain ⟨a, ha⟩ := hat
    have : assign U ns word s j = s := by unfold assign; rw [ha]
    rw [this]
    intro k m hk hm hlt
    refine hs k m hk ?_ hlt
    rcases hm with hm | ⟨hm | hm, hle⟩
    · exact .inl hm
    · exact .inr ⟨.inl hm, hle⟩
    · by_cases hkj : k = j
      · exact .inr ⟨.inl ⟨a, hkj ▸ ha⟩, hle⟩
      · exact .inr ⟨.inr (by omega), hle⟩
  · have hna : ∀ a, n ≠ .atom a := fun a he => hat ⟨a, he ▸ hn⟩
    have hval : assign U ns word s j = { s with mem := upd s.mem j (upd (s.mem j)
        (slot (ringSize L ns) ((word : Int) - wordWpd L ns j))
        (value (U word j).1 (U word j).2 ns s ((word : Int) - wordWpd L ns j) n)) } := by
      unfold assign
      rw [hn]
      cases n <;> first | rfl | exact absurd rfl (hna _)
    rw [hval]
    have hwS := lt_ringSize h j hj
    intro k m hk hm hlt
    by_cases hkj : k = j
    · subst hkj
      intro q hq
      rw [arr_mem hat]
      dsimp only
      unfold upd
      rw [if_pos rfl]
      have hle : m + wordWpd L ns k ≤ word := by
        rcases hm with hm | hm
        · omega
        · exact hm.2
      have hb : ((word : Int) - wordWpd L ns k) = ((word - wordWpd L ns k : Nat) : Int) := by omega
      rw [hb]
      by_cases heq : m = word - wordWpd L ns k
      · rw [← heq, if_pos rfl, exprAt_eq h k n hn]
        refine value_ok hL _ _ s π _ m k n (h.2.2 k n hn) hna ?_ q hq
        intro c hc t ht1 ht2
        have hck := h.kids_lt k n hn c hc
        have hwc := wordWpd_kid h hn hc
        have hW := Nat.two_pow_pos L
        have hm1 : m ≤ t / 2 ^ L := (Nat.le_div_iff_mul_le hW).2 ht1
        have hm2 : t / 2 ^ L < m + (2 ^ L - 1 + n.ub) / 2 ^ L + 1 := (Nat.div_lt_iff_lt_mul hW).2 ht2
        have hg := hs c (t / 2 ^ L) (by omega) (.inr ⟨.inr hck, by omega⟩) (by omega) (t % 2 ^ L)
          (Nat.mod_lt _ hW)
        rw [hg, Nat.mul_comm, Nat.div_add_mod]
        rfl
      · have hne : slot (ringSize L ns) (m : Int) ≠ slot (ringSize L ns) ((word - wordWpd L ns k : Nat) : Int) := by
          rw [slot_nat, slot_nat]
          intro he
          exact heq (slot_inj he (by omega) (by omega))
        rw [if_neg hne]
        have hg := hs k m hk (.inl (by omega)) hlt q hq
        rw [arr_mem hat] at hg
        exact hg
    · have hm' : m + wordWpd L ns k < word ∨ (isAtom ns k ∨ k < j) ∧ m + wordWpd L ns k ≤ word := by
        rcases hm with hm | ⟨hm | hm, hle⟩
        · exact .inl hm
        · exact .inr ⟨.inl hm, hle⟩
        · exact .inr ⟨.inr (by omega), hle⟩
      have hg := hs k m hk hm' hlt
      have harr : arr ns { s with mem := upd s.mem j (upd (s.mem j)
          (slot (ringSize L ns) ((word : Int) - wordWpd L ns j))
          (value (U word j).1 (U word j).2 ns s ((word : Int) - wordWpd L ns j) n)) } k = arr ns s k := by
        by_cases hak : isAtom ns k
        · obtain ⟨a, ha⟩ := hak
          rw [arr_atom ha, arr_atom ha]
        · rw [arr_mem hak, arr_mem hak]
          dsimp only
          unfold upd
          rw [if_neg hkj]
      intro q hq
      rw [harr]
      exact hg q hq

theorem fold_range {σ : Type} (f : σ → Nat → σ) (P : Nat → σ → Prop) (n : Nat) (s : σ) (h0 : P 0 s)
    (hstep : ∀ k s, k < n → P k s → P (k + 1) (f s k)) : P n ((List.range n).foldl f s) := by
  induction n with
  | zero => exact h0
  | succ n ih =>
      rw [List.range_succ, List.foldl_append]
      exact hstep n _ (by omega) (ih fun k s hk hp => hstep k s (by omega) hp)

theorem compute_ok (hL : 0 < L) (h : Supported L nsigs ns) (rows : Nat → Nat → Int)
    (U : Nat → Nat → Undef (2 ^ L) × Undef (2 ^ L)) (word : Nat) (s : St L)
    (hs : Inv ns (traceOf rows) word s) :
    Mid ns (traceOf rows) word ns.length (compute U ns nsigs rows word s) :=
  fold_range _ (Mid ns (traceOf rows) word) ns.length _ (readInputs_ok h rows word s hs)
    fun k s hk hp => assign_ok hL h _ U word k hk s hp

/-- Clearing touches one slot only. -/
theorem clear_get (word j : Nat) (s : St L) (k x : Nat) (hx : x ≠ (word + 1) % ringSize L ns) :
    arr ns (clear ns word s j) k x = arr ns s k x := by
  by_cases hak : isAtom ns k
  · obtain ⟨a, ha⟩ := hak
    rw [arr_atom ha, arr_atom ha]
    unfold clear
    split
    · rfl
    · unfold upd
      dsimp only
      split
      · rename_i h; rw [h]; exact if_neg hx
      · rfl
    · rfl
  · rw [arr_mem hak, arr_mem hak]
    unfold clear
    split
    · rfl
    · rfl
    · unfold upd
      dsimp only
      split
      · rename_i h; rw [h]; exact if_neg hx
      · rfl

theorem clears_get (word : Nat) (s : St L) (k x n : Nat) (hx : x ≠ (word + 1) % ringSize L ns) :
    arr ns ((List.range n).foldl (clear ns word) s) k x = arr ns s k x :=
  fold_range (clear ns word) (fun _ s' => arr ns s' k x = arr ns s k x) n s rfl
    fun j s' _ hp => by rw [clear_get word j s' k x hx, hp]

theorem run_succ (U : Nat → Nat → Undef (2 ^ L) × Undef (2 ^ L)) (rows : Nat → Nat → Int) (init : St L)
    (n : Nat) : run U ns nsigs rows init (n + 1) =
      ((List.range ns.length).foldl (clear ns n) (compute U ns nsigs rows n (run U ns nsigs rows init n).1),
        if wordWpd L ns (ns.length - 1) ≤ n then
          (run U ns nsigs rows init n).2 ++
            [arr ns (compute U ns nsigs rows n (run U ns nsigs rows init n).1) (ns.length - 1)
              (slot (ringSize L ns) ((n : Int) - wordWpd L ns (ns.length - 1)))]
        else (run U ns nsigs rows init n).2) := rfl

theorem run_inv (hL : 0 < L) (h : Supported L nsigs ns) (rows : Nat → Nat → Int)
    (U : Nat → Nat → Undef (2 ^ L) × Undef (2 ^ L)) (init : St L) : ∀ n,
    Inv ns (traceOf rows) n (run U ns nsigs rows init n).1 ∧
    (run U ns nsigs rows init n).2.length = n - wordWpd L ns (ns.length - 1) ∧
    ∀ m x, (run U ns nsigs rows init n).2[m]? = some x → ∀ q, q < 2 ^ L →
      (x.getMsbD q = true ↔ sat (traceOf rows) (formula ns) (m * 2 ^ L + q))
  | 0 => ⟨fun k m _ hm _ => by omega, by simp [run], by intro m x hx; simp [run] at hx⟩
  | n + 1 => by
      obtain ⟨i1, i2, i3⟩ := run_inv hL h rows U init n
      have hmid := compute_ok hL h rows U n _ i1
      have hlen : 0 < ns.length := List.length_pos_iff.2 h.1
      refine ⟨?_, ?_, ?_⟩
      · intro k m hk hm hlt q hq
        have hg := hmid k m hk (.inr ⟨.inr hk, by omega⟩) (by omega) q hq
        rw [← hg]
        rw [run_succ]
        dsimp only
        rw [clears_get]
        rw [slot_nat]
        intro he
        have := slot_inj he (by omega) (by omega)
        omega
      · rw [run_succ]
        dsimp only
        split
        · rw [List.length_append, i2, List.length_singleton]; omega
        · rw [i2]; omega
      · intro m x hx q hq
        rw [run_succ] at hx
        dsimp only at hx
        split at hx
        · rename_i hle
          by_cases hm : m < (run U ns nsigs rows init n).2.length
          · rw [List.getElem?_append_left hm] at hx
            exact i3 m x hx q hq
          · rw [List.getElem?_append_right (by omega)] at hx
            have hm0 : m - (run U ns nsigs rows init n).2.length = 0 := by
              have := (List.getElem?_eq_some_iff.1 hx).1
              simpa using this
            rw [hm0] at hx
            simp only [List.getElem?_cons_zero, Option.some.injEq] at hx
            rw [← hx]
            have hb : ((n : Int) - wordWpd L ns (ns.length - 1)) = (m : Int) := by omega
            rw [hb]
            exact hmid (ns.length - 1) m (by omega) (.inr ⟨.inr (by omega), by omega⟩)
              (by have := lt_ringSize h (ns.length - 1) (by omega); omega) q hq
        · exact i3 m x hx q hq

end Sabre
end R2U2
