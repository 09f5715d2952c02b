import Verif.Lemmas.GraphEndsRules
import Mathlib.Tactic.Linarith
/-
`to_nnf` ends on every graph: a weight of nodes that pushing a negation inwards does not
raise.
-/
namespace R2U2
open Heap Expr GraphPass

namespace NnfEnds

/-- Operands of a node, added up. -/
def base (ts : List Nat) : Nat := 2 + (ts.map fun t => 1 + t).sum

/-- The weight of a node by the weights of its operands. -/
def up : Lab → List Nat → Nat
  | .op .neg, ts | .op .imp, ts => base ts * base ts
  | .op .xor, ts => (base ts + 2) * (base ts + 2)
  | _, ts => base ts

theorem base_mono {xs ys : List Nat} (h : List.Forall₂ (· ≤ ·) xs ys) : base xs ≤ base ys := by
  unfold base
  have : (xs.map fun t => 1 + t).sum ≤ (ys.map fun t => 1 + t).sum := by
    induction h with
    | nil => simp
    | cons a _ ih => simp only [List.map_cons, List.sum_cons]; omega
  omega

theorem up_mono {l : Lab} {xs ys : List Nat} (h : List.Forall₂ (· ≤ ·) xs ys) : up l xs ≤ up l ys := by
  have := base_mono h
  unfold up
  split
  · exact Nat.mul_le_mul this this
  · exact Nat.mul_le_mul this this
  · exact Nat.mul_le_mul (by omega) (by omega)
  · exact this

theorem base_ge (ts : List Nat) : ts.sum + 2 ≤ base ts := by
  unfold base
  induction ts with
  | nil => simp
  | cons t ts ih => simp only [List.map_cons, List.sum_cons]; omega

theorem up_ge (l : Lab) (ts : List Nat) : base ts ≤ up l ts := by
  have : 2 ≤ base ts := by unfold base; omega
  unfold up
  split
  · exact Nat.le_mul_of_pos_left _ (by omega)
  · exact Nat.le_mul_of_pos_left _ (by omega)
  · nlinarith
  · exact le_rfl

mutual
/-- The weight of a piece of graph. -/
def val (M : Nat → Nat) : Bud Lab → Nat
  | .old x => M x
  | .new l cs => up l (valL M cs)
def valL (M : Nat → Nat) : List (Bud Lab) → List Nat
  | [] => []
  | c :: cs => val M c :: valL M cs
end

theorem valL_eq (M : Nat → Nat) (cs : List (Bud Lab)) : valL M cs = cs.map (val M) := by
  induction cs with
  | nil => rfl
  | cons c cs ih => simp [valL, ih]

/-- `M` bounds the weights. -/
def Sup (M : Nat → Nat) (h : Heap Lab) (n : Nat) : Prop := ∀ p, p < n → up (h.lab p) ((h.kids p).map M) ≤ M p

mutual
theorem val_congr {M M' : Nat → Nat} : ∀ (b : Bud Lab), (∀ o ∈ b.olds, M o = M' o) → val M b = val M' b
  | .old x, h => h x (by simp [Bud.olds])
  | .new l cs, h => by simp only [val]; rw [valL_congr cs h]
theorem valL_congr {M M' : Nat → Nat} : ∀ (cs : List (Bud Lab)), (∀ o ∈ Bud.oldsL cs, M o = M' o) → valL M cs = valL M' cs
  | [], _ => rfl
  | c :: cs, h => by
      simp only [valL]
      rw [val_congr c fun o ho => h o (by simp [Bud.oldsL, ho]), valL_congr cs fun o ho => h o (by simp [Bud.oldsL, ho])]
end

mutual
theorem grow_sup : ∀ (b : Bud Lab) (h : Heap Lab) (n m : Nat) (M : Nat → Nat), m ≤ n → (∀ o ∈ b.olds, o < m) → h.Below n → Sup M h n →
    ∃ M', (∀ z, z < n → M' z = M z) ∧ Sup M' (grow b h n).1 (grow b h n).2.1 ∧ M' (grow b h n).2.2 = val M b ∧
      (grow b h n).1.Below (grow b h n).2.1 ∧ (grow b h n).2.2 < (grow b h n).2.1
  | .old x, h, n, m, M, hm, ho, hb, hs => by
      have := ho x (by simp [Bud.olds])
      exact ⟨M, fun _ _ => rfl, hs, rfl, hb, by simp only [grow]; omega⟩
  | .new l cs, h, n, m, M, hm, ho, hb, hs => by
      obtain ⟨M1, h1, h2, h3, h4, h5⟩ := growL_sup cs h n m M hm ho hb hs
      simp only [grow]
      have hle := (growL_keeps cs h n).1
      refine ⟨fun z => if z = (growL cs h n).2.1 then val M (.new l cs) else M1 z, ?_, ?_, ?_, ⟨?_, ?_⟩, by omega⟩
      · intro z hz; simp only; rw [if_neg (by omega), h1 z hz]
      · intro p hp
        by_cases hpn : p = (growL cs h n).2.1
        · subst hpn
          simp only [Heap.add, if_true, val]
          rw [← h3]
          refine le_of_eq (congrArg _ (List.map_congr_left fun c hc => ?_))
          have := h5 c hc
          rw [if_neg (by omega)]
        · simp only [Heap.add, if_neg hpn]
          refine le_trans (le_of_eq (congrArg _ (List.map_congr_left fun c hc => ?_))) (h2 p (by omega))
          have := h4.kids p c hc
          rw [if_neg (by omega)]
      · simp
      · intro p c hc
        simp only [Heap.add] at hc
        split at hc
        · have := h5 c hc; omega
        · have := h4.kids p c hc; omega
      · intro p hp
        simp only [Heap.add]
        rw [if_neg (by omega)]
        exact h4.none p (by omega)
theorem growL_sup : ∀ (cs : List (Bud Lab)) (h : Heap Lab) (n m : Nat) (M : Nat → Nat), m ≤ n → (∀ o ∈ Bud.oldsL cs, o < m) → h.Below n →
    Sup M h n → ∃ M', (∀ z, z < n → M' z = M z) ∧ Sup M' (growL cs h n).1 (growL cs h n).2.1 ∧
      (growL cs h n).2.2.map M' = valL M cs ∧ (growL cs h n).1.Below (growL cs h n).2.1 ∧ ∀ c ∈ (growL cs h n).2.2, c < (growL cs h n).2.1
  | [], h, n, m, M, hm, ho, hb, hs => ⟨M, fun _ _ => rfl, hs, rfl, hb, by simp [growL]⟩
  | c :: cs, h, n, m, M, hm, ho, hb, hs => by
      obtain ⟨M1, a1, a2, a3, a4, a5⟩ := grow_sup c h n m M hm (fun o h => ho o (by simp [Bud.oldsL, h])) hb hs
      have hle := (grow_keeps c h n).1
      obtain ⟨M2, b1, b2, b3, b4, b5⟩ := growL_sup cs (grow c h n).1 (grow c h n).2.1 m M1 (by omega)
        (fun o h => ho o (by simp [Bud.oldsL, h])) a4 a2
      have hle2 := (growL_keeps cs (grow c h n).1 (grow c h n).2.1).1
      simp only [growL]
      refine ⟨M2, fun z hz => by rw [b1 z (by omega), a1 z hz], b2, ?_, b4, ?_⟩
      · simp only [List.map_cons, valL, b3]
        rw [b1 _ a5, a3]
        congr 1
        refine valL_congr cs fun o hoo => ?_
        have := ho o (by simp [Bud.oldsL, hoo])
        rw [a1 o (by omega)]
      · intro d hd
        rcases List.mem_cons.1 hd with rfl | hd
        · omega
        · exact b5 d hd
end

/-- Replacing a node by one that weighs no more. -/
theorem replace_sup {M : Nat → Nat} {h : Heap Lab} {n x y : Nat} (hs : Sup M h n) (hxy : M y ≤ M x) : Sup M (h.replace x y) n := by
  intro p hp
  rw [replace_lab]
  refine le_trans (up_mono ?_) (hs p hp)
  rcases replace_kids_cases h x y p with he | he
  · rw [he]; exact List.forall₂_same.2 fun _ _ => le_rfl
  · rw [he, List.map_map]
    induction h.kids p with
    | nil => exact .nil
    | cons c cs ih =>
      refine .cons ?_ ih
      simp only [Function.comp]
      split
      · rename_i hc; rw [hc]; exact hxy
      · exact le_rfl

theorem pos {M : Nat → Nat} {h : Heap Lab} {n x : Nat} (hs : Sup M h n) (hx : x < n) : 2 + ((h.kids x).map M).sum ≤ M x := by
  have := base_ge ((h.kids x).map M)
  have := up_ge (h.lab x) ((h.kids x).map M)
  have := hs x hx
  omega

/-! ### The rule does not raise weights -/

theorem kids_base1 {h : Heap Lab} {M : Nat → Nat} {x a : Nat} (ha : h.kid x 0 = some a) : 3 + M a ≤ base ((h.kids x).map M) := by
  unfold Heap.kid at ha
  match hk : h.kids x with
  | [] => rw [hk] at ha; simp at ha
  | c :: cs => rw [hk] at ha; simp at ha; subst ha; simp [base]; omega

theorem kids_base2 {h : Heap Lab} {M : Nat → Nat} {x a b : Nat} (ha : h.kid x 0 = some a) (hb : h.kid x 1 = some b) :
    4 + M a + M b ≤ base ((h.kids x).map M) := by
  unfold Heap.kid at ha hb
  match hk : h.kids x with
  | [] => rw [hk] at ha; simp at ha
  | [c] => rw [hk] at hb; simp at hb
  | c :: d :: cs => rw [hk] at ha hb; simp at ha hb; subst ha hb; simp [base]; omega

theorem square_sum (xs : List Nat) : (xs.map fun c => 1 + (3 + c) * (3 + c)).sum ≤
    (xs.map fun c => 1 + c).sum * (xs.map fun c => 1 + c).sum + 9 * (xs.map fun c => 1 + c).sum := by
  induction xs with
  | nil => simp
  | cons x xs ih =>
    simp only [List.map_cons, List.sum_cons]
    nlinarith [Nat.zero_le ((xs.map fun c => 1 + c).sum * x)]

theorem neg_all {M : Nat → Nat} (l : Lab) (hl : l = .op .and ∨ l = .op .or) (xs : List Nat) :
    val M (.new l (xs.map fun c => Bud.neg (.old c))) = 2 + ((xs.map M).map fun c => 1 + (3 + c) * (3 + c)).sum := by
  simp only [val, valL_eq, List.map_map]
  have : ∀ ts, up l ts = base ts := by intro ts; rcases hl with rfl | rfl <;> rfl
  rw [this]
  unfold base
  congr 1
  rw [List.map_map]
  congr 1
  refine List.map_congr_left fun c _ => ?_
  simp [Bud.neg, val, valL, up, base]
  ring

/-- The rule of `to_nnf`. -/
theorem nnf_val {M : Nat → Nat} {h : Heap Lab} {n x : Nat} (hb : h.Below n) (hs : Sup M h n) (hx : x < n) {b : Bud Lab}
    (hr : nnfRuleG h x = some (some b)) : val M b ≤ M x := by
  unfold nnfRuleG at hr
  split at hr
  case h_1 hl =>
    simp only [Option.bind_eq_bind, Option.bind_eq_some_iff] at hr
    obtain ⟨a, ha, hr⟩ := hr
    have hmx := hs x hx
    rw [hl] at hmx
    have hba := kids_base1 (M := M) ha
    have han := hb.kids _ _ (kid_mem ha)
    have hma := hs a han
    have hsq : (3 + M a) * (3 + M a) ≤ M x := le_trans (Nat.mul_le_mul hba hba) hmx
    have hge := up_ge (h.lab a) ((h.kids a).map M)
    have hsmall : 3 + M a ≤ M x := by nlinarith
    split at hr <;> simp only [Option.bind_eq_some_iff, Option.some.injEq, reduceCtorEq] at hr
    · -- `!!p`
      obtain ⟨p, hp, rfl⟩ := hr
      have := kids_base1 (M := M) hp
      simp only [val]; omega
    · subst hr
      rw [Bud.and, neg_all _ (.inl rfl)]
      have := square_sum ((h.kids a).map M)
      unfold base at hge
      nlinarith
    · subst hr
      rw [Bud.or, neg_all _ (.inr rfl)]
      have := square_sum ((h.kids a).map M)
      unfold base at hge
      nlinarith
    all_goals
      first
        | (obtain ⟨l, h0, r, h1, rfl⟩ := hr
           have hk := kids_base2 (M := M) h0 h1
           simp only [Bud.and, Bud.or, Bud.neg, Bud.tmp, val, valL, up, base, List.map_cons, List.map_nil, List.sum_cons, List.sum_nil]
           nlinarith)
        | (obtain ⟨p, h0, rfl⟩ := hr
           have hk := kids_base1 (M := M) h0
           simp only [Bud.neg, Bud.tmp, val, valL, up, base, List.map_cons, List.map_nil, List.sum_cons, List.sum_nil]
           nlinarith)
  case h_2 hl =>
    simp only [Option.bind_eq_bind, Option.bind_eq_some_iff, Option.some.injEq] at hr
    obtain ⟨l, h0, r, h1, rfl⟩ := hr
    have hmx := hs x hx
    rw [hl] at hmx
    have hk := kids_base2 (M := M) h0 h1
    have hsq : (4 + M l + M r) * (4 + M l + M r) ≤ M x := le_trans (Nat.mul_le_mul hk hk) hmx
    simp only [Bud.or, Bud.neg, val, valL, up, base, List.map_cons, List.map_nil, List.sum_cons, List.sum_nil]
    nlinarith
  case h_3 hl =>
    simp only [Option.bind_eq_bind, Option.bind_eq_some_iff, Option.some.injEq] at hr
    obtain ⟨l, h0, r, h1, rfl⟩ := hr
    have hmx := hs x hx
    rw [hl] at hmx
    have hk := kids_base2 (M := M) h0 h1
    have hsq : (6 + M l + M r) * (6 + M l + M r) ≤ M x := le_trans (Nat.mul_le_mul (by omega) (by omega)) hmx
    simp only [Bud.or, Bud.and, Bud.neg, val, valL, up, base, List.map_cons, List.map_nil, List.sum_cons, List.sum_nil]
    nlinarith
  case h_4 => cases hr

/-- Weights of the nodes of a graph. -/
theorem exists_sup {h : Heap Lab} {n : Nat} (ha : h.Acyclic) : ∃ M, Sup M h n := by
  obtain ⟨tr, _, hr⟩ := ha.rank
  let F : Nat → Nat → Nat := fun n => Nat.rec (fun _ => 0) (fun _ ih c => up (h.lab c) ((h.kids c).map ih)) n
  have hF : ∀ n c, F (n + 1) c = up (h.lab c) ((h.kids c).map (F n)) := fun _ _ => rfl
  have stable : ∀ n m c, (tr c).size < n → (tr c).size < m → F n c = F m c := by
    intro n
    induction n with
    | zero => intro m c h; omega
    | succ n ih =>
      intro m c h1 h2
      cases m with
      | zero => omega
      | succ m =>
        rw [hF, hF]
        congr 1
        refine List.map_congr_left fun k hk => ?_
        have := hr c k hk
        exact ih m k (by omega) (by omega)
  refine ⟨fun c => F ((tr c).size + 1) c, fun c _ => le_of_eq ?_⟩
  simp only
  rw [hF]
  congr 1
  refine List.map_congr_left fun k hk => ?_
  have := hr c k hk
  exact stable ((tr k).size + 1) ((tr c).size) k (by omega) (by omega)

/-! ### The traversal -/

theorem nnf_total (s : Bool) {h : Heap Lab} {x : Nat} (h0 : Lab.fits s (h.lab x) (h.kids x).length)
    (hk : ∀ a ∈ h.kids x, Lab.fits s (h.lab a) (h.kids a).length) : ∃ r, nnfRuleG h x = some r := by
  unfold nnfRuleG
  split
  · rename_i hl
    rw [hl] at h0
    obtain ⟨a, ha⟩ := kid_of_lt (h := h) (x := x) (i := 0) h0
    have h1 := hk a (kid_mem ha)
    simp only [ha, Option.bind_eq_bind, Option.bind_some]
    split <;> first
      | exact ⟨_, rfl⟩
      | (rename_i hla
         rw [hla] at h1
         simp only [Lab.fits] at h1
         first
          | (obtain ⟨b, hb⟩ := kid_of_lt (h := h) (x := a) (i := 0) (Nat.lt_of_lt_of_le Nat.zero_lt_two h1)
             obtain ⟨c, hc⟩ := kid_of_lt (h := h) (x := a) (i := 1) (show 2 ≤ _ from h1)
             simp only [hb, hc, Option.bind_some]
             exact ⟨_, rfl⟩)
          | (obtain ⟨b, hb⟩ := kid_of_lt (h := h) (x := a) (i := 0) h1
             simp only [hb, Option.bind_some]
             exact ⟨_, rfl⟩))
  · rename_i hl
    rw [hl] at h0
    obtain ⟨a, ha⟩ := kid_of_lt (h := h) (x := x) (i := 0) (Nat.lt_of_lt_of_le Nat.zero_lt_two h0)
    obtain ⟨b, hb⟩ := kid_of_lt (h := h) (x := x) (i := 1) (show 2 ≤ _ from h0)
    simp only [ha, hb, Option.bind_eq_bind, Option.bind_some]
    exact ⟨_, rfl⟩
  · rename_i hl
    rw [hl] at h0
    obtain ⟨a, ha⟩ := kid_of_lt (h := h) (x := x) (i := 0) (Nat.lt_of_lt_of_le Nat.zero_lt_two h0)
    obtain ⟨b, hb⟩ := kid_of_lt (h := h) (x := x) (i := 1) (show 2 ≤ _ from h0)
    simp only [ha, hb, Option.bind_eq_bind, Option.bind_some]
    exact ⟨_, rfl⟩
  · exact ⟨_, rfl⟩

/-- A set of nodes, closed under operands, all of the right shape. -/
structure Closed (A : Lab → Nat → Prop) (h : Heap Lab) (n : Nat) (G : Nat → Prop) : Prop where
  lt : ∀ z, G z → z < n
  fit : ∀ z, G z → A (h.lab z) (h.kids z).length
  kids : ∀ z, G z → ∀ c ∈ h.kids z, G c

theorem Closed.under {A : Lab → Nat → Prop} {h : Heap Lab} {n : Nat} {G : Nat → Prop} (hc : Closed A h n G) {x z : Nat} (hx : G x)
    (hu : h.Under x z) : G z := by
  obtain ⟨k, hk, hr⟩ := hu
  have hk' := hc.kids x hx k hk
  induction hr with
  | root h => rw [List.mem_singleton.1 h]; exact hk'
  | kid _ hc' ih => exact hc.kids _ ih _ hc'

theorem Closed.step {A : Lab → Nat → Prop} {h h' : Heap Lab} {n n' x : Nat} {G : Nat → Prop} (hc : Closed A h n G) (hx : G x)
    (hs : Step A h n x h' n') : Closed A h' n' (fun z => G z ∨ n ≤ z ∧ z < n') where
  lt := by rintro z (hz | hz); exacts [lt_of_lt_of_le (hc.lt z hz) hs.le, hz.2]
  fit := by
    rintro z (hz | hz)
    · rw [hs.lab z (hc.lt z hz), hs.len z (hc.lt z hz)]; exact hc.fit z hz
    · exact hs.fresh z hz.1 hz.2
  kids := by
    rintro z (hz | hz) c hck
    · rcases hs.kidsOld z c (hc.lt z hz) hck with h1 | ⟨_, h1 | h1⟩
      · exact .inl (hc.kids z hz c h1)
      · exact .inr ⟨h1, hs.below.kids _ _ hck⟩
      · exact .inl (hc.under hx h1)
    · rcases hs.kidsNew z c hz.1 hck with h1 | h1
      · exact .inr ⟨h1.1, hs.below.kids _ _ hck⟩
      · exact .inl (hc.under hx h1)

/-- A state during the traversal. -/
structure Inv (roots : List Nat) (M : Nat → Nat) (G : Nat → Prop) (w : PreState Lab) : Prop where
  below : w.heap.Below w.next
  acyclic : w.heap.Acyclic
  closed : Closed (Lab.fits false) w.heap w.next G
  sup : Sup M w.heap w.next
  stack : ∀ x ∈ w.stack, G x
  roots : ∀ r ∈ roots, G r
  repl : ∀ x y, w.repl.lookup x = some y → x < w.next ∧ G y ∧ M y ≤ M x

theorem nnf_fits {h : Heap Lab} {x : Nat} {b : Bud Lab} (hr : nnfRuleG h x = some (some b)) : ∀ p ∈ b.news, Lab.fits false p.1 p.2 := by
  have many : ∀ l, l = Lab.op .and ∨ l = .op .or → ∀ (xs : List Nat), ∀ p ∈ (Bud.new l (xs.map fun c => Bud.neg (.old c))).news,
      Lab.fits false p.1 p.2 := by
    intro l hl xs p hp
    simp only [Bud.news, List.mem_cons] at hp
    rcases hp with rfl | hp
    · rcases hl with rfl | rfl <;> simp [Lab.fits]
    · rw [Bud.news_neg_old _ _ hp]; simp [Lab.fits]
  unfold nnfRuleG at hr
  split at hr
  case h_1 =>
    simp only [Option.bind_eq_bind, Option.bind_eq_some_iff] at hr
    obtain ⟨a, ha, hr⟩ := hr
    split at hr <;> simp only [Option.bind_eq_some_iff, Option.some.injEq, reduceCtorEq] at hr
    all_goals
      first
        | (subst hr; exact many _ (.inl rfl) _)
        | (subst hr; exact many _ (.inr rfl) _)
        | (obtain ⟨_, _, _, _, rfl⟩ := hr; fits_news)
        | (obtain ⟨_, _, rfl⟩ := hr; fits_news)
  case h_4 => cases hr
  all_goals
    simp only [Option.bind_eq_bind, Option.bind_eq_some_iff, Option.some.injEq] at hr
    obtain ⟨_, _, _, _, rfl⟩ := hr; fits_news

theorem preWalk_ends {roots : List Nat} : ∀ (m : Nat) (w : PreState Lab) (M : Nat → Nat) (G : Nat → Prop), Inv roots M G w →
    (w.stack.map M).sum < m → ∃ w' M' G', Inv roots M' G' w' ∧ ∀ k ≥ m, preWalk nnfRuleG k w = some w'
  | 0, _, _, _, _, h => by omega
  | m + 1, w, M, G, hi, hm => by
      match hst : w.stack with
      | [] =>
        refine ⟨w, M, G, hi, fun k hk => ?_⟩
        obtain ⟨k, rfl⟩ : ∃ j, k = j + 1 := ⟨k - 1, by omega⟩
        simp [preWalk, hst]
      | x :: st =>
        have hx : G x := hi.stack x (by rw [hst]; exact List.mem_cons_self)
        have hgst : ∀ y ∈ st, G y := fun y hy => hi.stack y (by rw [hst]; exact List.mem_cons_of_mem _ hy)
        have hxn := hi.closed.lt x hx
        rw [hst] at hm
        simp only [List.map_cons, List.sum_cons] at hm
        have hpos := pos hi.sup hxn
        have go : ∀ (w1 : PreState Lab) (M1 : Nat → Nat) (G1 : Nat → Prop), preStep nnfRuleG w = some w1 → Inv roots M1 G1 w1 →
            (w1.stack.map M1).sum < m → ∃ w' M' G', Inv roots M' G' w' ∧ ∀ k ≥ m + 1, preWalk nnfRuleG k w = some w' := by
          intro w1 M1 G1 h1 h2 h3
          obtain ⟨w', M', G', h4, h5⟩ := preWalk_ends m w1 M1 G1 h2 h3
          refine ⟨w', M', G', h4, fun k hk => ?_⟩
          obtain ⟨k, rfl⟩ : ∃ j, k = j + 1 := ⟨k - 1, by omega⟩
          simp only [preWalk]
          rw [if_neg (by rw [hst]; simp), h1]
          exact h5 k (by omega)
        by_cases hv : x ∈ w.visited
        · exact go { w with stack := st } M G (by unfold preStep; rw [hst]; simp only [if_pos hv])
            ⟨hi.below, hi.acyclic, hi.closed, hi.sup, hgst, hi.roots, hi.repl⟩ (by simp only; omega)
        · obtain ⟨r, hr⟩ := nnf_total false (hi.closed.fit x hx) fun a ha => hi.closed.fit a (hi.closed.kids x hx a ha)
          cases r with
          | none =>
            have hcur : G ((w.repl.lookup x).getD x) ∧ M ((w.repl.lookup x).getD x) ≤ M x := by
              cases hl : w.repl.lookup x with
              | none => exact ⟨hx, le_rfl⟩
              | some y => exact (hi.repl x y hl).2
            have hcp := pos hi.sup (hi.closed.lt _ hcur.1)
            refine go { w with stack := w.heap.kids ((w.repl.lookup x).getD x) ++ st, visited := (w.repl.lookup x).getD x :: w.visited } M G
              (by unfold preStep; rw [hst]; simp only [if_neg hv, hr])
              ⟨hi.below, hi.acyclic, hi.closed, hi.sup, ?_, hi.roots, hi.repl⟩ ?_
            · intro y hy
              rcases List.mem_append.1 hy with hy | hy
              · exact hi.closed.kids _ hcur.1 y hy
              · exact hgst y hy
            · simp only [List.map_append, List.sum_append]; omega
          | some b =>
            have hu := (nnf_olds hr).mem
            have hok : RuleOk nnfRuleG fun _ _ => True := ok_of_olds nnf_olds
            have hlt : ∀ o ∈ b.olds, o < w.next := fun o ho => (hu o ho).lt hi.below
            have hstep := step_of_rule (Q := Lab.fits false) hok hi.below hi.acyclic hxn hr (nnf_fits hr)
            obtain ⟨M', a1, a2, a3, _, a5⟩ := grow_sup b w.heap w.next w.next M le_rfl hlt hi.below hi.sup
            have hval := nnf_val hi.below hi.sup hxn hr
            have hxy : M' (grow b w.heap w.next).2.2 ≤ M' x := by rw [a3, a1 x hxn]; exact hval
            have hsup := replace_sup (x := x) (y := (grow b w.heap w.next).2.2) a2 hxy
            have hv' : ruleVisit nnfRuleG w.heap w.next x = some ((grow b w.heap w.next).1.replace x (grow b w.heap w.next).2.2,
                (grow b w.heap w.next).2.1) := by unfold ruleVisit; rw [hr]
            have hpass := ruleVisit_ok hok hi.below hi.acyclic hxn hv'
            have hcl := hi.closed.step hx hstep
            have hgy : G (grow b w.heap w.next).2.2 ∨ w.next ≤ (grow b w.heap w.next).2.2 ∧ (grow b w.heap w.next).2.2 < (grow b w.heap w.next).2.1 := by
              obtain ⟨tr, ht, _⟩ := hi.acyclic.rank
              obtain ⟨_, _, _, h3⟩ := grow_spec b w.heap w.next tr hi.below (fun z _ => ht z) hlt
              rcases h3 with h3 | h3
              · exact .inr ⟨h3, a5⟩
              · exact .inl (hi.closed.under hx (hu _ h3))
            have hrepl : ∀ z y, ((if x = (grow b w.heap w.next).2.2 then w.repl else (x, (grow b w.heap w.next).2.2) :: w.repl)).lookup z = some y →
                z < w.next ∧ (G y ∨ w.next ≤ y ∧ y < (grow b w.heap w.next).2.1) ∧ M' y ≤ M' z := by
              intro z y hl
              have old : w.repl.lookup z = some y → z < w.next ∧ (G y ∨ w.next ≤ y ∧ y < (grow b w.heap w.next).2.1) ∧ M' y ≤ M' z := by
                intro hl
                obtain ⟨hz, h1, h2⟩ := hi.repl z y hl
                refine ⟨hz, .inl h1, ?_⟩
                rw [a1 y (hi.closed.lt y h1), a1 z hz]; exact h2
              split at hl
              · exact old hl
              · rw [List.lookup_cons] at hl
                split at hl
                · rename_i hzx
                  cases hl
                  rw [eq_of_beq hzx]
                  exact ⟨hxn, hgy, hxy⟩
                · exact old hl
            generalize hrp : (if x = (grow b w.heap w.next).2.2 then w.repl else (x, (grow b w.heap w.next).2.2) :: w.repl) = rp at hrepl
            have hcur : (G ((rp.lookup x).getD x) ∨ w.next ≤ (rp.lookup x).getD x ∧ (rp.lookup x).getD x < (grow b w.heap w.next).2.1) ∧
                M' ((rp.lookup x).getD x) ≤ M' x := by
              cases hl : rp.lookup x with
              | none => exact ⟨.inl hx, le_rfl⟩
              | some y => exact (hrepl x y hl).2
            have hcp := pos hsup (hcl.lt _ hcur.1)
            refine go ⟨((grow b w.heap w.next).1.replace x (grow b w.heap w.next).2.2).kids ((rp.lookup x).getD x) ++ st,
              (rp.lookup x).getD x :: w.visited, rp, (grow b w.heap w.next).1.replace x (grow b w.heap w.next).2.2, (grow b w.heap w.next).2.1⟩ M' _
              (by unfold preStep; rw [hst]; simp only [if_neg hv, hr, hrp])
              ⟨hpass.below, hpass.acyclic, hcl, hsup, ?_, fun r h => .inl (hi.roots r h), fun z y hl => ?_⟩ ?_
            · intro y hy
              rcases List.mem_append.1 hy with hy | hy
              · exact hcl.kids _ hcur.1 y hy
              · exact .inl (hgst y hy)
            · obtain ⟨h1, h2⟩ := hrepl z y hl
              exact ⟨lt_of_lt_of_le h1 hpass.le, h2⟩
            · simp only [List.map_append, List.sum_append]
              have h1 : st.map M' = st.map M := List.map_congr_left fun y hy => a1 y (hi.closed.lt y (hgst y hy))
              have h2 := a1 x hxn
              rw [h1]
              omega

/-- `to_nnf` ends, and leaves nodes of the right shape. -/
theorem nnf_ends {h : Heap Lab} {n ft pt : Nat} (hb : h.Below n) (ha : h.Acyclic) (hf : ft < n) (hp : pt < n)
    (hs : Shaped (Lab.fits false) h [ft, pt]) : ∃ N s, (∀ f ≥ N, prePass nnfRuleG f ft pt (h, n) = some s) ∧ n ≤ s.2 ∧ s.1.Below s.2 ∧
      s.1.Acyclic ∧ Shaped (Lab.fits false) s.1 [ft, pt] := by
  obtain ⟨M, hM⟩ := exists_sup (n := n) ha
  have hc : Closed (Lab.fits false) h n fun z => Reachable h [ft, pt] z := by
    refine ⟨fun z hz => ?_, fun z hz => hs z hz, fun z hz c hc => .kid hz hc⟩
    cases hz with
    | root h1 => simp at h1; rcases h1 with rfl | rfl <;> assumption
    | kid _ hc => exact hb.kids _ _ hc
  have h0 : Inv [ft, pt] M (fun z => Reachable h [ft, pt] z) ⟨[ft], [], [], h, n⟩ :=
    ⟨hb, ha, hc, hM, by intro x hx; exact .root (by simp at hx; simp [hx]), fun r hr => .root hr, by simp⟩
  obtain ⟨w1, M1, G1, i1, e1⟩ := preWalk_ends _ _ _ _ h0 (Nat.lt_succ_self _)
  have h1 : Inv [ft, pt] M1 G1 { w1 with stack := [pt], visited := [] } :=
    ⟨i1.below, i1.acyclic, i1.closed, i1.sup, fun x hx => i1.roots x (by simp at hx; simp [hx]), i1.roots, i1.repl⟩
  obtain ⟨w2, M2, G2, i2, e2⟩ := preWalk_ends _ _ _ _ h1 (Nat.lt_succ_self _)
  generalize hA : (([ft].map M).sum).succ = A at e1
  generalize hB : (([pt].map M1).sum).succ = B at e2
  have he : ∀ f ≥ max A B, prePass nnfRuleG f ft pt (h, n) = some (w2.heap, w2.next) := by
    intro f hf
    simp only [prePass, preRule]
    rw [e1 f (le_trans (le_max_left _ _) hf)]
    simp only [Option.bind_some, preRule]
    rw [e2 f (le_trans (le_max_right _ _) hf)]
    rfl
  refine ⟨max A B, (w2.heap, w2.next), he, ?_, i2.below, i2.acyclic, ?_⟩
  · exact (prePass_ok (ok_of_olds nnf_olds) hb ha hf hp (he _ le_rfl)).le
  · intro z hz
    refine i2.closed.fit z ?_
    induction hz with
    | root h => exact i2.roots _ h
    | kid _ hc ih => exact i2.closed.kids _ ih _ hc

end NnfEnds
end R2U2
