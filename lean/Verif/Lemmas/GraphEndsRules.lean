import Verif.Lemmas.GraphEnds
import Verif.Lemmas.GraphTidy
/-
The passes of the compiler end on every graph.
-/
namespace R2U2
open Heap Expr GraphPass

/-! ### Operands -/

theorem kid_of_lt {L : Type} {h : Heap L} {x i : Nat} (hi : i < (h.kids x).length) : ∃ c, h.kid x i = some c :=
  ⟨(h.kids x)[i], by simp [Heap.kid, hi]⟩

theorem kid_mem {L : Type} {h : Heap L} {x i c : Nat} (hk : h.kid x i = some c) : c ∈ h.kids x := List.mem_of_getElem? hk

theorem kid_reach {L : Type} {h : Heap L} {x i c : Nat} (hk : h.kid x i = some c) : Reachable h [x] c := .kid .self (kid_mem hk)

theorem Heap.Shaped.kid {L : Type} {A : L → Nat → Prop} {h : Heap L} {x i c : Nat} (hs : Shaped A h [x]) (hk : h.kid x i = some c) :
    Shaped A h [c] := hs.sub fun y hy => by rw [List.mem_singleton.1 hy]; exact kid_reach hk

theorem Heap.Shaped.self {L : Type} {A : L → Nat → Prop} {h : Heap L} {x : Nat} (hs : Shaped A h [x]) : A (h.lab x) (h.kids x).length :=
  hs x .self

section
variable {L : Type} {h : Heap L} {P : Nat → Nat → Nat}

theorem Heap.Paths.kid (hP : Paths h P) {x i c : Nat} (hk : h.kid x i = some c) (z : Nat) : P c z ≤ P x z := by
  refine le_trans ?_ (hP.kids x z)
  exact List.single_le_sum (by simp) _ (List.mem_map_of_mem (kid_mem hk))

theorem Heap.Paths.kid2 (hP : Paths h P) {x c d : Nat} (hc : h.kid x 0 = some c) (hd : h.kid x 1 = some d) (z : Nat) : P c z + P d z ≤ P x z := by
  refine le_trans ?_ (hP.kids x z)
  unfold Heap.kid at hc hd
  match hk : h.kids x with
  | [] => rw [hk] at hc; simp at hc
  | [a] => rw [hk] at hd; simp at hd
  | a :: b :: rest =>
    rw [hk] at hc hd
    simp only [List.getElem?_cons_zero, List.getElem?_cons_succ, Option.some.injEq] at hc hd
    subst hc hd
    simp only [List.map_cons, List.sum_cons]
    omega
end

/-! ### Rules that leave their results alone -/

/-- A rule without texts. -/
abbrev plain (rule : Rule Lab) : Nat → Rule Lab := fun _ => rule

theorem ok_of_olds {rule : Rule Lab} (h : ∀ {h x b}, rule h x = some (some b) → b.OldsIn (h.Under x)) : RuleOk rule fun _ _ => True where
  olds hr := (h hr).mem
  step _ _ := trivial

theorem total_plain {rule : Rule Lab} {A : Lab → Nat → Prop} (ht : ∀ h x, A (h.lab x) (h.kids x).length → ∃ r, rule h x = some r) :
    ∀ h x, h.Acyclic → Shaped A h [x] → ∃ N r, ∀ f ≥ N, plain rule f h x = some r := fun h x _ hs => by
  obtain ⟨r, hr⟩ := ht h x hs.self
  exact ⟨0, r, fun _ _ => hr⟩

macro "fits_news" : tactic => `(tactic|
  (simp [Bud.neg, Bud.and, Bud.or, Bud.iff, Bud.tmp, Bud.cst, Bud.news, Bud.newsL, Lab.fits, Lab.bnfGone, Lab.extended, Lab.release]))

macro "total_cases" hA:ident h:ident x:ident : tactic => `(tactic|
  (split <;> first
    | exact ⟨_, rfl⟩
    | (rename_i hl
       rw [hl] at $hA:ident
       simp only [Lab.fits] at $hA:ident
       first
        | (obtain ⟨a, ha⟩ := kid_of_lt (h := $h) (x := $x) (i := 0) (Nat.lt_of_lt_of_le Nat.zero_lt_two $hA)
           obtain ⟨b, hb⟩ := kid_of_lt (h := $h) (x := $x) (i := 1) (show 2 ≤ _ from $hA)
           simp only [ha, hb, Option.bind_eq_bind, Option.bind_some]
           exact ⟨_, rfl⟩)
        | (obtain ⟨a, ha⟩ := kid_of_lt (h := $h) (x := $x) (i := 0) $hA
           simp only [ha, Option.bind_eq_bind, Option.bind_some]
           exact ⟨_, rfl⟩))))

theorem bnf_total (s : Bool) (h : Heap Lab) (x : Nat) (hA : Lab.fits s (h.lab x) (h.kids x).length) : ∃ r, bnfRule h x = some r := by
  unfold bnfRule; total_cases hA h x

theorem ext_total (s : Bool) (h : Heap Lab) (x : Nat) (hA : Lab.fits s (h.lab x) (h.kids x).length) : ∃ r, extRule h x = some r := by
  unfold extRule; total_cases hA h x

theorem release_total (s : Bool) (h : Heap Lab) (x : Nat) (hA : Lab.fits s (h.lab x) (h.kids x).length) : ∃ r, releaseRule h x = some r := by
  unfold releaseRule; total_cases hA h x

theorem binary_total (h : Heap Lab) (x : Nat) : ∃ r, binaryRule h x = some r := by
  unfold binaryRule; split
  · split <;> exact ⟨_, rfl⟩
  · exact ⟨_, rfl⟩

theorem ext_ends (s : Bool) : Ends (plain extRule) (Lab.fits s) :=
  Ends.settled (R := fun l _ => l.extended = true) ⟨fun _ => ok_of_olds ext_olds, by
    intro f h x b hr _
    change extRule h x = _ at hr
    unfold extRule at hr
    rule_cases hr
    · obtain ⟨_, _, _, _, rfl⟩ := hr; fits_news
    · obtain ⟨_, _, _, _, rfl⟩ := hr; fits_news
    · obtain ⟨_, _, rfl⟩ := hr; fits_news
    · obtain ⟨_, _, rfl⟩ := hr; fits_news
    · obtain ⟨_, _, rfl⟩ := hr; fits_news
    · obtain ⟨_, _, rfl⟩ := hr; fits_news, total_plain (ext_total s)⟩ (by
    intro f h x b hr
    refine ⟨?_, fun p hp => ?_⟩
    · change extRule h x = _ at hr
      unfold extRule at hr
      split at hr <;> first | (rename_i hl; rw [hl]; rfl) | cases hr
    · have := (ext_shape.news h x b hr p hp).1
      rw [this]; simp)

theorem release_ends (s : Bool) : Ends (plain releaseRule) (Lab.fits s) :=
  Ends.settled (R := fun l _ => l.release = true) ⟨fun _ => ok_of_olds release_olds, by
    intro f h x b hr _
    change releaseRule h x = _ at hr
    unfold releaseRule at hr
    rule_cases hr
    · obtain ⟨_, _, _, _, rfl⟩ := hr; fits_news, total_plain (release_total s)⟩ (by
    intro f h x b hr
    refine ⟨?_, fun p hp => ?_⟩
    · change releaseRule h x = _ at hr
      unfold releaseRule at hr
      split at hr <;> first | (rename_i hl; rw [hl]; rfl) | cases hr
    · have := release_shape.news h x b hr p hp
      rw [this]; simp)

theorem bnf_ends : Ends (plain bnfRule) (Lab.fits false) :=
  Ends.settled (R := fun l _ => l.bnfGone = true) ⟨fun _ => ok_of_olds bnf_olds, by
    intro f h x b hr _
    change bnfRule h x = _ at hr
    unfold bnfRule at hr
    rule_cases hr
    · subst hr
      simp only [Bud.neg, Bud.and, Bud.news, Bud.newsL, List.append_nil, List.length_cons, List.length_nil, List.mem_cons]
      rintro p (rfl | rfl | hp)
      · simp [Lab.fits]
      · simp [Lab.fits]
      · rw [Bud.news_neg_old _ _ hp]; simp [Lab.fits]
    · obtain ⟨_, _, _, _, rfl⟩ := hr; fits_news
    · obtain ⟨_, _, _, _, rfl⟩ := hr; fits_news
    · obtain ⟨_, _, rfl⟩ := hr; fits_news
    · obtain ⟨_, _, rfl⟩ := hr; fits_news
    · obtain ⟨_, _, _, _, rfl⟩ := hr; fits_news, total_plain (bnf_total false)⟩ (by
    intro f h x b hr
    refine ⟨?_, fun p hp => ?_⟩
    · change bnfRule h x = _ at hr
      unfold bnfRule at hr
      split at hr <;> first | (rename_i hl; rw [hl]; rfl) | cases hr
    · have := bnf_shape.news h x b hr p hp
      rw [this]; simp)

theorem binary_ends (s : Bool) : Ends (plain binaryRule) (Lab.fits s) :=
  Ends.settled (R := fun l k => multiArity l = true ∧ 3 ≤ k) ⟨fun _ => ok_of_olds binary_olds, by
    intro f h x b hr _ p hp
    obtain ⟨hm, hk⟩ := binary_shape.news h x b hr p hp
    rcases multi_iff.1 hm with h1 | h1 | h1 | h1 <;> rw [h1, hk] <;> simp [Lab.fits], total_plain fun h x _ => binary_total h x⟩ (by
    intro f h x b hr
    refine ⟨?_, fun p hp => ?_⟩
    · obtain ⟨hm, c0, c1, c2, rest, hk, _⟩ := binary_fires hr
      exact ⟨hm, by rw [hk]; simp⟩
    · have := (binary_shape.news h x b hr p hp).2
      omega)

/-! ### Flattening -/

theorem Bud.olds_old (xs : List Nat) : Bud.oldsL (xs.map (Bud.old (L := Lab))) = xs := by
  induction xs with
  | nil => rfl
  | cons x xs ih => simp [Bud.oldsL, Bud.olds, ih]

theorem flatKids_sum {h : Heap Lab} {l : Lab} {P : Nat → Nat → Nat} (hP : Paths h P) (z : Nat) : ∀ (cs acc : List Nat),
    ((flatKids h l acc cs).map fun o => P o z).sum ≤ (acc.map fun o => P o z).sum + (cs.map fun o => P o z).sum
  | [], acc => by simp [flatKids]
  | c :: cs, acc => by
      unfold flatKids
      split
      · refine le_trans (flatKids_sum hP z cs _) ?_
        have := hP.kids c z
        simp only [List.map_append, List.sum_append, List.map_cons, List.sum_cons]
        omega
      · refine le_trans (flatKids_sum hP z cs _) ?_
        simp only [List.map_append, List.sum_append, List.map_cons, List.sum_cons, List.map_nil, List.sum_nil]
        omega

theorem flatten_ends : Ends (plain flattenRule) (Lab.fits false) :=
  Ends.linear (B := 1) ⟨fun _ => ok_of_olds flatten_olds, by
    intro f h x b hr _ p hp
    obtain ⟨hm, rfl⟩ := flatten_fires hr
    simp only [Bud.news, Bud.news_old, List.mem_singleton] at hp
    subst hp
    rcases multi_iff.1 hm with h1 | h1 | h1 | h1 <;> rw [h1] <;> simp [Lab.fits],
    total_plain fun h x _ => by unfold flattenRule; split <;> exact ⟨_, rfl⟩⟩ (by
    intro f h x b P hr hP z
    obtain ⟨hm, rfl⟩ := flatten_fires hr
    simp only [Bud.olds, Bud.olds_old]
    refine le_trans (flatKids_sum hP z _ _) ?_
    have := hP.kids x z
    simpa using this) (by
    intro f h x b hr
    obtain ⟨hm, rfl⟩ := flatten_fires hr
    simp [Bud.news, Bud.news_old])

/-! ### Rewriting -/

/-- What `optimize_rewrites` puts in the place of a node. -/
structure Thin (h : Heap Lab) (x : Nat) (b : Bud Lab) : Prop where
  sum : ∀ P, Paths h P → ∀ z, (b.olds.map fun o => P o z).sum ≤ P x z
  few : b.news.length ≤ 4
  fits : ∀ p ∈ b.news, Lab.fits true p.1 p.2

macro "thin_rest" : tactic => `(tactic|
  (constructor <;> simp [Bud.neg, Bud.and, Bud.or, Bud.tmp, Bud.cst, Bud.news, Bud.newsL, Lab.fits]))

theorem thin_cst {h : Heap Lab} {x : Nat} {b : Bool} : Thin h x (Bud.cst b) :=
  ⟨fun P _ z => by simp [Bud.cst, Bud.olds, Bud.oldsL], by simp [Bud.cst, Bud.news, Bud.newsL], by fits_news⟩

theorem thin_old {h : Heap Lab} {x p : Nat} (hp : ∀ P, Paths h P → ∀ z, P p z ≤ P x z) : Thin h x (.old p) :=
  ⟨fun P hP z => by simpa [Bud.olds] using hp P hP z, by simp [Bud.news], by fits_news⟩

theorem thin_F {h : Heap Lab} {x p lb ub : Nat} (hp : ∀ P, Paths h P → ∀ z, P p z ≤ P x z) : Thin h x (Bud.tmp .F lb ub [.old p]) :=
  ⟨fun P hP z => by simpa [Bud.tmp, Bud.olds, Bud.oldsL] using hp P hP z, by simp [Bud.tmp, Bud.news, Bud.newsL], by fits_news⟩

theorem thin_G {h : Heap Lab} {x p lb ub : Nat} (hp : ∀ P, Paths h P → ∀ z, P p z ≤ P x z) : Thin h x (Bud.tmp .G lb ub [.old p]) :=
  ⟨fun P hP z => by simpa [Bud.tmp, Bud.olds, Bud.oldsL] using hp P hP z, by simp [Bud.tmp, Bud.news, Bud.newsL], by fits_news⟩

theorem thin_joined {o : TmpK} (ho : o = .F ∨ o = .G) {h : Heap Lab} {x p a b c d : Nat} {bud : Bud Lab} (hj : joined o a b c d p = some bud)
    (hp : ∀ P, Paths h P → ∀ z, P p z ≤ P x z) : Thin h x bud := by
  unfold joined at hj
  repeat' split at hj
  all_goals simp only [Option.some.injEq, reduceCtorEq] at hj
  all_goals (subst hj; rcases ho with rfl | rfl <;> first | exact thin_F hp | exact thin_G hp)

theorem thin_factored {o : TmpK} {c : OpK} (ho : o = .F ∨ o = .G) (hc : c = .and ∨ c = .or) {h : Heap Lab} {x p q a b a' b' : Nat}
    (hp : ∀ P, Paths h P → ∀ z, P p z + P q z ≤ P x z) : Thin h x (factored o c a b p a' b' q) :=
  ⟨fun P hP z => by simpa [factored, Bud.tmp, Bud.olds, Bud.oldsL] using hp P hP z, by simp [factored, Bud.tmp, Bud.news, Bud.newsL], by
    rcases ho with rfl | rfl <;> rcases hc with rfl | rfl <;> simp [factored, Bud.tmp, Bud.news, Bud.newsL, Lab.fits]⟩

theorem optNeg_thin {h : Heap Lab} {x : Nat} {b : Bud Lab} (hr : optNeg h x = some (some b)) : Thin h x b := by
  unfold optNeg at hr
  simp only [Option.bind_eq_bind, Option.bind_eq_some_iff] at hr
  obtain ⟨a, ha, hr⟩ := hr
  split at hr
  · simp only [Option.some.injEq] at hr; subst hr; exact thin_cst
  · simp only [Option.bind_eq_some_iff, Option.some.injEq] at hr
    obtain ⟨p, hp, rfl⟩ := hr
    exact thin_old fun P hP z => (hP.kid hp z).trans (hP.kid ha z)
  all_goals try cases hr
  all_goals
    simp only [Option.bind_eq_some_iff] at hr
    obtain ⟨c, hc, hr⟩ := hr
    split at hr
    · simp only [Option.bind_eq_some_iff, Option.some.injEq] at hr
      obtain ⟨p, hp, rfl⟩ := hr
      first
        | exact thin_F fun P hP z => ((hP.kid hp z).trans (hP.kid hc z)).trans (hP.kid ha z)
        | exact thin_G fun P hP z => ((hP.kid hp z).trans (hP.kid hc z)).trans (hP.kid ha z)
    · cases hr

theorem optEqual_thin {h : Heap Lab} {x : Nat} {b : Bud Lab} (hr : optEqual h x = some (some b)) : Thin h x b := by
  unfold optEqual at hr
  simp only [Option.bind_eq_bind, Option.bind_eq_some_iff] at hr
  obtain ⟨l, hl, r, hr', hr⟩ := hr
  split at hr <;> simp only [Option.some.injEq, reduceCtorEq] at hr
  · subst hr; exact thin_old fun P hP z => hP.kid hr' z
  · subst hr; exact thin_old fun P hP z => hP.kid hl z

theorem optGlob_thin {lb ub : Nat} {h : Heap Lab} {x : Nat} {b : Bud Lab} (hr : optGlob lb ub h x = some (some b)) : Thin h x b := by
  unfold optGlob at hr
  simp only [Option.bind_eq_bind, Option.bind_eq_some_iff] at hr
  obtain ⟨a, ha, hr⟩ := hr
  have hdf : ∀ {b}, (if lb = 0 ∧ ub = 0 then some (Bud.old a) else none) = some b → Thin h x b := by
    intro b hb
    split at hb
    · cases hb; exact thin_old fun P hP z => hP.kid ha z
    · cases hb
  split at hr
  · simp only [Option.some.injEq] at hr
    split at hr
    · cases hr; exact thin_cst
    · exact hdf hr
  · simp only [Option.bind_eq_some_iff, Option.some.injEq] at hr
    obtain ⟨p, hp, rfl⟩ := hr
    exact thin_G fun P hP z => (hP.kid hp z).trans (hP.kid ha z)
  · simp only [Option.bind_eq_some_iff] at hr
    obtain ⟨p, hp, hr⟩ := hr
    split at hr
    · cases hr; exact thin_F fun P hP z => (hP.kid hp z).trans (hP.kid ha z)
    · split at hr
      · cases hr; exact thin_G fun P hP z => (hP.kid hp z).trans (hP.kid ha z)
      · exact hdf (Option.some.inj hr)
  · exact hdf (Option.some.inj hr)

theorem optFut_thin {lb ub : Nat} {h : Heap Lab} {x : Nat} {b : Bud Lab} (hr : optFut lb ub h x = some (some b)) : Thin h x b := by
  unfold optFut at hr
  simp only [Option.bind_eq_bind, Option.bind_eq_some_iff] at hr
  obtain ⟨a, ha, hr⟩ := hr
  have hdf : ∀ {b}, (if lb = 0 ∧ ub = 0 then some (Bud.old a) else none) = some b → Thin h x b := by
    intro b hb
    split at hb
    · cases hb; exact thin_old fun P hP z => hP.kid ha z
    · cases hb
  split at hr
  · simp only [Option.some.injEq] at hr
    split at hr
    · exact hdf hr
    · cases hr; exact thin_cst
  · simp only [Option.bind_eq_some_iff, Option.some.injEq] at hr
    obtain ⟨p, hp, rfl⟩ := hr
    exact thin_F fun P hP z => (hP.kid hp z).trans (hP.kid ha z)
  · simp only [Option.bind_eq_some_iff] at hr
    obtain ⟨p, hp, hr⟩ := hr
    split at hr
    · cases hr; exact thin_G fun P hP z => (hP.kid hp z).trans (hP.kid ha z)
    · split at hr
      · cases hr; exact thin_F fun P hP z => (hP.kid hp z).trans (hP.kid ha z)
      · exact hdf (Option.some.inj hr)
  · exact hdf (Option.some.inj hr)

theorem optAnd_thin {fuel : Nat} {h : Heap Lab} {x : Nat} {b : Bud Lab} (hr : optAnd fuel h x = some (some b)) : Thin h x b := by
  unfold optAnd at hr
  simp only [Option.bind_eq_bind, Option.bind_eq_some_iff] at hr
  obtain ⟨l, hl, r, hr', hr⟩ := hr
  split at hr
  · simp only [Option.bind_eq_some_iff] at hr
    obtain ⟨p, hp, q, hq, sp, _, sq, _, hr⟩ := hr
    split at hr
    · exact thin_joined (.inr rfl) (Option.some.inj hr) fun P hP z => (hP.kid hp z).trans (hP.kid hl z)
    · simp only [Option.some.injEq] at hr
      subst hr
      exact thin_factored (.inr rfl) (.inl rfl) fun P hP z => (Nat.add_le_add (hP.kid hp z) (hP.kid hq z)).trans (hP.kid2 hl hr' z)
  · simp only [Option.bind_eq_some_iff] at hr
    obtain ⟨p, hp, q, hq, sp, _, sq, _, hr⟩ := hr
    repeat' split at hr
    all_goals simp only [Option.some.injEq, reduceCtorEq] at hr
    all_goals (subst hr; exact thin_F fun P hP z => (hP.kid hp z).trans (hP.kid hl z))
  · simp only [Option.bind_eq_some_iff] at hr
    obtain ⟨p, hp, q, hq, r', hr1, s, hs, sp, _, sq, _, hr⟩ := hr
    split at hr
    · simp only [Option.some.injEq] at hr
      subst hr
      refine ⟨fun P hP z => ?_, by simp [Bud.tmp, Bud.and, Bud.news, Bud.newsL], by fits_news⟩
      simp only [Bud.tmp, Bud.and, Bud.olds, Bud.oldsL, List.append_nil, List.cons_append, List.nil_append, List.map_cons, List.map_nil,
        List.sum_cons, List.sum_nil]
      have h1 := hP.kid2 hp hq z
      have h2 := hP.kid hr1 z
      have h3 := hP.kid2 hl hr' z
      omega
    · cases hr
  · cases hr

theorem optOr_thin {fuel : Nat} {h : Heap Lab} {x : Nat} {b : Bud Lab} (hr : optOr fuel h x = some (some b)) : Thin h x b := by
  unfold optOr at hr
  simp only [Option.bind_eq_bind, Option.bind_eq_some_iff] at hr
  obtain ⟨l, hl, r, hr', hr⟩ := hr
  split at hr
  · simp only [Option.bind_eq_some_iff] at hr
    obtain ⟨p, hp, q, hq, sp, _, sq, _, hr⟩ := hr
    split at hr
    · exact thin_joined (.inl rfl) (Option.some.inj hr) fun P hP z => (hP.kid hp z).trans (hP.kid hl z)
    · simp only [Option.some.injEq] at hr
      subst hr
      exact thin_factored (.inl rfl) (.inr rfl) fun P hP z => (Nat.add_le_add (hP.kid hp z) (hP.kid hq z)).trans (hP.kid2 hl hr' z)
  · simp only [Option.bind_eq_some_iff] at hr
    obtain ⟨p, hp, q, hq, sp, _, sq, _, hr⟩ := hr
    repeat' split at hr
    all_goals simp only [Option.some.injEq, reduceCtorEq] at hr
    all_goals (subst hr; exact thin_G fun P hP z => (hP.kid hp z).trans (hP.kid hl z))
  · cases hr

theorem opt_thin {fuel : Nat} {h : Heap Lab} {x : Nat} {b : Bud Lab} (hr : optRule fuel h x = some (some b)) : Thin h x b := by
  unfold optRule at hr
  split at hr
  · exact optNeg_thin hr
  · exact optEqual_thin hr
  · exact optGlob_thin hr
  · exact optFut_thin hr
  · exact optAnd_thin hr
  · exact optOr_thin hr
  · cases hr

/-! Every visit of `optimize_rewrites` succeeds. -/

theorem text_total {h : Heap Lab} (ha : h.Acyclic) (x : Nat) : ∃ N t, ∀ f ≥ N, text f h x = some t := by
  obtain ⟨t, N, ht⟩ := ha x
  refine ⟨N, infixStr t, fun f hf => ?_⟩
  unfold text
  rw [unfold_mono hf ht]; rfl

/-- Texts of two nodes, for all fuel that is enough. -/
theorem text2 {h : Heap Lab} (ha : h.Acyclic) (x y : Nat) {β : Type} {F : Nat → List Char → List Char → Option β}
    (hF : ∀ s t, ∃ r, ∀ f, F f s t = some r) :
    ∃ N r, ∀ f ≥ N, ((text f h x).bind fun s => (text f h y).bind fun t => F f s t) = some r := by
  obtain ⟨N1, s, h1⟩ := text_total ha x
  obtain ⟨N2, t, h2⟩ := text_total ha y
  obtain ⟨r, hr⟩ := hF s t
  exact ⟨max N1 N2, r, fun f hf => by simp [h1 f (by omega), h2 f (by omega), hr f]⟩

theorem optNeg_total {h : Heap Lab} {x : Nat} (hs : Shaped (Lab.fits true) h [x]) (hl : h.lab x = .op .neg) : ∃ r, optNeg h x = some r := by
  have h0 := hs.self
  rw [hl] at h0
  obtain ⟨a, ha⟩ := kid_of_lt (h := h) (x := x) (i := 0) h0
  have hsa := hs.kid ha
  have h1 := hsa.self
  unfold optNeg
  simp only [ha, Option.bind_eq_bind, Option.bind_some]
  split
  · exact ⟨_, rfl⟩
  · rename_i hla
    rw [hla] at h1
    obtain ⟨p, hp⟩ := kid_of_lt (h := h) (x := a) (i := 0) h1
    simp only [hp, Option.bind_some]; exact ⟨_, rfl⟩
  all_goals first | exact ⟨_, rfl⟩ | skip
  all_goals
    rename_i hla
    rw [hla] at h1
    obtain ⟨c, hc⟩ := kid_of_lt (h := h) (x := a) (i := 0) h1
    simp only [hc, Option.bind_some]
    split
    · rename_i hlc
      have h2 := (hsa.kid hc).self
      rw [hlc] at h2
      obtain ⟨p, hp⟩ := kid_of_lt (h := h) (x := c) (i := 0) h2
      simp only [hp, Option.bind_some]; exact ⟨_, rfl⟩
    · exact ⟨_, rfl⟩

theorem optEqual_total {h : Heap Lab} {x : Nat} (hs : Shaped (Lab.fits true) h [x]) (hl : h.lab x = .op .eq) : ∃ r, optEqual h x = some r := by
  have h0 := hs.self
  rw [hl] at h0
  have h0 := h0 rfl
  obtain ⟨a, ha⟩ := kid_of_lt (h := h) (x := x) (i := 0) (by omega)
  obtain ⟨b, hb⟩ := kid_of_lt (h := h) (x := x) (i := 1) (by omega)
  unfold optEqual
  simp only [ha, hb, Option.bind_eq_bind, Option.bind_some]
  split <;> exact ⟨_, rfl⟩

theorem optGlob_total {h : Heap Lab} {x lb ub : Nat} (hs : Shaped (Lab.fits true) h [x]) (hl : h.lab x = .tmp .G lb ub) :
    ∃ r, optGlob lb ub h x = some r := by
  have h0 := hs.self
  rw [hl] at h0
  obtain ⟨a, ha⟩ := kid_of_lt (h := h) (x := x) (i := 0) h0
  have h1 := (hs.kid ha).self
  unfold optGlob
  simp only [ha, Option.bind_eq_bind, Option.bind_some]
  split
  · exact ⟨_, rfl⟩
  · rename_i hla
    rw [hla] at h1
    obtain ⟨p, hp⟩ := kid_of_lt (h := h) (x := a) (i := 0) h1
    simp only [hp, Option.bind_some]; exact ⟨_, rfl⟩
  · rename_i hla
    rw [hla] at h1
    obtain ⟨p, hp⟩ := kid_of_lt (h := h) (x := a) (i := 0) h1
    simp only [hp, Option.bind_some]
    split
    · exact ⟨_, rfl⟩
    · split <;> exact ⟨_, rfl⟩
  · exact ⟨_, rfl⟩

theorem optFut_total {h : Heap Lab} {x lb ub : Nat} (hs : Shaped (Lab.fits true) h [x]) (hl : h.lab x = .tmp .F lb ub) :
    ∃ r, optFut lb ub h x = some r := by
  have h0 := hs.self
  rw [hl] at h0
  obtain ⟨a, ha⟩ := kid_of_lt (h := h) (x := x) (i := 0) h0
  have h1 := (hs.kid ha).self
  unfold optFut
  simp only [ha, Option.bind_eq_bind, Option.bind_some]
  split
  · exact ⟨_, rfl⟩
  · rename_i hla
    rw [hla] at h1
    obtain ⟨p, hp⟩ := kid_of_lt (h := h) (x := a) (i := 0) h1
    simp only [hp, Option.bind_some]; exact ⟨_, rfl⟩
  · rename_i hla
    rw [hla] at h1
    obtain ⟨p, hp⟩ := kid_of_lt (h := h) (x := a) (i := 0) h1
    simp only [hp, Option.bind_some]
    split
    · exact ⟨_, rfl⟩
    · split <;> exact ⟨_, rfl⟩
  · exact ⟨_, rfl⟩

theorem optAnd_total {h : Heap Lab} (hac : h.Acyclic) {x : Nat} (hs : Shaped (Lab.fits true) h [x]) (hl : h.lab x = .op .and) :
    ∃ N r, ∀ f ≥ N, optAnd f h x = some r := by
  have h0 := hs.self
  rw [hl] at h0
  have h0 := h0 rfl
  obtain ⟨a, ha⟩ := kid_of_lt (h := h) (x := x) (i := 0) (by omega)
  obtain ⟨b, hb⟩ := kid_of_lt (h := h) (x := x) (i := 1) (by omega)
  have h1 := (hs.kid ha).self
  have h2 := (hs.kid hb).self
  unfold optAnd
  simp only [ha, hb, Option.bind_eq_bind, Option.bind_some]
  split
  · rename_i hla hlb
    rw [hla] at h1; rw [hlb] at h2
    obtain ⟨p, hp⟩ := kid_of_lt (h := h) (x := a) (i := 0) h1
    obtain ⟨q, hq⟩ := kid_of_lt (h := h) (x := b) (i := 0) h2
    simp only [hp, hq, Option.bind_some]
    exact text2 hac p q fun s t => by split <;> exact ⟨_, fun _ => rfl⟩
  · rename_i hla hlb
    rw [hla] at h1; rw [hlb] at h2
    obtain ⟨p, hp⟩ := kid_of_lt (h := h) (x := a) (i := 0) h1
    obtain ⟨q, hq⟩ := kid_of_lt (h := h) (x := b) (i := 0) h2
    simp only [hp, hq, Option.bind_some]
    exact text2 hac p q fun s t => by (repeat' split) <;> exact ⟨_, fun _ => rfl⟩
  · rename_i hla hlb
    rw [hla] at h1; rw [hlb] at h2
    simp only [Lab.fits] at h1 h2
    obtain ⟨p, hp⟩ := kid_of_lt (h := h) (x := a) (i := 0) (by omega)
    obtain ⟨q, hq⟩ := kid_of_lt (h := h) (x := a) (i := 1) (by omega)
    obtain ⟨r, hr⟩ := kid_of_lt (h := h) (x := b) (i := 0) (by omega)
    obtain ⟨s, hs'⟩ := kid_of_lt (h := h) (x := b) (i := 1) (by omega)
    simp only [hp, hq, hr, hs', Option.bind_some]
    exact text2 hac q s fun s t => by split <;> exact ⟨_, fun _ => rfl⟩
  · exact ⟨0, _, fun _ _ => rfl⟩

theorem optOr_total {h : Heap Lab} (hac : h.Acyclic) {x : Nat} (hs : Shaped (Lab.fits true) h [x]) (hl : h.lab x = .op .or) :
    ∃ N r, ∀ f ≥ N, optOr f h x = some r := by
  have h0 := hs.self
  rw [hl] at h0
  have h0 := h0 rfl
  obtain ⟨a, ha⟩ := kid_of_lt (h := h) (x := x) (i := 0) (by omega)
  obtain ⟨b, hb⟩ := kid_of_lt (h := h) (x := x) (i := 1) (by omega)
  have h1 := (hs.kid ha).self
  have h2 := (hs.kid hb).self
  unfold optOr
  simp only [ha, hb, Option.bind_eq_bind, Option.bind_some]
  split
  · rename_i hla hlb
    rw [hla] at h1; rw [hlb] at h2
    obtain ⟨p, hp⟩ := kid_of_lt (h := h) (x := a) (i := 0) h1
    obtain ⟨q, hq⟩ := kid_of_lt (h := h) (x := b) (i := 0) h2
    simp only [hp, hq, Option.bind_some]
    exact text2 hac p q fun s t => by split <;> exact ⟨_, fun _ => rfl⟩
  · rename_i hla hlb
    rw [hla] at h1; rw [hlb] at h2
    obtain ⟨p, hp⟩ := kid_of_lt (h := h) (x := a) (i := 0) h1
    obtain ⟨q, hq⟩ := kid_of_lt (h := h) (x := b) (i := 0) h2
    simp only [hp, hq, Option.bind_some]
    exact text2 hac p q fun s t => by (repeat' split) <;> exact ⟨_, fun _ => rfl⟩
  · exact ⟨0, _, fun _ _ => rfl⟩

theorem opt_total {h : Heap Lab} {x : Nat} (hac : h.Acyclic) (hs : Shaped (Lab.fits true) h [x]) : ∃ N r, ∀ f ≥ N, optRule f h x = some r := by
  unfold optRule
  split
  · rename_i hl; obtain ⟨r, hr⟩ := optNeg_total hs hl; exact ⟨0, r, fun _ _ => hr⟩
  · rename_i hl; obtain ⟨r, hr⟩ := optEqual_total hs hl; exact ⟨0, r, fun _ _ => hr⟩
  · rename_i hl; obtain ⟨r, hr⟩ := optGlob_total hs hl; exact ⟨0, r, fun _ _ => hr⟩
  · rename_i hl; obtain ⟨r, hr⟩ := optFut_total hs hl; exact ⟨0, r, fun _ _ => hr⟩
  · rename_i hl; exact optAnd_total hac hs hl
  · rename_i hl; exact optOr_total hac hs hl
  · exact ⟨0, _, fun _ _ => rfl⟩

theorem opt_ends : Ends optRule (Lab.fits true) :=
  Ends.linear (B := 4) ⟨fun _ => ok_of_olds opt_olds, fun f h x b hr _ => (opt_thin hr).fits, fun h x ha hs => opt_total ha hs⟩
    (fun f h x b P hr hP z => (opt_thin hr).sum P hP z) (fun f h x b hr => (opt_thin hr).few)

end R2U2
