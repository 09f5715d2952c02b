import Verif.Spec.TypeCheck
import Verif.Lemmas.Expand
/-
Type checking: how the context changes, and what accepted expressions are like.
-/
namespace R2U2

theorem Tbl.lookup_del {A : Type} (d : Tbl A) (k s : String) : (Tbl.del d k).lookup s = if s = k then none else d.lookup s := by
  induction d with
  | nil => simp [Tbl.del]
  | cons e d ih =>
    obtain ⟨a, b⟩ := e
    simp only [Tbl.del] at ih
    simp only [Tbl.del, List.filter_cons, List.lookup_cons]
    by_cases hak : a = k
    · subst hak
      simp only [bne_self_eq_false, Bool.false_eq_true, if_false, ih]
      by_cases hs : s = a
      · simp [hs]
      · have : (s == a) = false := by simpa using hs
        simp [hs, this]
    · have : (a != k) = true := by simpa using hak
      simp only [this, if_true, List.lookup_cons, ih]
      by_cases hs : s = a
      · subst hs; simp [hak]
      · have : (s == a) = false := by simpa using hs
        simp [this]

theorem Tbl.lookup_set {A : Type} (d : Tbl A) (k s : String) (a : A) : (Tbl.set d k a).lookup s = if s = k then some a else d.lookup s := by
  have := Tbl.lookup_del d k s
  simp only [Tbl.del] at this
  simp only [Tbl.set, List.lookup_cons, this]
  by_cases hs : s = k
  · simp [hs]
  · have : (s == k) = false := by simpa using hs
    simp [hs, this]

theorem Tbl.has_iff {A : Type} {d : Tbl A} {k : String} : Tbl.has d k = true ↔ ∃ a, d.lookup k = some a := by
  simp [Tbl.has, Option.isSome_iff_exists]

namespace Tc

theorem check_inv {Γ Γ' : TcCtx} {k ty cs e'} (h : check Γ (.node k ty cs) = some (e', Γ')) :
    (∃ kk v set body set' body' Γ1 Γ2 Γ3, k = .agg kk v ∧ cs = [set, body] ∧ check Γ set = some (set', Γ1) ∧
      check { Γ1 with bound := Γ1.bound.set v set'.ty } body = some (body', Γ2) ∧ unbind Γ2 v = some Γ3 ∧
      aggregation Γ3 kk v set' none body' = some Γ' ∧ e' = .node (.agg kk v) .bool [set', body']) ∨
    (∃ kk v set num body set' num' body' Γ1 Γ4 Γ2 Γ3, k = .agg kk v ∧ cs = [set, num, body] ∧ check Γ set = some (set', Γ1) ∧
      check Γ1 num = some (num', Γ4) ∧
      check { Γ4 with bound := Γ4.bound.set v set'.ty } body = some (body', Γ2) ∧ unbind Γ2 v = some Γ3 ∧
      aggregation Γ3 kk v set' (some num') body' = some Γ' ∧ e' = .node (.agg kk v) .bool [set', num', body']) ∨
    (∃ cs' Γ1, (∀ kk v, k ≠ .agg kk v) ∧ checkL Γ cs = some (cs', Γ1) ∧ node Γ1 k cs' = some (e', Γ')) := by
  unfold check at h
  split at h
  · rename_i k' v _ set body heq
    cases heq
    simp only [Option.bind_eq_some_iff, Option.map_eq_some_iff] at h
    obtain ⟨⟨set', Γ1⟩, h1, ⟨body', Γ2⟩, h2, Γ3, h3, Γ4, h4, h5⟩ := h
    simp at h5
    obtain ⟨rfl, rfl⟩ := h5
    exact .inl ⟨_, _, _, _, _, _, _, _, _, rfl, rfl, h1, h2, h3, h4, rfl⟩
  · rename_i k' v _ set num body heq
    cases heq
    simp only [Option.bind_eq_some_iff, Option.map_eq_some_iff] at h
    obtain ⟨⟨set', Γ1⟩, h1, ⟨num', Γ4⟩, h6, ⟨body', Γ2⟩, h2, Γ3, h3, Γ5, h4, h5⟩ := h
    simp at h5
    obtain ⟨rfl, rfl⟩ := h5
    exact .inr (.inl ⟨_, _, _, _, _, _, _, _, _, _, _, _, rfl, rfl, h1, h6, h2, h3, h4, rfl⟩)
  · rename_i heq
    cases heq
    simp only [Option.bind_eq_some_iff] at h
    obtain ⟨⟨cs', Γ1⟩, h1, h2⟩ := h
    refine .inr (.inr ⟨cs', Γ1, ?_, h1, h2⟩)
    rintro kk v rfl
    simp [node] at h2

/-- How the context changes: bound variables among `names` are gone, variables among `names` may be new. -/
structure Ext (Γ Γ' : TcCtx) (names : List String) : Prop where
  structs : Γ'.structs = Γ.structs
  enums : Γ'.enums = Γ.enums
  specs : Γ'.specs = Γ.specs
  contracts : Γ'.contracts = Γ.contracts
  definitions : Γ'.definitions = Γ.definitions
  ft : Γ'.ft = Γ.ft
  bz : Γ'.bz = Γ.bz
  width : Γ'.width = Γ.width
  signed : Γ'.signed = Γ.signed
  bound : Γ'.bound = Γ.bound.filter fun e => decide (e.1 ∉ names)
  signals : ∀ s t, Γ'.signals.lookup s = some t → Γ.signals.lookup s = some t
  vars : ∀ s, s ∉ names → Γ'.vars.lookup s = Γ.vars.lookup s

theorem Ext.refl (Γ : TcCtx) : Ext Γ Γ [] :=
  ⟨rfl, rfl, rfl, rfl, rfl, rfl, rfl, rfl, rfl, by simp, fun _ _ h => h, fun _ _ => rfl⟩

theorem Ext.trans {Γ Γ1 Γ2 : TcCtx} {n m : List String} (h1 : Ext Γ Γ1 n) (h2 : Ext Γ1 Γ2 m) : Ext Γ Γ2 (n ++ m) := by
  refine ⟨h2.structs.trans h1.structs, h2.enums.trans h1.enums, h2.specs.trans h1.specs, h2.contracts.trans h1.contracts,
    h2.definitions.trans h1.definitions, h2.ft.trans h1.ft, h2.bz.trans h1.bz, h2.width.trans h1.width,
    h2.signed.trans h1.signed, ?_, fun s t h => h1.signals s t (h2.signals s t h), ?_⟩
  · rw [h2.bound, h1.bound, List.filter_filter]
    congr 1
    funext e
    simp [Bool.and_comm]
  · intro s hs
    simp only [List.mem_append, not_or] at hs
    rw [h2.vars s hs.2, h1.vars s hs.1]

theorem Typ.eqv_bool {t : Typ} (h : t.eqv .bool = true) : t = .bool := by
  cases t <;> simp [Typ.eqv] at h <;> rfl

theorem Typ.eqv_int {t : Typ} (h : t.eqv .int = true) : t = .int := by
  cases t <;> simp [Typ.eqv] at h <;> rfl

/-- The ways a node is accepted. -/
inductive Step (Γ : TcCtx) : SK → List Src → Src → TcCtx → Prop
  | lit {v cs} : Step Γ (.lit v) cs (.node (.lit v) (litTyp v) cs) Γ
  | tau {cs} : Step Γ .tau cs (.node .tau .int cs) Γ
  | sig {s t cs} : Γ.signals.lookup s = some t → Step Γ (.sig s) cs (.node (.sig s) t cs) Γ
  | var {s t cs} : varTyp Γ s = some t → Step Γ (.var s) cs (.node (.var s) t cs) Γ
  | array {t n cs} : (∀ c ∈ cs, c.ty.eqv t = true) → Step Γ .array cs (.node .array (.arr t n) cs) Γ
  | slice {a b m n l} {a' b' : Int} {c : Src} : c.ty = .arr m n → 0 ≤ a' → Step Γ (.slice a b) [c] (.node (.slice a' b') (.arr m l) [c]) Γ
  | index {i m n Γ'} {i' : Int} {c : Src} : c.ty = .arr m n → 0 ≤ i' → (Γ' = Γ ∨ ∃ s, Γ' = { Γ with signals := Γ.signals.del s }) →
      Step Γ (.index i) [c] (.node (.index i') m [c]) Γ'
  | access {m t fs} {c : Src} : Γ.structs.lookup c.ty.symbol = some fs → fs.lookup m = some t → Step Γ (.access m) [c] (.node (.access m) t [c]) Γ
  | call {f fs cs} : Γ.structs.lookup f = some fs → (fs.zip cs).all (fun p => p.1.2.eqv p.2.ty) = true →
      Step Γ (.call f) cs (.node (.call f) (.struct f) cs) Γ
  | struct {f ms fs cs} : Γ.structs.lookup f = some fs → (fs.zip cs).all (fun p => p.1.2.eqv p.2.ty) = true →
      Step Γ (.struct f ms) cs (.node (.struct f ms) (.struct f) cs) Γ
  | tmp {o lb ub cs} : (∀ c ∈ cs, c.ty = .bool) → o.future = Γ.ft → lb ≤ ub → Step Γ (.tmp o lb ub) cs (.node (.tmp o lb ub) .bool cs) Γ
  | minmax {o cs} : o = .min ∨ o = .max → (∀ c ∈ cs, c.ty = .int) → Step Γ (.op o) cs (.node (.op o) .int cs) Γ
  | bits {o t cs} : o.bitwise = true → bits Γ cs = some t → Step Γ (.op o) cs (.node (.op o) t cs) Γ
  | arith {o t cs} : o.arithmetic = true → arith Γ o cs = some t → Step Γ (.op o) cs (.node (.op o) t cs) Γ
  | rel {o cs cs'} : o.isRel = true → compare Γ o cs = some cs' → Step Γ (.op o) cs (.node (.op o) .bool cs') Γ
  | logical {o cs} : o.logical = true → (∀ c ∈ cs, c.ty = .bool) → Step Γ (.op o) cs (.node (.op o) .bool cs) Γ
  | prev {cs cs' t} : previous Γ cs = some (cs', t) → Step Γ (.op .prev) cs (.node (.op .prev) t cs') Γ

theorem node_inv {Γ Γ' : TcCtx} {k cs e'} (h : node Γ k cs = some (e', Γ')) : Step Γ k cs e' Γ' := by
  unfold node at h
  split at h
  · split_ifs at h
    cases h; exact .lit
  · cases h; exact .tau
  · rename_i s
    simp only [Option.map_eq_some_iff] at h
    obtain ⟨t, h1, h2⟩ := h
    cases h2
    refine .sig ?_
    simp only [signal, Option.bind_eq_some_iff] at h1
    obtain ⟨u, h3, h4⟩ := h1
    split_ifs at h4
    · cases h4; exact h3
    · cases u <;> simp at h4 <;> subst h4 <;> exact h3
  · simp only [Option.map_eq_some_iff] at h
    obtain ⟨t, h1, h2⟩ := h
    cases h2; exact .var h1
  · simp only at h
    split_ifs at h with hc
    cases h
    exact .array (by simpa using hc)
  · split at h
    · rename_i m n hty
      split_ifs at h
      cases h
      exact .slice hty (by omega)
    · cases h
  · split at h
    · rename_i m n hty
      split_ifs at h
      simp only [Option.some.injEq, Prod.mk.injEq] at h
      obtain ⟨rfl, rfl⟩ := h
      refine .index hty (by omega) ?_
      split
      · exact .inr ⟨_, rfl⟩
      · exact .inl rfl
    · cases h
  · simp only [Option.bind_eq_some_iff, Option.map_eq_some_iff] at h
    obtain ⟨fs, h1, t, h2, h3⟩ := h
    cases h3; exact .access h1 h2
  · simp only [Option.bind_eq_some_iff] at h
    obtain ⟨fs, h1, h2⟩ := h
    split_ifs at h2 with hc
    cases h2; exact .call h1 hc
  · simp only [Option.bind_eq_some_iff] at h
    obtain ⟨fs, h1, h2⟩ := h
    split_ifs at h2 with hc
    cases h2; exact .struct h1 hc
  · split_ifs at h with hc
    cases h
    simp only [Bool.and_eq_true, List.all_eq_true, beq_iff_eq, decide_eq_true_eq] at hc
    exact .tmp (fun c hcc => Typ.eqv_bool (hc.1.1 c hcc)) hc.1.2 hc.2
  · split_ifs at h with h1 h2 h3 h4 h5 h6 h7 h8
    · cases h
      exact .minmax h1 fun c hc => Typ.eqv_int (by simpa using List.all_eq_true.mp h2 c hc)
    · simp only [Option.map_eq_some_iff] at h
      obtain ⟨t, h9, h10⟩ := h
      cases h10; exact .bits h3 h9
    · simp only [Option.map_eq_some_iff] at h
      obtain ⟨t, h9, h10⟩ := h
      cases h10; exact .arith h4 h9
    · simp only [Option.map_eq_some_iff] at h
      obtain ⟨t, h9, h10⟩ := h
      cases h10; exact .rel h5 h9
    · cases h
      exact .logical h6 fun c hc => Typ.eqv_bool (by simpa using List.all_eq_true.mp h7 c hc)
    · subst h8
      simp only [Option.map_eq_some_iff] at h
      obtain ⟨⟨cs', t⟩, h9, h10⟩ := h
      cases h10; exact .prev h9
  · cases h

theorem Step.ext {Γ Γ' : TcCtx} {k cs e'} (h : Step Γ k cs e' Γ') : Ext Γ Γ' [] := by
  cases h
  case index hty hi h =>
    rcases h with rfl | ⟨s, rfl⟩
    · exact Ext.refl _
    · refine ⟨rfl, rfl, rfl, rfl, rfl, rfl, rfl, rfl, rfl, by simp, fun s t h => ?_, fun _ _ => rfl⟩
      rw [Tbl.lookup_del] at h
      split_ifs at h
      exact h
  all_goals exact Ext.refl _

theorem checkL_inv {Γ Γ' : TcCtx} {c : Src} {cs cs' : List Src} (h : checkL Γ (c :: cs) = some (cs', Γ')) :
    ∃ c1 cs1 Γ1, check Γ c = some (c1, Γ1) ∧ checkL Γ1 cs = some (cs1, Γ') ∧ cs' = c1 :: cs1 := by
  simp only [checkL, Option.bind_eq_some_iff] at h
  obtain ⟨⟨c1, Γ1⟩, h1, ⟨cs1, Γ2⟩, h2, h3⟩ := h
  cases h3
  exact ⟨c1, cs1, Γ1, h1, h2, rfl⟩

theorem unbind_inv {Γ Γ' : TcCtx} {v : String} (h : unbind Γ v = some Γ') : Tbl.has Γ.bound v = true ∧ Γ' = { Γ with bound := Γ.bound.del v } := by
  unfold unbind at h
  split_ifs at h with hc
  cases h
  exact ⟨hc, rfl⟩

theorem aggregation_inv {Γ Γ' : TcCtx} {k v set num body} (h : aggregation Γ k v set num body = some Γ') :
    ∃ m n, set.ty = .arr m n ∧ body.ty = .bool ∧ (k = .each ∨ k = .some ∨ ∃ e, num = some e ∧ e.ty.isInteger = true) ∧
      Γ' = { Γ with vars := Γ.vars.set v m } := by
  unfold aggregation at h
  split at h
  · rename_i m n hty
    simp only [Bool.and_eq_true] at h
    split_ifs at h with hc
    cases h
    refine ⟨m, n, hty, Typ.eqv_bool hc.2, ?_, rfl⟩
    cases k
    · exact .inl rfl
    · exact .inr (.inl rfl)
    all_goals
      cases num
      · simp at hc
      · simp at hc; exact .inr (.inr ⟨_, rfl, hc.1.2⟩)
  · cases h

theorem filter_key {A : Type} {d : Tbl A} {p : String → Prop} [DecidablePred p] {v : String}
    (h : Tbl.has (d.filter fun e => decide (p e.1)) v = true) : p v := by
  obtain ⟨a, ha⟩ := Tbl.has_iff.mp h
  have := List.mem_of_lookup ha
  simpa using (List.mem_filter.mp this).2

/-- The middle of an aggregation: bind, check the body, unbind, remember the variable. -/
theorem Ext.body {Γ Γ2 Γ3 Γ' : TcCtx} {v : String} {t m : Typ} {n : List String}
    (h1 : Ext { Γ with bound := Γ.bound.set v t } Γ2 n) (h2 : unbind Γ2 v = some Γ3) (h3 : Γ' = { Γ3 with vars := Γ3.vars.set v m }) :
    v ∉ n ∧ Ext Γ Γ' (v :: n) := by
  obtain ⟨hb, rfl⟩ := unbind_inv h2
  subst h3
  have hv : v ∉ n := by
    rw [h1.bound] at hb
    exact filter_key (p := fun s => s ∉ n) hb
  refine ⟨hv, h1.structs, h1.enums, h1.specs, h1.contracts, h1.definitions, h1.ft, h1.bz, h1.width, h1.signed, ?_, h1.signals, ?_⟩
  · simp only [Tbl.del]
    rw [h1.bound]
    simp only [Tbl.set, List.filter_cons, hv, not_false_eq_true, decide_true, if_true, bne_self_eq_false, Bool.false_eq_true, if_false,
      List.filter_filter]
    congr 1
    funext e
    by_cases h : e.1 = v
    · simp [h]
    · have : (e.1 != v) = true := by simpa using h
      simp [h, this]
  · intro s hs
    simp only [List.mem_cons, not_or] at hs
    simp only
    rw [Tbl.lookup_set, if_neg hs.1, h1.vars s hs.2]

theorem Ext.congr {Γ Γ' : TcCtx} {n m : List String} (h : Ext Γ Γ' n) (hnm : ∀ s, s ∈ n ↔ s ∈ m) : Ext Γ Γ' m := by
  refine ⟨h.structs, h.enums, h.specs, h.contracts, h.definitions, h.ft, h.bz, h.width, h.signed, ?_, h.signals,
    fun s hs => h.vars s (by rwa [hnm])⟩
  rw [h.bound]
  congr 1
  funext e
  simp [hnm]

theorem check_ext {e : Src} : ∀ {Γ Γ' : TcCtx} {e'}, check Γ e = some (e', Γ') → Ext Γ Γ' e.bound := by
  induction e using Src.ind with
  | h k ty cs ih =>
    intro Γ Γ' e' h
    rcases check_inv h with ⟨kk, v, set, body, set', body', Γ1, Γ2, Γ3, rfl, rfl, h1, h2, h3, h4, rfl⟩ |
      ⟨kk, v, set, num, body, set', num', body', Γ1, Γ4, Γ2, Γ3, rfl, rfl, h1, h5, h2, h3, h4, rfl⟩ | ⟨cs', Γ1, hk, h1, h2⟩
    · obtain ⟨m, n, _, _, _, h4⟩ := aggregation_inv h4
      refine ((ih set (by simp) h1).trans (Ext.body (ih body (by simp) h2) h3 h4).2).congr fun s => ?_
      simp only [Src.bound, Src.boundL, List.mem_append, List.mem_cons, List.not_mem_nil, or_false]
      tauto
    · obtain ⟨m, n, _, _, _, h4⟩ := aggregation_inv h4
      refine ((ih set (by simp) h1).trans ((ih num (by simp) h5).trans (Ext.body (ih body (by simp) h2) h3 h4).2)).congr fun s => ?_
      simp only [Src.bound, Src.boundL, List.mem_append, List.mem_cons, List.not_mem_nil, or_false]
      tauto
    · have hL : ∀ cs : List Src, (∀ c ∈ cs, ∀ {Γ Γ' : TcCtx} {e'}, check Γ c = some (e', Γ') → Ext Γ Γ' c.bound) →
          ∀ {Γ Γ' cs'}, checkL Γ cs = some (cs', Γ') → Ext Γ Γ' (Src.boundL cs) := by
        intro cs
        induction cs with
        | nil => intro _ Γ Γ' cs' h; simp only [checkL] at h; cases h; exact Ext.refl _
        | cons c cs ihc =>
          intro hc Γ Γ' cs' h
          obtain ⟨c1, cs1, Γ1, g1, g2, rfl⟩ := checkL_inv h
          exact (hc c (by simp) g1).trans (ihc (fun d hd => hc d (by simp [hd])) g2)
      have := (hL cs (fun c hc => ih c hc) h1).trans (node_inv h2).ext
      rw [List.append_nil] at this
      cases k
      case agg kk v => exact absurd rfl (hk kk v)
      all_goals exact this

theorem checkL_ext {cs : List Src} : ∀ {Γ Γ' cs'}, checkL Γ cs = some (cs', Γ') → Ext Γ Γ' (Src.boundL cs) := by
  induction cs with
  | nil => intro Γ Γ' cs' h; simp only [checkL] at h; cases h; exact Ext.refl _
  | cons c cs ihc =>
    intro Γ Γ' cs' h
    obtain ⟨c1, cs1, Γ1, g1, g2, rfl⟩ := checkL_inv h
    exact (check_ext g1).trans (ihc g2)

/-- A comparison only fills in types. -/
theorem compare_inv {Γ : TcCtx} {o cs cs'} (h : compare Γ o cs = some cs') : ∃ l r l' r', cs = [l, r] ∧ cs' = [l', r'] ∧ l'.ty.eqv r'.ty = true ∧
    ((l' = l ∧ r' = r) ∨ (l' = l.withTy r.ty ∧ r' = r ∧ unresolved Γ l.ty = true ∧ memberOf Γ l.ty r.ty = true) ∨
      (l' = l ∧ r' = r.withTy l.ty ∧ unresolved Γ r.ty = true ∧ memberOf Γ r.ty l.ty = true)) := by
  unfold compare at h
  split at h
  · rename_i l r
    split_ifs at h with h0 h1 h2 h3 h4 h5
    all_goals first | (simp at h; done) | skip
    all_goals
      simp only [Option.bind_some] at h
      split_ifs at h with he
      cases h
    · simp only [Bool.and_eq_true] at h1
      exact ⟨l, r, _, _, rfl, rfl, he, .inr (.inl ⟨rfl, rfl, h1.1, h2⟩)⟩
    · simp only [Bool.and_eq_true] at h3
      exact ⟨l, r, _, _, rfl, rfl, he, .inr (.inr ⟨rfl, rfl, h3.1, h4⟩)⟩
    · exact ⟨l, r, _, _, rfl, rfl, he, .inl ⟨rfl, rfl⟩⟩
  · cases h

theorem previous_inv {Γ : TcCtx} {cs cs' t} (h : previous Γ cs = some (cs', t)) : ∃ c d c', cs = [c, d] ∧ cs' = [c', d] ∧
    t = (initial Γ c').ty ∧ (isLit (initial Γ c') = true ∨ (initial Γ c').ty.isEnum = true) ∧
    ((c' = c ∧ c.ty.eqv d.ty = true) ∨ (c' = c.withTy d.ty ∧ unresolved Γ c.ty = true ∧ memberOf Γ c.ty d.ty = true)) := by
  unfold previous at h
  split at h
  · rename_i c d
    split_ifs at h with h1 h2 h3 h4 h5
    all_goals first | (simp at h; done) | skip
    all_goals
      simp only [Option.bind_some] at h
      split_ifs at h with he he2
      cases h
      simp only [Bool.and_eq_true, Bool.not_eq_true', not_and_or, Bool.not_eq_false] at he
    · simp only [Bool.and_eq_true] at h1
      exact ⟨c, d, _, rfl, rfl, rfl, he, .inr ⟨rfl, h1.1, h2⟩⟩
    · exact ⟨c, d, _, rfl, rfl, rfl, he, .inl ⟨rfl, h5⟩⟩
  · cases h

theorem _root_.R2U2.Typ.eqv_sort {a b : Typ} (h : a.eqv b = true) : a.sort = b.sort := by
  induction a generalizing b with
  | arr m n ih =>
    cases b <;> simp [Typ.eqv] at h
    simp [Typ.sort, ih h.1]
  | _ => cases b <;> simp [Typ.eqv] at h <;> simp [Typ.sort, h]

/-! ### What every accepted expression is like -/

theorem _root_.R2U2.Src.withTy_self (e : Src) : e.withTy e.ty = e := by cases e; rfl

/-- Properties of nodes that do not depend on the node's own type. -/
def Untyped (p : Src → Prop) : Prop := ∀ k ty ty' cs, p (.node k ty cs) → p (.node k ty' cs)

theorem every_withTy {p : Src → Prop} (hp : Untyped p) {e : Src} (t : Typ) (h : Src.Every p e) : Src.Every p (e.withTy t) := by
  cases e with
  | node k ty cs => exact ⟨hp _ _ _ _ h.1, h.2⟩

/-- If every accepted node has a property, every accepted expression has it everywhere. -/
theorem check_every {p : Src → Prop} (ft : Bool) (hp : Untyped p) (hagg : ∀ k v ty cs, p (.node (.agg k v) ty cs))
    (hstep : ∀ Γ Γ' k cs e', Γ.ft = ft → Step Γ k cs e' Γ' → p e') {e : Src} :
    ∀ {Γ Γ' : TcCtx} {e'}, Γ.ft = ft → check Γ e = some (e', Γ') → Src.Every p e' := by
  induction e using Src.ind with
  | h k ty cs ih =>
    intro Γ Γ' e' hft h
    rcases check_inv h with ⟨kk, v, set, body, set', body', Γ1, Γ2, Γ3, rfl, rfl, h1, h2, h3, h4, rfl⟩ |
      ⟨kk, v, set, num, body, set', num', body', Γ1, Γ4, Γ2, Γ3, rfl, rfl, h1, h5, h2, h3, h4, rfl⟩ | ⟨cs', Γ1, hk, h1, h2⟩
    · have e1 := (check_ext h1).ft
      exact ⟨hagg _ _ _ _, ih set (by simp) hft h1, ih body (by simp) (by simp [e1, hft]) h2, trivial⟩
    · have e1 := (check_ext h1).ft
      have e2 := (check_ext h5).ft
      exact ⟨hagg _ _ _ _, ih set (by simp) hft h1, ih num (by simp) (by simp [e1, hft]) h5,
        ih body (by simp) (by simp [e1, e2, hft]) h2, trivial⟩
    · have hL : ∀ cs : List Src, (∀ c ∈ cs, ∀ {Γ Γ' : TcCtx} {e'}, Γ.ft = ft → check Γ c = some (e', Γ') → Src.Every p e') →
          ∀ {Γ Γ' cs'}, Γ.ft = ft → checkL Γ cs = some (cs', Γ') → Src.EveryL p cs' := by
        intro cs
        induction cs with
        | nil => intro _ Γ Γ' cs' _ h; simp only [checkL] at h; cases h; trivial
        | cons c cs ihc =>
          intro hc Γ Γ' cs' hft h
          obtain ⟨c1, cs1, Γ1, g1, g2, rfl⟩ := checkL_inv h
          exact ⟨hc c (by simp) hft g1, ihc (fun d hd => hc d (by simp [hd])) (by rw [(check_ext g1).ft, hft]) g2⟩
      have hcs := hL cs (fun c hc => ih c hc) hft h1
      have hn := node_inv h2
      have hft1 : Γ1.ft = ft := by rw [(checkL_ext h1).ft, hft]
      have hroot := hstep _ _ _ _ _ hft1 hn
      cases hn
      case rel hr hc =>
        obtain ⟨l, r, l', r', rfl, rfl, _, ⟨rfl, rfl⟩ | ⟨rfl, rfl, _⟩ | ⟨rfl, rfl, _⟩⟩ := compare_inv hc
        · exact ⟨hroot, hcs⟩
        · exact ⟨hroot, every_withTy hp _ hcs.1, hcs.2⟩
        · exact ⟨hroot, hcs.1, every_withTy hp _ hcs.2.1, trivial⟩
      case prev hc =>
        obtain ⟨c, d, c', rfl, rfl, _, _, ⟨rfl, _⟩ | ⟨rfl, _⟩⟩ := previous_inv hc
        · exact ⟨hroot, hcs⟩
        · exact ⟨hroot, every_withTy hp _ hcs.1, hcs.2⟩
      all_goals exact ⟨hroot, hcs⟩

theorem check_ordered {Γ Γ' : TcCtx} {e e'} (h : check Γ e = some (e', Γ')) : e'.Ordered := by
  refine check_every Γ.ft (fun _ _ _ _ h => h) (fun _ _ _ _ => trivial) (fun Γ Γ' k cs e' _ hs => ?_) rfl h
  cases hs <;> first | trivial | assumption

theorem check_tense {Γ Γ' : TcCtx} {e e'} (h : check Γ e = some (e', Γ')) : e'.Tense Γ.ft := by
  refine check_every Γ.ft (fun _ _ _ _ h => h) (fun _ _ _ _ => trivial) (fun Γ Γ' k cs e' hft hs => ?_) rfl h
  cases hs
  case tmp o lb ub h2 h3 h1 =>
    show (o = .G ∨ o = .F ∨ o = .U ∨ o = .R) ↔ _
    rw [← hft, ← h2]
    cases o <;> simp [TmpK.future]
  all_goals trivial

theorem check_boolean {Γ Γ' : TcCtx} {e e'} (h : check Γ e = some (e', Γ')) : e'.BooleanOperands := by
  refine check_every Γ.ft (fun _ _ _ _ h => h) (fun _ _ _ _ => trivial) (fun Γ Γ' k cs e' hft hs => ?_) rfl h
  cases hs
  case tmp => assumption
  case logical h1 h2 => exact fun _ => h2
  case minmax h1 h2 => rintro (rfl | rfl | rfl | rfl | rfl | rfl) <;> simp at h1
  case bits h1 h2 => rintro (rfl | rfl | rfl | rfl | rfl | rfl) <;> simp [OpK.bitwise] at h1
  case arith h1 h2 => rintro (rfl | rfl | rfl | rfl | rfl | rfl) <;> simp [OpK.arithmetic] at h1
  case rel h1 h2 => rintro (rfl | rfl | rfl | rfl | rfl | rfl) <;> simp [OpK.isRel] at h1
  case prev => rintro (h | h | h | h | h | h) <;> simp at h
  all_goals trivial

/-! ### Sorts -/

/-- The context in the middle of an expression, compared with the one before it. -/
structure Mid (Γ0 Γ : TcCtx) (S : Scope) : Prop where
  structs : Γ.structs = Γ0.structs
  enums : Γ.enums = Γ0.enums
  specs : Γ.specs = Γ0.specs
  definitions : Γ.definitions = Γ0.definitions
  signals : ∀ s t, Γ.signals.lookup s = some t → Γ0.signals.lookup s = some t
  scope : ∀ s, S s = match Γ.bound.lookup s with
    | some (.arr m _) => m.sort
    | some _ => none
    | none => Γ0.names s
  apart : ∀ s, S s ≠ none → ∀ ty, Src.enumVal Γ0.enums ty s = none

/-- The names in an expression keep to their scopes. -/
structure Names (Γ0 Γ : TcCtx) (fs bs : List String) : Prop where
  free : ∀ s ∈ fs, s ∉ bs
  vars : ∀ s ∈ fs, Γ.bound.lookup s = none → Γ.vars.lookup s = Γ0.vars.lookup s
  bound : ∀ s ∈ bs, Γ.bound.lookup s = none
  apart : ∀ s ∈ bs, ∀ ty, Src.enumVal Γ0.enums ty s = none

theorem Names.sub {Γ0 Γ : TcCtx} {f b f' b' : List String} (h : Names Γ0 Γ f b) (hf : ∀ s ∈ f', s ∈ f) (hb : ∀ s ∈ b', s ∈ b) :
    Names Γ0 Γ f' b' :=
  ⟨fun s hs hs' => h.free s (hf s hs) (hb s hs'), fun s hs => h.vars s (hf s hs), fun s hs => h.bound s (hb s hs),
    fun s hs => h.apart s (hb s hs)⟩

theorem lookup_filter {A : Type} (d : Tbl A) (n : List String) (s : String) :
    (d.filter fun e => decide (e.1 ∉ n)).lookup s = if s ∈ n then none else d.lookup s := by
  induction d with
  | nil => simp
  | cons e d ih =>
    obtain ⟨a, b⟩ := e
    by_cases ha : a ∈ n
    · rw [List.filter_cons_of_neg (by simpa using ha), ih, List.lookup_cons]
      split_ifs with hs
      · rfl
      · have : (s == a) = false := by
          simp only [beq_eq_false_iff_ne, ne_eq]
          rintro rfl
          exact hs ha
        rw [this]
    · rw [List.filter_cons_of_pos (by simpa using ha), List.lookup_cons, List.lookup_cons, ih]
      by_cases hs : s = a
      · subst hs; simp [ha]
      · have : (s == a) = false := by simpa using hs
        rw [this]

/-- After a part of the expression. -/
theorem Mid.after {Γ0 Γ Γ1 : TcCtx} {S : Scope} {f b n : List String} (hm : Mid Γ0 Γ S) (hn : Names Γ0 Γ f b) (he : Ext Γ Γ1 n)
    (hb : ∀ s ∈ n, s ∈ b) : Mid Γ0 Γ1 S ∧ Names Γ0 Γ1 f b := by
  have hbound : ∀ s, Γ1.bound.lookup s = Γ.bound.lookup s := by
    intro s
    rw [he.bound, lookup_filter]
    split_ifs with hs
    · rw [hn.bound s (hb s hs)]
    · rfl
  refine ⟨⟨he.structs.trans hm.structs, he.enums.trans hm.enums, he.specs.trans hm.specs, he.definitions.trans hm.definitions,
    fun s t h => hm.signals s t (he.signals s t h), fun s => by rw [hbound]; exact hm.scope s, hm.apart⟩,
    ⟨hn.free, fun s hs h => ?_, fun s hs => by rw [hbound]; exact hn.bound s hs, hn.apart⟩⟩
  rw [he.vars s fun h => hn.free s hs (hb s h)]
  exact hn.vars s hs (by rwa [← hbound])

/-- In the body of an aggregation. -/
theorem Mid.under {Γ0 Γ : TcCtx} {S : Scope} {f b fb bb : List String} {v : String} {m : Typ} {n : Int} {t : Ty} (hm : Mid Γ0 Γ S)
    (hn : Names Γ0 Γ f b) (ht : m.sort = some t) (hvb : v ∈ b) (hv : v ∉ bb) (hf : ∀ s ∈ fb, s ≠ v → s ∈ f) (hb : ∀ s ∈ bb, s ∈ b) :
    Mid Γ0 { Γ with bound := Γ.bound.set v (.arr m n) } (S.bind v t) ∧ Names Γ0 { Γ with bound := Γ.bound.set v (.arr m n) } fb bb := by
  refine ⟨⟨hm.structs, hm.enums, hm.specs, hm.definitions, hm.signals, fun s => ?_, fun s hs ty => ?_⟩,
    ⟨fun s hs hs' => ?_, fun s hs h => ?_, fun s hs => ?_, fun s hs => hn.apart s (hb s hs)⟩⟩
  · simp only [Scope.bind, Tbl.lookup_set]
    by_cases h : s = v
    · simp [h, ht]
    · simp only [h, if_false]; exact hm.scope s
  · simp only [Scope.bind] at hs
    by_cases h : s = v
    · subst h; exact hn.apart _ hvb ty
    · rw [if_neg h] at hs; exact hm.apart s hs ty
  · by_cases h : s = v
    · subst h; exact hv hs'
    · exact hn.free s (hf s hs h) (hb s hs')
  · simp only [Tbl.lookup_set] at h
    split_ifs at h with h'
    exact hn.vars s (hf s hs h') h
  · simp only [Tbl.lookup_set]
    rw [if_neg (by rintro rfl; exact hv hs)]
    exact hn.bound s (hb s hs)

/-- A checked expression has the sort of its type, or of the enumeration type it gets from what it is compared
with. -/
def Good (Γ0 : TcCtx) (S : Scope) (e : Src) : Prop :=
  ∀ ty, (ty = e.ty ∨ unresolved Γ0 e.ty = true ∧ memberOf Γ0 e.ty ty = true) → (e.withTy ty).Sensible Γ0.structs Γ0.enums →
    ∀ t, ty.sort = some t → HasSort Γ0.decls S (e.withTy ty) t

theorem Good.self {Γ0 : TcCtx} {S : Scope} {e : Src} (h : Good Γ0 S e) (hs : e.Sensible Γ0.structs Γ0.enums) :
    ∃ t, e.ty.sort = some t ∧ HasSort Γ0.decls S e t := by
  have h1 : e.ty.sort ≠ none := by cases e; exact hs.1.1
  obtain ⟨t, ht⟩ := Option.ne_none_iff_exists'.mp h1
  have := h e.ty (.inl rfl) (by rwa [Src.withTy_self]) t ht
  rw [Src.withTy_self] at this
  exact ⟨t, ht, this⟩

theorem Good.of {Γ0 : TcCtx} {S : Scope} {e : Src} {t : Ty} (h : Good Γ0 S e) (hs : e.Sensible Γ0.structs Γ0.enums) (ht : e.ty.sort = some t) :
    HasSort Γ0.decls S e t := by
  obtain ⟨u, h1, h2⟩ := h.self hs
  rw [ht] at h1
  cases h1
  exact h2

theorem Good.sort_eq {Γ0 : TcCtx} {e : Src} {ty : Typ} (h : ty = e.ty ∨ unresolved Γ0 e.ty = true ∧ memberOf Γ0 e.ty ty = true)
    (hs : (e.withTy ty).Sensible Γ0.structs Γ0.enums) : ty.sort = e.ty.sort := by
  rcases h with rfl | ⟨h1, h2⟩
  · rfl
  · cases e with
    | node k ty' cs =>
      have h3 : Γ0.enums.lookup ty.symbol ≠ none ↔ ty.isEnum = true := hs.1.2.1
      have h4 : Γ0.enums.lookup ty.symbol ≠ none := by
        intro h
        simp [memberOf, h] at h2
      have h5 := h3.mp h4
      simp only [unresolved, Bool.and_eq_true] at h1
      simp only [Src.ty] at h1 ⊢
      cases ty <;> simp [Typ.isEnum] at h5
      cases ty' <;> simp [Typ.isEnum] at h1
      rfl

/-- Operands with their sorts. -/
theorem Good.operands {Γ0 : TcCtx} {S : Scope} {cs : List Src} (h : ∀ c ∈ cs, c.Sensible Γ0.structs Γ0.enums ∧ Good Γ0 S c) :
    ∃ ts : List Ty, cs.length = ts.length ∧ cs.map (·.ty.sort) = ts.map some ∧
      ∀ (i : Nat) (c : Src) (t : Ty), cs[i]? = some c → ts[i]? = some t → HasSort Γ0.decls S c t := by
  induction cs with
  | nil => exact ⟨[], rfl, rfl, by simp⟩
  | cons c cs ih =>
    obtain ⟨ts, h1, h2, h3⟩ := ih fun d hd => h d (by simp [hd])
    obtain ⟨t, h4, h5⟩ := (h c (by simp)).2.self (h c (by simp)).1
    refine ⟨t :: ts, by simp [h1], by simp [h2, h4], ?_⟩
    intro i d u hd hu
    cases i with
    | zero => simp at hd hu; subst hd; subst hu; exact h5
    | succ i => exact h3 i d u (by simpa using hd) (by simpa using hu)

theorem zip_sorts {fs : List (String × Typ)} {cs : List Src} (hl : fs.length = cs.length)
    (h : (fs.zip cs).all (fun p => p.1.2.eqv p.2.ty) = true) : fs.map (·.2.sort) = cs.map (·.ty.sort) := by
  induction fs generalizing cs with
  | nil => cases cs <;> simp at hl ⊢
  | cons f fs ih =>
    cases cs with
    | nil => simp at hl
    | cons c cs =>
      simp only [List.zip_cons_cons, List.all_cons, Bool.and_eq_true] at h
      simp only [List.map_cons, Typ.eqv_sort h.1, ih (by simpa using hl) h.2]

theorem all_sorts {cs : List Src} {ts : List Ty} {u : Ty} (h : cs.map (·.ty.sort) = ts.map some) (hu : ∀ c ∈ cs, c.ty.sort = some u) :
    ∀ t ∈ ts, t = u := by
  induction cs generalizing ts with
  | nil => cases ts <;> simp at h ⊢
  | cons c cs ih =>
    cases ts with
    | nil => simp at h
    | cons t ts =>
      simp only [List.map_cons, List.cons.injEq] at h
      rw [hu c (by simp)] at h
      intro t' ht'
      rcases List.mem_cons.mp ht' with rfl | ht'
      · simpa using h.1.symm
      · exact ih h.2 (fun d hd => hu d (by simp [hd])) t' ht'

theorem step_good {Γ0 Γ Γ' : TcCtx} {S : Scope} {k cs e'} (hm : Mid Γ0 Γ S)
    (hv : ∀ s, k = .var s → Γ.bound.lookup s = none → Γ.vars.lookup s = Γ0.vars.lookup s)
    (hcs : ∀ c ∈ cs, Good Γ0 S c) (h : Step Γ k cs e' Γ') : Good Γ0 S e' := by
  intro ty hty hs t ht
  have hsort := Good.sort_eq hty hs
  rw [hsort] at ht
  have hk : ∀ c ∈ (e'.withTy ty).kids, c.Sensible Γ0.structs Γ0.enums := by
    cases e' with
    | node k' ty' cs' => exact fun c hc => Src.everyL_iff.mp hs.2 c hc
  cases h
  case lit v =>
    have : cs = [] := hs.1.2.2
    subst this
    cases v <;> simp [litTyp, Src.ty, Typ.sort] at ht <;> subst ht
    · exact .bool
    · exact .int
    · exact .float
  case tau =>
    have : cs = [] := hs.1.2.2
    subst this
    simp [Src.ty, Typ.sort] at ht
    subst ht
    exact .tau
  case sig s u hsig =>
    have h1 := hs.1.2.2
    obtain ⟨h2, h3⟩ : cs = [] ∧ ∀ t, ty.sort = some t → t.scalar = true := h1
    subst h2
    refine .sig ?_ (h3 t (by rw [hsort]; exact ht))
    simp only [TcCtx.decls, hm.signals _ _ hsig]
    exact ht
  case var s u hvar =>
    have h1 : cs = [] := hs.1.2.2
    subst h1
    simp only [Src.ty] at ht hty
    simp only [Src.withTy]
    have hS := hm.scope s
    have hvar' : S s = some t → HasSort Γ0.decls S (.node (.var s) ty []) t := fun h => .var (hm.apart s (by rw [h]; simp) ty) h
    unfold varTyp at hvar
    split at hvar
    · rename_i m n hb
      cases hvar
      rw [hb] at hS
      exact hvar' (hS.trans ht)
    · cases hvar
    · rename_i hb
      rw [hb] at hS
      simp only [TcCtx.names] at hS
      rw [hv s rfl hb] at hvar
      split at hvar
      · rename_i u' hu
        cases hvar
        rw [hu] at hS
        exact hvar' (hS.trans ht)
      · rename_i hu
        rw [hm.definitions] at hvar
        rw [hu] at hS
        split at hvar
        · rename_i d hd
          cases hvar
          rw [hd] at hS
          exact hvar' (hS.trans ht)
        · rename_i hd
          rw [hd] at hS
          simp only at hS
          split_ifs at hvar with g1 g2 g3 g4 g5
          · cases hvar
            rw [hm.specs] at g3
            rw [if_pos g3] at hS
            simp only [Typ.sort, Option.some.injEq] at ht
            exact hvar' (by rw [hS, ht])
          · cases hvar
            simp only [Typ.sort, Option.some.injEq] at ht
            subst ht
            have h3 : Γ0.enums.lookup ty.symbol ≠ none ↔ ty.isEnum = true := hs.1.2.1
            rcases hty with rfl | ⟨h4, h5⟩
            · exfalso
              apply h3.mpr rfl
              rw [hm.enums] at g2
              cases hl : Γ0.enums.lookup s with
              | none => exact hl
              | some ms => exact absurd (Tbl.has_iff.mpr ⟨ms, hl⟩) g2
            · simp only [memberOf] at h5
              cases hl : Γ0.enums.lookup ty.symbol with
              | none => simp [hl] at h5
              | some ms =>
                rw [hl] at h5 h3
                have h6 := h3.mp (by simp)
                cases ty <;> simp [Typ.isEnum] at h6
                rename_i n
                simp only [Option.map_some, Option.getD_some, Tbl.has_iff, Typ.symbol, Typ.str] at h5
                obtain ⟨v, hv⟩ := h5
                refine .enum (v := v) ?_
                simp only [Typ.symbol, Typ.str] at hl
                simp [Src.enumVal, TcCtx.decls, hl, hv]
  case array u n hall =>
    simp only [Src.ty, Typ.sort, Option.map_eq_some_iff] at ht
    obtain ⟨t', ht, rfl⟩ := ht
    exact .array fun c hc => (hcs c hc).of (hk c hc) (by rw [Typ.eqv_sort (hall c hc), ht])
  case slice a b m n l a' b' c hty' h0 =>
    simp only [Src.ty, Typ.sort, Option.map_eq_some_iff] at ht
    obtain ⟨t', ht, rfl⟩ := ht
    exact .slice h0 ((hcs c (by simp)).of (hk c (by simp [Src.withTy, Src.kids])) (by rw [hty']; simp [Typ.sort, ht]))
  case index i m n i' c hty' h0 hΓ =>
    simp only [Src.ty] at ht
    exact .index h0 ((hcs c (by simp)).of (hk c (by simp [Src.withTy, Src.kids])) (by rw [hty']; simp [Typ.sort, ht]))
  case access m u fs c h1 h2 =>
    have h3 : ∀ d ∈ [c], ∃ f, d.ty = .struct f := hs.1.2.2
    obtain ⟨f, hf⟩ := h3 c (by simp)
    rw [hf, hm.structs] at h1
    exact .access (f := f) ((hcs c (by simp)).of (hk c (by simp [Src.withTy, Src.kids])) (by rw [hf]; rfl)) h1 h2 ht
  case call f fs h1 h2 =>
    rw [hm.structs] at h1
    obtain ⟨h3, h4⟩ : cs.length = fs.length ∧ ∀ m ∈ fs, m.2.sort ≠ none := hs.1.2.2 fs h1
    obtain ⟨ts, h5, h6, h7⟩ := Good.operands (S := S) (cs := cs) fun c hc => ⟨hk c hc, hcs c hc⟩
    simp only [Src.ty, Typ.sort, Option.some.injEq] at ht
    subst ht
    exact .call h1 (by rw [← h6]; exact zip_sorts h3.symm h2) h5 h7
  case struct f ms fs h1 h2 =>
    rw [hm.structs] at h1
    obtain ⟨h3, h8, h4⟩ : cs.length = fs.length ∧ ms = fs.map (·.1) ∧ ∀ m ∈ fs, m.2.sort ≠ none := hs.1.2.2 fs h1
    obtain ⟨ts, h5, h6, h7⟩ := Good.operands (S := S) (cs := cs) fun c hc => ⟨hk c hc, hcs c hc⟩
    simp only [Src.ty, Typ.sort, Option.some.injEq] at ht
    subst ht
    exact .struct h1 h8 (by rw [← h6]; exact zip_sorts h3.symm h2) h5 h7
  case tmp o lb ub h2 h3 h1 =>
    simp only [Src.ty, Typ.sort, Option.some.injEq] at ht
    subst ht
    exact .tmp fun c hc => (hcs c hc).of (hk c hc) (by rw [h1 c hc]; rfl)
  case minmax o h2 h1 =>
    simp only [Src.ty, Typ.sort, Option.some.injEq] at ht
    subst ht
    obtain ⟨ts, h5, h6, h7⟩ := Good.operands (S := S) (cs := cs) fun c hc => ⟨hk c hc, hcs c hc⟩
    have h8 : ∀ t ∈ ts, t = Ty.num := all_sorts h6 fun c hc => by rw [h1 c hc]; rfl
    refine .op h5 h7 ?_
    rcases h2 with rfl | rfl <;> simpa [OpK.sort] using h8
  case bits o u h1 h2 =>
    obtain ⟨ts, h5, h6, h7⟩ := Good.operands (S := S) (cs := cs) fun c hc => ⟨hk c hc, hcs c hc⟩
    refine .op h5 h7 ?_
    unfold bits at h2
    split at h2
    · cases h2
    · rename_i c cs
      split_ifs at h2 with h3 h4
      cases h2
      simp only [Src.ty] at ht
      have h8 : ∀ t' ∈ ts, t' = t := all_sorts h6 fun d hd => by
        have := List.all_eq_true.mp h4 d hd
        simp only [Bool.and_eq_true] at this
        rw [Typ.eqv_sort this.1.2]
        exact ht
      have h9 : t = .bool ∨ t = .num := by
        have := List.all_eq_true.mp h4 c (by simp)
        simp only [Bool.and_eq_true] at this
        have := this.2
        have ht' : c.ty.sort = some t := ht
        cases hc : c.ty <;> simp [hc, Typ.isInteger] at this <;> simp [hc, Typ.sort] at ht' <;> simp [← ht']
      have hne : ts ≠ [] := by intro h; simp [h] at h5
      obtain ⟨t1, ts', rfl⟩ := List.exists_cons_of_ne_nil hne
      have h10 := h8 t1 (by simp)
      rcases h9 with rfl | rfl
      · have : (t1 :: ts').all (· = .bool) = true := by simpa using h8
        cases o <;> simp [OpK.bitwise] at h1 <;> simp only [OpK.sort, this, if_true]
      · have h11 : (t1 :: ts').all (· = .bool) = false := by simp [h10]
        have : (t1 :: ts').all (· = .num) = true := by simpa using h8
        cases o <;> simp [OpK.bitwise] at h1 <;> simp only [OpK.sort, this, h11, if_true, Bool.false_eq_true, if_false]
  case arith o u h1 h2 =>
    obtain ⟨ts, h5, h6, h7⟩ := Good.operands (S := S) (cs := cs) fun c hc => ⟨hk c hc, hcs c hc⟩
    refine .op h5 h7 ?_
    have h3 : ∀ c ∈ cs, c.ty.sort = some .num := by
      refine hs.1.2.2.2.2.1 ?_
      cases o <;> simp [OpK.arithmetic] at h1 <;> simp
    have h8 : ∀ t' ∈ ts, t' = Ty.num := all_sorts h6 h3
    have h9 : t = .num := by
      unfold arith at h2
      split at h2
      · cases h2
      · split_ifs at h2
        cases h2
        have := h3 _ (List.mem_cons_self)
        exact Option.some.inj (ht.symm.trans this)
    subst h9
    have : ts.all (· = .num) = true := by simpa using h8
    have h10 : ts.all (·.scalar) = true := by
      simp only [List.all_eq_true]
      intro t ht
      rw [h8 t ht]; rfl
    cases o <;> simp [OpK.arithmetic] at h1 <;> simp only [OpK.sort, this, h10, if_true]
  case rel o cs' h1 h2 =>
    simp only [Src.ty, Typ.sort, Option.some.injEq] at ht
    subst ht
    obtain ⟨l, r, l', r', rfl, rfl, heq, hor⟩ := compare_inv h2
    have hl := hk l' (by simp [Src.withTy, Src.kids])
    have hr := hk r' (by simp [Src.withTy, Src.kids])
    simp only [unresolved, memberOf, hm.enums] at hor
    have gl : ∃ t, l'.ty.sort = some t ∧ HasSort Γ0.decls S l' t := by
      rcases hor with ⟨rfl, rfl⟩ | ⟨rfl, rfl, g1, g2⟩ | ⟨rfl, rfl, g1, g2⟩
      · exact (hcs _ (by simp)).self hl
      · have hne : (Src.withTy r'.ty l).ty = r'.ty := by cases l; rfl
        have : r'.ty.sort ≠ none := by cases r'; exact hr.1.1
        obtain ⟨t, ht⟩ := Option.ne_none_iff_exists'.mp this
        exact ⟨t, by rw [hne, ht], hcs l (by simp) r'.ty (.inr ⟨g1, g2⟩) hl t ht⟩
      · exact (hcs _ (by simp)).self hl
    have gr : ∃ t, r'.ty.sort = some t ∧ HasSort Γ0.decls S r' t := by
      rcases hor with ⟨rfl, rfl⟩ | ⟨rfl, rfl, g1, g2⟩ | ⟨rfl, rfl, g1, g2⟩
      · exact (hcs _ (by simp)).self hr
      · exact (hcs _ (by simp)).self hr
      · have hne : (Src.withTy l'.ty r).ty = l'.ty := by cases r; rfl
        have : l'.ty.sort ≠ none := by cases l'; exact hl.1.1
        obtain ⟨t, ht⟩ := Option.ne_none_iff_exists'.mp this
        exact ⟨t, by rw [hne, ht], hcs r (by simp) l'.ty (.inr ⟨g1, g2⟩) hr t ht⟩
    obtain ⟨t, t1, t2⟩ := gl
    obtain ⟨u, u1, u2⟩ := gr
    have : t = u := by
      have := Typ.eqv_sort heq
      rw [t1, u1] at this
      simpa using this
    subst this
    refine .op (ts := [t, t]) rfl ?_ ?_
    · intro i c v hc hv
      rcases i with _ | _ | i <;> simp at hc hv
      · subst hc; subst hv; exact t2
      · subst hc; subst hv; exact u2
    · cases o <;> simp [OpK.isRel] at h1 <;> simp [OpK.sort, TcCtx.decls]
  case logical o h1 h2 =>
    simp only [Src.ty, Typ.sort, Option.some.injEq] at ht
    subst ht
    obtain ⟨ts, h5, h6, h7⟩ := Good.operands (S := S) (cs := cs) fun c hc => ⟨hk c hc, hcs c hc⟩
    have h8 : ∀ t ∈ ts, t = Ty.bool := all_sorts h6 fun c hc => by rw [h2 c hc]; rfl
    refine .op h5 h7 ?_
    obtain ⟨g1, g2, _⟩ : (o = .xor ∨ o = .imp ∨ o = .iff → cs.length = 2) ∧ (o = .neg → cs.length = 1) ∧ _ := hs.1.2.2
    rw [h5] at g1 g2
    have two : ts.length = 2 → ts = [.bool, .bool] := by
      intro h
      obtain ⟨a, b, rfl⟩ := List.length_eq_two.mp h
      rw [h8 a (by simp), h8 b (by simp)]
    have one : ts.length = 1 → ts = [.bool] := by
      intro h
      obtain ⟨a, rfl⟩ := List.length_eq_one_iff.mp h
      rw [h8 a (by simp)]
    have all : ts.all (· = .bool) = true := by simpa using h8
    cases o <;> simp [OpK.logical] at h1
    case neg => rw [one (g2 rfl)]; rfl
    case xor => rw [two (g1 (by simp))]; rfl
    case imp => rw [two (g1 (by simp))]; rfl
    case iff => rw [two (g1 (by simp))]; rfl
    all_goals simp only [OpK.sort, all, if_true]
  case prev cs' u h1 =>
    have h2 : ∀ c ∈ cs', c.ty.sort = ty.sort ∧ ∀ t, c.ty.sort = some t → t.scalar = true := hs.1.2.2.2.2.2 rfl
    obtain ⟨c, d, c', rfl, rfl, _, _, hor⟩ := previous_inv h1
    have hc := hk c' (by simp [Src.withTy, Src.kids])
    have hd := hk d (by simp [Src.withTy, Src.kids])
    have ht' : ty.sort = some t := by rw [hsort]; exact ht
    have e1 := h2 c' (by simp)
    have e2 := h2 d (by simp)
    rw [ht'] at e1 e2
    simp only [unresolved, memberOf, hm.enums] at hor
    have gc : HasSort Γ0.decls S c' t := by
      rcases hor with ⟨rfl, _⟩ | ⟨rfl, g1, g2⟩
      · exact (hcs _ (by simp)).of hc e1.1
      · exact hcs c (by simp) d.ty (.inr ⟨g1, g2⟩) hc t e2.1
    refine .op (ts := [t, t]) rfl ?_ ?_
    · intro i x v hx hv
      rcases i with _ | _ | i <;> simp at hx hv
      · subst hx; subst hv; exact gc
      · subst hx; subst hv; exact (hcs _ (by simp)).of hd e2.1
    · simp [OpK.sort, e1.2 t e1.1]

/-- An accepted expression has the sort of its type. -/
theorem check_good {Γ0 : TcCtx} {e : Src} : ∀ {Γ Γ' : TcCtx} {e' : Src} {S : Scope}, check Γ e = some (e', Γ') → Mid Γ0 Γ S →
    Names Γ0 Γ e.free e.bound → Good Γ0 S e' := by
  induction e using Src.ind with
  | h k ty cs ih =>
    intro Γ Γ' e' S h hm hn
    rcases check_inv h with ⟨kk, v, set, body, set', body', Γ1, Γ2, Γ3, rfl, rfl, h1, h2, h3, h4, rfl⟩ |
      ⟨kk, v, set, num, body, set', num', body', Γ1, Γ4, Γ2, Γ3, rfl, rfl, h1, h5, h2, h3, h4, rfl⟩ | ⟨cs', Γ1, hk, h1, h2⟩
    · obtain ⟨m, n, hset, hbody, hnum, h4⟩ := aggregation_inv h4
      have hvb := (Ext.body (check_ext h2) h3 h4).1
      have g1 := ih set (by simp) h1 hm (hn.sub (by simp +contextual [Src.free]) (by simp +contextual [Src.bound, Src.boundL]))
      obtain ⟨hm1, hn1⟩ := hm.after hn (check_ext h1) (by simp +contextual [Src.bound, Src.boundL])
      intro ty hty hs t ht
      have hsort := Good.sort_eq hty hs
      rw [hsort] at ht
      simp only [Src.ty, Typ.sort, Option.some.injEq] at ht
      subst ht
      obtain ⟨t1, t2, t3⟩ := g1.self hs.2.1
      rw [hset] at t2
      simp only [Typ.sort, Option.map_eq_some_iff] at t2
      obtain ⟨u, hu, rfl⟩ := t2
      rw [hset] at h2
      obtain ⟨hm2, hn2⟩ := hm1.under (n := n) (fb := body.free) (bb := body.bound) hn1 hu
        (by simp [Src.bound]) hvb (by simp +contextual [Src.free]) (by simp +contextual [Src.bound, Src.boundL])
      have g2 := ih body (by simp) h2 hm2 hn2
      refine .agg t3 (g2.of hs.2.2.1 (by rw [hbody]; rfl)) ?_
      rcases hnum with rfl | rfl | ⟨_, h, _⟩
      · exact .inl rfl
      · exact .inr rfl
      · cases h
    · obtain ⟨m, n, hset, hbody, hnum, h4⟩ := aggregation_inv h4
      have hvb := (Ext.body (check_ext h2) h3 h4).1
      have g1 := ih set (by simp) h1 hm (hn.sub (by simp +contextual [Src.free]) (by simp +contextual [Src.bound, Src.boundL]))
      obtain ⟨hm1, hn1⟩ := hm.after hn (check_ext h1) (by simp +contextual [Src.bound, Src.boundL])
      have g5 := ih num (by simp) h5 hm1 (hn1.sub (by simp +contextual [Src.free]) (by simp +contextual [Src.bound, Src.boundL]))
      obtain ⟨hm4, hn4⟩ := hm1.after hn1 (check_ext h5) (by simp +contextual [Src.bound, Src.boundL])
      intro ty hty hs t ht
      have hsort := Good.sort_eq hty hs
      rw [hsort] at ht
      simp only [Src.ty, Typ.sort, Option.some.injEq] at ht
      subst ht
      obtain ⟨t1, t2, t3⟩ := g1.self hs.2.1
      rw [hset] at t2
      simp only [Typ.sort, Option.map_eq_some_iff] at t2
      obtain ⟨u, hu, rfl⟩ := t2
      rw [hset] at h2
      obtain ⟨hm2, hn2⟩ := hm4.under (n := n) (fb := body.free) (bb := body.bound) hn4 hu
        (by simp [Src.bound]) hvb (by simp +contextual [Src.free]) (by simp +contextual [Src.bound, Src.boundL])
      have g2 := ih body (by simp) h2 hm2 hn2
      obtain ⟨q1, q2⟩ : (kk = .each ∨ kk = .some → [set', num', body'].length = 2) ∧
        ∀ a n b, [set', num', body'] = [a, n, b] → n.ty ≠ .bool := hs.1.2.2
      have q3 : kk ≠ .each := fun h => by simpa using q1 (.inl h)
      have q4 : kk ≠ .some := fun h => by simpa using q1 (.inr h)
      have q5 : num'.ty.sort = some .num := by
        rcases hnum with h | h | ⟨x, hx, hi⟩
        · exact absurd h q3
        · exact absurd h q4
        · cases hx
          have := q2 _ _ _ rfl
          cases hx : num'.ty <;> simp [hx, Typ.isInteger] at hi this <;> rfl
      refine .aggN t3 (g5.of hs.2.2.1 q5) (g2.of hs.2.2.2.1 (by rw [hbody]; rfl)) ?_
      cases kk <;> simp at q3 q4 ⊢
    · have hf : ∀ s ∈ Src.freeL cs, s ∈ (Src.node k ty cs).free := by
        cases k
        case agg kk v => exact absurd rfl (hk kk v)
        all_goals simp +contextual [Src.free]
      have hb : (Src.node k ty cs).bound = Src.boundL cs := by
        cases k
        case agg kk v => exact absurd rfl (hk kk v)
        all_goals simp [Src.bound]
      have hL : ∀ cs : List Src, (∀ c ∈ cs, ∀ {Γ Γ' : TcCtx} {e' : Src} {S : Scope}, check Γ c = some (e', Γ') → Mid Γ0 Γ S →
          Names Γ0 Γ c.free c.bound → Good Γ0 S e') →
          ∀ {Γ Γ' cs'}, checkL Γ cs = some (cs', Γ') → Mid Γ0 Γ S → Names Γ0 Γ (Src.freeL cs) (Src.boundL cs) → ∀ c ∈ cs', Good Γ0 S c := by
        intro cs
        induction cs with
        | nil => intro _ Γ Γ' cs' h; simp only [checkL] at h; cases h; simp
        | cons c cs ihc =>
          intro hc Γ Γ' cs' h hm hn
          obtain ⟨c1, cs1, Γ1, g1, g2, rfl⟩ := checkL_inv h
          have e1 := hc c (by simp) g1 hm (hn.sub (by simp +contextual [Src.freeL]) (by simp +contextual [Src.boundL]))
          obtain ⟨hm1, hn1⟩ := hm.after hn (check_ext g1) (by simp +contextual [Src.boundL])
          have e2 := ihc (fun d hd => hc d (by simp [hd])) g2 hm1 (hn1.sub (by simp +contextual [Src.freeL]) (by simp +contextual [Src.boundL]))
          intro d hd
          rcases List.mem_cons.mp hd with rfl | hd
          · exact e1
          · exact e2 d hd
      have hcs := hL cs (fun c hc => ih c hc) h1 hm (hn.sub hf (by rw [hb]; exact fun _ h => h))
      obtain ⟨hm1, hn1⟩ := hm.after hn (checkL_ext h1) (by rw [hb]; exact fun _ h => h)
      refine step_good hm1 ?_ hcs (node_inv h2)
      rintro s rfl
      exact hn1.vars s (by simp [Src.free])

/-! ### Programs -/

/-- A property of the classes of nodes holds everywhere in an accepted expression if nodes without it are not accepted. -/
theorem check_kinds {q : SK → Prop} (ft : Bool) (hagg : ∀ k v, q (.agg k v))
    (hstep : ∀ Γ Γ' k cs e', Γ.ft = ft → Step Γ k cs e' Γ' → q k) {e : Src} :
    ∀ {Γ Γ' : TcCtx} {e'}, Γ.ft = ft → check Γ e = some (e', Γ') → Src.Every (fun x => q x.kind) e := by
  induction e using Src.ind with
  | h k ty cs ih =>
    intro Γ Γ' e' hft h
    rcases check_inv h with ⟨kk, v, set, body, set', body', Γ1, Γ2, Γ3, rfl, rfl, h1, h2, h3, h4, rfl⟩ |
      ⟨kk, v, set, num, body, set', num', body', Γ1, Γ4, Γ2, Γ3, rfl, rfl, h1, h5, h2, h3, h4, rfl⟩ | ⟨cs', Γ1, hk, h1, h2⟩
    · have e1 := (check_ext h1).ft
      exact ⟨hagg _ _, ih set (by simp) hft h1, ih body (by simp) (by simp [e1, hft]) h2, trivial⟩
    · have e1 := (check_ext h1).ft
      have e2 := (check_ext h5).ft
      exact ⟨hagg _ _, ih set (by simp) hft h1, ih num (by simp) (by simp [e1, hft]) h5,
        ih body (by simp) (by simp [e1, e2, hft]) h2, trivial⟩
    · have hL : ∀ cs : List Src, (∀ c ∈ cs, ∀ {Γ Γ' : TcCtx} {e'}, Γ.ft = ft → check Γ c = some (e', Γ') → Src.Every (fun x => q x.kind) c) →
          ∀ {Γ Γ' cs'}, Γ.ft = ft → checkL Γ cs = some (cs', Γ') → Src.EveryL (fun x => q x.kind) cs := by
        intro cs
        induction cs with
        | nil => intro _ Γ Γ' cs' _ h; trivial
        | cons c cs ihc =>
          intro hc Γ Γ' cs' hft h
          obtain ⟨c1, cs1, Γ1, g1, g2, rfl⟩ := checkL_inv h
          exact ⟨hc c (by simp) hft g1, ihc (fun d hd => hc d (by simp [hd])) (by rw [(check_ext g1).ft, hft]) g2⟩
      have hft1 : Γ1.ft = ft := by rw [(checkL_ext h1).ft, hft]
      exact ⟨hstep _ _ _ _ _ hft1 (node_inv h2), hL cs (fun c hc => ih c hc) hft h1⟩

theorem check_ordered_src {Γ Γ' : TcCtx} {e e'} (h : check Γ e = some (e', Γ')) : e.Ordered := by
  refine check_kinds (q := fun k => match k with | .tmp _ lb ub => lb ≤ ub | _ => True) Γ.ft (fun _ _ => trivial)
    (fun Γ Γ' k cs e' _ hs => ?_) rfl h
  cases hs <;> first | trivial | assumption

theorem check_tense_src {Γ Γ' : TcCtx} {e e'} (h : check Γ e = some (e', Γ')) : e.Tense Γ.ft := by
  refine check_kinds (q := fun k => match k with | .tmp o _ _ => (o = .G ∨ o = .F ∨ o = .U ∨ o = .R) ↔ Γ.ft = true | _ => True)
    Γ.ft (fun _ _ => trivial) (fun Γ Γ' k cs e' hft hs => ?_) rfl h
  cases hs
  case tmp o lb ub h2 h3 h1 =>
    show (o = .G ∨ o = .F ∨ o = .U ∨ o = .R) ↔ _
    rw [← hft, ← h2]
    cases o <;> simp [TmpK.future]
  all_goals trivial

theorem checkSpec_inv {Γ Γ' : TcCtx} {s s'} (h : checkSpec Γ s = some (s', Γ')) : Γ'.ft = Γ.ft ∧
    (∀ e ∈ s.exprs, e.Ordered ∧ e.Tense Γ.ft) ∧ (∀ e ∈ s'.exprs, e.BooleanOperands ∧ e.ty = .bool) ∧ s'.label = s.label := by
  cases s with
  | formula l n e =>
    simp only [checkSpec, Option.bind_eq_some_iff] at h
    obtain ⟨⟨e1, Γ1⟩, h1, h2⟩ := h
    split_ifs at h2 with hb
    cases h2
    refine ⟨(check_ext h1).ft, ?_, ?_, rfl⟩
    · simp only [Spec.exprs, List.mem_singleton, forall_eq]
      exact ⟨check_ordered_src h1, check_tense_src h1⟩
    · simp only [Spec.exprs, List.mem_singleton, forall_eq]
      exact ⟨check_boolean h1, hb⟩
  | contract l n1 n2 n3 a g =>
    simp only [checkSpec, Option.bind_eq_some_iff] at h
    obtain ⟨⟨a1, Γ1⟩, h1, ⟨g1, Γ2⟩, h2, h3⟩ := h
    split_ifs at h3 with hb
    cases h3
    have e1 := (check_ext h1).ft
    refine ⟨(check_ext h2).ft.trans e1, ?_, ?_, rfl⟩
    · simp only [Spec.exprs, List.mem_cons, List.not_mem_nil, or_false, forall_eq_or_imp, forall_eq]
      have := check_tense_src h2
      rw [e1] at this
      exact ⟨⟨check_ordered_src h1, check_tense_src h1⟩, check_ordered_src h2, this⟩
    · simp only [Spec.exprs, List.mem_cons, List.not_mem_nil, or_false, forall_eq_or_imp, forall_eq]
      exact ⟨⟨check_boolean h1, hb.1⟩, check_boolean h2, hb.2⟩

theorem specifications_inv {ss : List Spec} : ∀ {st : List String × TcCtx} {ss' : List Spec} {Γ' : TcCtx}, specifications st ss = some (ss', Γ') →
    (∀ s ∈ ss, ∀ e ∈ s.exprs, e.Ordered ∧ e.Tense st.2.ft) ∧ (∀ s ∈ ss', ∀ e ∈ s.exprs, e.BooleanOperands ∧ e.ty = .bool) ∧
    ((ss.map (·.label)).filter (· ≠ "")).Nodup ∧ (∀ l ∈ (ss.map (·.label)).filter (· ≠ ""), l ∉ st.1) := by
  induction ss with
  | nil => intro st ss' Γ' h; simp only [specifications] at h; cases h; simp
  | cons s ss ih =>
    intro st ss' Γ' h
    simp only [specifications] at h
    split_ifs at h with hd
    simp only [Option.bind_eq_some_iff, Option.map_eq_some_iff] at h
    obtain ⟨⟨s1, Γ1⟩, h1, ⟨ss1, Γ2⟩, h2, h3⟩ := h
    cases h3
    obtain ⟨g1, g2, g3, _⟩ := checkSpec_inv h1
    obtain ⟨i1, i2, i3, i4⟩ := ih h2
    simp only at i1
    rw [g1] at i1
    refine ⟨?_, ?_, ?_, ?_⟩
    · intro x hx
      rcases List.mem_cons.mp hx with rfl | hx
      · exact g2
      · exact i1 x hx
    · intro x hx
      rcases List.mem_cons.mp hx with rfl | hx
      · exact g3
      · exact i2 x hx
    · simp only [List.map_cons, List.filter_cons]
      split_ifs with hl
      · exact List.nodup_cons.mpr ⟨fun h => i4 _ h (by simp), i3⟩
      · exact i3
    · intro l hl
      simp only [List.map_cons, List.filter_cons] at hl
      split_ifs at hl with hne
      · rcases List.mem_cons.mp hl with rfl | hl
        · exact fun h => hd ⟨by simpa using hne, h⟩
        · exact fun h => i4 l hl (by simp [h])
      · exact fun h => i4 l hl (by simp [h])

theorem defines_inv {ds : List (String × Src)} : ∀ {st : List String × TcCtx} {ds' : List (String × Src)} {Γ' : TcCtx},
    defines st ds = some (ds', Γ') → (∀ d ∈ ds, d.2.Ordered) ∧ (∀ d ∈ ds', d.2.BooleanOperands) ∧
    (ds.map (·.1)).Nodup ∧ (∀ l ∈ ds.map (·.1), l ∉ st.1) := by
  induction ds with
  | nil => intro st ds' Γ' h; simp only [defines] at h; cases h; simp
  | cons d ds ih =>
    obtain ⟨s, e⟩ := d
    intro st ds' Γ' h
    simp only [defines] at h
    split_ifs at h with hd
    simp only [Option.bind_eq_some_iff, Option.map_eq_some_iff] at h
    obtain ⟨⟨e1, Γ1⟩, h1, ⟨ds1, Γ2⟩, h2, h3⟩ := h
    cases h3
    obtain ⟨i1, i2, i3, i4⟩ := ih h2
    refine ⟨?_, ?_, ?_, ?_⟩
    · intro x hx
      rcases List.mem_cons.mp hx with rfl | hx
      · exact check_ordered_src h1
      · exact i1 x hx
    · intro x hx
      rcases List.mem_cons.mp hx with rfl | hx
      · exact check_boolean h1
      · exact i2 x hx
    · exact List.nodup_cons.mpr ⟨fun h => i4 _ h (by simp), i3⟩
    · intro l hl
      rcases List.mem_cons.mp hl with rfl | hl
      · exact hd
      · exact fun h => i4 l hl (by simp [h])

theorem structures_inv {ds : List (String × List (String × Typ))} : ∀ {st : List String × TcCtx} {Γ' : TcCtx},
    structures st ds = some Γ' → (ds.map (·.1)).Nodup ∧ (∀ l ∈ ds.map (·.1), l ∉ st.1) := by
  induction ds with
  | nil => intro st Γ' h; simp
  | cons d ds ih =>
    obtain ⟨s, e⟩ := d
    intro st Γ' h
    simp only [structures] at h
    split_ifs at h with hd
    obtain ⟨i3, i4⟩ := ih h
    refine ⟨List.nodup_cons.mpr ⟨fun h => i4 _ h (by simp), i3⟩, ?_⟩
    intro l hl
    rcases List.mem_cons.mp hl with rfl | hl
    · exact hd
    · exact fun h => i4 l hl (by simp [h])

theorem declare_seen {st st' : List String × TcCtx} {s : String} {t : Typ} (h : declare st s t = some st') : s ∉ st.1 ∧ st'.1 = s :: st.1 := by
  obtain ⟨seen, Γ⟩ := st
  simp only [declare] at h
  split_ifs at h with h1 h2
  all_goals
    refine ⟨h1, ?_⟩
    split at h <;> cases h <;> rfl

theorem declareAll_seen {ss : List String} : ∀ {st st' : List String × TcCtx} {t : Typ}, declareAll st t ss = some st' →
    ss.Nodup ∧ (∀ s ∈ ss, s ∉ st.1) ∧ ∀ x, x ∈ st'.1 ↔ x ∈ ss ∨ x ∈ st.1 := by
  induction ss with
  | nil => intro st st' t h; simp only [declareAll] at h; cases h; simp
  | cons s ss ih =>
    intro st st' t h
    simp only [declareAll, Option.bind_eq_some_iff] at h
    obtain ⟨st1, h1, h2⟩ := h
    obtain ⟨g1, g2⟩ := declare_seen h1
    obtain ⟨i1, i2, i3⟩ := ih h2
    rw [g2] at i2 i3
    refine ⟨List.nodup_cons.mpr ⟨fun h => i2 _ h (by simp), i1⟩, ?_, ?_⟩
    · intro x hx
      rcases List.mem_cons.mp hx with rfl | hx
      · exact g1
      · exact fun h => i2 x hx (by simp [h])
    · intro x
      rw [i3]
      simp only [List.mem_cons]
      tauto

theorem inputs_seen {ds : List (List String × Typ)} : ∀ {st st' : List String × TcCtx}, inputs st ds = some st' →
    (ds.flatMap (·.1)).Nodup ∧ (∀ s ∈ ds.flatMap (·.1), s ∉ st.1) := by
  induction ds with
  | nil => intro st st' h; simp
  | cons d ds ih =>
    intro st st' h
    simp only [inputs, Option.bind_eq_some_iff] at h
    obtain ⟨st1, h1, h2⟩ := h
    obtain ⟨g1, g2, g3⟩ := declareAll_seen h1
    obtain ⟨i1, i2⟩ := ih h2
    simp only [List.flatMap_cons]
    refine ⟨List.nodup_append.mpr ⟨g1, i1, ?_⟩, ?_⟩
    · rintro a ha b hb rfl
      exact i2 a hb ((g3 a).mpr (.inl ha))
    · intro s hs
      rcases List.mem_append.mp hs with hs | hs
      · exact g2 s hs
      · exact fun h => i2 s hs ((g3 s).mpr (.inr h))

theorem symbols_set_enum {Γ : TcCtx} {s : String} {ms : List (String × Int)} {x : String} :
    x ∈ symbols { Γ with enums := Tbl.set Γ.enums s ms } ↔ x = s ∨ x ∈ symbols Γ := by
  have : x ∈ (Tbl.set Γ.enums s ms).map (·.1) ↔ x = s ∨ x ∈ Γ.enums.map (·.1) := by
    simp only [Tbl.set, List.map_cons, List.mem_cons, List.mem_map, List.mem_filter, bne_iff_ne, ne_eq]
    constructor
    · rintro (rfl | ⟨a, ⟨h1, _⟩, rfl⟩)
      · exact .inl rfl
      · exact .inr ⟨a, h1, rfl⟩
    · rintro (rfl | ⟨a, h1, rfl⟩)
      · exact .inl rfl
      · by_cases h : a.1 = s
        · exact .inl h
        · exact .inr ⟨a, ⟨h1, h⟩, rfl⟩
  simp only [symbols, List.mem_append, this]
  tauto

theorem enumerations_inv {ds : List (String × List (String × Option Int))} : ∀ {Γ Γ' : TcCtx}, enumerations Γ ds = some Γ' →
    (ds.map (·.1)).Nodup ∧ (∀ d ∈ ds, d.1 ∉ symbols Γ ∧ ∀ m ∈ d.2, m.1 ∉ symbols Γ ∧ m.1 ≠ d.1 ∧ m.2 ≠ none) ∧
    ∀ x, x ∈ symbols Γ' ↔ x ∈ ds.map (·.1) ∨ x ∈ symbols Γ := by
  induction ds with
  | nil => intro Γ Γ' h; simp only [enumerations] at h; cases h; simp
  | cons d ds ih =>
    obtain ⟨s, ms⟩ := d
    intro Γ Γ' h
    simp only [enumerations] at h
    split_ifs at h with h1 h2
    obtain ⟨i1, i2, i3⟩ := ih h
    simp only [symbols_set_enum] at i2 i3
    refine ⟨List.nodup_cons.mpr ⟨?_, i1⟩, ?_, ?_⟩
    · intro hs
      obtain ⟨d, hd, rfl⟩ := List.mem_map.mp hs
      exact (i2 d hd).1 (.inl rfl)
    · intro d hd
      rcases List.mem_cons.mp hd with rfl | hd
      · refine ⟨h1, fun m hm => ?_⟩
        simp only [List.any_eq_true, not_exists, not_and, Bool.or_eq_true, not_or, decide_eq_true_eq, beq_iff_eq] at h2
        obtain ⟨⟨q1, q2⟩, q3⟩ := h2 m hm
        exact ⟨q2, q3, by simpa using q1⟩
      · obtain ⟨q1, q2⟩ := i2 d hd
        exact ⟨fun h => q1 (.inr h), fun m hm => ⟨fun h => (q2 m hm).1 (.inr h), (q2 m hm).2⟩⟩
    · intro x
      rw [i3]
      simp only [List.map_cons, List.mem_cons]
      tauto

/-- What is known about a section that was accepted. -/
theorem checkSection_inv {Γ Γ' : TcCtx} {s s'} (h : checkSection Γ s = some (s', Γ')) :
    (∀ e ∈ s.exprs, e.Ordered) ∧ (∀ e ∈ s'.exprs, e.BooleanOperands) ∧ s.declared.Nodup ∧
    (∀ ft ss, s = .spec ft ss → ∃ ss', s' = .spec ft ss' ∧ (∀ p ∈ ss, ∀ e ∈ p.exprs, e.Tense ft) ∧ ∀ p ∈ ss', ∀ e ∈ p.exprs, e.ty = .bool) := by
  cases s with
  | input ds =>
    simp only [checkSection, Option.map_eq_some_iff] at h
    obtain ⟨st, h1, h2⟩ := h
    cases h2
    exact ⟨by simp [Sec.exprs], by simp [Sec.exprs], (inputs_seen h1).1, by simp⟩
  | define ds =>
    simp only [checkSection, Option.map_eq_some_iff] at h
    obtain ⟨⟨ds', Γ1⟩, h1, h2⟩ := h
    cases h2
    obtain ⟨g1, g2, g3, _⟩ := defines_inv h1
    refine ⟨?_, ?_, g3, by simp⟩
    · simp only [Sec.exprs, List.mem_map]
      rintro e ⟨d, hd, rfl⟩
      exact g1 d hd
    · simp only [Sec.exprs, List.mem_map]
      rintro e ⟨d, hd, rfl⟩
      exact g2 d hd
  | struct ds =>
    simp only [checkSection, Option.map_eq_some_iff] at h
    obtain ⟨Γ1, h1, h2⟩ := h
    cases h2
    exact ⟨by simp [Sec.exprs], by simp [Sec.exprs], (structures_inv h1).1, by simp⟩
  | enum ds =>
    simp only [checkSection, Option.map_eq_some_iff] at h
    obtain ⟨Γ1, h1, h2⟩ := h
    cases h2
    exact ⟨by simp [Sec.exprs], by simp [Sec.exprs], (enumerations_inv h1).1, by simp⟩
  | spec ft ss =>
    simp only [checkSection, Option.map_eq_some_iff] at h
    obtain ⟨⟨ss', Γ1⟩, h1, h2⟩ := h
    cases h2
    obtain ⟨g1, g2, g3, _⟩ := specifications_inv h1
    refine ⟨?_, ?_, g3, ?_⟩
    · simp only [Sec.exprs, List.mem_flatMap]
      rintro e ⟨p, hp, he⟩
      exact (g1 p hp e he).1
    · simp only [Sec.exprs, List.mem_flatMap]
      rintro e ⟨p, hp, he⟩
      exact (g2 p hp e he).1
    · rintro ft' ss1 heq
      cases heq
      exact ⟨ss', rfl, fun p hp e he => (g1 p hp e he).2, fun p hp e he => (g2 p hp e he).2⟩

/-- The sections of an accepted program, each with the context it was checked in. -/
theorem checkProgram_inv {ss : List Sec} : ∀ {Γ Γ' : TcCtx} {ss' : List Sec}, checkProgram Γ ss = some (ss', Γ') →
    List.Forall₂ (fun s s' => ∃ Γ1 Γ2, checkSection Γ1 s = some (s', Γ2)) ss ss' := by
  induction ss with
  | nil => intro Γ Γ' ss' h; simp only [checkProgram] at h; cases h; exact .nil
  | cons s ss ih =>
    intro Γ Γ' ss' h
    simp only [checkProgram, Option.bind_eq_some_iff, Option.map_eq_some_iff] at h
    obtain ⟨⟨s1, Γ1⟩, h1, ⟨ss1, Γ2⟩, h2, h3⟩ := h
    cases h3
    exact .cons ⟨_, _, h1⟩ (ih h2)

theorem checkProgram_append {ss : List Sec} : ∀ {Γ Γ' : TcCtx} {ts : List Sec} {ss' : List Sec}, checkProgram Γ (ss ++ ts) = some (ss', Γ') →
    ∃ s1 Γ1 t1, checkProgram Γ ss = some (s1, Γ1) ∧ checkProgram Γ1 ts = some (t1, Γ') ∧ ss' = s1 ++ t1 := by
  induction ss with
  | nil => intro Γ Γ' ts ss' h; exact ⟨[], Γ, ss', rfl, h, rfl⟩
  | cons s ss ih =>
    intro Γ Γ' ts ss' h
    simp only [List.cons_append, checkProgram, Option.bind_eq_some_iff, Option.map_eq_some_iff] at h
    obtain ⟨⟨s1, Γ1⟩, h1, ⟨ss1, Γ2⟩, h2, h3⟩ := h
    cases h3
    obtain ⟨a, Γ3, b, g1, g2, rfl⟩ := ih h2
    exact ⟨s1 :: a, Γ3, b, by simp [checkProgram, h1, g1], g2, rfl⟩

/-! Names stay known.  The entries of `signals` that go are those of array elements. -/

/-- Every name without a bracket that was known still is. -/
def Keeps (Γ Γ' : TcCtx) : Prop := ∀ s : String, '[' ∉ s.toList → s ∈ symbols { Γ with bound := [] } → s ∈ symbols { Γ' with bound := [] }

theorem Keeps.trans {Γ Γ1 Γ2 : TcCtx} (h1 : Keeps Γ Γ1) (h2 : Keeps Γ1 Γ2) : Keeps Γ Γ2 := fun s hs h => h2 s hs (h1 s hs h)

theorem mem_keys_set {A : Type} {d : Tbl A} {k : String} {a : A} {x : String} :
    x ∈ (Tbl.set d k a).map (·.1) ↔ x = k ∨ x ∈ d.map (·.1) := by
  simp only [Tbl.set, List.map_cons, List.mem_cons, List.mem_map, List.mem_filter, bne_iff_ne, ne_eq]
  constructor
  · rintro (rfl | ⟨a, ⟨h1, _⟩, rfl⟩)
    · exact .inl rfl
    · exact .inr ⟨a, h1, rfl⟩
  · rintro (rfl | ⟨a, h1, rfl⟩)
    · exact .inl rfl
    · by_cases h : a.1 = k
      · exact .inl h
      · exact .inr ⟨a, ⟨h1, h⟩, rfl⟩

theorem mem_keys_del {A : Type} {d : Tbl A} {k : String} {x : String} (hx : x ≠ k) (h : x ∈ d.map (·.1)) : x ∈ (Tbl.del d k).map (·.1) := by
  obtain ⟨a, h1, rfl⟩ := List.mem_map.mp h
  exact List.mem_map.mpr ⟨a, by simp [Tbl.del, h1, hx], rfl⟩

theorem node_keeps {Γ Γ' : TcCtx} {k cs e'} (h : node Γ k cs = some (e', Γ')) : Keeps Γ Γ' := by
  have hn := node_inv h
  cases hn
  case index i m n i' c hty h0 hΓ =>
    clear hΓ
    simp only [node, hty] at h
    split_ifs at h
    simp only [Option.some.injEq, Prod.mk.injEq] at h
    obtain ⟨-, rfl⟩ := h
    split
    · rename_i s' _ _
      intro s hs h
      simp only [symbols, List.mem_append] at h ⊢
      have : s ≠ s' ++ "[" ++ toString i.natAbs ++ "]" := by
        rintro rfl
        apply hs
        simp
      have := mem_keys_del (d := Γ.signals) this
      tauto
    · exact fun s _ h => h
  all_goals exact fun s _ h => h

theorem keeps_vars {Γ : TcCtx} {v : String} {m : Typ} : Keeps Γ { Γ with vars := Γ.vars.set v m } := by
  intro s hs h
  simp only [symbols, List.mem_append, mem_keys_set] at h ⊢
  tauto

theorem check_keeps {e : Src} : ∀ {Γ Γ' : TcCtx} {e'}, check Γ e = some (e', Γ') → Keeps Γ Γ' := by
  induction e using Src.ind with
  | h k ty cs ih =>
    intro Γ Γ' e' h
    rcases check_inv h with ⟨kk, v, set, body, set', body', Γ1, Γ2, Γ3, rfl, rfl, h1, h2, h3, h4, rfl⟩ |
      ⟨kk, v, set, num, body, set', num', body', Γ1, Γ4, Γ2, Γ3, rfl, rfl, h1, h5, h2, h3, h4, rfl⟩ | ⟨cs', Γ1, hk, h1, h2⟩
    · obtain ⟨m, n, _, _, _, rfl⟩ := aggregation_inv h4
      obtain ⟨_, rfl⟩ := unbind_inv h3
      have hb : Keeps Γ1 Γ2 := fun s hs h => ih body (by simp) h2 s hs h
      have hv : Keeps Γ2 { { Γ2 with bound := Tbl.del Γ2.bound v } with vars := Tbl.set Γ2.vars v m } := fun s hs h => keeps_vars s hs h
      exact (ih set (by simp) h1).trans (hb.trans hv)
    · obtain ⟨m, n, _, _, _, rfl⟩ := aggregation_inv h4
      obtain ⟨_, rfl⟩ := unbind_inv h3
      have hb : Keeps Γ4 Γ2 := fun s hs h => ih body (by simp) h2 s hs h
      have hv : Keeps Γ2 { { Γ2 with bound := Tbl.del Γ2.bound v } with vars := Tbl.set Γ2.vars v m } := fun s hs h => keeps_vars s hs h
      exact (ih set (by simp) h1).trans ((ih num (by simp) h5).trans (hb.trans hv))
    · have hL : ∀ cs : List Src, (∀ c ∈ cs, ∀ {Γ Γ' : TcCtx} {e'}, check Γ c = some (e', Γ') → Keeps Γ Γ') →
          ∀ {Γ Γ' cs'}, checkL Γ cs = some (cs', Γ') → Keeps Γ Γ' := by
        intro cs
        induction cs with
        | nil => intro _ Γ Γ' cs' h; simp only [checkL] at h; cases h; exact fun s _ h => h
        | cons c cs ihc =>
          intro hc Γ Γ' cs' h
          obtain ⟨c1, cs1, Γ1, g1, g2, rfl⟩ := checkL_inv h
          exact (hc c (by simp) g1).trans (ihc (fun d hd => hc d (by simp [hd])) g2)
      exact (hL cs (fun c hc => ih c hc) h1).trans (node_keeps h2)

/-- The known names, without those bound by aggregations. -/
abbrev known (Γ : TcCtx) : List String := symbols { Γ with bound := [] }

theorem known_symbols {Γ : TcCtx} {x : String} (h : x ∈ known Γ) : x ∈ symbols Γ := by
  simp only [symbols, List.mem_append] at h ⊢
  simp only [List.map_nil, List.not_mem_nil, or_false] at h
  exact .inl h

theorem checkSpec_keeps {Γ Γ' : TcCtx} {s s'} (h : checkSpec Γ s = some (s', Γ')) : Keeps Γ Γ' ∧ s.label ∈ known Γ' := by
  cases s with
  | formula l n e =>
    simp only [checkSpec, Option.bind_eq_some_iff] at h
    obtain ⟨⟨e1, Γ1⟩, h1, h2⟩ := h
    split_ifs at h2 with hb
    cases h2
    refine ⟨(check_keeps h1).trans ?_, by simp [symbols, Spec.label]⟩
    intro s hs h
    simp only [symbols, List.mem_append, List.mem_cons] at h ⊢
    tauto
  | contract l n1 n2 n3 a g =>
    simp only [checkSpec, Option.bind_eq_some_iff] at h
    obtain ⟨⟨a1, Γ1⟩, h1, ⟨g1, Γ2⟩, h2, h3⟩ := h
    split_ifs at h3 with hb
    cases h3
    refine ⟨(check_keeps h1).trans ((check_keeps h2).trans ?_), by simp [symbols, Spec.label]⟩
    intro s hs h
    simp only [symbols, List.mem_append, List.mem_cons] at h ⊢
    tauto

theorem specifications_keeps {ss : List Spec} : ∀ {st : List String × TcCtx} {ss' : List Spec} {Γ' : TcCtx}, specifications st ss = some (ss', Γ') →
    Keeps st.2 Γ' ∧ ∀ s ∈ ss, '[' ∉ s.label.toList → s.label ∈ known Γ' := by
  induction ss with
  | nil => intro st ss' Γ' h; simp only [specifications] at h; cases h; exact ⟨fun s _ h => h, by simp⟩
  | cons s ss ih =>
    intro st ss' Γ' h
    simp only [specifications] at h
    split_ifs at h with hd
    simp only [Option.bind_eq_some_iff, Option.map_eq_some_iff] at h
    obtain ⟨⟨s1, Γ1⟩, h1, ⟨ss1, Γ2⟩, h2, h3⟩ := h
    cases h3
    obtain ⟨g1, g2⟩ := checkSpec_keeps h1
    obtain ⟨i1, i2⟩ := ih h2
    refine ⟨g1.trans i1, fun x hx hb => ?_⟩
    rcases List.mem_cons.mp hx with rfl | hx
    · exact i1 _ hb g2
    · exact i2 x hx hb

theorem defines_keeps {ds : List (String × Src)} : ∀ {st : List String × TcCtx} {ds' : List (String × Src)} {Γ' : TcCtx},
    defines st ds = some (ds', Γ') → Keeps st.2 Γ' ∧ ∀ d ∈ ds, '[' ∉ d.1.toList → d.1 ∈ known Γ' := by
  induction ds with
  | nil => intro st ds' Γ' h; simp only [defines] at h; cases h; exact ⟨fun s _ h => h, by simp⟩
  | cons d ds ih =>
    obtain ⟨s, e⟩ := d
    intro st ds' Γ' h
    simp only [defines] at h
    split_ifs at h with hd
    simp only [Option.bind_eq_some_iff, Option.map_eq_some_iff] at h
    obtain ⟨⟨e1, Γ1⟩, h1, ⟨ds1, Γ2⟩, h2, h3⟩ := h
    cases h3
    obtain ⟨i1, i2⟩ := ih h2
    have hk : Keeps Γ1 { Γ1 with definitions := Γ1.definitions.set s e1 } := by
      intro s hs h
      simp only [symbols, List.mem_append, mem_keys_set] at h ⊢
      tauto
    refine ⟨(check_keeps h1).trans (hk.trans i1), fun x hx hb => ?_⟩
    rcases List.mem_cons.mp hx with rfl | hx
    · refine i1 _ hb ?_
      simp only [symbols, List.mem_append, mem_keys_set]
      tauto
    · exact i2 x hx hb

theorem structures_keeps {ds : List (String × List (String × Typ))} : ∀ {st : List String × TcCtx} {Γ' : TcCtx},
    structures st ds = some Γ' → Keeps st.2 Γ' ∧ ∀ d ∈ ds, '[' ∉ d.1.toList → d.1 ∈ known Γ' := by
  induction ds with
  | nil => intro st Γ' h; simp only [structures] at h; cases h; exact ⟨fun s _ h => h, by simp⟩
  | cons d ds ih =>
    obtain ⟨s, e⟩ := d
    intro st Γ' h
    simp only [structures] at h
    split_ifs at h with hd
    obtain ⟨i1, i2⟩ := ih h
    have hk : Keeps st.2 { st.2 with structs := Tbl.set st.2.structs s e } := by
      intro s hs h
      simp only [symbols, List.mem_append, mem_keys_set] at h ⊢
      tauto
    refine ⟨hk.trans i1, fun x hx hb => ?_⟩
    rcases List.mem_cons.mp hx with rfl | hx
    · refine i1 _ hb ?_
      simp only [symbols, List.mem_append, mem_keys_set]
      tauto
    · exact i2 x hx hb

theorem foldl_keys {m : Typ} {names : List String} : ∀ {d : Tbl Typ} {x : String}, x ∈ d.map (·.1) →
    x ∈ (names.foldl (fun d e => Tbl.set d e m) d).map (·.1) := by
  induction names with
  | nil => exact fun h => h
  | cons n ns ih => exact fun h => ih (mem_keys_set.mpr (.inr h))

theorem declare_keeps {st st' : List String × TcCtx} {s : String} {t : Typ} (h : declare st s t = some st') :
    Keeps st.2 st'.2 ∧ s ∈ known st'.2 := by
  obtain ⟨seen, Γ⟩ := st
  simp only [declare] at h
  split_ifs at h with h1 h2
  · cases h
    refine ⟨?_, by simp [symbols, Tbl.set]⟩
    intro s hs h
    simp only [symbols, List.mem_append, mem_keys_set] at h ⊢
    tauto
  · split at h
    · rename_i m n
      cases h
      refine ⟨?_, by simp [symbols, Tbl.set]⟩
      intro x hs h
      simp only [symbols, List.mem_append, mem_keys_set] at h ⊢
      have hf : x ∈ Γ.signals.map (·.1) → _ := fun h => foldl_keys (m := m)
        (names := (List.range n.toNat).map fun (i : Nat) => s ++ "[" ++ toString i ++ "]") (d := Tbl.set Γ.signals s (.arr m n))
        (mem_keys_set.mpr (.inr h))
      clear hs h1 h2
      tauto
    · cases h
      refine ⟨?_, by simp [symbols, Tbl.set]⟩
      intro s hs h
      simp only [symbols, List.mem_append, mem_keys_set] at h ⊢
      tauto

theorem declareAll_keeps {ss : List String} : ∀ {st st' : List String × TcCtx} {t : Typ}, declareAll st t ss = some st' →
    Keeps st.2 st'.2 ∧ ∀ s ∈ ss, '[' ∉ s.toList → s ∈ known st'.2 := by
  induction ss with
  | nil => intro st st' t h; simp only [declareAll] at h; cases h; exact ⟨fun s _ h => h, by simp⟩
  | cons s ss ih =>
    intro st st' t h
    simp only [declareAll, Option.bind_eq_some_iff] at h
    obtain ⟨st1, h1, h2⟩ := h
    obtain ⟨g1, g2⟩ := declare_keeps h1
    obtain ⟨i1, i2⟩ := ih h2
    refine ⟨g1.trans i1, fun x hx hb => ?_⟩
    rcases List.mem_cons.mp hx with rfl | hx
    · exact i1 _ hb g2
    · exact i2 x hx hb

theorem inputs_keeps {ds : List (List String × Typ)} : ∀ {st st' : List String × TcCtx}, inputs st ds = some st' →
    Keeps st.2 st'.2 ∧ ∀ s ∈ ds.flatMap (·.1), '[' ∉ s.toList → s ∈ known st'.2 := by
  induction ds with
  | nil => intro st st' h; simp only [inputs] at h; cases h; exact ⟨fun s _ h => h, by simp⟩
  | cons d ds ih =>
    intro st st' h
    simp only [inputs, Option.bind_eq_some_iff] at h
    obtain ⟨st1, h1, h2⟩ := h
    obtain ⟨g1, g2⟩ := declareAll_keeps h1
    obtain ⟨i1, i2⟩ := ih h2
    refine ⟨g1.trans i1, fun x hx hb => ?_⟩
    simp only [List.flatMap_cons] at hx
    rcases List.mem_append.mp hx with hx | hx
    · exact i1 _ hb (g2 x hx hb)
    · exact i2 x hx hb

theorem enumerations_known {ds : List (String × List (String × Option Int))} : ∀ {Γ Γ' : TcCtx}, enumerations Γ ds = some Γ' →
    ∀ x, x ∈ known Γ' ↔ x ∈ ds.map (·.1) ∨ x ∈ known Γ := by
  induction ds with
  | nil => intro Γ Γ' h; simp only [enumerations] at h; cases h; simp
  | cons d ds ih =>
    obtain ⟨s, ms⟩ := d
    intro Γ Γ' h
    simp only [enumerations] at h
    split_ifs at h with h1 h2
    intro x
    rw [ih h x]
    have := symbols_set_enum (Γ := { Γ with bound := [] }) (s := s) (ms := ms.map fun m => (m.1, m.2.getD 0)) (x := x)
    simp only [known, this, List.map_cons, List.mem_cons]
    tauto

theorem checkSection_keeps {Γ Γ' : TcCtx} {s s'} (h : checkSection Γ s = some (s', Γ')) :
    Keeps Γ Γ' ∧ ∀ x ∈ s.declared, '[' ∉ x.toList → x ∈ known Γ' := by
  cases s with
  | input ds =>
    simp only [checkSection, Option.map_eq_some_iff] at h
    obtain ⟨st, h1, h2⟩ := h
    simp only [Prod.mk.injEq] at h2
    rw [← h2.2]
    exact inputs_keeps (st := ([], Γ)) h1
  | define ds =>
    simp only [checkSection, Option.map_eq_some_iff] at h
    obtain ⟨⟨ds', Γ1⟩, h1, h2⟩ := h
    cases h2
    obtain ⟨g1, g2⟩ := defines_keeps h1
    refine ⟨g1, ?_⟩
    simp only [Sec.declared, List.mem_map]
    rintro x ⟨d, hd, rfl⟩
    exact g2 d hd
  | struct ds =>
    simp only [checkSection, Option.map_eq_some_iff] at h
    obtain ⟨Γ1, h1, h2⟩ := h
    cases h2
    obtain ⟨g1, g2⟩ := structures_keeps h1
    refine ⟨g1, ?_⟩
    simp only [Sec.declared, List.mem_map]
    rintro x ⟨d, hd, rfl⟩
    exact g2 d hd
  | enum ds =>
    simp only [checkSection, Option.map_eq_some_iff] at h
    obtain ⟨Γ1, h1, h2⟩ := h
    cases h2
    exact ⟨fun x _ hx => (enumerations_known h1 x).mpr (.inr hx), fun x hx _ => (enumerations_known h1 x).mpr (.inl hx)⟩
  | spec ft ss =>
    simp only [checkSection, Option.map_eq_some_iff] at h
    obtain ⟨⟨ss', Γ1⟩, h1, h2⟩ := h
    cases h2
    obtain ⟨g1, g2⟩ := specifications_keeps h1
    refine ⟨fun x hb hx => g1 x hb hx, ?_⟩
    simp only [Sec.declared, List.mem_filter, List.mem_map]
    rintro x ⟨⟨d, hd, rfl⟩, _⟩
    exact g2 d hd

theorem checkProgram_keeps {ss : List Sec} : ∀ {Γ Γ' : TcCtx} {ss' : List Sec}, checkProgram Γ ss = some (ss', Γ') →
    Keeps Γ Γ' ∧ ∀ s ∈ ss, ∀ x ∈ s.declared, '[' ∉ x.toList → x ∈ known Γ' := by
  induction ss with
  | nil => intro Γ Γ' ss' h; simp only [checkProgram] at h; cases h; exact ⟨fun s _ h => h, by simp⟩
  | cons s ss ih =>
    intro Γ Γ' ss' h
    simp only [checkProgram, Option.bind_eq_some_iff, Option.map_eq_some_iff] at h
    obtain ⟨⟨s1, Γ1⟩, h1, ⟨ss1, Γ2⟩, h2, h3⟩ := h
    cases h3
    obtain ⟨g1, g2⟩ := checkSection_keeps h1
    obtain ⟨i1, i2⟩ := ih h2
    refine ⟨g1.trans i1, fun t ht x hx hb => ?_⟩
    rcases List.mem_cons.mp ht with rfl | ht
    · exact i1 _ hb (g2 x hx hb)
    · exact i2 t ht x hx hb

end Tc
end R2U2
