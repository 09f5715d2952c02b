import Verif.Lemmas.RustLoad
/-
Loading a binary into a Rust monitor that has one already.
-/
namespace R2U2
namespace Rs
open Monitor

/-- `M` is `N` with the instructions `old` before those of `N`, apart from what a run sets anew. -/
structure Behind (old : List TlRec) (M N : Monitor) : Prop where
  lim : M.lim = N.lim
  time : M.time = N.time
  progress : M.progress = N.progress
  bz : M.bzMax = N.bzMax
  prog : M.program = old ++ N.program
  blocks : M.blocks = N.blocks
  mem : M.mem = N.mem

theorem Behind.max {old : List TlRec} {M N : Monitor} (h : Behind old M N) : M.max = old.length + N.max := by
  have := congrArg List.length h.prog
  simpa [program] using this

theorem program_push (M : Monitor) (r : TlRec) :
    ({ M with table := fun k => if k = M.max then r else M.table k, max := M.max + 1 } : Monitor).program = M.program ++ [r] := by
  unfold program
  simp only [List.range_succ, List.map_append, List.map_cons, List.map_nil, if_true]
  congr 1
  apply List.map_congr_left
  intro k hk
  rw [List.mem_range] at hk
  rw [if_neg (by omega)]

theorem Behind.store {old : List TlRec} {M N N' : Monitor} (h : Behind old M N) {r : TlRec} (hroom : old.length + N'.max ≤ M.lim.tl) (hn : N.storeTl r = some N') :
    ∃ M', M.storeTl r = some M' ∧ Behind old M' N' := by
  unfold storeTl at hn ⊢
  by_cases hc : N.max < N.lim.tl
  · rw [if_pos hc, Option.some.injEq] at hn
    subst hn
    have hm := h.max
    simp only at hroom
    rw [if_pos (by omega)]
    refine ⟨_, rfl, ⟨h.lim, h.time, h.progress, h.bz, ?_, h.blocks, h.mem⟩⟩
    rw [program_push, program_push, h.prog, List.append_assoc]
  · rw [if_neg hc] at hn; cases hn

theorem Behind.storeBz {old : List TlRec} {M N N' : Monitor} (h : Behind old M N) {r : BzRec} (hn : N.storeBz r = some N') :
    ∃ M', M.storeBz r = some M' ∧ Behind old M' N' ∧ N'.max = N.max := by
  unfold Monitor.storeBz at hn ⊢
  rw [h.lim, h.bz]
  split at hn
  · split at hn
    · cases hn; rename_i h1 h2; rw [if_pos h1, if_pos h2]; exact ⟨_, rfl, h, rfl⟩
    · cases hn
  · rename_i h1
    rw [if_neg h1]
    split at hn
    · cases hn
    · rename_i h2
      rw [if_neg h2]
      split at hn
      · cases hn
        rename_i h3
        rw [if_pos h3]
        exact ⟨_, rfl, ⟨rfl, h.time, h.progress, rfl, h.prog, h.blocks, h.mem⟩, rfl⟩
      · cases hn

theorem Behind.configure {old : List TlRec} {M N N' : Monitor} (h : Behind old M N) {r : TlRec} (hn : N.configure r = some N') :
    ∃ M', M.configure r = some M' ∧ Behind old M' N' ∧ N'.max = N.max := by
  have hb : ∀ q, M.block q = N.block q := by intro q; unfold block; rw [h.lim, h.blocks]
  have hs : ∀ q b, Behind old (M.setBlock q b) (N.setBlock q b) := by
    intro q b
    exact ⟨h.lim, h.time, h.progress, h.bz, h.prog, by simp only [setBlock, h.blocks], h.mem⟩
  unfold Monitor.configure at hn ⊢
  simp only [hb]
  split at hn
  · simp only [Option.bind_eq_some_iff] at hn ⊢
    obtain ⟨ref, h1, h2⟩ := hn
    split at h2
    · rename_i h3
      rw [Option.map_eq_some_iff] at h2
      obtain ⟨b, h4, rfl⟩ := h2
      refine ⟨_, ⟨ref, h1, ?_⟩, hs _ _, rfl⟩
      rw [if_pos h3, h4]
      rfl
    · cases h2
  · rw [Option.map_eq_some_iff] at hn
    obtain ⟨b, h4, rfl⟩ := hn
    rw [h4]
    exact ⟨_, rfl, hs _ _, rfl⟩
  · cases hn
    exact ⟨_, rfl, h, rfl⟩

theorem storeTl_max {N N' : Monitor} {r : TlRec} (h : N.storeTl r = some N') : N'.max = N.max + 1 := by
  unfold storeTl at h
  split at h
  · cases h; rfl
  · cases h

/-- One frame; the number of instructions does not go down. -/
theorem frame_max {s : List Nat} {o : Nat} {N N' : Monitor} (h : N.frame s o = some N') : N.max ≤ N'.max := by
  have hB : Behind [] N N := ⟨rfl, rfl, rfl, rfl, rfl, rfl, rfl⟩
  unfold frame at h
  split at h
  · cases h
  · split at h
    · cases h
    · split at h
      · rw [Option.bind_eq_some_iff] at h
        obtain ⟨r, _, h⟩ := h
        obtain ⟨_, _, _, h⟩ := hB.configure h
        omega
      · split at h
        · rw [Option.bind_eq_some_iff] at h
          obtain ⟨r, _, h⟩ := h
          obtain ⟨_, _, _, h⟩ := hB.storeBz h
          omega
        · split at h
          · rw [Option.bind_eq_some_iff] at h
            obtain ⟨r, _, h⟩ := h
            have := storeTl_max h
            omega
          · cases h; exact Nat.le_refl _

theorem frames_max {s : List Nat} : ∀ (n o : Nat) {N N' : Monitor}, frames n s o N = some N' → N.max ≤ N'.max := by
  intro n
  induction n with
  | zero => intro o N N' h; cases h
  | succ n ih =>
      intro o N N' h
      simp only [frames] at h
      split at h
      · cases h
      · split at h
        · cases h; exact Nat.le_refl _
        · rw [Option.bind_eq_some_iff] at h
          obtain ⟨N1, h1, h2⟩ := h
          exact le_trans (frame_max h1) (ih _ h2)

theorem Behind.frame {old : List TlRec} {s : List Nat} {o : Nat} {M N N' : Monitor} (h : Behind old M N) (hroom : old.length + N'.max ≤ M.lim.tl) (hn : N.frame s o = some N') :
    ∃ M', M.frame s o = some M' ∧ Behind old M' N' ∧ M'.lim = M.lim := by
  have hl : ∀ {M' N' : Monitor}, N'.lim = N.lim → Behind old M' N' → M'.lim = M.lim := fun h1 h2 => by rw [h2.lim, h1, h.lim]
  unfold Monitor.frame at hn ⊢
  cases ht : s[o + 1]? with
  | none => rw [ht] at hn; cases hn
  | some tag =>
      rw [ht] at hn
      simp only at hn ⊢
      by_cases h1 : tag = 2 ∧ s[o + 2]? = none
      · rw [if_pos h1] at hn; cases hn
      · rw [if_neg h1] at hn ⊢
        by_cases h2 : tag = 2 ∧ s[o + 2]? = some 4
        · rw [if_pos h2, Option.bind_eq_some_iff] at hn
          rw [if_pos h2]
          obtain ⟨r, hr, hn⟩ := hn
          obtain ⟨M', a, b, _⟩ := h.configure hn
          rw [hr]
          exact ⟨M', a, b, hl (configure_same hn).2.2.1 b⟩
        · rw [if_neg h2] at hn ⊢
          by_cases h3 : tag = 5
          · rw [if_pos h3, Option.bind_eq_some_iff] at hn
            rw [if_pos h3]
            obtain ⟨r, hr, hn⟩ := hn
            obtain ⟨M', a, b, _⟩ := h.storeBz hn
            rw [hr]
            refine ⟨M', a, b, hl ?_ b⟩
            unfold Monitor.storeBz at hn
            split at hn
            · split at hn <;> cases hn; rfl
            · split at hn
              · cases hn
              · split at hn <;> cases hn; rfl
          · rw [if_neg h3] at hn ⊢
            by_cases h4 : tag = 4
            · rw [if_pos h4, Option.bind_eq_some_iff] at hn
              rw [if_pos h4]
              obtain ⟨r, hr, hn⟩ := hn
              obtain ⟨M', a, b⟩ := h.store hroom hn
              rw [hr]
              refine ⟨M', a, b, hl ?_ b⟩
              unfold storeTl at hn
              split at hn <;> cases hn; rfl
            · rw [if_neg h4] at hn ⊢
              cases hn
              exact ⟨M, rfl, h, rfl⟩

theorem Behind.frames {old : List TlRec} {s : List Nat} : ∀ (n o : Nat) {M N N' : Monitor}, Behind old M N → old.length + N'.max ≤ M.lim.tl →
    Monitor.frames n s o N = some N' → ∃ M', Monitor.frames n s o M = some M' ∧ Behind old M' N' := by
  intro n
  induction n with
  | zero => intro o M N N' _ _ h; cases h
  | succ n ih =>
      intro o M N N' h hroom hn
      simp only [Monitor.frames] at hn ⊢
      split at hn
      · cases hn
      · rename_i len hs
        by_cases h0 : len = 0
        · rw [if_pos h0] at hn ⊢
          cases hn
          exact ⟨M, rfl, h⟩
        · rw [if_neg h0, Option.bind_eq_some_iff] at hn
          rw [if_neg h0]
          obtain ⟨N1, h1, h2⟩ := hn
          have := frames_max _ _ h2
          obtain ⟨M1, a, b, c⟩ := h.frame (by omega) h1
          rw [a]
          exact ih _ b (by rw [c]; exact hroom) h2

theorem setNext_program (is : List TlRec) : ∀ {M M' : Monitor}, setNext is M = some M' → M'.program = M.program ∧ M'.max = M.max ∧ M'.lim = M.lim := by
  induction is with
  | nil => intro M M' h; cases h; exact ⟨rfl, rfl, rfl⟩
  | cons r is ih =>
      intro M M' h
      simp only [setNext] at h
      split at h
      · rw [Option.bind_eq_some_iff] at h
        obtain ⟨b, _, h⟩ := h
        exact ih (M := M.setBlock _ _) h
      · exact ih h

theorem Behind.setNext {old : List TlRec} (is : List TlRec) : ∀ {M N N' : Monitor}, Behind old M N → setNext is N = some N' →
    ∃ M', Monitor.setNext is M = some M' ∧ Behind old M' N' := by
  induction is with
  | nil => intro M N N' h hn; cases hn; exact ⟨M, rfl, h⟩
  | cons r is ih =>
      intro M N N' h hn
      simp only [Monitor.setNext] at hn ⊢
      split at hn
      · rename_i h1
        rw [Option.bind_eq_some_iff] at hn
        obtain ⟨b, hb, hn⟩ := hn
        rw [if_pos h1]
        have : M.block r.mem = some b := by
          unfold block at hb ⊢
          rw [h.lim, h.blocks]; exact hb
        rw [this]
        exact ih (M := M.setBlock _ _) (N := N.setBlock _ _) ⟨h.lim, h.time, h.progress, h.bz, h.prog, by simp only [setBlock, h.blocks], h.mem⟩ hn
      · rename_i h1
        rw [if_neg h1]
        exact ih h hn

/-- Whatever is loaded, the instructions already there stay, before the new ones. -/
theorem frame_prefix {s : List Nat} {o : Nat} {M M' : Monitor} (h : M.frame s o = some M') : ∃ new, M'.program = M.program ++ new := by
  have hB : Behind [] M M := ⟨rfl, rfl, rfl, rfl, rfl, rfl, rfl⟩
  unfold frame at h
  split at h
  · cases h
  · split at h
    · cases h
    · split at h
      · rw [Option.bind_eq_some_iff] at h
        obtain ⟨r, _, h⟩ := h
        obtain ⟨h1, h2, _⟩ := configure_same h
        exact ⟨[], by unfold program; rw [h1, h2, List.append_nil]⟩
      · split at h
        · rw [Option.bind_eq_some_iff] at h
          obtain ⟨r, _, h⟩ := h
          refine ⟨[], ?_⟩
          rw [List.append_nil]
          unfold Monitor.storeBz at h
          split at h
          · split at h <;> cases h; rfl
          · split at h
            · cases h
            · split at h <;> cases h; rfl
        · split at h
          · rw [Option.bind_eq_some_iff] at h
            obtain ⟨r, _, h⟩ := h
            unfold storeTl at h
            split at h
            · cases h; exact ⟨[r], program_push M r⟩
            · cases h
          · cases h; exact ⟨[], by rw [List.append_nil]⟩

theorem frames_prefix {s : List Nat} : ∀ (n o : Nat) {M M' : Monitor}, frames n s o M = some M' → ∃ new, M'.program = M.program ++ new := by
  intro n
  induction n with
  | zero => intro o M M' h; cases h
  | succ n ih =>
      intro o M M' h
      simp only [frames] at h
      split at h
      · cases h
      · split at h
        · cases h; exact ⟨[], by rw [List.append_nil]⟩
        · rw [Option.bind_eq_some_iff] at h
          obtain ⟨M1, h1, h2⟩ := h
          obtain ⟨n1, e1⟩ := frame_prefix h1
          obtain ⟨n2, e2⟩ := ih _ h2
          exact ⟨n1 ++ n2, by rw [e2, e1, List.append_assoc]⟩

theorem frame_room {s : List Nat} {o : Nat} {N N' : Monitor} (hN : N.max ≤ N.lim.tl) (h : N.frame s o = some N') : N'.max ≤ N'.lim.tl ∧ N'.lim = N.lim := by
  unfold frame at h
  split at h
  · cases h
  · split at h
    · cases h
    · split at h
      · rw [Option.bind_eq_some_iff] at h
        obtain ⟨r, _, h⟩ := h
        obtain ⟨_, h2, h3, _⟩ := configure_same h
        exact ⟨by rw [h2, h3]; exact hN, h3⟩
      · split at h
        · rw [Option.bind_eq_some_iff] at h
          obtain ⟨r, _, h⟩ := h
          unfold Monitor.storeBz at h
          split at h
          · split at h <;> cases h; exact ⟨hN, rfl⟩
          · split at h
            · cases h
            · split at h <;> cases h; exact ⟨hN, rfl⟩
        · split at h
          · rw [Option.bind_eq_some_iff] at h
            obtain ⟨r, _, h⟩ := h
            unfold storeTl at h
            split at h
            · cases h; rename_i hlt; exact ⟨hlt, rfl⟩
            · cases h
          · cases h; exact ⟨hN, rfl⟩

theorem frames_room {s : List Nat} : ∀ (n o : Nat) {N N' : Monitor}, N.max ≤ N.lim.tl → frames n s o N = some N' → N'.max ≤ N.lim.tl := by
  intro n
  induction n with
  | zero => intro o N N' _ h; cases h
  | succ n ih =>
      intro o N N' hN h
      simp only [frames] at h
      split at h
      · cases h
      · split at h
        · cases h; exact hN
        · rw [Option.bind_eq_some_iff] at h
          obtain ⟨N1, h1, h2⟩ := h
          obtain ⟨r1, r2⟩ := frame_room hN h1
          have := ih _ r1 h2
          rw [← r2]; exact this

end Rs
end R2U2
