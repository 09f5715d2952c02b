import Verif.Lemmas.Binary
/-
C24 (encoding round trip) and C25 (framing of the specification binary).
-/
namespace R2U2

/-- C24, partial: an instruction whose fields fit is packed, and wherever its frame
stands in a binary the monitor's loader reads back exactly its fields, opcode
included.  Missing: integer constants of 2^31 and above, negative ones, and
floats with bit 31 of their pattern set, for which the claim is false
(`C24_floats_fail`, `C24_int_constants_fail`, `C24_negative_constants_fail`). -/
theorem C24_roundtrip_partial (i : Instr) (h : i.Fits) :
    ∃ f, packInstr i = some f ∧
      ∀ pre suf, loadFrame (pre ++ (f ++ suf)) pre.length = some [i.event] := by
  obtain ⟨b, hb, _, hl⟩ := frame i h
  exact ⟨_, hb, fun pre suf => by rw [loadFrame_append]; exact hl suf⟩

/-- Distinct opcodes and operand types have distinct codes, and the two sides agree on
them. -/
theorem C24_codes :
    (∀ o : BzOp, cBzOp o.code = some o) ∧ (∀ o : TlOp, cTlOp o.code = some o) ∧
      ∀ o : OperandT, cOperandT o.code = some o :=
  ⟨cBzOp_code, cTlOp_code, cOperandT_code⟩

/-- What a float constant becomes: with bit 31 of its pattern set, the monitor loads a
pattern that is 2^32 smaller. -/
theorem C24_floats_fail (i : BzInstr) (bits : Nat) (ho : i.op = .fconst) (ha : i.a = .float bits)
    (h1 : i.id < 2 ^ 32) (h2 : i.b < 2 ^ 32) (hb : bits < 2 ^ 64) (hl : 2 ^ 31 ≤ bits % 2 ^ 32) :
    LoadsAs (.bz i) (.fconst i.id ((bits + (2 ^ 64 - 2 ^ 32)) % 2 ^ 64)) ∧
      (bits + (2 ^ 64 - 2 ^ 32)) % 2 ^ 64 ≠ bits := by
  refine ⟨⟨_, by rw [packInstr, packBz_of i (leBytes 8 bits) (by rw [ha]; rfl) h1 h2]; rfl, ?_⟩, by omega⟩
  rw [leBytes8]
  have := load_bz (bits % 2 ^ 32) (bits / 2 ^ 32) i.b i.id i.op [] (Nat.mod_lt _ (by decide)) (by omega) h2 h1
    ((5 :: (leBytes 4 (bits % 2 ^ 32) ++ leBytes 4 (bits / 2 ^ 32) ++ leBytes 4 i.b ++ leBytes 4 i.id ++
      [i.op.code])).length + 1)
  rw [List.append_nil] at this
  rw [this, ho, if_neg (by simp), if_pos rfl, wrong_float hb hl]

/-- The claim fails for 0.1, whose pattern is 0x3FB999999999999A. -/
example : LoadsAs (.bz ⟨0, .fconst, .float 0x3FB999999999999A, 0⟩) (.fconst 0 0x3FB999989999999A) :=
  (C24_floats_fail ⟨0, .fconst, .float 0x3FB999999999999A, 0⟩ _ rfl rfl (by decide) (by decide)
    (by decide) (by decide)).1

/-- Integer constants from 2^31 on are packed as unsigned words and loaded as negative
numbers. -/
theorem C24_int_constants_fail (i : BzInstr) (v : Int) (ho : i.op = .iconst) (ha : i.a = .int v)
    (h1 : i.id < 2 ^ 32) (h2 : i.b < 2 ^ 32) (hl : 2 ^ 31 ≤ v) (hv : v < 2 ^ 32) :
    LoadsAs (.bz i) (.iconst i.id (v - 2 ^ 32)) := by
  refine ⟨_, by rw [packInstr, packBz_of i _ (by rw [ha, ho]; exact packArg_iconst (by omega) hv) h1 h2]; rfl, ?_⟩
  have := load_bz v.toNat 0 i.b i.id i.op [] (by omega) (by omega) h2 h1
    ((5 :: (leBytes 4 v.toNat ++ leBytes 4 0 ++ leBytes 4 i.b ++ leBytes 4 i.id ++ [i.op.code])).length + 1)
  rw [List.append_nil] at this
  rw [this, if_pos ho, show toInt32 v.toNat = v - 2 ^ 32 by unfold toInt32; rw [if_neg (by omega)]; omega]

example : LoadsAs (.bz ⟨3, .iconst, .int 3000000000, 0⟩) (.iconst 3 (-1294967296)) :=
  C24_int_constants_fail ⟨3, .iconst, .int 3000000000, 0⟩ 3000000000 rfl rfl (by decide) (by decide)
    (by omega) (by omega)

/-- Negative integer constants cannot be packed: `assemble` raises an exception. -/
theorem C24_negative_constants_fail (i : BzInstr) (v : Int) (ho : i.op = .iconst) (ha : i.a = .int v)
    (hv : v < 0) : packInstr (.bz i) = none := by
  have : packArg i.op i.a = none := by
    rw [ho, ha]; simp only [packArg, if_true, packU32]; rw [if_neg (by omega)]; rfl
  simp only [packInstr, packBz, this, Option.map_none]

/-- Fields that fit: a load, a store, a constant, a temporal operator, a configuration. -/
example : (Instr.bz ⟨1, .iload, .int 5, 0⟩).Fits ∧ (Instr.bz ⟨2, .store, .int 1, 7⟩).Fits ∧
    (Instr.bz ⟨3, .fconst, .float 0x3FE0000000000000, 0⟩).Fits ∧
    (Instr.tl ⟨4, .until, .subformula, 2, .atomic, 0⟩).Fits ∧
    (Instr.cg ⟨true, ⟨4, .config, .subformula, 0, .atomic, 10⟩⟩).Fits := by
  simp only [Instr.Fits, fits]
  refine ⟨?_, ?_, ?_, ?_, ?_⟩ <;> simp

/-- C25: whenever the assembler produces a binary, the loader walks over it frame by
frame: it stops after exactly the instructions, in their order, each loaded as its
own frame alone would be, at the zero that separates them from the auxiliary
strings, whatever those are. -/
theorem C25_framing (is : List Instr) (aux s : List Nat) (h : assembleBytes is aux = some s) :
    ∃ es stop, List.Forall₂ LoadsAs is es ∧
      (∀ fuel, is.length < fuel → loadBinary fuel s = some (es, stop)) ∧
      s[stop]? = some 0 ∧ s.drop (stop + 1) = aux ++ [0] := by
  simp only [assembleBytes, Option.map_eq_some_iff] at h
  obtain ⟨b, hb, rfl⟩ := h
  obtain ⟨es, hes, hl⟩ := loop_frames is b hb
  set pre := (headerText.length + 1) :: headerText with hpre
  refine ⟨es, pre.length + b.length, hes, ?_, ?_, ?_⟩
  · intro fuel hf
    have h0 : (pre ++ (b ++ 0 :: (aux ++ [0])))[0]? = some pre.length := by
      simp [hpre]
    unfold loadBinary
    rw [h0]
    exact hl pre (aux ++ [0]) fuel hf
  · rw [at_append]
    have := at_append b (0 :: (aux ++ [0])) 0
    simpa using this
  · rw [show pre ++ (b ++ 0 :: (aux ++ [0])) = (pre ++ b ++ [0]) ++ (aux ++ [0]) by simp]
    exact List.drop_left' (by simp; omega)

/-- C25 with C24: instructions that fit are assembled, and loaded as themselves. -/
theorem C25_loaded_partial (is : List Instr) (aux : List Nat) (h : ∀ i ∈ is, i.Fits) :
    ∃ s stop, assembleBytes is aux = some s ∧
      ∀ fuel, is.length < fuel → loadBinary fuel s = some (is.map Instr.event, stop) := by
  have hp : ∃ b, packAll is = some b := by
    induction is with
    | nil => exact ⟨[], rfl⟩
    | cons i is ih =>
        obtain ⟨b, hb⟩ := ih (fun j hj => h j (by simp [hj]))
        obtain ⟨f, hf, _⟩ := frame i (h i (by simp))
        exact ⟨(f.length + 1) :: f ++ b, by simp only [packAll, hb, hf]⟩
  obtain ⟨b, hb⟩ := hp
  have hs : assembleBytes is aux =
      some ((headerText.length + 1) :: headerText ++ (b ++ (0 :: (aux ++ [0])))) := by
    simp only [assembleBytes, hb, Option.map_some]
  obtain ⟨es, stop, hes, hl, _⟩ := C25_framing is aux _ hs
  refine ⟨_, stop, hs, ?_⟩
  have : es = is.map Instr.event := by
    clear hl hb hs
    induction hes with
    | nil => rfl
    | @cons i e is es hie _ ih =>
        obtain ⟨f, hf, he⟩ := hie
        obtain ⟨c, hc, _, hl⟩ := frame i (h i (by simp))
        have hcf := hf.symm.trans hc
        simp only [Option.some.injEq] at hcf
        have := hl []
        rw [List.append_nil, ← hcf, he] at this
        simp only [Option.some.injEq, List.cons.injEq, and_true] at this
        rw [List.map_cons, this, ih (fun j hj => h j (by simp [hj]))]
  rw [← this]
  exact hl

theorem event_bz (i : BzInstr) : (∀ r, (Instr.bz i).event ≠ .tl r) ∧ ∀ r, (Instr.bz i).event ≠ .config r := by
  simp only [Instr.event]
  split <;> simp

/-- C25 for a whole program: after loading, the temporal table holds the future-time
instructions followed by the past-time ones, the configuration records were executed in
order, and every booleanizer instruction was stored or executed, in order. -/
theorem C25_tables_partial (A : BProg.Assembly) (aux : List Nat) (hb : ∀ i ∈ A.bz, (Instr.bz i).Fits)
    (hf : ∀ i ∈ A.ft, (Instr.tl i).Fits) (hp : ∀ i ∈ A.pt, (Instr.tl i).Fits)
    (hc : ∀ i ∈ A.cg, (Instr.cg i).Fits) :
    ∃ s es stop, assembleBytes A.instrs aux = some s ∧
      (∀ fuel, A.instrs.length < fuel → loadBinary fuel s = some (es, stop)) ∧
      LoadEv.tlTable es = A.ft.map TlInstr.asRec ++ A.pt.map TlInstr.asRec ∧
      LoadEv.configs es = A.cg.map (·.instr.asRec) ∧
      LoadEv.bzPart es = A.bz.map fun i => (Instr.bz i).event := by
  obtain ⟨s, stop, h1, h2⟩ := C25_loaded_partial A.instrs aux (by
    intro i hi
    simp only [BProg.Assembly.instrs, List.mem_append, List.mem_map] at hi
    rcases hi with ((⟨j, hj, rfl⟩ | ⟨j, hj, rfl⟩) | ⟨j, hj, rfl⟩) | ⟨j, hj, rfl⟩
    · exact hb j hj
    · exact hf j hj
    · exact hp j hj
    · exact hc j hj)
  have e1 : ∀ l : List BzInstr, LoadEv.tlTable ((l.map Instr.bz).map Instr.event) = [] := by
    intro l
    simp only [LoadEv.tlTable, List.filterMap_eq_nil_iff, List.mem_map]
    rintro e ⟨_, ⟨i, _, rfl⟩, rfl⟩
    have := (event_bz i).1
    split <;> simp_all
  have e2 : ∀ l : List BzInstr, LoadEv.configs ((l.map Instr.bz).map Instr.event) = [] := by
    intro l
    simp only [LoadEv.configs, List.filterMap_eq_nil_iff, List.mem_map]
    rintro e ⟨_, ⟨i, _, rfl⟩, rfl⟩
    have := (event_bz i).2
    split <;> simp_all
  have e3 : ∀ l : List BzInstr, LoadEv.bzPart ((l.map Instr.bz).map Instr.event) =
      l.map fun i => (Instr.bz i).event := by
    intro l
    rw [List.map_map]
    refine List.filter_eq_self.2 ?_
    simp only [List.mem_map]
    rintro e ⟨i, _, rfl⟩
    have := event_bz i
    simp only [Function.comp]
    split <;> simp_all
  have f1 : ∀ l : List TlInstr, LoadEv.tlTable ((l.map Instr.tl).map Instr.event) = l.map TlInstr.asRec := by
    intro l; induction l with
    | nil => rfl
    | cons a l ih => simp only [LoadEv.tlTable, List.map_cons] at ih ⊢; rw [← ih]; rfl
  have f2 : ∀ l : List TlInstr, LoadEv.configs ((l.map Instr.tl).map Instr.event) = [] := by
    intro l; induction l with
    | nil => rfl
    | cons a l ih => simp only [LoadEv.configs, List.map_cons] at ih ⊢; simp [Instr.event]
  have f3 : ∀ l : List TlInstr, LoadEv.bzPart ((l.map Instr.tl).map Instr.event) = [] := by
    intro l; induction l with
    | nil => rfl
    | cons a l ih => simp only [LoadEv.bzPart, List.map_cons] at ih ⊢; simp [Instr.event]
  have g1 : ∀ l : List CgInstr, LoadEv.tlTable ((l.map Instr.cg).map Instr.event) = [] := by
    intro l; induction l with
    | nil => rfl
    | cons a l ih => simp only [LoadEv.tlTable, List.map_cons] at ih ⊢; simp [Instr.event]
  have g2 : ∀ l : List CgInstr, LoadEv.configs ((l.map Instr.cg).map Instr.event) = l.map (·.instr.asRec) := by
    intro l; induction l with
    | nil => rfl
    | cons a l ih => simp only [LoadEv.configs, List.map_cons] at ih ⊢; rw [← ih]; rfl
  have g3 : ∀ l : List CgInstr, LoadEv.bzPart ((l.map Instr.cg).map Instr.event) = [] := by
    intro l; induction l with
    | nil => rfl
    | cons a l ih => simp only [LoadEv.bzPart, List.map_cons] at ih ⊢; simp [Instr.event]
  refine ⟨s, _, stop, h1, h2, ?_, ?_, ?_⟩
  · rw [BProg.Assembly.instrs]
    simp only [LoadEv.tlTable] at e1 f1 g1 ⊢
    simp only [List.map_append, List.filterMap_append, e1, f1, g1, List.nil_append, List.append_nil]
  · rw [BProg.Assembly.instrs]
    simp only [LoadEv.configs] at e2 f2 g2 ⊢
    simp only [List.map_append, List.filterMap_append, e2, f2, g2, List.nil_append, List.append_nil]
  · rw [BProg.Assembly.instrs]
    simp only [LoadEv.bzPart] at e3 f3 g3 ⊢
    simp only [List.map_append, List.filter_append, e3, f3, g3, List.append_nil]

/-- A binary with a load, a comparison and a temporal part. -/
def binExample : List Instr :=
  [.bz ⟨0, .iload, .int 1, 0⟩, .bz ⟨1, .iconst, .int 5, 0⟩, .bz ⟨2, .igt, .int 0, 1⟩,
   .bz ⟨3, .store, .int 2, 0⟩, .tl ⟨0, .load, .atomic, 0, .none, 0⟩,
   .tl ⟨1, .ret, .subformula, 0, .direct, 0⟩,
   .cg ⟨false, ⟨0, .config, .atomic, 1, .none, 0⟩⟩]

example : (∃ s, assembleBytes binExample [] = some s ∧ s.length = 45 + 19 * 4 + 17 * 2 + 18 + 2) ∧
    ∀ i ∈ binExample, i.Fits := by
  constructor
  · exact ⟨_, rfl, by decide +kernel⟩
  · intro i hi
    simp only [binExample, List.mem_cons, List.not_mem_nil, or_false] at hi
    rcases hi with rfl | rfl | rfl | rfl | rfl | rfl | rfl <;> simp [Instr.Fits, fits]

end R2U2
