import Verif.Lemmas.Console
/-
C34: `push` and `pop`.  C51: what a new program sees of the previous one.
-/
namespace R2U2
open Heap

/-- C34, with the conditions it needs.  After `push`, a history of commands and nested `push`/`pop` pairs, and `pop`,
the console is back at the saved program, in the saved context: the same saved states below it, the same sections
with the same declarations and expressions under the same names, the same specification sets, flags, numbers of
atomics, tables of signals, structures and variables, options and file names.

The conditions: the program is as parsed or rewritten in place, so that the specification sets hold the
specifications of the sections (`Plain`); the context knows the declared signals and structures (`Knows`); the
commands in between change no node that the program does not reach (`Balanced`, `Works`).  Missing: programs that
cannot be copied (`C34_slice_fails`), enumerations, the
assembly, resolved contracts, and commands that follow the definitions in the context; there the claim is false, see
`C34_enums_fail`, `C34_assembly_fails`, `C34_contract_fails`, `C34_definitions_fail`. -/
theorem C34_restored_partial {fuel : Nat} {w0 w1 w2 w3 : World} (hm : w0.mem.Ok) (ha : w0.Apart) (hp : w0.prog.Plain w0.mem.heap)
    (hk : w0.ctx.Knows w0.prog) (h1 : w0.push fuel = some w1) (h2 : Balanced fuel w1 w2) (h3 : w2.pop = some w3) :
    w3.stack = w0.stack ∧ SameProg (seen w0.mem.heap w0.ctx) (seen w3.mem.heap w3.ctx) w0.prog w3.prog ∧ w0.ctx.Kept w3.ctx := by
  obtain ⟨a1, a2⟩ := push_apart hm ha h1
  obtain ⟨b1, b2, b3⟩ := balanced_apart h2 a1 a2
  obtain ⟨m, c, p, h5, rfl⟩ := push_inv h1
  obtain ⟨s, st, hs, rfl⟩ := pop_inv h3
  have he := b3.1
  rw [hs] at he
  simp only [List.cons.injEq] at he
  obtain ⟨rfl, rfl⟩ := he
  obtain ⟨e1, e2, e3, e4, e5, e6, e7, e8, e9, e10⟩ := copyProgram_spec hm ha.ids ha.roots h5
  obtain ⟨k1, k2⟩ := e10 hk
  refine ⟨rfl, SameProg.frame (fun x hx => ?_) (e5 hp), e2.kept k1 k2⟩
  intro t ht
  have hf := b3.2 (p, c.copy) (by simp)
  refine Heap.denotes_frame (h := seen m.heap c) (h' := seen w2.mem.heap c.copy) (A := m.heap.Reachable p.roots)
    ?_ (fun x hx => (hf x hx).2) (fun x d hx hd => .kid hx hd) t x (.root hx) ht
  intro y hy
  simp only [seen, (hf y hy).1]
  rfl

/-- C34, definitions: if no name is defined twice, the definitions the restored context knows are those of the
restored program. -/
theorem C34_known_definitions {fuel : Nat} {w0 w1 w2 w3 : World} (hm : w0.mem.Ok) (ha : w0.Apart) (hn : (w0.prog.defs.map (·.1)).Nodup)
    (h1 : w0.push fuel = some w1) (h2 : Balanced fuel w1 w2) (h3 : w2.pop = some w3) :
    ∀ d ∈ w3.prog.defs, w3.ctx.definitions.lookup d.1 = some d.2 := by
  obtain ⟨a1, a2⟩ := push_apart hm ha h1
  obtain ⟨b1, b2, b3⟩ := balanced_apart h2 a1 a2
  obtain ⟨m, c, p, h5, rfl⟩ := push_inv h1
  obtain ⟨s, st, hs, rfl⟩ := pop_inv h3
  have he := b3.1
  rw [hs] at he
  simp only [List.cons.injEq] at he
  obtain ⟨rfl, rfl⟩ := he
  have := copyProgram_defs hm ha.ids ha.roots h5 hn
  exact this

/-- C34: a session starts without saved states, and saved states stay apart from the program and from each other
through every history. -/
theorem C34_apart {fuel : Nat} {w w' : World} (hm : w.mem.Ok) (ha : w.Apart) (h : Balanced fuel w w') : w'.mem.Ok ∧ w'.Apart :=
  let ⟨h1, h2, _⟩ := balanced_apart h hm ha
  ⟨h1, h2⟩

/-- Parsing a program over new nodes is among the commands between `push` and `pop`. -/
theorem C34_parse_works {w : World} (file : String) (build : Mem → Mem × List CSec) (hok : (build w.mem).1.Ok)
    (hn : w.mem.next ≤ (build w.mem).1.next)
    (hold : ∀ x, x < w.mem.next → (build w.mem).1.heap.lab x = w.mem.heap.lab x ∧ (build w.mem).1.heap.kids x = w.mem.heap.kids x)
    (hnew : ∀ p d, w.mem.next ≤ p → d ∈ (build w.mem).1.heap.kids p → w.mem.next ≤ d)
    (hs : ∀ s ∈ (build w.mem).2, ∀ x ∈ s.exprs, w.mem.next ≤ x ∧ x < (build w.mem).1.next) :
    w.Works (w.parse file build) := by
  rcases hb : build w.mem with ⟨m, ss⟩
  rw [hb] at hok hn hold hnew hs
  simp only at hok hn hold hnew hs
  rcases hmk : makeProgram m ss with ⟨m2, q⟩
  obtain ⟨b1, b2, b3, b4, b5, b6, b7, b8, b9⟩ := Grown.make (c := {}) hok (by simp) hn hs hmk
  have hw : w.parse file build = { w with mem := m2, prog := q, ctx := { w.ctx.clear with specFile := file }, lists := fun a => if a = w.ctx.assembly then [] else w.lists a } := by
    simp only [World.parse, World.clear, hb, hmk]
  have hq : ∀ r ∈ q.roots, w.mem.next ≤ r ∧ r < m2.next := by
    intro r hr
    simp only [CProg.roots, List.mem_cons, List.mem_flatMap] at hr
    rcases hr with rfl | rfl | ⟨s, hs', hy⟩
    · rw [b7, b2]; omega
    · rw [b8, b2]; omega
    · rw [b6] at hs'
      have := hs s hs' r hy
      omega
  rw [hw]
  refine ⟨rfl, b1, by simp only [b2]; omega, fun x hx _ => ?_, fun r hr => (hq r hr).2, by simp [CCtx.clear], fun x hx => .inr ?_⟩
  · have h := b3 x (by omega)
    exact ⟨h.1.trans (hold x hx).1, h.2.trans (hold x hx).2⟩
  · refine Heap.reach_closed (A := (w.mem.next ≤ ·)) (fun r hr => (hq r hr).1) (fun p d hp hd => ?_) hx
    by_cases hpm : p < m.next
    · simp only [(b3 p hpm).2] at hd
      exact hnew p d hp hd
    · exact b5 p d (by omega) hd

/-- So is generating code. -/
theorem C34_assemble_works {w : World} (hm : w.mem.Ok) (ha : w.Apart) (code : List String) (binary : List Nat) :
    w.Works (w.assemble code binary) :=
  ⟨rfl, hm, Nat.le_refl _, fun _ _ _ => ⟨rfl, rfl⟩, ha.roots, ha.ids, fun _ h => .inl h⟩

/-- So is giving a node of the program children from the program, if that makes no cycle. -/
theorem C34_rewrite_works {w : World} (ha : w.Apart) {x : Nat} {ks : List Nat} (hx : w.mem.heap.Reachable w.prog.roots x)
    (hks : ∀ k ∈ ks, w.mem.heap.Reachable w.prog.roots k) (hok : (w.setKids x ks).mem.Ok) : w.Works (w.setKids x ks) := by
  refine ⟨rfl, hok, Nat.le_refl _, fun y _ hy => ⟨rfl, ?_⟩, ha.roots, ha.ids, fun y hy => .inl ?_⟩
  · simp only [World.setKids]
    rw [if_neg (by rintro rfl; exact hy hx)]
  · refine Heap.reach_closed (A := w.mem.heap.Reachable w.prog.roots) (fun r hr => .root hr) (fun p d hp hd => ?_) hy
    simp only [World.setKids] at hd
    by_cases h : p = x
    · rw [if_pos h] at hd; exact hks d hd
    · rw [if_neg h] at hd; exact .kid hp hd

/-! ### A session

    INPUT a, b : bool;   DEFINE d := a && b;   FTSPEC  s: d;                                                     -/

private def m0 : Mem := { heap := { lab := fun _ => ⟨.other, ""⟩, kids := fun _ => [], pars := fun _ => [] }, next := 0 }
private theorem m0_ok : m0.Ok := ⟨fun x => ⟨.node ⟨.other, ""⟩ [], 1, rfl⟩, fun p c h => by simp [m0] at h⟩

/-- `a`, `b`, `a && b`, the variable `d`, the formula `s`. -/
private def parsed (m : Mem) : Mem × List CSec :=
  let m := (((((m.alloc ⟨.signal, "a"⟩ []).alloc ⟨.signal, "b"⟩ []).alloc ⟨.other, "&&"⟩ [m.next, m.next + 1]).alloc ⟨.other, "d"⟩ []).alloc
    ⟨.formula "s", "s"⟩ [m.next + 3])
  (m, [.inputs [("a", .bool), ("b", .bool)], .defines [("d", m.next - 3)], .specs true [m.next - 1]])

private theorem parsed_ok {m : Mem} (hm : m.Ok) : (parsed m).1.Ok := by
  refine ((((hm.alloc ?_).alloc ?_).alloc ?_).alloc ?_).alloc ?_ <;> simp [Mem.alloc]
  omega

private def made (m : Mem) : Mem × CProg := makeProgram (parsed m).1 (parsed m).2
private def c0 : CCtx where
  definitions := [("d", 2)]
  signals := [("a", .bool), ("b", .bool)]
  specifications := [("s", 4)]
  atomicId := [(0, 0), (1, 1)]
  atomicExpr := [(0, 0), (1, 1)]
private def w0 : World := { mem := (made m0).1, prog := (made m0).2, ctx := c0 }
private theorem w0_ok : w0.mem.Ok := by
  have := parsed_ok m0_ok
  refine (this.alloc ?_).alloc ?_ <;> decide
private theorem w0_apart : w0.Apart :=
  ⟨by decide, by simp [w0], by decide, by simp [w0], by simp [w0], by simp [w0]⟩

private def w1 : World := (w0.push 100).get (by decide +kernel)
private def w2 : World := (w1.parse "next.c2po" parsed).assemble ["end"] [1]

/-- Between `push` and `pop`, another program is parsed and compiled. -/
private theorem w1_w2 : Balanced 100 w1 w2 := by
  have h1 : w0.push 100 = some w1 := (Option.some_get _).symm
  obtain ⟨a1, a2⟩ := push_apart w0_ok w0_apart h1
  have hw : w1.Works (w1.parse "next.c2po" parsed) := by
    refine C34_parse_works "next.c2po" parsed (parsed_ok a1) ?_ ?_ ?_ ?_
    · simp [parsed, Mem.alloc]; omega
    · intro x hx
      have h1 : x ≠ w1.mem.next := by omega
      have h2 : x ≠ w1.mem.next + 1 := by omega
      have h3 : x ≠ w1.mem.next + 1 + 1 := by omega
      have h4 : x ≠ w1.mem.next + 1 + 1 + 1 := by omega
      have h5 : x ≠ w1.mem.next + 1 + 1 + 1 + 1 := by omega
      simp [parsed, Mem.alloc, h1, h2, h3, h4, h5]
    · intro p d hp hd
      by_contra hlt
      have hlt : d < w1.mem.next := by omega
      generalize hn : w1.mem.next = n at *
      have hd : d ∈ (if p = n + 4 then [n + 3] else if p = n + 3 then [] else if p = n + 2 then [n, n + 1] else if p = n + 1 then []
        else if p = n then [] else w1.mem.heap.kids p) := by subst hn; exact hd
      split_ifs at hd <;> first
        | (simp only [List.mem_cons, List.not_mem_nil, or_false] at hd; omega)
        | exact absurd hd (by simp)
        | (have := (a1.below _ _ hd).1; omega)
    · intro s hs x hx
      simp only [parsed, List.mem_cons, List.not_mem_nil, or_false] at hs
      rcases hs with rfl | rfl | rfl <;> simp [CSec.exprs, Mem.alloc] at hx <;> subst hx <;> simp [parsed, Mem.alloc] <;> omega
  obtain ⟨b1, b2, _⟩ := works_apart a1 a2 hw
  exact .work hw (.work (C34_assemble_works b1 b2 ["end"] [1]) .nil)

/-- The conditions of C34 are met. -/
example : ∃ w3, w2.pop = some w3 ∧ w3.stack = [] ∧ SameProg (seen w0.mem.heap w0.ctx) (seen w3.mem.heap w3.ctx) w0.prog w3.prog ∧
    w0.ctx.Kept w3.ctx := by
  obtain ⟨w3, h3⟩ : ∃ w3, w2.pop = some w3 := Option.isSome_iff_exists.1 (by decide +kernel)
  have := C34_restored_partial w0_ok w0_apart (by constructor <;> rfl)
    (by intro s hs; simp only [w0, made, makeProgram, parsed, List.mem_cons, List.not_mem_nil, or_false] at hs; rcases hs with rfl | rfl | rfl <;> simp [CCtx.KnowsSec, w0, c0, List.lookup])
    (Option.some_get _).symm w1_w2 h3
  exact ⟨w3, h3, this⟩

/-! ### Where the claim is false -/

/-- A state as after type checking `ENUM E : {on : 1}`. -/
private def wE (c : CCtx) : World :=
  let r := makeProgram m0 [.enums [("E", [("on", 1)])]]
  { mem := r.1, prog := r.2, ctx := c }
private theorem wE_ok (c : CCtx) : (wE c).mem.Ok := by
  refine (m0_ok.alloc ?_).alloc ?_ <;> simp [CSec.specsOf]

/-- C34 fails: enumerations are lost.  `Context.deepcopy` does not copy them (cpt.py:1564-1607), although the program
still has its declaration. -/
theorem C34_enums_fail : ∃ w w1 w2 : World, w.mem.Ok ∧ w.Apart ∧ w.prog.Plain w.mem.heap ∧ w.ctx.Knows w.prog ∧
    w.push 100 = some w1 ∧ w1.pop = some w2 ∧ w.ctx.enums.lookup "E" = some [("on", 1)] ∧ w2.ctx.enums.lookup "E" = none := by
  refine ⟨wE { enums := [("E", [("on", 1)])] }, _, _, wE_ok _, ⟨by decide, by simp [wE], by decide, by simp [wE], by simp [wE], by simp [wE]⟩,
    by constructor <;> rfl, ?_, rfl, rfl, rfl, rfl⟩
  intro s hs
  simp only [wE, makeProgram, List.mem_cons, List.not_mem_nil, or_false] at hs
  subst hs
  trivial

/-- `push` is seen by the commands that follow: it declares what the sections declare, here an enumeration before the
program was type checked.  Type checking then rejects the enumeration as declared twice (`C51_enum_twice`). -/
theorem C34_push_declares : ∃ w w1 : World, w.mem.Ok ∧ w.Apart ∧ w.push 100 = some w1 ∧ "E" ∉ w.ctx.symbols ∧ "E" ∈ w1.ctx.symbols := by
  refine ⟨wE {}, _, wE_ok _, ⟨by decide, by simp [wE], by decide, by simp [wE], by simp [wE], by simp [wE]⟩, rfl, ?_, ?_⟩ <;> decide +kernel

/-- C34 fails: the generated code is lost.  The saved context has the same list of assembly as the current one
(cpt.py:1584-1586), and parsing empties that list (cpt.py:1508). -/
theorem C34_assembly_fails : ∃ (w w1 w2 w3 : World), w.mem.Ok ∧ w.Apart ∧ w.push 100 = some w1 ∧ w2 = w1.parse "next.c2po" parsed ∧
    w2.pop = some w3 ∧ w.lists w.ctx.assembly = ["TL load a0", "TL return n0"] ∧ w3.lists w3.ctx.assembly = [] := by
  refine ⟨w0.assemble ["TL load a0", "TL return n0"] [1, 2], _, _, _, w0_ok, ?_, rfl, rfl, rfl, rfl, rfl⟩
  exact ⟨w0_apart.ids, w0_apart.savedIds, w0_apart.roots, w0_apart.saved, w0_apart.current, w0_apart.pairs⟩

/-- C34 fails: a program with an array slice cannot be saved; copying raises `NotImplementedError` (cpt.py:1766-1767). -/
theorem C34_slice_fails : ∃ w : World, w.mem.Ok ∧ w.Apart ∧ w.prog.Plain w.mem.heap ∧ w.ctx.Knows w.prog ∧ ∀ fuel, w.push fuel = none := by
  have hok : ((m0.alloc ⟨.slice, "[0..1]"⟩ []).alloc ⟨.formula "s", "s"⟩ [0]).Ok := by
    refine (m0_ok.alloc ?_).alloc ?_ <;> simp [Mem.alloc, m0]
  refine ⟨{ mem := (makeProgram ((m0.alloc ⟨.slice, "[0..1]"⟩ []).alloc ⟨.formula "s", "s"⟩ [0]) [.specs true [1]]).1,
            prog := (makeProgram ((m0.alloc ⟨.slice, "[0..1]"⟩ []).alloc ⟨.formula "s", "s"⟩ [0]) [.specs true [1]]).2, ctx := {} },
    ?_, ⟨by simp, by simp, by decide, by simp, by simp, by simp⟩, by constructor <;> rfl, ?_, ?_⟩
  · refine (hok.alloc ?_).alloc ?_ <;> decide
  · intro s hs
    simp only [makeProgram, List.mem_cons, List.not_mem_nil, or_false] at hs
    subst hs
    trivial
  · intro fuel
    match fuel with
    | 0 => rfl
    | 1 => rfl
    | 2 => rfl
    | 3 => rfl
    | 4 => rfl
    | 5 => rfl
    | n + 6 => rfl

/-- `c: a => b` parsed, and its contract replaced by three formulas in the specification set (desugar.py:100-143,
cpt.py:1362-1369); the section keeps the contract.  The formulas over `a`, `a -> b` and `a && b` are nodes 5 to 9. -/
private def wC : World :=
  let m := ((m0.alloc ⟨.signal, "a"⟩ []).alloc ⟨.signal, "b"⟩ []).alloc ⟨.contract "c", "c"⟩ [0, 1]
  let r := makeProgram m [.specs true [2]]
  let m := (((r.1.alloc ⟨.formula "__c_active__", ""⟩ [0]).alloc ⟨.other, "->"⟩ [0, 1]).alloc ⟨.formula "__c_valid__", ""⟩ [6]).alloc ⟨.other, "&&"⟩ [0, 1]
  let m := m.alloc ⟨.formula "__c_verified__", ""⟩ [8]
  World.setKids { mem := m, prog := r.2, ctx := {} } r.2.ft [5, 7, 9]

/-- C34 fails: a resolved contract comes back.  A copied program gets its specification sets from the sections
(cpt.py:1313-1338, 1425-1431), which resolving a contract does not change. -/
theorem C34_contract_fails : ∃ w1 w2 : World, wC.Apart ∧ wC.push 100 = some w1 ∧ w1.pop = some w2 ∧
    ¬ SameProg (seen wC.mem.heap wC.ctx) (seen w2.mem.heap w2.ctx) wC.prog w2.prog := by
  refine ⟨_, _, ⟨by decide, by simp [wC, World.setKids], by decide, by simp [wC, World.setKids], by simp [wC, World.setKids], by simp [wC, World.setKids]⟩, rfl, rfl, ?_⟩
  intro h
  have h1 := h.ft _ ⟨5, rfl⟩
  have h2 := h1.unique ⟨5, rfl⟩
  simp at h2

/-- C34 fails: a command between `push` and `pop` changes the saved program.  `push` makes the current context refer
to the definitions of the copy (cpt.py:1265-1273, 1773-1776), so
expanding `d` in the current program (desugar.py:4-26) puts a saved node into it; a later pass then rewrites that
node, here by exchanging its operands as sorting operands does, and after `pop` the
definition is `b && a`. -/
theorem C34_definitions_fail : ∃ (w1 w4 : World) (y : Nat), w0.push 100 = some w1 ∧ w1.ctx.definitions.lookup "d" = some y ∧
    ((w1.setKids 4 [y]).setKids y (w1.mem.heap.kids y).reverse).pop = some w4 ∧
    ¬ SameProg (seen w0.mem.heap w0.ctx) (seen w4.mem.heap w4.ctx) w0.prog w4.prog := by
  refine ⟨_, _, 9, rfl, rfl, rfl, ?_⟩
  intro h
  have h1 := h.sections
  cases h1 with
  | cons _ h1 =>
    cases h1 with
    | cons h1 _ =>
      simp only [SameSec] at h1
      cases h1 with
      | cons h1 _ =>
        have h2 := (h1.2 (.node (⟨.other, "&&"⟩, none) [.node (⟨.signal, "a"⟩, some 0) [], .node (⟨.signal, "b"⟩, some 1) []]) ⟨5, rfl⟩).unique
          (t' := .node (⟨.other, "&&"⟩, none) [.node (⟨.signal, "b"⟩, some 1) [], .node (⟨.signal, "a"⟩, some 0) []]) ⟨5, rfl⟩
        simp at h2

/-! ### C51 -/

/-- C51, all symbols but enumerations: of what was declared before, a new program sees the enumerations at most. -/
theorem C51_symbols_partial (w : World) (file : String) (build : Mem → Mem × List CSec) {s : String}
    (h : s ∈ (w.parse file build).ctx.symbols) : s ∈ w.ctx.enums.map (·.1) := by
  simpa [World.parse, World.clear, CCtx.clear, CCtx.symbols] using h

/-- C51 for programs without enumerations: after any history of parsing and type checking such programs, accepted or
not, type checking a new program, which may have enumerations, gives what it gives in a fresh console.  With
enumerations in the history this is false (`C51_enum_twice`, `C51_enum_visible`). -/
theorem C51_fresh_partial {Γ : TcCtx} {bz signed : Bool} {width : Nat} (h : Tc.After { bz := bz, width := width, signed := signed } Γ) (ss : List Sec) :
    Tc.checkProgram (Tc.clear Γ) ss = Tc.checkProgram { bz := bz, width := width, signed := signed } ss := by
  obtain ⟨h1, h2, h3, h4⟩ := h.opts
  have : Tc.clear Γ = { bz := bz, width := width, signed := signed } := by
    simp only [Tc.clear, h1, h2, h3, h4]
  rw [this]

private def first : List Sec := [.input [(["a"], .bool)], .spec true [.formula "s" 0 (.node (.sig "a") .none [])]]
private def enumProg : List Sec := [.enum [("Mode", [("off", some 0), ("on", some 1)])], .input [(["m"], .struct "Mode")],
  .spec true [.formula "s" 0 (.node (.op .eq) .none [.node (.sig "m") .none [], .node (.var "on") .none []])]]
/-- The second part of it: no declaration of `Mode`. -/
private def useProg : List Sec := enumProg.tail

/-- A history that meets the condition: one program accepted. -/
example : ∃ Γ, Tc.After { bz := true } Γ ∧ "a" ∈ Tc.symbols Γ ∧ (Tc.checkProgram (Tc.clear Γ) enumProg).isSome = true := by
  have h : ∃ r, Tc.checkProgram { bz := true } first = some r := Option.isSome_iff_exists.1 (by decide +kernel)
  obtain ⟨⟨ss', Γ⟩, h⟩ := h
  have ha : Tc.After { bz := true } Γ := .accept .start (ss := first) (by intro s hs ds; simp only [first, List.mem_cons, List.not_mem_nil, or_false] at hs; rcases hs with rfl | rfl <;> simp) h
  refine ⟨Γ, ha, ?_, ?_⟩
  · have h' : ("a" ∈ (((Tc.checkProgram { bz := true } first).map fun r => Tc.symbols r.2).getD [])) := by decide +kernel
    simpa [h] using h'
  · rw [C51_fresh_partial ha]
    decide +kernel

/-- C51 fails: a program with an enumeration is accepted, and when it is parsed again, rejected: its enumeration is
still declared.  `Context.clear` keeps `enums` (cpt.py:1494-1518). -/
theorem C51_enum_twice : ∃ ss' Γ, Tc.checkProgram { bz := true } enumProg = some (ss', Γ) ∧ Tc.checkProgram (Tc.clear Γ) enumProg = none :=
  ⟨_, _, rfl, by rfl⟩

/-- C51 fails: a program that uses an enumeration without declaring it is rejected in a fresh console, and accepted
after a program that declared it. -/
theorem C51_enum_visible : ∃ ss' Γ, Tc.checkProgram { bz := true } enumProg = some (ss', Γ) ∧
    (Tc.checkProgram { bz := true } useProg).isSome = false ∧ (Tc.checkProgram (Tc.clear Γ) useProg).isSome = true :=
  ⟨_, _, rfl, by decide +kernel, by decide +kernel⟩

end R2U2
