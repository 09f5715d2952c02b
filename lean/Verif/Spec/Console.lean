import Verif.Model.Console
import Verif.Spec.Graph
import Mathlib.Data.List.Forall2
/-
Vocabulary for statements about `push` and `pop`.
-/
namespace R2U2

/-- A sound heap: no cycles, and only existing objects have children or are children. -/
structure Mem.Ok (m : Mem) : Prop where
  acyclic : m.heap.Acyclic
  below : ∀ p c, c ∈ m.heap.kids p → p < m.next ∧ c < m.next

/-- The expression nodes of a section. -/
def CSec.exprs : CSec → List Nat
  | .defines ds => ds.map (·.2)
  | .specs _ xs => xs
  | _ => []

/-- The nodes a program refers to. -/
def CProg.roots (p : CProg) : List Nat := p.ft :: p.pt :: p.sections.flatMap CSec.exprs

/-- A node with its number in the map of atomics, for the classes that may have one. -/
def CCtx.labelled (c : CCtx) (x : Nat) (l : CLab) : CLab × Option Nat :=
  (l, match l.cls with
    | .atomic => c.atomicId.lookup x
    | .signal => if c.bz then none else c.atomicId.lookup x
    | _ => none)

/-- The expressions of a heap as seen with a context: nodes are labelled with what they are and with the numbers of
atomics. -/
def seen (h : Heap CLab) (c : CCtx) : Heap (CLab × Option Nat) :=
  { lab := fun x => c.labelled x (h.lab x), kids := h.kids, pars := h.pars }

section
variable (s s' : Heap (CLab × Option Nat))

/-- `y` in `s'` is the same expression as `x` in `s`. -/
def SameExpr (x y : Nat) : Prop := ∀ t, s.Denotes x t → s'.Denotes y t

/-- The same section: the same declarations, and the same expressions under the same names. -/
def SameSec : CSec → CSec → Prop
  | .structs ds, .structs ds' => ds' = ds
  | .enums ds, .enums ds' => ds' = ds
  | .inputs ds, .inputs ds' => ds' = ds
  | .defines ds, .defines ds' => List.Forall₂ (fun a b => b.1 = a.1 ∧ SameExpr s s' a.2 b.2) ds ds'
  | .specs b xs, .specs b' ys => b' = b ∧ List.Forall₂ (SameExpr s s') xs ys
  | _, _ => False

/-- The same program, up to the identity of nodes. -/
structure SameProg (p q : CProg) : Prop where
  sections : List.Forall₂ (SameSec s s') p.sections q.sections
  ft : SameExpr s s' p.ft q.ft
  pt : SameExpr s s' p.pt q.pt
  scqSize : q.scqSize = p.scqSize
  dummy : q.dummy = p.dummy
  typed : q.typed = p.typed
end

/-- The specification sets hold the specifications of the sections, as after parsing. -/
structure CProg.Plain (h : Heap CLab) (p : CProg) : Prop where
  ftLab : h.lab p.ft = ⟨.specSet, ""⟩
  ptLab : h.lab p.pt = ⟨.specSet, ""⟩
  ft : h.kids p.ft = p.sections.flatMap (CSec.specsOf true)
  pt : h.kids p.pt = p.sections.flatMap (CSec.specsOf false)

/-- What a command may do that works on the program only: it leaves the saved states alone, changes no node that
the program does not reach, and what the program reaches afterwards it reached before or is new. -/
structure World.Works (w w' : World) : Prop where
  stack : w'.stack = w.stack
  ok : w'.mem.Ok
  next : w.mem.next ≤ w'.mem.next
  frame : ∀ x, x < w.mem.next → ¬ w.mem.heap.Reachable w.prog.roots x →
    w'.mem.heap.lab x = w.mem.heap.lab x ∧ w'.mem.heap.kids x = w.mem.heap.kids x
  roots : ∀ r ∈ w'.prog.roots, r < w'.mem.next
  ids : ∀ e ∈ w'.ctx.atomicId, e.1 < w'.mem.next
  reach : ∀ x, w'.mem.heap.Reachable w'.prog.roots x → w.mem.heap.Reachable w.prog.roots x ∨ w.mem.next ≤ x

/-- Histories between a `push` and the matching `pop`: commands, and nested pairs. -/
inductive Balanced (fuel : Nat) : World → World → Prop
  | nil {w} : Balanced fuel w w
  | work {w w1 w2} : w.Works w1 → Balanced fuel w1 w2 → Balanced fuel w w2
  | nest {w w1 w2 w3 w4} : w.push fuel = some w1 → Balanced fuel w1 w2 → w2.pop = some w3 → Balanced fuel w3 w4 →
      Balanced fuel w w4

/-- The program and the saved programs share no nodes, and all nodes referred to exist. -/
structure World.Apart (w : World) : Prop where
  ids : ∀ e ∈ w.ctx.atomicId, e.1 < w.mem.next
  savedIds : ∀ s ∈ w.stack, ∀ e ∈ s.2.atomicId, e.1 < w.mem.next
  roots : ∀ r ∈ w.prog.roots, r < w.mem.next
  saved : ∀ s ∈ w.stack, ∀ r ∈ s.1.roots, r < w.mem.next
  current : ∀ s ∈ w.stack, ∀ x, w.mem.heap.Reachable w.prog.roots x → ¬ w.mem.heap.Reachable s.1.roots x
  pairs : w.stack.Pairwise fun s s' => ∀ x, w.mem.heap.Reachable s.1.roots x → ¬ w.mem.heap.Reachable s'.1.roots x

/-- The context knows what a section declares. -/
def CCtx.KnowsSec (c : CCtx) : CSec → Prop
  | .structs ds => ∀ d ∈ ds, c.structs.lookup d.1 = some d.2
  | .inputs ds => ∀ d ∈ ds, c.signals.lookup d.1 = some d.2
  | _ => True

/-- The context knows what the sections declare, as after type checking. -/
def CCtx.Knows (c : CCtx) (p : CProg) : Prop := ∀ s ∈ p.sections, c.KnowsSec s

/-- What `push` and `pop` keep of a context: all tables except the enumerations and those that refer to nodes, the
generated code except its assembly, the options, and the paths of the solvers. -/
structure CCtx.Kept (c c' : CCtx) : Prop where
  structs : ∀ s, c'.structs.lookup s = c.structs.lookup s
  signals : ∀ s, c'.signals.lookup s = c.signals.lookup s
  vars : c'.variables' = c.variables'
  bound : c'.boundVars = c.boundVars
  mapping : c'.signalMapping = c.signalMapping
  trace : c'.trace = c.trace
  binary : c'.binary = c.binary
  equiv : c'.equiv = c.equiv
  stats : c'.stats = c.stats
  flags : c'.isFt = c.isFt ∧ c'.hasFt = c.hasFt ∧ c'.hasPt = c.hasPt ∧ c'.status = c.status
  options : c'.traceLength = c.traceLength ∧ c'.missionTime = c.missionTime ∧ c'.bz = c.bz
  files : c'.scriptFile = c.scriptFile ∧ c'.specFile = c.specFile ∧ c'.traceFile = c.traceFile ∧ c'.mapFile = c.mapFile
  paths : c'.egglogPath = c.egglogPath ∧ c'.smtPath = c.smtPath

/-- The definitions of the sections, in order. -/
def CProg.defs (p : CProg) : List (String × Nat) := p.sections.flatMap fun
  | .defines ds => ds
  | _ => []

/-- A program that declares no enumerations. -/
def NoEnums (ss : List Sec) : Prop := ∀ s ∈ ss, ∀ ds, s ≠ .enum ds

/-- Contexts after a history of parsing and type checking programs without enumerations, starting from `Γ0`.  The
type checker may leave a rejected program's declarations behind, in whatever state, but no enumerations. -/
inductive Tc.After (Γ0 : TcCtx) : TcCtx → Prop
  | start : Tc.After Γ0 Γ0
  | parse {Γ} : Tc.After Γ0 Γ → Tc.After Γ0 (Tc.clear Γ)
  | accept {Γ Γ' ss ss'} : Tc.After Γ0 Γ → NoEnums ss → Tc.checkProgram Γ ss = some (ss', Γ') → Tc.After Γ0 Γ'
  | reject {Γ Γ' ss} : Tc.After Γ0 Γ → NoEnums ss → Tc.checkProgram Γ ss = none → Γ'.enums = Γ.enums → Γ'.bz = Γ.bz →
      Γ'.width = Γ.width → Γ'.signed = Γ.signed → Tc.After Γ0 Γ'

end R2U2
