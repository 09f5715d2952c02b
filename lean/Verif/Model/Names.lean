import Verif.Model.Csv
import Verif.Model.FrontEnd
/-
Model of the names of specifications in binaries and in the output of the C monitor: `pack_aliases` (assemble.py:975-1014), the part of
`compute_bounds` about them (assemble.py:1116-1149), the second half of `r2u2_process_binary` (process_binary.c:68-124) and
`r2u2_aux_formula_report`, `r2u2_aux_contract_report` (engines/aux_info.c), compiled with `R2U2_AUX_STRING_SPECS`.

Bytes of the auxiliary section are characters.  Undefined behaviour (accesses out of bounds, null pointers, failed conversions)
is `none`.
-/
namespace R2U2

/-- `dict[k] = v` -/
def dictPut {β : Type} (d : List (String × β)) (k : String) (v : β) : List (String × β) :=
  if k ∈ d.map (·.1) then d.map fun x => if x.1 = k then (k, v) else x else d ++ [(k, v)]

/-- The contracts of specifications, with their numbers. -/
def contractsIn (ss : List Spec) : List (String × Nat × Nat × Nat) :=
  ss.flatMap fun
    | .contract l a b c _ _ => [(l, a, b, c)]
    | .formula .. => []

/-- `context.contracts` after type checking (type_check.py:36, cpt.py:1561-1562). -/
def contractsOf (secs : List Sec) : List (String × Nat × Nat × Nat) :=
  (contractsIn (secs.flatMap fun
    | .spec _ ss => ss
    | _ => [])).foldl (fun d c => dictPut d c.1 c.2) []

namespace Aux

/-- `AliasInstruction` (assemble.py:391-398). -/
inductive Alias where
  | formula (label : String) (n : Nat)
  | contract (label : String) (n₀ n₁ n₂ : Nat)
  deriving DecidableEq

/-- `AliasInstruction.__str__` (assemble.py:397-398). -/
def Alias.text : Alias → List Char
  | .formula l n => 'F' :: ' ' :: (l.toList ++ ' ' :: natStr n)
  | .contract l a b c => 'C' :: ' ' :: (l.toList ++ ' ' :: (natStr a ++ ' ' :: (natStr b ++ ' ' :: natStr c)))

/-- `symbol` -/
def Alias.label : Alias → String
  | .formula l _ => l
  | .contract l .. => l

/-- `pack_aliases` (assemble.py:985-1012): of the formulas of the future-time, then the past-time specification set, and of
`context.contracts`.  If a label is too long an error is logged and there are none. -/
def aliases (specs : List (String × Nat)) (contracts : List (String × Nat × Nat × Nat)) : List Alias :=
  if specs.any fun s => 50 < s.1.length then []                                           -- 995-1000
  else (specs.map fun s => .formula s.1 s.2) ++ contracts.map fun c => .contract c.1 c.2.1 c.2.2.1 c.2.2.2

/-- The bytes of the aliases (assemble.py:1004, 1010): each text ends with a zero. -/
def packed (as : List Alias) : List Nat := as.flatMap fun a => a.text.map Char.toNat ++ [0]

/-- `R2U2_MAX_AUX_BYTES`, `R2U2_AUX_MAX_FORMULAS`, `R2U2_AUX_MAX_CONTRACTS`. -/
structure Lim where
  bytes : Nat
  formulas : Nat
  contracts : Nat
  deriving DecidableEq

/-- `compute_bounds` (assemble.py:1116-1119, 1128-1132, 1145-1154). -/
def bounds (specs : List (String × Nat)) (contracts : List (String × Nat × Nat × Nat)) : Lim where
  bytes := ((aliases specs contracts).map fun a => a.label.length).sum + (aliases specs contracts).length
  formulas := specs.length
  contracts := contracts.length

/-- `r2u2_aux_info_arena_t` (instructions/aux_info.h:21-27); pointers into `aux_mem` are indices, `none` is a null pointer.  `formulas` and
`contracts` are also the loader's counters `aux_formula_num` and `aux_contract_num`. -/
structure Info where
  lim : Lim
  mem : Nat → Char
  fstr : Nat → Option Nat
  fnum : Nat → Nat
  cstr : Nat → Option Nat
  cnum : Nat → Nat × Nat × Nat
  formulas : Nat
  contracts : Nat

/-- The arena of `R2U2_DEFAULT_MONITOR` (monitor.h:80). -/
def Info.zero (lim : Lim) : Info := ⟨lim, fun _ => '\x00', fun _ => none, fun _ => 0, fun _ => none, fun _ => (0, 0, 0), 0, 0⟩

/-- The string `w` and a zero are stored at `p`. -/
def Info.put (A : Info) (p : Nat) (w : List Char) : Option Info :=
  if p + w.length < A.lim.bytes then
    some { A with mem := fun k => if k < p then A.mem k else if k ≤ p + w.length then (w ++ ['\x00']).getD (k - p) '\x00' else A.mem k }
  else none

/-- The string at `p`. -/
def Info.str (A : Info) (p : Nat) : Option (List Char) :=
  let s := (List.range (A.lim.bytes - p)).map fun k => A.mem (p + k)
  if '\x00' ∈ s then some (s.takeWhile (· ≠ '\x00')) else none

/-- White space, for `sscanf`. -/
def isSpace (c : Char) : Bool := c == ' ' || (9 ≤ c.toNat && c.toNat ≤ 13)

/-- `%s` of `sscanf`: the word and the rest. -/
def scanWord (s : List Char) : Option (List Char × List Char) :=
  let w := (s.dropWhile isSpace).takeWhile fun c => ! isSpace c && c != '\x00'
  if w = [] then none else some (w, (s.dropWhile isSpace).drop w.length)

/-- `%u` of `sscanf`; signs are not modelled. -/
def scanNum (s : List Char) : Option (Nat × List Char) :=
  let w := (s.dropWhile isSpace).takeWhile Cli.isDigit
  let n := w.foldl (fun n d => n * 10 + (d.toNat - 48)) 0
  if w = [] ∨ 2 ^ 32 ≤ n then none else some (n, (s.dropWhile isSpace).drop w.length)

/-- `%u` several times. -/
def scanNums : Nat → List Char → Option (List Nat × List Char)
  | 0, s => some ([], s)
  | k + 1, s => (scanNum s).bind fun (n, s) => (scanNums k s).map fun (ns, s) => (n :: ns, s)

/-- `sscanf(s, "%*c %s %u … %u%n", …)` (process_binary.c:88, 101): word, numbers, and the number of characters read. -/
def scanAlias (k : Nat) (s : List Char) : Option (List Char × List Nat × Nat) :=
  (scanWord (s.drop 1)).bind fun (w, r) => (scanNums k r).map fun (ns, r) => (w, ns, s.length - r.length)

/-- `case 'F'` (process_binary.c:100-108): the arena and `length`. -/
def Info.addFormula (A : Info) (s : List Char) : Option (Info × Nat) :=
  if A.formulas < A.lim.formulas then
    (A.fstr A.formulas).bind fun p =>
    (scanAlias 1 s).bind fun (w, ns, len) =>
    (A.put p w).bind fun A =>
    let A := { A with fnum := fun i => if i = A.formulas then ns.headD 0 else A.fnum i }
    (if A.formulas + 1 < A.lim.formulas then
      (A.str p).map fun w => { A with fstr := fun i => if i = A.formulas + 1 then some (p + w.length + 1) else A.fstr i }
    else some A).map fun A => ({ A with formulas := A.formulas + 1 }, len)
  else none

/-- `case 'C'` (process_binary.c:84-99). -/
def Info.addContract (A : Info) (s : List Char) : Option (Info × Nat) :=
  if A.contracts < A.lim.contracts then
    (if A.contracts = 0 then                                                              -- 85-87
      if A.formulas = 0 ∨ A.lim.formulas < A.formulas then none else
      (A.fstr (A.formulas - 1)).bind fun p => (A.str p).map fun w =>
        { A with cstr := fun i => if i = 0 then some (p + w.length + 1) else A.cstr i }
    else some A).bind fun A =>
    (A.cstr A.contracts).bind fun p =>
    (scanAlias 3 s).bind fun (w, ns, len) =>
    (A.put p w).bind fun A =>
    let A := { A with cnum := fun i => if i = A.contracts then (ns.getD 0 0, ns.getD 1 0, ns.getD 2 0) else A.cnum i }
    if A.contracts + 1 < A.lim.contracts then                                             -- 89
      (A.str p).map fun w =>
        ({ A with cstr := fun i => if i = A.contracts + 1 then some (p + w.length + 1) else A.cstr i, contracts := A.contracts + 1 }, len)
    else some (A, 0)                                                                      -- 92-96
  else none

/-- The loop (process_binary.c:76-120) on the text from `offset` on. -/
def Info.loop : Nat → List Char → Info → Option Info
  | 0, _, _ => none
  | _ + 1, [], _ => none
  | n + 1, c :: s, A =>
      if c = '\x00' then some A                                                           -- 116-120
      else if c = 'C' then (A.addContract (c :: s)).bind fun (A, len) =>
        if len = 0 then some A else Info.loop n ((c :: s).drop (len + 1)) A
      else if c = 'F' then (A.addFormula (c :: s)).bind fun (A, len) =>
        if len = 0 then some A else Info.loop n ((c :: s).drop (len + 1)) A
      else some A                                                                         -- 110-114

/-- The auxiliary part of `r2u2_process_binary` (process_binary.c:68-124) on the bytes after the instructions. -/
def load (lim : Lim) (bytes : List Nat) : Option Info :=
  if lim.formulas = 0 then none else                                                      -- 74: block 0
  Info.loop (bytes.length + 1) (bytes.map Char.ofNat) { Info.zero lim with fstr := fun i => if i = 0 then some 0 else none }

/-- What follows the name or number in a line: `":%u,%s\n"` (aux_info.c:9, 11). -/
def verdictText (v : Verdict) : List Char := ':' :: natStr v.time ++ [',', if v.truth then 'T' else 'F', '\n']

/-- `r2u2_aux_formula_report` (aux_info.c:5-15). -/
def Info.formulaReport (A : Info) (x : Nat × Verdict) : Option (List Char) :=
  if x.1 < A.formulas then
    if x.1 < A.lim.formulas then ((A.fstr x.1).bind A.str).map (· ++ verdictText x.2) else none
  else some (natStr x.1 ++ verdictText x.2)

/-- `"Contract %s … at %d\n"` (aux_info.c:22-28). -/
def statusText (name : List Char) (status : String) (v : Verdict) : List Char :=
  "Contract ".toList ++ name ++ ' ' :: status.toList ++ " at ".toList ++ natStr v.time ++ ['\n']

/-- The loop of `r2u2_aux_contract_report` (aux_info.c:20-30) over the blocks `is`. -/
def Info.contractLoop (A : Info) (x : Nat × Verdict) : List Nat → Option (List Char)
  | [] => some []
  | i :: is =>
      if x.1 = (A.cnum i).1 ∧ x.2.truth = false then ((A.cstr i).bind A.str).map fun s => statusText s "inactive" x.2
      else if x.1 = (A.cnum i).2.1 ∧ x.2.truth = false then ((A.cstr i).bind A.str).map fun s => statusText s "invalid" x.2
      else if x.1 = (A.cnum i).2.2 ∧ x.2.truth = true then ((A.cstr i).bind A.str).map fun s => statusText s "verified" x.2
      else A.contractLoop x is

/-- What is printed for a verdict (mltl.c:127-129). -/
def Info.report (A : Info) (x : Nat × Verdict) : Option (List Char) :=
  (A.formulaReport x).bind fun l => (A.contractLoop x (List.range A.contracts)).map (l ++ ·)

/-- What is printed for a sequence of verdicts. -/
def Info.reports (A : Info) : List (Nat × Verdict) → Option (List Char)
  | [] => some []
  | x :: xs => (A.report x).bind fun l => (A.reports xs).map (l ++ ·)

/-- `main` (main.c:27-147) of a monitor built with `R2U2_AUX_STRING_SPECS`. -/
def main (size : Nat) (lim : Limits) (alim : Lim) (fuel : Nat) (spec : List Nat) (trace : List Char) : Option (List Char) :=
  (loadBinary fuel spec).bind fun (es, stop) =>
  (Flat.start lim (LoadEv.configs es) (LoadEv.tlTable es)).bind fun F =>
  (load alim (spec.drop (stop + 1))).bind fun A =>
  (Cli.mainLoop size (LoadEv.tlTable es) fuel (trace.length + 1) F trace).bind fun F => A.reports F.out

end Aux
end R2U2
