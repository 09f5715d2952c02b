import Verif.Model.RustCli
import Verif.Model.Names
/-
Model of the names of specifications and the statuses of contracts in the Rust monitor built with `aux_string_specs`, as `r2u2_cli`
builds it (r2u2_cli/Cargo.toml:20): the last part of `process_binary_file` (internals/process_binary.rs:96-127),
instructions/aux_info.rs, that part of `MLTL_OP_RETURN` (engines/mltl.rs:91-122), and what `r2u2_cli run` prints (main.rs:279-296).

`none` is a panic.  Bytes of the auxiliary section are characters.  Arithmetic that overflows is a panic, as in a debug build.  The
strings are of a library: `ztr128::from_raw` takes the bytes before the first zero, at most 127 of them; `resize` to a `ztr64` keeps at
most 63.
-/
namespace R2U2
namespace Rs
namespace Names

/-- `R2U2_AUX_MAX_FORMULAS`, `R2U2_AUX_MAX_CONTRACTS`, `R2U2_MAX_OUTPUT_CONTRACTS` (internals/bounds.rs:29, 44, 59). -/
structure Lim where
  formulas : Nat
  contracts : Nat
  statuses : Nat
  deriving DecidableEq

/-- `formula_aux_string_table` and `contract_aux_string_table` (memory/monitor.rs) up to the elements that were set; the others have
empty names. -/
structure Info where
  formulas : List (List Char × Nat)
  contracts : List (List Char × Nat × Nat × Nat)
  deriving DecidableEq

/-- The loop of `convert_ascii_to_decimal` (aux_info.rs:8-11), from the last character on. -/
def decimalFrom : List Char → Nat → Nat → Option Nat
  | [], num, _ => some num
  | c :: cs, num, mult =>
      let num := num + (if Cli.isDigit c then c.toNat - 48 else 0) * mult
      if num < 2 ^ 32 ∧ mult * 10 < 2 ^ 32 then decimalFrom cs num (mult * 10) else none

/-- `convert_ascii_to_decimal` (aux_info.rs:5-13). -/
def decimal (w : List Char) : Option Nat := decimalFrom w.reverse 0 1

/-- `ztr128::from_raw(s)`. -/
def raw (s : List Char) : List Char := (s.takeWhile (· ≠ '\x00')).take 127

/-- `s[a..b]` -/
def slice (s : List Char) (a b : Nat) : Option (List Char) := if a ≤ b ∧ b ≤ s.length then some ((s.take b).drop a) else none

/-- `set_function` (aux_info.rs:35-47) on the bytes from the `F` on.  A text without a space, which the compiler does not write, is
`none`. -/
def setFunction (s : List Char) : Option ((List Char × Nat) × Nat) :=
  if s.length < 2 then none else                                                            -- 37
  let d := raw (s.drop 2)
  (d.idxOf? ' ').bind fun e =>                                                              -- 40
  (slice s (e + 1 + 2) (d.length + 2)).bind fun w =>                                        -- 43-45
  (decimal w).map fun n => (((d.take e).take 63, n), d.length + 2)                          -- 41, 46

/-- `set_contract` (aux_info.rs:74-96), likewise. -/
def setContract (s : List Char) : Option ((List Char × Nat × Nat × Nat) × Nat) :=
  if s.length < 2 then none else                                                            -- 76
  let d := raw (s.drop 2)
  (d.idxOf? ' ').bind fun e₀ =>                                                             -- 79
  let e₁ := e₀ + 1 + ((d.drop (e₀ + 1)).idxOf? ' ').getD d.length                           -- 82-83
  (slice s (e₀ + 1 + 2) (e₁ + 2)).bind fun w₀ => (decimal w₀).bind fun n₀ =>                -- 84
  let e₂ := e₁ + 1 + ((d.drop (e₁ + 1)).idxOf? ' ').getD d.length                           -- 86-87
  (slice s (e₁ + 1 + 2) (e₂ + 2)).bind fun w₁ => (decimal w₁).bind fun n₁ =>                -- 89
  (slice s (e₂ + 1 + 2) (d.length + 2)).bind fun w₂ =>                                      -- 91-94
  (decimal w₂).map fun n₂ => (((d.take e₀).take 63, n₀, n₁, n₂), d.length + 2)              -- 80, 95

/-- One entry of the auxiliary section (process_binary.rs:102-121): the tables and `length`. -/
def entry (lim : Lim) (A : Info) (s : List Char) : Option (Info × Nat) :=
  match s with
  | [] => none                                                                               -- 102
  | c :: _ =>
      if c = 'C' then
        if A.contracts.length < lim.contracts then                                           -- 104-105
          (setContract s).map fun x => ({ A with contracts := A.contracts ++ [x.1] }, x.2)
        else none
      else if c = 'F' then
        if A.formulas.length < lim.formulas then                                             -- 111-112
          (setFunction s).map fun x => ({ A with formulas := A.formulas ++ [x.1] }, x.2)
        else none
      else some (A, 0)                                                                       -- 116-120

/-- The loop over the auxiliary section (process_binary.rs:101-126), on the bytes from `offset` on. -/
def loadLoop (lim : Lim) : Nat → List Char → Info → Option Info
  | 0, _, _ => none
  | n + 1, s, A =>
      (entry lim A s).bind fun x =>
        match s.drop (x.2 + 1) with                                                          -- 123
        | [] => none
        | c :: s' => if c = '\x00' then some x.1 else loadLoop lim n (c :: s') x.1           -- 125

/-- The place of the zero after the instructions: where the loop over them ends (process_binary.rs:18-70). -/
def stopAt : Nat → List Nat → Nat → Option Nat
  | 0, _, _ => none
  | n + 1, s, o =>
      match s[o]? with
      | none => none
      | some len => if len = 0 then some o else stopAt n s (o + len)

/-- The tables `process_binary_file` makes (process_binary.rs:96-127). -/
def load (lim : Lim) (fuel : Nat) (s : List Nat) : Option Info :=
  s[0]?.bind fun o => (stopAt fuel s o).bind fun stop =>
    loadLoop lim (s.length + 1) ((s.drop (stop + 1)).map Char.ofNat) ⟨[], []⟩

/-- `spec_str` of an output (mltl.rs:93-97). -/
def Info.name (A : Info) (lim : Lim) (n : Nat) : List Char :=
  if n < lim.formulas then (A.formulas[n]?.map (·.1)).getD [] else []

/-- The loop over the contracts (mltl.rs:104-121) for a verdict: `spec_str`, status, time. -/
def statusFor (x : Nat × Verdict) : List (List Char × Nat × Nat × Nat) → Option (List Char × String × Nat)
  | [] => none
  | c :: cs =>
      if c.1 = [] then none                                                                  -- 105-107
      else if c.2.1 = x.1 ∧ x.2.truth = false then some (c.1, "inactive", x.2.time)          -- 108-111
      else if c.2.2.1 = x.1 ∧ x.2.truth = false then some (c.1, "invalid", x.2.time)         -- 112-115
      else if c.2.2.2 = x.1 ∧ x.2.truth = true then some (c.1, "verified", x.2.time)         -- 116-119
      else statusFor x cs

/-- `contract_buffer` after a step with these outputs; each is stored right after its output (mltl.rs:100-121), and the buffer is
emptied with the buffer of outputs (engines/mod.rs:30-33). -/
def Info.statuses (A : Info) (lim : Lim) (out : List (Nat × Verdict)) : Option (List (List Char × String × Nat)) :=
  let l := out.filterMap fun x => statusFor x A.contracts
  if l.length ≤ lim.statuses then some l else none

/-- `println!("{} ({}):{},{}", …)` (main.rs:282). -/
def Info.line (A : Info) (lim : Lim) (x : Nat × Verdict) : List Char :=
  A.name lim x.1 ++ ' ' :: '(' :: (natStr x.1 ++ ')' :: ':' :: natStr x.2.time ++ [',', if x.2.truth then 'T' else 'F', '\n'])

/-- `println!("Contract {} {} at {}", …)` (main.rs:291). -/
def statusText (c : List Char × String × Nat) : List Char :=
  "Contract ".toList ++ c.1 ++ ' ' :: (c.2.1.toList ++ " at ".toList ++ natStr c.2.2 ++ ['\n'])

variable {F : Type}

/-- The loop over the records (main.rs:263-297), with `--enable-aux` and `--disable-contracts` or without. -/
def loop (ops : Ops F) (lim : BzLimits) (alim : Lim) (A : Info) (enableAux disableContracts : Bool) (readF : List Char → Option F) (fuel : Nat) :
    List (List (List Char)) → Tool.State F → Option (List Char)
  | [], _ => some []
  | r :: rs, st =>
      (Tool.record lim readF st r).bind fun st => (st.mon.step ops lim fuel st.sig).bind fun x =>
      (A.statuses alim x.1.tl.outputs).bind fun cs =>
        (loop ops lim alim A enableAux disableContracts readF fuel rs { st with mon := x.1 }).map fun text =>
          (if x.2 then
            x.1.tl.outputs.flatMap (if enableAux then A.line alim else Tool.line) ++           -- 280-288
              (if disableContracts then [] else cs.flatMap statusText)                         -- 289-293
          else "Overflow occurred!!!!\n".toList) ++ text

/-- `r2u2_cli run` (main.rs:194-298) on the binary `bytes`. -/
def run (ops : Ops F) (readF : List Char → Option F) (lim : Limits) (alim : Lim) (enableAux disableContracts : Bool) (signals fuel : Nat)
    (bytes : List Nat) (trace : List (List (List Char))) : Option (List Char) :=
  (getFull ops lim signals fuel bytes).bind fun S => (load alim fuel bytes).bind fun A =>
    loop ops (lim.bzLimits signals) alim A enableAux disableContracts readF fuel trace ⟨S, fun _ => (0, ops.zero)⟩

/-- The limits the compiler writes into `config.toml` (assemble.py:1173-1191). -/
def bounds (specs : List (String × Nat)) (contracts : List (String × Nat × Nat × Nat)) : Lim where
  formulas := specs.length
  contracts := contracts.length
  statuses := 2 * contracts.length

end Names
end Rs
end R2U2
