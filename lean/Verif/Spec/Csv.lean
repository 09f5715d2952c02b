import Verif.Model.Csv
/-
What a trace file means, apart from the code: a header, then one line for each time step with the values of the signals, separated by commas.
-/
namespace R2U2
namespace Cli

/-- The text of a line with the given fields. -/
def row : List (List Char) → List Char
  | [] => ['\n']
  | [f] => f ++ ['\n']
  | f :: fs => f ++ ',' :: row fs

/-- The text of a trace file. -/
def csv (header : Option (List Char)) (rows : List (List (List Char))) : List Char :=
  (match header with
    | some h => '#' :: (h ++ ['\n'])
    | none => []) ++ rows.flatMap row

/-- The value of signal `i` at time `t`: the `i`-th field of the `t`-th line; everything but `0` is true. -/
def signal (rows : List (List (List Char))) (t i : Nat) : Bool :=
  match rows[t]?.bind (·[i]?) with
  | some f => decide (f ≠ ['0'])
  | none => false

/-- A value of a signal: a text that is not empty, without commas, line ends and zero characters. -/
def Field (f : List Char) : Prop := f ≠ [] ∧ ∀ c ∈ f, c ≠ ',' ∧ c ≠ '\n' ∧ c ≠ '\x00'

/-- Lines with `width` values, shorter than the buffer of the reader; the first value does not begin with `#` or `@`. -/
structure Rows (size width : Nat) (rows : List (List (List Char))) : Prop where
  width : ∀ r ∈ rows, r.length = width
  fields : ∀ r ∈ rows, ∀ f ∈ r, Field f
  plain : ∀ r ∈ rows, ∀ f, r.head? = some f → f.head? ≠ some '#' ∧ f.head? ≠ some '@'
  fits : ∀ r ∈ rows, (row r).length < size

/-- A header: one line, shorter than the buffer. -/
def Header (size : Nat) (h : List Char) : Prop := '\n' ∉ h ∧ h.length + 2 < size

end Cli
end R2U2
