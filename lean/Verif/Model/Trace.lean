import Verif.Model.Map
/-
Model of `parse_trace` (trace.py:5-68), which reads the signal mapping from the header of a trace file.

Texts are lists of characters; a file is the list of its lines (`splitlines`).
-/
namespace R2U2
namespace Map

/-- `header.split(",")` (trace.py:50). -/
def splitComma : List Char → List (List Char)
  | [] => [[]]
  | c :: cs =>
      if c = ',' then [] :: splitComma cs
      else match splitComma cs with
        | p :: ps => (c :: p) :: ps
        | [] => [[c]]

/-- `s.strip()` (trace.py:50). -/
def strip (cs : List Char) : List Char := ((cs.dropWhile isSpace).reverse.dropWhile isSpace).reverse

/-- The names of a header, without its `#` (trace.py:43, 50). -/
def headerNames (header : List Char) : List (List Char) := (splitComma header).map strip

/-- The loop over the names (trace.py:39, 50-57).  The warning about a name found twice asks for
`options['trace_filename']`, and the options of the command have no such key: an exception. -/
def headerMap (cnt : Nat) : List (List Char) → List (List Char × Nat) → Option (List (List Char × Nat))
  | [], m => some m
  | n :: ns, m => if (m.lookup n).isSome then none else headerMap (cnt + 1) ns (set n cnt m)

/-- `parse_trace_file` (trace.py:5-68) on the lines of a file that can be read.  An empty first line raises an exception
(line 40); so does the message about missing signals, which asks for `options['trace_filename']` (line 64): the command
fails without naming them.  `trace_length` is left out: nothing reads it. -/
def parseTrace (fuel : Nat) (s : St) : List (List Char) → Option (St × Ret)
  | [] => some (s, .error [])
  | [] :: _ => some (s, .error [])
  | (c :: header) :: _ =>
      if c = '#' then
        match headerMap 0 (headerNames header) [] with
        | none => some (s, .error [])
        | some m => (assign fuel { s with mapping := m } m).map fun (s, missing) =>
            if missing = [] then (s, .success) else (s, .error [])
      else some (s, .success)

end Map
end R2U2
