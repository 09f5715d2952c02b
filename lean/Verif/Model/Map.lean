import Verif.Model.Heap
import Verif.Model.Printing
/-
Model of signal maps: `parse_map`, `generate_map` (map.py) and `assign_signal_ids` (cpt.py:1944-1959).

Texts are lists of characters; a file is the list of its lines (`splitlines`).  Digits and white space are the ASCII
ones (Python's `\d` and `int` also take other Unicode digits).  Warnings are not modelled.
-/
namespace R2U2
namespace Map

def isLetter (c : Char) : Bool := ('a' ≤ c && c ≤ 'z') || ('A' ≤ c && c ≤ 'Z') || c == '_'
def isDig (c : Char) : Bool := '0' ≤ c && c ≤ '9'
def isWordC (c : Char) : Bool := isLetter c || isDig c
def isNameC (c : Char) : Bool := isWordC c || c == '[' || c == ']' || c == '.'

/-- `re.match(r"[a-zA-Z_][a-zA-Z0-9_\[\]\.]*:\d+", line)` (map.py:24): a match of a prefix of the line. -/
def lineMatches : List Char → Bool
  | [] => false
  | c :: cs => isLetter c &&
      match cs.dropWhile isNameC with
      | ':' :: d :: _ => isDig d
      | _ => false

/-- `re.match(r"[a-zA-Z_][a-zA-Z0-9_]*\[\d..\d*\]", id)` (map.py:30); the two dots stand for any characters. -/
def rangeMatches : List Char → Bool
  | [] => false
  | c :: cs => isLetter c &&
      match cs.dropWhile isWordC with
      | '[' :: d :: _ :: _ :: cs => isDig d && (match cs.dropWhile isDig with | ']' :: _ => true | _ => false)
      | _ => false

/-- `line.split(":")[0]` and `[1]` (map.py:25-27), for a line with a colon. -/
def beforeColon (cs : List Char) : List Char := cs.takeWhile (· ≠ ':')
def afterColon (cs : List Char) : List Char := ((cs.dropWhile (· ≠ ':')).drop 1).takeWhile (· ≠ ':')

def isSpace (c : Char) : Bool := c == ' ' || (9 ≤ c.toNat && c.toNat ≤ 13) || (28 ≤ c.toNat && c.toNat ≤ 31)

/-- The digits of an `int` literal: single underscores may separate them. -/
def digitsU (acc : Nat) (under : Bool) : List Char → Option Nat
  | [] => if under then none else some acc
  | '_' :: cs => if under then none else digitsU acc true cs
  | c :: cs => if isDig c then digitsU (acc * 10 + (c.toNat - 48)) false cs else none

/-- `int(text)` without a sign: the texts it is called on begin with a digit or have digits only (map.py:27, 32). -/
def pyInt (cs : List Char) : Option Nat :=
  match ((cs.dropWhile isSpace).reverse.dropWhile isSpace).reverse with
  | [] => none
  | c :: cs => if isDig c then digitsU (c.toNat - 48) false cs else none

/-- `text.split("..")`. -/
def splitDots : List Char → List (List Char)
  | '.' :: '.' :: cs => [] :: splitDots cs
  | c :: cs =>
      match splitDots cs with
      | p :: ps => (c :: p) :: ps
      | [] => [[c]]
  | [] => [[]]

/-- `id[:id.find("[")]`, `id[id.find("[") + 1 : id.find("]")]` (map.py:31, 33), for a text that matches. -/
def base (id : List Char) : List Char := id.takeWhile (· ≠ '[')
def inside (id : List Char) : List Char := (id.takeWhile (· ≠ ']')).drop ((base id).length + 1)

/-- `id[:id.find("[")] + "[" + str(i) + "]"` (map.py:33). -/
def element (a : List Char) (i : Nat) : List Char := a ++ '[' :: natStr i ++ [']']

/-- What a line maps (map.py:24-56); `none` is an error or an exception, which makes the command fail
(command.py:220-228). -/
def lineEntries (line : List Char) : Option (List (List Char × Nat)) :=
  if lineMatches line then
    let id := beforeColon line
    (pyInt (afterColon line)).bind fun sid =>
      if rangeMatches id then
        match splitDots (inside id) with
        | lo :: hi :: _ =>
            (pyInt lo).bind fun lo => (pyInt hi).map fun hi =>
              (List.range (hi + 1 - lo)).map fun k => (element (base id) (lo + k), sid + k)
        | _ => none
      else some [(id, sid)]
  else none

/-- `mapping[k] = v`. -/
def set (k : List Char) (v : Nat) : List (List Char × Nat) → List (List Char × Nat)
  | [] => [(k, v)]
  | (k', v') :: d => if k' = k then (k, v) :: d else (k', v') :: set k v d

def setAll (m : List (List Char × Nat)) (es : List (List Char × Nat)) : List (List Char × Nat) := es.foldl (fun m e => set e.1 e.2 m) m

/-- The loop over the lines (map.py:21-58). -/
def mapLines (m : List (List Char × Nat)) : List (List Char) → Option (List (List Char × Nat))
  | [] => some m
  | l :: ls => (lineEntries l).bind fun es => mapLines (setAll m es) ls

/-- The nodes traversals of the `roots` one after the other yield. -/
def nodesOf {L : Type} (fuel : Nat) (h : Heap L) : List Nat → Option (List Nat)
  | [] => some []
  | d :: ds => (h.postorder fuel [d]).bind fun xs => (nodesOf fuel h ds).map fun ys => xs ++ ys

/-- The body of `assign_signal_ids` (cpt.py:1952-1957) for the nodes `xs`; a label is the name of a signal, or nothing.
The numbers `signal_id`, and the names not found. -/
def assignTo (h : Heap (Option (List Char))) (m : List (List Char × Nat)) (ids : Nat → Int) : List Nat → (Nat → Int) × List (List Char)
  | [] => (ids, [])
  | x :: xs =>
      match h.lab x with
      | none => assignTo h m ids xs
      | some s =>
          match m.lookup s with
          | none => let r := assignTo h m ids xs; (r.1, s :: r.2)
          | some n => assignTo h m (fun y => if y = x then n else ids y) xs

/-- The state the commands work on: the graph, its definitions and specification sets, `signal_id`s and
`context.signal_mapping`. -/
structure St where
  heap : Heap (Option (List Char))
  defs : List Nat
  specs : List Nat
  ids : Nat → Int
  mapping : List (List Char × Nat)

/-- `assign_signal_ids` (cpt.py:1944-1959); `postorder_with_definitions` (cpt.py:1404-1414) traverses the definitions, then
the two specification sets (1388-1394).  The preorder traversal of the latter after that yields the same nodes again and
is left out. -/
def assign (fuel : Nat) (s : St) (m : List (List Char × Nat)) : Option (St × List (List Char)) :=
  (nodesOf fuel s.heap (s.defs ++ s.specs)).map fun xs =>
    let r := assignTo s.heap m s.ids xs
    ({ s with ids := r.1 }, r.2)

/-- What a command returns: success, or an error with the signals reported as missing. -/
inductive Ret where
  | success
  | error (missing : List (List Char))

/-- `parse_map_file` (map.py:5-68) on the lines of a file that can be read. -/
def parseMap (fuel : Nat) (s : St) (lines : List (List Char)) : Option (St × Ret) :=
  match mapLines [] lines with
  | none => some (s, .error [])
  | some m => (assign fuel { s with mapping := m } m).map fun (s, missing) =>
      if missing = [] then (s, .success) else (s, .error missing)

/-- `has_valid_signal_mapping` (cpt.py:2246-2254). -/
def hasValid (s : St) (xs : List Nat) : Bool := xs.all fun x =>
  match s.heap.lab x with
  | none => true
  | some n => match s.mapping.lookup n with
    | none => false
    | some i => s.ids x == i

/-- `generate_map` (map.py:88-129) with the names of `context.signals` in order; the lines written. -/
def generateMap (fuel : Nat) (s : St) (signals : List (List Char)) : Option (St × Ret × List (List Char)) :=
  (nodesOf fuel s.heap s.specs).bind fun xs =>
  (if hasValid s xs then some (s, [])
    else
      let m := signals.zipIdx
      (assign fuel s m).map fun (s, missing) => if missing = [] then ({ s with mapping := m }, []) else (s, missing)).map
  fun (s, missing) =>
    if missing = [] then (s, .success, s.mapping.map fun e => e.1 ++ ':' :: natStr e.2) else (s, .error missing, [])

end Map
end R2U2
