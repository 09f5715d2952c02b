import Verif.Model.Printing
/-
C78.  Traces for the command line tool of the Rust monitor with time stamps that count the records.
-/
namespace R2U2
namespace Rs
namespace Tool

/-- A record with the time stamp `t`: `@t ` before its first field. -/
def withStamp (t : Nat) : List (List Char) → List (List Char)
  | [] => []
  | f :: fs => ('@' :: (natStr t ++ ' ' :: f)) :: fs

/-- The records, from number `t` on, with their numbers as time stamps wherever `on` says so. -/
def stamped (on : Nat → Bool) (t : Nat) : List (List (List Char)) → List (List (List Char))
  | [] => []
  | r :: rs => (if on t then withStamp t r else r) :: stamped on (t + 1) rs

/-- No record has a time stamp. -/
def Unstamped (rows : List (List (List Char))) : Prop := ∀ r ∈ rows, ∀ f, r.head? = some f → f.head? ≠ some '@'

end Tool
end Rs
end R2U2
