import Verif.Model.Trace
import Verif.Spec.Map
/-
What the header of a trace file means, apart from the code: names separated by commas, with white space around them.
-/
namespace R2U2
namespace Map

/-- A column name: not empty, without commas and white space. -/
def ColName (n : List Char) : Prop := n ≠ [] ∧ ∀ c ∈ n, c ≠ ',' ∧ isSpace c = false

def Blank (l : List Char) : Prop := ∀ c ∈ l, isSpace c = true

/-- The text of a header (after the `#`) and its names, in order. -/
inductive HeaderMeans : List Char → List (List Char) → Prop
  | last {l n r} : Blank l → ColName n → Blank r → HeaderMeans (l ++ n ++ r) [n]
  | more {l n r rest ns} : Blank l → ColName n → Blank r → HeaderMeans rest ns → HeaderMeans (l ++ n ++ r ++ ',' :: rest) (n :: ns)

end Map
end R2U2
