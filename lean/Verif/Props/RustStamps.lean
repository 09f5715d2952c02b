import Verif.Lemmas.RustStamps
import Verif.Props.RustNamesBz
/-
C78, C79.  Time stamps in the trace of the command line tool of the Rust monitor.
-/
namespace R2U2
open Heap Expr GraphPass
variable {α F : Type}

/-- C78.  Time stamps that count the records change nothing: on every binary and on every trace, the tool prints the same with `@t ` before record `t`,
for any of the records, as without.  (Fewer than 2^32 records.) -/
theorem C78_counting_stamps (ops : Rs.Ops F) (readF : List Char → Option F) (lim : Rs.Limits) (nsig fuel : Nat) (bytes : List Nat)
    (on : Nat → Bool) (rows : List (List (List Char))) (hu : Rs.Tool.Unstamped rows) (hn : rows.length < 2 ^ 32) :
    Rs.Tool.run ops readF lim nsig fuel bytes (Rs.Tool.stamped on 0 rows) = Rs.Tool.run ops readF lim nsig fuel bytes rows := by
  unfold Rs.Tool.run
  refine Option.bind_congr fun S hS => ?_
  exact Rs.Tool.loop_stamped rows 0 _ hu (by omega) (Rs.getFull_at hS)

/-- C79.  The same with names and contracts. -/
theorem C79_counting_stamps (ops : Rs.Ops F) (readF : List Char → Option F) (lim : Rs.Limits) (alim : Rs.Names.Lim) (ea dc : Bool) (nsig fuel : Nat) (bytes : List Nat)
    (on : Nat → Bool) (rows : List (List (List Char))) (hu : Rs.Tool.Unstamped rows) (hn : rows.length < 2 ^ 32) :
    Rs.Names.run ops readF lim alim ea dc nsig fuel bytes (Rs.Tool.stamped on 0 rows) = Rs.Names.run ops readF lim alim ea dc nsig fuel bytes rows := by
  unfold Rs.Names.run
  refine Option.bind_congr fun S hS => Option.bind_congr fun A _ => ?_
  exact Rs.Names.loop_stamped rows 0 _ hu (by omega) (Rs.getFull_at hS)

/-- What the tool prints for the program `x + x >= 5`, `x >= 5` and a trace. -/
def twoRun (rows : List (List (List Char))) : Option (List Char) :=
  ((twoProg.computeScq 100 0).bind fun s => BProg.genAssembly 100 twoProg s.scq).bind fun A => (assembleBytes A.instrs []).bind fun bytes =>
    Rs.Tool.run rsNoFloats (fun _ => none) ⟨4, 4, 2, 10, 2⟩ 1 100 bytes rows

/-- The hypothesis of `C78_counting_stamps` holds of every trace of numbers, and the tool prints verdicts for such a trace. -/
example (xs : List (Int × Int)) (h : ∀ p ∈ xs, (-(2 ^ 31) ≤ p.1 ∧ p.1 < 2 ^ 31) ∧ -(2 ^ 31) ≤ p.2 ∧ p.2 < 2 ^ 31) : Rs.Tool.Unstamped (fzRows xs) :=
  (fz_gives h).plain

example : Rs.Tool.stamped (fun t => t != 1) 0 [["1".toList], ["7".toList], ["3".toList]] = [["@0 1".toList], ["7".toList], ["@2 3".toList]] ∧
    twoRun [["@0 1".toList], ["7".toList], ["@2 3".toList]] = some "0:0,F\n1:0,F\n0:1,T\n1:1,T\n0:2,T\n1:2,F\n".toList := by decide +kernel

/-- A time stamp with no space after it is not read as one, and is no error: on every binary, and anywhere in a trace, `@15` is the value 5 of signal 0,
and in general the `@` and the character after it are skipped. -/
theorem C78_stamp_alone_fails (ops : Rs.Ops F) (readF : List Char → Option F) (lim : Rs.Limits) (nsig fuel : Nat) (bytes : List Nat)
    (c : Char) (w : List Char) (hc : ' ' ∉ c :: w) (hw : w.head? ≠ some '@') (fs : List (List Char)) (rows rows' : List (List (List Char))) :
    Rs.Tool.run ops readF lim nsig fuel bytes (rows ++ (('@' :: c :: w) :: fs) :: rows') =
      Rs.Tool.run ops readF lim nsig fuel bytes (rows ++ (w :: fs) :: rows') := by
  have key : ∀ (lim : BzLimits) (rows : List (List (List Char))) (st : Rs.Tool.State F),
      Rs.Tool.loop ops lim readF fuel (rows ++ (('@' :: c :: w) :: fs) :: rows') st = Rs.Tool.loop ops lim readF fuel (rows ++ (w :: fs) :: rows') st := by
    intro lim rows
    induction rows with
    | nil =>
      intro st
      simp only [List.nil_append, Rs.Tool.loop, Rs.Tool.record_alone hc hw]
    | cons r rows ih =>
      intro st
      simp only [List.cons_append, Rs.Tool.loop, ih]
  unfold Rs.Tool.run
  exact Option.bind_congr fun S _ => key _ _ _

example : ' ' ∉ '1' :: ['5'] ∧ ['5'].head? ≠ some '@' ∧
    twoRun [["1".toList], ["@15".toList], ["3".toList]] = some "0:0,F\n1:0,F\n0:1,T\n1:1,T\n0:2,T\n1:2,F\n".toList := by decide +kernel

/-- A record whose time stamp is that of the record before is dropped: nothing is printed for it, and no error. -/
theorem C78_repeated_stamp_fails :
    twoRun [["@0 1".toList], ["@0 7".toList], ["@1 3".toList]] = some "0:0,F\n1:0,F\n0:1,T\n1:1,F\n".toList ∧
    twoRun [["@0 1".toList], ["@1 3".toList]] = some "0:0,F\n1:0,F\n0:1,T\n1:1,F\n".toList := by decide +kernel

end R2U2
