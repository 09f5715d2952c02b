import Verif.Spec.Write
import Verif.Model.Write
import Verif.Lemmas.WriteProgram
/-
C60: a program that is written and read again is the same program.
-/
namespace R2U2
namespace C2po

/-- C60.  What `write_c2po` writes for a parsed program is read as the same program: the same declarations, the same expressions, the same
labels and numbers.  The mission time of the second run does not matter: `M` has been replaced by its value.

Missing: enumerations, aggregations with a number, `sqrt` and `abs` of operands without parentheses of their own, calls without arguments, numbers
in scientific notation, labels that look like the internal ones.  The theorems below show what happens to them. -/
theorem C60_roundtrip_partial (flt : String → String) (mission mission' : Int) (s : List Char) (ss : List Section)
    (h : parse flt mission s = some ss) (hp : ∀ sec ∈ ss, PortableSection flt sec) :
    parse flt mission' (written ss) = some ss :=
  (parse_iff ..).2 (program_back ((parse_iff ..).1 h) (lex_symOk s) hp)

/-- Two programs that are written alike are the same program. -/
theorem C60_injective_partial (flt : String → String) (mission mission' : Int) (s s' : List Char) (ss ss' : List Section)
    (h : parse flt mission s = some ss) (hp : ∀ sec ∈ ss, PortableSection flt sec)
    (h' : parse flt mission' s' = some ss') (hp' : ∀ sec ∈ ss', PortableSection flt sec) (hw : written ss = written ss') : ss = ss' := by
  have h1 := C60_roundtrip_partial flt mission 0 s ss h hp
  rw [hw, C60_roundtrip_partial flt mission' 0 s' ss' h' hp'] at h1
  exact (Option.some.inj h1).symm

/-- The hypotheses hold of a program with inputs, a definition, an array, temporal operators, an aggregation and a contract. -/
def sample : List Section :=
  [.input [(["a", "b"], .bool), (["x"], .arr .int 3)],
   .define [("c", mkOp .gt [mkOp .abs [mkOp .sub [.node (.index 1) .none [.node (.var "x") .none []], mkLit (.int 2)]], mkLit (.int (-3))])],
   .spec true [.formula "__f0__" 0 (mkOp .imp [.node (.sig "a") .none [], mkTmp .U 0 5 [.node (.sig "b") .none [], .node (.var "c") .none []]]),
     .contract "k" 1 2 3 (.node (.sig "a") .none []) (mkTmp .F 1 9 [.node (.sig "b") .none []])]]

example : parse id 9 "INPUT a, b: bool; x: int[3]; DEFINE c := abs (x[1] - 2) > -3;
  FTSPEC a -> (b U[5] c); k: a => F[1,M] b;".toList = some sample := by
  set_option maxRecDepth 100000 in rfl

example : ∀ sec ∈ sample, PortableSection id sec := by
  simp only [sample, List.forall_mem_cons]
  refine ⟨trivial, ?_, ?_, by simp⟩
  · intro d hd
    simp only [List.mem_singleton] at hd
    subst hd
    simp [PortableExpr, Everywhere, EverywhereL, Portable, mkOp, mkLit, Grouped]
  · intro s hs
    simp only [List.mem_cons, List.not_mem_nil, or_false] at hs
    rcases hs with rfl | rfl
    · exact ⟨fun _ => by decide +kernel, by simp [PortableExpr, Everywhere, EverywhereL, Portable, mkOp, mkTmp]⟩
    · exact ⟨by simp [PortableExpr, Everywhere, EverywhereL, Portable], by simp [PortableExpr, Everywhere, EverywhereL, Portable, mkTmp]⟩

example : written sample = "INPUT
\ta,b: bool;
\tx: int[3];
DEFINE
\tc := ((abs (x[1] - 2)) > -3);
FTSPEC
\t(a -> (b U[0,5] c));
\tk: a => (F[1,9] b);".toList := by
  set_option maxRecDepth 100000 in rfl

/-- An enumeration is written with `:=` and a comma after the last member: it cannot be read. -/
theorem C60_enum_fails : ∃ ss, parse id (-1) "ENUM E: {p, q};".toList = some ss ∧ parse id (-1) (written ss) = none :=
  ⟨_, rfl, by decide +kernel⟩

/-- `forexactly` loses its number. -/
theorem C60_count_fails : ∃ ss, parse id (-1) "FTSPEC forexactly(v : {a, b}, 1)(v);".toList = some ss ∧ parse id (-1) (written ss) = none :=
  ⟨_, rfl, by decide +kernel⟩

/-- The square root of a name is written without the parentheses the parser asks for. -/
theorem C60_sqrt_fails : ∃ ss, parse id (-1) "FTSPEC sqrt(x) > 1;".toList = some ss ∧ parse id (-1) (written ss) = none :=
  ⟨_, rfl, by decide +kernel⟩

/-- A call without arguments is written as `)`. -/
theorem C60_call_fails : ∃ ss, parse id (-1) "FTSPEC f();".toList = some ss ∧ parse id (-1) (written ss) = none :=
  ⟨_, rfl, by decide +kernel⟩

/-- A label of the user that looks like an internal one is lost: the specification comes back under another name. -/
theorem C60_label_fails : ∃ ss ss', parse id (-1) "FTSPEC __x__: a;".toList = some ss ∧ parse id (-1) (written ss) = some ss' ∧ ss ≠ ss' :=
  ⟨[.spec true [.formula "__x__" 0 (.node (.var "a") .none [])]], [.spec true [.formula "__f0__" 0 (.node (.var "a") .none [])]],
    rfl, rfl, by simp⟩

end C2po
end R2U2
