/-
Model of the command line of the convergence study.

Source: /repo/src/rkopenmdao/utils/problems.py L152-250

Simplifications:
* the command line is already split: words, uses of `--stiffness` (with its value, in either form) and
  anything else that begins with a dash; the help option is one of the latter, it ends the program too;
* the folder, the class and the solution of a problem are given by its name.
-/
import Verif.Problems.Study

namespace Verif.Problems

/-- A part of the command line. The value of `--stiffness` is `none` if it is missing or no number. -/
inductive Token where
  | word (w : String)
  | stiffness (x : Option ℝ)
  | other

/-- How parsing ends without a problem. -/
inductive ParseErr where
  /-- `SystemExit`, by `parse_args` (L164) -/
  | exit
  /-- `ValueError`, L178 -/
  | value
  deriving DecidableEq

/-- `parser.parse_args`, L154-164, after a part of the command line: the positional argument, if there
was one, and the stiffness. `problem` has no `nargs`, therefore exactly one word is needed and its
default (L161) is not used. -/
def parseFrom : Option String → Option ℝ → List Token → Except ParseErr (String × Option ℝ)
  | none, _, [] => .error .exit
  | some w, x, [] => .ok (w, x)
  | none, x, .word w :: ts => parseFrom (some w) x ts
  | some _, _, .word _ :: _ => .error .exit
  | w, _, .stiffness (some x) :: ts => parseFrom w (some x) ts
  | _, _, .stiffness none :: _ => .error .exit
  | _, _, .other :: _ => .error .exit

/-- The problem of the study, problems.py L51-61. -/
structure Shipped where
  folder : String
  steps : List ℚ
  quantities : List String
  time : ℚ
  stiffness : String × ℝ

/-- `prothero_robinson_problem`, L187-219. -/
noncomputable def protheroProblem (l : ℝ := -100) : Shipped :=
  ⟨"prothero_robinson", protheroSteps, ["x"], protheroTime, ("lambda_", l)⟩

/-- `kaps_problem`, L222-250. -/
noncomputable def kapsProblem (e : ℝ := 1) : Shipped :=
  ⟨"kaps", kapsSteps, ["y_1", "y_2"], kapsTime, ("epsilon", e)⟩

/-- `parse_problem`, L152-179. -/
noncomputable def parseProblem (ts : List Token) : Except ParseErr Shipped :=
  match parseFrom none none ts with
  | .error e => .error e
  | .ok (w, x) =>
    if w = "prothero_robinson" then
      match x with
      | none => .ok protheroProblem
      | some l => .ok (protheroProblem l)
    else if w = "kaps" then
      match x with
      | none => .ok kapsProblem
      | some e => .ok (kapsProblem e)
    else .error .value

end Verif.Problems
