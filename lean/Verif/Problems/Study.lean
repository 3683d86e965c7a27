/-
Model of the scripts of the convergence study: the number of steps of the homogeneous runs, the
preparation of the data for the plots, and the check for missing files.

Source: /repo/examples/convergence_study/integration_scripts/homogeneous.py and
/repo/examples/convergence_study/visualization/*.py

Simplifications:
* the quotient of two numbers is rounded by a parameter; overflow of the quotient is not modelled
  except for the step size zero;
* a dictionary is the list of its items in the order of insertion;
* a message is the list of its lines, a line is what it is about;
* drawing is not modelled.
-/
import Verif.Problems.Model
import Mathlib.Algebra.Order.Archimedean.Real.Basic
import Mathlib.Algebra.Order.Floor.Ring

namespace Verif.Problems

/-! ### Homogeneous runs -/

/-- What can be raised by the scripts. -/
inductive StudyErr where
  | overflow
  | value
  | index
  | file (e : File.Err)
  deriving DecidableEq

/-- `int(x)`: towards zero. -/
noncomputable def truncate (x : ℝ) : ℤ := if 0 ≤ x then ⌊x⌋ else ⌈x⌉

/-- Step size and number of steps of a homogeneous run, homogeneous.py 21-24. The step sizes are
numbers of `numpy`, for which a division by zero gives infinity or NaN, that `int` rejects with
`OverflowError` or `ValueError`. -/
noncomputable def homogeneousRun (fl : ℝ → ℝ) (timeObjective h : ℝ) : Except StudyErr (ℝ × ℤ) :=
  if h = 0 then (if timeObjective = 0 then .error .value else .error .overflow)
  else .ok (h, truncate (fl (timeObjective / h)))

/-- Time objective and step sizes of `prothero_robinson_problem`, problems.py 191-202, as they are
written there. -/
def protheroTime : ℚ := 10
@[inherit_doc protheroTime]
def protheroSteps : List ℚ := [1 / 1000, 2 / 1000, 4 / 1000, 5 / 1000, 1 / 100]

/-- Time objective and step sizes of `kaps_problem`, problems.py 224-236, as they are written
there. -/
def kapsTime : ℚ := 1
@[inherit_doc kapsTime]
def kapsSteps : List ℚ := [1 / 100, 2 / 100, 4 / 100, 5 / 100, 1 / 10]

/-- The numbers of steps of the homogeneous runs of a problem, homogeneous.py 18-25; what is written
in the code is rounded to numbers of the machine. -/
noncomputable def studySteps (fl : ℝ → ℝ) (timeObjective : ℚ) (steps : List ℚ) :
    Except StudyErr (List ℤ) :=
  steps.mapM fun (h : ℚ) => match homogeneousRun fl (fl timeObjective) (fl h) with
    | .error e => .error e
    | .ok r => .ok r.2

/-! ### Data for the plots -/

/-- Items of a dictionary with numbers as keys. -/
abbrev Items (α : Type) := List (ℕ × α)

/-- `d[k]`. -/
def Items.at' {α : Type} (d : Items α) (k : ℕ) : Except StudyErr α :=
  match d.find? (fun e => decide (e.1 = k)) with
  | none => .error (.file .key)
  | some e => .ok e.2

/-- `dict(sorted(d.items()))`; the keys of a dictionary are distinct, so that only they matter. -/
def Items.sort {α : Type} (d : Items α) : Items α := d.mergeSort fun a b => decide (a.1 ≤ b.1)

/-- The step sizes, plot_errors.py 34-39. `step_sizes[-2]` raises `IndexError` for less than two
entries. -/
def stepSizes (time : Items ℝ) : Except StudyErr (List ℝ) := do
  let hs ← (List.range (time.length - 1)).mapM fun i => do
    let b ← time.at' (i + 1)
    let a ← time.at' i
    .ok (b - a)
  match hs.getLast? with
  | none => .error .index
  | some h => .ok (hs ++ [h])

/-- What is plotted of a run: `ResultData`. -/
structure Shown where
  time : Items ℝ
  error : List (Items (List ℝ))
  result : List (Items (List ℝ))
  steps : List ℝ

/-- `sort_dicts`, plot_errors.py 31-48; errors and results by quantity. -/
def sortDicts (time : Items ℝ) (error result : List (Items (List ℝ))) : Except StudyErr Shown := do
  let hs ← stepSizes time.sort
  .ok ⟨time.sort, error.map Items.sort, result.map Items.sort, hs⟩

/-- The keys of the dictionaries that `read_hdf5_file` fills, in the order of insertion. -/
def readKeys (f : File.File) : List ℕ :=
  (((File.sortedItems f).map fun e => File.parseKey e.1).reverse.dedup).reverse

/-- The items of such a dictionary. -/
def itemsOf {α : Type} (ks : List ℕ) (d : File.Dict α) : Items α :=
  ks.filterMap fun k => (d k).map fun v => (k, v)

/-- The data of the adaptive run, plot_errors.py 57-60 and 71-73. -/
def extractAdaptive (sol : File.Solution) (quantities : List String) (f : File.File) :
    Except StudyErr Shown :=
  match File.readFile sol quantities f with
  | .error e => .error (.file e)
  | .ok (time, data) =>
    sortDicts (itemsOf (readKeys f) time) (data.map fun d => itemsOf (readKeys f) d.1)
      (data.map fun d => itemsOf (readKeys f) d.2)

/-- The height of the dashed line, `np.average(step_sizes)`, plot_errors.py 99. -/
noncomputable def averageLine (d : Shown) : ℝ := d.steps.sum / d.steps.length

/-! ### The check for missing files -/

/-- Lines of the message. -/
inductive Line where
  | stepHeader
  | stepFile (butcher : Str) (h : ℚ) (path : Path)
  | specialHeader
  | specialFile (kind butcher : Str) (path : Path)
  | hint
  deriving DecidableEq

/-- `PROBLEM.file_exists`, problems.py 80-83, with the file system as a parameter. -/
def fileExists (isFile : Path → Bool) (folder : Path) (butcher : Str) (k : Kind) :
    Except Err Bool :=
  match getFilePath folder butcher k with
  | .error e => .error e
  | .ok r => .ok (isFile r.2)

/-- One of the entries of the lists in lines 26-39 of main.py: nothing if the file exists. -/
def missingLine (isFile : Path → Bool) (folder : Path) (butcher : Str) (k : Kind)
    (line : Path → Line) : Except Err (List Line) := do
  if ← fileExists isFile folder butcher k then .ok []
  else match getFilePath folder butcher k with
    | .error e => .error e
    | .ok r => .ok [line r.2]

/-- `missing_steps`, main.py 26-31. -/
def missingSteps (isFile : Path → Bool) (folder : Path) (tableaux : List Str) (steps : List ℚ) :
    Except Err (List Line) := do
  let ls ← tableaux.mapM fun bt => steps.mapM fun h =>
    missingLine isFile folder bt (.num h) (.stepFile bt h)
  .ok ls.flatten.flatten

/-- `missing_types`, main.py 34-39. -/
def missingTypes (isFile : Path → Bool) (folder : Path) (tableaux : List Str) :
    Except Err (List Line) := do
  let ls ← tableaux.mapM fun bt => [sAverage, sAdaptive].mapM fun k =>
    missingLine isFile folder bt (.str k) (.specialFile k bt)
  .ok ls.flatten.flatten

/-- `check_and_raise_missing_files`, main.py 23-52: the message of the `FileNotFoundError`, if it is
raised. -/
def checkFiles (isFile : Path → Bool) (folder : Path) (tableaux : List Str) (steps : List ℚ) :
    Except Err (Option (List Line)) := do
  let ms ← missingSteps isFile folder tableaux steps
  let mt ← missingTypes isFile folder tableaux
  if ms ≠ [] ∨ mt ≠ [] then
    .ok (some ((if ms ≠ [] then .stepHeader :: ms else []) ++
      (if mt ≠ [] then .specialHeader :: mt else []) ++ [.hint]))
  else .ok none

/-- The files that are read for the plots, main.py 57-66: `extract_local_error_data`,
plot_convergence.py 19-27, and `extract_solution_per_butcher_tableau`, plot_errors.py 57 and 64. -/
def filesRead (folder : Path) (tableaux : List Str) (steps : List ℚ) : Except Err (List Path) := do
  let ls ← tableaux.mapM fun bt => do
    let hs ← steps.mapM fun h => getFilePath folder bt (.num h)
    let a ← getFilePath folder bt (.str sAdaptive)
    let b ← getFilePath folder bt (.str sAverage)
    .ok (hs.map Prod.snd ++ [a.2, b.2])
  .ok ls.flatten

end Verif.Problems
