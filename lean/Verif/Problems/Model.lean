/-
Model of the helpers for convergence studies: names of the result files, tolerance, and the
parameters of the runs.

Source: /repo/src/rkopenmdao/utils/problems.py and
/repo/examples/convergence_study/integration_scripts/*.py

Simplifications:
* strings are lists of characters; `lower` is the one for ASCII letters;
* paths are lists of parts, as `pathlib` compares them. Joining an absolute path is modelled,
  `..` is kept as a part (as `pathlib` does);
* a step size is the exact rational value of the floating point number, not infinite nor NaN.
-/
import Verif.File.Model
import Mathlib.Data.Int.Log
import Mathlib.Data.Rat.Floor

namespace Verif.Problems

/-- What can be raised. -/
inductive Err where
  | value
  | notFound
  | zeroDivision
  deriving DecidableEq

abbrev Str := List Char

abbrev Path := List Str

/-! ### `f"{x:.0E}"` -/

/-- Rounding to the nearest integer, ties to the even one. -/
def roundEven (q : ℚ) : ℤ :=
  if q - ⌊q⌋ < 1 / 2 then ⌊q⌋
  else if 1 / 2 < q - ⌊q⌋ then ⌊q⌋ + 1
  else if Even ⌊q⌋ then ⌊q⌋ else ⌊q⌋ + 1

/-- Digit and exponent of a positive number rounded to one digit. -/
def sci (a : ℚ) : ℕ × ℤ :=
  let e := Int.log 10 a
  let m := (roundEven (a / 10 ^ e)).toNat
  if m = 10 then (1, e + 1) else (m, e)

/-- The exponent: sign and at least two digits. -/
def fmtExp (e : ℤ) : Str :=
  (if e < 0 then '-' else '+') ::
    (if e.natAbs < 10 then '0' :: (toString e.natAbs).toList else (toString e.natAbs).toList)

/-- `f"{x:.0E}"`, problems.py 71. -/
def fmtE (x : ℚ) : Str :=
  if x = 0 then '0' :: 'E' :: fmtExp 0
  else (if x < 0 then ['-'] else []) ++
    (toString (sci |x|).1).toList ++ 'E' :: fmtExp (sci |x|).2

/-! ### File names -/

/-- `.replace(" ", "_").replace(",", "").lower()`, problems.py 67, 71-73. -/
def sanitize (s : Str) : Str :=
  ((s.map fun c => if c = ' ' then '_' else c).filter fun c => c ≠ ',').map Char.toLower

/-- Parts of a relative path. -/
def parts (s : Str) : Path := (s.splitOn '/').filter fun p => p ≠ [] ∧ p ≠ ['.']

/-- `path / s`. -/
def join (p : Path) (s : Str) : Path :=
  if s.head? = some '/' then ['/'] :: parts s else p ++ parts s

/-- The argument `_type`. -/
inductive Kind where
  | str (s : Str)
  | num (x : ℚ)
  | other

def sAdaptive : Str := "adaptive".toList
def sAverage : Str := "avg_homogeneous".toList
def sFixed : Str := "homogeneous".toList

/-- `Problem.get_file_path`, problems.py 59-78. -/
def getFilePath (folder : Path) (butcher : Str) : Kind → Except Err (Str × Path)
  | .str s =>
    if s ≠ sAdaptive ∧ s ≠ sAverage then .error .value
    else .ok (sanitize butcher, join (join folder s) (sanitize butcher ++ ".h5".toList))
  | .num x =>
    let name := sanitize ("data_".toList ++ fmtE x ++ '_' :: butcher)
    .ok (name, join (join folder sFixed) (name ++ ".h5".toList))
  | .other => .error .value

/-- `generate_path`, problems.py 25-36: the directory that is created if it does not exist;
`os.makedirs("")` raises `FileNotFoundError`. `exist` says which directories exist. -/
def generatePath (exist : Str → Bool) (path : Str) : Except Err (Option Str) :=
  if path.drop (path.length - 3) = ".h5".toList ∨ path.drop (path.length - 4) = ".png".toList then
    let dir := (path.reverse.dropWhile fun c => c ≠ '/').reverse
    if exist dir then .ok none
    else if dir = [] then .error .notFound else .ok (some dir)
  else .ok none

/-! ### The runs of a study -/

/-- What distinguishes the runs of a study: the fields of `Problem` and `ProblemConfig` that are
varied. Controllers and measurers are told apart by numbers. -/
structure Experiment where
  folder : Path
  stiffness : ℚ
  butcher : Str
  controllers : List ℕ
  measurer : ℕ
  kind : Kind

/-- The file a run is written to, homogeneous.py 26-28, adaptive.py 35-37,
avg_homogeneous.py 36-38. -/
def Experiment.file (e : Experiment) : Except Err Path :=
  match getFilePath e.folder e.butcher e.kind with
  | .error x => .error x
  | .ok r => .ok r.2

/-- `Problem.compute_tolerance`, problems.py 85-95. `error of a file`: none if the file does not
exist (`FileNotFoundError`, caught), else the last local error. `np.average` of no entries is
NaN: `none`. -/
noncomputable def computeTolerance (folder : Path) (butcher : Str) (steps : List ℚ)
    (lastError : Path → Option ℝ) : Except Err (Option ℝ) := do
  let ps ← steps.mapM fun h => getFilePath folder butcher (.num h)
  .ok (match ps.mapM fun p => lastError p.2 with
    | none => some (1 / 10 ^ 6)
    | some errs => if errs = [] then none else some (errs.sum / errs.length))

/-- `count_keys`, avg_homogeneous.py 11-14. -/
def countKeys (f : File.File) : ℕ := f.length

/-- Step size and number of steps of the average run, avg_homogeneous.py 26-34. -/
noncomputable def averageRun (timeObjective : ℝ) (f : File.File) : Except Err (ℝ × ℕ) :=
  if countKeys f = 0 then .error .zeroDivision
  else .ok (timeObjective / countKeys f, countKeys f)

end Verif.Problems
