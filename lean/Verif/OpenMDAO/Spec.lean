/-
Vocabulary for the statements about the OpenMDAO backend, independent of the translation functions.
-/
import Verif.OpenMDAO.Model
import Mathlib.Algebra.BigOperators.Group.Finset.Basic
import Mathlib.Data.Finset.Image

namespace Verif.OM

open Verif.Metadata Finset

/-- Variable and size for a role of a quantity that is local. -/
def slot (q : Quantity) (name : Option String) : List (String × ℕ) :=
  if q.arr.isLocal then name.toList.map fun s => (s, q.arr.stop - q.arr.start) else []

/-- Variables of the stage problem that receive time, arrays and independent inputs, with sizes. -/
def written (C : Conf) : List (String × ℕ) :=
  (C.info.timeVariable.toList.map fun t => (C.source t, 1)) ++
    (C.info.quantities.flatMap fun q =>
      slot q (q.stepInput.map C.source) ++ slot q (q.accumulated.map C.source)) ++
    C.info.independents.flatMap fun q => slot q (q.independentInput.map C.source)

/-- Variables of the stage problem that give the stage update. -/
def delivered (C : Conf) : List (String × ℕ) :=
  C.info.quantities.flatMap fun q => slot q q.stageOutput

/-- The entries of a list of variables. -/
def entriesOf (vars : List (String × ℕ)) : Finset (String × ℕ) :=
  (vars.flatMap fun v => (List.range v.2).map fun k => (v.1, k)).toFinset

/-- The metadata come from the setup of a backend, as seen by one of the ranks. -/
def Built (C : Conf) : Prop :=
  ∃ (P : Problem) (n : ℕ) (req ind : List String) (ms : List Meta) (r : ℕ),
    setup P n req ind = .ok ms ∧ ms[r]? = some C.info

/-- Index `i` belongs to a local quantity that has a step input. -/
def InputAt (C : Conf) (i : ℕ) : Prop :=
  ∃ q ∈ C.info.quantities, q.arr.isLocal = true ∧ q.stepInput.isSome = true ∧
    q.arr.start ≤ i ∧ i < q.arr.stop

/-- Names are unique within inputs and within outputs. -/
structure Layout.Proper (L : Layout) : Prop where
  inputs : (L.inputs.map Prod.fst).Nodup
  outputs : (L.outputs.map Prod.fst).Nodup

/-- The quantities fit the stage problem: each role has its own output variable of the size of the
quantity, and the source of the time variable has a single entry. -/
structure Fits (C : Conf) (L : Layout) : Prop where
  written : ∀ v ∈ written C, v ∈ L.outputs
  delivered : ∀ v ∈ delivered C, v ∈ L.outputs
  sources : ((OM.written C).map Prod.fst).Nodup
  results : ((OM.delivered C).map Prod.fst).Nodup

/-- Two pairs of vectors agree on all variables of the stage problem. -/
def Agree {K : Type} (L : Layout) (v w : Vectors K) : Prop :=
  (∀ e ∈ entriesOf L.inputs, v.inputs e.1 e.2 = w.inputs e.1 e.2) ∧
    ∀ e ∈ entriesOf L.outputs, v.outputs e.1 e.2 = w.outputs e.1 e.2

variable {K : Type} [CommRing K]

/-- `x` solves the linear system with matrix `J` and right-hand side `b` on the entries `I`. -/
def Solves (I : Finset (String × ℕ)) (J : String × ℕ → String × ℕ → K) (x b : Vec K) : Prop :=
  ∀ e ∈ I, ∑ e' ∈ I, J e e' * x e'.1 e'.2 = b e.1 e.2

/-- The linear solves of the stage problem are solves with a matrix and its transpose, which depend
on the current values of inputs and outputs. -/
structure SolvesLinear (L : Layout) (E : Env K)
    (J : Vectors K → K → K → String × ℕ → String × ℕ → K) : Prop where
  fwd : ∀ v h a b, Solves (entriesOf L.outputs) (J v h a) (E.solveFwd v h a b) b
  rev : ∀ v h a b, Solves (entriesOf L.outputs) (fun e e' => J v h a e' e) (E.solveRev v h a b) b
  point : ∀ v w h a, Agree L v w → ∀ e ∈ entriesOf L.outputs, ∀ e' ∈ entriesOf L.outputs,
    J v h a e e' = J w h a e e'

/-- The same for matrices that may be singular for some vectors, step sizes and factors: the linear
solver solves regular systems, and in all cases the reverse solve is the transpose of the forward
solve. -/
structure SolvesRegular (L : Layout) (E : Env K)
    (J : Vectors K → K → K → String × ℕ → String × ℕ → K) : Prop where
  fwd : ∀ v h a b, (∀ c, ∃ x, Solves (entriesOf L.outputs) (J v h a) x c) →
    Solves (entriesOf L.outputs) (J v h a) (E.solveFwd v h a b) b
  transposed : ∀ v h a b c, ∑ e ∈ entriesOf L.outputs, c e.1 e.2 * E.solveFwd v h a b e.1 e.2
    = ∑ e ∈ entriesOf L.outputs, b e.1 e.2 * E.solveRev v h a c e.1 e.2

/-- Pairing of two sets of arguments: `n` and `m` are the array sizes. -/
def pairInputs (n m : ℕ) (u w : Inputs K) : K :=
  u.time * w.time + ∑ i ∈ range n, u.step i * w.step i + ∑ i ∈ range n, u.stage i * w.stage i +
    ∑ i ∈ range m, u.indep i * w.indep i

/-- Zero arguments. -/
def Inputs.zero : Inputs K := ⟨0, fun _ => 0, fun _ => 0, fun _ => 0⟩

end Verif.OM
