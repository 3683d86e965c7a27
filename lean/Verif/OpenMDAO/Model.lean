/-
Model of the OpenMDAO backend: translation between state arrays and OpenMDAO vectors,
linearization points, evaluation and derivatives.

Source: /repo/src/rkopenmdao/discretized_ode/openmdao_ode.py

Simplifications (for the whole file):
* a vector of OpenMDAO on one rank is a function of variable name and flat (row major) index;
  `reshape` and `flatten` are inverse to each other and do not appear;
* the variables that are written have the size of the slice (otherwise OpenMDAO raises);
* NumPy arrays are functions of the index, only indices below the size are meaningful; slices of
  metadata are in range (C44);
* the solvers of OpenMDAO are parameters: `Env.solve` is `run_solve_nonlinear`, `Env.solveLinear`
  is `run_linearize` followed by `run_solve_linear`.
-/
import Verif.Metadata.Model
import Verif.RK.Model
import Mathlib.Logic.Function.Basic

namespace Verif.OM

open Verif.Metadata

/-- A vector of OpenMDAO: `x name k` is entry `k` of `om_vector[name].flatten()`. -/
abbrev Vec (K : Type) := String → ℕ → K

/-- A one-dimensional NumPy array. -/
abbrev Flat (K : Type) := ℕ → K

variable {K : Type}

/-- `om_vector[name] = factor * array[start:end].reshape(shape)`. -/
def setVar [Mul K] (x : Vec K) (name : String) (factor : K) (y : Flat K) (start : ℕ) : Vec K :=
  Function.update x name fun k => factor * y (start + k)

/-- `array[start:end] = om_vector[name].flatten()`. -/
def getVar (y : Flat K) (x : Vec K) (name : String) (start stop : ℕ) : Flat K :=
  fun i => if start ≤ i ∧ i < stop then x name (i - start) else y i

/-- What `OpenMDAOODE` knows: the metadata of the rank and `model.get_source`. -/
structure Conf where
  info : Meta
  source : String → String

/-- The arguments of the translation: time and the three arrays. -/
structure Inputs (K : Type) where
  time : K
  step : Flat K
  stage : Flat K
  indep : Flat K

/-- Line 266-274: the time is written to the source of the time variable (a scalar is written to
all entries). -/
def writeTime [Mul K] (C : Conf) (factor : K) (u : Inputs K) (x : Vec K) : Vec K :=
  match C.info.timeVariable with
  | none => x
  | some t => Function.update x (C.source t) fun _ => u.time * factor

/-- Body of the loop in lines 275-293. -/
def writeState [Mul K] (C : Conf) (factor : K) (u : Inputs K) (x : Vec K) (q : Quantity) : Vec K :=
  if q.arr.isLocal then
    match q.stepInput, q.accumulated with
    | some s, some a =>
      setVar (setVar x (C.source s) factor u.step q.arr.start) (C.source a) factor u.stage
        q.arr.start
    | some s, none => setVar x (C.source s) factor u.step q.arr.start
    | none, _ => x
  else x

/-- Body of the loop in lines 294-306. -/
def writeIndep [Mul K] (C : Conf) (factor : K) (u : Inputs K) (x : Vec K) (q : Quantity) : Vec K :=
  if q.arr.isLocal then
    match q.independentInput with
    | some p => setVar x (C.source p) factor u.indep q.arr.start
    | none => x
  else x

/-- `_input_state_to_om_vector`, openmdao_ode.py 257-306. -/
def inputsToVec [Mul K] (C : Conf) (factor : K) (u : Inputs K) (x : Vec K) : Vec K :=
  C.info.independents.foldl (writeIndep C factor u)
    (C.info.quantities.foldl (writeState C factor u) (writeTime C factor u x))

/-- `_output_state_to_om_vector`, openmdao_ode.py 308-322. The stage state and the independent
output are not used. -/
def outputsToVec [Mul K] (C : Conf) (factor : K) (update : Flat K) (x : Vec K) : Vec K :=
  C.info.quantities.foldl (fun x q =>
    if q.arr.isLocal then
      match q.stageOutput with
      | some s => setVar x s factor update q.arr.start
      | none => x
    else x) x

/-- Lines 332-337. -/
def readTime (C : Conf) (x : Vec K) (u : Inputs K) : Inputs K :=
  match C.info.timeVariable with
  | none => u
  | some t => { u with time := x (C.source t) 0 }

/-- Body of the loop in lines 338-352. -/
def readState (C : Conf) (x : Vec K) (u : Inputs K) (q : Quantity) : Inputs K :=
  if q.arr.isLocal then
    match q.stepInput, q.accumulated with
    | some s, some a =>
      { u with step := getVar u.step x (C.source s) q.arr.start q.arr.stop,
               stage := getVar u.stage x (C.source a) q.arr.start q.arr.stop }
    | some s, none => { u with step := getVar u.step x (C.source s) q.arr.start q.arr.stop }
    | none, _ => u
  else u

/-- Body of the loop in lines 353-363. -/
def readIndep (C : Conf) (x : Vec K) (u : Inputs K) (q : Quantity) : Inputs K :=
  if q.arr.isLocal then
    match q.independentInput with
    | some p => { u with indep := getVar u.indep x (C.source p) q.arr.start q.arr.stop }
    | none => u
  else u

/-- `_om_vector_to_input_state`, openmdao_ode.py 324-363. -/
def vecToInputs (C : Conf) (x : Vec K) (u : Inputs K) : Inputs K :=
  C.info.independents.foldl (readIndep C x)
    (C.info.quantities.foldl (readState C x) (readTime C x u))

/-- `_om_vector_to_output_state`, openmdao_ode.py 365-378. -/
def vecToOutputs (C : Conf) (x : Vec K) (update : Flat K) : Flat K :=
  C.info.quantities.foldl (fun y q =>
    if q.arr.isLocal then
      match q.stageOutput with
      | some s => getVar y x s q.arr.start q.arr.stop
      | none => y
    else y) update

/-! ### Linearization points -/

/-- `vector.asarray()`: the variables one after the other; `vars` are names and sizes. -/
def asarray (vars : List (String × ℕ)) (x : Vec K) : List K :=
  vars.flatMap fun v => (List.range v.2).map (x v.1)

/-- `vector.asarray()[:] = values`: the entries of the variables are overwritten. -/
def load [Inhabited K] : List (String × ℕ) → List K → Vec K → Vec K
  | [], _, x => x
  | v :: vars, l, x =>
    load vars (l.drop v.2)
      (Function.update x v.1 fun k => if k < v.2 then l.getD k default else x v.1 k)

/-- The nonlinear vectors of the stage problem. -/
structure Vectors (K : Type) where
  inputs : Vec K
  outputs : Vec K

/-- Names and sizes of the inputs and outputs on the rank. -/
structure Layout where
  inputs : List (String × ℕ)
  outputs : List (String × ℕ)

/-- `_get_linearization_point`, openmdao_ode.py 242-247. -/
def getPoint (L : Layout) (v : Vectors K) : List K :=
  asarray L.inputs v.inputs ++ asarray L.outputs v.outputs

/-- `get_linearization_point_size`, openmdao_ode.py 238-240. -/
def pointSize (L : Layout) : ℕ :=
  (L.inputs.map Prod.snd).sum + (L.outputs.map Prod.snd).sum

/-- `_set_linearization_point`, openmdao_ode.py 249-255. -/
def setPoint [Inhabited K] (L : Layout) (p : List K) (v : Vectors K) : Vectors K where
  inputs := load L.inputs (p.take (L.inputs.map Prod.snd).sum) v.inputs
  outputs := load L.outputs (p.drop (L.inputs.map Prod.snd).sum) v.outputs

/-! ### Evaluation and derivatives -/

/-- The stage problem as a black box: nonlinear solve (from the current vectors) and linear solves
at the current vectors with a right-hand side. The forward solve returns `d_outputs` and the reverse
one `d_residuals`. -/
structure Env (K : Type) where
  solve : Vectors K → K → K → Vectors K
  solveFwd : Vectors K → K → K → Vec K → Vec K
  solveRev : Vectors K → K → K → Vec K → Vec K

/-- `compute_update`, openmdao_ode.py 118-150: the vectors afterwards, the stage update and the
linearization point. The stage state is zero, the independent output empty. -/
def computeUpdate [CommRing K] (C : Conf) (L : Layout) (E : Env K) (v : Vectors K) (u : Inputs K)
    (h a : K) : Vectors K × Flat K × List K :=
  let v := E.solve { v with outputs := inputsToVec C 1 u v.outputs } h a
  (v, vecToOutputs C v.outputs (fun _ => 0), getPoint L v)

/-- `compute_update_derivative`, openmdao_ode.py 152-186. -/
def computeDerivative [CommRing K] [Inhabited K] (C : Conf) (L : Layout) (E : Env K)
    (v : Vectors K) (p : List K) (u : Inputs K) (h a : K) : Vectors K × Flat K :=
  let v := setPoint L p v
  let rhs := inputsToVec C (-1) u (fun _ _ => 0)
  (v, vecToOutputs C (E.solveFwd v h a rhs) (fun _ => 0))

/-- `compute_update_adjoint_derivative`, openmdao_ode.py 188-227. -/
def computeAdjoint [CommRing K] [Inhabited K] (C : Conf) (L : Layout) (E : Env K)
    (v : Vectors K) (p : List K) (update : Flat K) (h a : K) : Vectors K × Inputs K :=
  let v := setPoint L p v
  let rhs := outputsToVec C (-1) update (fun _ _ => 0)
  (v, vecToInputs C (E.solveRev v h a rhs) ⟨0, fun _ => 0, fun _ => 0, fun _ => 0⟩)

end Verif.OM
