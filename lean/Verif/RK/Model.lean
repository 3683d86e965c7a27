/-
Model of the stage ordered Runge-Kutta discretization.

Source: /repo/src/rkopenmdao/time_discretization/stage_ordered_runge_kutta_discretization.py
        /repo/src/rkopenmdao/time_discretization/runge_kutta_discretization_state.py
        /repo/src/rkopenmdao/discretized_ode/discretized_ode.py

Simplifications (for the whole file):
* arrays of length `n` are functions `Fin n → K` over a type `K` with ring operations;
  rounding and array shape errors are not modelled;
* functions that mutate their argument in place return the new value;
* arrays of length one (`start_time`, `final_time`, `step_size`) are scalars.
-/
import Mathlib.Algebra.BigOperators.Fin
import Mathlib.Data.List.FinRange
import Mathlib.Data.Rat.Defs
import Mathlib.Algebra.Module.Pi
import Mathlib.Algebra.Field.Rat

namespace Verif.RK

/-- The coefficients the discretization reads from a tableau
(`butcher_matrix`, `butcher_weight_vector`, `butcher_time_stages`),
butcher_tableau.py L76-80. The constructor with its checks is modelled in
`Verif.Tableau.Model`. -/
structure Coeffs (K : Type) (s : ℕ) where
  A : Fin s → Fin s → K
  b : Fin s → K
  c : Fin s → K

/-- `DiscretizedODEInputState`, discretized_ode.py L10-38. The optional
`linearization_point` is passed separately to the derivative functions. -/
structure OdeInput (K : Type) (n m : ℕ) where
  stepInput : Fin n → K
  stageInput : Fin n → K
  independentInput : Fin m → K
  time : K

/-- `DiscretizedODEResultState` without linearization point,
discretized_ode.py L42-68. -/
structure OdeOut (K : Type) (n o : ℕ) where
  stageUpdate : Fin n → K
  stageState : Fin n → K
  independentOutput : Fin o → K

/-- `DiscretizedODE`, discretized_ode.py L71-221, as three functions of their arguments:
`compute_update` (L78-105, returns the result and the linearization point),
`compute_update_derivative` (L108-134) and `compute_update_adjoint_derivative` (L137-165).
Simplification: a backend is a deterministic function of its arguments. -/
structure ODE (K : Type) (n m o l : ℕ) where
  computeUpdate : OdeInput K n m → K → K → OdeOut K n o × (Fin l → K)
  computeUpdateDerivative : (Fin l → K) → OdeInput K n m → K → K → OdeOut K n o
  computeUpdateAdjoint : (Fin l → K) → OdeOut K n o → K → K → OdeInput K n m

/-- `RungeKuttaDiscretizationState`, runge_kutta_discretization_state.py L48-64. -/
@[ext] structure RKState (K : Type) (s n m o l : ℕ) where
  startState : Fin n → K
  stageStates : Fin s → Fin n → K
  stageUpdates : Fin s → Fin n → K
  finalState : Fin n → K
  independentInputs : Fin m → K
  stageIndependentOutputs : Fin s → Fin o → K
  finalIndependentOutputs : Fin o → K
  startTime : K
  stageTimes : Fin s → K
  finalTime : K
  stepSize : K
  linearizationPoints : Fin s → Fin l → K

/-- `EmbeddedRungeKuttaDiscretizationState`, runge_kutta_discretization_state.py L158-217. -/
@[ext] structure EmbRKState (K : Type) (s n m o l : ℕ) extends RKState K s n m o l where
  embeddedState : Fin n → K
  errorEstimate : Fin n → K

variable {K : Type} {s n m o l : ℕ}

/-- `create_empty_discretization_state`, stage_ordered...py L42-51 and
runge_kutta_discretization_state.py L66-96: everything is zero. -/
def RKState.empty [Zero K] : RKState K s n m o l where
  startState := 0
  stageStates := 0
  stageUpdates := 0
  finalState := 0
  independentInputs := 0
  stageIndependentOutputs := 0
  finalIndependentOutputs := 0
  startTime := 0
  stageTimes := 0
  finalTime := 0
  stepSize := 0
  linearizationPoints := 0

/-- Embedded `create_empty_discretization_state`, stage_ordered...py L535-544 and
runge_kutta_discretization_state.py L200-217. -/
def EmbRKState.empty [Zero K] : EmbRKState K s n m o l where
  toRKState := RKState.empty
  embeddedState := 0
  errorEstimate := 0

/-- `RungeKuttaDiscretizationState.set`, runge_kutta_discretization_state.py L98-110:
all twelve arrays are copied. -/
def RKState.set (_self other : RKState K s n m o l) : RKState K s n m o l where
  startState := other.startState
  stageStates := other.stageStates
  stageUpdates := other.stageUpdates
  finalState := other.finalState
  independentInputs := other.independentInputs
  stageIndependentOutputs := other.stageIndependentOutputs
  finalIndependentOutputs := other.finalIndependentOutputs
  startTime := other.startTime
  stageTimes := other.stageTimes
  finalTime := other.finalTime
  stepSize := other.stepSize
  linearizationPoints := other.linearizationPoints

/-- `set` on an embedded state: the class at runge_kutta_discretization_state.py L158-229 does
not override `set`, so the two embedded arrays of `self` are kept. -/
def EmbRKState.set (self other : EmbRKState K s n m o l) : EmbRKState K s n m o l :=
  { self with toRKState := self.toRKState.set other.toRKState }

/-- `_shift_state`, stage_ordered...py L181-183. -/
def shiftState (st : RKState K s n m o l) : RKState K s n m o l :=
  { st with startTime := st.finalTime, startState := st.finalState }

/-- `_shift_state_reverse`, stage_ordered...py L186-188. -/
def shiftStateReverse (st : RKState K s n m o l) : RKState K s n m o l :=
  { st with finalTime := st.startTime, finalState := st.startState }

section Ring
variable [CommRing K]

/-- `_accumulate_stages`, stage_ordered...py L190-199: zeros for stage 0, otherwise the
einsum over the *earlier* stages `stage_field[:stage]` with `butcher_matrix[stage, :stage]`. -/
def accumulateStages (T : Coeffs K s) (i : Fin s) (field : Fin s → Fin n → K) : Fin n → K :=
  if i.val = 0 then 0
  else fun x => ∑ j ∈ Finset.univ.filter (fun j : Fin s => j < i), field j x * T.A i j

/-- `_accumulate_step`, stage_ordered...py L201-208 (and `_accumulate_embedded_step`
L510-517 when called with the embedded weights). -/
def accumulateStep (w : Fin s → K) (start : Fin n → K) (field : Fin s → Fin n → K) (h : K) :
    Fin n → K :=
  fun x => start x + ∑ i, field i x * (h * w i)

/-- `_compute_stage`, stage_ordered...py L210-243. -/
def computeStage (T : Coeffs K s) (ode : ODE K n m o l) (h : K)
    (st : RKState K s n m o l) (i : Fin s) : RKState K s n m o l :=
  let ti := st.startTime + h * T.c i
  let r := ode.computeUpdate
    { stepInput := st.startState
      stageInput := accumulateStages T i st.stageUpdates
      independentInput := st.independentInputs
      time := ti } h (T.A i i)
  { st with
    stageTimes := Function.update st.stageTimes i ti
    stageUpdates := Function.update st.stageUpdates i r.1.stageUpdate
    stageStates := Function.update st.stageStates i r.1.stageState
    stageIndependentOutputs :=
      Function.update st.stageIndependentOutputs i r.1.independentOutput
    linearizationPoints := Function.update st.linearizationPoints i r.2 }

/-- `compute_step`, stage_ordered...py L53-80. `_compute_final_independent_outputs` (L336-341)
returns zeros. Simplification: with zero stages Python would fail at
`stage_independent_outputs[0]`. -/
def computeStep (T : Coeffs K s) (ode : ODE K n m o l) (st : RKState K s n m o l) (h : K) :
    RKState K s n m o l :=
  let st1 := { shiftState st with stepSize := h }
  let st2 := (List.finRange s).foldl (computeStage T ode h) st1
  { st2 with
    finalTime := st2.startTime + h
    finalState := accumulateStep T.b st2.startState st2.stageUpdates h
    finalIndependentOutputs := 0 }

/-- `compute_error_estimate`, stage_ordered...py L475-508. -/
def computeErrorEstimate (bhat : Fin s → K) (st : EmbRKState K s n m o l) (h : K) :
    EmbRKState K s n m o l :=
  let e := accumulateStep bhat st.startState st.stageUpdates h
  { st with embeddedState := e, errorEstimate := st.finalState - e }

/-- Embedded `compute_step`, stage_ordered...py L546-555. -/
def computeStepEmb (T : Coeffs K s) (bhat : Fin s → K) (ode : ODE K n m o l)
    (st : EmbRKState K s n m o l) (h : K) : EmbRKState K s n m o l :=
  computeErrorEstimate bhat { st with toRKState := computeStep T ode st.toRKState h } h

/-- `_compute_stage_derivative`, stage_ordered...py L245-281. -/
def computeStageDerivative (T : Coeffs K s) (ode : ODE K n m o l) (h : K)
    (lin : Fin s → Fin l → K) (pert : RKState K s n m o l) (i : Fin s) :
    RKState K s n m o l :=
  let ti := pert.startTime
  let r := ode.computeUpdateDerivative (lin i)
    { stepInput := pert.startState
      stageInput := accumulateStages T i pert.stageUpdates
      independentInput := pert.independentInputs
      time := ti } h (T.A i i)
  { pert with
    stageTimes := Function.update pert.stageTimes i ti
    stageUpdates := Function.update pert.stageUpdates i r.stageUpdate
    stageStates := Function.update pert.stageStates i r.stageState
    stageIndependentOutputs :=
      Function.update pert.stageIndependentOutputs i r.independentOutput }

/-- `compute_step_derivative`, stage_ordered...py L82-127. Of the primal state only the
linearization points are used (`_compute_final_independent_output_derivative`, L344-353,
returns zeros). -/
def computeStepDerivative (T : Coeffs K s) (ode : ODE K n m o l)
    (st pert : RKState K s n m o l) (h : K) : RKState K s n m o l :=
  let p2 := (List.finRange s).foldl
    (computeStageDerivative T ode h st.linearizationPoints) (shiftState pert)
  { p2 with
    finalTime := p2.startTime
    finalState := accumulateStep T.b p2.startState p2.stageUpdates h
    finalIndependentOutputs := 0 }

/-- `_compute_stage_adjoint_derivative`, stage_ordered...py L283-323. The inner loop over
`range(stage)` (L315-319) is written as one update of all earlier stages. -/
def computeStageAdjoint (T : Coeffs K s) (ode : ODE K n m o l) (h : K)
    (lin : Fin s → Fin l → K) (pert : RKState K s n m o l) (i : Fin s) :
    RKState K s n m o l :=
  let r := ode.computeUpdateAdjoint (lin i)
    { stageUpdate := pert.stageUpdates i
      stageState := pert.stageStates i
      independentOutput := pert.stageIndependentOutputs i } h (T.A i i)
  let ti := pert.stageTimes i + r.time
  { pert with
    independentInputs := pert.independentInputs + r.independentInput
    stageTimes := Function.update pert.stageTimes i ti
    startState := pert.startState + r.stepInput
    stageUpdates := fun j =>
      if j < i then pert.stageUpdates j + fun x => T.A i j * r.stageInput x
      else pert.stageUpdates j
    startTime := pert.startTime + ti }

/-- `compute_step_adjoint_derivative`, stage_ordered...py L129-178.
`_compute_final_independent_output_adjoint_derivative` (L356-362) returns zeros. Note that
`stage_states` of the perturbation are used as seeds (L297) but never reset. -/
def computeStepAdjoint (T : Coeffs K s) (ode : ODE K n m o l)
    (st pert : RKState K s n m o l) (h : K) : RKState K s n m o l :=
  let p1 : RKState K s n m o l :=
    { pert with
      stageTimes := 0
      stageIndependentOutputs := 0
      finalTime := pert.finalTime + 0
      startState := pert.finalState
      stageUpdates := fun i x => h * T.b i * pert.finalState x
      startTime := pert.finalTime + 0 }
  let p2 := (List.finRange s).reverse.foldl
    (computeStageAdjoint T ode h st.linearizationPoints) p1
  shiftStateReverse p2

/-- `TimeDiscretizationStartingValues`, time_discretization_scheme_interface.py L55-72. -/
structure StartingValues (K : Type) (n m : ℕ) where
  initialTime : K
  initialValues : Fin n → K
  independentInputs : Fin m → K

/-- `TimeDiscretizationFinalizationValues`, time_discretization_scheme_interface.py L75-91. -/
structure FinalizationValues (K : Type) (n o : ℕ) where
  finalTime : K
  finalValues : Fin n → K
  finalIndependentOutputs : Fin o → K

/-- `time_discretization_starting_scheme`, stage_ordered...py L364-377. -/
def startingScheme (v : StartingValues K n m) (h : K) : RKState K s n m o l :=
  { (RKState.empty : RKState K s n m o l) with
    finalTime := v.initialTime
    finalState := v.initialValues
    independentInputs := v.independentInputs
    stepSize := h }

/-- `time_discretization_starting_scheme_derivative`, stage_ordered...py L379-398. -/
def startingSchemeDerivative (dv : StartingValues K n m) : RKState K s n m o l :=
  { (RKState.empty : RKState K s n m o l) with
    finalTime := dv.initialTime
    finalState := dv.initialValues
    independentInputs := dv.independentInputs }

/-- `time_discretization_starting_scheme_adjoint_derivative`, stage_ordered...py L400-411. -/
def startingSchemeAdjoint (pert : RKState K s n m o l) : StartingValues K n m where
  initialTime := pert.finalTime
  initialValues := pert.finalState
  independentInputs := pert.independentInputs

/-- `time_discretization_finalization_scheme`, stage_ordered...py L413-423. -/
def finalizationScheme (st : RKState K s n m o l) : FinalizationValues K n o where
  finalTime := st.finalTime
  finalValues := st.finalState
  finalIndependentOutputs := st.finalIndependentOutputs

/-- `time_discretization_finalization_scheme_derivative`, stage_ordered...py L425-436. -/
def finalizationSchemeDerivative (pert : RKState K s n m o l) : FinalizationValues K n o where
  finalTime := pert.finalTime
  finalValues := pert.finalState
  finalIndependentOutputs := pert.finalIndependentOutputs

/-- `time_discretization_finalization_scheme_adjoint_derivative`, stage_ordered...py L438-457. -/
def finalizationSchemeAdjoint (v : FinalizationValues K n o) : RKState K s n m o l :=
  { (RKState.empty : RKState K s n m o l) with
    finalTime := v.finalTime
    finalState := v.finalValues
    finalIndependentOutputs := v.finalIndependentOutputs }

end Ring

end Verif.RK
