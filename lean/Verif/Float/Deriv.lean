/-
The derivative and adjoint steps of the discretization in floating point arithmetic.

Source: /repo/src/rkopenmdao/time_discretization/stage_ordered_runge_kutta_discretization.py L82-178,
        L245-323
        /repo/src/rkopenmdao/runge_kutta_integrator.py L674-682, L779-789

The functions are those of `Verif.RK.Model` with every operation rounded, as in
`Verif.Float.Values`. The derivative functions of the stage problem are arbitrary functions `od`, so
their rounding (and the tolerance of their linear solver) is part of them.
-/
import Verif.Float.Runs
import Verif.Props.Deriv

namespace Verif.Fl

open Verif.RK Verif.RK.Spec Verif.Control Verif.XReal Verif.Integrator Verif.Props
open Classical

variable {s n m o l : ℕ}

/-- `_compute_stage_derivative`, stage_ordered...py L245-281. -/
noncomputable def computeStageDerivativeFl (dot : List (ℝ × ℝ) → ℝ) (T : Coeffs ℝ s)
    (od : ODE ℝ n m o l) (h : ℝ) (lin : Fin s → Fin l → ℝ) (pert : RKState ℝ s n m o l)
    (i : Fin s) : RKState ℝ s n m o l :=
  let ti := pert.startTime
  let r := od.computeUpdateDerivative (lin i)
    { stepInput := pert.startState
      stageInput := accumulateStagesFl dot T i pert.stageUpdates
      independentInput := pert.independentInputs
      time := ti } h (T.A i i)
  { pert with
    stageTimes := Function.update pert.stageTimes i ti
    stageUpdates := Function.update pert.stageUpdates i r.stageUpdate
    stageStates := Function.update pert.stageStates i r.stageState
    stageIndependentOutputs :=
      Function.update pert.stageIndependentOutputs i r.independentOutput }

/-- `compute_step_derivative`, stage_ordered...py L82-127. -/
noncomputable def computeStepDerivativeFl (fl : ℝ → ℝ) (dot : List (ℝ × ℝ) → ℝ) (T : Coeffs ℝ s)
    (od : ODE ℝ n m o l) (st pert : RKState ℝ s n m o l) (h : ℝ) : RKState ℝ s n m o l :=
  let p2 := (List.finRange s).foldl
    (computeStageDerivativeFl dot T od h st.linearizationPoints) (shiftState pert)
  { p2 with
    finalTime := p2.startTime
    finalState := accumulateStepFl fl dot T.b p2.startState p2.stageUpdates h
    finalIndependentOutputs := 0 }

/-- `+=` on arrays. -/
def addFl (fl : ℝ → ℝ) {k : ℕ} (v w : Fin k → ℝ) : Fin k → ℝ := fun x => fl (v x + w x)

/-- `_compute_stage_adjoint_derivative`, stage_ordered...py L283-323. -/
def computeStageAdjointFl (fl : ℝ → ℝ) (T : Coeffs ℝ s) (od : ODE ℝ n m o l) (h : ℝ)
    (lin : Fin s → Fin l → ℝ) (pert : RKState ℝ s n m o l) (i : Fin s) : RKState ℝ s n m o l :=
  let r := od.computeUpdateAdjoint (lin i)
    { stageUpdate := pert.stageUpdates i
      stageState := pert.stageStates i
      independentOutput := pert.stageIndependentOutputs i } h (T.A i i)
  let ti := fl (pert.stageTimes i + r.time)
  { pert with
    independentInputs := addFl fl pert.independentInputs r.independentInput
    stageTimes := Function.update pert.stageTimes i ti
    startState := addFl fl pert.startState r.stepInput
    stageUpdates := fun j =>
      if j < i then addFl fl (pert.stageUpdates j) (fun x => fl (T.A i j * r.stageInput x))
      else pert.stageUpdates j
    startTime := fl (pert.startTime + ti) }

/-- The state of the perturbation before the loop over the stages, stage_ordered...py L136-162. -/
def adjointStartFl (fl : ℝ → ℝ) (T : Coeffs ℝ s) (pert : RKState ℝ s n m o l) (h : ℝ) :
    RKState ℝ s n m o l :=
  { pert with
    stageTimes := 0
    stageIndependentOutputs := 0
    finalTime := fl (pert.finalTime + 0)
    startState := pert.finalState
    stageUpdates := fun i x => fl (fl (h * T.b i) * pert.finalState x)
    startTime := fl (pert.finalTime + 0) }

/-- `compute_step_adjoint_derivative`, stage_ordered...py L129-178. -/
def computeStepAdjointFl (fl : ℝ → ℝ) (T : Coeffs ℝ s) (od : ODE ℝ n m o l)
    (st pert : RKState ℝ s n m o l) (h : ℝ) : RKState ℝ s n m o l :=
  shiftStateReverse ((List.finRange s).reverse.foldl
    (computeStageAdjointFl fl T od h st.linearizationPoints) (adjointStartFl fl T pert h))

/-- Output of the forward mode, runge_kutta_integrator.py L674-682. -/
def rkWriteOutFl (fl : ℝ → ℝ) (r : RKState ℝ s n m o l) (v : Outputs n) : Outputs n :=
  ⟨fl (v.time + r.finalTime), r.finalState⟩

/-- Output of the reverse mode, runge_kutta_integrator.py L779-789. -/
def rkWriteInFl (fl : ℝ → ℝ) (r : RKState ℝ s n m o l) (i : StartingValues ℝ n m) :
    StartingValues ℝ n m :=
  ⟨fl (i.initialTime + r.finalTime), r.finalState, r.independentInputs⟩

/-- The plain discretization in floating point, derivatives included. -/
noncomputable def rkFloatD (fl : ℝ → ℝ) (dot : List (ℝ × ℝ) → ℝ) (T : ℝ) (E : Env s n m o l)
    (od : ODE ℝ n m o l) : Backend (RKState ℝ s n m o l) (StartingValues ℝ n m) (Outputs n) :=
  { rkFloat fl dot T E with
    deriv := fun d p h => computeStepDerivativeFl fl dot E.T od d p (toReal h)
    adj := fun d p h => computeStepAdjointFl fl E.T od d p (toReal h)
    writeOut := rkWriteOutFl fl
    writeIn := rkWriteInFl fl }

/-- The embedded discretization in floating point, derivatives included. -/
noncomputable def embFloatD (fl : ℝ → ℝ) (dot : List (ℝ × ℝ) → ℝ) (T : ℝ) (E : Env s n m o l)
    (bhat : Fin s → ℝ) (od : ODE ℝ n m o l) :
    Backend (EmbRKState ℝ s n m o l) (StartingValues ℝ n m) (Outputs n) :=
  { embFloat fl dot T E bhat with
    deriv := fun d p h =>
      { p with toRKState := computeStepDerivativeFl fl dot E.T od d.toRKState p.toRKState (toReal h) }
    adj := fun d p h =>
      { p with toRKState := computeStepAdjointFl fl E.T od d.toRKState p.toRKState (toReal h) }
    writeOut := fun d v => rkWriteOutFl fl d.toRKState v
    writeIn := fun d i => rkWriteInFl fl d.toRKState i }

/-! ### What a derivative step leaves behind -/

/-- The input of the derivative of stage `i`. -/
noncomputable def stageInDFl (dot : List (ℝ × ℝ) → ℝ) (T : Coeffs ℝ s) (t : ℝ)
    (y : Fin n → ℝ) (p : Fin m → ℝ) (k : Fin s → Fin n → ℝ) (i : Fin s) : OdeInput ℝ n m where
  stepInput := y
  stageInput := accumulateStagesFl dot T i k
  independentInput := p
  time := t

/-- The part of the result of a derivative step that later steps use. -/
structure FlDerivResult (fl : ℝ → ℝ) (dot : List (ℝ × ℝ) → ℝ) (T : Coeffs ℝ s)
    (od : ODE ℝ n m o l) (h : ℝ) (lin : Fin s → Fin l → ℝ) (t : ℝ) (y : Fin n → ℝ) (p : Fin m → ℝ)
    (r : RKState ℝ s n m o l) : Prop where
  indep : r.independentInputs = p
  update : ∀ i, r.stageUpdates i = (od.computeUpdateDerivative (lin i)
    (stageInDFl dot T t y p r.stageUpdates i) h (T.A i i)).stageUpdate
  finalTime : r.finalTime = t
  finalState : r.finalState = accumulateStepFl fl dot T.b y r.stageUpdates h

theorem stageInDFl_congr {dot : List (ℝ × ℝ) → ℝ} (T : Coeffs ℝ s) (t : ℝ) (y : Fin n → ℝ)
    (p : Fin m → ℝ) (k k' : Fin s → Fin n → ℝ) (i : Fin s) (hk : ∀ j, j < i → k j = k' j) :
    stageInDFl dot T t y p k i = stageInDFl dot T t y p k' i := by
  unfold stageInDFl accumulateStagesFl
  congr 1
  split_ifs
  · rfl
  · funext x
    congr 1
    refine List.map_congr_left fun j hj => ?_
    rw [hk j (by simpa using (List.mem_filter.mp hj).2)]

theorem computeStepDerivativeFl_result (fl : ℝ → ℝ) (dot : List (ℝ × ℝ) → ℝ) (T : Coeffs ℝ s)
    (od : ODE ℝ n m o l) (st pert : RKState ℝ s n m o l) (h : ℝ) :
    FlDerivResult fl dot T od h st.linearizationPoints pert.finalTime pert.finalState
      pert.independentInputs (computeStepDerivativeFl fl dot T od st pert h) := by
  have key := Loop.foldl_finRange (computeStageDerivativeFl dot T od h st.linearizationPoints)
    (fun q r => r.startTime = pert.finalTime ∧ r.startState = pert.finalState ∧
      r.independentInputs = pert.independentInputs ∧ ∀ i : Fin s, i.val < q → r.stageUpdates i
        = (od.computeUpdateDerivative (st.linearizationPoints i)
            (stageInDFl dot T pert.finalTime pert.finalState pert.independentInputs
            r.stageUpdates i) h (T.A i i)).stageUpdate)
    (shiftState pert) ⟨rfl, rfl, rfl, by simp⟩
    (fun i r hr => ?_)
  · obtain ⟨h1, h2, h3, h4⟩ := key
    unfold computeStepDerivativeFl
    refine ⟨h3, fun i => h4 i i.2, ?_, ?_⟩
    · simp only [h1]
    · simp only [h2]
  · obtain ⟨h1, h2, h3, h4⟩ := hr
    refine ⟨h1, h2, h3, fun j hj => ?_⟩
    have hown : OdeInput.mk r.startState (accumulateStagesFl dot T i r.stageUpdates)
        r.independentInputs r.startTime
        = stageInDFl dot T pert.finalTime pert.finalState pert.independentInputs r.stageUpdates
          i := by
      simp [stageInDFl, h1, h2, h3]
    have hin : ∀ (v : Fin n → ℝ) (j : Fin s), j.val ≤ i.val →
        stageInDFl dot T pert.finalTime pert.finalState pert.independentInputs
          (Function.update r.stageUpdates i v) j
        = stageInDFl dot T pert.finalTime pert.finalState pert.independentInputs
          r.stageUpdates j := by
      intro v j hj
      refine stageInDFl_congr T _ _ _ _ _ j fun q hq => ?_
      have : q ≠ i := by
        rintro rfl
        exact absurd hq (by rw [Fin.lt_def]; omega)
      simp [Function.update_of_ne this]
    unfold computeStageDerivativeFl
    simp only [hown]
    by_cases e : j = i
    · subst e
      rw [Function.update_self, hin _ j le_rfl]
    · have hj' : j.val < i.val := by
        have : j.val ≠ i.val := fun hh => e (Fin.ext hh)
        omega
      rw [Function.update_of_ne e, hin _ j (by omega)]
      exact h4 j hj'

end Verif.Fl
