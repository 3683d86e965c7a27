/-
The Runge-Kutta discretizations as backends of the integrator model.

Source: /repo/src/rkopenmdao/runge_kutta_integrator.py L438-515, L639-712, L779-845
        (translation between component vectors and states)
-/
import Verif.Integrator.Lawful
import Verif.Props.Step

namespace Verif.Integrator

open Verif.RK Verif.RK.Spec Verif.Control Verif.XReal
open Classical

variable {s n m o l : ℕ}

/-- The outputs `*_final`, `time_final` of the component, runge_kutta_integrator.py L446-451. The
inputs `*_initial`, independent inputs and `time_initial` are `StartingValues`. Simplification:
the quantities are one vector (their index ranges are the subject of C44 and C51). -/
structure Outputs (n : ℕ) where
  time : ℝ
  values : Fin n → ℝ

/-- The part of a Runge-Kutta state a step depends on. -/
def rkObs (r : RKState ℝ s n m o l) : StartingValues ℝ n m :=
  ⟨r.finalTime, r.finalState, r.independentInputs⟩

/-- Writing inputs into a state, runge_kutta_integrator.py L458-464. -/
def rkLoad (r : RKState ℝ s n m o l) (i : StartingValues ℝ n m) : RKState ℝ s n m o l :=
  { r with finalState := i.initialValues, independentInputs := i.independentInputs,
           finalTime := i.initialTime }

/-- The comparison of inputs with the cache, runge_kutta_integrator.py L822-831: values and
independent inputs, not the time. -/
noncomputable def rkCacheHit (r : RKState ℝ s n m o l) (i : StartingValues ℝ n m) : Bool :=
  decide (r.finalState = i.initialValues ∧ r.independentInputs = i.independentInputs)

/-- Seeding of the reverse mode, runge_kutta_integrator.py L837-845. -/
def rkSeed (r : RKState ℝ s n m o l) (v : Outputs n) : RKState ℝ s n m o l :=
  { r with finalState := v.values, independentInputs := 0, finalTime := v.time }

/-- Output of the forward mode, runge_kutta_integrator.py L674-682: the values are assigned, the
time is added. -/
def rkWriteOut (r : RKState ℝ s n m o l) (v : Outputs n) : Outputs n :=
  ⟨v.time + r.finalTime, r.finalState⟩

/-- Output of the reverse mode, runge_kutta_integrator.py L779-789: values and independent inputs
are assigned, the time is added. -/
def rkWriteIn (r : RKState ℝ s n m o l) (i : StartingValues ℝ n m) : StartingValues ℝ n m :=
  ⟨i.initialTime + r.finalTime, r.finalState, r.independentInputs⟩

/-- What the integrator needs to know about problem and scheme besides the model of the step:
the exceptions the stage problem may raise, and what non-finite step sizes lead to (not modelled,
arbitrary). -/
structure Env (s n m o l : ℕ) where
  T : Coeffs ℝ s
  ode : ODE ℝ n m o l
  /-- An exception of the stage problem while doing a step. -/
  fails : StartingValues ℝ n m → ℝ → Option Err
  /-- The outcome of a step with non-finite step size. -/
  nonfinite : StartingValues ℝ n m → XReal → Except Err (EmbRKState ℝ s n m o l)
  /-- `ErrorMeasurer.get_measure` of error estimate and state, error_measurer.py L22-38. -/
  measure : (Fin n → ℝ) → (Fin n → ℝ) → XReal

/-- A finite step size; the derivative steps always get the size of an accepted step. -/
def toReal : XReal → ℝ
  | .fin h => h
  | _ => 0

/-- The non-embedded discretization (`StageOrderedRungeKuttaDiscretization`) as backend. Its
states have no `error_estimate`, so adaptive stepping fails with AttributeError (L643). -/
noncomputable def rkBackend (E : Env s n m o l) :
    Backend (RKState ℝ s n m o l) (StartingValues ℝ n m) (Outputs n) where
  step := fun d h => match h with
    | .fin r => match E.fails (rkObs d) r with
      | some e => .error e
      | none => .ok (computeStep E.T E.ode d r)
    | h => (E.nonfinite (rkObs d) h).map EmbRKState.toRKState
  time := fun d => fin d.finalTime
  measure := fun _ => .error .attribute
  set := RKState.set
  load := rkLoad
  cacheHit := rkCacheHit
  clearLin := fun d => { d with linearizationPoints := 0 }
  read := fun d => ⟨d.finalTime, d.finalState⟩
  deriv := fun d p h => computeStepDerivative E.T E.ode d p (toReal h)
  adj := fun d p h => computeStepAdjoint E.T E.ode d p (toReal h)
  seed := rkSeed
  writeOut := rkWriteOut
  writeIn := rkWriteIn

/-- The embedded discretization (`StageOrderedEmbeddedRungeKuttaDiscretization`) as backend. The
derivative steps are those of the base class (stage_ordered...py L460-555 does not override
them) and leave the embedded arrays of the perturbation alone. -/
noncomputable def embBackend (E : Env s n m o l) (bhat : Fin s → ℝ) :
    Backend (EmbRKState ℝ s n m o l) (StartingValues ℝ n m) (Outputs n) where
  step := fun d h => match h with
    | .fin r => match E.fails (rkObs d.toRKState) r with
      | some e => .error e
      | none => .ok (computeStepEmb E.T bhat E.ode d r)
    | h => E.nonfinite (rkObs d.toRKState) h
  time := fun d => fin d.finalTime
  measure := fun d => .ok (E.measure d.errorEstimate d.finalState)
  set := EmbRKState.set
  load := fun d i => { d with toRKState := rkLoad d.toRKState i }
  cacheHit := fun d i => rkCacheHit d.toRKState i
  clearLin := fun d => { d with linearizationPoints := 0 }
  read := fun d => ⟨d.finalTime, d.finalState⟩
  deriv := fun d p h =>
    { p with toRKState := computeStepDerivative E.T E.ode d.toRKState p.toRKState (toReal h) }
  adj := fun d p h =>
    { p with toRKState := computeStepAdjoint E.T E.ode d.toRKState p.toRKState (toReal h) }
  seed := fun d v => { d with toRKState := rkSeed d.toRKState v }
  writeOut := fun d v => rkWriteOut d.toRKState v
  writeIn := fun d i => rkWriteIn d.toRKState i

/-- A backend whose derivative does not produce stage states (as `OpenMDAOODE`,
openmdao_ode.py L165-178). -/
def NoStageState (ode : ODE ℝ n m o l) : Prop :=
  ∀ lin inp h a, (ode.computeUpdateDerivative lin inp h a).stageState = 0

theorem rkObs_eq {a b : RKState ℝ s n m o l} (h : rkObs a = rkObs b) :
    a.finalTime = b.finalTime ∧ a.finalState = b.finalState ∧
      a.independentInputs = b.independentInputs := by
  simpa [rkObs] using h

theorem deriv_rkObs (T : Coeffs ℝ s) (ode : ODE ℝ n m o l) (a b p q : RKState ℝ s n m o l) (h : ℝ)
    (hl : a.linearizationPoints = b.linearizationPoints) (hp : rkObs p = rkObs q) :
    rkObs (computeStepDerivative T ode a p h) = rkObs (computeStepDerivative T ode b q h) := by
  obtain ⟨h1, h2, h3⟩ := rkObs_eq hp
  obtain ⟨e1, e2, e3, -⟩ := Props.C09_step_derivative T ode a b p q h hl h2 h1 h3
  simp only [rkObs, e1, e2, e3]

/-- The parts of the perturbation an adjoint step reads and writes. -/
structure AdjSame (r q : RKState ℝ s n m o l) : Prop where
  indep : r.independentInputs = q.independentInputs
  times : r.stageTimes = q.stageTimes
  start : r.startState = q.startState
  upd : r.stageUpdates = q.stageUpdates
  time : r.startTime = q.startTime
  states : r.stageStates = q.stageStates
  outs : r.stageIndependentOutputs = q.stageIndependentOutputs

theorem adj_foldl_same (T : Coeffs ℝ s) (ode : ODE ℝ n m o l) (h : ℝ) (lin : Fin s → Fin l → ℝ)
    (is : List (Fin s)) {r q : RKState ℝ s n m o l} (hrq : AdjSame r q) :
    AdjSame (is.foldl (computeStageAdjoint T ode h lin) r)
      (is.foldl (computeStageAdjoint T ode h lin) q) := by
  induction is generalizing r q with
  | nil => exact hrq
  | cons i is ih =>
    refine ih ?_
    obtain ⟨h1, h2, h3, h4, h5, h6, h7⟩ := hrq
    constructor <;> simp only [computeStageAdjoint, h1, h2, h3, h4, h5, h6, h7]

theorem adj_rkObs (T : Coeffs ℝ s) (ode : ODE ℝ n m o l) (a b p q : RKState ℝ s n m o l) (h : ℝ)
    (hl : a.linearizationPoints = b.linearizationPoints) (hp : rkObs p = rkObs q)
    (hs : p.stageStates = q.stageStates) :
    rkObs (computeStepAdjoint T ode a p h) = rkObs (computeStepAdjoint T ode b q h) := by
  obtain ⟨h1, h2, h3⟩ := rkObs_eq hp
  unfold computeStepAdjoint
  rw [hl]
  dsimp only
  have key := adj_foldl_same T ode h b.linearizationPoints (List.finRange s).reverse
    (r := { p with
      stageTimes := 0, stageIndependentOutputs := 0, finalTime := p.finalTime + 0
      startState := p.finalState, stageUpdates := fun i x => h * T.b i * p.finalState x
      startTime := p.finalTime + 0 })
    (q := { q with
      stageTimes := 0, stageIndependentOutputs := 0, finalTime := q.finalTime + 0
      startState := q.finalState, stageUpdates := fun i x => h * T.b i * q.finalState x
      startTime := q.finalTime + 0 })
    ⟨h3, rfl, h2, by simp only [h2], by simp only [h1], hs, rfl⟩
  simp only [rkObs, shiftStateReverse, key.indep, key.start, key.time]

theorem deriv_stageStates (T : Coeffs ℝ s) (ode : ODE ℝ n m o l) (hz : NoStageState ode)
    (a p : RKState ℝ s n m o l) (h : ℝ) :
    (computeStepDerivative T ode a p h).stageStates = 0 := by
  funext i
  rw [(computeStepDerivative_result T ode a p h).state i, hz]
  rfl

/-- The non-embedded backend obeys the laws. -/
noncomputable def rkLawful (E : Env s n m o l) (hz : NoStageState E.ode) : Lawful (rkBackend E) where
  Q := StartingValues ℝ n m
  L := Fin s → Fin l → ℝ
  obs := rkObs
  lin := fun d => d.linearizationPoints
  Clean := fun d => d.stageStates = 0
  step_obs := by
    intro a b h hab
    obtain ⟨h1, h2, h3⟩ := rkObs_eq hab
    cases h <;> simp only [rkBackend, hab]
    rename_i r
    rw [Props.C09_step_depends_only_on_published E.T E.ode a b r h2 h1 h3]
  time_obs := by
    intro a b hab
    simp only [rkBackend, (rkObs_eq hab).1]
  read_obs := by
    intro a b hab
    obtain ⟨h1, h2, h3⟩ := rkObs_eq hab
    simp only [rkBackend, h1, h2]
  writeOut_obs := by
    intro a b v hab
    obtain ⟨h1, h2, h3⟩ := rkObs_eq hab
    simp only [rkBackend, rkWriteOut, h1, h2]
  writeIn_obs := by
    intro a b v hab
    obtain ⟨h1, h2, h3⟩ := rkObs_eq hab
    simp only [rkBackend, rkWriteIn, h1, h2, h3]
  set_obs := fun a b => rfl
  set_lin := fun a b => rfl
  load_obs := fun a b i => rfl
  load_clean := fun a i h => h
  clear_obs := fun a => rfl
  seed_obs := fun a b v => rfl
  seed_clean := fun a v h => h
  deriv_obs := fun a b p q h hl hp => deriv_rkObs E.T E.ode a b p q _ hl hp
  deriv_clean := fun a p h _ => deriv_stageStates E.T E.ode hz a p _
  adj_obs := fun a b p q h hl hp cp cq =>
    adj_rkObs E.T E.ode a b p q _ hl hp (by rw [cp, cq])
  adj_clean := fun a p h cp => by
    change (computeStepAdjoint E.T E.ode a p _).stageStates = 0
    rw [Props.C13_stage_states_stay_zero, cp]

/-- The embedded backend obeys the laws. -/
noncomputable def embLawful (E : Env s n m o l) (bhat : Fin s → ℝ) (hz : NoStageState E.ode) :
    Lawful (embBackend E bhat) where
  Q := StartingValues ℝ n m
  L := Fin s → Fin l → ℝ
  obs := fun d => rkObs d.toRKState
  lin := fun d => d.linearizationPoints
  Clean := fun d => d.stageStates = 0
  step_obs := by
    intro a b h hab
    obtain ⟨h1, h2, h3⟩ := rkObs_eq hab
    cases h <;> simp only [embBackend, hab]
    rename_i r
    rw [Props.C09_embedded_step E.T bhat E.ode a b r h2 h1 h3]
  time_obs := by
    intro a b hab
    simp only [embBackend, (rkObs_eq hab).1]
  read_obs := by
    intro a b hab
    obtain ⟨h1, h2, h3⟩ := rkObs_eq hab
    simp only [embBackend, h1, h2]
  writeOut_obs := by
    intro a b v hab
    obtain ⟨h1, h2, h3⟩ := rkObs_eq hab
    simp only [embBackend, rkWriteOut, h1, h2]
  writeIn_obs := by
    intro a b v hab
    obtain ⟨h1, h2, h3⟩ := rkObs_eq hab
    simp only [embBackend, rkWriteIn, h1, h2, h3]
  set_obs := fun a b => rfl
  set_lin := fun a b => rfl
  load_obs := fun a b i => rfl
  load_clean := fun a i h => h
  clear_obs := fun a => rfl
  seed_obs := fun a b v => rfl
  seed_clean := fun a v h => h
  deriv_obs := fun a b p q h hl hp => deriv_rkObs E.T E.ode _ _ _ _ _ hl hp
  deriv_clean := fun a p h _ => deriv_stageStates E.T E.ode hz _ _ _
  adj_obs := fun a b p q h hl hp cp cq =>
    adj_rkObs E.T E.ode _ _ _ _ _ hl hp (by rw [cp, cq])
  adj_clean := fun a p h cp => by
    change (computeStepAdjoint E.T E.ode a.toRKState p.toRKState _).stageStates = 0
    rw [Props.C13_stage_states_stay_zero, cp]

end Verif.Integrator
