import Verif.Props.Step

/-!
# C58: every field of a started state, and a whole run of one step

`time_discretization_starting_scheme` and its derivative, and the adjoint of the finalisation,
fill a state made by `create_empty_discretization_state`.  Here every field of these states is
named, so that nothing else is written and nothing is left out; then starting, one step and
finalisation are put together.
-/

namespace Verif.Props

open RK RK.Spec

variable {K : Type} [CommRing K] {s n m o l : ℕ}

/-- C58: the started state holds the initial time and values as its final time and values, the
independent inputs and the step size; every other array is zero. -/
theorem C58_started (v : StartingValues K n m) (h : K) (st : RKState K s n m o l) :
    st = startingScheme v h ↔
      (st.finalTime = v.initialTime ∧ st.finalState = v.initialValues
        ∧ st.independentInputs = v.independentInputs ∧ st.stepSize = h)
      ∧ (st.startTime = 0 ∧ st.startState = 0 ∧ st.stageStates = 0 ∧ st.stageUpdates = 0
        ∧ st.stageTimes = 0 ∧ st.stageIndependentOutputs = 0 ∧ st.finalIndependentOutputs = 0
        ∧ st.linearizationPoints = 0) := by
  constructor
  · rintro rfl
    exact ⟨⟨rfl, rfl, rfl, rfl⟩, rfl, rfl, rfl, rfl, rfl, rfl, rfl, rfl⟩
  · rintro ⟨⟨h1, h2, h3, h4⟩, h5, h6, h7, h8, h9, h10, h11, h12⟩
    ext1 <;> assumption

/-- C58: the derivative of starting holds the perturbed time, values and independent inputs; every
other array, the step size included, is zero. -/
theorem C58_started_derivative (dv : StartingValues K n m) (st : RKState K s n m o l) :
    st = startingSchemeDerivative dv ↔
      (st.finalTime = dv.initialTime ∧ st.finalState = dv.initialValues
        ∧ st.independentInputs = dv.independentInputs)
      ∧ (st.stepSize = 0 ∧ st.startTime = 0 ∧ st.startState = 0 ∧ st.stageStates = 0
        ∧ st.stageUpdates = 0 ∧ st.stageTimes = 0 ∧ st.stageIndependentOutputs = 0
        ∧ st.finalIndependentOutputs = 0 ∧ st.linearizationPoints = 0) := by
  constructor
  · rintro rfl
    exact ⟨⟨rfl, rfl, rfl⟩, rfl, rfl, rfl, rfl, rfl, rfl, rfl, rfl, rfl⟩
  · rintro ⟨⟨h1, h2, h3⟩, h5, h6, h7, h8, h9, h10, h11, h12, h13⟩
    ext1 <;> assumption

/-- C58: the adjoint of finalisation holds the seeds of the time, the values and the independent
outputs; every other array is zero.  In particular the stage arrays of the seed are zero, which the
adjoint of a step needs. -/
theorem C58_finalised_adjoint (v : FinalizationValues K n o) (st : RKState K s n m o l) :
    st = finalizationSchemeAdjoint v ↔
      (st.finalTime = v.finalTime ∧ st.finalState = v.finalValues
        ∧ st.finalIndependentOutputs = v.finalIndependentOutputs)
      ∧ (st.stepSize = 0 ∧ st.startTime = 0 ∧ st.startState = 0 ∧ st.stageStates = 0
        ∧ st.stageUpdates = 0 ∧ st.stageTimes = 0 ∧ st.stageIndependentOutputs = 0
        ∧ st.independentInputs = 0 ∧ st.linearizationPoints = 0) := by
  constructor
  · rintro rfl
    exact ⟨⟨rfl, rfl, rfl⟩, rfl, rfl, rfl, rfl, rfl, rfl, rfl, rfl, rfl⟩
  · rintro ⟨⟨h1, h2, h3⟩, h5, h6, h7, h8, h9, h10, h11, h12, h13⟩
    ext1 <;> assumption

/-- C58: starting, one step and finalisation together.  The adjoint of the composition, made of the
three adjoints in reverse order, is the transpose of its derivative; `st` is the state that the
step left, with the linearisation points it stored. -/
theorem C58_composition_transpose (T : Coeffs K s) (ode : ODE K n m o l)
    (st : RKState K s n m o l) (h : K)
    (hadj : ∀ i, AdjointPair ode (st.linearizationPoints i) h (T.A i i))
    (dv : StartingValues K n m) (v : FinalizationValues K n o) :
    let back : StartingValues K n m :=
      startingSchemeAdjoint (computeStepAdjoint T ode st (finalizationSchemeAdjoint v) h)
    let out : FinalizationValues K n o :=
      finalizationSchemeDerivative (computeStepDerivative T ode st (startingSchemeDerivative dv) h)
    dot back.initialValues dv.initialValues + back.initialTime * dv.initialTime
      + dot back.independentInputs dv.independentInputs
    = dot v.finalValues out.finalValues + v.finalTime * out.finalTime := by
  have key := step_pairing T ode st (startingSchemeDerivative dv) (finalizationSchemeAdjoint v) h
    hadj
  have hz : ∀ i, (finalizationSchemeAdjoint v : RKState K s n m o l).stageStates i = 0 :=
    fun _ => rfl
  have hi : (finalizationSchemeAdjoint v : RKState K s n m o l).independentInputs = 0 := rfl
  simp only [hz, hi, dot_zero_left, Finset.sum_const_zero, add_zero] at key
  exact key

/-- The explicit update of `y' = -y`, with its transposed derivative calls. -/
def decayOde : ODE ℚ 1 0 0 0 where
  computeUpdate inp _ _ := (⟨-inp.stepInput, 0, 0⟩, 0)
  computeUpdateDerivative _ d _ _ := ⟨-d.stepInput, 0, 0⟩
  computeUpdateAdjoint _ d _ _ := ⟨-d.stageUpdate, 0, 0, 0⟩

/-- The hypothesis of `C58_composition_transpose` holds for it, and one step of explicit Euler with
`h = 1/2` halves the seed on the way back. -/
example : (∀ (lin : Fin 0 → ℚ) (h a : ℚ), AdjointPair decayOde lin h a)
    ∧ (startingSchemeAdjoint (computeStepAdjoint ⟨fun _ _ => 0, fun _ => 1, fun _ => 0⟩ decayOde
        (RKState.empty : RKState ℚ 1 1 0 0 0)
        (finalizationSchemeAdjoint ⟨0, fun _ => 4, fun i => i.elim0⟩) (1/2))).initialValues 0
      = 2 := by
  refine ⟨?_, by decide +kernel⟩
  intro lin h a din dout
  simp [decayOde, Spec.dotOut, Spec.dotIn, Spec.dot]

/-- Concrete started state: the step size is stored, the start time is not yet set. -/
example : (startingScheme (⟨3, ![1, 2], ![4]⟩ : StartingValues ℚ 2 1) (1/2)
    : RKState ℚ 2 2 1 0 0).stepSize = 1/2
  ∧ (startingScheme (⟨3, ![1, 2], ![4]⟩ : StartingValues ℚ 2 1) (1/2)
    : RKState ℚ 2 2 1 0 0).startTime = 0 := ⟨rfl, rfl⟩

end Verif.Props
