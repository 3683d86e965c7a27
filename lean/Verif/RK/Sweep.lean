/-
Helper lemmas: what the stage loops of `compute_step`, `compute_step_derivative` and
`compute_step_adjoint_derivative` leave in the state.
-/
import Verif.RK.Model
import Verif.Basic.Loop
import Mathlib.Tactic.Ring
import Mathlib.Tactic.LinearCombination

namespace Verif.RK

variable {K : Type} {s n m o l : ℕ} [CommRing K]

/-- The accumulated stage input only depends on earlier stages. -/
theorem accumulateStages_congr (T : Coeffs K s) (i : Fin s) (f g : Fin s → Fin n → K)
    (h : ∀ j, j < i → f j = g j) : accumulateStages T i f = accumulateStages T i g := by
  unfold accumulateStages
  split
  · rfl
  · funext x
    refine Finset.sum_congr rfl fun j hj => ?_
    rw [h j (Finset.mem_filter.mp hj).2]

theorem accumulateStages_apply (T : Coeffs K s) (i : Fin s) (f : Fin s → Fin n → K) (x : Fin n) :
    accumulateStages T i f x
      = ∑ j ∈ Finset.univ.filter (fun j : Fin s => j < i), T.A i j * f j x := by
  unfold accumulateStages
  split
  · rename_i h
    have : (Finset.univ.filter (fun j : Fin s => j < i)) = ∅ := by
      ext j
      simp only [Finset.mem_filter, Finset.mem_univ, true_and, Finset.notMem_empty, iff_false,
        Fin.lt_def]
      omega
    simp [this]
  · exact Finset.sum_congr rfl fun j _ => by ring

/-- The input the ODE receives in stage `i` if the stage updates are `k`. -/
def stageIn (T : Coeffs K s) (h t : K) (y : Fin n → K) (p : Fin m → K)
    (k : Fin s → Fin n → K) (i : Fin s) : OdeInput K n m where
  stepInput := y
  stageInput := accumulateStages T i k
  independentInput := p
  time := t + h * T.c i

/-- The input perturbation the ODE receives in stage `i`. -/
def stageInD (T : Coeffs K s) (t : K) (y : Fin n → K) (p : Fin m → K)
    (k : Fin s → Fin n → K) (i : Fin s) : OdeInput K n m where
  stepInput := y
  stageInput := accumulateStages T i k
  independentInput := p
  time := t

/-- Everything `compute_step` leaves in the state. -/
structure StepResult (T : Coeffs K s) (ode : ODE K n m o l) (h t : K) (y : Fin n → K)
    (p : Fin m → K) (r : RKState K s n m o l) : Prop where
  startTime : r.startTime = t
  startState : r.startState = y
  indep : r.independentInputs = p
  stepSize : r.stepSize = h
  stageTimes : ∀ i, r.stageTimes i = t + h * T.c i
  update : ∀ i, r.stageUpdates i
    = (ode.computeUpdate (stageIn T h t y p r.stageUpdates i) h (T.A i i)).1.stageUpdate
  state : ∀ i, r.stageStates i
    = (ode.computeUpdate (stageIn T h t y p r.stageUpdates i) h (T.A i i)).1.stageState
  outp : ∀ i, r.stageIndependentOutputs i
    = (ode.computeUpdate (stageIn T h t y p r.stageUpdates i) h (T.A i i)).1.independentOutput
  lin : ∀ i, r.linearizationPoints i
    = (ode.computeUpdate (stageIn T h t y p r.stageUpdates i) h (T.A i i)).2
  finalTime : r.finalTime = t + h
  finalState : r.finalState = accumulateStep T.b y r.stageUpdates h
  finalOut : r.finalIndependentOutputs = 0

/-- Loop invariant of the stage loop of `compute_step`. -/
structure StageInv (T : Coeffs K s) (ode : ODE K n m o l) (h t : K) (y : Fin n → K)
    (p : Fin m → K) (q : ℕ) (r : RKState K s n m o l) : Prop where
  startTime : r.startTime = t
  startState : r.startState = y
  indep : r.independentInputs = p
  stepSize : r.stepSize = h
  stageTimes : ∀ i : Fin s, i.val < q → r.stageTimes i = t + h * T.c i
  update : ∀ i : Fin s, i.val < q → r.stageUpdates i
    = (ode.computeUpdate (stageIn T h t y p r.stageUpdates i) h (T.A i i)).1.stageUpdate
  state : ∀ i : Fin s, i.val < q → r.stageStates i
    = (ode.computeUpdate (stageIn T h t y p r.stageUpdates i) h (T.A i i)).1.stageState
  outp : ∀ i : Fin s, i.val < q → r.stageIndependentOutputs i
    = (ode.computeUpdate (stageIn T h t y p r.stageUpdates i) h (T.A i i)).1.independentOutput
  lin : ∀ i : Fin s, i.val < q → r.linearizationPoints i
    = (ode.computeUpdate (stageIn T h t y p r.stageUpdates i) h (T.A i i)).2

theorem stageIn_congr (T : Coeffs K s) (h t : K) (y : Fin n → K) (p : Fin m → K)
    (k k' : Fin s → Fin n → K) (i : Fin s) (hk : ∀ j, j < i → k j = k' j) :
    stageIn T h t y p k i = stageIn T h t y p k' i := by
  unfold stageIn
  rw [accumulateStages_congr T i k k' hk]

theorem stageInD_congr (T : Coeffs K s) (t : K) (y : Fin n → K) (p : Fin m → K)
    (k k' : Fin s → Fin n → K) (i : Fin s) (hk : ∀ j, j < i → k j = k' j) :
    stageInD T t y p k i = stageInD T t y p k' i := by
  unfold stageInD
  rw [accumulateStages_congr T i k k' hk]

theorem StageInv.step {T : Coeffs K s} {ode : ODE K n m o l} {h t : K} {y : Fin n → K}
    {p : Fin m → K} (i : Fin s) (r : RKState K s n m o l)
    (inv : StageInv T ode h t y p i.val r) :
    StageInv T ode h t y p (i.val + 1) (computeStage T ode h r i) := by
  obtain ⟨h1, h2, h3, h4, h5, h6, h7, h8, h9⟩ := inv
  -- the stage inputs of stages up to `i` are not changed by writing stage `i`
  have hin : ∀ (v : Fin n → K) (j : Fin s), j.val ≤ i.val →
      stageIn T h t y p (Function.update r.stageUpdates i v) j
        = stageIn T h t y p r.stageUpdates j := by
    intro v j hj
    refine stageIn_congr T h t y p _ _ j fun q hq => ?_
    have : q ≠ i := by
      intro e
      subst e
      exact absurd hq (by rw [Fin.lt_def]; omega)
    simp [Function.update_of_ne this]
  have hown : OdeInput.mk r.startState (accumulateStages T i r.stageUpdates)
      r.independentInputs (r.startTime + h * T.c i)
      = stageIn T h t y p r.stageUpdates i := by
    simp [stageIn, h1, h2, h3]
  unfold computeStage
  simp only [hown]
  refine ⟨h1, h2, h3, h4, ?_, ?_, ?_, ?_, ?_⟩
  all_goals
    intro j hj
    by_cases e : j = i
    · subst e
      first
      | (simp only [Function.update_self]; rw [h1])
      | (simp only [Function.update_self]; rw [hin _ j le_rfl])
    · have hj' : j.val < i.val := by
        have : j.val ≠ i.val := fun hh => e (Fin.ext hh)
        omega
      simp only [Function.update_of_ne e]
      first
      | exact h5 j hj'
      | (rw [hin _ j (le_of_lt hj')]
         first
         | exact h6 j hj'
         | exact h7 j hj'
         | exact h8 j hj'
         | exact h9 j hj')

/-- `compute_step` leaves exactly the data described by `StepResult`. -/
theorem computeStep_result (T : Coeffs K s) (ode : ODE K n m o l) (st : RKState K s n m o l)
    (h : K) :
    StepResult T ode h st.finalTime st.finalState st.independentInputs
      (computeStep T ode st h) := by
  have key := Loop.foldl_finRange (computeStage T ode h)
    (StageInv T ode h st.finalTime st.finalState st.independentInputs)
    { shiftState st with stepSize := h }
    ⟨rfl, rfl, rfl, rfl, by simp, by simp, by simp, by simp, by simp⟩
    (fun i y hy => StageInv.step i y hy)
  obtain ⟨h1, h2, h3, h4, h5, h6, h7, h8, h9⟩ := key
  unfold computeStep
  refine ⟨h1, h2, h3, h4, fun i => h5 i i.2, fun i => h6 i i.2, fun i => h7 i i.2,
    fun i => h8 i i.2, fun i => h9 i i.2, ?_, ?_, rfl⟩
  · simp only [h1]
  · simp only [h2]

/-- A stage sweep determines its stage updates. -/
theorem sweep_unique (G : Fin s → (Fin s → Fin n → K) → Fin n → K)
    (hG : ∀ i k k', (∀ j, j < i → k j = k' j) → G i k = G i k')
    (k k' : Fin s → Fin n → K) (hk : ∀ i, k i = G i k) (hk' : ∀ i, k' i = G i k') : k = k' := by
  have : ∀ q : ℕ, ∀ i : Fin s, i.val < q → k i = k' i := by
    intro q
    induction q with
    | zero => intro i hi; omega
    | succ q ih =>
      intro i _
      rw [hk i, hk' i]
      refine hG i _ _ fun j hj => ih j ?_
      rw [Fin.lt_def] at hj
      omega
  funext i
  exact this (i.val + 1) i (Nat.lt_succ_self _)

theorem StepResult.updates_unique {T : Coeffs K s} {ode : ODE K n m o l} {h t : K}
    {y : Fin n → K} {p : Fin m → K} {r r' : RKState K s n m o l}
    (hr : StepResult T ode h t y p r) (hr' : StepResult T ode h t y p r') :
    r.stageUpdates = r'.stageUpdates :=
  sweep_unique
    (fun i k => (ode.computeUpdate (stageIn T h t y p k i) h (T.A i i)).1.stageUpdate)
    (fun i k k' hkk => by simp only [stageIn_congr T h t y p k k' i hkk])
    _ _ hr.update hr'.update

/-- The result of a step is determined by time, state, independent inputs and step size. -/
theorem StepResult.unique {T : Coeffs K s} {ode : ODE K n m o l} {h t : K}
    {y : Fin n → K} {p : Fin m → K} {r r' : RKState K s n m o l}
    (hr : StepResult T ode h t y p r) (hr' : StepResult T ode h t y p r') : r = r' := by
  have hu := hr.updates_unique hr'
  refine RKState.ext ?_ ?_ hu ?_ ?_ ?_ ?_ ?_ ?_ ?_ ?_ ?_
  · rw [hr.startState, hr'.startState]
  · funext i; rw [hr.state, hr'.state, hu]
  · rw [hr.finalState, hr'.finalState, hu]
  · rw [hr.indep, hr'.indep]
  · funext i; rw [hr.outp, hr'.outp, hu]
  · rw [hr.finalOut, hr'.finalOut]
  · rw [hr.startTime, hr'.startTime]
  · funext i; rw [hr.stageTimes, hr'.stageTimes]
  · rw [hr.finalTime, hr'.finalTime]
  · rw [hr.stepSize, hr'.stepSize]
  · funext i; rw [hr.lin, hr'.lin, hu]

/-- Everything `compute_step_derivative` leaves in the perturbation state. -/
structure StepDerivResult (T : Coeffs K s) (ode : ODE K n m o l) (h : K)
    (lin : Fin s → Fin l → K) (t : K) (y : Fin n → K) (p : Fin m → K)
    (r : RKState K s n m o l) : Prop where
  startTime : r.startTime = t
  startState : r.startState = y
  indep : r.independentInputs = p
  stageTimes : ∀ i, r.stageTimes i = t
  update : ∀ i, r.stageUpdates i
    = (ode.computeUpdateDerivative (lin i) (stageInD T t y p r.stageUpdates i) h
        (T.A i i)).stageUpdate
  state : ∀ i, r.stageStates i
    = (ode.computeUpdateDerivative (lin i) (stageInD T t y p r.stageUpdates i) h
        (T.A i i)).stageState
  outp : ∀ i, r.stageIndependentOutputs i
    = (ode.computeUpdateDerivative (lin i) (stageInD T t y p r.stageUpdates i) h
        (T.A i i)).independentOutput
  finalTime : r.finalTime = t
  finalState : r.finalState = accumulateStep T.b y r.stageUpdates h
  finalOut : r.finalIndependentOutputs = 0

/-- Loop invariant of the stage loop of `compute_step_derivative`. -/
structure StageDerivInv (T : Coeffs K s) (ode : ODE K n m o l) (h : K)
    (lin : Fin s → Fin l → K) (t : K) (y : Fin n → K) (p : Fin m → K) (q : ℕ)
    (r : RKState K s n m o l) : Prop where
  startTime : r.startTime = t
  startState : r.startState = y
  indep : r.independentInputs = p
  stageTimes : ∀ i : Fin s, i.val < q → r.stageTimes i = t
  update : ∀ i : Fin s, i.val < q → r.stageUpdates i
    = (ode.computeUpdateDerivative (lin i) (stageInD T t y p r.stageUpdates i) h
        (T.A i i)).stageUpdate
  state : ∀ i : Fin s, i.val < q → r.stageStates i
    = (ode.computeUpdateDerivative (lin i) (stageInD T t y p r.stageUpdates i) h
        (T.A i i)).stageState
  outp : ∀ i : Fin s, i.val < q → r.stageIndependentOutputs i
    = (ode.computeUpdateDerivative (lin i) (stageInD T t y p r.stageUpdates i) h
        (T.A i i)).independentOutput

theorem StageDerivInv.step {T : Coeffs K s} {ode : ODE K n m o l} {h : K}
    {lin : Fin s → Fin l → K} {t : K} {y : Fin n → K}
    {p : Fin m → K} (i : Fin s) (r : RKState K s n m o l)
    (inv : StageDerivInv T ode h lin t y p i.val r) :
    StageDerivInv T ode h lin t y p (i.val + 1) (computeStageDerivative T ode h lin r i) := by
  obtain ⟨h1, h2, h3, h5, h6, h7, h8⟩ := inv
  have hin : ∀ (v : Fin n → K) (j : Fin s), j.val ≤ i.val →
      stageInD T t y p (Function.update r.stageUpdates i v) j
        = stageInD T t y p r.stageUpdates j := by
    intro v j hj
    refine stageInD_congr T t y p _ _ j fun q hq => ?_
    have : q ≠ i := by
      intro e
      subst e
      exact absurd hq (by rw [Fin.lt_def]; omega)
    simp [Function.update_of_ne this]
  have hown : OdeInput.mk r.startState (accumulateStages T i r.stageUpdates)
      r.independentInputs r.startTime
      = stageInD T t y p r.stageUpdates i := by
    simp [stageInD, h1, h2, h3]
  unfold computeStageDerivative
  simp only [hown]
  refine ⟨h1, h2, h3, ?_, ?_, ?_, ?_⟩
  all_goals
    intro j hj
    by_cases e : j = i
    · subst e
      first
      | (simp only [Function.update_self]; exact h1)
      | (simp only [Function.update_self]; rw [hin _ j le_rfl])
    · have hj' : j.val < i.val := by
        have : j.val ≠ i.val := fun hh => e (Fin.ext hh)
        omega
      simp only [Function.update_of_ne e]
      first
      | exact h5 j hj'
      | (rw [hin _ j (le_of_lt hj')]
         first
         | exact h6 j hj'
         | exact h7 j hj'
         | exact h8 j hj')

/-- `compute_step_derivative` leaves exactly the data described by `StepDerivResult`. -/
theorem computeStepDerivative_result (T : Coeffs K s) (ode : ODE K n m o l)
    (st pert : RKState K s n m o l) (h : K) :
    StepDerivResult T ode h st.linearizationPoints pert.finalTime pert.finalState
      pert.independentInputs (computeStepDerivative T ode st pert h) := by
  have key := Loop.foldl_finRange (computeStageDerivative T ode h st.linearizationPoints)
    (StageDerivInv T ode h st.linearizationPoints pert.finalTime pert.finalState
      pert.independentInputs)
    (shiftState pert)
    ⟨rfl, rfl, rfl, by simp, by simp, by simp, by simp⟩
    (fun i y hy => StageDerivInv.step i y hy)
  obtain ⟨h1, h2, h3, h5, h6, h7, h8⟩ := key
  unfold computeStepDerivative
  refine ⟨h1, h2, h3, fun i => h5 i i.2, fun i => h6 i i.2, fun i => h7 i i.2,
    fun i => h8 i i.2, ?_, ?_, rfl⟩
  · simp only [h1]
  · simp only [h2]

theorem StepDerivResult.updates_unique {T : Coeffs K s} {ode : ODE K n m o l} {h : K}
    {lin : Fin s → Fin l → K} {t : K} {y : Fin n → K} {p : Fin m → K}
    {r r' : RKState K s n m o l}
    (hr : StepDerivResult T ode h lin t y p r) (hr' : StepDerivResult T ode h lin t y p r') :
    r.stageUpdates = r'.stageUpdates :=
  sweep_unique
    (fun i k => (ode.computeUpdateDerivative (lin i) (stageInD T t y p k i) h
      (T.A i i)).stageUpdate)
    (fun i k k' hkk => by simp only [stageInD_congr T t y p k k' i hkk])
    _ _ hr.update hr'.update

end Verif.RK
