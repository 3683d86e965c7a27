/-
Properties of one step: C06, C08, C09, C10 (single step), C12 (single step), C13, C58.
Specification: `Verif.RK.Spec`. Model: `Verif.RK.Model`.
-/
import Verif.RK.StepLemmas
import Verif.RK.Examples
import Mathlib.Algebra.Module.Prod

namespace Verif.Props

open RK RK.Spec

variable {K : Type} {s n m o l : ℕ} [CommRing K]

/-! ### C06 -/

/-- C06: for an explicit or diagonally implicit tableau (no entry above the diagonal) and a
backend that solves its stage equation, one step is the Runge-Kutta formula. -/
theorem C06_step_is_rk_formula (T : Coeffs K s) (ode : ODE K n m o l) (f : Rhs K n m)
    (st : RKState K s n m o l) (h : K) (hT : LowerTriangular T.A)
    (hs : ∀ i, SolvesStage ode f h (T.A i i)) :
    IsRKStep T.A T.b T.c f h st.finalTime st.finalState st.independentInputs
      (computeStep T ode st h).finalState := by
  have hr := computeStep_result T ode st h
  refine ⟨(computeStep T ode st h).stageUpdates, stages_solve T ode f h _ _ _ _ hT hs hr, ?_⟩
  intro x
  rw [hr.finalState, accumulateStep_apply]

/-- C06: the stage values published in the state are the solution of the stage system. -/
theorem C06_stage_values (T : Coeffs K s) (ode : ODE K n m o l) (f : Rhs K n m)
    (st : RKState K s n m o l) (h : K) (hT : LowerTriangular T.A)
    (hs : ∀ i, SolvesStage ode f h (T.A i i)) :
    IsStageSystem T.A T.c f h st.finalTime st.finalState st.independentInputs
      (computeStep T ode st h).stageUpdates :=
  stages_solve T ode f h _ _ _ _ hT hs (computeStep_result T ode st h)

/-- C06: if stage equations have at most one solution, the step result is the *only* value
the Runge-Kutta formula allows. -/
theorem C06_step_iff_rk_formula (T : Coeffs K s) (ode : ODE K n m o l) (f : Rhs K n m)
    (st : RKState K s n m o l) (h : K) (y' : Fin n → K) (hT : LowerTriangular T.A)
    (hs : ∀ i, SolvesStage ode f h (T.A i i)) (hu : ∀ i, UniqueStage f h (T.A i i)) :
    IsRKStep T.A T.b T.c f h st.finalTime st.finalState st.independentInputs y'
      ↔ (computeStep T ode st h).finalState = y' := by
  constructor
  · rintro ⟨k, hk, hy⟩
    have hr := computeStep_result T ode st h
    have hk' := stages_solve T ode f h _ _ _ _ hT hs hr
    have e := stageSystem_unique T.A T.c f h _ _ _ hT hu _ _ hk' hk
    funext x
    rw [hr.finalState, accumulateStep_apply, hy x, e]
  · rintro rfl
    exact C06_step_is_rk_formula T ode f st h hT hs

/-- C06, explicit tableaux: no solvability assumption is needed, the backend is only ever asked
for `f(t, y + h * acc)`. -/
theorem C06_explicit_step (T : Coeffs K s) (ode : ODE K n m o l) (f : Rhs K n m)
    (st : RKState K s n m o l) (h : K) (y' : Fin n → K) (hT : StrictlyLower T.A)
    (hs : ∀ inp : OdeInput K n m, (ode.computeUpdate inp h 0).1.stageUpdate
      = f inp.time (fun x => inp.stepInput x + h * inp.stageInput x) inp.independentInput) :
    IsRKStep T.A T.b T.c f h st.finalTime st.finalState st.independentInputs y'
      ↔ (computeStep T ode st h).finalState = y' := by
  refine C06_step_iff_rk_formula T ode f st h y' (fun i j hij => hT i j (le_of_lt hij)) ?_ ?_
  · intro i inp
    rw [hT i i le_rfl]
    simpa using hs inp
  · intro i t y p k k' hk hk'
    rw [hT i i le_rfl] at hk hk'
    simp only [mul_zero, zero_mul, add_zero] at hk hk'
    rw [hk, hk']

/-- C06, causality: stage `i` only depends on the rows `0..i` of the tableau, i.e. no result of
a later stage is used. -/
theorem C06_stages_causal (T T' : Coeffs K s) (ode : ODE K n m o l) (st : RKState K s n m o l)
    (h : K) (i : Fin s)
    (hA : ∀ j, j ≤ i → ∀ q, q ≤ j → T.A j q = T'.A j q) (hc : ∀ j, j ≤ i → T.c j = T'.c j) :
    (computeStep T ode st h).stageUpdates i = (computeStep T' ode st h).stageUpdates i := by
  have h1 := (computeStep_result T ode st h).update
  have h2 := (computeStep_result T' ode st h).update
  generalize (computeStep T ode st h).stageUpdates = k at h1 ⊢
  generalize (computeStep T' ode st h).stageUpdates = k' at h2 ⊢
  have : ∀ q : ℕ, ∀ j : Fin s, j.val < q → j ≤ i → k j = k' j := by
    intro q
    induction q with
    | zero => intro j hj; omega
    | succ q ih =>
      intro j _ hji
      have hacc : accumulateStages T j k = accumulateStages T' j k' := by
        funext x
        rw [accumulateStages_apply, accumulateStages_apply]
        refine Finset.sum_congr rfl fun r hr => ?_
        have hrj : r < j := (Finset.mem_filter.mp hr).2
        rw [hA j hji r (le_of_lt hrj),
          ih r (by rw [Fin.lt_def] at hrj; omega) (le_trans (le_of_lt hrj) hji)]
      have hin : stageIn T h st.finalTime st.finalState st.independentInputs k j
          = stageIn T' h st.finalTime st.finalState st.independentInputs k' j := by
        unfold stageIn
        rw [hacc, hc j hji]
      rw [h1 j, h2 j, hin, hA j hji j le_rfl]
  exact this (i.val + 1) i (Nat.lt_succ_self _) le_rfl

section Example_C06

/-- The trapezoidal rule on `y' = -y + p + t` meets all hypotheses (step size `1/10`). -/
example : ∃ y', IsRKStep Ex.trapezoid.A Ex.trapezoid.b Ex.trapezoid.c (Ex.linRhs (K := ℚ)) (1/10)
    3 ![5] ![7] y' := by
  refine ⟨_, C06_step_is_rk_formula Ex.trapezoid Ex.linOde Ex.linRhs
    { (RKState.empty : RKState ℚ 2 1 1 0 0) with
      finalTime := 3, finalState := ![5], independentInputs := ![7] } (1/10)
    Ex.trapezoid_lower (fun i => Ex.linOde_solves _ _ ?_)⟩
  fin_cases i <;> norm_num [Ex.trapezoid]

example : ∀ i, UniqueStage (Ex.linRhs (K := ℚ)) (1/10) (Ex.trapezoid.A i i) := by
  intro i
  refine Ex.linRhs_unique _ _ ?_
  fin_cases i <;> norm_num [Ex.trapezoid]

end Example_C06

/-! ### C08 -/

/-- C08: after an embedded step the error estimate is `h ∑ (b_i - b̂_i) k_i` with the stage
values `k` of the step. -/
theorem C08_error_estimate (T : Coeffs K s) (bhat : Fin s → K) (ode : ODE K n m o l)
    (st : EmbRKState K s n m o l) (h : K) (x : Fin n) :
    (computeStepEmb T bhat ode st h).errorEstimate x
      = h * ∑ i, (T.b i - bhat i) * (computeStepEmb T bhat ode st h).stageUpdates i x := by
  have hr := computeStep_result T ode st.toRKState h
  unfold computeStepEmb computeErrorEstimate
  simp only [Pi.sub_apply, hr.finalState, hr.startState, accumulateStep_apply, sub_mul,
    Finset.sum_sub_distrib]
  ring

/-- C08: the embedded state is what a step with the embedded weights alone gives. -/
theorem C08_embedded_state (T : Coeffs K s) (bhat : Fin s → K) (ode : ODE K n m o l)
    (st : EmbRKState K s n m o l) (h : K) :
    (computeStepEmb T bhat ode st h).embeddedState
      = (computeStep { T with b := bhat } ode st.toRKState h).finalState := by
  have hr := computeStep_result T ode st.toRKState h
  have hr' := computeStep_result { T with b := bhat } ode st.toRKState h
  have hk : (computeStep T ode st.toRKState h).stageUpdates
      = (computeStep { T with b := bhat } ode st.toRKState h).stageUpdates := by
    refine sweep_unique
      (fun i k => (ode.computeUpdate (stageIn T h st.finalTime st.finalState
        st.independentInputs k i) h (T.A i i)).1.stageUpdate)
      (fun i k k' hkk => by simp only [stageIn_congr T h _ _ _ k k' i hkk]) _ _ hr.update ?_
    exact hr'.update
  unfold computeStepEmb computeErrorEstimate
  simp only [hr.startState, hk, hr'.finalState]

/-- C08: the estimate is the difference of the results of the two methods. -/
theorem C08_estimate_is_difference (T : Coeffs K s) (bhat : Fin s → K) (ode : ODE K n m o l)
    (st : EmbRKState K s n m o l) (h : K) :
    (computeStepEmb T bhat ode st h).errorEstimate
      = (computeStep T ode st.toRKState h).finalState
        - (computeStep { T with b := bhat } ode st.toRKState h).finalState := by
  rw [← C08_embedded_state T bhat ode st h]
  rfl

/-- C08: embedding does not change the main result: every field an ordinary step computes
(state, time, stage data, outputs, linearization points) is the same. -/
theorem C08_main_unchanged (T : Coeffs K s) (bhat : Fin s → K) (ode : ODE K n m o l)
    (st : EmbRKState K s n m o l) (h : K) :
    (computeStepEmb T bhat ode st h).toRKState = computeStep T ode st.toRKState h := rfl

/-- Concrete case: the error estimate is not always zero (trapezoid against forward Euler). -/
example : (computeStepEmb Ex.trapezoid ![1, 0] Ex.linOde
    { (EmbRKState.empty : EmbRKState ℚ 2 1 1 0 0) with finalState := ![1] } (1/2)).errorEstimate 0
      ≠ 0 := by
  decide +kernel

/-! ### C09 -/

/-- C09: two states that agree on final state, final time and independent inputs give the same
result in *every* field of the state, whatever else is in the buffers. -/
theorem C09_step_depends_only_on_published (T : Coeffs K s) (ode : ODE K n m o l)
    (st st' : RKState K s n m o l) (h : K) (h1 : st.finalState = st'.finalState)
    (h2 : st.finalTime = st'.finalTime) (h3 : st.independentInputs = st'.independentInputs) :
    computeStep T ode st h = computeStep T ode st' h := by
  have hr := computeStep_result T ode st h
  have hr' := computeStep_result T ode st' h
  rw [h1, h2, h3] at hr
  exact hr.unique hr'

/-- C09 for embedded steps. -/
theorem C09_embedded_step (T : Coeffs K s) (bhat : Fin s → K) (ode : ODE K n m o l)
    (st st' : EmbRKState K s n m o l) (h : K) (h1 : st.finalState = st'.finalState)
    (h2 : st.finalTime = st'.finalTime) (h3 : st.independentInputs = st'.independentInputs) :
    computeStepEmb T bhat ode st h = computeStepEmb T bhat ode st' h := by
  unfold computeStepEmb computeErrorEstimate
  rw [C09_step_depends_only_on_published T ode st.toRKState st'.toRKState h h1 h2 h3]

/-- C09 for the forward derivative: all values it publishes are determined by the linearization
points and the final part of the perturbation. -/
theorem C09_step_derivative (T : Coeffs K s) (ode : ODE K n m o l)
    (st st' pert pert' : RKState K s n m o l) (h : K)
    (hl : st.linearizationPoints = st'.linearizationPoints)
    (h1 : pert.finalState = pert'.finalState)
    (h2 : pert.finalTime = pert'.finalTime)
    (h3 : pert.independentInputs = pert'.independentInputs) :
    (computeStepDerivative T ode st pert h).finalState
        = (computeStepDerivative T ode st' pert' h).finalState
      ∧ (computeStepDerivative T ode st pert h).finalTime
        = (computeStepDerivative T ode st' pert' h).finalTime
      ∧ (computeStepDerivative T ode st pert h).independentInputs
        = (computeStepDerivative T ode st' pert' h).independentInputs
      ∧ (computeStepDerivative T ode st pert h).stageUpdates
        = (computeStepDerivative T ode st' pert' h).stageUpdates := by
  have hr := computeStepDerivative_result T ode st pert h
  have hr' := computeStepDerivative_result T ode st' pert' h
  rw [h1, h2, h3, hl] at hr
  have hu := hr.updates_unique hr'
  exact ⟨by rw [hr.finalState, hr'.finalState, hu], by rw [hr.finalTime, hr'.finalTime],
    by rw [hr.indep, hr'.indep], hu⟩

/-- Two different states to which C09 applies: the second one has garbage in its buffers. -/
example : ∃ st st' : RKState ℚ 2 1 1 0 0, st ≠ st' ∧
    computeStep Ex.trapezoid Ex.linOde st (1/2) = computeStep Ex.trapezoid Ex.linOde st' (1/2) := by
  refine ⟨{ (RKState.empty : RKState ℚ 2 1 1 0 0) with finalState := ![1] },
    { (RKState.empty : RKState ℚ 2 1 1 0 0) with
      finalState := ![1], stageUpdates := fun _ _ => 17, startState := ![3] }, ?_,
    C09_step_depends_only_on_published _ _ _ _ _ rfl rfl rfl⟩
  intro e
  have := congrFun (congrArg RKState.startState e) 0
  norm_num [RKState.empty] at this

/-! ### C10, one step -/

/-- C10: after a step the time has advanced by exactly the step size, the recorded start time
and step size are those of this step, and the recorded stage times are `t + c_i h`. -/
theorem C10_step_times (T : Coeffs K s) (ode : ODE K n m o l) (st : RKState K s n m o l) (h : K) :
    (computeStep T ode st h).finalTime = st.finalTime + h
      ∧ (computeStep T ode st h).startTime = st.finalTime
      ∧ (computeStep T ode st h).stepSize = h
      ∧ ∀ i, (computeStep T ode st h).stageTimes i = st.finalTime + T.c i * h := by
  have hr := computeStep_result T ode st h
  exact ⟨hr.finalTime, hr.startTime, hr.stepSize, fun i => by rw [hr.stageTimes i, mul_comm h]⟩

/-- C10: the ODE is evaluated at `t + c_i h` in stage `i`: replacing the backend by one that
answers the same at these times (and arbitrarily at all other times) changes nothing. -/
theorem C10_evaluation_times (T : Coeffs K s) (ode ode' : ODE K n m o l)
    (st : RKState K s n m o l) (h : K)
    (he : ∀ (inp : OdeInput K n m) (i : Fin s), inp.time = st.finalTime + T.c i * h →
      ode.computeUpdate inp h (T.A i i) = ode'.computeUpdate inp h (T.A i i)) :
    computeStep T ode st h = computeStep T ode' st h := by
  have hr := computeStep_result T ode st h
  have hr' := computeStep_result T ode' st h
  refine StepResult.unique (ode := ode') ?_ hr'
  have e : ∀ i, ode.computeUpdate (stageIn T h st.finalTime st.finalState st.independentInputs
        (computeStep T ode st h).stageUpdates i) h (T.A i i)
      = ode'.computeUpdate (stageIn T h st.finalTime st.finalState st.independentInputs
        (computeStep T ode st h).stageUpdates i) h (T.A i i) :=
    fun i => he _ i (by simp only [stageIn]; ring)
  exact ⟨hr.startTime, hr.startState, hr.indep, hr.stepSize, hr.stageTimes,
    fun i => by rw [← e i]; exact hr.update i, fun i => by rw [← e i]; exact hr.state i,
    fun i => by rw [← e i]; exact hr.outp i, fun i => by rw [← e i]; exact hr.lin i,
    hr.finalTime, hr.finalState, hr.finalOut⟩

/-- Concrete case for the times: trapezoid, `t = 3`, `h = 1/2`. -/
example : (computeStep Ex.trapezoid Ex.linOde
    { (RKState.empty : RKState ℚ 2 1 1 0 0) with finalTime := 3 } (1/2)).finalTime = 7/2 := by
  rw [(C10_step_times _ _ _ _).1]
  norm_num

/-! ### C12, one step -/

/-- The published part of a perturbation state (final state, final time, independent inputs). -/
def published (r : RKState K s n m o l) : (Fin n → K) × K × (Fin m → K) :=
  (r.finalState, r.finalTime, r.independentInputs)

/-- C12: the step derivative is additive in the seed. -/
theorem C12_step_derivative_add (T : Coeffs K s) (ode : ODE K n m o l)
    (st p q r : RKState K s n m o l) (h : K)
    (hl : ∀ i, LinearDeriv ode (st.linearizationPoints i) h (T.A i i))
    (hsum : published r = published p + published q) :
    published (computeStepDerivative T ode st r h)
      = published (computeStepDerivative T ode st p h)
        + published (computeStepDerivative T ode st q h) := by
  have hp := computeStepDerivative_result T ode st p h
  have hq := computeStepDerivative_result T ode st q h
  have hr := computeStepDerivative_result T ode st r h
  have e1 : r.finalState = p.finalState + q.finalState := congrArg Prod.fst hsum
  have e2 : r.finalTime = p.finalTime + q.finalTime := congrArg (fun z => z.2.1) hsum
  have e3 : r.independentInputs = p.independentInputs + q.independentInputs :=
    congrArg (fun z => z.2.2) hsum
  have hu : (computeStepDerivative T ode st r h).stageUpdates
      = (computeStepDerivative T ode st p h).stageUpdates
        + (computeStepDerivative T ode st q h).stageUpdates := by
    refine sweep_unique
      (fun i k => (ode.computeUpdateDerivative (st.linearizationPoints i)
        (stageInD T r.finalTime r.finalState r.independentInputs k i) h (T.A i i)).stageUpdate)
      (fun i k k' hkk => by simp only [stageInD_congr T _ _ _ k k' i hkk]) _ _ hr.update ?_
    intro i
    have : stageInD T r.finalTime r.finalState r.independentInputs
        ((computeStepDerivative T ode st p h).stageUpdates
          + (computeStepDerivative T ode st q h).stageUpdates) i
        = addIn (stageInD T p.finalTime p.finalState p.independentInputs
            (computeStepDerivative T ode st p h).stageUpdates i)
          (stageInD T q.finalTime q.finalState q.independentInputs
            (computeStepDerivative T ode st q h).stageUpdates i) := by
      simp only [stageInD, addIn, accumulateStages_add, e1, e2, e3]
    simp only [this, (hl i).1, addOut, Pi.add_apply]
    rw [← hp.update i, ← hq.update i]
  unfold published
  rw [hr.finalState, hp.finalState, hq.finalState, hr.finalTime, hp.finalTime, hq.finalTime,
    hr.indep, hp.indep, hq.indep, hu, e1, accumulateStep_add, e2, e3]
  rfl

/-- C12: the step derivative respects multiples of the seed. -/
theorem C12_step_derivative_smul (T : Coeffs K s) (ode : ODE K n m o l)
    (st p r : RKState K s n m o l) (h a : K)
    (hl : ∀ i, LinearDeriv ode (st.linearizationPoints i) h (T.A i i))
    (hsm : published r = a • published p) :
    published (computeStepDerivative T ode st r h)
      = a • published (computeStepDerivative T ode st p h) := by
  have hp := computeStepDerivative_result T ode st p h
  have hr := computeStepDerivative_result T ode st r h
  have e1 : r.finalState = a • p.finalState := congrArg Prod.fst hsm
  have e2 : r.finalTime = a * p.finalTime := congrArg (fun z => z.2.1) hsm
  have e3 : r.independentInputs = a • p.independentInputs := congrArg (fun z => z.2.2) hsm
  have hu : (computeStepDerivative T ode st r h).stageUpdates
      = a • (computeStepDerivative T ode st p h).stageUpdates := by
    refine sweep_unique
      (fun i k => (ode.computeUpdateDerivative (st.linearizationPoints i)
        (stageInD T r.finalTime r.finalState r.independentInputs k i) h (T.A i i)).stageUpdate)
      (fun i k k' hkk => by simp only [stageInD_congr T _ _ _ k k' i hkk]) _ _ hr.update ?_
    intro i
    have : stageInD T r.finalTime r.finalState r.independentInputs
        (a • (computeStepDerivative T ode st p h).stageUpdates) i
        = smulIn a (stageInD T p.finalTime p.finalState p.independentInputs
            (computeStepDerivative T ode st p h).stageUpdates i) := by
      simp only [stageInD, smulIn, accumulateStages_smul, e1, e2, e3]
    simp only [this, (hl i).2, smulOut, Pi.smul_apply]
    rw [← hp.update i]
  unfold published
  rw [hr.finalState, hp.finalState, hr.finalTime, hp.finalTime,
    hr.indep, hp.indep, hu, e1, accumulateStep_smul, e2, e3]
  rfl

/-- C12: a zero seed gives zero, whatever is left in the other buffers. -/
theorem C12_step_derivative_zero (T : Coeffs K s) (ode : ODE K n m o l)
    (st r : RKState K s n m o l) (h : K)
    (hl : ∀ i, LinearDeriv ode (st.linearizationPoints i) h (T.A i i))
    (hz : published r = 0) : published (computeStepDerivative T ode st r h) = 0 := by
  have := C12_step_derivative_smul T ode st r r h 0 hl (by rw [hz, smul_zero])
  rwa [zero_smul] at this

/-- The example backend has a linear derivative. -/
example (lin : Fin 0 → ℚ) (h a : ℚ) : LinearDeriv (Ex.linOde (K := ℚ)) lin h a := by
  constructor
  · intro u v
    simp only [Ex.linOde, addIn, addOut, OdeOut.mk.injEq, Pi.add_apply]
    exact ⟨by funext x; simp only [Pi.add_apply]; ring, by simp, by simp⟩
  · intro q u
    simp only [Ex.linOde, smulIn, smulOut, OdeOut.mk.injEq, Pi.smul_apply, smul_eq_mul]
    exact ⟨by funext x; simp only [Pi.smul_apply, smul_eq_mul]; ring, by simp, by simp⟩

/-! ### C13 -/

/-- C13 for a seed state whose `stage_states` buffer is zero (a freshly created or cleared
perturbation): the adjoint step is the transpose of the step derivative, over state, time and
independent inputs. Missing: other seeds, see `C13_stage_states_violated`. -/
theorem C13_step_adjoint_is_transpose_partial (T : Coeffs K s) (ode : ODE K n m o l)
    (st pert seed : RKState K s n m o l) (h : K)
    (hadj : ∀ i, AdjointPair ode (st.linearizationPoints i) h (T.A i i))
    (hz : seed.stageStates = 0) :
    dot (computeStepAdjoint T ode st seed h).finalState pert.finalState
      + (computeStepAdjoint T ode st seed h).finalTime * pert.finalTime
      + dot (computeStepAdjoint T ode st seed h).independentInputs pert.independentInputs
    = dot seed.finalState (computeStepDerivative T ode st pert h).finalState
      + seed.finalTime * (computeStepDerivative T ode st pert h).finalTime
      + dot seed.independentInputs pert.independentInputs := by
  rw [step_pairing T ode st pert seed h hadj, hz]
  simp [dot_zero_left]

/-- C13 for backends whose stage state does not carry derivatives (as the OpenMDAO backend, see
C52): any contents of the seed's buffers are allowed. -/
theorem C13_step_adjoint_no_stage_state (T : Coeffs K s) (ode : ODE K n m o l)
    (st pert seed : RKState K s n m o l) (h : K)
    (hadj : ∀ i, AdjointPair ode (st.linearizationPoints i) h (T.A i i))
    (hz : ∀ lin inp a, (ode.computeUpdateDerivative lin inp h a).stageState = 0) :
    dot (computeStepAdjoint T ode st seed h).finalState pert.finalState
      + (computeStepAdjoint T ode st seed h).finalTime * pert.finalTime
      + dot (computeStepAdjoint T ode st seed h).independentInputs pert.independentInputs
    = dot seed.finalState (computeStepDerivative T ode st pert h).finalState
      + seed.finalTime * (computeStepDerivative T ode st pert h).finalTime
      + dot seed.independentInputs pert.independentInputs := by
  have hd := computeStepDerivative_result T ode st pert h
  rw [step_pairing T ode st pert seed h hadj]
  simp [hd.state, hz, dot_zero_right]

/-- C13 in general: what the adjoint computes for arbitrary buffer contents. The only extra
term pairs the `stage_states` buffer of the seed with the stage state perturbations. -/
theorem C13_step_adjoint_pairing (T : Coeffs K s) (ode : ODE K n m o l)
    (st pert seed : RKState K s n m o l) (h : K)
    (hadj : ∀ i, AdjointPair ode (st.linearizationPoints i) h (T.A i i)) :
    dot (computeStepAdjoint T ode st seed h).finalState pert.finalState
      + (computeStepAdjoint T ode st seed h).finalTime * pert.finalTime
      + dot (computeStepAdjoint T ode st seed h).independentInputs pert.independentInputs
    = dot seed.finalState (computeStepDerivative T ode st pert h).finalState
      + seed.finalTime * (computeStepDerivative T ode st pert h).finalTime
      + dot seed.independentInputs pert.independentInputs
      + ∑ i, dot (seed.stageStates i) ((computeStepDerivative T ode st pert h).stageStates i) :=
  step_pairing T ode st pert seed h hadj

/-- A backend whose stage state carries derivatives: the update is zero and the stage state is the
step input. -/
def copyOde : ODE ℚ 1 0 0 0 where
  computeUpdate inp _ _ := (⟨0, inp.stepInput, 0⟩, 0)
  computeUpdateDerivative _ d _ _ := ⟨0, d.stepInput, 0⟩
  computeUpdateAdjoint _ d _ _ := ⟨d.stageState, 0, 0, 0⟩

/-- C13 is violated for seeds with something in the `stage_states` buffer, although the two
derivative calls of the backend are transposes of each other. -/
theorem C13_stage_states_violated : ∃ (T : Coeffs ℚ 1) (st pert seed : RKState ℚ 1 1 0 0 0) (h : ℚ),
    (∀ i, AdjointPair copyOde (st.linearizationPoints i) h (T.A i i)) ∧
    dot (computeStepAdjoint T copyOde st seed h).finalState pert.finalState
      + (computeStepAdjoint T copyOde st seed h).finalTime * pert.finalTime
      + dot (computeStepAdjoint T copyOde st seed h).independentInputs pert.independentInputs
    ≠ dot seed.finalState (computeStepDerivative T copyOde st pert h).finalState
      + seed.finalTime * (computeStepDerivative T copyOde st pert h).finalTime
      + dot seed.independentInputs pert.independentInputs := by
  have hadj : ∀ (lin : Fin 0 → ℚ) (h a : ℚ), AdjointPair copyOde lin h a := by
    intro lin h a din dout
    simp [copyOde, Spec.dotOut, Spec.dotIn, Spec.dot]
  refine ⟨⟨fun _ _ => 0, fun _ => 1, fun _ => 0⟩, RKState.empty,
    { RKState.empty with finalState := fun _ => 1 },
    { RKState.empty with stageStates := fun _ _ => 1 }, 1, fun i => hadj _ _ _, ?_⟩
  rw [C13_step_adjoint_pairing _ _ _ _ _ _ (fun i => hadj _ _ _)]
  intro hh
  have h2 := add_eq_left.mp hh
  revert h2
  decide +kernel

/-- The reverse step never writes the `stage_states` buffer, so a perturbation that starts with
an empty buffer keeps it empty over any number of reverse steps. -/
theorem C13_stage_states_stay_zero (T : Coeffs K s) (ode : ODE K n m o l)
    (st seed : RKState K s n m o l) (h : K) :
    (computeStepAdjoint T ode st seed h).stageStates = seed.stageStates := by
  have key := Loop.foldl_finRange_reverse
    (computeStageAdjoint T ode h st.linearizationPoints)
    (fun _ r => r.stageStates = seed.stageStates)
    { seed with
      stageTimes := 0
      stageIndependentOutputs := 0
      finalTime := seed.finalTime + 0
      startState := seed.finalState
      stageUpdates := fun i x => h * T.b i * seed.finalState x
      startTime := seed.finalTime + 0 } rfl (fun i y hy => hy)
  exact key

/-- The example backend with the trapezoidal rule meets the hypotheses of both theorems. -/
example (st : RKState ℚ 2 1 1 0 0) (h : ℚ) :
    (∀ i, AdjointPair (Ex.linOde (K := ℚ)) (st.linearizationPoints i) h (Ex.trapezoid.A i i))
      ∧ ∀ lin inp a, ((Ex.linOde (K := ℚ)).computeUpdateDerivative lin inp h a).stageState = 0 :=
  ⟨fun _ => Ex.linOde_adjoint _ _ _, fun _ _ _ => rfl⟩

/-! ### C58 -/

/-- C58: starting followed directly by finalisation returns time and values unchanged, and the
started state carries values, time and independent inputs. -/
theorem C58_start_then_finalise (v : StartingValues K n m) (h : K) :
    let st : RKState K s n m o l := startingScheme v h
    (finalizationScheme st).finalTime = v.initialTime
      ∧ (finalizationScheme st).finalValues = v.initialValues
      ∧ st.independentInputs = v.independentInputs
      ∧ (finalizationScheme st).finalIndependentOutputs = 0 :=
  ⟨rfl, rfl, rfl, rfl⟩

/-- Pairing on the published part of a state plus the final independent outputs. -/
def dotState (u v : RKState K s n m o l) : K :=
  dot u.finalState v.finalState + u.finalTime * v.finalTime
    + dot u.independentInputs v.independentInputs
    + dot u.finalIndependentOutputs v.finalIndependentOutputs

/-- C58: starting derivative and its adjoint are transposes. -/
theorem C58_starting_transpose (dv : StartingValues K n m) (r : RKState K s n m o l) :
    dot (startingSchemeAdjoint r).initialValues dv.initialValues
      + (startingSchemeAdjoint r).initialTime * dv.initialTime
      + dot (startingSchemeAdjoint r).independentInputs dv.independentInputs
    = dotState r (startingSchemeDerivative dv) := by
  simp [startingSchemeAdjoint, startingSchemeDerivative, dotState, RKState.empty, dot_zero_right]

/-- C58: finalisation derivative and its adjoint are transposes. -/
theorem C58_finalisation_transpose (v : FinalizationValues K n o) (p : RKState K s n m o l) :
    dotState (finalizationSchemeAdjoint v) p
    = dot v.finalValues (finalizationSchemeDerivative p).finalValues
      + v.finalTime * (finalizationSchemeDerivative p).finalTime
      + dot v.finalIndependentOutputs (finalizationSchemeDerivative p).finalIndependentOutputs := by
  simp [finalizationSchemeAdjoint, finalizationSchemeDerivative, dotState, RKState.empty,
    dot_zero_left]

/-- C58: the derivative of starting is starting of the perturbation, in all published fields
(so it is the derivative of an identity map). -/
theorem C58_derivative_is_linearisation (v dv : StartingValues K n m) (h : K) :
    published (startingScheme ⟨v.initialTime + dv.initialTime, v.initialValues + dv.initialValues,
        v.independentInputs + dv.independentInputs⟩ h : RKState K s n m o l)
      = published (startingScheme v h : RKState K s n m o l)
        + published (startingSchemeDerivative dv : RKState K s n m o l) := by
  simp [published, startingScheme, startingSchemeDerivative]

/-- Concrete start values. -/
example : (finalizationScheme (startingScheme (⟨3, ![1, 2], ![4]⟩ : StartingValues ℚ 2 1) (1/2)
    : RKState ℚ 2 2 1 0 0)).finalValues 1 = 2 := rfl

end Verif.Props
