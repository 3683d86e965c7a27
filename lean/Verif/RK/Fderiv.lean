/-
Helper lemmas for C11: derivative of the stage sweep by induction over the stages.
-/
import Verif.RK.StepLemmas
import Mathlib.Analysis.Calculus.FDeriv.Basic
import Mathlib.Analysis.Calculus.FDeriv.Add
import Mathlib.Analysis.Calculus.FDeriv.Linear
import Mathlib.Analysis.Calculus.FDeriv.Comp
import Mathlib.Analysis.Calculus.FDeriv.Prod
import Mathlib.Analysis.Calculus.FDeriv.Const

namespace Verif.RK.Spec

variable {s n m o l : ℕ}

/-- The data a step depends on: state, independent inputs, time. -/
abbrev Pub (n m : ℕ) := (Fin n → ℝ) × (Fin m → ℝ) × ℝ

/-- The inputs of an ODE evaluation as a point of a normed space. -/
abbrev InSpace (n m : ℕ) := (Fin n → ℝ) × (Fin n → ℝ) × (Fin m → ℝ) × ℝ

def toIn (z : InSpace n m) : OdeInput ℝ n m where
  stepInput := z.1
  stageInput := z.2.1
  independentInput := z.2.2.1
  time := z.2.2.2

def ofIn (z : OdeInput ℝ n m) : InSpace n m :=
  (z.stepInput, z.stageInput, z.independentInput, z.time)

/-- Contract of a differentiable backend (discretized_ode.py L78-134): the derivative call at a
linearization point recorded by the update call is the Fréchet derivative of the update with
respect to step input, stage input, independent input and time. -/
def DifferentiableBackend (ode : ODE ℝ n m o l) (h a : ℝ) : Prop :=
  ∀ z0 : OdeInput ℝ n m, ∃ L : InSpace n m →L[ℝ] (Fin n → ℝ),
    HasFDerivAt (fun z => (ode.computeUpdate (toIn z) h a).1.stageUpdate) L (ofIn z0)
    ∧ ∀ d, (ode.computeUpdateDerivative (ode.computeUpdate z0 h a).2 d h a).stageUpdate
        = L (ofIn d)

end Verif.RK.Spec

namespace Verif.RK

open Spec

variable {s n m o l : ℕ}

/-- A state with the given published part, all other buffers from `buf`. -/
def withPub (buf : RKState ℝ s n m o l) (x : Pub n m) : RKState ℝ s n m o l :=
  { buf with finalState := x.1, independentInputs := x.2.1, finalTime := x.2.2 }

/-- The published part of a state. -/
def pubOf (r : RKState ℝ s n m o l) : Pub n m := (r.finalState, r.independentInputs, r.finalTime)

theorem accumulateStages_eq_sum (T : Coeffs ℝ s) (i : Fin s) (f : Fin s → Fin n → ℝ) :
    accumulateStages T i f
      = ∑ j ∈ Finset.univ.filter (fun j : Fin s => j < i), T.A i j • f j := by
  funext x
  rw [accumulateStages_apply]
  simp

theorem accumulateStep_eq_sum (w : Fin s → ℝ) (y : Fin n → ℝ) (k : Fin s → Fin n → ℝ) (h : ℝ) :
    accumulateStep w y k h = y + ∑ i, (h * w i) • k i := by
  funext x
  simp [accumulateStep, mul_comm]

/-- Derivative of all stage updates. -/
theorem stageUpdates_hasFDerivAt (T : Coeffs ℝ s) (ode : ODE ℝ n m o l) (h : ℝ)
    (buf pbuf : RKState ℝ s n m o l) (x0 : Pub n m)
    (hd : ∀ i, DifferentiableBackend ode h (T.A i i)) :
    ∀ i : Fin s, ∃ L : Pub n m →L[ℝ] (Fin n → ℝ),
      HasFDerivAt (fun x => (computeStep T ode (withPub buf x) h).stageUpdates i) L x0
      ∧ ∀ d, (computeStepDerivative T ode (computeStep T ode (withPub buf x0) h)
          (withPub pbuf d) h).stageUpdates i = L d := by
  have hr := fun x => computeStep_result T ode (withPub buf x) h
  have hrd := fun d => computeStepDerivative_result T ode
    (computeStep T ode (withPub buf x0) h) (withPub pbuf d) h
  have hlin := (hr x0).lin
  generalize hk : (fun x => (computeStep T ode (withPub buf x) h).stageUpdates) = k
  have hk' : ∀ x, (computeStep T ode (withPub buf x) h).stageUpdates = k x :=
    fun x => congrFun hk x
  generalize hkd : (fun d => (computeStepDerivative T ode
    (computeStep T ode (withPub buf x0) h) (withPub pbuf d) h).stageUpdates) = kd
  have hkd' : ∀ d, (computeStepDerivative T ode
    (computeStep T ode (withPub buf x0) h) (withPub pbuf d) h).stageUpdates = kd d :=
    fun d => congrFun hkd d
  have hu := fun x => (hr x).update
  have hud := fun d => (hrd d).update
  simp only [hk', hkd', hlin] at hu hud ⊢
  suffices H : ∀ q : ℕ, ∀ i : Fin s, i.val < q → ∃ L : Pub n m →L[ℝ] (Fin n → ℝ),
      HasFDerivAt (fun x => k x i) L x0 ∧ ∀ d, kd d i = L d from
    fun i => H (i.val + 1) i (Nat.lt_succ_self _)
  intro q
  induction q with
  | zero => intro i hi; omega
  | succ q ih =>
    intro i hi
    have hex : ∀ j : Fin s, ∃ L : Pub n m →L[ℝ] (Fin n → ℝ), j < i →
        HasFDerivAt (fun x => k x j) L x0 ∧ ∀ d, kd d j = L d := by
      intro j
      by_cases hj : j < i
      · obtain ⟨L, hL⟩ := ih j (by rw [Fin.lt_def] at hj; omega)
        exact ⟨L, fun _ => hL⟩
      · exact ⟨0, fun h => absurd h hj⟩
    choose Lj hLj using hex
    obtain ⟨M, hM, hMd⟩ := hd i (stageIn T h x0.2.2 x0.1 x0.2.1 (k x0) i)
    let acc : Pub n m →L[ℝ] (Fin n → ℝ) :=
      ∑ j ∈ Finset.univ.filter (fun j : Fin s => j < i), T.A i j • Lj j
    have hacc : HasFDerivAt (fun x => accumulateStages T i (k x)) acc x0 := by
      simp only [accumulateStages_eq_sum]
      refine HasFDerivAt.fun_sum fun j hj => ?_
      exact (hLj j (Finset.mem_filter.mp hj).2).1.const_smul (T.A i j)
    have hin : HasFDerivAt
        (fun x : Pub n m => ofIn (stageIn T h x.2.2 x.1 x.2.1 (k x) i))
        ((ContinuousLinearMap.fst ℝ _ _).prod (acc.prod
          (((ContinuousLinearMap.fst ℝ _ _).comp (ContinuousLinearMap.snd ℝ _ _)).prod
            ((ContinuousLinearMap.snd ℝ _ _).comp (ContinuousLinearMap.snd ℝ _ _))))) x0 := by
      refine HasFDerivAt.prodMk hasFDerivAt_fst (HasFDerivAt.prodMk hacc (HasFDerivAt.prodMk ?_ ?_))
      · exact ((ContinuousLinearMap.fst ℝ (Fin m → ℝ) ℝ).comp
      (ContinuousLinearMap.snd ℝ (Fin n → ℝ) _)).hasFDerivAt
      · exact ((ContinuousLinearMap.snd ℝ (Fin m → ℝ) ℝ).comp
      (ContinuousLinearMap.snd ℝ (Fin n → ℝ) _)).hasFDerivAt.add_const _
    refine ⟨_, (hM.comp x0 hin).congr_of_eventuallyEq (Filter.Eventually.of_forall fun x => ?_),
      ?_⟩
    · exact hu x i
    · intro d
      rw [hud d i]
      refine (hMd _).trans ?_
      simp only [ContinuousLinearMap.comp_apply, ContinuousLinearMap.prod_apply]
      congr 1
      simp only [ofIn, stageInD, withPub, Prod.mk.injEq]
      refine ⟨rfl, ?_, rfl, rfl⟩
      rw [accumulateStages_eq_sum]
      simp only [acc, ContinuousLinearMap.sum_apply, ContinuousLinearMap.smul_apply]
      refine Finset.sum_congr rfl fun j hj => ?_
      rw [(hLj j (Finset.mem_filter.mp hj).2).2 d]

end Verif.RK
