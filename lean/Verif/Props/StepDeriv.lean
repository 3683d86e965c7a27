/-
Property C11: the step derivative is the Fréchet derivative of the step.
-/
import Verif.RK.Fderiv
import Verif.RK.Examples
import Mathlib.Analysis.Calculus.FDeriv.Mul
import Mathlib.Topology.Algebra.Module.FiniteDimension

namespace Verif.Props

open RK RK.Spec

variable {s n m o l : ℕ}

/-- C11: the step derivative, evaluated at the linearization points the step recorded, is the
Fréchet derivative of the step with respect to state, independent inputs and time at fixed step
size. `buf` and `pbuf` are arbitrary previous contents of the buffers. -/
theorem C11_step_derivative_is_frechet (T : Coeffs ℝ s) (ode : ODE ℝ n m o l) (h : ℝ)
    (buf pbuf : RKState ℝ s n m o l) (x0 : Pub n m)
    (hd : ∀ i, DifferentiableBackend ode h (T.A i i)) :
    ∃ L : Pub n m →L[ℝ] Pub n m,
      HasFDerivAt (fun x => pubOf (computeStep T ode (withPub buf x) h)) L x0
      ∧ ∀ d, pubOf (computeStepDerivative T ode (computeStep T ode (withPub buf x0) h)
          (withPub pbuf d) h) = L d := by
  have hex := stageUpdates_hasFDerivAt T ode h buf pbuf x0 hd
  choose L hL hLd using hex
  have hr := fun x => computeStep_result T ode (withPub buf x) h
  have hrd := fun d => computeStepDerivative_result T ode
    (computeStep T ode (withPub buf x0) h) (withPub pbuf d) h
  have hfin : HasFDerivAt (fun x => (computeStep T ode (withPub buf x) h).finalState)
      (ContinuousLinearMap.fst ℝ _ _ + ∑ i, (h * T.b i) • L i) x0 := by
    have : (fun x => (computeStep T ode (withPub buf x) h).finalState)
        = fun x : Pub n m => x.1
          + ∑ i, (h * T.b i) • (computeStep T ode (withPub buf x) h).stageUpdates i := by
      funext x
      rw [(hr x).finalState, accumulateStep_eq_sum]
      rfl
    rw [this]
    exact hasFDerivAt_fst.add (HasFDerivAt.fun_sum fun i _ => (hL i).const_smul (h * T.b i))
  refine ⟨_, HasFDerivAt.prodMk hfin (HasFDerivAt.prodMk
    (f₁' := (ContinuousLinearMap.fst ℝ _ _).comp (ContinuousLinearMap.snd ℝ _ _))
    (f₂' := (ContinuousLinearMap.snd ℝ _ _).comp (ContinuousLinearMap.snd ℝ _ _)) ?_ ?_), ?_⟩
  · have : (fun x => (computeStep T ode (withPub buf x) h).independentInputs)
        = fun x : Pub n m => x.2.1 := by
      funext x
      rw [(hr x).indep]
      rfl
    rw [this]
    exact ((ContinuousLinearMap.fst ℝ (Fin m → ℝ) ℝ).comp
      (ContinuousLinearMap.snd ℝ (Fin n → ℝ) _)).hasFDerivAt
  · have : (fun x => (computeStep T ode (withPub buf x) h).finalTime)
        = fun x : Pub n m => x.2.2 + h := by
      funext x
      rw [(hr x).finalTime]
      rfl
    rw [this]
    exact ((ContinuousLinearMap.snd ℝ (Fin m → ℝ) ℝ).comp
      (ContinuousLinearMap.snd ℝ (Fin n → ℝ) _)).hasFDerivAt.add_const _
  · intro d
    unfold pubOf
    rw [(hrd d).finalState, (hrd d).indep, (hrd d).finalTime, accumulateStep_eq_sum]
    simp only [hLd]
    simp [withPub]

/-- The example backend `y' = -y + p + t` meets the contract. -/
example (h a : ℝ) : DifferentiableBackend (Ex.linOde (K := ℝ)) h a := by
  intro z0
  let F : InSpace 1 1 →ₗ[ℝ] (Fin 1 → ℝ) :=
    { toFun := fun d x => (d.2.2.1 x + d.2.2.2 - d.1 x - h * d.2.1 x) / (1 + h * a)
      map_add' := fun u v => by funext x; simp only [Prod.fst_add, Prod.snd_add, Pi.add_apply]; ring
      map_smul' := fun c u => by
        funext x
        simp only [Prod.smul_fst, Prod.smul_snd, Pi.smul_apply, smul_eq_mul, RingHom.id_apply]
        ring }
  exact ⟨LinearMap.toContinuousLinearMap F,
    (LinearMap.toContinuousLinearMap F).hasFDerivAt, fun d => rfl⟩

end Verif.Props
