/-
The Runge-Kutta discretizations around a stage problem with a memory, as used by the integrator.

Source: /repo/src/rkopenmdao/runge_kutta_integrator.py L561-637, L733-762, L847-875
-/
import Verif.Integrator.Memory
import Verif.Integrator.RK
import Verif.RK.Memory

namespace Verif.Integrator

open Verif.RK Verif.Control Verif.XReal
open Classical

variable {s n m o l : ℕ} {M : Type}

/-- What a step with non-finite step size leads to (not modelled, arbitrary), with the memory before
and after. -/
abbrev Nonfinite (M : Type) (s n m o l : ℕ) :=
  M → StartingValues ℝ n m → XReal → M × Except Err (EmbRKState ℝ s n m o l)

/-- The non-embedded discretization, stage_ordered...py L20-362. -/
noncomputable def rkMem (T : Coeffs ℝ s) (S : MOde Err M ℝ n m o l) (N : Nonfinite M s n m o l) :
    Mem (RKState ℝ s n m o l) M where
  step w d h := match h with
    | .fin r => computeStepM T S w d r
    | h => ((N w (rkObs d) h).1, (N w (rkObs d) h).2.map EmbRKState.toRKState)
  deriv w d p h := computeStepDerivativeM T S w d p (toReal h)
  adj w d p h := computeStepAdjointM T S w d p (toReal h)

/-- The embedded discretization, stage_ordered...py L365-555. -/
noncomputable def embMem (T : Coeffs ℝ s) (bhat : Fin s → ℝ) (S : MOde Err M ℝ n m o l)
    (N : Nonfinite M s n m o l) : Mem (EmbRKState ℝ s n m o l) M where
  step w d h := match h with
    | .fin r => computeStepEmbM T bhat S w d r
    | h => N w (rkObs d.toRKState) h
  deriv w d p h :=
    let r := computeStepDerivativeM T S w d.toRKState p.toRKState (toReal h)
    (r.1, { p with toRKState := r.2 })
  adj w d p h :=
    let r := computeStepAdjointM T S w d.toRKState p.toRKState (toReal h)
    (r.1, { p with toRKState := r.2 })

/-- The memory does not matter for steps with non-finite step size either. -/
structure NonfiniteSim (E : Env s n m o l) (N : Nonfinite M s n m o l) (Inv : M → Prop)
    (Good : (Fin l → ℝ) → Prop) : Prop where
  same : ∀ w v h, Inv w → (N w v h).2 = E.nonfinite v h
  inv : ∀ w v h, Inv w → Inv (N w v h).1
  good : ∀ v h d, E.nonfinite v h = .ok d → ∀ i, Good (d.linearizationPoints i)

/-- The step sizes considered: the stage problem can be evaluated with them. -/
def OkSize (E : Env s n m o l) (N : Nonfinite M s n m o l) (Inv : M → Prop)
    (Good : (Fin l → ℝ) → Prop) (Ok : ℝ → ℝ → Prop) (h : XReal) : Prop :=
  (∀ i, Ok (toReal h) (E.T.A i i)) ∧ ((∀ r, h ≠ .fin r) → NonfiniteSim E N Inv Good)

variable {E : Env s n m o l} {N : Nonfinite M s n m o l} {S : MOde Err M ℝ n m o l}
  {Inv : M → Prop} {Good : (Fin l → ℝ) → Prop} {Ok : ℝ → ℝ → Prop}

theorem rkMem_sim (hS : OdeSim E.ode S Inv Good Ok) (hf : ∀ v h, E.fails v h = none) :
    Sim (rkBackend E) (rkMem E.T S N) Inv (fun d => ∀ i, Good (d.linearizationPoints i))
      (OkSize E N Inv Good Ok) where
  step w d h ho hw := by
    cases h with
    | fin r =>
      simp only [rkMem, rkBackend, hf]
      exact (computeStepM_sim hS E.T r ho.1 hw d).1
    | _ =>
      have hN := ho.2 (by simp)
      simp only [rkMem, rkBackend, hN.same _ _ _ hw]
  step_inv w d h ho hw := by
    cases h with
    | fin r =>
      simp only [rkMem]
      exact (computeStepM_sim hS E.T r ho.1 hw d).2
    | _ =>
      have hN := ho.2 (by simp)
      simp only [rkMem]
      exact hN.inv _ _ _ hw
  good d h d' ho hd i := by
    simp only [rkBackend, RKState.set]
    cases h with
    | fin r =>
      simp only [rkBackend, hf, Except.ok.injEq] at hd
      subst hd
      exact computeStep_good hS E.T r ho.1 d i
    | _ =>
      have hN := ho.2 (by simp)
      simp only [rkBackend] at hd
      rcases hn : E.nonfinite (rkObs d) _ with e | q
      · rw [hn] at hd; cases hd
      · rw [hn] at hd
        cases hd
        exact hN.good _ _ _ hn i
  deriv w d p h ho hw hd := (computeStepDerivativeM_sim hS E.T (toReal h) ho.1 hw d p hd).1
  deriv_inv w d p h ho hw hd := (computeStepDerivativeM_sim hS E.T (toReal h) ho.1 hw d p hd).2
  adj w d p h ho hw hd := (computeStepAdjointM_sim hS E.T (toReal h) ho.1 hw d p hd).1
  adj_inv w d p h ho hw hd := (computeStepAdjointM_sim hS E.T (toReal h) ho.1 hw d p hd).2

theorem embMem_sim (bhat : Fin s → ℝ) (hS : OdeSim E.ode S Inv Good Ok)
    (hf : ∀ v h, E.fails v h = none) :
    Sim (embBackend E bhat) (embMem E.T bhat S N) Inv
      (fun d => ∀ i, Good (d.linearizationPoints i)) (OkSize E N Inv Good Ok) where
  step w d h ho hw := by
    cases h with
    | fin r =>
      simp only [embMem, embBackend, hf]
      exact (computeStepEmbM_sim hS E.T bhat r ho.1 hw d).1
    | _ =>
      have hN := ho.2 (by simp)
      simp only [embMem, embBackend, hN.same _ _ _ hw]
  step_inv w d h ho hw := by
    cases h with
    | fin r =>
      simp only [embMem]
      exact (computeStepEmbM_sim hS E.T bhat r ho.1 hw d).2
    | _ =>
      have hN := ho.2 (by simp)
      simp only [embMem]
      exact hN.inv _ _ _ hw
  good d h d' ho hd i := by
    simp only [embBackend, EmbRKState.set, RKState.set]
    cases h with
    | fin r =>
      simp only [embBackend, hf, Except.ok.injEq] at hd
      subst hd
      exact computeStep_good hS E.T r ho.1 d.toRKState i
    | _ =>
      have hN := ho.2 (by simp)
      simp only [embBackend] at hd
      exact hN.good _ _ _ hd i
  deriv w d p h ho hw hd := by
    simp only [embMem, embBackend]
    rw [(computeStepDerivativeM_sim hS E.T (toReal h) ho.1 hw d.toRKState p.toRKState hd).1]
  deriv_inv w d p h ho hw hd :=
    (computeStepDerivativeM_sim hS E.T (toReal h) ho.1 hw d.toRKState p.toRKState hd).2
  adj w d p h ho hw hd := by
    simp only [embMem, embBackend]
    rw [(computeStepAdjointM_sim hS E.T (toReal h) ho.1 hw d.toRKState p.toRKState hd).1]
  adj_inv w d p h ho hw hd :=
    (computeStepAdjointM_sim hS E.T (toReal h) ho.1 hw d.toRKState p.toRKState hd).2

end Verif.Integrator
