/-
The adaptive run of the user guide.

Source: /repo/doc/user_guide.ipynb cell 18 (the component of cell 2, `PredefinedFinalTime(1.0)`, initial
step 0.5, `embedded_second_order_two_stage_sdirk`, `error_controller=[pid, integral]`, tolerance 1e-6).
-/
import Verif.Props.FinalTime
import Verif.Props.Guide
import Mathlib.Analysis.Complex.ExponentialBounds

namespace Verif.Props

open Verif.RK Verif.Control Verif.XReal Verif.Integrator Verif.Tableau Verif.Comp

namespace GuideAdaptive

/-- The stage problem, tableau and error measure of cell 18. The state has one value, so that every
norm of the estimate is its absolute value. -/
noncomputable def env (fwd rev : OM.Vectors ℝ → ℝ → ℝ → OM.Vec ℝ → OM.Vec ℝ) (v0 : OM.Vectors ℝ) :
    Env 2 1 0 0 (OM.pointSize guideLayout) where
  T := (embeddedSecondOrderTwoStageSdirk.map embQ2).coeffs
  ode := guideOde fwd rev v0
  fails _ _ := none
  nonfinite _ _ := .error .backend
  measure e _ := fin |e 0|

/-- The embedded weights of the tableau. -/
noncomputable def bhat : Fin 2 → ℝ := (embeddedSecondOrderTwoStageSdirk.map embQ2).bhat

/-- The options of cell 18. -/
noncomputable def opt : Options :=
  { adaptive := true, crit := .finalTime 1, initialStep := fin (1 / 2) }

end GuideAdaptive

open GuideAdaptive

theorem guide_gamma : embQ2 ((2 - sqrt2) / 2) = 1 - √2 / 2 := by
  rw [map_div₀, map_sub, embQ2_sqrt2, map_ofNat]
  ring

/-- The coefficients of the tableau of cell 18 as real numbers. -/
theorem guide_coeffs (fwd rev v0) :
    (env fwd rev v0).T.A 0 0 = 1 - √2 / 2 ∧ (env fwd rev v0).T.A 1 0 = √2 / 2 ∧
    (env fwd rev v0).T.A 1 1 = 1 - √2 / 2 ∧ (env fwd rev v0).T.b 0 = √2 / 2 ∧
    (env fwd rev v0).T.b 1 = 1 - √2 / 2 ∧ bhat 0 = 1 / 2 ∧ bhat 1 = 1 / 2 := by
  have e1 : embQ2 (1 - (2 - sqrt2) / 2) = √2 / 2 := by
    rw [map_sub, guide_gamma, map_one]
    ring
  have e2 : embQ2 0.5 = 1 / 2 := by
    rw [show (0.5 : Q2) = 1 / 2 by norm_num, map_div₀, map_one, map_ofNat]
  exact ⟨guide_gamma, e1, guide_gamma, e1, guide_gamma, e2, e2⟩

/-- One step of size 1/2 with the tableau of cell 18. -/
theorem guide_first_step (fwd rev v0) (st : EmbRKState ℝ 2 1 0 0 (OM.pointSize guideLayout)) :
    (computeStepEmb (env fwd rev v0).T bhat (env fwd rev v0).ode st (1 / 2)).finalState 0
      = (4 * √2 - 4) * st.finalState 0 ∧
    (computeStepEmb (env fwd rev v0).T bhat (env fwd rev v0).ode st (1 / 2)).errorEstimate 0
      = (7 / 2 * √2 - 5) * st.finalState 0 := by
  have h2 : √2 * √2 = 2 := Real.mul_self_sqrt (by norm_num)
  have hp : 0 < √2 := by positivity
  obtain ⟨a0, a1, a2, b0, b1, c0, c1⟩ := guide_coeffs fwd rev v0
  have R := computeStep_result (env fwd rev v0).T (env fwd rev v0).ode st.toRKState (1 / 2)
  have hd : 1 - 1 / 2 * (1 - √2 / 2) = (2 + √2) / 4 := by ring
  have hne : (2 + √2) ≠ 0 := by positivity
  have k0 := congrFun (R.update 0) 0
  have k1 := congrFun (R.update 1) 0
  have o : (env fwd rev v0).ode = guideOde fwd rev v0 := rfl
  rw [a0] at k0
  rw [a2] at k1
  simp only [o, guideOde_update, guideCompute, stageIn, accumulateStages_apply, hd] at k0 k1
  rw [show (Finset.univ.filter fun j : Fin 2 => j < 0) = ∅ from by decide, Finset.sum_empty] at k0
  rw [show (Finset.univ.filter fun j : Fin 2 => j < 1) = {0} from by decide, Finset.sum_singleton,
    a1] at k1
  have hE := C08_error_estimate (env fwd rev v0).T bhat (env fwd rev v0).ode st (1 / 2) 0
  have hF : (computeStepEmb (env fwd rev v0).T bhat (env fwd rev v0).ode st (1 / 2)).finalState 0
      = _ := (congrFun R.finalState 0).trans (accumulateStep_apply _ _ _ _ _)
  have hS : (computeStepEmb (env fwd rev v0).T bhat (env fwd rev v0).ode st (1 / 2)).stageUpdates
    = (computeStep (env fwd rev v0).T (env fwd rev v0).ode st.toRKState (1 / 2)).stageUpdates := rfl
  rw [hS, Fin.sum_univ_two, b0, b1, c0, c1, o] at hE
  rw [Fin.sum_univ_two, b0, b1, o] at hF
  generalize (computeStep (env fwd rev v0).T (guideOde fwd rev v0) st.toRKState
    (1 / 2)).stageUpdates 0 0 = u at *
  generalize (computeStep (env fwd rev v0).T (guideOde fwd rev v0) st.toRKState
    (1 / 2)).stageUpdates 1 0 = w at *
  generalize st.finalState 0 = x at *
  have hu : u = (4 - 2 * √2) * x := by
    rw [k0]
    field_simp
    linear_combination (4 * x) * h2
  have hw : w = (4 * √2 - 4) * x := by
    rw [k1, hu]
    field_simp
    linear_combination (-6 * x) * h2
  constructor
  · rw [o, hF, hu, hw]
    linear_combination (-3 / 2 * x) * h2
  · rw [o, hE, hu, hw]
    linear_combination (-3 / 2 * x) * h2

/-- C19 is violated by the adaptive run of the user guide, whatever the initial value `x0` is: the
first step 0.5 of the run to time 1 is exactly as long as the time left after it, so it is accepted.
Its error estimate is `5 - 7/2 √2` (more than 5/100) times `|x0|` with a tolerance of 1e-6, and the
error of its value is more than 8/1000 times `|x0|`. -/
theorem C19_user_guide_violated (fwd rev v0) (p x0 : ℝ)
    (d0 : EmbRKState ℝ 2 1 0 0 (OM.pointSize guideLayout)) :
    ∃ c c' x', buildChain p Config.default [pid, integral] = some c ∧
      iterateOnStep (embBackend (env fwd rev v0) bhat) opt opt.recursionLimit c
        (startOf (embBackend (env fwd rev v0) bhat) opt c d0 ⟨0, ![x0], ![]⟩) = (c', x', .ok ()) ∧
      x'.disc.finalTime = 1 / 2 ∧
      x'.errHist.1 = fin ((5 - 7 / 2 * √2) * |x0|) ∧ Config.default.tol = fin (1 / 10 ^ 6) ∧
      5 / 100 * |x0| ≤ (5 - 7 / 2 * √2) * |x0| ∧
      8 / 1000 * |x0| ≤ |x'.disc.finalState 0 - x0 * Real.exp (1 / 2)| := by
  have hlo : (1.41421 : ℝ) < √2 := by
    rw [Real.lt_sqrt (by norm_num)]
    norm_num
  have hhi : √2 < 1.41422 := by
    rw [Real.sqrt_lt' (by norm_num)]
    norm_num
  have hexp : Real.exp (1 / 2) < 1.6488 := by
    have h1 : Real.exp (1 / 2) * Real.exp (1 / 2) = Real.exp 1 := by
      rw [← Real.exp_add]
      norm_num
    have h2 := Real.exp_one_lt_d9
    by_contra hc
    have := mul_self_le_mul_self (by norm_num) (not_lt.mp hc)
    norm_num at this h2
    linarith
  refine ⟨.deco (integral p) (.base (pid p) Config.default) true 0, ?_⟩
  generalize hx : startOf (embBackend (env fwd rev v0) bhat) opt
    (.deco (integral p) (.base (pid p) Config.default) true 0) d0 ⟨0, ![x0], ![]⟩ = x
  have hs : x.sugg = fin (1 / 2) := by rw [← hx]; rfl
  have hf : x.disc.finalState 0 = x0 := by rw [← hx]; rfl
  have ht0 : x.disc.finalTime = 0 := by rw [← hx]; rfl
  obtain ⟨d, hd⟩ : ∃ d, d = computeStepEmb (env fwd rev v0).T bhat (env fwd rev v0).ode x.disc
    (1 / 2) := ⟨_, rfl⟩
  have hstep : (embBackend (env fwd rev v0) bhat).step x.disc (fin (1 / 2)) = .ok d := by
    rw [hd]; rfl
  obtain ⟨hval, hest⟩ := guide_first_step fwd rev v0 x.disc
  rw [← hd, hf] at hval hest
  have ht : d.finalTime = 1 / 2 := by
    have := emb_step_time _ _ hstep
    rw [this, ht0]
    norm_num
  have hm : (embBackend (env fwd rev v0) bhat).measure d = .ok (fin ((5 - 7 / 2 * √2) * |x0|)) := by
    change Except.ok (fin |d.errorEstimate 0|) = _
    rw [hest, abs_mul, abs_of_neg (by norm_num at hhi ⊢; linarith)]
    ring_nf
  have hrem : Crit.remaining (.finalTime 1) ((embBackend (env fwd rev v0) bhat).time d)
      = fin (1 / 2) := by
    simp only [Crit.remaining, embBackend, sub_fin, ht]
    norm_num
  have hacc : ∀ err eh sh, (run (pid p) Config.default ⟨err, fin (1 / 2), fin (1 / 2), eh, sh⟩).acc
      = true := fun err eh sh => (run_acc _ _ _).mpr (Or.inr (Or.inl (by simp)))
  have hcall : ∀ err eh sh, ∃ c' st, Ctrl.call true (.deco (integral p) (.base (pid p)
      Config.default) true 0) ⟨err, fin (1 / 2), fin (1 / 2), eh, sh⟩ = (c', .ok st) ∧
      st.acc = true := fun err eh sh => by
    refine ⟨.deco (integral p) (.base (pid p) Config.default) true 0,
      run (pid p) Config.default ⟨err, fin (1 / 2), fin (1 / 2), eh, sh⟩, ?_, hacc err eh sh⟩
    simp only [Ctrl.call, hacc, if_true, not_true_eq_false, false_and, if_false]
  obtain ⟨c', st, hc, hst⟩ := hcall (fin ((5 - 7 / 2 * √2) * |x0|)) x.errHist x.stepHist
  refine ⟨c', ⟨(embBackend (env fwd rev v0) bhat).set x.disc d, st.sugg,
    (fin (1 / 2), x.stepHist.1), (fin ((5 - 7 / 2 * √2) * |x0|), x.errHist.1)⟩, rfl, ?_, ?_, rfl,
    rfl, ?_, ?_⟩
  · obtain ⟨f, hf⟩ := Nat.exists_eq_succ_of_ne_zero (show opt.recursionLimit ≠ 0 by simp [opt])
    rw [hf]
    simp only [iterateOnStep, hs, hstep, opt, if_true, hm, hrem, hc, hst]
  · exact ht
  · exact mul_le_mul_of_nonneg_right (by norm_num at hhi ⊢; linarith) (abs_nonneg _)
  · change _ ≤ |d.finalState 0 - _|
    rw [hval, show (4 * √2 - 4) * x0 - x0 * Real.exp (1 / 2) = (4 * √2 - 4 - Real.exp (1 / 2)) * x0
      from by ring, abs_mul]
    refine mul_le_mul_of_nonneg_right (le_trans ?_ (le_abs_self _)) (abs_nonneg _)
    norm_num at hlo hexp ⊢
    linarith

end Verif.Props
