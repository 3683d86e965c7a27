/-
C92: products with the Jacobian of the example of the user guide with a time-independent input.
-/
import Verif.Props.Guide
import Verif.Props.Sensitivity
import Verif.Props.OpenMDAODeriv

namespace Verif.Props

open Verif.RK Verif.RK.Spec Verif.Control Verif.XReal Verif.Integrator Verif.Tableau Verif.Comp
open Verif.OM (entriesOf Solves SolvesLinear Agree)
open Classical

variable {s n m o l : ℕ}

/-- The Jacobian of the stage problem: the sources have residual `- value`, the row of `k_i` are the
declared partial derivatives. -/
noncomputable def inputJac (v : OM.Vectors ℝ) (h a : ℝ) (e e' : String × ℕ) : ℝ :=
  let p := inputPartials h a (v.inputs "ODE_Comp.x_old" 0) (v.inputs "ODE_Comp.s_i" 0)
    (v.inputs "ODE_Comp.b" 0)
  if e = e' then -1
  else if e = ("ODE_Comp.k_i", 0) then
    if e' = ("_auto_ivc.v0", 0) then p.1
    else if e' = ("_auto_ivc.v1", 0) then p.2.1
    else if e' = ("_auto_ivc.v2", 0) then p.2.2 else 0
  else 0

theorem input_entries : entriesOf inputLayout.outputs = {("_auto_ivc.v0", 0), ("_auto_ivc.v1", 0),
    ("_auto_ivc.v2", 0), ("ODE_Comp.k_i", 0)} := by decide +kernel

theorem input_entries_in : entriesOf inputLayout.inputs = {("ODE_Comp.x_old", 0),
    ("ODE_Comp.s_i", 0), ("ODE_Comp.b", 0)} := by decide +kernel

theorem input_proper : inputLayout.Proper := by constructor <;> decide +kernel

theorem input_fits : OM.Fits inputConf inputLayout := by constructor <;> decide +kernel

theorem input_built : OM.Built inputConf := ⟨inputProblem, 1, ["x"], ["b"], [inputMeta], 0,
  input_setup, rfl⟩

/-- The derivative call at the point an update call recorded applies the declared partial
derivatives. -/
theorem input_derivative {fwd rev} (hJ : SolvesLinear inputLayout (inputEnv fwd rev) inputJac)
    (v0 : OM.Vectors ℝ) (z d : OdeInput ℝ 1 1) (h a : ℝ) :
    let p := inputPartials h a (z.stepInput 0) (z.stageInput 0) (z.independentInput 0)
    ((inputOde fwd rev v0).computeUpdateDerivative
      ((inputOde fwd rev v0).computeUpdate z h a).2 d h a).stageUpdate
      = fun _ => p.1 * d.stepInput 0 + p.2.1 * d.stageInput 0 + p.2.2 * d.independentInput 0 := by
  intro p
  funext i
  obtain rfl : i = 0 := Subsingleton.elim _ _
  set w := (OM.computeUpdate inputConf inputLayout (inputEnv fwd rev) v0 (OM.toInputs z) h a).1
    with hw
  set v := OM.setPoint inputLayout (OM.getPoint inputLayout w) v0 with hv
  set rhs := OM.inputsToVec inputConf (-1) (OM.toInputs d) (fun _ _ => 0) with hrhs
  have key := hJ.fwd v h a rhs
  set x := (inputEnv fwd rev).solveFwd v h a rhs with hx
  have hgoal : ((inputOde fwd rev v0).computeUpdateDerivative
      ((inputOde fwd rev v0).computeUpdate z h a).2 d h a).stageUpdate 0 = x "ODE_Comp.k_i" 0 := by
    have e := OM.omOde_point inputConf inputLayout (inputEnv fwd rev) v0 z h a
    change OM.vecToOutputs inputConf ((inputEnv fwd rev).solveFwd (OM.setPoint inputLayout
      (List.ofFn ((OM.omOde inputConf inputLayout (inputEnv fwd rev) v0).computeUpdate z h a).2)
      v0) h a rhs) (fun _ => 0) 0 = _
    rw [e]
    change OM.vecToOutputs inputConf x (fun _ => 0) 0 = _
    simp [OM.vecToOutputs, inputConf, inputMeta, scalarQuantity, OM.getVar]
  rw [hgoal]
  have hag : Agree inputLayout v w := OM.setPoint_getPoint input_proper _ _
  have w1 : w.inputs "ODE_Comp.x_old" 0 = z.stepInput 0 := by
    simp [hw, OM.computeUpdate, inputEnv, transfer, inputConn, OM.inputsToVec,
      inputConf, inputMeta, OM.writeState, OM.writeTime, scalarQuantity, OM.setVar,
      OM.writeIndep, sourceOf, OM.toInputs, OM.flat, Function.update]
  have w2 : w.inputs "ODE_Comp.s_i" 0 = z.stageInput 0 := by
    simp [hw, OM.computeUpdate, inputEnv, transfer, inputConn, OM.inputsToVec,
      inputConf, inputMeta, OM.writeState, OM.writeTime, scalarQuantity, OM.setVar,
      OM.writeIndep, sourceOf, OM.toInputs, OM.flat, Function.update]
  have w3 : w.inputs "ODE_Comp.b" 0 = z.independentInput 0 := by
    simp [hw, OM.computeUpdate, inputEnv, transfer, inputConn, OM.inputsToVec,
      inputConf, inputMeta, OM.writeState, OM.writeTime, scalarQuantity, OM.setVar,
      OM.writeIndep, sourceOf, OM.toInputs, OM.flat, Function.update]
  have v1 : v.inputs "ODE_Comp.x_old" 0 = z.stepInput 0 :=
    (hag.1 ("ODE_Comp.x_old", 0) (by rw [input_entries_in]; simp)).trans w1
  have v2 : v.inputs "ODE_Comp.s_i" 0 = z.stageInput 0 :=
    (hag.1 ("ODE_Comp.s_i", 0) (by rw [input_entries_in]; simp)).trans w2
  have v3 : v.inputs "ODE_Comp.b" 0 = z.independentInput 0 :=
    (hag.1 ("ODE_Comp.b", 0) (by rw [input_entries_in]; simp)).trans w3
  unfold Solves at key
  rw [input_entries] at key
  have k0 := key ("_auto_ivc.v0", 0) (by simp)
  have k1 := key ("_auto_ivc.v1", 0) (by simp)
  have k2 := key ("_auto_ivc.v2", 0) (by simp)
  have k3 := key ("ODE_Comp.k_i", 0) (by simp)
  have r0 : rhs "_auto_ivc.v0" 0 = -d.stepInput 0 := by
    simp [hrhs, OM.inputsToVec, inputConf, inputMeta, OM.writeState, OM.writeTime, scalarQuantity,
      OM.setVar, OM.writeIndep, sourceOf, inputConn, OM.toInputs, OM.flat, Function.update]
  have r1 : rhs "_auto_ivc.v1" 0 = -d.stageInput 0 := by
    simp [hrhs, OM.inputsToVec, inputConf, inputMeta, OM.writeState, OM.writeTime, scalarQuantity,
      OM.setVar, OM.writeIndep, sourceOf, inputConn, OM.toInputs, OM.flat, Function.update]
  have r2 : rhs "_auto_ivc.v2" 0 = -d.independentInput 0 := by
    simp [hrhs, OM.inputsToVec, inputConf, inputMeta, OM.writeState, OM.writeTime, scalarQuantity,
      OM.setVar, OM.writeIndep, sourceOf, inputConn, OM.toInputs, OM.flat]
  have r3 : rhs "ODE_Comp.k_i" 0 = 0 := by
    simp [hrhs, OM.inputsToVec, inputConf, inputMeta, OM.writeState, OM.writeTime, scalarQuantity,
      OM.setVar, OM.writeIndep, sourceOf, inputConn, OM.toInputs, OM.flat, Function.update]
  simp [inputJac, r0] at k0
  simp [inputJac, r1] at k1
  simp [inputJac, r2] at k2
  simp [inputJac, r3, v1, v2, v3, k0, k1, k2] at k3
  linear_combination -k3

theorem input_jac (t : ℝ) (y p : Fin 1 → ℝ) (τ : ℝ) (d π : Fin 1 → ℝ) :
    jac inputRhs t y p (τ, d, π) = fun x => π x * y x + p x * d x := by
  have h1 : HasDerivAt (fun ε : ℝ => ((t, y, p) : ℝ × (Fin 1 → ℝ) × (Fin 1 → ℝ)) + ε • (τ, d, π))
      (τ, d, π) 0 := by
    simpa using ((hasDerivAt_id (0 : ℝ)).smul_const (τ, d, π)).const_add (t, y, p)
  have hsm : SmoothAll inputRhs 1 := by
    unfold SmoothAll inputRhs
    fun_prop
  have h2 : HasFDerivAt (fun z : ℝ × (Fin 1 → ℝ) × (Fin 1 → ℝ) => inputRhs z.1 z.2.1 z.2.2)
      (jac inputRhs t y p) (((t, y, p) : ℝ × (Fin 1 → ℝ) × (Fin 1 → ℝ)) + (0 : ℝ) • (τ, d, π)) := by
    rw [zero_smul, add_zero]
    exact ((ContDiff.differentiable hsm (by norm_num)) _).hasFDerivAt
  have h3 := h2.comp_hasDerivAt (0 : ℝ) h1
  refine h3.unique ?_
  rw [hasDerivAt_pi]
  intro x
  have k1 : HasDerivAt (fun ε : ℝ => y x + ε * d x) (d x) 0 := by
    simpa using ((hasDerivAt_id (0 : ℝ)).mul_const (d x)).const_add (y x)
  have k2 : HasDerivAt (fun ε : ℝ => p x + ε * π x) (π x) 0 := by
    simpa using ((hasDerivAt_id (0 : ℝ)).mul_const (π x)).const_add (p x)
  refine (k2.mul k1).congr_deriv ?_
  simp only [zero_mul, add_zero]

/-- The derivative of `x0 exp(b (t - t0))` with rate `v` of the initial value and `π` of `b`. -/
noncomputable def inputSens (b x0 t0 v π t : ℝ) : Fin 1 → ℝ := fun _ =>
  (v + π * (t - t0) * x0) * Real.exp (b * (t - t0))

theorem input_isSensitivity (b x0 t0 t1 v π τ : ℝ) :
    IsSensitivity inputRhs (fun _ => b) τ (fun _ => π) (fun t _ => x0 * Real.exp (b * (t - t0)))
      (inputSens b x0 t0 v π) t0 t1 := by
  intro t _
  rw [input_jac, hasDerivWithinAt_pi]
  intro x
  refine HasDerivAt.hasDerivWithinAt ?_
  have h1 : HasDerivAt (fun t : ℝ => v + π * (t - t0) * x0) (π * x0) t := by
    have := ((((hasDerivAt_id t).sub_const t0).const_mul π).mul_const x0).const_add v
    simpa using this
  have h2 := (((hasDerivAt_id t).sub_const t0).const_mul b).exp
  refine (h1.mul h2).congr_deriv ?_
  simp only [inputSens, id]
  ring

theorem input_den {b a h : ℝ} (h0 : 0 ≤ h) (hle : h ≤ min 1 (1 / (2 * (|b| * |a| + 1)))) :
    1 / 2 ≤ 1 - b * h * a ∧ h ≤ 1 := by
  have h1 : h ≤ 1 / (2 * (|b| * |a| + 1)) := hle.trans (min_le_right _ _)
  rw [le_div_iff₀ (by positivity)] at h1
  have h2 : b * h * a ≤ |b| * |a| * h := by
    calc b * h * a ≤ |b * h * a| := le_abs_self _
      _ = |b| * |a| * h := by rw [abs_mul, abs_mul, abs_of_nonneg h0]; ring
  exact ⟨by nlinarith [mul_nonneg (abs_nonneg b) (abs_nonneg a)], hle.trans (min_le_left _ _)⟩

theorem input_bounds {b R h D x y : ℝ} (h0 : 0 ≤ h) (h1 : h ≤ 1) (hD : 1 / 2 ≤ D) (hx : |x| ≤ R)
    (hy : |y| ≤ R) : |b * (x + h * y) / D| ≤ 4 * |b| * |R| := by
  have hR : 0 ≤ R := (abs_nonneg _).trans hx
  have e : |x + h * y| ≤ 2 * R := by
    refine (abs_add_le _ _).trans ?_
    rw [abs_mul, abs_of_nonneg h0]
    have : h * |y| ≤ 1 * R := mul_le_mul h1 hy (abs_nonneg _) zero_le_one
    linarith
  have hD0 : 0 < D := by linarith
  rw [abs_div, abs_mul, abs_of_pos hD0, abs_of_nonneg hR, div_le_iff₀ hD0]
  have h2 : |b| * |x + h * y| ≤ |b| * (2 * R) := mul_le_mul_of_nonneg_left e (abs_nonneg _)
  have h3 : 4 * |b| * R * (1 / 2) ≤ 4 * |b| * R * D := mul_le_mul_of_nonneg_left hD (by positivity)
  linarith

theorem input_nearby (b a : ℝ) (fwd rev v0) :
    SolvesNearby (inputOde fwd rev v0) inputRhs (fun _ => b) 0 a := by
  intro R
  refine ⟨4 * |b| * |R|, min 1 (1 / (2 * (|b| * |a| + 1))), by positivity,
    fun h z h0 hle hz g1 g2 _ => ?_⟩
  obtain ⟨hD, hh1⟩ := input_den h0 hle
  constructor
  · rw [inputOde_update]
    refine (pi_norm_le_iff_of_nonneg (by positivity)).mpr fun x => ?_
    simp only [hz, inputCompute]
    exact input_bounds h0 hh1 hD ((norm_le_pi_norm z.stepInput 0).trans g1)
      ((norm_le_pi_norm z.stageInput 0).trans g2)
  · have := input_solves (ode := inputOde fwd rev v0) (fun z h a => ⟨v0, rfl⟩)
      (by linarith : (1 - b * h * a) ≠ 0) z hz
    rw [hz] at this
    rw [sub_eq_zero.mpr this, norm_zero]

theorem input_linearized (b a : ℝ) {fwd rev}
    (hJ : SolvesLinear inputLayout (inputEnv fwd rev) inputJac) (v0) :
    SolvesLinearized (inputOde fwd rev v0) inputRhs (fun _ => b) 0 a := by
  intro R
  refine ⟨4 * |b| * |R| + 8 * R ^ 2, min 1 (1 / (2 * (|b| * |a| + 1))), by positivity,
    fun h z d h0 hle hz g1 g2 _ g3 g4 g5 _ => ?_⟩
  obtain ⟨hD, hh1⟩ := input_den h0 hle
  have hD0 : 1 - b * h * a ≠ 0 := by linarith
  have hR : 0 ≤ R := (norm_nonneg _).trans g1
  intro k kd
  have hk : k = fun _ => b * (z.stepInput 0 + h * z.stageInput 0) / (1 - b * h * a) := by
    simp only [k, inputOde_update, hz, inputCompute]
  have hkd : kd = fun _ => b * (d.stepInput 0 + h * d.stageInput 0) / (1 - b * h * a)
      + (z.stepInput 0 + h * z.stageInput 0) / (1 - b * h * a) ^ 2 * d.independentInput 0 := by
    simp only [kd, input_derivative hJ, hz, inputPartials]
    funext _
    ring
  constructor
  · rw [hkd]
    refine (pi_norm_le_iff_of_nonneg (by positivity)).mpr fun x => ?_
    refine (norm_add_le _ _).trans (add_le_add ?_ ?_)
    · exact input_bounds h0 hh1 hD ((norm_le_pi_norm d.stepInput 0).trans g3)
        ((norm_le_pi_norm d.stageInput 0).trans g4)
    · have e : |z.stepInput 0 + h * z.stageInput 0| ≤ 2 * R := by
        refine (abs_add_le _ _).trans ?_
        rw [abs_mul, abs_of_nonneg h0]
        have : h * |z.stageInput 0| ≤ 1 * R := mul_le_mul hh1
          ((norm_le_pi_norm z.stageInput 0).trans g2) (abs_nonneg _) zero_le_one
        have := (norm_le_pi_norm z.stepInput 0).trans g1
        rw [Real.norm_eq_abs] at this
        linarith
      have e2 : (1 / 4 : ℝ) ≤ (1 - b * h * a) ^ 2 := by nlinarith
      have e3 : |d.independentInput 0| ≤ R := (norm_le_pi_norm d.independentInput 0).trans g5
      rw [Real.norm_eq_abs, abs_mul, abs_div, abs_of_pos (by linarith : (0 : ℝ) < (1 - b * h * a) ^ 2)]
      have e4 : |z.stepInput 0 + h * z.stageInput 0| / (1 - b * h * a) ^ 2 ≤ 8 * R := by
        rw [div_le_iff₀ (by linarith)]
        nlinarith
      calc _ ≤ 8 * R * R := mul_le_mul e4 e3 (abs_nonneg _) (by positivity)
        _ = 8 * R ^ 2 := by ring
  · rw [input_jac]
    refine le_of_eq ?_
    rw [norm_eq_zero]
    funext x
    obtain rfl : x = 0 := Subsingleton.elim _ _
    simp only [Pi.sub_apply, Pi.zero_apply, hk, hkd]
    field_simp
    ring

theorem input_smooth (q : ℕ) : SmoothAll inputRhs q := by
  unfold SmoothAll inputRhs
  fun_prop

/-! ### The coupled components -/

/-- The Jacobian of the stage problem of the coupled components. -/
def coupledJac (_ : OM.Vectors ℝ) (h a : ℝ) (e e' : String × ℕ) : ℝ :=
  if e = e' then -1
  else if e = ("Coupled_ODE_Comp1.kx_i", 0) then
    if e' = ("_auto_ivc.v0", 0) then (coupledPartials1 h a).1
    else if e' = ("_auto_ivc.v1", 0) then (coupledPartials1 h a).2.1
    else if e' = ("Coupled_ODE_Comp2.ky_i", 0) then (coupledPartials1 h a).2.2 else 0
  else if e = ("Coupled_ODE_Comp2.ky_i", 0) then
    if e' = ("_auto_ivc.v2", 0) then (coupledPartials2 h a).1
    else if e' = ("_auto_ivc.v3", 0) then (coupledPartials2 h a).2.1
    else if e' = ("Coupled_ODE_Comp1.kx_i", 0) then (coupledPartials2 h a).2.2 else 0
  else 0

theorem coupled_entries : entriesOf coupledLayout.outputs = {("_auto_ivc.v0", 0),
    ("_auto_ivc.v1", 0), ("_auto_ivc.v2", 0), ("_auto_ivc.v3", 0), ("Coupled_ODE_Comp1.kx_i", 0),
    ("Coupled_ODE_Comp2.ky_i", 0)} := by decide +kernel

theorem coupled_proper : coupledLayout.Proper := by constructor <;> decide +kernel

theorem coupled_fits : OM.Fits coupledConf coupledLayout := by constructor <;> decide +kernel

theorem coupled_built : OM.Built coupledConf := ⟨coupledProblem, 1, ["x", "y"], [], [coupledMeta], 0,
  coupled_setup, rfl⟩

/-- The derivative call solves the stage equations with the direction as inputs. -/
theorem coupled_derivative {solver fwd rev}
    (hJ : SolvesLinear coupledLayout (coupledEnv solver fwd rev) coupledJac)
    (v0 : OM.Vectors ℝ) (lin : Fin (OM.pointSize coupledLayout) → ℝ) (d : OdeInput ℝ 2 0) (h a : ℝ) :
    let kd := ((coupledOde solver fwd rev v0).computeUpdateDerivative lin d h a).stageUpdate
    kd 0 = -(d.stepInput 1 + h * (d.stageInput 1 + a * kd 1)) ∧
    kd 1 = d.stepInput 0 + h * (d.stageInput 0 + a * kd 0) := by
  intro kd
  set v := OM.setPoint coupledLayout (List.ofFn lin) v0 with hv
  set rhs := OM.inputsToVec coupledConf (-1) (OM.toInputs d) (fun _ _ => 0) with hrhs
  have key := hJ.fwd v h a rhs
  set x := (coupledEnv solver fwd rev).solveFwd v h a rhs with hx
  have e0 : kd 0 = x "Coupled_ODE_Comp1.kx_i" 0 := by
    change OM.vecToOutputs coupledConf x (fun _ => 0) 0 = _
    simp [OM.vecToOutputs, coupledConf, coupledMeta, scalarQuantity, OM.getVar]
  have e1 : kd 1 = x "Coupled_ODE_Comp2.ky_i" 0 := by
    change OM.vecToOutputs coupledConf x (fun _ => 0) 1 = _
    simp [OM.vecToOutputs, coupledConf, coupledMeta, scalarQuantity, OM.getVar]
  rw [e0, e1]
  unfold Solves at key
  rw [coupled_entries] at key
  have k0 := key ("_auto_ivc.v0", 0) (by simp)
  have k1 := key ("_auto_ivc.v1", 0) (by simp)
  have k2 := key ("_auto_ivc.v2", 0) (by simp)
  have k3 := key ("_auto_ivc.v3", 0) (by simp)
  have k4 := key ("Coupled_ODE_Comp1.kx_i", 0) (by simp)
  have k5 := key ("Coupled_ODE_Comp2.ky_i", 0) (by simp)
  have r0 : rhs "_auto_ivc.v0" 0 = -d.stepInput 1 := by
    simp [hrhs, OM.inputsToVec, coupledConf, coupledMeta, OM.writeState, OM.writeTime,
      scalarQuantity, OM.setVar, sourceOf, coupledConn, OM.toInputs, OM.flat,
      Function.update]
  have r1 : rhs "_auto_ivc.v1" 0 = -d.stageInput 1 := by
    simp [hrhs, OM.inputsToVec, coupledConf, coupledMeta, OM.writeState, OM.writeTime,
      scalarQuantity, OM.setVar, sourceOf, coupledConn, OM.toInputs, OM.flat]
  have r2 : rhs "_auto_ivc.v2" 0 = -d.stepInput 0 := by
    simp [hrhs, OM.inputsToVec, coupledConf, coupledMeta, OM.writeState, OM.writeTime,
      scalarQuantity, OM.setVar, sourceOf, coupledConn, OM.toInputs, OM.flat,
      Function.update]
  have r3 : rhs "_auto_ivc.v3" 0 = -d.stageInput 0 := by
    simp [hrhs, OM.inputsToVec, coupledConf, coupledMeta, OM.writeState, OM.writeTime,
      scalarQuantity, OM.setVar, sourceOf, coupledConn, OM.toInputs, OM.flat,
      Function.update]
  have r4 : rhs "Coupled_ODE_Comp1.kx_i" 0 = 0 := by
    simp [hrhs, OM.inputsToVec, coupledConf, coupledMeta, OM.writeState, OM.writeTime,
      scalarQuantity, OM.setVar, sourceOf, coupledConn, OM.toInputs, OM.flat,
      Function.update]
  have r5 : rhs "Coupled_ODE_Comp2.ky_i" 0 = 0 := by
    simp [hrhs, OM.inputsToVec, coupledConf, coupledMeta, OM.writeState, OM.writeTime,
      scalarQuantity, OM.setVar, sourceOf, coupledConn, OM.toInputs, OM.flat,
      Function.update]
  simp [coupledJac, r0] at k0
  simp [coupledJac, r1] at k1
  simp [coupledJac, r2] at k2
  simp [coupledJac, r3] at k3
  simp [coupledJac, coupledPartials1, r4, k0, k1] at k4
  simp [coupledJac, coupledPartials2, r5, k2, k3] at k5
  exact ⟨by linear_combination -k4, by linear_combination -k5⟩

theorem rot_smooth (q : ℕ) : SmoothAll rotRhs q := by
  refine contDiff_pi.mpr fun x => ?_
  have h0 : ContDiff ℝ q fun z : ℝ × (Fin 2 → ℝ) × (Fin 0 → ℝ) => z.2.1 0 := by fun_prop
  have h1 : ContDiff ℝ q fun z : ℝ × (Fin 2 → ℝ) × (Fin 0 → ℝ) => z.2.1 1 := by fun_prop
  fin_cases x
  · exact h1.neg
  · exact h0

theorem rot_jac (t : ℝ) (y : Fin 2 → ℝ) (p : Fin 0 → ℝ) (τ : ℝ) (d : Fin 2 → ℝ) (π : Fin 0 → ℝ) :
    jac rotRhs t y p (τ, d, π) = rotRhs t d p := by
  have h1 : HasDerivAt (fun ε : ℝ => ((t, y, p) : ℝ × (Fin 2 → ℝ) × (Fin 0 → ℝ)) + ε • (τ, d, π))
      (τ, d, π) 0 := by
    simpa using ((hasDerivAt_id (0 : ℝ)).smul_const (τ, d, π)).const_add (t, y, p)
  have h2 : HasFDerivAt (fun z : ℝ × (Fin 2 → ℝ) × (Fin 0 → ℝ) => rotRhs z.1 z.2.1 z.2.2)
      (jac rotRhs t y p) (((t, y, p) : ℝ × (Fin 2 → ℝ) × (Fin 0 → ℝ)) + (0 : ℝ) • (τ, d, π)) := by
    rw [zero_smul, add_zero]
    exact ((ContDiff.differentiable (rot_smooth 1) (by norm_num)) _).hasFDerivAt
  have h3 := h2.comp_hasDerivAt (0 : ℝ) h1
  refine h3.unique ?_
  rw [hasDerivAt_pi]
  intro x
  have k1 : ∀ x, HasDerivAt (fun ε : ℝ => y x + ε * d x) (d x) 0 := fun x => by
    simpa using ((hasDerivAt_id (0 : ℝ)).mul_const (d x)).const_add (y x)
  fin_cases x
  · exact (k1 1).neg
  · exact k1 0

theorem rot_isSensitivity (x0 y0 t0 t1 : ℝ) (v : Fin 2 → ℝ) (τ : ℝ) :
    IsSensitivity rotRhs ![] τ ![] (rotExact x0 y0 t0) (rotExact (v 0) (v 1) t0) t0 t1 := by
  intro t ht
  rw [rot_jac]
  exact rot_isSolution (v 0) (v 1) t0 t1 t ht

theorem rot_nearby {τ a : ℝ} (hτ : τ ≤ 1) {h1 : ℝ → ℝ} (hh1 : ∀ R, 0 < h1 R)
    {ode : ODE ℝ 2 0 o l} (hN : RotUpTo τ h1 ode a) : SolvesNearby ode rotRhs ![] τ a := fun R =>
  ⟨_, _, lt_min (hh1 R) (lt_min one_pos (by positivity)), rot_upTo hτ le_rfl hN R⟩

theorem coupled_linearized {solver fwd rev}
    (hJ : SolvesLinear coupledLayout (coupledEnv solver fwd rev) coupledJac) (v0) (τ a : ℝ)
    (hτ : 0 ≤ τ) : SolvesLinearized (coupledOde solver fwd rev v0) rotRhs ![] τ a := by
  intro R
  refine ⟨4 * |R| + 2, min 1 (min 1 (1 / (2 * (|a| + 1)))), by positivity,
    fun h z d h0 hle _ _ _ _ g3 g4 g5 g6 => ?_⟩
  intro k kd
  let ode' : ODE ℝ 2 0 0 (OM.pointSize coupledLayout) :=
    { coupledOde solver fwd rev v0 with
      computeUpdate := fun d h a => ((coupledOde solver fwd rev v0).computeUpdateDerivative
        ((coupledOde solver fwd rev v0).computeUpdate z h a).2 d h a, 0) }
  have hR : RotUpTo 0 (fun _ => 1) ode' a := by
    intro R h d _ _ _ _
    obtain ⟨e1, e2⟩ := coupled_derivative hJ v0
      ((coupledOde solver fwd rev v0).computeUpdate z h a).2 d h a
    exact ⟨(abs_eq_zero.mpr (add_eq_zero_iff_eq_neg.mpr e1)).le,
      (abs_eq_zero.mpr (sub_eq_zero.mpr e2)).le⟩
  obtain ⟨b1, b2⟩ := rot_upTo zero_le_one le_rfl hR R h d h0 hle (Subsingleton.elim _ _) g3 g4 g6
  refine ⟨b1, ?_⟩
  rw [rot_jac]
  exact b2.trans hτ

/-! ### C92 -/

section
variable {D : Type} {B : Backend D (StartingValues ℝ n m) (Outputs n)} {R : Restore D}
  {clean : D → Prop} {End : Options → Ctrl → ℝ → ℝ → ℝ → Prop} {p π : Fin m → ℝ}
  {τ t0 t1 h1 h1' r r' : ℝ} {y δ : ℝ → Fin n → ℝ} {err err' : ℝ → ℝ → ℝ}

theorem _root_.Verif.Props.ForwardWithin.weaken
    (h : ForwardWithin B End p τ π y δ t0 t1 h1 r err)
    (hE : ∀ opt c t0 H t', End opt c t0 H t' → 0 ≤ H) (hh : h1' ≤ h1) (hr : r' ≤ r)
    (he : ∀ e0 H, 0 ≤ e0 → 0 ≤ H → err e0 H ≤ err' e0 H) :
    ForwardWithin B End p τ π y δ t0 t1 h1' r' err' := by
  intro σ opt H t' fuel w w' i di dO v a1 a2 a3 a4 a5 a6 a7 a8 a9
  obtain ⟨b1, b2⟩ := h σ opt H t' fuel w w' i di dO v a1 (a2.trans_le hh) a3 a4 a5 a6 a7
    (a8.trans hr) a9
  exact ⟨b1, b2.trans (he _ _ (le_max_of_le_left (norm_nonneg _)) (hE _ _ _ _ _ a1))⟩

theorem _root_.Verif.Props.ReverseWithin.weaken
    (h : ReverseWithin B R clean End p τ π y δ t0 t1 h1 r err)
    (hE : ∀ opt c t0 H t', End opt c t0 H t' → 0 ≤ H) (hh : h1' ≤ h1) (hr : r' ≤ r)
    (he : ∀ e0 H, 0 ≤ e0 → 0 ≤ H → err e0 H ≤ err' e0 H) :
    ReverseWithin B R clean End p τ π y δ t0 t1 h1' r' err' := by
  intro opt c H t' i dI g dO a1 a2 a3 a4 a5 a6 a7
  exact (h opt c H t' i dI g dO a1 (a2.trans_le hh) a3 a4 a5 (a6.trans hr) a7).trans
    (mul_le_mul_of_nonneg_left (he _ _ (norm_nonneg _) (hE _ _ _ _ _ a1))
      (Finset.sum_nonneg fun _ _ => abs_nonneg _))

theorem weaken_err {K K' C C' ε : ℝ} {q : ℕ} (hε : 0 ≤ ε) (hK : K ≤ K') (hC : C ≤ C') :
    ∀ e0 H : ℝ, 0 ≤ e0 → 0 ≤ H → K * (e0 + ε) + C * H ^ q ≤ K' * (e0 + ε) + C' * H ^ q :=
  fun e0 H h1 h2 => add_le_add (mul_le_mul_of_nonneg_right hK (by linarith))
    (mul_le_mul_of_nonneg_right hC (pow_nonneg h2 _))

end

/-- C92, `x' = b x` with the plain shipped tableaux: forward products with rates `v` of the
initial value and `π` of `b` converge to `(v + π (t - t0) x0) exp(b (t - t0))`, and reverse products to
the transpose, with the order of the scheme. -/
theorem C92_input {q : ℕ} (hq : 1 ≤ q) (b x0 t0 t1 v π τ : ℝ) : ∃ K r : ℝ, 0 < K ∧ 0 < r ∧
    ∀ e ∈ plainShipped, e.tab.p = some q → ∀ (v0 : OM.Vectors ℝ) (fwd rev)
      (E : Env e.tab.stages 1 1 0 (OM.pointSize inputLayout)), E.T = e.tab.coeffs →
      E.ode = inputOde fwd rev v0 → SolvesLinear inputLayout (inputEnv fwd rev) inputJac →
      ∃ C h1 : ℝ, 0 < C ∧ 0 < h1 ∧
        ForwardWithin (rkBackend E) FixedEnd (fun _ => b) τ (fun _ => π)
          (fun t _ => x0 * Real.exp (b * (t - t0))) (inputSens b x0 t0 v π) t0 t1 h1 (r - e.tol)
          (fun e0 h => K * (e0 + e.tol) + C * h ^ q) ∧
        ReverseWithin (rkBackend E) rkRestore (fun d => d.stageStates = 0) FixedEnd (fun _ => b) τ
          (fun _ => π) (fun t _ => x0 * Real.exp (b * (t - t0))) (inputSens b x0 t0 v π) t0 t1 h1
          (r - e.tol) (fun e0 h => K * (e0 + e.tol) + C * h ^ q) := by
  obtain ⟨β, hβ, -⟩ := shipped_weights
  obtain ⟨K, r, hK, hr, hF⟩ := C81_forward hq (input_smooth (q + 1))
    (input_isSolution b x0 t0 t1) (input_isSensitivity b x0 t0 t1 v π τ) β
  obtain ⟨K', r', hK', hr', hR⟩ := C81_reverse hq (input_smooth (q + 1))
    (input_isSolution b x0 t0 t1) (input_isSensitivity b x0 t0 t1 v π τ) β
  refine ⟨max K K', min r r', lt_max_of_lt_left hK, lt_min hr hr', fun e he hp v0 fwd rev E hT hode
    hJ => ?_⟩
  have hA : Accurate E.T β e.tol q := hT ▸ plain_accurate e he hp (hβ e he)
  have hn : ∀ i, SolvesNearby E.ode inputRhs (fun _ => b) 0 (E.T.A i i) := fun i =>
    hode ▸ input_nearby b _ fwd rev v0
  have hl : ∀ i, SolvesLinearized E.ode inputRhs (fun _ => b) 0 (E.T.A i i) := fun i =>
    hode ▸ input_linearized b _ hJ v0
  obtain ⟨C, h1, hC, hh1, H⟩ := hF _ _ _ E e.tol 0 hA le_rfl hn hl
  obtain ⟨C', h1', hC', hh1', H'⟩ := hR _ _ _ E e.tol 0 hA le_rfl hn hl
    (hode ▸ OM.omOde_noStageState _ _ _ _) (fun lin h i => hode ▸ OM.omOde_adjoint
      (built_sound input_built) input_proper input_fits v0 hJ lin h _)
  rw [sub_zero] at H H'
  simp only [add_zero] at H H'
  have hE : ∀ opt c t0 H t', FixedEnd opt c t0 H t' → 0 ≤ H := fun _ _ _ _ _ h => h.nonneg
  exact ⟨max C C', min h1 h1', lt_max_of_lt_left hC, lt_min hh1 hh1',
    H.weaken hE (min_le_left _ _) (sub_le_sub_right (min_le_left _ _) _)
      (weaken_err hA.nonneg (le_max_left _ _) (le_max_left _ _)),
    H'.weaken hE (min_le_right _ _) (sub_le_sub_right (min_le_right _ _) _)
      (weaken_err hA.nonneg (le_max_right _ _) (le_max_right _ _))⟩

/-- C92, `x' = b x` with the shipped embedded tableaux, adaptive runs included: forward products with
rates `v` of the initial value and `π` of `b` converge to `(v + π (t - t0) x0) exp(b (t - t0))`, and
reverse products to the transpose, with the order of the scheme. -/
theorem C92_input_embedded {q : ℕ} (hq : 1 ≤ q) (b x0 t0 t1 v π τ : ℝ) : ∃ K r : ℝ, 0 < K ∧ 0 < r ∧
    ∀ e ∈ embShipped, e.tab.p = some q → ∀ (v0 : OM.Vectors ℝ) (fwd rev)
      (E : Env e.tab.stages 1 1 0 (OM.pointSize inputLayout)), E.T = e.tab.coeffs →
      E.ode = inputOde fwd rev v0 → SolvesLinear inputLayout (inputEnv fwd rev) inputJac →
      ∃ C h1 : ℝ, 0 < C ∧ 0 < h1 ∧
        ForwardWithin (embBackend E e.tab.bhat) AnyEnd (fun _ => b) τ (fun _ => π)
          (fun t _ => x0 * Real.exp (b * (t - t0))) (inputSens b x0 t0 v π) t0 t1 h1 (r - e.tol)
          (fun e0 h => K * (e0 + e.tol) + C * h ^ q) ∧
        ReverseWithin (embBackend E e.tab.bhat) embRestore (fun d => d.stageStates = 0) AnyEnd (fun _ => b) τ
          (fun _ => π) (fun t _ => x0 * Real.exp (b * (t - t0))) (inputSens b x0 t0 v π) t0 t1 h1
          (r - e.tol) (fun e0 h => K * (e0 + e.tol) + C * h ^ q) := by
  obtain ⟨β, -, hβ⟩ := shipped_weights
  obtain ⟨K, r, hK, hr, hF⟩ := C81_forward_embedded hq (input_smooth (q + 1))
    (input_isSolution b x0 t0 t1) (input_isSensitivity b x0 t0 t1 v π τ) β
  obtain ⟨K', r', hK', hr', hR⟩ := C81_reverse_embedded hq (input_smooth (q + 1))
    (input_isSolution b x0 t0 t1) (input_isSensitivity b x0 t0 t1 v π τ) β
  refine ⟨max K K', min r r', lt_max_of_lt_left hK, lt_min hr hr', fun e he hp v0 fwd rev E hT hode
    hJ => ?_⟩
  have hA : Accurate E.T β e.tol q := hT ▸ emb_accurate e he hp (hβ e he)
  have hn : ∀ i, SolvesNearby E.ode inputRhs (fun _ => b) 0 (E.T.A i i) := fun i =>
    hode ▸ input_nearby b _ fwd rev v0
  have hl : ∀ i, SolvesLinearized E.ode inputRhs (fun _ => b) 0 (E.T.A i i) := fun i =>
    hode ▸ input_linearized b _ hJ v0
  obtain ⟨C, h1, hC, hh1, H⟩ := hF _ _ _ E e.tab.bhat e.tol 0 hA le_rfl hn hl
  obtain ⟨C', h1', hC', hh1', H'⟩ := hR _ _ _ E e.tab.bhat e.tol 0 hA le_rfl hn hl
    (hode ▸ OM.omOde_noStageState _ _ _ _) (fun lin h i => hode ▸ OM.omOde_adjoint
      (built_sound input_built) input_proper input_fits v0 hJ lin h _)
  rw [sub_zero] at H H'
  simp only [add_zero] at H H'
  have hE : ∀ opt c t0 H t', AnyEnd opt c t0 H t' → 0 ≤ H := fun _ _ _ _ _ h => h.nonneg
  exact ⟨max C C', min h1 h1', lt_max_of_lt_left hC, lt_min hh1 hh1',
    H.weaken hE (min_le_left _ _) (sub_le_sub_right (min_le_left _ _) _)
      (weaken_err hA.nonneg (le_max_left _ _) (le_max_left _ _)),
    H'.weaken hE (min_le_right _ _) (sub_le_sub_right (min_le_right _ _) _)
      (weaken_err hA.nonneg (le_max_right _ _) (le_max_right _ _))⟩

/-- C92, the coupled components with the plain shipped tableaux: forward products converge to the
rotation of the direction, and reverse products to the transpose. -/
theorem C92_coupled {q : ℕ} (hq : 1 ≤ q) (x0 y0 t0 t1 : ℝ) (v : Fin 2 → ℝ) (σ : ℝ) :
    ∃ K r : ℝ, 0 < K ∧ 0 < r ∧
    ∀ e ∈ plainShipped, e.tab.p = some q → ∀ (τ : ℝ) (h0 : ℝ → ℝ) (v0 : OM.Vectors ℝ)
      (solver : CoupledSolver) (fwd rev) (E : Env e.tab.stages 2 0 0 (OM.pointSize coupledLayout)),
      0 ≤ τ → τ ≤ 1 → (∀ R, 0 < h0 R) → E.T = e.tab.coeffs →
      E.ode = coupledOde solver fwd rev v0 →
      (∀ i, CoupledConverges τ h0 (e.tab.A i i) solver) →
      SolvesLinear coupledLayout (coupledEnv solver fwd rev) coupledJac →
      ∃ C h1 : ℝ, 0 < C ∧ 0 < h1 ∧
        ForwardWithin (rkBackend E) FixedEnd ![] σ ![] (rotExact x0 y0 t0) (rotExact (v 0) (v 1) t0)
          t0 t1 h1 (r - e.tol - τ) (fun e0 h => K * (e0 + (e.tol + τ)) + C * h ^ q) ∧
        ReverseWithin (rkBackend E) rkRestore (fun d => d.stageStates = 0) FixedEnd ![] σ ![]
          (rotExact x0 y0 t0) (rotExact (v 0) (v 1) t0) t0 t1 h1 (r - e.tol - τ)
          (fun e0 h => K * (e0 + (e.tol + τ)) + C * h ^ q) := by
  obtain ⟨β, hβ, -⟩ := shipped_weights
  obtain ⟨K, r, hK, hr, hF⟩ := C81_forward hq (rot_smooth (q + 1))
    (rot_isSolution x0 y0 t0 t1) (rot_isSensitivity x0 y0 t0 t1 v σ) β
  obtain ⟨K', r', hK', hr', hR⟩ := C81_reverse hq (rot_smooth (q + 1))
    (rot_isSolution x0 y0 t0 t1) (rot_isSensitivity x0 y0 t0 t1 v σ) β
  refine ⟨max K K', min r r', lt_max_of_lt_left hK, lt_min hr hr', fun e he hp τ h0 v0 solver fwd
    rev E hτ hτ1 hh0 hT hode hN hJ => ?_⟩
  have hA : Accurate E.T β e.tol q := hT ▸ plain_accurate e he hp (hβ e he)
  have hn : ∀ i, SolvesNearby E.ode rotRhs ![] τ (E.T.A i i) := fun i => by
    rw [hode, hT]
    exact rot_nearby hτ1 hh0 (coupled_upTo (hN i) fun z h a => ⟨v0, rfl⟩)
  have hl : ∀ i, SolvesLinearized E.ode rotRhs ![] τ (E.T.A i i) := fun i =>
    hode ▸ coupled_linearized hJ v0 τ _ hτ
  obtain ⟨C, h1, hC, hh1, H⟩ := hF _ _ _ E e.tol τ hA hτ hn hl
  obtain ⟨C', h1', hC', hh1', H'⟩ := hR _ _ _ E e.tol τ hA hτ hn hl
    (hode ▸ OM.omOde_noStageState _ _ _ _) (fun lin h i => hode ▸ OM.omOde_adjoint
      (built_sound coupled_built) coupled_proper coupled_fits v0 hJ lin h _)
  simp only [add_assoc] at H H'
  have hE : ∀ opt c t0 H t', FixedEnd opt c t0 H t' → 0 ≤ H := fun _ _ _ _ _ h => h.nonneg
  have hε : 0 ≤ e.tol + τ := add_nonneg hA.nonneg hτ
  exact ⟨max C C', min h1 h1', lt_max_of_lt_left hC, lt_min hh1 hh1',
    H.weaken hE (min_le_left _ _) (sub_le_sub_right (sub_le_sub_right (min_le_left _ _) _) _)
      (weaken_err hε (le_max_left _ _) (le_max_left _ _)),
    H'.weaken hE (min_le_right _ _) (sub_le_sub_right (sub_le_sub_right (min_le_right _ _) _) _)
      (weaken_err hε (le_max_right _ _) (le_max_right _ _))⟩

/-- C92, the coupled components with the shipped embedded tableaux, adaptive runs included: forward
products converge to the rotation of the direction, and reverse products to the transpose. -/
theorem C92_coupled_embedded {q : ℕ} (hq : 1 ≤ q) (x0 y0 t0 t1 : ℝ) (v : Fin 2 → ℝ) (σ : ℝ) :
    ∃ K r : ℝ, 0 < K ∧ 0 < r ∧
    ∀ e ∈ embShipped, e.tab.p = some q → ∀ (τ : ℝ) (h0 : ℝ → ℝ) (v0 : OM.Vectors ℝ)
      (solver : CoupledSolver) (fwd rev) (E : Env e.tab.stages 2 0 0 (OM.pointSize coupledLayout)),
      0 ≤ τ → τ ≤ 1 → (∀ R, 0 < h0 R) → E.T = e.tab.coeffs →
      E.ode = coupledOde solver fwd rev v0 →
      (∀ i, CoupledConverges τ h0 (e.tab.A i i) solver) →
      SolvesLinear coupledLayout (coupledEnv solver fwd rev) coupledJac →
      ∃ C h1 : ℝ, 0 < C ∧ 0 < h1 ∧
        ForwardWithin (embBackend E e.tab.bhat) AnyEnd ![] σ ![] (rotExact x0 y0 t0) (rotExact (v 0) (v 1) t0)
          t0 t1 h1 (r - e.tol - τ) (fun e0 h => K * (e0 + (e.tol + τ)) + C * h ^ q) ∧
        ReverseWithin (embBackend E e.tab.bhat) embRestore (fun d => d.stageStates = 0) AnyEnd ![] σ ![]
          (rotExact x0 y0 t0) (rotExact (v 0) (v 1) t0) t0 t1 h1 (r - e.tol - τ)
          (fun e0 h => K * (e0 + (e.tol + τ)) + C * h ^ q) := by
  obtain ⟨β, -, hβ⟩ := shipped_weights
  obtain ⟨K, r, hK, hr, hF⟩ := C81_forward_embedded hq (rot_smooth (q + 1))
    (rot_isSolution x0 y0 t0 t1) (rot_isSensitivity x0 y0 t0 t1 v σ) β
  obtain ⟨K', r', hK', hr', hR⟩ := C81_reverse_embedded hq (rot_smooth (q + 1))
    (rot_isSolution x0 y0 t0 t1) (rot_isSensitivity x0 y0 t0 t1 v σ) β
  refine ⟨max K K', min r r', lt_max_of_lt_left hK, lt_min hr hr', fun e he hp τ h0 v0 solver fwd
    rev E hτ hτ1 hh0 hT hode hN hJ => ?_⟩
  have hA : Accurate E.T β e.tol q := hT ▸ emb_accurate e he hp (hβ e he)
  have hn : ∀ i, SolvesNearby E.ode rotRhs ![] τ (E.T.A i i) := fun i => by
    rw [hode, hT]
    exact rot_nearby hτ1 hh0 (coupled_upTo (hN i) fun z h a => ⟨v0, rfl⟩)
  have hl : ∀ i, SolvesLinearized E.ode rotRhs ![] τ (E.T.A i i) := fun i =>
    hode ▸ coupled_linearized hJ v0 τ _ hτ
  obtain ⟨C, h1, hC, hh1, H⟩ := hF _ _ _ E e.tab.bhat e.tol τ hA hτ hn hl
  obtain ⟨C', h1', hC', hh1', H'⟩ := hR _ _ _ E e.tab.bhat e.tol τ hA hτ hn hl
    (hode ▸ OM.omOde_noStageState _ _ _ _) (fun lin h i => hode ▸ OM.omOde_adjoint
      (built_sound coupled_built) coupled_proper coupled_fits v0 hJ lin h _)
  simp only [add_assoc] at H H'
  have hE : ∀ opt c t0 H t', AnyEnd opt c t0 H t' → 0 ≤ H := fun _ _ _ _ _ h => h.nonneg
  have hε : 0 ≤ e.tol + τ := add_nonneg hA.nonneg hτ
  exact ⟨max C C', min h1 h1', lt_max_of_lt_left hC, lt_min hh1 hh1',
    H.weaken hE (min_le_left _ _) (sub_le_sub_right (sub_le_sub_right (min_le_left _ _) _) _)
      (weaken_err hε (le_max_left _ _) (le_max_left _ _)),
    H'.weaken hE (min_le_right _ _) (sub_le_sub_right (sub_le_sub_right (min_le_right _ _) _) _)
      (weaken_err hε (le_max_right _ _) (le_max_right _ _))⟩

/-! ### The optimization of the guide -/

/-- C92: the products of the objective component are its derivative and the transpose. -/
theorem C92_objective (x y dx dy dsq : ℝ) :
    HasDerivAt (fun ε => objCompute (x + ε * dx) (y + ε * dy)) (objFwd x y dx dy 0) 0 ∧
    (∀ d, objFwd x y dx dy d = d + objFwd x y dx dy 0) ∧
    ∀ ex ey, (objRev x y dsq ex ey).1 * dx + (objRev x y dsq ex ey).2 * dy
      = ex * dx + ey * dy + dsq * objFwd x y dx dy 0 := by
  refine ⟨?_, fun d => ?_, fun ex ey => ?_⟩
  · have k : ∀ c d : ℝ, HasDerivAt (fun ε : ℝ => c + ε * d) d 0 := fun c d => by
      simpa using ((hasDerivAt_id (0 : ℝ)).mul_const d).const_add c
    refine ((((k x dx).sub_const 1).pow 2).add ((k y dy).pow 2)).congr_deriv ?_
    simp [objFwd]
  · simp only [objFwd]
    ring
  · simp only [objRev, objFwd]
    ring

/-- The objective as a function of the initial values, for the exact solution. -/
noncomputable def exactObjective (x0 y0 t0 t : ℝ) : ℝ :=
  objCompute (rotExact x0 y0 t0 t 0) (rotExact x0 y0 t0 t 1)

/-- C92: its gradient, which vanishes only at the initial values from which the solution arrives
at `(1, 0)`. -/
theorem C92_exact_gradient (x0 y0 t0 t : ℝ) :
    HasDerivAt (fun x => exactObjective x y0 t0 t) (2 * (x0 - Real.cos (t - t0))) x0 ∧
    HasDerivAt (fun y => exactObjective x0 y t0 t) (2 * (y0 + Real.sin (t - t0))) y0 ∧
    (2 * (x0 - Real.cos (t - t0)) = 0 ∧ 2 * (y0 + Real.sin (t - t0)) = 0 ↔
      rotExact x0 y0 t0 t = ![1, 0]) := by
  have hs := Real.sin_sq_add_cos_sq (t - t0)
  have e : ∀ x y, exactObjective x y t0 t
      = (x - Real.cos (t - t0)) ^ 2 + (y + Real.sin (t - t0)) ^ 2 := fun x y => by
    simp only [exactObjective, objCompute, rotExact, Matrix.cons_val_zero, Matrix.cons_val_one]
    linear_combination (x ^ 2 + y ^ 2 - 1) * hs
  refine ⟨?_, ?_, ?_⟩
  · simp only [e]
    refine (((((hasDerivAt_id x0).sub_const _).pow 2).add_const _)).congr_deriv ?_
    simp
  · simp only [e]
    refine (((((hasDerivAt_id y0).add_const _).pow 2).const_add _)).congr_deriv ?_
    simp
  · constructor
    · rintro ⟨h1, h2⟩
      have h1' : x0 = Real.cos (t - t0) := by linarith
      have h2' : y0 = -Real.sin (t - t0) := by linarith
      funext i
      fin_cases i
      · simp [rotExact, h1', h2']
        linear_combination hs
      · simp [rotExact, h1', h2']
        ring
    · intro h
      have h1 := congrFun h 0
      have h2 := congrFun h 1
      simp only [rotExact, Matrix.cons_val_zero, Matrix.cons_val_one] at h1 h2
      constructor
      · linear_combination 2 * Real.cos (t - t0) * h1 + 2 * Real.sin (t - t0) * h2 - 2 * x0 * hs
      · linear_combination 2 * Real.cos (t - t0) * h2 - 2 * Real.sin (t - t0) * h1 - 2 * y0 * hs

/-- `v` is the result of the integrator, with one of the two simple checkpointers or with
pyrevolve. -/
inductive Computes (E : Env s n m o l) (opt : Options) (i : StartingValues ℝ n m) (v : Outputs n) :
    Prop
  | simple (fuel : ℕ) (ch : Choice) (w w' : World (RKState ℝ s n m o l) (ch.Data _)) :
      compute (rkBackend E) opt (ch.ck (rkBackend E) opt) fuel w i = (w', .ok v) → Computes E opt i v
  | pyrevolve (N fuel : ℕ) (sched : Schedule) (sl : ℕ → Option ℕ)
      (e : IState (RKState ℝ s n m o l)) (w w' : World (RKState ℝ s n m o l) (PyData _)) :
      opt.crit = .steps (N + 1) → LegalF N sched.fwd 0 (fun _ => none) sl →
      compute (rkBackend E) opt (pyCk (rkBackend E) opt rkRestore e N sched) fuel w i = (w', .ok v) →
      Computes E opt i v

theorem gradient_bound {x0 y0 c s xN yN g e : ℝ} {S : ℝ} (hcs : s ^ 2 + c ^ 2 = 1)
    (hx : |xN - (x0 * c - y0 * s)| ≤ e) (hy : |yN - (x0 * s + y0 * c)| ≤ e)
    (hg : |g - S| ≤ (|2 * (xN - 1)| + |2 * yN|) * e) :
    (S = 2 * (xN - 1) * c + 2 * yN * s → |g - 2 * (x0 - c)| ≤ (4 * (|x0| + |y0|) + 6 + 4 * e) * e) ∧
    (S = -(2 * (xN - 1) * s) + 2 * yN * c →
      |g - 2 * (y0 + s)| ≤ (4 * (|x0| + |y0|) + 6 + 4 * e) * e) := by
  have he : 0 ≤ e := (abs_nonneg _).trans hx
  have hc : |c| ≤ 1 := abs_le_one_iff_mul_self_le_one.mpr (by nlinarith [sq_nonneg s])
  have hs : |s| ≤ 1 := abs_le_one_iff_mul_self_le_one.mpr (by nlinarith [sq_nonneg c])
  have hm : ∀ a b : ℝ, |b| ≤ 1 → |a * b| ≤ |a| := fun a b hb => by
    rw [abs_mul]
    exact mul_le_of_le_one_right (abs_nonneg _) hb
  have b1 : |2 * (xN - 1)| ≤ 2 * (|x0| + |y0| + 1 + e) := by
    rw [abs_mul, abs_two]
    have : xN - 1 = (xN - (x0 * c - y0 * s)) + (x0 * c) - y0 * s - 1 := by ring
    rw [this]
    have h1 := abs_sub ((xN - (x0 * c - y0 * s)) + (x0 * c) - y0 * s) 1
    have h2 := abs_sub ((xN - (x0 * c - y0 * s)) + (x0 * c)) (y0 * s)
    have h3 := abs_add_le (xN - (x0 * c - y0 * s)) (x0 * c)
    rw [abs_one] at h1
    linarith [hm x0 c hc, hm y0 s hs]
  have b2 : |2 * yN| ≤ 2 * (|x0| + |y0| + e) := by
    rw [abs_mul, abs_two]
    have : yN = (yN - (x0 * s + y0 * c)) + (x0 * s) + y0 * c := by ring
    rw [this]
    have h2 := abs_add_le ((yN - (x0 * s + y0 * c)) + (x0 * s)) (y0 * c)
    have h3 := abs_add_le (yN - (x0 * s + y0 * c)) (x0 * s)
    have h4 := hm x0 s hs
    have h5 := hm y0 c hc
    linarith
  have b3 : (|2 * (xN - 1)| + |2 * yN|) * e ≤ (4 * (|x0| + |y0|) + 2 + 4 * e) * e :=
    mul_le_mul_of_nonneg_right (by linarith) he
  constructor
  · intro hS
    have : g - 2 * (x0 - c) = (g - S) + (2 * (xN - (x0 * c - y0 * s)) * c
        + 2 * (yN - (x0 * s + y0 * c)) * s) := by
      rw [hS]
      linear_combination (2 * x0) * hcs
    rw [this]
    have h1 := abs_add_le (g - S) (2 * (xN - (x0 * c - y0 * s)) * c
        + 2 * (yN - (x0 * s + y0 * c)) * s)
    have h2 := abs_add_le (2 * (xN - (x0 * c - y0 * s)) * c) (2 * (yN - (x0 * s + y0 * c)) * s)
    have h3 := hm (2 * (xN - (x0 * c - y0 * s))) c hc
    have h4 := hm (2 * (yN - (x0 * s + y0 * c))) s hs
    rw [abs_mul 2 _, abs_two] at h3 h4
    linarith
  · intro hS
    have : g - 2 * (y0 + s) = (g - S) + (2 * (yN - (x0 * s + y0 * c)) * c
        - 2 * (xN - (x0 * c - y0 * s)) * s) := by
      rw [hS]
      linear_combination (2 * y0) * hcs
    rw [this]
    have h1 := abs_add_le (g - S) (2 * (yN - (x0 * s + y0 * c)) * c
        - 2 * (xN - (x0 * c - y0 * s)) * s)
    have h2 := abs_sub (2 * (yN - (x0 * s + y0 * c)) * c) (2 * (xN - (x0 * c - y0 * s)) * s)
    have h3 := hm (2 * (xN - (x0 * c - y0 * s))) s hs
    have h4 := hm (2 * (yN - (x0 * s + y0 * c))) c hc
    rw [abs_mul 2 _, abs_two] at h3 h4
    linarith

/-- C92, the optimization of the guide with any plain shipped tableau: the gradient of the objective
of the final values with respect to the initial values, computed in reverse mode with any
checkpointer, converges to the gradient of the objective of the exact solution. -/
theorem C92_optimization {q : ℕ} (hq : 1 ≤ q) (x0 y0 t0 t1 : ℝ) : ∃ K r : ℝ, 0 < K ∧ 0 < r ∧
    ∀ e ∈ plainShipped, e.tab.p = some q → ∀ (τ : ℝ) (h0 : ℝ → ℝ) (v0 : OM.Vectors ℝ)
      (solver : CoupledSolver) (fwd rev) (E : Env e.tab.stages 2 0 0 (OM.pointSize coupledLayout)),
      0 ≤ τ → τ ≤ 1 → e.tol + τ ≤ r → (∀ R, 0 < h0 R) → E.T = e.tab.coeffs →
      E.ode = coupledOde solver fwd rev v0 →
      (∀ i, CoupledConverges τ h0 (e.tab.A i i) solver) →
      SolvesLinear coupledLayout (coupledEnv solver fwd rev) coupledJac →
      ∃ C h1 : ℝ, 0 < C ∧ 0 < h1 ∧ ∀ (opt : Options) (c : Ctrl) (N : ℕ) (dt : ℝ) (v : Outputs 2)
        (g : StartingValues ℝ 2 0), opt.adaptive = false → opt.crit = .steps N →
        opt.initialStep = fin dt → 0 ≤ dt → dt < h1 → t0 + N * dt ≤ t1 →
        Computes E opt ⟨t0, ![x0, y0], ![]⟩ v →
        let seed := objRev (v.values 0) (v.values 1) 1 0 0
        RevResult (rkBackend E) rkRestore (fun d => d.stageStates = 0) opt c ⟨t0, ![x0, y0], ![]⟩
          ⟨0, ![seed.1, seed.2]⟩ ⟨0, 0, ![]⟩ g →
        let ε := K * (e.tol + τ) + C * dt ^ q
        |g.initialValues 0 - 2 * (x0 - Real.cos (N * dt))| ≤ (4 * (|x0| + |y0|) + 6 + 4 * ε) * ε ∧
        |g.initialValues 1 - 2 * (y0 + Real.sin (N * dt))| ≤ (4 * (|x0| + |y0|) + 6 + 4 * ε) * ε := by
  obtain ⟨K0, r0, hK0, hr0, H0⟩ := C91_coupled hq x0 y0 t0 t1
  obtain ⟨K1, r1, hK1, hr1, H1⟩ := C92_coupled hq x0 y0 t0 t1 ![1, 0] 0
  obtain ⟨K2, r2, hK2, hr2, H2⟩ := C92_coupled hq x0 y0 t0 t1 ![0, 1] 0
  refine ⟨max K0 (max K1 K2), min r0 (min r1 r2), lt_max_of_lt_left hK0,
    lt_min hr0 (lt_min hr1 hr2), fun e he hp τ h0 v0 solver fwd rev E hτ hτ1 hr hh0 hT hode hN hJ
    => ?_⟩
  obtain ⟨C0, d0, hC0, hd0, R0⟩ := H0 e he hp h0 hh0
  have R0 := R0 τ solver fwd rev E hτ hτ1 hT hN (fun z h a => ⟨v0, by rw [hode]⟩)
  obtain ⟨C1, d1, hC1, hd1, -, R1⟩ := H1 e he hp τ h0 v0 solver fwd rev E hτ hτ1 hh0 hT hode hN hJ
  obtain ⟨C2, d2, hC2, hd2, -, R2⟩ := H2 e he hp τ h0 v0 solver fwd rev E hτ hτ1 hh0 hT hode hN hJ
  have htol : 0 ≤ e.tol := by
    obtain ⟨q', -, g2, -⟩ := C05_plain_tableaux e he
    exact (abs_nonneg _).trans g2
  refine ⟨max C0 (max C1 C2), min d0 (min d1 d2), lt_max_of_lt_left hC0,
    lt_min hd0 (lt_min hd1 hd2), fun opt c N dt v g ha hc hi hdt hlt ht hv => ?_⟩
  intro seed hg ε
  have i3 : ((![x0, y0] : Fin 2 → ℝ) - rotExact x0 y0 t0 t0) = 0 := by
    funext x
    fin_cases x <;> simp [rotExact]
  have err : ∀ K' C', K' ≤ max K0 (max K1 K2) → C' ≤ max C0 (max C1 C2) →
      K' * (e.tol + τ) + C' * dt ^ q ≤ ε := fun K' C' h1 h2 =>
    add_le_add (mul_le_mul_of_nonneg_right h1 (by linarith))
      (mul_le_mul_of_nonneg_right h2 (pow_nonneg hdt _))
  have hr0' : 0 ≤ r0 - e.tol - τ := by linarith [hr.trans (min_le_left _ _)]
  have hr1' : 0 ≤ r1 - e.tol - τ := by
    linarith [hr.trans ((min_le_right _ _).trans (min_le_left _ _))]
  have hr2' : 0 ≤ r2 - e.tol - τ := by
    linarith [hr.trans ((min_le_right _ _).trans (min_le_right _ _))]
  have hval : ‖v.values - rotExact x0 y0 t0 (t0 + N * dt)‖ ≤ ε := by
    cases hv with
    | simple fuel ch w w' h =>
      obtain ⟨e1, e2⟩ := R0.steps opt dt N fuel ch w w' _ v ha hc hi hdt
        (hlt.trans_le (min_le_left _ _)) rfl rfl (by rw [i3, norm_zero]; exact hr0') ht h
      rw [e1, i3, norm_zero] at e2
      simp only [zero_add] at e2
      exact e2.trans (err _ _ (le_max_left _ _) (le_max_left _ _))
    | pyrevolve N' fuel sched sl e' w w' hc' hl h =>
      obtain rfl : N = N' + 1 := by
        rw [hc] at hc'
        exact Crit.steps.inj hc'
      obtain ⟨e1, e2⟩ := R0.pyrevolve opt dt N' fuel sched sl e' w w' _ v hl ha hi hdt
        (hlt.trans_le (min_le_left _ _)) rfl rfl (by rw [i3, norm_zero]; exact hr0') ht h
      rw [e1, i3, norm_zero] at e2
      simp only [zero_add] at e2
      exact e2.trans (err _ _ (le_max_left _ _) (le_max_left _ _))
  have ex : |v.values 0 - (x0 * Real.cos (N * dt) - y0 * Real.sin (N * dt))| ≤ ε := by
    refine le_trans (le_of_eq ?_) ((norm_le_pi_norm _ (0 : Fin 2)).trans hval)
    simp [rotExact]
  have ey : |v.values 1 - (x0 * Real.sin (N * dt) + y0 * Real.cos (N * dt))| ≤ ε := by
    refine le_trans (le_of_eq ?_) ((norm_le_pi_norm _ (1 : Fin 2)).trans hval)
    simp [rotExact]
  have hend : FixedEnd opt c t0 dt (t0 + N * dt) := .steps ha hc hi hdt
  have G1 := R1 opt c dt _ _ _ g _ hend
    (hlt.trans_le ((min_le_right _ _).trans (min_le_left _ _))) ht rfl rfl
    (by rw [i3, norm_zero]; exact hr1') hg
  have G2 := R2 opt c dt _ _ _ g _ hend
    (hlt.trans_le ((min_le_right _ _).trans (min_le_right _ _))) ht rfl rfl
    (by rw [i3, norm_zero]; exact hr2') hg
  rw [i3, norm_zero] at G1 G2
  simp [rotExact, seed, objRev] at G1 G2
  have hcs := Real.sin_sq_add_cos_sq (N * dt)
  have hS : 0 ≤ |2 * (v.values 0 - 1)| + |2 * v.values 1| := by positivity
  have e1 : 2 * |v.values 0 - 1| + 2 * |v.values 1| = |2 * (v.values 0 - 1)| + |2 * v.values 1| := by
    rw [abs_mul, abs_mul, abs_two]
  rw [e1] at G1 G2
  exact ⟨(gradient_bound hcs ex ey (G1.trans (mul_le_mul_of_nonneg_left (err _ _
      ((le_max_left _ _).trans (le_max_right _ _)) ((le_max_left _ _).trans (le_max_right _ _)))
      hS))).1 rfl,
    (gradient_bound hcs ex ey (G2.trans (mul_le_mul_of_nonneg_left (err _ _
      ((le_max_right _ _).trans (le_max_right _ _)) ((le_max_right _ _).trans (le_max_right _ _)))
      hS))).2 rfl⟩

/-! ### Examples -/

namespace GuideEx

open TestProblemsEx

/-- Exact linear solves for `x' = b x`. -/
noncomputable def inputFwd (v : OM.Vectors ℝ) (h a : ℝ) (b : OM.Vec ℝ) : OM.Vec ℝ :=
  let p := inputPartials h a (v.inputs "ODE_Comp.x_old" 0) (v.inputs "ODE_Comp.s_i" 0)
    (v.inputs "ODE_Comp.b" 0)
  Function.update (fun n k => -b n k) "ODE_Comp.k_i" fun _ => -(p.1 * b "_auto_ivc.v0" 0
    + p.2.1 * b "_auto_ivc.v1" 0 + p.2.2 * b "_auto_ivc.v2" 0 + b "ODE_Comp.k_i" 0)

noncomputable def inputRev (v : OM.Vectors ℝ) (h a : ℝ) (b : OM.Vec ℝ) : OM.Vec ℝ :=
  let p := inputPartials h a (v.inputs "ODE_Comp.x_old" 0) (v.inputs "ODE_Comp.s_i" 0)
    (v.inputs "ODE_Comp.b" 0)
  fun n k => if n = "_auto_ivc.v0" then -b n k - p.1 * b "ODE_Comp.k_i" 0
    else if n = "_auto_ivc.v1" then -b n k - p.2.1 * b "ODE_Comp.k_i" 0
    else if n = "_auto_ivc.v2" then -b n k - p.2.2 * b "ODE_Comp.k_i" 0 else -b n k

/-- The linear solves `C92_input` asks for exist. -/
theorem input_linear : SolvesLinear inputLayout (inputEnv inputFwd inputRev) inputJac := by
  refine ⟨fun v h a b e he => ?_, fun v h a b e he => ?_, fun v w h a hvw e he e' he' => ?_⟩
  · rw [input_entries] at he ⊢
    simp only [Finset.mem_insert, Finset.mem_singleton] at he
    rcases he with rfl | rfl | rfl | rfl <;>
      simp [inputJac, inputEnv, inputFwd, Function.update]
    ring
  · rw [input_entries] at he ⊢
    simp only [Finset.mem_insert, Finset.mem_singleton] at he
    rcases he with rfl | rfl | rfl | rfl <;>
      simp [inputJac, inputEnv, inputRev]
  · have h1 := hvw.1 ("ODE_Comp.x_old", 0) (by rw [input_entries_in]; simp)
    have h2 := hvw.1 ("ODE_Comp.s_i", 0) (by rw [input_entries_in]; simp)
    have h3 := hvw.1 ("ODE_Comp.b", 0) (by rw [input_entries_in]; simp)
    simp only at h1 h2 h3
    unfold inputJac
    rw [h1, h2, h3]

/-- Exact linear solves for the coupled components. -/
noncomputable def coupledFwd (_ : OM.Vectors ℝ) (h a : ℝ) (b : OM.Vec ℝ) : OM.Vec ℝ :=
  let c1 := -b "Coupled_ODE_Comp1.kx_i" 0 + b "_auto_ivc.v0" 0 + h * b "_auto_ivc.v1" 0
  let c2 := -b "Coupled_ODE_Comp2.ky_i" 0 - b "_auto_ivc.v2" 0 - h * b "_auto_ivc.v3" 0
  fun n k => if n = "Coupled_ODE_Comp1.kx_i" then (c1 - h * a * c2) / (1 + (h * a) ^ 2)
    else if n = "Coupled_ODE_Comp2.ky_i" then (c2 + h * a * c1) / (1 + (h * a) ^ 2) else -b n k

noncomputable def coupledRev (_ : OM.Vectors ℝ) (h a : ℝ) (b : OM.Vec ℝ) : OM.Vec ℝ :=
  let x := -(b "Coupled_ODE_Comp1.kx_i" 0 + h * a * b "Coupled_ODE_Comp2.ky_i" 0)
    / (1 + (h * a) ^ 2)
  let y := (h * a * b "Coupled_ODE_Comp1.kx_i" 0 - b "Coupled_ODE_Comp2.ky_i" 0)
    / (1 + (h * a) ^ 2)
  fun n k => if n = "Coupled_ODE_Comp1.kx_i" then x else if n = "Coupled_ODE_Comp2.ky_i" then y
    else if n = "_auto_ivc.v0" then -b n k - x else if n = "_auto_ivc.v1" then -b n k - h * x
    else if n = "_auto_ivc.v2" then -b n k + y else -b n k + h * y

theorem coupled_linear (solver : CoupledSolver) :
    SolvesLinear coupledLayout (coupledEnv solver coupledFwd coupledRev) coupledJac := by
  refine ⟨fun v h a b e he => ?_, fun v h a b e he => ?_, fun v w h a hvw e he e' he' => rfl⟩
  · have hd : 1 + (h * a) ^ 2 ≠ 0 := by positivity
    rw [coupled_entries] at he ⊢
    simp only [Finset.mem_insert, Finset.mem_singleton] at he
    rcases he with rfl | rfl | rfl | rfl | rfl | rfl <;>
      simp [coupledJac, coupledEnv, coupledFwd, coupledPartials1, coupledPartials2] <;>
      field_simp <;> ring
  · have hd : 1 + (h * a) ^ 2 ≠ 0 := by positivity
    rw [coupled_entries] at he ⊢
    simp only [Finset.mem_insert, Finset.mem_singleton] at he
    rcases he with rfl | rfl | rfl | rfl | rfl | rfl <;>
      simp [coupledJac, coupledEnv, coupledRev, coupledPartials1, coupledPartials2] <;>
      field_simp <;> ring

noncomputable def guideEuler : PlainEntry := ⟨implicitEuler.map (Rat.castHom ℝ), 0⟩

/-- The coupled components with implicit Euler, cell 14. -/
noncomputable def guideOpt : Env guideEuler.tab.stages 2 0 0 (OM.pointSize coupledLayout) where
  T := guideEuler.tab.coeffs
  ode := coupledOde exactCoupled coupledFwd coupledRev ⟨fun _ _ => 0, fun _ _ => 0⟩
  fails _ _ := none
  nonfinite _ _ := .error .backend
  measure _ _ := fin 0

/-- The gradient of the guide at `(1/2, 1/2)` from time 0, with all states stored: runs and reverse
products succeed, and the gradients converge to the exact ones with order one. -/
example : ∃ C h1 : ℝ, 0 < C ∧ 0 < h1 ∧ ∀ (dt : ℝ) (N : ℕ), 0 ≤ dt → dt < h1 → N * dt ≤ 10 →
    ∀ w, cacheOk (rkBackend guideOpt) w ⟨0, ![1 / 2, 1 / 2], ![]⟩ = false →
    ∃ w1 v w2 g,
      compute (rkBackend guideOpt) { adaptive := false, crit := .steps N, initialStep := fin dt }
        (allCk (rkBackend guideOpt) { adaptive := false, crit := .steps N, initialStep := fin dt })
        (N + 1) w ⟨0, ![1 / 2, 1 / 2], ![]⟩ = (w1, .ok v) ∧
      rev (rkBackend guideOpt) { adaptive := false, crit := .steps N, initialStep := fin dt }
        (allCk (rkBackend guideOpt) { adaptive := false, crit := .steps N, initialStep := fin dt })
        (N + 1) w ⟨0, ![1 / 2, 1 / 2], ![]⟩
        ⟨0, ![(objRev (v.values 0) (v.values 1) 1 0 0).1, (objRev (v.values 0) (v.values 1) 1 0 0).2]⟩
        ⟨0, 0, ![]⟩ = (w2, .ok g) ∧
      |g.initialValues 0 - 2 * (1 / 2 - Real.cos (N * dt))| ≤ (10 + 4 * (C * dt)) * (C * dt) ∧
      |g.initialValues 1 - 2 * (1 / 2 + Real.sin (N * dt))| ≤ (10 + 4 * (C * dt)) * (C * dt) := by
  obtain ⟨K, r, -, hr, hE⟩ := C92_optimization (q := 1) le_rfl (1 / 2) (1 / 2) 0 10
  obtain ⟨C, h1, hC, hh1, H⟩ := hE guideEuler (by simp [plainShipped, guideEuler]) rfl 0 (fun _ => 1)
    ⟨fun _ _ => 0, fun _ _ => 0⟩ exactCoupled coupledFwd coupledRev guideOpt le_rfl zero_le_one
    (by simpa [guideEuler] using hr.le) (fun _ => one_pos) rfl rfl
    (fun i => exactCoupled_converges _ _) (coupled_linear _)
  refine ⟨C, h1, hC, hh1, fun dt N h0 hdt hN w hca => ?_⟩
  obtain ⟨tr, htr⟩ := exists_run_fixed (B := rkBackend guideOpt)
    (opt := { adaptive := false, crit := .steps N, initialStep := fin dt }) (n := N) rfl rfl
    (by simp) w.ctrl
    (startOf (rkBackend guideOpt) { adaptive := false, crit := .steps N, initialStep := fin dt }
      w.ctrl w.tis.disc ⟨0, ![1 / 2, 1 / 2], ![]⟩)
    (fun d => ⟨computeStep guideOpt.T guideOpt.ode d dt, by simp [rkBackend, startOf, guideOpt]⟩) 0
  have hlen := htr.length_steps rfl (Nat.zero_le _)
  have hv := compute_of_run (ch := .all) (w := w) (fuel := N + 1) htr (by omega)
  have hg := fun dO dI => rev_of_run (w := w) (fuel := N + 1) (dO := dO) (dI := dI) hca htr (by omega)
  have hg := fun dO dI =>
    Prod.ext (x := rev _ _ _ _ w _ dO dI) (y := (_, .ok _)) rfl (hg dO dI)
  refine ⟨_, _, _, _, hv, hg _ _, ?_⟩
  have h := H { adaptive := false, crit := .steps N, initialStep := fin dt } w.ctrl N dt _ _ rfl rfl
    rfl h0 hdt (by linarith) (.simple _ .all _ _ hv) (.fresh rfl hca (hg _ _))
  have a1 : |(1 / 2 : ℝ)| = 1 / 2 := abs_of_pos (by norm_num)
  simp only [guideEuler, a1, add_zero, mul_zero, zero_add, pow_one] at h
  norm_num at h ⊢
  exact h

end GuideEx

end Verif.Props
