/-
C101, Kaps' problem: derivatives of runs with the shipped group.
-/
import Verif.Props.ProblemsDeriv
import Verif.Props.TestProblems
import Verif.Conv.UniformPair
import Verif.OpenMDAO.Exact

namespace Verif.Props

open Verif.RK Verif.RK.Spec Verif.Control Verif.XReal Verif.Integrator Verif.Tableau Verif.OM
open Verif.Comp

/-! ### The linear system of the stage problem -/

theorem unit_sum {I : Finset (String × ℕ)} {n : String} {k : ℕ} (h : (n, k) ∈ I) (x : OM.Vec ℝ) :
    ∑ e ∈ I, unitVec e n k * x e.1 e.2 = x n k := by
  rw [Finset.sum_eq_single (n, k) (fun e _ hne => by rw [unitVec, if_neg hne.symm, zero_mul])
    (fun hn => absurd h hn), unitVec, if_pos rfl, one_mul]

section
variable (ε : ℝ) (v : OM.Vectors ℝ) (h a : ℝ) (d : OM.Vec ℝ)

theorem kapsApply_ivc0 : kapsApply ε v h a d "_auto_ivc.v0" 0 = -1 * d "_auto_ivc.v0" 0 := by
  simp [kapsApply]
theorem kapsApply_ivc1 : kapsApply ε v h a d "_auto_ivc.v1" 0 = -1 * d "_auto_ivc.v1" 0 := by
  simp [kapsApply]
theorem kapsApply_ivc2 : kapsApply ε v h a d "_auto_ivc.v2" 0 = -1 * d "_auto_ivc.v2" 0 := by
  simp [kapsApply]
theorem kapsApply_ivc3 : kapsApply ε v h a d "_auto_ivc.v3" 0 = -1 * d "_auto_ivc.v3" 0 := by
  simp [kapsApply]

theorem kapsApply_y1 : kapsApply ε v h a d "test_comp.Kaps1.y_1" 0 = 1 * d "_auto_ivc.v0" 0
    + h * d "_auto_ivc.v1" 0 + h * a * d "test_comp.Kaps1.y_1_stage" 0
    + -1 * d "test_comp.Kaps1.y_1" 0 := by
  simp [kapsApply, linear1Fwd, addIf, transfer, kapsConn]
  try ring

theorem kapsApply_s1 : kapsApply ε v h a d "test_comp.Kaps1.y_1_stage" 0
    = 2 * v.inputs "test_comp.Kaps1.y_2" 0 * d "test_comp.Kaps2.y_2" 0
    + -ε * d "test_comp.Kaps1.y_1_stage" 0 + -(1 + 2 * ε) * d "test_comp.Kaps1.y_1" 0 := by
  simp [kapsApply, linear1Fwd, addIf, transfer, kapsConn]
  try ring

theorem kapsApply_y2 : kapsApply ε v h a d "test_comp.Kaps2.y_2" 0 = 1 * d "_auto_ivc.v2" 0
    + h * d "_auto_ivc.v3" 0 + h * a * d "test_comp.Kaps2.y_2_stage" 0
    + -1 * d "test_comp.Kaps2.y_2" 0 := by
  simp [kapsApply, linear2Fwd, addIf, transfer, kapsConn]
  try ring

theorem kapsApply_s2 : kapsApply ε v h a d "test_comp.Kaps2.y_2_stage" 0
    = 1 * d "test_comp.Kaps1.y_1" 0 + -(1 + 2 * v.outputs "test_comp.Kaps2.y_2" 0)
      * d "test_comp.Kaps2.y_2" 0 + -1 * d "test_comp.Kaps2.y_2_stage" 0 := by
  simp [kapsApply, linear2Fwd, addIf, transfer, kapsConn]
  try ring

end

theorem kaps_entries : entriesOf kapsLayout.outputs = {("_auto_ivc.v0", 0), ("_auto_ivc.v1", 0),
    ("_auto_ivc.v2", 0), ("_auto_ivc.v3", 0), ("test_comp.Kaps1.y_1", 0),
    ("test_comp.Kaps1.y_1_stage", 0), ("test_comp.Kaps2.y_2", 0), ("test_comp.Kaps2.y_2_stage", 0)} := by
  decide +kernel

/-- The equations of the linear system. -/
structure KapsSystem (ε h a P Q : ℝ) (x b : OM.Vec ℝ) : Prop where
  v0 : -1 * x "_auto_ivc.v0" 0 = b "_auto_ivc.v0" 0
  v1 : -1 * x "_auto_ivc.v1" 0 = b "_auto_ivc.v1" 0
  v2 : -1 * x "_auto_ivc.v2" 0 = b "_auto_ivc.v2" 0
  v3 : -1 * x "_auto_ivc.v3" 0 = b "_auto_ivc.v3" 0
  y1 : 1 * x "_auto_ivc.v0" 0 + h * x "_auto_ivc.v1" 0 + h * a * x "test_comp.Kaps1.y_1_stage" 0
    + -1 * x "test_comp.Kaps1.y_1" 0 = b "test_comp.Kaps1.y_1" 0
  s1 : 2 * P * x "test_comp.Kaps2.y_2" 0 + -ε * x "test_comp.Kaps1.y_1_stage" 0
    + -(1 + 2 * ε) * x "test_comp.Kaps1.y_1" 0 = b "test_comp.Kaps1.y_1_stage" 0
  y2 : 1 * x "_auto_ivc.v2" 0 + h * x "_auto_ivc.v3" 0 + h * a * x "test_comp.Kaps2.y_2_stage" 0
    + -1 * x "test_comp.Kaps2.y_2" 0 = b "test_comp.Kaps2.y_2" 0
  s2 : 1 * x "test_comp.Kaps1.y_1" 0 + -(1 + 2 * Q) * x "test_comp.Kaps2.y_2" 0
    + -1 * x "test_comp.Kaps2.y_2_stage" 0 = b "test_comp.Kaps2.y_2_stage" 0

theorem kaps_solves (ε : ℝ) (v : OM.Vectors ℝ) (h a : ℝ) (x b : OM.Vec ℝ) :
    Solves (entriesOf kapsLayout.outputs) (kapsJac ε v h a) x b ↔
      KapsSystem ε h a (v.inputs "test_comp.Kaps1.y_2" 0) (v.outputs "test_comp.Kaps2.y_2" 0) x b := by
  have m0 : ("_auto_ivc.v0", 0) ∈ entriesOf kapsLayout.outputs := by decide +kernel
  have m1 : ("_auto_ivc.v1", 0) ∈ entriesOf kapsLayout.outputs := by decide +kernel
  have m2 : ("_auto_ivc.v2", 0) ∈ entriesOf kapsLayout.outputs := by decide +kernel
  have m3 : ("_auto_ivc.v3", 0) ∈ entriesOf kapsLayout.outputs := by decide +kernel
  have m4 : ("test_comp.Kaps1.y_1", 0) ∈ entriesOf kapsLayout.outputs := by decide +kernel
  have m5 : ("test_comp.Kaps1.y_1_stage", 0) ∈ entriesOf kapsLayout.outputs := by decide +kernel
  have m6 : ("test_comp.Kaps2.y_2", 0) ∈ entriesOf kapsLayout.outputs := by decide +kernel
  have m7 : ("test_comp.Kaps2.y_2_stage", 0) ∈ entriesOf kapsLayout.outputs := by decide +kernel
  have E := kaps_entries
  set I := entriesOf kapsLayout.outputs with hI
  unfold Solves
  constructor
  · intro H
    have k0 := H _ m0
    have k1 := H _ m1
    have k2 := H _ m2
    have k3 := H _ m3
    have k4 := H _ m4
    have k5 := H _ m5
    have k6 := H _ m6
    have k7 := H _ m7
    simp only [kapsJac, kapsApply_ivc0, kapsApply_ivc1, kapsApply_ivc2, kapsApply_ivc3, kapsApply_y1,
      kapsApply_s1, kapsApply_y2, kapsApply_s2, add_mul, Finset.sum_add_distrib, mul_assoc,
      ← Finset.mul_sum, unit_sum m0, unit_sum m1, unit_sum m2, unit_sum m3, unit_sum m4, unit_sum m5,
      unit_sum m6, unit_sum m7] at k0 k1 k2 k3 k4 k5 k6 k7
    constructor <;> linarith
  · intro K e he
    rw [E] at he
    simp only [Finset.mem_insert, Finset.mem_singleton] at he
    rcases he with rfl | rfl | rfl | rfl | rfl | rfl | rfl | rfl
    all_goals
      simp only [kapsJac, kapsApply_ivc0, kapsApply_ivc1, kapsApply_ivc2, kapsApply_ivc3, kapsApply_y1,
        kapsApply_s1, kapsApply_y2, kapsApply_s2, add_mul, Finset.sum_add_distrib, mul_assoc,
        ← Finset.mul_sum, unit_sum m0, unit_sum m1, unit_sum m2, unit_sum m3, unit_sum m4,
        unit_sum m5, unit_sum m6, unit_sum m7]
    · linarith [K.v0]
    · linarith [K.v1]
    · linarith [K.v2]
    · linarith [K.v3]
    · linarith [K.y1]
    · linarith [K.s1]
    · linarith [K.y2]
    · linarith [K.s2]

/-- The vector with the given values. -/
noncomputable def kapsVec (w : Fin 8 → ℝ) : OM.Vec ℝ := fun n _ =>
  if n = "_auto_ivc.v0" then w 0 else if n = "_auto_ivc.v1" then w 1
  else if n = "_auto_ivc.v2" then w 2 else if n = "_auto_ivc.v3" then w 3
  else if n = "test_comp.Kaps1.y_1" then w 4 else if n = "test_comp.Kaps1.y_1_stage" then w 5
  else if n = "test_comp.Kaps2.y_2" then w 6 else if n = "test_comp.Kaps2.y_2_stage" then w 7 else 0

/-- The determinant up to a factor. -/
noncomputable def kapsDet (ε H P : ℝ) : ℝ :=
  (ε + H * (1 + 2 * ε)) * (1 + H * (1 + 2 * P)) - 2 * H ^ 2 * P

/-- The system is regular if the determinant is not zero. -/
theorem kaps_regular {ε h a P : ℝ} (hε : ε ≠ 0) (hd : kapsDet ε (h * a) P ≠ 0) (b : OM.Vec ℝ) :
    ∃ x, KapsSystem ε h a P P x b := by
  set H := h * a with hH
  set g1 := ε * (-b "_auto_ivc.v0" 0 + h * -b "_auto_ivc.v1" 0 - b "test_comp.Kaps1.y_1" 0)
    - H * b "test_comp.Kaps1.y_1_stage" 0 with hg1
  set g2 := (-b "_auto_ivc.v2" 0 + h * -b "_auto_ivc.v3" 0 - b "test_comp.Kaps2.y_2" 0)
    - H * b "test_comp.Kaps2.y_2_stage" 0 with hg2
  set y1 := ((1 + H * (1 + 2 * P)) * g1 + 2 * H * P * g2) / kapsDet ε H P with hy1
  set y2 := (H * g1 + (ε + H * (1 + 2 * ε)) * g2) / kapsDet ε H P with hy2
  set s1 := (-(1 + 2 * ε) * y1 + 2 * P * y2 - b "test_comp.Kaps1.y_1_stage" 0) / ε with hs1
  set s2 := y1 - (1 + 2 * P) * y2 - b "test_comp.Kaps2.y_2_stage" 0 with hs2
  have e1 : y1 * kapsDet ε H P = (1 + H * (1 + 2 * P)) * g1 + 2 * H * P * g2 := by
    rw [hy1, div_mul_cancel₀ _ hd]
  have e2 : y2 * kapsDet ε H P = H * g1 + (ε + H * (1 + 2 * ε)) * g2 := by
    rw [hy2, div_mul_cancel₀ _ hd]
  have e3 : ε * s1 = -(1 + 2 * ε) * y1 + 2 * P * y2 - b "test_comp.Kaps1.y_1_stage" 0 := by
    rw [hs1, mul_div_cancel₀ _ hε]
  have e4 : (ε + H * (1 + 2 * ε)) * y1 - 2 * H * P * y2 = g1 := by
    apply mul_right_cancel₀ hd
    unfold kapsDet at *
    linear_combination (ε + H * (1 + 2 * ε)) * e1 - 2 * H * P * e2
  have e5 : -H * y1 + (1 + H * (1 + 2 * P)) * y2 = g2 := by
    apply mul_right_cancel₀ hd
    unfold kapsDet at *
    linear_combination (-H) * e1 + (1 + H * (1 + 2 * P)) * e2
  refine ⟨kapsVec ![-b "_auto_ivc.v0" 0, -b "_auto_ivc.v1" 0, -b "_auto_ivc.v2" 0,
    -b "_auto_ivc.v3" 0, y1, s1, y2, s2], ?_⟩
  constructor <;> simp [kapsVec]
  · apply mul_left_cancel₀ hε
    linear_combination H * e3 - e4 + hg1
  · linear_combination -e3
  · linear_combination H * hs2 - e5 + hg2
  · linear_combination -hs2

/-! ### The derivative call -/

theorem kaps_proper : kapsLayout.Proper := by constructor <;> decide +kernel

theorem kaps_fits : OM.Fits kapsConf kapsLayout := by constructor <;> decide +kernel

theorem kaps_built : OM.Built kapsConf := ⟨kapsProblem, 1, ["y_1", "y_2"], [], [kapsMeta], 0,
  kaps_setup, rfl⟩

/-- What the update returns and records. -/
theorem kaps_update_point (newton : Newton) (sf sr v0) (z : OdeInput ℝ 2 0) (h a : ℝ) :
    ∃ v : Vectors ℝ, v.outputs "_auto_ivc.v0" 0 = z.stepInput 0 ∧
      v.outputs "_auto_ivc.v1" 0 = z.stageInput 0 ∧ v.outputs "_auto_ivc.v2" 0 = z.stepInput 1 ∧
      v.outputs "_auto_ivc.v3" 0 = z.stageInput 1 ∧
      ((kapsOde newton sf sr v0).computeUpdate z h a).1.stageUpdate
        = ![(newton v h a).1.stage, (newton v h a).2.stage] ∧
      let w := setPoint kapsLayout
        (List.ofFn ((kapsOde newton sf sr v0).computeUpdate z h a).2) v0
      w.inputs "test_comp.Kaps1.y_2" 0 = (newton v h a).2.y2 ∧
        w.outputs "test_comp.Kaps2.y_2" 0 = (newton v h a).2.y2 := by
  set v : Vectors ℝ := ⟨v0.inputs, inputsToVec kapsConf 1 (toInputs z) v0.outputs⟩ with hv
  refine ⟨v, ?_, ?_, ?_, ?_, ?_, ?_⟩
  · simp [hv, inputsToVec, kapsConf, kapsMeta, writeState, writeTime, scalarQuantity, setVar,
      sourceOf, kapsConn, toInputs, flat, Function.update]
  · simp [hv, inputsToVec, kapsConf, kapsMeta, writeState, writeTime, scalarQuantity, setVar,
      sourceOf, kapsConn, toInputs, flat, Function.update]
  · simp [hv, inputsToVec, kapsConf, kapsMeta, writeState, writeTime, scalarQuantity, setVar,
      sourceOf, kapsConn, toInputs, flat, Function.update]
  · simp [hv, inputsToVec, kapsConf, kapsMeta, writeState, writeTime, scalarQuantity, setVar,
      sourceOf, kapsConn, toInputs, flat, Function.update]
  · have e : ∀ i : Fin 2, ((kapsOde newton sf sr v0).computeUpdate z h a).1.stageUpdate i
        = ![(newton v h a).1.stage, (newton v h a).2.stage] i := by
      intro i
      change vecToOutputs kapsConf (setKaps (newton v h a) v.outputs) (fun _ => 0) i = _
      generalize newton v h a = o
      generalize v.outputs = y
      fin_cases i <;>
        simp [vecToOutputs, kapsConf, kapsMeta, scalarQuantity, getVar, setKaps, Function.update]
    exact funext e
  · have ep := omOde_point kapsConf kapsLayout (kapsEnv newton sf sr) v0 z h a
    have hag : Agree kapsLayout (setPoint kapsLayout
        (List.ofFn ((kapsOde newton sf sr v0).computeUpdate z h a).2) v0)
        ((kapsEnv newton sf sr).solve v h a) := by
      change Agree kapsLayout (setPoint kapsLayout (List.ofFn ((omOde kapsConf kapsLayout
        (kapsEnv newton sf sr) v0).computeUpdate z h a).2) v0) _
      rw [ep]
      exact setPoint_getPoint kaps_proper _ _
    have g1 := hag.1 ("test_comp.Kaps1.y_2", 0) (by decide +kernel)
    have g2 := hag.2 ("test_comp.Kaps2.y_2", 0) (by decide +kernel)
    refine ⟨g1.trans ?_, g2.trans ?_⟩
    · simp [kapsEnv, transfer, kapsConn, setKaps, Function.update]
    · simp [kapsEnv, setKaps, Function.update]

theorem kaps_rhs (d : OdeInput ℝ 2 0) :
    let b := inputsToVec kapsConf (-1) (toInputs d) (fun _ _ => 0)
    b "_auto_ivc.v0" 0 = -d.stepInput 0 ∧ b "_auto_ivc.v1" 0 = -d.stageInput 0 ∧
      b "_auto_ivc.v2" 0 = -d.stepInput 1 ∧ b "_auto_ivc.v3" 0 = -d.stageInput 1 ∧
      b "test_comp.Kaps1.y_1" 0 = 0 ∧ b "test_comp.Kaps1.y_1_stage" 0 = 0 ∧
      b "test_comp.Kaps2.y_2" 0 = 0 ∧ b "test_comp.Kaps2.y_2_stage" 0 = 0 := by
  refine ⟨?_, ?_, ?_, ?_, ?_, ?_, ?_, ?_⟩ <;>
  simp [inputsToVec, kapsConf, kapsMeta, writeState, writeTime, scalarQuantity, setVar,
      sourceOf, kapsConn, toInputs, flat, Function.update]

theorem kaps_output (x : OM.Vec ℝ) :
    OM.vecToOutputs kapsConf x (fun _ => 0) 0 = x "test_comp.Kaps1.y_1_stage" 0 ∧
      OM.vecToOutputs kapsConf x (fun _ => 0) 1 = x "test_comp.Kaps2.y_2_stage" 0 := by
  constructor <;>
  simp [OM.vecToOutputs, kapsConf, kapsMeta, scalarQuantity, OM.getVar]

/-- The derivative call at the recorded point: the equations of the linearized stage problem. -/
theorem kaps_derivative {ε : ℝ} (hε : ε ≠ 0) {newton : Newton} {sf sr}
    (hJ : SolvesRegular kapsLayout (kapsEnv newton sf sr) (kapsJac ε)) (v0 : OM.Vectors ℝ)
    (lin : Fin (OM.pointSize kapsLayout) → ℝ) (d : OdeInput ℝ 2 0) {h a P : ℝ}
    (h1 : (setPoint kapsLayout (List.ofFn lin) v0).inputs "test_comp.Kaps1.y_2" 0 = P)
    (h2 : (setPoint kapsLayout (List.ofFn lin) v0).outputs "test_comp.Kaps2.y_2" 0 = P)
    (hd : kapsDet ε (h * a) P ≠ 0) :
    ∃ s1 s2 y1 y2 : ℝ, ((kapsOde newton sf sr v0).computeUpdateDerivative lin d h a).stageUpdate
        = ![s1, s2] ∧
      y1 = d.stepInput 0 + h * d.stageInput 0 + h * a * s1 ∧
      y2 = d.stepInput 1 + h * d.stageInput 1 + h * a * s2 ∧
      ε * s1 = -(1 + 2 * ε) * y1 + 2 * P * y2 ∧ s2 = y1 - (1 + 2 * P) * y2 := by
  set w := setPoint kapsLayout (List.ofFn lin) v0 with hw
  set b := inputsToVec kapsConf (-1) (toInputs d) (fun _ _ => 0) with hb
  have hreg : ∀ c, ∃ x, Solves (entriesOf kapsLayout.outputs) (kapsJac ε w h a) x c := by
    intro c
    obtain ⟨x, hx⟩ := kaps_regular hε hd c
    exact ⟨x, (kaps_solves ε w h a x c).mpr (by rw [h1, h2]; exact hx)⟩
  have key := (kaps_solves ε w h a _ b).mp (hJ.fwd w h a b hreg)
  rw [h1, h2] at key
  obtain ⟨b0, b1, b2, b3, b4, b5, b6, b7⟩ := kaps_rhs d
  rw [← hb] at b0 b1 b2 b3 b4 b5 b6 b7
  obtain ⟨k0, k1, k2, k3, k4, k5, k6, k7⟩ := key
  rw [b0] at k0
  rw [b1] at k1
  rw [b2] at k2
  rw [b3] at k3
  rw [b4] at k4
  rw [b5] at k5
  rw [b6] at k6
  rw [b7] at k7
  set x := (kapsEnv newton sf sr).solveFwd w h a b with hx
  refine ⟨x "test_comp.Kaps1.y_1_stage" 0, x "test_comp.Kaps2.y_2_stage" 0,
    x "test_comp.Kaps1.y_1" 0, x "test_comp.Kaps2.y_2" 0, ?_, ?_, ?_, ?_, ?_⟩
  · obtain ⟨o1, o2⟩ := kaps_output x
    have e : ∀ i : Fin 2, ((kapsOde newton sf sr v0).computeUpdateDerivative lin d h a).stageUpdate i
        = ![x "test_comp.Kaps1.y_1_stage" 0, x "test_comp.Kaps2.y_2_stage" 0] i := by
      intro i
      fin_cases i
      · exact o1
      · exact o2
    exact funext e
  · linear_combination -k4 - k0 - h * k1
  · linear_combination -k6 - k2 - h * k3
  · linear_combination -k5
  · linear_combination -k7

theorem kaps_smoothAll (ε : ℝ) (q : ℕ) : SmoothAll (kapsRhs ε) q := by
  refine contDiff_pi.mpr fun x => ?_
  have h0 : ContDiff ℝ q fun z : ℝ × (Fin 2 → ℝ) × (Fin 0 → ℝ) => z.2.1 0 := by fun_prop
  have h1 : ContDiff ℝ q fun z : ℝ × (Fin 2 → ℝ) × (Fin 0 → ℝ) => z.2.1 1 := by fun_prop
  fin_cases x
  · exact ((contDiff_const.mul h0).add (h1.pow 2)).div_const ε
  · exact (h0.sub h1).sub (h1.pow 2)

theorem kaps_jac (ε t τ : ℝ) (y d : Fin 2 → ℝ) (p π : Fin 0 → ℝ) :
    jac (kapsRhs ε) t y p (τ, d, π) = ![(-(1 + 2 * ε) * d 0 + 2 * y 1 * d 1) / ε,
      d 0 - d 1 - 2 * y 1 * d 1] := by
  refine jac_of_hasDerivAt (kaps_smoothAll ε 1) ?_
  have hA : ∀ i, HasDerivAt (fun s : ℝ => y i + s * d i) (d i) 0 := fun i => by
    simpa using ((hasDerivAt_id (0 : ℝ)).mul_const (d i)).const_add (y i)
  rw [hasDerivAt_pi]
  intro x
  fin_cases x
  · have := ((((hA 0).const_mul (-(1 + 2 * ε))).add ((hA 1).pow 2)).div_const ε)
    exact this.congr_deriv (by simp)
  · have := ((hA 0).sub (hA 1)).sub ((hA 1).pow 2)
    exact this.congr_deriv (by simp)

theorem kaps_det_pos {ε H P : ℝ} (hε : 0 < ε) (hH : |H| ≤ 1 / 4) (hHε : |H| * (1 + 2 * ε) ≤ ε / 8)
    (hb : |H * P| ≤ 1 / 4) : 7 / 8 * ε ≤ ε + H * (1 + 2 * ε) ∧ 1 / 4 ≤ 1 + H * (1 + 2 * P) ∧
      0 < kapsDet ε H P := by
  have a1 : |H * (1 + 2 * ε)| ≤ ε / 8 := by
    rw [abs_mul, abs_of_pos (by linarith : (0:ℝ) < 1 + 2 * ε)]
    exact hHε
  have a2 := neg_abs_le (H * (1 + 2 * ε))
  have a3 := neg_abs_le H
  have a4 := neg_abs_le (H * P)
  have d1 : 7 / 8 * ε ≤ ε + H * (1 + 2 * ε) := by linarith
  have d2 : 1 / 4 ≤ 1 + H * (1 + 2 * P) := by linarith
  refine ⟨d1, d2, ?_⟩
  have hHe : |H| ≤ ε / 8 := le_trans (le_mul_of_one_le_right (abs_nonneg _) (by linarith)) hHε
  have d3 : |H * (H * P)| ≤ ε / 8 * (1 / 4) := by
    rw [abs_mul]
    exact mul_le_mul hHe hb (abs_nonneg _) (by linarith)
  have d4 := le_abs_self (H * (H * P))
  have d5 : 7 / 8 * ε * (1 / 4) ≤ (ε + H * (1 + 2 * ε)) * (1 + H * (1 + 2 * P)) :=
    mul_le_mul d1 d2 (by norm_num) (by linarith)
  unfold kapsDet
  have d6 : 2 * H ^ 2 * P = 2 * (H * (H * P)) := by ring
  rw [d6]
  linarith

/-- Bounds of the directions at the stage. -/
theorem kaps_direction {ε H U P u1 u2 y1 y2 s1 s2 : ℝ} (hε : 0 < ε) (hH : |H| ≤ 1 / 4)
    (hHε : |H| * (1 + 2 * ε) ≤ ε / 8) (hb : |H * P| ≤ 1 / 4) (hu1 : |u1| ≤ U) (hu2 : |u2| ≤ U)
    (e1 : y1 = u1 + H * s1) (e2 : y2 = u2 + H * s2)
    (e3 : ε * s1 = -(1 + 2 * ε) * y1 + 2 * P * y2) (e4 : s2 = y1 - (1 + 2 * P) * y2) :
    |y2| ≤ 12 * U ∧ |y1| ≤ 2 * U + 12 * U / ε := by
  obtain ⟨d1, d2, -⟩ := kaps_det_pos hε hH hHε hb
  have hHe : |H| ≤ ε / 8 := le_trans (le_mul_of_one_le_right (abs_nonneg _) (by linarith)) hHε
  have hU : 0 ≤ U := (abs_nonneg _).trans hu1
  have k1 : y1 * (ε + H * (1 + 2 * ε)) = ε * u1 + 2 * (H * P) * y2 := by
    linear_combination ε * e1 + H * e3
  have k2 : y2 * (1 + H * (1 + 2 * P)) = u2 + H * y1 := by
    linear_combination e2 + H * e4
  have b1 : |y1| * (7 / 8 * ε) ≤ ε * U + 2 * (1 / 4) * |y2| := by
    calc |y1| * (7 / 8 * ε) ≤ |y1| * |ε + H * (1 + 2 * ε)| :=
          mul_le_mul_of_nonneg_left (d1.trans (le_abs_self _)) (abs_nonneg _)
      _ = |ε * u1 + 2 * (H * P) * y2| := by rw [← abs_mul, k1]
      _ ≤ |ε * u1| + |2 * (H * P) * y2| := abs_add_le _ _
      _ ≤ _ := by
          rw [abs_mul ε, abs_of_pos hε, abs_mul (2 * (H * P)), abs_mul 2, abs_two]
          gcongr
  have b2 : |y2| * (1 / 4) ≤ U + |H| * |y1| := by
    calc |y2| * (1 / 4) ≤ |y2| * |1 + H * (1 + 2 * P)| :=
          mul_le_mul_of_nonneg_left (d2.trans (le_abs_self _)) (abs_nonneg _)
      _ = |u2 + H * y1| := by rw [← abs_mul, k2]
      _ ≤ |u2| + |H * y1| := abs_add_le _ _
      _ ≤ _ := by
          rw [abs_mul H]
          gcongr
  have b4 : |H| * |y1| * (7 / 8 * ε) ≤ |H| * (ε * U + 2 * (1 / 4) * |y2|) := by
    rw [mul_assoc]
    exact mul_le_mul_of_nonneg_left b1 (abs_nonneg _)
  have b5 : |H| * (ε * U + 2 * (1 / 4) * |y2|) ≤ ε * (1 / 4 * U) + ε / 8 * (1 / 2 * |y2|) := by
    have c1 : |H| * (ε * U) ≤ 1 / 4 * (ε * U) :=
      mul_le_mul_of_nonneg_right hH (mul_nonneg hε.le hU)
    have c2 : |H| * (1 / 2 * |y2|) ≤ ε / 8 * (1 / 2 * |y2|) :=
      mul_le_mul_of_nonneg_right hHe (by positivity)
    linarith
  have b6 : |H| * |y1| ≤ 2 / 7 * U + 1 / 14 * |y2| := by
    have c : |H| * |y1| * (7 / 8 * ε) ≤ (2 / 7 * U + 1 / 14 * |y2|) * (7 / 8 * ε) := by
      refine b4.trans (b5.trans (le_of_eq ?_))
      ring
    exact le_of_mul_le_mul_right c (by positivity)
  have hy2 : |y2| ≤ 12 * U := by linarith
  refine ⟨hy2, ?_⟩
  have c : |y1| * (7 / 8 * ε) ≤ (2 * U + 12 * U / ε) * (7 / 8 * ε) := by
    have e : (2 * U + 12 * U / ε) * (7 / 8 * ε) = 7 / 4 * (ε * U) + 21 / 2 * U := by
      field_simp
      ring
    rw [e]
    have := mul_nonneg hε.le hU
    linarith
  exact le_of_mul_le_mul_right c (by positivity)

/-- Bounds for directions up to `R`. -/
noncomputable def kapsD1 (ε R : ℝ) : ℝ := 2 * kapsU R + 12 * kapsU R / ε
noncomputable def kapsD2 (R : ℝ) : ℝ := 12 * kapsU R
noncomputable def kapsMd (ε R : ℝ) : ℝ :=
  ((1 + 2 * ε) * kapsD1 ε R + 2 * kapsBound2 (kapsU R) * kapsD2 R) / ε +
    (kapsD1 ε R + (1 + 2 * kapsBound2 (kapsU R)) * kapsD2 R)
noncomputable def kapsEtaD (ε R : ℝ) : ℝ := 2 * kapsD2 R / ε + 2 * kapsD2 R
noncomputable def kapsHd (ε : ℝ) (h1 : ℝ → ℝ) (α R : ℝ) : ℝ :=
  min (kapsH ε h1 α R) (ε / (8 * (1 + 2 * ε)) / (α + 1))

theorem kapsHd_pos {ε α : ℝ} (hε : 0 < ε) (hα : 0 ≤ α) {h1 : ℝ → ℝ} (hh1 : ∀ R, 0 < h1 R) (R : ℝ) :
    0 < kapsHd ε h1 α R := by
  have := kapsH_pos hε hα hh1 R
  unfold kapsHd
  positivity

theorem kapsEtaD_nonneg {ε : ℝ} (hε : 0 < ε) (R : ℝ) : 0 ≤ kapsEtaD ε R := by
  have := kapsU_nonneg R
  unfold kapsEtaD kapsD2
  positivity

theorem kapsEtaD_mono {ε : ℝ} (hε : 0 < ε) : Monotone (kapsEtaD ε) := by
  intro R R' h
  have : kapsU R ≤ kapsU R' := by
    unfold kapsU
    gcongr
  unfold kapsEtaD kapsD2
  gcongr

theorem kaps_linearizedUpTo {ε τ α a : ℝ} (hε : 0 < ε) (hτ : τ ≤ 1) (hα : |a| ≤ α) {h1 : ℝ → ℝ}
    {newton : Newton} {sf sr} (hN : NewtonConverges ε τ h1 a newton)
    (hJ : SolvesRegular kapsLayout (kapsEnv newton sf sr) (kapsJac ε)) (v0 : OM.Vectors ℝ) :
    LinearizedUpTo (kapsMd ε) (kapsHd ε h1 α) (fun R => kapsEtaD ε R * τ)
      (kapsOde newton sf sr v0) (kapsRhs ε) ![] a := by
  intro R h z d h0 hle _ g1 g2 _ f1 f2 _ _ k kd
  obtain ⟨v, v1, v2, v3, v4, hup, hp1, hp2⟩ := kaps_update_point newton sf sr v0 z h a
  have hα0 : 0 ≤ α := (abs_nonneg _).trans hα
  have hR : 0 ≤ R := (norm_nonneg _).trans g1
  have hle1 : h ≤ kapsH ε h1 α R := hle.trans (min_le_left _ _)
  have hh1 : h ≤ 1 := hle1.trans ((min_le_left _ _).trans (min_le_left _ _))
  have hh2 : h ≤ h1 R := hle1.trans ((min_le_left _ _).trans (min_le_right _ _))
  have hh3 : h * (α + 1) ≤ min (1 / 4) (ε / (2 * (1 + 2 * ε))) := by
    rw [← le_div_iff₀ (by linarith)]
    exact hle1.trans (min_le_right _ _)
  have hh4 : h * (α + 1) ≤ ε / (8 * (1 + 2 * ε)) := by
    rw [← le_div_iff₀ (by linarith)]
    exact hle.trans (min_le_right _ _)
  have hHα : |h * a| ≤ h * (α + 1) := by
    rw [abs_mul, abs_of_nonneg h0]
    exact mul_le_mul_of_nonneg_left (by linarith) h0
  have hH : |h * a| ≤ 1 / 4 := hHα.trans (hh3.trans (min_le_left _ _))
  have hHε : |h * a| * (1 + 2 * ε) ≤ ε / 8 := by
    have hp : 0 < 1 + 2 * ε := by linarith
    calc |h * a| * (1 + 2 * ε) ≤ ε / (8 * (1 + 2 * ε)) * (1 + 2 * ε) := by
          have := hHα.trans hh4
          gcongr
      _ = ε / 8 := by field_simp
  have b0 := (norm_le_pi_norm z.stepInput 0).trans g1
  have b1 := (norm_le_pi_norm z.stepInput 1).trans g1
  have b2 := (norm_le_pi_norm z.stageInput 0).trans g2
  have b3 := (norm_le_pi_norm z.stageInput 1).trans g2
  have c0 := (norm_le_pi_norm d.stepInput 0).trans f1
  have c1 := (norm_le_pi_norm d.stepInput 1).trans f1
  have c2 := (norm_le_pi_norm d.stageInput 0).trans f2
  have c3 := (norm_le_pi_norm d.stageInput 1).trans f2
  rw [Real.norm_eq_abs] at b0 b1 b2 b3 c0 c1 c2 c3
  have hb : ∀ x y : ℝ, |x| ≤ R → |y| ≤ R → |x + h * y| ≤ kapsU R := by
    intro x y hx hy
    refine (abs_add_le _ _).trans ?_
    rw [abs_mul, abs_of_nonneg h0]
    have : h * |y| ≤ 1 * R := mul_le_mul hh1 hy (abs_nonneg _) zero_le_one
    unfold kapsU
    rw [max_eq_left hR]
    linarith
  obtain ⟨⟨n1, n2, n3, n4⟩, n5⟩ := hN R h v h0 hh2 (by rw [v1]; exact b0) (by rw [v2]; exact b2)
    (by rw [v3]; exact b1) (by rw [v4]; exact b3)
  rw [groupResidual_eq, v1, v2] at n1 n2
  rw [groupResidual_eq, v3, v4] at n3 n4
  have hk : k = ![(newton v h a).1.stage, (newton v h a).2.stage] := hup
  obtain ⟨s1, s2, y1, y2, hkd, q1, q2, q3, q4⟩ := kaps_derivative hε.ne' hJ v0 _ d hp1 hp2
    (kaps_det_pos hε hH hHε n5).2.2.ne'
  have hkd' : kd = ![s1, s2] := hkd
  obtain ⟨D2, D1⟩ := kaps_direction hε hH hHε n5 (hb _ _ c0 c2) (hb _ _ c1 c3) q1 q2 q3 q4
  clear_value kd k
  clear hkd hup hp1 hp2
  generalize newton v h a = w at *
  obtain ⟨⟨Y1, S1⟩, ⟨Y2, S2⟩⟩ := w
  simp only [residual1, residual2] at n1 n2 n3 n4 n5
  dsimp only at q3 q4 hk
  have hHε2 : |h * a| * (1 + 2 * ε) ≤ ε / 2 := hHε.trans (by linarith)
  obtain ⟨k2, k1⟩ := kaps_bounded hε (kapsU_nonneg R) hH hHε2 (hb _ _ b0 b2) (hb _ _ b1 b3) rfl rfl
    rfl rfl (n1.trans hτ) (n2.trans hτ) (n3.trans hτ) (n4.trans hτ) n5
  have hτ0 : 0 ≤ τ := (abs_nonneg _).trans n1
  have hB2 : 0 ≤ kapsBound2 (kapsU R) := (abs_nonneg _).trans k2
  have hD1 : 0 ≤ kapsD1 ε R := (abs_nonneg _).trans D1
  have hD2 : 0 ≤ kapsD2 R := (abs_nonneg _).trans D2
  change |y2| ≤ kapsD2 R at D2
  change |y1| ≤ kapsD1 ε R at D1
  have M1 : 0 ≤ ((1 + 2 * ε) * kapsD1 ε R + 2 * kapsBound2 (kapsU R) * kapsD2 R) / ε := by positivity
  have M2 : 0 ≤ kapsD1 ε R + (1 + 2 * kapsBound2 (kapsU R)) * kapsD2 R := by positivity
  have hs1 : |s1| ≤ ((1 + 2 * ε) * kapsD1 ε R + 2 * kapsBound2 (kapsU R) * kapsD2 R) / ε := by
    rw [le_div_iff₀ hε]
    calc |s1| * ε = |ε * s1| := by rw [abs_mul, abs_of_pos hε, mul_comm]
      _ ≤ |-(1 + 2 * ε) * y1| + |2 * Y2 * y2| := by rw [q3]; exact abs_add_le _ _
      _ ≤ _ := by
          rw [abs_mul, abs_mul, abs_mul 2, abs_two, abs_neg,
            abs_of_pos (by linarith : (0:ℝ) < 1 + 2 * ε)]
          gcongr
  have hs2 : |s2| ≤ kapsD1 ε R + (1 + 2 * kapsBound2 (kapsU R)) * kapsD2 R := by
    calc |s2| ≤ |y1| + |(1 + 2 * Y2) * y2| := by rw [q4]; exact abs_sub _ _
      _ ≤ _ := by
          rw [abs_mul]
          have : |1 + 2 * Y2| ≤ 1 + 2 * kapsBound2 (kapsU R) := by
            refine (abs_add_le _ _).trans ?_
            rw [abs_one, abs_mul, abs_two]
            gcongr
          gcongr
  have R1 : 0 ≤ 2 * kapsD2 R / ε * τ := by positivity
  have R2 : 0 ≤ 2 * kapsD2 R * τ := by positivity
  have hr : |2 * (z.stepInput 1 + h * z.stageInput 1 + h * a * S2 - Y2) * y2|
      ≤ 2 * kapsD2 R * τ := by
    rw [abs_mul, abs_mul, abs_two]
    calc 2 * |z.stepInput 1 + h * z.stageInput 1 + h * a * S2 - Y2| * |y2|
        ≤ 2 * τ * kapsD2 R := by gcongr
      _ = _ := by ring
  subst hkd' hk
  constructor
  · refine (pi_norm_le_iff_of_nonneg ?_).mpr fun x => ?_
    · unfold kapsMd
      linarith
    · unfold kapsMd
      fin_cases x
      · exact hs1.trans (by linarith)
      · exact hs2.trans (by linarith)
  · rw [kaps_jac]
    refine (pi_norm_le_iff_of_nonneg ?_).mpr fun x => ?_
    · unfold kapsEtaD
      linarith
    · unfold kapsEtaD
      fin_cases x
      · have e : s1 - (-(1 + 2 * ε) * y1 + 2 * (z.stepInput 1 + h * z.stageInput 1 + h * a * S2)
            * y2) / ε = -(2 * (z.stepInput 1 + h * z.stageInput 1 + h * a * S2 - Y2) * y2) / ε := by
          field_simp
          linear_combination q3
        have e2 : |s1 - (-(1 + 2 * ε) * y1 + 2 * (z.stepInput 1 + h * z.stageInput 1 + h * a * S2)
            * y2) / ε| ≤ 2 * kapsD2 R / ε * τ := by
          rw [e, abs_div, abs_neg, abs_of_pos hε, div_mul_eq_mul_div]
          exact div_le_div_of_nonneg_right hr hε.le
        have : ∀ c, c ≤ (2 * kapsD2 R / ε) * τ → c ≤ (2 * kapsD2 R / ε + 2 * kapsD2 R) * τ :=
          fun c hc => by linarith
        refine this _ ?_
        simpa [← q1, ← q2] using e2
      · have e : s2 - (y1 - y2 - 2 * (z.stepInput 1 + h * z.stageInput 1 + h * a * S2) * y2)
            = 2 * (z.stepInput 1 + h * z.stageInput 1 + h * a * S2 - Y2) * y2 := by
          linear_combination q4
        have : ∀ c, c ≤ 2 * kapsD2 R * τ → c ≤ (2 * kapsD2 R / ε + 2 * kapsD2 R) * τ :=
          fun c hc => by linarith
        refine this _ ?_
        rw [← e] at hr
        simpa [← q1, ← q2] using hr

/-- `kaps_solution` from `(1, 1)` at time 0. -/
noncomputable def kapsY (t : ℝ) : Fin 2 → ℝ :=
  ![(kapsSolution t (1, 1) 0).1, (kapsSolution t (1, 1) 0).2]

theorem kaps_pair_error {q : ℕ} (hq : 1 ≤ q) {ε : ℝ} (hε : 0 < ε) {t1 τ : ℝ} {δ : ℝ → Fin 2 → ℝ}
    (hδ : IsSensitivity (kapsRhs ε) ![] τ ![] kapsY δ 0 t1) (β : ℝ) : ∃ K r : ℝ, 0 < K ∧
    0 < r ∧ ∀ (s : ℕ) (T : Coeffs ℝ s) (tol : ℝ), Accurate T β tol q → ∀ h1 : ℝ → ℝ,
      (∀ R, 0 < h1 R) → ∃ c C h2 : ℝ, 0 < c ∧ 0 < C ∧ 0 < h2 ∧
      ∀ (κ : ℝ) (newton : Newton) (sf sr) (v0 : OM.Vectors ℝ)
        (E : Env s 2 0 0 (OM.pointSize kapsLayout)), 0 ≤ κ →
        E.T = T → (∀ i, NewtonConverges ε κ h1 (T.A i i) newton) →
        SolvesRegular kapsLayout (kapsEnv newton sf sr) (kapsJac ε) →
        E.ode = kapsOde newton sf sr v0 →
        PairError E ![] τ ![] kapsY δ 0 t1 h2 (r - tol - c * κ)
          fun e0 H => K * (e0 + tol + c * κ) + C * H ^ q := by
  have hY : IsSolution (kapsRhs ε) ![] kapsY 0 t1 := kaps_isSolution hε.ne' t1
  obtain ⟨K, r, hK, hr, hE⟩ := upTo_pair_error hq (kaps_smoothAll ε (q + 1)) hY hδ β
  refine ⟨K, r, hK, hr, fun s T tol hA h1 hh1 => ?_⟩
  set α := ∑ i, |T.A i i| with hα
  have hα0 : 0 ≤ α := Finset.sum_nonneg fun _ _ => abs_nonneg _
  have hai : ∀ i, |T.A i i| ≤ α := fun i =>
    Finset.single_le_sum (f := fun i => |T.A i i|) (fun _ _ => abs_nonneg _) (Finset.mem_univ i)
  obtain ⟨R, C, h2, hC, hh2, hE⟩ := hE s T tol hA (fun R => max (kapsM ε R) (kapsMd ε R))
    (kapsHd ε h1 α) (kapsHd_pos hε hα0 hh1)
  have hη0 : 0 < kapsEta ε R + kapsEtaD ε R :=
    add_pos_of_pos_of_nonneg (kapsEta_pos hε R) (kapsEtaD_nonneg hε R)
  refine ⟨max (kapsEta ε R + kapsEtaD ε R) (r + 1), C, h2, lt_max_of_lt_left hη0, hC, hh2,
    fun κ newton sf sr v0 E hκ hT hN hJ hode => ?_⟩
  by_cases h : κ ≤ 1
  · have := hE _ _ E (fun R => (kapsEta ε R + kapsEtaD ε R) * κ) hT
      (fun _ _ hR => mul_le_mul_of_nonneg_right
        (add_le_add (kapsEta_mono hε hR) (kapsEtaD_mono hε hR)) hκ)
      (mul_nonneg hη0.le hκ) (fun i => ?_) (fun i => ?_)
    · have hle : (kapsEta ε R + kapsEtaD ε R) * κ
          ≤ max (kapsEta ε R + kapsEtaD ε R) (r + 1) * κ :=
        mul_le_mul_of_nonneg_right (le_max_left _ _) hκ
      intro H t' u u' v v' hs a1 a2 a3 a4 a5 a6
      refine (this H t' u u' v v' hs a1 a2 a3 a4 a5 (a6.trans (by linarith))).trans ?_
      have := mul_le_mul_of_nonneg_left hle hK.le
      dsimp only
      linarith
    · intro R h z g0 hle gz g1 g2 g3
      obtain ⟨k1, k2⟩ := kaps_upTo hε ‹κ ≤ 1› (hai i) (hN i)
        (hode ▸ fun z h a => ⟨v0, rfl⟩ : Evaluates E.ode (kapsOde newton sf sr)) R h z g0
        (hle.trans (min_le_left _ _)) gz g1 g2 g3
      refine ⟨k1.trans (le_max_left _ _), k2.trans ?_⟩
      exact mul_le_mul_of_nonneg_right (le_add_of_nonneg_right (kapsEtaD_nonneg hε R)) hκ
    · intro R h z d g0 hle gz g1 g2 g3 f1 f2 f3 f4
      have hl := kaps_linearizedUpTo hε ‹κ ≤ 1› (hai i) (hN i) hJ v0
      rw [← hode] at hl
      obtain ⟨k1, k2⟩ := hl R h z d g0 hle gz g1 g2 g3 f1 f2 f3 f4
      refine ⟨k1.trans (le_max_right _ _), k2.trans ?_⟩
      exact mul_le_mul_of_nonneg_right (le_add_of_nonneg_left (kapsEta_pos hε R).le) hκ
  · intro H t' u u' v v' hs a1 a2 a3 a4 a5 a6
    exfalso
    have b1 : r + 1 ≤ max (kapsEta ε R + kapsEtaD ε R) (r + 1) * κ := by
      calc r + 1 ≤ max (kapsEta ε R + kapsEtaD ε R) (r + 1) * 1 := by
            rw [mul_one]; exact le_max_right _ _
        _ ≤ _ := by
          refine mul_le_mul_of_nonneg_left (not_le.mp h).le ?_
          exact le_max_of_le_right (by linarith)
    have b2 := (norm_nonneg (u - kapsY 0)).trans (le_max_left _ ‖v - δ 0‖)
    have b3 := hA.nonneg
    linarith

theorem kaps_transposed {ε : ℝ} {newton : Newton} {sf sr}
    (hJ : SolvesRegular kapsLayout (kapsEnv newton sf sr) (kapsJac ε)) (v0 : OM.Vectors ℝ)
    (lin : Fin (OM.pointSize kapsLayout) → ℝ) (h a : ℝ) :
    AdjointPair (kapsOde newton sf sr v0) lin h a :=
  OM.omOde_adjoint_of_pairing (built_sound kaps_built) kaps_proper kaps_fits v0 lin h a
    fun v b c => hJ.transposed v h a b c

/-- C101, Kaps' problem with any `ε > 0` and the plain shipped tableaux: if the Newton solver of the
group ends with residuals of at most `κ` and its linear solver solves the system with the products of
`apply_linear`, derivatives of runs from initial values near `(1, 1)` at time 0 converge to those of
the exact solution with the order of the scheme, forward and reverse, up to the accuracy of its
coefficients and a multiple of `κ`. -/
theorem C101_kaps {q : ℕ} (hq : 1 ≤ q) {ε : ℝ} (hε : 0 < ε) {t1 τ : ℝ} {δ : ℝ → Fin 2 → ℝ}
    (hδ : IsSensitivity (kapsRhs ε) ![] τ ![] kapsY δ 0 t1) : ∃ K r : ℝ, 0 < K ∧
    0 < r ∧ ∀ e ∈ plainShipped, e.tab.p = some q → ∀ h1 : ℝ → ℝ, (∀ R, 0 < h1 R) →
      ∃ c C h2 : ℝ, 0 < c ∧ 0 < C ∧ 0 < h2 ∧
      ∀ (κ : ℝ) (newton : Newton) (sf sr) (v0 : OM.Vectors ℝ)
        (E : Env e.tab.stages 2 0 0 (OM.pointSize kapsLayout)), 0 ≤ κ →
        E.T = e.tab.coeffs → (∀ i, NewtonConverges ε κ h1 (e.tab.A i i) newton) →
        SolvesRegular kapsLayout (kapsEnv newton sf sr) (kapsJac ε) →
        E.ode = kapsOde newton sf sr v0 →
        ForwardWithin (rkBackend E) FixedEnd ![] τ ![] kapsY δ 0 t1 h2 (r - e.tol - c * κ)
          (fun e0 h => K * (e0 + e.tol + c * κ) + C * h ^ q) ∧
        ReverseWithin (rkBackend E) rkRestore (fun d => d.stageStates = 0) FixedEnd ![] τ ![] kapsY δ
          0 t1 h2 (r - e.tol - c * κ) (fun e0 h => K * (e0 + e.tol + c * κ) + C * h ^ q) := by
  obtain ⟨β, hβ, -⟩ := shipped_weights
  obtain ⟨K, r, hK, hr, hE⟩ := kaps_pair_error hq hε hδ β
  refine ⟨K, r, hK, hr, fun e he hp h1 hh1 => ?_⟩
  obtain ⟨c, C, h2, hc, hC, hh2, hE⟩ := hE _ _ _ (plain_accurate e he hp (hβ e he)) h1 hh1
  refine ⟨c, C, h2, hc, hC, hh2, fun κ newton sf sr v0 E hκ hT hN hJ hode => ?_⟩
  have hF := (hE κ newton sf sr v0 E hκ hT hN hJ hode).forward
  have hz : NoStageState E.ode := hode ▸ OM.omOde_noStageState _ _ _ _
  refine ⟨hF, reverse_of_forward (rkCore E) (rkLawful E hz) (fun a b h => h) hz
    (fun lin h i => hode ▸ kaps_transposed hJ v0 lin h _)
    (fun d i => by simp [rkBackend, rkCacheHit, rkLoad]) ?_ hF⟩
  intro opt i dI dO N fuel sched e w hl hN hf hp hw cw
  exact C33_pyrevolve_reverse_partial E hz hl hN hf hp rfl hw rfl cw cw i dI dO

/-- C101, Kaps' problem with the shipped embedded tableaux, adaptive runs included. -/
theorem C101_kaps_embedded {q : ℕ} (hq : 1 ≤ q) {ε : ℝ} (hε : 0 < ε) {t1 τ : ℝ}
    {δ : ℝ → Fin 2 → ℝ} (hδ : IsSensitivity (kapsRhs ε) ![] τ ![] kapsY δ 0 t1) :
    ∃ K r : ℝ, 0 < K ∧ 0 < r ∧ ∀ e ∈ embShipped, e.tab.p = some q → ∀ h1 : ℝ → ℝ, (∀ R, 0 < h1 R) →
      ∃ c C h2 : ℝ, 0 < c ∧ 0 < C ∧ 0 < h2 ∧
      ∀ (κ : ℝ) (newton : Newton) (sf sr) (v0 : OM.Vectors ℝ)
        (E : Env e.tab.stages 2 0 0 (OM.pointSize kapsLayout)), 0 ≤ κ →
        E.T = e.tab.coeffs → (∀ i, NewtonConverges ε κ h1 (e.tab.A i i) newton) →
        SolvesRegular kapsLayout (kapsEnv newton sf sr) (kapsJac ε) →
        E.ode = kapsOde newton sf sr v0 →
        ForwardWithin (embBackend E e.tab.bhat) AnyEnd ![] τ ![] kapsY δ 0 t1 h2
          (r - e.tol - c * κ) (fun e0 h => K * (e0 + e.tol + c * κ) + C * h ^ q) ∧
        ReverseWithin (embBackend E e.tab.bhat) embRestore (fun d => d.stageStates = 0) AnyEnd ![] τ
          ![] kapsY δ 0 t1 h2 (r - e.tol - c * κ)
          (fun e0 h => K * (e0 + e.tol + c * κ) + C * h ^ q) := by
  obtain ⟨β, -, hβ⟩ := shipped_weights
  obtain ⟨K, r, hK, hr, hE⟩ := kaps_pair_error hq hε hδ β
  refine ⟨K, r, hK, hr, fun e he hp h1 hh1 => ?_⟩
  obtain ⟨c, C, h2, hc, hC, hh2, hE⟩ := hE _ _ _ (emb_accurate e he hp (hβ e he)) h1 hh1
  refine ⟨c, C, h2, hc, hC, hh2, fun κ newton sf sr v0 E hκ hT hN hJ hode => ?_⟩
  have hF := (hE κ newton sf sr v0 E hκ hT hN hJ hode).forward_embedded e.tab.bhat
  have hz : NoStageState E.ode := hode ▸ OM.omOde_noStageState _ _ _ _
  refine ⟨hF, reverse_of_forward (embCore E e.tab.bhat) (embLawful E e.tab.bhat hz)
    (fun a b h => h) hz (fun lin h i => hode ▸ kaps_transposed hJ v0 lin h _)
    (fun d i => by simp [embBackend, rkCacheHit, rkLoad]) ?_ hF⟩
  intro opt i dI dO N fuel sched e' w hl hN hf hp hw cw
  exact C33_embedded_pyrevolve_reverse_partial E e.tab.bhat hz hl hN hf hp rfl hw rfl cw cw i dI dO

/-! ### Concrete cases -/

namespace ProblemsDerivEx

open TestProblemsEx

/-- Forward and reverse products of runs with fixed steps exist. -/
theorem products_ok {s n m o l : ℕ} (E : Env s n m o l) (hE : ∀ d h, E.fails d h = none) (dt : ℝ)
    (N : ℕ) (w : World (RKState ℝ s n m o l) (List (IState (RKState ℝ s n m o l))))
    (i : StartingValues ℝ n m) (hca : cacheOk (rkBackend E) w i = false) (di dI : StartingValues ℝ n m)
    (eO dO : Outputs n) : ∃ w1 v w2 g,
      fwd (rkBackend E) { adaptive := false, crit := .steps N, initialStep := fin dt } (N + 1) w i di eO
        = (w1, .ok v) ∧
      rev (rkBackend E) { adaptive := false, crit := .steps N, initialStep := fin dt }
        (allCk (rkBackend E) { adaptive := false, crit := .steps N, initialStep := fin dt }) (N + 1) w
        i dO dI = (w2, .ok g) := by
  have hrun : ∀ x : IState (RKState ℝ s n m o l), x.sugg = fin dt → ∃ tr, Run (rkBackend E)
      { adaptive := false, crit := .steps N, initialStep := fin dt } 0 w.ctrl x tr := fun x hx =>
    exists_run_fixed (n := N) rfl rfl (by simp) w.ctrl x
      (fun d => ⟨computeStep E.T E.ode d dt, by simp [rkBackend, hx, hE]⟩) 0
  obtain ⟨tr, htr⟩ := hrun (startOfFwd (rkBackend E)
    { adaptive := false, crit := .steps N, initialStep := fin dt } w.ctrl w.tis.disc i) rfl
  obtain ⟨tr', htr'⟩ := hrun (startOf (rkBackend E)
    { adaptive := false, crit := .steps N, initialStep := fin dt } w.ctrl w.tis.disc i) rfl
  have hlen := htr.length_steps rfl (Nat.zero_le _)
  have hlen' := htr'.length_steps rfl (Nat.zero_le _)
  have hf := fwd_of_run (fuel := N + 1) htr (by omega) di eO
  have hr := rev_of_run (fuel := N + 1) (dO := dO) (dI := dI) hca htr' (by omega)
  exact ⟨_, _, _, _, Prod.ext (x := fwd _ _ _ w i di eO) (y := (_, .ok _)) rfl hf,
    Prod.ext (x := rev _ _ _ _ w i dO dI) (y := (_, .ok _)) rfl hr⟩

/-- Kaps' problem with the implicit midpoint rule, an exact solver for the stages and an exact
linear solver. -/
noncomputable def kapsExact : Env midpoint.tab.stages 2 0 0 (OM.pointSize kapsLayout) where
  T := midpoint.tab.coeffs
  ode := kapsOde (exactNewton 0.01) (invFwd kapsLayout (kapsJac 0.01))
    (invRev kapsLayout (kapsJac 0.01)) ⟨fun _ _ => 0, fun _ _ => 0⟩
  fails _ _ := none
  nonfinite _ _ := .error .backend
  measure _ _ := fin 0

/-- Derivatives of Kaps' problem with respect to the first initial value: the exact sensitivity exists,
is the derivative of the exact flow, and forward and reverse products exist and converge to it with order
two. -/
example : ∃ δ : ℝ → Fin 2 → ℝ, δ 0 = ![1, 0] ∧
    IsExactDerivative (kapsRhs 0.01) ![] 0 ![1, 0] ![] kapsY δ 0 1 ∧
    ∃ C h1 : ℝ, 0 < C ∧ 0 < h1 ∧ ∀ (dt : ℝ) (N : ℕ), 0 ≤ dt → dt < h1 → N * dt ≤ 1 →
    ∀ w, cacheOk (rkBackend kapsExact) w ⟨0, ![1, 1], ![]⟩ = false → ∃ w1 v w2 g,
      fwd (rkBackend kapsExact) { adaptive := false, crit := .steps N, initialStep := fin dt } (N + 1)
        w ⟨0, ![1, 1], ![]⟩ ⟨0, ![1, 0], ![]⟩ ⟨0, 0⟩ = (w1, .ok v) ∧
      rev (rkBackend kapsExact) { adaptive := false, crit := .steps N, initialStep := fin dt }
        (allCk (rkBackend kapsExact) { adaptive := false, crit := .steps N, initialStep := fin dt })
        (N + 1) w ⟨0, ![1, 1], ![]⟩ ⟨0, ![0, 1]⟩ ⟨0, 0, ![]⟩ = (w2, .ok g) ∧
      ‖v.values - δ (N * dt)‖ ≤ C * dt ^ 2 ∧ |g.initialValues 0 - δ (N * dt) 1| ≤ C * dt ^ 2 := by
  have hε : (0 : ℝ) < 0.01 := by norm_num
  have hY : IsSolution (kapsRhs 0.01) ![] kapsY 0 1 := kaps_isSolution hε.ne' 1
  obtain ⟨⟨δ, hδ0, hδ⟩, hex⟩ := C81_sensitivity_is_derivative zero_le_one (kaps_smoothAll 0.01 1) hY 0
    ![1, 0] ![]
  have hex := hex δ hδ
  rw [hδ0] at hex
  refine ⟨δ, hδ0, hex, ?_⟩
  obtain ⟨K, r, -, hr, hE⟩ := C101_kaps (q := 2) (by norm_num) hε hδ
  obtain ⟨c, C, h2, -, hC, hh2, hE⟩ := hE midpoint
    (List.mem_cons_of_mem _ (List.mem_cons_of_mem _ List.mem_cons_self)) rfl
    (fun R => 1 / (32 * ((1 + |R|) * (1 + 1 / 2)))) (fun R => by positivity)
  obtain ⟨hF, hR⟩ := hE 0 (exactNewton 0.01) _ _ ⟨fun _ _ => 0, fun _ _ => 0⟩ kapsExact le_rfl rfl
    (fun i => by
      have e : midpoint.tab.A i i = 1 / 2 := by
        have : ∀ i, implicitMidpoint.A i i = 1 / 2 := by decide +kernel
        exact (congrArg (Rat.castHom ℝ) (this i)).trans (by norm_num)
      rw [e]
      exact exactNewton_converges (by norm_num) (by norm_num) le_rfl)
    (exact_regular _ _ _) rfl
  refine ⟨C, h2, hC, hh2, fun dt N h0 hdt hN w hca => ?_⟩
  obtain ⟨w1, v, w2, g, hv, hg⟩ := products_ok kapsExact (fun _ _ => rfl) dt N w ⟨0, ![1, 1], ![]⟩
    hca ⟨0, ![1, 0], ![]⟩ ⟨0, 0, ![]⟩ ⟨0, 0⟩ ⟨0, ![0, 1]⟩
  refine ⟨w1, v, w2, g, hv, hg, ?_, ?_⟩
  · have e0 : max ‖(![1, 1] : Fin 2 → ℝ) - kapsY 0‖ ‖(![1, 0] : Fin 2 → ℝ) - δ 0‖ = 0 := by
      have : (![1, 1] : Fin 2 → ℝ) - kapsY 0 = 0 := by
        funext x
        fin_cases x <;> simp [kapsY, kapsSolution]
      rw [this, hδ0]
      simp
    have := (hF _ { adaptive := false, crit := .steps N, initialStep := fin dt } dt (0 + N * dt) _ w w1 _
      _ _ v (.steps rfl rfl rfl h0) hdt (by linarith) rfl rfl rfl rfl
      (by rw [e0]; simpa [TestProblemsEx.midpoint] using hr.le) hv).2
    rw [e0] at this
    simpa [TestProblemsEx.midpoint] using this
  · have e0 : ‖(![1, 1] : Fin 2 → ℝ) - kapsY 0‖ = 0 := by
      have : (![1, 1] : Fin 2 → ℝ) - kapsY 0 = 0 := by
        funext x
        fin_cases x <;> simp [kapsY, kapsSolution]
      rw [this, norm_zero]
    have := hR { adaptive := false, crit := .steps N, initialStep := fin dt } w.ctrl dt (0 + N * dt) _ _ g
      _ (.steps rfl rfl rfl h0) hdt (by linarith) rfl rfl
      (by rw [e0]; simpa [TestProblemsEx.midpoint] using hr.le) (.fresh rfl hca hg)
    rw [e0] at this
    simpa [TestProblemsEx.midpoint, hδ0] using this

/-- Exact linear solves for the linear problem. -/
noncomputable def linearSolveFwd (_ : OM.Vectors ℝ) (h a : ℝ) (b : OM.Vec ℝ) : OM.Vec ℝ :=
  Function.update (fun n k => -b n k) "test_comp.y_stage" fun _ => -b "test_comp.y_stage" 0
    + (1 + h * a)⁻¹ * (b "_auto_ivc.v0" 0 + h * b "_auto_ivc.v1" 0)

noncomputable def linearSolveRev (_ : OM.Vectors ℝ) (h a : ℝ) (b : OM.Vec ℝ) : OM.Vec ℝ :=
  fun n k => if n = "_auto_ivc.v0" then -b n k + (1 + h * a)⁻¹ * b "test_comp.y_stage" 0
    else if n = "_auto_ivc.v1" then -b n k + h * (1 + h * a)⁻¹ * b "test_comp.y_stage" 0
    else -b n k

theorem linear_solves :
    SolvesLinear linearLayout (linearEnv linearSolveFwd linearSolveRev) linearJac := by
  refine ⟨fun v h a b e he => ?_, fun v h a b e he => ?_, fun v w h a hvw e he e' he' => rfl⟩
  · rw [linear_entries] at he ⊢
    simp only [Finset.mem_insert, Finset.mem_singleton] at he
    rcases he with rfl | rfl | rfl <;>
      simp [linearJac, linearApply, unitVec, transfer, linearConn, simpleLinearFwd, linearEnv,
        linearSolveFwd, Function.update]
    ring
  · rw [linear_entries] at he ⊢
    simp only [Finset.mem_insert, Finset.mem_singleton] at he
    rcases he with rfl | rfl | rfl <;>
      simp [linearJac, linearApply, unitVec, transfer, linearConn, simpleLinearFwd, linearEnv,
        linearSolveRev]

noncomputable def linearExact : Env rk4.tab.stages 1 0 0 (OM.pointSize linearLayout) where
  T := rk4.tab.coeffs
  ode := linearOde linearSolveFwd linearSolveRev ⟨fun _ _ => 0, fun _ _ => 0⟩
  fails _ _ := none
  nonfinite _ _ := .error .backend
  measure _ _ := fin 0

/-- Derivatives of the linear problem with the classical scheme. -/
example : ∃ C h1 : ℝ, 0 < C ∧ 0 < h1 ∧ ∀ (dt : ℝ) (N : ℕ), 0 ≤ dt → dt < h1 → N * dt ≤ 1 →
    ∀ w, cacheOk (rkBackend linearExact) w ⟨0, fun _ => 1, ![]⟩ = false → ∃ w1 v w2 g,
      fwd (rkBackend linearExact) { adaptive := false, crit := .steps N, initialStep := fin dt } (N + 1)
        w ⟨0, fun _ => 1, ![]⟩ ⟨0, fun _ => 1, ![]⟩ ⟨0, 0⟩ = (w1, .ok v) ∧
      rev (rkBackend linearExact) { adaptive := false, crit := .steps N, initialStep := fin dt }
        (allCk (rkBackend linearExact) { adaptive := false, crit := .steps N, initialStep := fin dt })
        (N + 1) w ⟨0, fun _ => 1, ![]⟩ ⟨0, fun _ => 1⟩ ⟨0, 0, ![]⟩ = (w2, .ok g) ∧
      ‖v.values - fun _ => Real.exp (-(N * dt))‖ ≤ C * dt ^ 4 ∧
      |g.initialValues 0 - Real.exp (-(N * dt))| ≤ C * dt ^ 4 := by
  obtain ⟨K, r, -, hr, hE⟩ := C101_linear (q := 4) (by norm_num) 1 0 1 1 0
  obtain ⟨C, h2, hC, hh2, hF, hR⟩ := hE rk4 (List.mem_cons_of_mem _ (List.mem_cons_of_mem _
    (List.mem_cons_of_mem _ (List.mem_cons_of_mem _ List.mem_cons_self)))) rfl
    ⟨fun _ _ => 0, fun _ _ => 0⟩ _ _ linearExact rfl rfl linear_solves
  refine ⟨C, h2, hC, hh2, fun dt N h0 hdt hN w hca => ?_⟩
  obtain ⟨w1, v, w2, g, hv, hg⟩ := products_ok linearExact (fun _ _ => rfl) dt N w
    ⟨0, fun _ => 1, ![]⟩ hca ⟨0, fun _ => 1, ![]⟩ ⟨0, 0, ![]⟩ ⟨0, 0⟩ ⟨0, fun _ => 1⟩
  refine ⟨w1, v, w2, g, hv, hg, ?_, ?_⟩
  · have e1 : ((fun _ => 1 : Fin 1 → ℝ) - fun _ => simpleLinearSolution 0 1 0) = 0 := by
      funext x
      simp [simpleLinearSolution]
    have e2 : ((fun _ => 1 : Fin 1 → ℝ) - fun _ => 1 * Real.exp (-(0 - 0))) = 0 := by
      funext x
      simp
    have := (hF _ { adaptive := false, crit := .steps N, initialStep := fin dt } dt (0 + N * dt) _ w w1 _
      _ _ v (.steps rfl rfl rfl h0) hdt (by linarith) rfl rfl rfl rfl
      (by rw [e1, e2]; simpa [rk4] using hr.le) hv).2
    rw [e1, e2] at this
    simpa [rk4] using this
  · have e1 : ((fun _ => 1 : Fin 1 → ℝ) - fun _ => simpleLinearSolution 0 1 0) = 0 := by
      funext x
      simp [simpleLinearSolution]
    have := hR { adaptive := false, crit := .steps N, initialStep := fin dt } w.ctrl dt (0 + N * dt) _ _ g
      _ (.steps rfl rfl rfl h0) hdt (by linarith) rfl rfl
      (by rw [e1]; simpa [rk4] using hr.le) (.fresh rfl hca hg)
    rw [e1] at this
    simpa [rk4] using this

/-- The solves for the component of Prothero and Robinson. -/
def protheroSolve (_ : OM.Vectors ℝ) (_ _ : ℝ) (b : OM.Vec ℝ) : OM.Vec ℝ := fun n k => -b n k

theorem prothero_solves (lam : ℝ) :
    SolvesLinear protheroLayout (protheroEnv lam protheroSolve protheroSolve) protheroJac := by
  refine ⟨fun v h a b e he => ?_, fun v h a b e he => ?_, fun v w h a hvw e he e' he' => rfl⟩
  · rw [Finset.sum_eq_single e (fun e' _ hne => by rw [protheroJac, if_neg hne.symm, zero_mul])
      (fun h => absurd he h), protheroJac, if_pos rfl]
    simp [protheroEnv, protheroSolve]
  · change ∑ e' ∈ _, protheroJac v h a e' e * _ = _
    rw [Finset.sum_eq_single e (fun e' _ hne => by rw [protheroJac, if_neg hne, zero_mul])
      (fun h => absurd he h), protheroJac, if_pos rfl]
    simp [protheroEnv, protheroSolve]

noncomputable def protheroExactEnv (lam : ℝ) :
    Env midpoint.tab.stages 1 0 0 (OM.pointSize protheroLayout) where
  T := midpoint.tab.coeffs
  ode := protheroOde lam protheroSolve protheroSolve ⟨fun _ _ => 0, fun _ _ => 0⟩
  fails _ _ := none
  nonfinite _ _ := .error .backend
  measure _ _ := fin 0

/-- With the implicit midpoint rule and `lam = -2`, both derivatives of the values at time one with
respect to the initial value are one for every number of steps; the exact derivative is
`exp(-2) < 1`. -/
example (N : ℕ) (w) (hca : cacheOk (rkBackend (protheroExactEnv (-2))) w ⟨0, fun _ => 1, ![]⟩ = false) :
    (∃ w1 v w2 g,
      fwd (rkBackend (protheroExactEnv (-2)))
        { adaptive := false, crit := .steps (N + 1), initialStep := fin (1 / (N + 1)) } (N + 2)
        w ⟨0, fun _ => 1, ![]⟩ ⟨0, fun _ => 1, ![]⟩ ⟨0, 0⟩ = (w1, .ok v) ∧
      rev (rkBackend (protheroExactEnv (-2)))
        { adaptive := false, crit := .steps (N + 1), initialStep := fin (1 / (N + 1)) }
        (allCk (rkBackend (protheroExactEnv (-2)))
          { adaptive := false, crit := .steps (N + 1), initialStep := fin (1 / (N + 1)) })
        (N + 2) w ⟨0, fun _ => 1, ![]⟩ ⟨0, fun _ => 1⟩ ⟨0, 0, ![]⟩ = (w2, .ok g) ∧
      v.values 0 = 1 ∧ g.initialValues 0 = 1) ∧
    HasDerivAt (fun x => protheroExact (-2) x 0 1) (Real.exp (-2)) 1 := by
  obtain ⟨h1, h2, h3, -⟩ := C101_prothero_robinson_violated (prothero_solves (-2))
    ⟨fun _ _ => 0, fun _ _ => 0⟩ (protheroExactEnv (-2)) rfl
  refine ⟨?_, by simpa using h3 1 0 1⟩
  obtain ⟨w1, v, w2, g, hv, hg⟩ := products_ok (protheroExactEnv (-2)) (fun _ _ => rfl) (1 / (N + 1))
    (N + 1) w ⟨0, fun _ => 1, ![]⟩ hca ⟨0, fun _ => 1, ![]⟩ ⟨0, 0, ![]⟩ ⟨0, 0⟩ ⟨0, fun _ => 1⟩
  have hd : (0 : ℝ) ≤ 1 / (N + 1) := by positivity
  refine ⟨w1, v, w2, g, hv, hg, ?_, ?_⟩
  · exact congrFun (h1 _ _ _ _ _ w w1 _ _ _ v (.steps rfl rfl rfl hd) hv) 0
  · exact congrFun (h2 _ w.ctrl _ _ _ _ g _ (.steps rfl rfl rfl hd) (.fresh rfl hca hg)) 0

end ProblemsDerivEx

end Verif.Props
