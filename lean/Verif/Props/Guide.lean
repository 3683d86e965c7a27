/-
The components of the user guide and of the examples (C91).
-/
import Verif.Components.Guide
import Verif.Props.TestProblems

namespace Verif.Props

open Verif.RK Verif.RK.Spec Verif.Control Verif.XReal Verif.Integrator Verif.Tableau Verif.Comp
open Classical

variable {s n m o l : ℕ}

/-! ### The equations of the components -/

/-- C91: the outputs of the components are the solutions of the stage equations the guide derives for
`x' = x` and `x' = b x`. -/
theorem C91_stage_equations (h a old acc b k : ℝ) :
    (1 - h * a ≠ 0 → (k = guideCompute h a old acc ↔ k = old + h * (acc + a * k))) ∧
    (1 - b * h * a ≠ 0 → (k = inputCompute h a old acc b ↔ k = b * (old + h * (acc + a * k)))) := by
  constructor
  · intro hd
    unfold guideCompute
    rw [eq_div_iff hd]
    constructor <;> intro h1 <;> linear_combination h1
  · intro hd
    unfold inputCompute
    rw [eq_div_iff hd]
    constructor <;> intro h1 <;> linear_combination h1

/-- C91: the declared partial derivatives of the components of the guide are derivatives of
their outputs. -/
theorem C91_partials (h a old acc b : ℝ) :
    (HasDerivAt (fun x => guideCompute h a x acc) (guidePartials h a).1 old ∧
      HasDerivAt (fun x => guideCompute h a old x) (guidePartials h a).2 acc) ∧
    (HasDerivAt (fun x => inputCompute h a x acc b) (inputPartials h a old acc b).1 old ∧
      HasDerivAt (fun x => inputCompute h a old x b) (inputPartials h a old acc b).2.1 acc ∧
      (1 - b * h * a ≠ 0 →
        HasDerivAt (fun x => inputCompute h a old acc x) (inputPartials h a old acc b).2.2 b)) ∧
    (∀ ky, HasDerivAt (fun x => coupledCompute1 h a x acc ky) (coupledPartials1 h a).1 old ∧
      HasDerivAt (fun x => coupledCompute1 h a old x ky) (coupledPartials1 h a).2.1 acc ∧
      HasDerivAt (fun x => coupledCompute1 h a old acc x) (coupledPartials1 h a).2.2 ky) ∧
    ∀ kx, HasDerivAt (fun x => coupledCompute2 h a x acc kx) (coupledPartials2 h a).1 old ∧
      HasDerivAt (fun x => coupledCompute2 h a old x kx) (coupledPartials2 h a).2.1 acc ∧
      HasDerivAt (fun x => coupledCompute2 h a old acc x) (coupledPartials2 h a).2.2 kx := by
  have lin : ∀ (c d x : ℝ), HasDerivAt (fun x => c * x + d) c x := fun c d x => by
    simpa using ((hasDerivAt_id x).const_mul c).add_const d
  refine ⟨⟨?_, ?_⟩, ⟨?_, ?_, fun hd => ?_⟩, fun ky => ⟨?_, ?_, ?_⟩, fun kx => ⟨?_, ?_, ?_⟩⟩
  · refine (lin _ (h * acc / (1 - h * a)) old).congr_of_eventuallyEq (.of_forall fun x => ?_)
    simp only [guideCompute, guidePartials]
    ring
  · refine (lin _ (old / (1 - h * a)) acc).congr_of_eventuallyEq (.of_forall fun x => ?_)
    simp only [guideCompute, guidePartials]
    ring
  · refine (lin _ (b * (h * acc) / (1 - b * h * a)) old).congr_of_eventuallyEq
      (.of_forall fun x => ?_)
    simp only [inputCompute, inputPartials]
    ring
  · refine (lin _ (b * old / (1 - b * h * a)) acc).congr_of_eventuallyEq (.of_forall fun x => ?_)
    simp only [inputCompute, inputPartials]
    ring
  · have h1 := (((hasDerivAt_id b).mul_const (old + h * acc)).div
      (lin (-(h * a)) 1 b) (fun h0 => hd (by linear_combination h0)))
    refine (h1.congr_deriv ?_).congr_of_eventuallyEq (.of_forall fun x => ?_)
    · simp only [inputPartials, id]
      have e : -(h * a) * b + 1 = 1 - b * h * a := by ring
      rw [e]
      field_simp
      ring
    · simp only [inputCompute, Pi.div_apply, id]
      congr 1
      ring
  · refine (lin _ (-(h * (acc + a * ky))) old).congr_of_eventuallyEq (.of_forall fun x => ?_)
    simp only [coupledCompute1, coupledPartials1]
    ring
  · refine (lin _ (-(old + h * (a * ky))) acc).congr_of_eventuallyEq (.of_forall fun x => ?_)
    simp only [coupledCompute1, coupledPartials1]
    ring
  · refine (lin _ (-(old + h * acc)) ky).congr_of_eventuallyEq (.of_forall fun x => ?_)
    simp only [coupledCompute1, coupledPartials1]
    ring
  · refine (lin _ (h * (acc + a * kx)) old).congr_of_eventuallyEq (.of_forall fun x => ?_)
    simp only [coupledCompute2, coupledPartials2]
    ring
  · refine (lin _ (old + h * (a * kx)) acc).congr_of_eventuallyEq (.of_forall fun x => ?_)
    simp only [coupledCompute2, coupledPartials2]
    ring
  · refine (lin _ (old + h * acc) kx).congr_of_eventuallyEq (.of_forall fun x => ?_)
    simp only [coupledCompute2, coupledPartials2]
    ring

/-- The stage equations of `x' = -y`, `y' = x`. -/
def RotStage (h a : ℝ) (x y sx sy kx ky : ℝ) : Prop :=
  kx = -(y + h * (sy + a * ky)) ∧ ky = x + h * (sx + a * kx)

/-- C91: the three implementations of `x' = -y`, `y' = x` agree. The stage equations have one solution
for every step size and coefficient; it is the only one with vanishing residuals of the coupled
components of the guide, the only one with vanishing residuals of the components of
simple_parallel_group.py, and the one the two ranks of simple_parallel_distributed_component.py
compute, which never wait for a message that is not sent. -/
theorem C91_implementations_agree (h a : ℝ) (x y sx sy : ℝ) : ∃ kx ky : ℝ,
    (∀ k : ℝ × ℝ, RotStage h a x y sx sy k.1 k.2 ↔ k = (kx, ky)) ∧
    (∀ v : OM.Vec ℝ, v "_auto_ivc.v0" 0 = y → v "_auto_ivc.v1" 0 = sy → v "_auto_ivc.v2" 0 = x →
      v "_auto_ivc.v3" 0 = sx → ∀ k, coupledResidual h a v k = 0 ↔ k = (kx, ky)) ∧
    (∀ v : OM.Vec ℝ, v "parallel_group.first_group.first_indep.x_old" 0 = x →
      v "parallel_group.first_group.first_indep.sx_i" 0 = sx →
      v "parallel_group.second_group.second_indep.y_old" 0 = y →
      v "parallel_group.second_group.second_indep.sy_i" 0 = sy → ∀ p : PartOut ℝ × PartOut ℝ,
      partResidual h a v p = (⟨0, 0⟩, ⟨0, 0⟩) ↔
        p = (⟨kx, x + h * (sx + a * kx)⟩, ⟨ky, y + h * (sy + a * ky)⟩)) ∧
    distCompute h a (x, y) (sx, sy) = some (kx, ky) := by
  have hd : (h * a) ^ 2 + 1 ≠ 0 := by positivity
  have hun : ∀ kx ky, RotStage h a x y sx sy kx ky ↔
      kx = distCompute0 h a (x + h * sx) (y + h * sy) ∧
      ky = distCompute1 h a (y + h * sy) (x + h * sx) := by
    intro kx ky
    unfold RotStage distCompute0 distCompute1
    rw [eq_div_iff hd, eq_div_iff hd]
    constructor
    · rintro ⟨h1, h2⟩
      constructor
      · linear_combination h1 - h * a * h2
      · linear_combination h2 + h * a * h1
    · rintro ⟨h1, h2⟩
      have e1 : (kx + (y + h * (sy + a * ky))) * ((h * a) ^ 2 + 1) = 0 := by
        linear_combination h1 + h * a * h2
      have e2 : (ky - (x + h * (sx + a * kx))) * ((h * a) ^ 2 + 1) = 0 := by
        linear_combination h2 - h * a * h1
      have e1 := (mul_eq_zero.mp e1).resolve_right hd
      have e2 := (mul_eq_zero.mp e2).resolve_right hd
      exact ⟨by linarith, by linarith⟩
  refine ⟨_, _, fun k => (hun _ _).trans ?_, ?_, ?_, distCompute_eq _ _ _ _⟩
  · rw [Prod.ext_iff]
  · rintro v h1 h2 h3 h4 k
    have : coupledResidual h a v k = 0 ↔ RotStage h a x y sx sy k.1 k.2 := by
      simp only [coupledResidual, coupledCompute1, coupledCompute2, h1, h2, h3, h4, RotStage,
        Prod.mk_eq_zero, sub_eq_zero]
    rw [this, hun, Prod.ext_iff]
  · rintro v h1 h2 h3 h4 ⟨⟨k1, z1⟩, ⟨k2, z2⟩⟩
    obtain ⟨g1, g2⟩ := (hun _ _).mpr ⟨rfl, rfl⟩
    simp only [partResidual, partCompute1, partCompute2, h1, h2, h3, h4, Prod.mk.injEq,
      PartOut.mk.injEq]
    constructor
    · rintro ⟨⟨e1, e2⟩, e3, e4⟩
      obtain ⟨u1, u2⟩ := (hun k1 k2).mp ⟨by linear_combination e1 - e4 + h * a * e3,
        by linear_combination e3 + e2 - h * a * e1⟩
      refine ⟨⟨u1, ?_⟩, u2, ?_⟩
      · rw [← u1]
        linear_combination e2 - h * a * e1
      · rw [← u2]
        linear_combination e4 - h * a * e3
    · rintro ⟨⟨e1, e2⟩, e3, e4⟩
      rw [← e1] at g1 g2 e2
      rw [← e3] at g1 g2 e4
      refine ⟨⟨?_, ?_⟩, ?_, ?_⟩
      · linear_combination g1 + e4
      · linear_combination e2 + h * a * e4 + h * a * g1
      · linear_combination g2 - e2
      · linear_combination e4 - h * a * e2 + h * a * g2

/-! ### Products with the Jacobians of the examples -/

/-- The pairing of the inputs and outputs of a component. -/
def pairIn (i j : PartIn ℝ) : ℝ := i.old * j.old + i.acc * j.acc + i.other * j.other
def pairOut (i j : PartOut ℝ) : ℝ := i.k * j.k + i.stage * j.stage
def pair2 (i j : ℝ × ℝ) : ℝ := i.1 * j.1 + i.2 * j.2

/-- C91, simple_parallel_group.py: forward products are added to the outputs, and are the outputs for
the direction, since the components are linear; reverse products are added to the inputs, and are the
transposes. -/
theorem C91_group_products (h a : ℝ) (i di : PartIn ℝ) (o d : PartOut ℝ) :
    partFwd1 h a i d = ⟨d.k + (partCompute1 h a i).k, d.stage + (partCompute1 h a i).stage⟩ ∧
    partFwd2 h a i d = ⟨d.k + (partCompute2 h a i).k, d.stage + (partCompute2 h a i).stage⟩ ∧
    pairIn i (partRev1 h a o di) = pairIn i di + pairOut o (partCompute1 h a i) ∧
    pairIn i (partRev2 h a o di) = pairIn i di + pairOut o (partCompute2 h a i) := by
  refine ⟨?_, ?_, ?_, ?_⟩
  · simp [partFwd1, partCompute1, sub_eq_add_neg]
  · simp [partFwd2, partCompute2]
  · simp only [pairIn, pairOut, partRev1, partCompute1]
    ring
  · simp only [pairIn, pairOut, partRev2, partCompute2]
    ring

/-- C91, simple_parallel_distributed_component.py: on both ranks together, forward products are those
with the linear map `compute`, and reverse products those with its transpose. -/
theorem C91_distributed_products (h a : ℝ) (old acc d k dOld dAcc : ℝ × ℝ) :
    ∃ c : ℝ × ℝ, distCompute h a old acc = some c ∧ distFwd h a old acc d = some (d + c) ∧
      ∃ r, distRev h a k dOld dAcc = some r ∧
        pair2 old r.1 + pair2 acc r.2 = pair2 old dOld + pair2 acc dAcc + pair2 k c := by
  refine ⟨_, distCompute_eq _ _ _ _, rfl, _, rfl, ?_⟩
  have hd : (h * a) ^ 2 + 1 ≠ 0 := by positivity
  simp only [pair2, distCompute0, distCompute1]
  field_simp
  ring

/-! ### `x' = x` and `x' = b x` -/

/-- `x' = x`. -/
def growthRhs : Rhs ℝ 1 0 := fun _ y _ => y

theorem growth_regular (q : ℕ) : Regular growthRhs ![] q := by
  refine ⟨?_, 1, zero_le_one, fun t u v => ?_⟩
  · unfold growthRhs
    fun_prop
  · simp only [growthRhs, one_mul]
    rfl

theorem growth_isSolution (x0 t0 t1 : ℝ) :
    IsSolution growthRhs ![] (fun t _ => x0 * Real.exp (t - t0)) t0 t1 := by
  intro t _
  rw [hasDerivWithinAt_pi]
  intro x
  refine HasDerivAt.hasDerivWithinAt ?_
  have := (((hasDerivAt_id t).sub_const t0).exp).const_mul x0
  simpa [growthRhs] using this

theorem growth_solves {ode : ODE ℝ 1 0 0 (OM.pointSize guideLayout)} {fwd rev}
    (hE : Evaluates ode (guideOde fwd rev)) {h a : ℝ} (hd : 1 - h * a ≠ 0) :
    SolvesStage ode growthRhs h a := by
  intro z
  obtain ⟨v0, e⟩ := hE z h a
  rw [e, guideOde_update]
  funext x
  obtain rfl : x = 0 := Subsingleton.elim _ _
  have := ((C91_stage_equations h a (z.stepInput 0) (z.stageInput 0) 0 _).1 hd).mp rfl
  simp only [growthRhs]
  refine this.trans ?_
  ring

theorem growth_error {q : ℕ} (hq : 1 ≤ q) (x0 t0 t1 β : ℝ) : ∃ K : ℝ, 0 < K ∧
    ∀ (s : ℕ) (T : Coeffs ℝ s) (ε : ℝ), Accurate T β ε q → ∃ C δ : ℝ, 0 < C ∧ 0 < δ ∧
      ∀ (r : ℝ) (fwd rev) (E : Env s 1 0 0 (OM.pointSize guideLayout)), E.T = T →
        Evaluates E.ode (guideOde fwd rev) →
        StepError E ![] (fun t _ => x0 * Real.exp (t - t0)) t0 t1 δ r
          fun e0 H => K * (e0 + ε) + C * H ^ q := by
  obtain ⟨K, hK, hE⟩ := regular_error hq (growth_regular q) (growth_isSolution x0 t0 t1) β
  refine ⟨K, hK, fun s T ε hA => ?_⟩
  obtain ⟨h1, hh1, hne⟩ := small_step T (-1)
  obtain ⟨C, δ, hC, hδ, hE⟩ := hE s T ε hA h1 hh1
  refine ⟨C, δ, hC, hδ, fun r fwd rev E hT hev => hE r _ _ E hT fun h h0 hle i => ?_⟩
  refine growth_solves hev ?_
  have := hne h h0 hle i
  intro h2
  exact this (by linear_combination h2)

/-- `x' = b x`, where `b` is the time-independent input. -/
def inputRhs : Rhs ℝ 1 1 := fun _ y p x => p x * y x

theorem input_regular (b : ℝ) (q : ℕ) : Regular inputRhs (fun _ => b) q := by
  refine ⟨?_, |b|, abs_nonneg _, fun t u v => ?_⟩
  · refine contDiff_pi.mpr fun x => ?_
    have h1 : ContDiff ℝ q fun z : ℝ × (Fin 1 → ℝ) => z.2 x := by fun_prop
    exact contDiff_const.mul h1
  · refine (pi_norm_le_iff_of_nonneg (by positivity)).mpr fun x => ?_
    have e : (inputRhs t u (fun _ => b) - inputRhs t v fun _ => b) x = b * (u - v) x := by
      simp only [inputRhs, Pi.sub_apply]
      ring
    rw [e, norm_mul, Real.norm_eq_abs]
    exact mul_le_mul_of_nonneg_left (norm_le_pi_norm _ _) (abs_nonneg _)

theorem input_isSolution (b x0 t0 t1 : ℝ) :
    IsSolution inputRhs (fun _ => b) (fun t _ => x0 * Real.exp (b * (t - t0))) t0 t1 := by
  intro t _
  rw [hasDerivWithinAt_pi]
  intro x
  refine HasDerivAt.hasDerivWithinAt ?_
  have := ((((hasDerivAt_id t).sub_const t0).const_mul b).exp).const_mul x0
  refine this.congr_deriv ?_
  simp only [inputRhs, id]
  ring

theorem input_solves {ode : ODE ℝ 1 1 0 (OM.pointSize inputLayout)} {fwd rev}
    (hE : Evaluates ode (inputOde fwd rev)) {b h a : ℝ} (hd : 1 - b * h * a ≠ 0)
    (z : OdeInput ℝ 1 1) (hz : z.independentInput = fun _ => b) :
    (ode.computeUpdate z h a).1.stageUpdate = inputRhs z.time (fun x => z.stepInput x
      + h * z.stageInput x + h * a * (ode.computeUpdate z h a).1.stageUpdate x)
      z.independentInput := by
  obtain ⟨v0, e⟩ := hE z h a
  rw [e, inputOde_update]
  funext x
  obtain rfl : x = 0 := Subsingleton.elim _ _
  have := ((C91_stage_equations h a (z.stepInput 0) (z.stageInput 0) b _).2 hd).mp rfl
  simp only [inputRhs, hz]
  refine this.trans ?_
  ring

/-- `regular_error` for backends that solve the stage equations for the inputs `p` only. -/
theorem regular_error_at {f : Rhs ℝ n m} {p : Fin m → ℝ} {q : ℕ} {y : ℝ → Fin n → ℝ} {t0 t1 : ℝ}
    (hq : 1 ≤ q) (hf : Regular f p q) (hy : IsSolution f p y t0 t1) (β : ℝ) :
    ∃ K : ℝ, 0 < K ∧ ∀ (s : ℕ) (T : Coeffs ℝ s) (ε : ℝ), Accurate T β ε q → ∀ h1 : ℝ, 0 < h1 →
      ∃ C δ : ℝ, 0 < C ∧ 0 < δ ∧ ∀ (r : ℝ) (o l : ℕ) (E : Env s n m o l), E.T = T →
        (∀ h, 0 ≤ h → h ≤ h1 → ∀ i, ∀ z : OdeInput ℝ n m, z.independentInput = p →
          (E.ode.computeUpdate z h (T.A i i)).1.stageUpdate = f z.time (fun x => z.stepInput x
            + h * z.stageInput x + h * T.A i i *
              (E.ode.computeUpdate z h (T.A i i)).1.stageUpdate x) z.independentInput) →
        StepError E p y t0 t1 δ r fun e0 H => K * (e0 + ε) + C * H ^ q := by
  obtain ⟨K, hK, hE⟩ := trajectory_error_within hq hf hy β
  refine ⟨K, hK, fun s T ε hA h1 hh1 => ?_⟩
  obtain ⟨C, δ, hC, hδ, hE⟩ := hE s T ε hA
  refine ⟨C, min δ h1, hC, lt_min hδ hh1, fun r o l E hT hs H t' u u' hl h0 hH hb hst ht' _ => ?_⟩
  subst hT
  refine hE H t' u u' hl h0 (hH.trans_le (min_le_left _ _)) hb (IsSteps.trajectory
    (hst.mono fun h hh t y y₁ h1' => ?_)) ht'
  obtain ⟨st, rfl, rfl, rfl, rfl⟩ := h1'
  have hr := computeStep_result E.T E.ode st h
  refine ⟨(computeStep E.T E.ode st h).stageUpdates, fun i => ?_, fun x => ?_⟩
  · have h1 := hs h (hb h hh).1 ((hb h hh).2.trans (hH.trans_le (min_le_right _ _)).le) i
      (stageIn E.T h st.finalTime st.finalState st.independentInputs
        (computeStep E.T E.ode st h).stageUpdates i) rfl
    rw [← hr.update i] at h1
    rw [h1]
    have h2 := stageInput_eq E.T.A E.T.b E.T.c hA.lower h st.finalState
      (computeStep E.T E.ode st h).stageUpdates i
    simp only [stageIn]
    rw [mul_comm (E.T.c i) h, ← h2]
  · rw [hr.finalState, accumulateStep_apply]

theorem input_error {q : ℕ} (hq : 1 ≤ q) (b x0 t0 t1 β : ℝ) : ∃ K : ℝ, 0 < K ∧
    ∀ (s : ℕ) (T : Coeffs ℝ s) (ε : ℝ), Accurate T β ε q → ∃ C δ : ℝ, 0 < C ∧ 0 < δ ∧
      ∀ (r : ℝ) (fwd rev) (E : Env s 1 1 0 (OM.pointSize inputLayout)), E.T = T →
        Evaluates E.ode (inputOde fwd rev) →
        StepError E (fun _ => b) (fun t _ => x0 * Real.exp (b * (t - t0))) t0 t1 δ r
          fun e0 H => K * (e0 + ε) + C * H ^ q := by
  obtain ⟨K, hK, hE⟩ := regular_error_at hq (input_regular b q) (input_isSolution b x0 t0 t1) β
  refine ⟨K, hK, fun s T ε hA => ?_⟩
  obtain ⟨h1, hh1, hne⟩ := small_step T (-b)
  obtain ⟨C, δ, hC, hδ, hE⟩ := hE s T ε hA h1 hh1
  refine ⟨C, δ, hC, hδ, fun r fwd rev E hT hev => hE r _ _ E hT fun h h0 hle i z hz => ?_⟩
  refine input_solves hev ?_ z hz
  have := hne h h0 hle i
  intro h2
  exact this (by linear_combination h2)

/-! ### `x' = -y`, `y' = x` -/

/-- `x' = -y`, `y' = x`. -/
def rotRhs : Rhs ℝ 2 0 := fun _ y _ => ![-y 1, y 0]

theorem rot_regular (q : ℕ) : Regular rotRhs ![] q := by
  refine ⟨?_, 1, zero_le_one, fun t u v => ?_⟩
  · refine contDiff_pi.mpr fun x => ?_
    have h0 : ContDiff ℝ q fun z : ℝ × (Fin 2 → ℝ) => z.2 0 := by fun_prop
    have h1 : ContDiff ℝ q fun z : ℝ × (Fin 2 → ℝ) => z.2 1 := by fun_prop
    fin_cases x
    · exact h1.neg
    · exact h0
  · rw [one_mul]
    refine (pi_norm_le_iff_of_nonneg (norm_nonneg _)).mpr fun x => ?_
    fin_cases x
    · have e : (rotRhs t u ![] - rotRhs t v ![]) 0 = -((u - v) 1) := by
        simp [rotRhs]
        ring
      exact (congrArg norm e).le.trans (by rw [norm_neg]; exact norm_le_pi_norm _ _)
    · have e : (rotRhs t u ![] - rotRhs t v ![]) 1 = (u - v) 0 := by
        simp [rotRhs]
      exact (congrArg norm e).le.trans (norm_le_pi_norm _ _)

/-- The solution with initial values `x0` and `y0` at `t0`. -/
noncomputable def rotExact (x0 y0 t0 t : ℝ) : Fin 2 → ℝ :=
  ![x0 * Real.cos (t - t0) - y0 * Real.sin (t - t0),
    x0 * Real.sin (t - t0) + y0 * Real.cos (t - t0)]

theorem rot_isSolution (x0 y0 t0 t1 : ℝ) : IsSolution rotRhs ![] (rotExact x0 y0 t0) t0 t1 := by
  intro t _
  have hc : HasDerivAt (fun t => Real.cos (t - t0)) (-Real.sin (t - t0)) t := by
    simpa using ((hasDerivAt_id t).sub_const t0).cos
  have hs : HasDerivAt (fun t => Real.sin (t - t0)) (Real.cos (t - t0)) t := by
    simpa using ((hasDerivAt_id t).sub_const t0).sin
  rw [hasDerivWithinAt_pi]
  intro x
  refine HasDerivAt.hasDerivWithinAt ?_
  fin_cases x
  · refine ((hc.const_mul x0).sub (hs.const_mul y0)).congr_deriv ?_
    simp [rotRhs, rotExact]
    ring
  · refine ((hs.const_mul x0).add (hc.const_mul y0)).congr_deriv ?_
    simp [rotRhs, rotExact]
    ring

/-- The backend solves the stage equations of `x' = -y`, `y' = x` with residuals up to `τ`, for bounded
inputs and small steps. -/
def RotUpTo (τ : ℝ) (h1 : ℝ → ℝ) (ode : ODE ℝ 2 0 o l) (a : ℝ) : Prop :=
  ∀ (R h : ℝ) (z : OdeInput ℝ 2 0), 0 ≤ h → h ≤ h1 R → ‖z.stepInput‖ ≤ R → ‖z.stageInput‖ ≤ R →
    |(ode.computeUpdate z h a).1.stageUpdate 0 + (z.stepInput 1 + h * (z.stageInput 1
      + a * (ode.computeUpdate z h a).1.stageUpdate 1))| ≤ τ ∧
    |(ode.computeUpdate z h a).1.stageUpdate 1 - (z.stepInput 0 + h * (z.stageInput 0
      + a * (ode.computeUpdate z h a).1.stageUpdate 0))| ≤ τ

theorem rot_upTo {τ α a : ℝ} (hτ : τ ≤ 1) (hα : |a| ≤ α) {h1 : ℝ → ℝ}
    {ode : ODE ℝ 2 0 o l} (hN : RotUpTo τ h1 ode a) :
    SolvesUpTo (fun R => 4 * |R| + 2) (fun R => min (h1 R) (min 1 (1 / (2 * (α + 1)))))
      (fun _ => τ) ode rotRhs ![] a := by
  intro R h z h0 hle _ g1 g2 _
  have hR : 0 ≤ R := (norm_nonneg _).trans g1
  obtain ⟨e1, e2⟩ := hN R h z h0 (hle.trans (min_le_left _ _)) g1 g2
  have hτ0 : 0 ≤ τ := (abs_nonneg _).trans e1
  have hα0 : 0 ≤ α := (abs_nonneg _).trans hα
  have hh1 : h ≤ 1 := hle.trans ((min_le_right _ _).trans (min_le_left _ _))
  have hh2 : h * |a| ≤ 1 / 2 := by
    have : h ≤ 1 / (2 * (α + 1)) := hle.trans ((min_le_right _ _).trans (min_le_right _ _))
    rw [le_div_iff₀ (by positivity)] at this
    nlinarith
  set k := (ode.computeUpdate z h a).1.stageUpdate with hk
  have b : ∀ i, |z.stepInput i| ≤ R ∧ |z.stageInput i| ≤ R := fun i =>
    ⟨(norm_le_pi_norm z.stepInput i).trans g1, (norm_le_pi_norm z.stageInput i).trans g2⟩
  have key : ∀ i j : Fin 2, ∀ ρ, |ρ| ≤ τ → (|k i| = |ρ + (z.stepInput j + h * (z.stageInput j
      + a * k j))| ∨ |k i| = |ρ - (z.stepInput j + h * (z.stageInput j + a * k j))|) →
      |k i| ≤ 2 * R + 1 + 1 / 2 * |k j| := by
    intro i j ρ hρ h1
    have h2 : |z.stepInput j + h * (z.stageInput j + a * k j)| ≤ 2 * R + 1 / 2 * |k j| := by
      have e : z.stepInput j + h * (z.stageInput j + a * k j)
          = z.stepInput j + h * z.stageInput j + h * a * k j := by ring
      rw [e]
      refine (abs_add_le _ _).trans ((add_le_add (abs_add_le _ _) le_rfl).trans ?_)
      rw [abs_mul h, abs_mul (h * a), abs_mul h, abs_of_nonneg h0]
      have h3 : h * |z.stageInput j| ≤ 1 * R := mul_le_mul hh1 (b j).2 (abs_nonneg _) zero_le_one
      have h4 : h * |a| * |k j| ≤ 1 / 2 * |k j| := mul_le_mul_of_nonneg_right hh2 (abs_nonneg _)
      linarith [(b j).1]
    rcases h1 with h1 | h1
    · rw [h1]
      refine (abs_add_le _ _).trans ?_
      linarith
    · rw [h1]
      refine (abs_sub _ _).trans ?_
      linarith
  have k0 := key 0 1 _ e1 (.inr (by congr 1; ring))
  have k1 := key 1 0 _ e2 (.inl (by congr 1; ring))
  constructor
  · refine (pi_norm_le_iff_of_nonneg (by positivity)).mpr fun x => ?_
    have e : (4 : ℝ) * |R| + 2 = 4 * R + 2 := by rw [abs_of_nonneg hR]
    fin_cases x
    · change |k 0| ≤ 4 * |R| + 2
      linarith
    · change |k 1| ≤ 4 * |R| + 2
      linarith
  · refine (pi_norm_le_iff_of_nonneg hτ0).mpr fun x => ?_
    fin_cases x
    · refine le_of_eq_of_le ?_ e1
      simp only [rotRhs, Real.norm_eq_abs]
      congr 1
      simp
      ring
    · refine le_of_eq_of_le ?_ e2
      simp only [rotRhs, Real.norm_eq_abs]
      congr 1
      simp
      ring

theorem rot_error {q : ℕ} (hq : 1 ≤ q) (x0 y0 t0 t1 β : ℝ) : ∃ K r : ℝ, 0 < K ∧ 0 < r ∧
    ∀ (s : ℕ) (T : Coeffs ℝ s) (tol : ℝ), Accurate T β tol q → ∀ h1 : ℝ → ℝ, (∀ R, 0 < h1 R) →
      ∃ C δ : ℝ, 0 < C ∧ 0 < δ ∧ ∀ (o l : ℕ) (τ : ℝ) (E : Env s 2 0 o l), 0 ≤ τ → τ ≤ 1 → E.T = T →
        (∀ i, RotUpTo τ h1 E.ode (T.A i i)) →
        StepError E ![] (rotExact x0 y0 t0) t0 t1 δ (r - tol - τ)
          fun e0 H => K * (e0 + tol + τ) + C * H ^ q := by
  obtain ⟨K, r, hK, hr, hE⟩ := upTo_error hq (rot_regular q).1 (rot_isSolution x0 y0 t0 t1) β
  refine ⟨K, r, hK, hr, fun s T tol hA h1 hh1 => ?_⟩
  set α := ∑ i, |T.A i i| with hα
  have hα0 : 0 ≤ α := Finset.sum_nonneg fun _ _ => abs_nonneg _
  obtain ⟨R, C, δ, hC, hδ, hE⟩ := hE s T tol hA (fun R => 4 * |R| + 2)
    (fun R => min (h1 R) (min 1 (1 / (2 * (α + 1))))) (fun R => by have := hh1 R; positivity)
  refine ⟨C, δ, hC, hδ, fun o l τ E hτ hτ1 hT hN => ?_⟩
  exact hE _ _ E (fun _ => τ) hT (fun _ _ _ => le_rfl) hτ fun i => rot_upTo hτ1
    (Finset.single_le_sum (f := fun i => |T.A i i|) (fun _ _ => abs_nonneg _)
      (Finset.mem_univ i)) (hN i)

/-- The solver of the coupled components of the guide ends with residuals of at most `τ`, for bounded
inputs and small steps. -/
def CoupledConverges (τ : ℝ) (h1 : ℝ → ℝ) (a : ℝ) (solver : CoupledSolver) : Prop :=
  ∀ (R h : ℝ) (v : OM.Vectors ℝ), 0 ≤ h → h ≤ h1 R →
    |v.outputs "_auto_ivc.v0" 0| ≤ R → |v.outputs "_auto_ivc.v1" 0| ≤ R →
    |v.outputs "_auto_ivc.v2" 0| ≤ R → |v.outputs "_auto_ivc.v3" 0| ≤ R →
    |(coupledResidual h a v.outputs (solver v h a)).1| ≤ τ ∧
    |(coupledResidual h a v.outputs (solver v h a)).2| ≤ τ

theorem coupled_upTo {τ a : ℝ} {h1 : ℝ → ℝ} {solver : CoupledSolver} {fwd rev}
    (hN : CoupledConverges τ h1 a solver) {ode : ODE ℝ 2 0 0 (OM.pointSize coupledLayout)}
    (hE : Evaluates ode (coupledOde solver fwd rev)) : RotUpTo τ h1 ode a := by
  intro R h z h0 hle g1 g2
  obtain ⟨v0, e⟩ := hE z h a
  obtain ⟨v, v1, v2, v3, v4, hup⟩ := coupledOde_update solver fwd rev v0 z h a
  have b : ∀ i, |z.stepInput i| ≤ R ∧ |z.stageInput i| ≤ R := fun i =>
    ⟨(norm_le_pi_norm z.stepInput i).trans g1, (norm_le_pi_norm z.stageInput i).trans g2⟩
  obtain ⟨n1, n2⟩ := hN R h v h0 hle (by rw [v1]; exact (b 1).1) (by rw [v2]; exact (b 1).2)
    (by rw [v3]; exact (b 0).1) (by rw [v4]; exact (b 0).2)
  rw [e, hup]
  simp only [coupledResidual, coupledCompute1, coupledCompute2, v1, v2, v3, v4] at n1 n2
  simp only [Matrix.cons_val_zero, Matrix.cons_val_one]
  exact ⟨by rwa [sub_neg_eq_add] at n1, n2⟩

/-- The solver of simple_parallel_group.py ends with residuals of at most `τ`. -/
def GroupConverges (τ : ℝ) (h1 : ℝ → ℝ) (a : ℝ) (solver : PartSolver) : Prop :=
  ∀ (R h : ℝ) (v : OM.Vectors ℝ), 0 ≤ h → h ≤ h1 R →
    |v.outputs "parallel_group.first_group.first_indep.x_old" 0| ≤ R →
    |v.outputs "parallel_group.first_group.first_indep.sx_i" 0| ≤ R →
    |v.outputs "parallel_group.second_group.second_indep.y_old" 0| ≤ R →
    |v.outputs "parallel_group.second_group.second_indep.sy_i" 0| ≤ R →
    let r := partResidual h a v.outputs (solver v h a)
    |r.1.k| ≤ τ ∧ |r.1.stage| ≤ τ ∧ |r.2.k| ≤ τ ∧ |r.2.stage| ≤ τ

theorem group_upTo {τ a α : ℝ} {h1 : ℝ → ℝ} {solver : PartSolver} {fwd rev} (hα : |a| ≤ α)
    (hN : GroupConverges τ h1 a solver) {ode : ODE ℝ 2 0 0 (OM.pointSize partLayout)}
    (hE : Evaluates ode (partOde solver fwd rev)) :
    RotUpTo (3 * τ) (fun R => min (h1 R) (1 / (α + 1))) ode a := by
  intro R h z h0 hle g1 g2
  obtain ⟨v0, e⟩ := hE z h a
  obtain ⟨v, v1, v2, v3, v4, hup⟩ := partOde_update solver fwd rev v0 z h a
  have b : ∀ i, |z.stepInput i| ≤ R ∧ |z.stageInput i| ≤ R := fun i =>
    ⟨(norm_le_pi_norm z.stepInput i).trans g1, (norm_le_pi_norm z.stageInput i).trans g2⟩
  obtain ⟨n1, n2, n3, n4⟩ := hN R h v h0 (hle.trans (min_le_left _ _))
    (by rw [v1]; exact (b 0).1) (by rw [v2]; exact (b 0).2)
    (by rw [v3]; exact (b 1).1) (by rw [v4]; exact (b 1).2)
  have hα0 : 0 ≤ α := (abs_nonneg _).trans hα
  have hha : |h * a| ≤ 1 := by
    have : h ≤ 1 / (α + 1) := hle.trans (min_le_right _ _)
    rw [le_div_iff₀ (by positivity)] at this
    rw [abs_mul, abs_of_nonneg h0]
    nlinarith
  rw [e, hup]
  generalize solver v h a = w at *
  obtain ⟨⟨k1, z1⟩, ⟨k2, z2⟩⟩ := w
  simp only [partResidual, partCompute1, partCompute2, v1, v2, v3, v4] at n1 n2 n3 n4
  simp only [Matrix.cons_val_zero, Matrix.cons_val_one]
  have hm : ∀ x, |x| ≤ τ → |h * a * x| ≤ τ := fun x hx => by
    rw [abs_mul]
    calc |h * a| * |x| ≤ 1 * τ := mul_le_mul hha hx (abs_nonneg _) zero_le_one
      _ = τ := one_mul _
  have m1 := hm _ n1
  have m3 := hm _ n3
  constructor
  · have : k1 + (z.stepInput 1 + h * (z.stageInput 1 + a * k2)) = (k1 - -z2)
        - (z2 - (z.stepInput 1 + h * z.stageInput 1 + h * a * z1)) + h * a * (k2 - z1) := by ring
    rw [this]
    refine (abs_add_le _ _).trans ((add_le_add (abs_sub _ _) le_rfl).trans ?_)
    linarith
  · have : k2 - (z.stepInput 0 + h * (z.stageInput 0 + a * k1)) = (k2 - z1)
        + (z1 - (z.stepInput 0 + h * z.stageInput 0 - h * a * z2)) - h * a * (k1 - -z2) := by ring
    rw [this]
    refine (abs_sub _ _).trans ((add_le_add (abs_add_le _ _) le_rfl).trans ?_)
    linarith

/-- The backend computes what the two ranks of simple_parallel_distributed_component.py compute. -/
def DistributedUpdates (ode : ODE ℝ 2 0 o l) : Prop :=
  ∀ z h a, (ode.computeUpdate z h a).1.stageUpdate = distUpdate h a z.stepInput z.stageInput

theorem distributed_solves {ode : ODE ℝ 2 0 o l} (hE : DistributedUpdates ode) (h a : ℝ) :
    SolvesStage ode rotRhs h a := by
  intro z
  rw [hE]
  have hd : (h * a) ^ 2 + 1 ≠ 0 := by positivity
  funext x
  simp only [distUpdate, distCompute_eq, distCompute0, distCompute1, rotRhs]
  fin_cases x
  · simp
    field_simp
    ring
  · simp
    field_simp
    ring

theorem distributed_error {q : ℕ} (hq : 1 ≤ q) (x0 y0 t0 t1 β : ℝ) : ∃ K : ℝ, 0 < K ∧
    ∀ (s : ℕ) (T : Coeffs ℝ s) (ε : ℝ), Accurate T β ε q → ∃ C δ : ℝ, 0 < C ∧ 0 < δ ∧
      ∀ (r : ℝ) (o l : ℕ) (E : Env s 2 0 o l), E.T = T → DistributedUpdates E.ode →
        StepError E ![] (rotExact x0 y0 t0) t0 t1 δ r fun e0 H => K * (e0 + ε) + C * H ^ q := by
  obtain ⟨K, hK, hE⟩ := regular_error hq (rot_regular q) (rot_isSolution x0 y0 t0 t1) β
  refine ⟨K, hK, fun s T ε hA => ?_⟩
  obtain ⟨C, δ, hC, hδ, hE⟩ := hE s T ε hA 1 one_pos
  exact ⟨C, δ, hC, hδ, fun r o l E hT hev => hE r _ _ E hT fun h _ _ i =>
    distributed_solves hev h _⟩

/-! ### Runs -/

/-- C91, the first example of the guide (`x' = x`) with the plain shipped tableaux: runs from any initial value at distance `e0` of
the given one converge to the solution with the order of the scheme. -/
theorem C91_growth {q : ℕ} (hq : 1 ≤ q) (x0 t0 t1 : ℝ) : ∃ K : ℝ, 0 < K ∧
    ∀ e ∈ plainShipped, e.tab.p = some q → ∃ C δ : ℝ, 0 < C ∧ 0 < δ ∧
      ∀ (r : ℝ) (fwd rev) (E : Env e.tab.stages 1 0 0 (OM.pointSize guideLayout)),
        E.T = e.tab.coeffs → Evaluates E.ode (guideOde fwd rev) →
        PlainRuns E ![] (fun t _ => x0 * Real.exp (t - t0)) t0 t1 δ r
          fun e0 h => K * (e0 + e.tol) + C * h ^ q := by
  obtain ⟨β, hβ, -⟩ := shipped_weights
  obtain ⟨K, hK, hE⟩ := growth_error hq x0 t0 t1 β
  refine ⟨K, hK, fun e he hp => ?_⟩
  obtain ⟨C, δ, hC, hδ, hE⟩ := hE _ _ _ (plain_accurate e he hp (hβ e he))
  exact ⟨C, δ, hC, hδ, fun r fwd rev E hT hev => (hE r fwd rev E hT hev).plain⟩

/-- C91, the first example of the guide (`x' = x`) with the shipped embedded tableaux. -/
theorem C91_growth_embedded {q : ℕ} (hq : 1 ≤ q) (x0 t0 t1 : ℝ) : ∃ K : ℝ, 0 < K ∧
    ∀ e ∈ embShipped, e.tab.p = some q → ∃ C δ : ℝ, 0 < C ∧ 0 < δ ∧
      ∀ (r : ℝ) (fwd rev) (E : Env e.tab.stages 1 0 0 (OM.pointSize guideLayout)),
        E.T = e.tab.coeffs → Evaluates E.ode (guideOde fwd rev) →
        EmbRuns E e.tab.bhat ![] (fun t _ => x0 * Real.exp (t - t0)) t0 t1 δ r
          fun e0 h => K * (e0 + e.tol) + C * h ^ q := by
  obtain ⟨β, -, hβ⟩ := shipped_weights
  obtain ⟨K, hK, hE⟩ := growth_error hq x0 t0 t1 β
  refine ⟨K, hK, fun e he hp => ?_⟩
  obtain ⟨C, δ, hC, hδ, hE⟩ := hE _ _ _ (emb_accurate e he hp (hβ e he))
  exact ⟨C, δ, hC, hδ, fun r fwd rev E hT hev => (hE r fwd rev E hT hev).emb _⟩

/-- C91, the example with a time-independent input `b` (`x' = b x`) with the plain shipped tableaux: runs from any initial value at distance `e0` of
the given one converge to the solution with the order of the scheme. -/
theorem C91_input {q : ℕ} (hq : 1 ≤ q) (b x0 t0 t1 : ℝ) : ∃ K : ℝ, 0 < K ∧
    ∀ e ∈ plainShipped, e.tab.p = some q → ∃ C δ : ℝ, 0 < C ∧ 0 < δ ∧
      ∀ (r : ℝ) (fwd rev) (E : Env e.tab.stages 1 1 0 (OM.pointSize inputLayout)),
        E.T = e.tab.coeffs → Evaluates E.ode (inputOde fwd rev) →
        PlainRuns E (fun _ => b) (fun t _ => x0 * Real.exp (b * (t - t0))) t0 t1 δ r
          fun e0 h => K * (e0 + e.tol) + C * h ^ q := by
  obtain ⟨β, hβ, -⟩ := shipped_weights
  obtain ⟨K, hK, hE⟩ := input_error hq b x0 t0 t1 β
  refine ⟨K, hK, fun e he hp => ?_⟩
  obtain ⟨C, δ, hC, hδ, hE⟩ := hE _ _ _ (plain_accurate e he hp (hβ e he))
  exact ⟨C, δ, hC, hδ, fun r fwd rev E hT hev => (hE r fwd rev E hT hev).plain⟩

/-- C91, the example with a time-independent input `b` (`x' = b x`) with the shipped embedded tableaux. -/
theorem C91_input_embedded {q : ℕ} (hq : 1 ≤ q) (b x0 t0 t1 : ℝ) : ∃ K : ℝ, 0 < K ∧
    ∀ e ∈ embShipped, e.tab.p = some q → ∃ C δ : ℝ, 0 < C ∧ 0 < δ ∧
      ∀ (r : ℝ) (fwd rev) (E : Env e.tab.stages 1 1 0 (OM.pointSize inputLayout)),
        E.T = e.tab.coeffs → Evaluates E.ode (inputOde fwd rev) →
        EmbRuns E e.tab.bhat (fun _ => b) (fun t _ => x0 * Real.exp (b * (t - t0))) t0 t1 δ r
          fun e0 h => K * (e0 + e.tol) + C * h ^ q := by
  obtain ⟨β, -, hβ⟩ := shipped_weights
  obtain ⟨K, hK, hE⟩ := input_error hq b x0 t0 t1 β
  refine ⟨K, hK, fun e he hp => ?_⟩
  obtain ⟨C, δ, hC, hδ, hE⟩ := hE _ _ _ (emb_accurate e he hp (hβ e he))
  exact ⟨C, δ, hC, hδ, fun r fwd rev E hT hev => (hE r fwd rev E hT hev).emb _⟩

/-- C91, the distributed example (`x' = -y`, `y' = x`) with the plain shipped tableaux: runs from any initial value at distance `e0` of
the given one converge to the solution with the order of the scheme. -/
theorem C91_distributed {q : ℕ} (hq : 1 ≤ q) (x0 y0 t0 t1 : ℝ) : ∃ K : ℝ, 0 < K ∧
    ∀ e ∈ plainShipped, e.tab.p = some q → ∃ C δ : ℝ, 0 < C ∧ 0 < δ ∧
      ∀ (r : ℝ) (o l : ℕ) (E : Env e.tab.stages 2 0 o l),
        E.T = e.tab.coeffs → DistributedUpdates E.ode →
        PlainRuns E ![] (rotExact x0 y0 t0) t0 t1 δ r
          fun e0 h => K * (e0 + e.tol) + C * h ^ q := by
  obtain ⟨β, hβ, -⟩ := shipped_weights
  obtain ⟨K, hK, hE⟩ := distributed_error hq x0 y0 t0 t1 β
  refine ⟨K, hK, fun e he hp => ?_⟩
  obtain ⟨C, δ, hC, hδ, hE⟩ := hE _ _ _ (plain_accurate e he hp (hβ e he))
  exact ⟨C, δ, hC, hδ, fun r o l E hT hev => (hE r o l E hT hev).plain⟩

/-- C91, the distributed example (`x' = -y`, `y' = x`) with the shipped embedded tableaux. -/
theorem C91_distributed_embedded {q : ℕ} (hq : 1 ≤ q) (x0 y0 t0 t1 : ℝ) : ∃ K : ℝ, 0 < K ∧
    ∀ e ∈ embShipped, e.tab.p = some q → ∃ C δ : ℝ, 0 < C ∧ 0 < δ ∧
      ∀ (r : ℝ) (o l : ℕ) (E : Env e.tab.stages 2 0 o l),
        E.T = e.tab.coeffs → DistributedUpdates E.ode →
        EmbRuns E e.tab.bhat ![] (rotExact x0 y0 t0) t0 t1 δ r
          fun e0 h => K * (e0 + e.tol) + C * h ^ q := by
  obtain ⟨β, -, hβ⟩ := shipped_weights
  obtain ⟨K, hK, hE⟩ := distributed_error hq x0 y0 t0 t1 β
  refine ⟨K, hK, fun e he hp => ?_⟩
  obtain ⟨C, δ, hC, hδ, hE⟩ := hE _ _ _ (emb_accurate e he hp (hβ e he))
  exact ⟨C, δ, hC, hδ, fun r o l E hT hev => (hE r o l E hT hev).emb _⟩

/-- C91, the example with two coupled components (`x' = -y`, `y' = x`) and the plain shipped tableaux: if
the nonlinear solver ends with residuals of at most `τ`, runs from initial values near the given ones
converge with the order of the scheme, up to the accuracy of its coefficients and a multiple of `τ`. -/
theorem C91_coupled {q : ℕ} (hq : 1 ≤ q) (x0 y0 t0 t1 : ℝ) : ∃ K r : ℝ, 0 < K ∧ 0 < r ∧
    ∀ e ∈ plainShipped, e.tab.p = some q → ∀ h1 : ℝ → ℝ, (∀ R, 0 < h1 R) →
      ∃ C δ : ℝ, 0 < C ∧ 0 < δ ∧ ∀ (τ : ℝ) (solver : CoupledSolver) (fwd rev)
        (E : Env e.tab.stages 2 0 0 (OM.pointSize coupledLayout)), 0 ≤ τ → τ ≤ 1 →
        E.T = e.tab.coeffs → (∀ i, CoupledConverges τ h1 (e.tab.A i i) solver) →
        Evaluates E.ode (coupledOde solver fwd rev) →
        PlainRuns E ![] (rotExact x0 y0 t0) t0 t1 δ (r - e.tol - τ)
          fun e0 h => K * (e0 + e.tol + τ) + C * h ^ q := by
  obtain ⟨β, hβ, -⟩ := shipped_weights
  obtain ⟨K, r, hK, hr, hE⟩ := rot_error hq x0 y0 t0 t1 β
  refine ⟨K, r, hK, hr, fun e he hp h1 hh1 => ?_⟩
  obtain ⟨C, δ, hC, hδ, hE⟩ := hE _ _ _ (plain_accurate e he hp (hβ e he)) h1 hh1
  exact ⟨C, δ, hC, hδ, fun τ solver fwd rev E hτ hτ1 hT hN hev =>
    (hE _ _ τ E hτ hτ1 hT fun i => coupled_upTo (hN i) hev).plain⟩

/-- C91, the example with two coupled components and the shipped embedded tableaux. -/
theorem C91_coupled_embedded {q : ℕ} (hq : 1 ≤ q) (x0 y0 t0 t1 : ℝ) : ∃ K r : ℝ, 0 < K ∧ 0 < r ∧
    ∀ e ∈ embShipped, e.tab.p = some q → ∀ h1 : ℝ → ℝ, (∀ R, 0 < h1 R) →
      ∃ C δ : ℝ, 0 < C ∧ 0 < δ ∧ ∀ (τ : ℝ) (solver : CoupledSolver) (fwd rev)
        (E : Env e.tab.stages 2 0 0 (OM.pointSize coupledLayout)), 0 ≤ τ → τ ≤ 1 →
        E.T = e.tab.coeffs → (∀ i, CoupledConverges τ h1 (e.tab.A i i) solver) →
        Evaluates E.ode (coupledOde solver fwd rev) →
        EmbRuns E e.tab.bhat ![] (rotExact x0 y0 t0) t0 t1 δ (r - e.tol - τ)
          fun e0 h => K * (e0 + e.tol + τ) + C * h ^ q := by
  obtain ⟨β, -, hβ⟩ := shipped_weights
  obtain ⟨K, r, hK, hr, hE⟩ := rot_error hq x0 y0 t0 t1 β
  refine ⟨K, r, hK, hr, fun e he hp h1 hh1 => ?_⟩
  obtain ⟨C, δ, hC, hδ, hE⟩ := hE _ _ _ (emb_accurate e he hp (hβ e he)) h1 hh1
  exact ⟨C, δ, hC, hδ, fun τ solver fwd rev E hτ hτ1 hT hN hev =>
    (hE _ _ τ E hτ hτ1 hT fun i => coupled_upTo (hN i) hev).emb _⟩

/-- C91, the example with two components in a parallel group (`x' = -y`, `y' = x`) and the plain shipped tableaux: if
the nonlinear solver ends with residuals of at most `τ`, runs from initial values near the given ones
converge with the order of the scheme, up to the accuracy of its coefficients and a multiple of `τ`. -/
theorem C91_group {q : ℕ} (hq : 1 ≤ q) (x0 y0 t0 t1 : ℝ) : ∃ K r : ℝ, 0 < K ∧ 0 < r ∧
    ∀ e ∈ plainShipped, e.tab.p = some q → ∀ h1 : ℝ → ℝ, (∀ R, 0 < h1 R) →
      ∃ C δ : ℝ, 0 < C ∧ 0 < δ ∧ ∀ (τ : ℝ) (solver : PartSolver) (fwd rev)
        (E : Env e.tab.stages 2 0 0 (OM.pointSize partLayout)), 0 ≤ τ → 3 * τ ≤ 1 →
        E.T = e.tab.coeffs → (∀ i, GroupConverges τ h1 (e.tab.A i i) solver) →
        Evaluates E.ode (partOde solver fwd rev) →
        PlainRuns E ![] (rotExact x0 y0 t0) t0 t1 δ (r - e.tol - 3 * τ)
          fun e0 h => K * (e0 + e.tol + 3 * τ) + C * h ^ q := by
  obtain ⟨β, hβ, -⟩ := shipped_weights
  obtain ⟨K, r, hK, hr, hE⟩ := rot_error hq x0 y0 t0 t1 β
  refine ⟨K, r, hK, hr, fun e he hp h1 hh1 => ?_⟩
  obtain ⟨C, δ, hC, hδ, hE⟩ := hE _ _ _ (plain_accurate e he hp (hβ e he)) 
    (fun R => min (h1 R) (1 / (∑ i, |e.tab.A i i| + 1))) fun R => lt_min (hh1 R) (by
      have : 0 ≤ ∑ i, |e.tab.A i i| := Finset.sum_nonneg fun _ _ => abs_nonneg _
      positivity)
  exact ⟨C, δ, hC, hδ, fun τ solver fwd rev E hτ hτ1 hT hN hev =>
    (hE _ _ (3 * τ) E (by linarith) hτ1 hT fun i => group_upTo (Finset.single_le_sum
      (f := fun i => |e.tab.A i i|) (fun _ _ => abs_nonneg _) (Finset.mem_univ i)) (hN i) hev).plain⟩

/-- C91, the example with two components in a parallel group and the shipped embedded tableaux. -/
theorem C91_group_embedded {q : ℕ} (hq : 1 ≤ q) (x0 y0 t0 t1 : ℝ) : ∃ K r : ℝ, 0 < K ∧ 0 < r ∧
    ∀ e ∈ embShipped, e.tab.p = some q → ∀ h1 : ℝ → ℝ, (∀ R, 0 < h1 R) →
      ∃ C δ : ℝ, 0 < C ∧ 0 < δ ∧ ∀ (τ : ℝ) (solver : PartSolver) (fwd rev)
        (E : Env e.tab.stages 2 0 0 (OM.pointSize partLayout)), 0 ≤ τ → 3 * τ ≤ 1 →
        E.T = e.tab.coeffs → (∀ i, GroupConverges τ h1 (e.tab.A i i) solver) →
        Evaluates E.ode (partOde solver fwd rev) →
        EmbRuns E e.tab.bhat ![] (rotExact x0 y0 t0) t0 t1 δ (r - e.tol - 3 * τ)
          fun e0 h => K * (e0 + e.tol + 3 * τ) + C * h ^ q := by
  obtain ⟨β, -, hβ⟩ := shipped_weights
  obtain ⟨K, r, hK, hr, hE⟩ := rot_error hq x0 y0 t0 t1 β
  refine ⟨K, r, hK, hr, fun e he hp h1 hh1 => ?_⟩
  obtain ⟨C, δ, hC, hδ, hE⟩ := hE _ _ _ (emb_accurate e he hp (hβ e he)) 
    (fun R => min (h1 R) (1 / (∑ i, |e.tab.A i i| + 1))) fun R => lt_min (hh1 R) (by
      have : 0 ≤ ∑ i, |e.tab.A i i| := Finset.sum_nonneg fun _ _ => abs_nonneg _
      positivity)
  exact ⟨C, δ, hC, hδ, fun τ solver fwd rev E hτ hτ1 hT hN hev =>
    (hE _ _ (3 * τ) E (by linarith) hτ1 hT fun i => group_upTo (Finset.single_le_sum
      (f := fun i => |e.tab.A i i|) (fun _ _ => abs_nonneg _) (Finset.mem_univ i)) (hN i) hev).emb _⟩

/-! ### Examples -/

namespace GuideEx

open TestProblemsEx

/-- The exact solution of the coupled stage equations. -/
noncomputable def rotK (H u1 u2 : ℝ) : ℝ × ℝ :=
  (-(u2 + H * u1) / (1 + H ^ 2), (u1 - H * u2) / (1 + H ^ 2))

noncomputable def exactCoupled : CoupledSolver := fun v h a =>
  rotK (h * a) (v.outputs "_auto_ivc.v2" 0 + h * v.outputs "_auto_ivc.v3" 0)
    (v.outputs "_auto_ivc.v0" 0 + h * v.outputs "_auto_ivc.v1" 0)

theorem exactCoupled_converges (h1 : ℝ → ℝ) (a : ℝ) : CoupledConverges 0 h1 a exactCoupled := by
  intro R h v _ _ _ _ _ _
  have hd : 1 + (h * a) ^ 2 ≠ 0 := by positivity
  constructor
  · refine (abs_eq_zero.mpr ?_).le
    simp only [coupledResidual, coupledCompute1, exactCoupled, rotK]
    field_simp
    ring
  · refine (abs_eq_zero.mpr ?_).le
    simp only [coupledResidual, coupledCompute2, exactCoupled, rotK]
    field_simp
    ring

noncomputable def exactPart : PartSolver := fun v h a =>
  let k := rotK (h * a) (v.outputs "parallel_group.first_group.first_indep.x_old" 0
      + h * v.outputs "parallel_group.first_group.first_indep.sx_i" 0)
    (v.outputs "parallel_group.second_group.second_indep.y_old" 0
      + h * v.outputs "parallel_group.second_group.second_indep.sy_i" 0)
  (⟨k.1, k.2⟩, ⟨k.2, -k.1⟩)

theorem exactPart_converges (h1 : ℝ → ℝ) (a : ℝ) : GroupConverges 0 h1 a exactPart := by
  intro R h v _ _ _ _ _ _
  have hd : 1 + (h * a) ^ 2 ≠ 0 := by positivity
  refine ⟨?_, ?_, ?_, ?_⟩
  all_goals
    refine (abs_eq_zero.mpr ?_).le
    simp only [partResidual, partCompute1, partCompute2, exactPart, rotK]
    try field_simp
    try ring

noncomputable def coupledMidpoint : Env midpoint.tab.stages 2 0 0 (OM.pointSize coupledLayout) where
  T := midpoint.tab.coeffs
  ode := coupledOde exactCoupled noSolve noSolve ⟨fun _ _ => 0, fun _ _ => 0⟩
  fails _ _ := none
  nonfinite _ _ := .error .backend
  measure _ _ := fin 0

/-- The coupled components of the guide, from `x = y = 1` at time 0 with the implicit midpoint rule. -/
example (ch : Choice) : ∃ C δ : ℝ, 0 < C ∧ 0 < δ ∧ ∀ (dt : ℝ) (N : ℕ), 0 ≤ dt → dt < δ →
    N * dt ≤ 1 → ∀ w, ∃ w' v, compute (rkBackend coupledMidpoint)
      { adaptive := false, crit := .steps N, initialStep := fin dt }
      (ch.ck (rkBackend coupledMidpoint)
        { adaptive := false, crit := .steps N, initialStep := fin dt })
      (N + 1) w ⟨0, ![1, 1], ![]⟩ = (w', .ok v) ∧
      ‖v.values - ![Real.cos v.time - Real.sin v.time, Real.sin v.time + Real.cos v.time]‖
        ≤ C * dt ^ 2 := by
  obtain ⟨K, r, -, hr, hE⟩ := C91_coupled (q := 2) (by norm_num) 1 1 0 1
  obtain ⟨C, δ, hC, hδ, hE⟩ := hE midpoint
    (List.mem_cons_of_mem _ (List.mem_cons_of_mem _ List.mem_cons_self)) rfl
    (fun _ => 1) (fun _ => one_pos)
  obtain ⟨hR, -, -⟩ := hE 0 exactCoupled noSolve noSolve coupledMidpoint le_rfl zero_le_one rfl
    (fun i => exactCoupled_converges _ _) (fun z h a => ⟨_, rfl⟩)
  refine ⟨C, δ, hC, hδ, fun dt N h0 hdt hN w => ?_⟩
  obtain ⟨w', v, hv⟩ := Integrator.Ex.compute_ok coupledMidpoint (fun _ _ => rfl)
    { adaptive := false, crit := .steps N, initialStep := fin dt } dt N rfl rfl rfl (by simp) ch w
    ⟨0, ![1, 1], ![]⟩ (N + 1) (Nat.lt_succ_self N)
  have e3 : ((![1, 1] : Fin 2 → ℝ) - rotExact 1 1 0 0) = 0 := by
    funext x
    fin_cases x <;> simp [rotExact]
  obtain ⟨-, e2⟩ := hR _ dt N (N + 1) ch w w' _ v rfl rfl rfl h0 hdt rfl rfl
    (by rw [e3]; simpa [TestProblemsEx.midpoint] using hr.le) (by simpa using hN) hv
  refine ⟨w', v, hv, ?_⟩
  rw [e3] at e2
  simpa [TestProblemsEx.midpoint, rotExact] using e2

/-- The solvers of the parallel group meet the hypothesis of `C91_group` too. -/
example : ∃ solver, ∀ a, GroupConverges 0 (fun _ => 1) a solver :=
  ⟨exactPart, fun a => exactPart_converges _ a⟩

noncomputable def inputRk4 : Env rk4.tab.stages 1 1 0 (OM.pointSize inputLayout) where
  T := rk4.tab.coeffs
  ode := inputOde noSolve noSolve ⟨fun _ _ => 0, fun _ _ => 0⟩
  fails _ _ := none
  nonfinite _ _ := .error .backend
  measure _ _ := fin 0

/-- The example with a time-independent input and the classical scheme. -/
example (ch : Choice) (b x0 t0 : ℝ) : ∃ C δ : ℝ, 0 < C ∧ 0 < δ ∧ ∀ (dt : ℝ) (N : ℕ), 0 ≤ dt →
    dt < δ → N * dt ≤ 1 → ∀ w, ∃ w' v, compute (rkBackend inputRk4)
      { adaptive := false, crit := .steps N, initialStep := fin dt }
      (ch.ck (rkBackend inputRk4) { adaptive := false, crit := .steps N, initialStep := fin dt })
      (N + 1) w ⟨t0, fun _ => x0, fun _ => b⟩ = (w', .ok v) ∧
      ‖v.values - fun _ => x0 * Real.exp (b * (v.time - t0))‖ ≤ C * dt ^ 4 := by
  obtain ⟨K, -, hE⟩ := C91_input (q := 4) (by norm_num) b x0 t0 (t0 + 1)
  obtain ⟨C, δ, hC, hδ, hE⟩ := hE rk4 (List.mem_cons_of_mem _ (List.mem_cons_of_mem _
    (List.mem_cons_of_mem _ (List.mem_cons_of_mem _ List.mem_cons_self)))) rfl
  obtain ⟨hR, -, -⟩ := hE 1 noSolve noSolve inputRk4 rfl (fun z h a => ⟨_, rfl⟩)
  refine ⟨C, δ, hC, hδ, fun dt N h0 hdt hN w => ?_⟩
  obtain ⟨w', v, hv⟩ := Integrator.Ex.compute_ok inputRk4 (fun _ _ => rfl)
    { adaptive := false, crit := .steps N, initialStep := fin dt } dt N rfl rfl rfl (by simp) ch w
    ⟨t0, fun _ => x0, fun _ => b⟩ (N + 1) (Nat.lt_succ_self N)
  have e3 : ((fun _ => x0 : Fin 1 → ℝ) - fun _ => x0 * Real.exp (b * (t0 - t0))) = 0 := by
    funext x
    simp
  obtain ⟨-, e2⟩ := hR _ dt N (N + 1) ch w w' _ v rfl rfl rfl h0 hdt rfl rfl
    (by rw [e3]; simp) (by simpa using hN) hv
  refine ⟨w', v, hv, ?_⟩
  rw [e3] at e2
  simpa [rk4] using e2

/-- A backend that computes what the two ranks compute. -/
noncomputable def distOde : ODE ℝ 2 0 0 0 where
  computeUpdate z h a := (⟨distUpdate h a z.stepInput z.stageInput, fun _ => 0, ![]⟩, ![])
  computeUpdateDerivative _ _ _ _ := ⟨fun _ => 0, fun _ => 0, ![]⟩
  computeUpdateAdjoint _ _ _ _ := ⟨fun _ => 0, fun _ => 0, ![], 0⟩

example : DistributedUpdates distOde := fun _ _ _ => rfl

end GuideEx

end Verif.Props
