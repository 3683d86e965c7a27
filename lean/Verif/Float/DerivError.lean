/-
Rounding errors of one derivative and of one adjoint step. The property theorems are in
`Verif.Props.FloatDeriv`.
-/
import Verif.Float.Lawful

namespace Verif.Fl

open Verif.RK Verif.RK.Spec Verif.Control Verif.XReal Verif.Integrator Verif.Props
open Classical

variable {s n m o l : ℕ} {fl : ℝ → ℝ} {u : ℝ} {dot : List (ℝ × ℝ) → ℝ}

/-- The size of an input of the derivative of a stage problem. -/
noncomputable def inSize (x : OdeInput ℝ n m) : ℝ :=
  ‖x.stepInput‖ + ‖x.stageInput‖ + ‖x.independentInput‖ + |x.time|

/-- The distance of two such inputs. -/
noncomputable def inDist (x y : OdeInput ℝ n m) : ℝ :=
  ‖x.stepInput - y.stepInput‖ + ‖x.stageInput - y.stageInput‖
    + ‖x.independentInput - y.independentInput‖ + |x.time - y.time|

/-- The derivative functions of `od` approximate those of `ode` at the linearization point `lin`
for step size `h` and stage factor `a`: those of `ode` are linear and transposed, with bound `L`, and
those of `od` deviate by at most `κ` times the size of their argument. -/
structure Accurate (L κ : ℝ) (ode od : ODE ℝ n m o l) (lin : Fin l → ℝ) (h a : ℝ) : Prop where
  linear : LinearDeriv ode lin h a
  adjoint : AdjointPair ode lin h a
  bound : ∀ x, ‖(ode.computeUpdateDerivative lin x h a).stageUpdate‖ ≤ L * inSize x
  deriv_err : ∀ x, ‖(od.computeUpdateDerivative lin x h a).stageUpdate
    - (ode.computeUpdateDerivative lin x h a).stageUpdate‖ ≤ κ * inSize x
  adj_err : ∀ μ : Fin n → ℝ, inDist (od.computeUpdateAdjoint lin ⟨μ, 0, 0⟩ h a)
    (ode.computeUpdateAdjoint lin ⟨μ, 0, 0⟩ h a) ≤ κ * ‖μ‖

/-- The size of the published part of a perturbation. -/
noncomputable def pubSize (p : RKState ℝ s n m o l) : ℝ :=
  |p.finalTime| + ‖p.finalState‖ + ‖p.independentInputs‖

/-- The distance of the published parts of two perturbations. -/
noncomputable def pubDist (p q : RKState ℝ s n m o l) : ℝ :=
  |p.finalTime - q.finalTime| + ‖p.finalState - q.finalState‖
    + ‖p.independentInputs - q.independentInputs‖

theorem inSize_nonneg (x : OdeInput ℝ n m) : 0 ≤ inSize x := by unfold inSize; positivity
theorem inDist_nonneg (x y : OdeInput ℝ n m) : 0 ≤ inDist x y := by unfold inDist; positivity
theorem pubSize_nonneg (p : RKState ℝ s n m o l) : 0 ≤ pubSize p := by unfold pubSize; positivity
theorem pubDist_nonneg (p q : RKState ℝ s n m o l) : 0 ≤ pubDist p q := by
  unfold pubDist; positivity

theorem Accurate.lip {L κ : ℝ} {ode od : ODE ℝ n m o l} {lin : Fin l → ℝ} {h a : ℝ}
    (H : Accurate L κ ode od lin h a) (x y : OdeInput ℝ n m) :
    ‖(ode.computeUpdateDerivative lin x h a).stageUpdate
      - (ode.computeUpdateDerivative lin y h a).stageUpdate‖ ≤ L * inDist x y := by
  have h1 := H.linear.1 (addIn x (smulIn (-1) y)) y
  have h2 : addIn (addIn x (smulIn (-1) y)) y = x := by
    cases x; cases y
    simp [addIn, smulIn]
  rw [h2] at h1
  have h3 := congrArg OdeOut.stageUpdate h1
  simp only [addOut] at h3
  rw [h3, add_sub_cancel_right]
  refine (H.bound _).trans (le_of_eq ?_)
  congr 1
  simp only [inSize, inDist, addIn, smulIn, neg_smul, one_smul, ← sub_eq_add_neg]
  congr 2
  simp only [neg_mul, one_mul, sub_eq_add_neg]

theorem norm_accumulate_sub (T : Coeffs ℝ s) (i : Fin s) (k k' : Fin s → Fin n → ℝ) {M : ℝ}
    (hM : 0 ≤ M) (hk : ∀ j, j < i → ‖k j - k' j‖ ≤ M) :
    ‖accumulateStages T i k - accumulateStages T i k'‖ ≤ Conv.total T.A * M := by
  have : accumulateStages T i k - accumulateStages T i k' = accumulateStages T i (k - k') := by
    unfold accumulateStages
    split_ifs
    · simp
    · funext x
      simp only [Pi.sub_apply, sub_mul, Finset.sum_sub_distrib]
  rw [this]
  exact norm_accumulateStages T i _ hM hk

/-- One derivative step: the constants depend on the tableau and the bounds only. -/
theorem deriv_dist (T : Coeffs ℝ s) {L H : ℝ} (hL : 0 ≤ L) (hH : 0 ≤ H) :
    ∃ c g : ℝ, 0 ≤ c ∧ 0 ≤ g ∧ ∀ {n m o l : ℕ} (fl : ℝ → ℝ) (u : ℝ) (dot : List (ℝ × ℝ) → ℝ) (κ : ℝ),
      Rounds fl u → IsDot fl dot → 0 ≤ κ → κ ≤ 1 → ∀ (ode od : ODE ℝ n m o l)
      (st p' p : RKState ℝ s n m o l) (h : ℝ), |h| ≤ H →
      (∀ i, Accurate L κ ode od (st.linearizationPoints i) h (T.A i i)) →
      pubDist (computeStepDerivativeFl fl dot T od st p' h) (computeStepDerivative T ode st p h)
        ≤ (1 + c * |h|) * pubDist p' p + g * (u + κ) * pubSize p' := by
  have hα0 := Conv.total_nonneg T.A
  set α := Conv.total T.A with hα
  set α' := (1 + 2 ^ (s + 1)) * α with hα'
  have hαα : α ≤ α' := by
    rw [hα', add_mul]
    have : 0 ≤ (2 : ℝ) ^ (s + 1) * α := by positivity
    linarith
  have hα'0 : 0 ≤ α' := hα0.trans hαα
  set C := (L + 1) * (1 + α') with hC
  have hC1 : 1 ≤ C := by rw [hC]; nlinarith
  have hC0 : 0 ≤ C := by linarith
  have hβ0 : 0 ≤ ∑ i, |T.b i| := Finset.sum_nonneg fun _ _ => abs_nonneg _
  set β := ∑ i, |T.b i| with hβ
  set Z := C ^ s with hZ
  have hZ0 : 0 ≤ Z := by positivity
  set K := C * Z with hK
  have hK0 : 0 ≤ K := by positivity
  refine ⟨β * Z, H * (β * Z) * K + 1 + 2 ^ (s + 4) * (H * β * Z), by positivity, by positivity, ?_⟩
  intro n m o l fl u dot κ hf hd hκ0 hκ1 ode od st p' p h hh hacc
  have hu := hf.nonneg
  have hu1 := hf.lt_one
  have r' := computeStepDerivativeFl_result fl dot T od st p' h
  have r := computeStepDerivative_result T ode st p h
  set S := pubSize p' with hS
  set D := pubDist p' p with hD
  have hS0 : 0 ≤ S := pubSize_nonneg _
  have hD0 : 0 ≤ D := pubDist_nonneg _ _
  set k' := (computeStepDerivativeFl fl dot T od st p' h).stageUpdates with hk'
  set k := (computeStepDerivative T ode st p h).stageUpdates with hk
  have pow_le : ∀ i : Fin s, C ^ (i.val + 1) ≤ Z := fun i => pow_le_pow_right₀ hC1 (by omega)
  have pow_mono : ∀ a b : ℕ, a ≤ b → C ^ a ≤ C ^ b := fun a b h => pow_le_pow_right₀ hC1 h
  have pow_one : ∀ a : ℕ, 1 ≤ C ^ a := fun a => one_le_pow₀ hC1
  have hδ0 : 0 ≤ u + κ := by positivity
  -- sizes
  have size_in : ∀ i : Fin s, ∀ M, 0 ≤ M → (∀ j, j < i → ‖k' j‖ ≤ M) →
      ‖accumulateStagesFl dot T i k' - accumulateStages T i k'‖ ≤ u * (α' * M) ∧
      inSize (stageInDFl dot T p'.finalTime p'.finalState p'.independentInputs k' i)
        ≤ S + α' * M := by
    intro i M hM hj
    have e1 := accumulateStagesFl_error hf hd T i k' hM hj
    rw [← hα] at e1
    have e2 := norm_accumulateStages T i k' hM hj
    have e3 : (2 : ℝ) ^ (s + 1) * (α * M) ≤ α' * M := by
      rw [hα', add_mul, one_mul, add_mul, mul_assoc]
      have : 0 ≤ α * M := by positivity
      linarith
    refine ⟨e1.trans (mul_le_mul_of_nonneg_left e3 hu), ?_⟩
    have e4 : u * (2 ^ (s + 1) * (α * M)) ≤ 2 ^ (s + 1) * (α * M) :=
      mul_le_of_le_one_left (by positivity) hu1.le
    have e5 : ‖accumulateStagesFl dot T i k'‖ ≤ α' * M := by
      have := norm_le_norm_add_norm_sub' (accumulateStagesFl dot T i k') (accumulateStages T i k')
      rw [hα', add_mul, one_mul, add_mul, mul_assoc]
      rw [← hα] at e2
      linarith
    simp only [inSize, stageInDFl]
    have : S = |p'.finalTime| + ‖p'.finalState‖ + ‖p'.independentInputs‖ := rfl
    linarith
  have size : ∀ q : ℕ, ∀ i : Fin s, i.val < q → ‖k' i‖ ≤ C ^ (i.val + 1) * S := by
    intro q
    induction q with
    | zero => intro i hi; omega
    | succ q ih =>
      intro i hi
      have hM : ∀ j, j < i → ‖k' j‖ ≤ C ^ i.val * S := fun j hj =>
        (ih j (by have : j.val < i.val := hj; omega)).trans
          (mul_le_mul_of_nonneg_right (pow_mono _ _ hj) hS0)
      obtain ⟨-, e2⟩ := size_in i _ (by positivity) hM
      have e3 := (hacc i).bound (stageInDFl dot T p'.finalTime p'.finalState p'.independentInputs k' i)
      have e4 := (hacc i).deriv_err
        (stageInDFl dot T p'.finalTime p'.finalState p'.independentInputs k' i)
      rw [← r'.update i] at e4
      have e5 := norm_le_norm_add_norm_sub' (k' i) (ode.computeUpdateDerivative
        (st.linearizationPoints i) (stageInDFl dot T p'.finalTime p'.finalState p'.independentInputs
        k' i) h (T.A i i)).stageUpdate
      set x := inSize (stageInDFl dot T p'.finalTime p'.finalState p'.independentInputs k' i)
      have hx : 0 ≤ x := inSize_nonneg _
      have e6 : κ * x ≤ 1 * x := mul_le_mul_of_nonneg_right hκ1 hx
      have e7 : (L + 1) * x ≤ (L + 1) * (S + α' * (C ^ i.val * S)) :=
        mul_le_mul_of_nonneg_left e2 (by positivity)
      have e8 : S + α' * (C ^ i.val * S) ≤ (1 + α') * (C ^ i.val * S) := by
        have := mul_le_mul_of_nonneg_right (pow_one i.val) hS0
        linarith
      have e9 := mul_le_mul_of_nonneg_left e8 (by positivity : 0 ≤ L + 1)
      have e10 : C ^ (i.val + 1) * S = (L + 1) * ((1 + α') * (C ^ i.val * S)) := by
        rw [pow_succ]
        nth_rewrite 2 [hC]
        ring
      rw [e10]
      linarith
  have size' : ∀ i : Fin s, ‖k' i‖ ≤ Z * S := fun i =>
    (size (i.val + 1) i (Nat.lt_succ_self _)).trans (mul_le_mul_of_nonneg_right (pow_le i) hS0)
  -- differences
  set Q := D + (u + κ) * (K * S) with hQ
  have hQ0 : 0 ≤ Q := by positivity
  have diff : ∀ q : ℕ, ∀ i : Fin s, i.val < q → ‖k' i - k i‖ ≤ C ^ (i.val + 1) * Q := by
    intro q
    induction q with
    | zero => intro i hi; omega
    | succ q ih =>
      intro i hi
      have hM : ∀ j, j < i → ‖k' j - k j‖ ≤ C ^ i.val * Q := fun j hj =>
        (ih j (by have : j.val < i.val := hj; omega)).trans
          (mul_le_mul_of_nonneg_right (pow_mono _ _ hj) hQ0)
      obtain ⟨e1, e2⟩ := size_in i (Z * S) (by positivity) fun j _ => size' j
      have e3 := norm_accumulate_sub T i k' k (by positivity) hM
      have e4 := (hacc i).deriv_err
        (stageInDFl dot T p'.finalTime p'.finalState p'.independentInputs k' i)
      have e5 := (hacc i).lip
        (stageInDFl dot T p'.finalTime p'.finalState p'.independentInputs k' i)
        (stageInD T p.finalTime p.finalState p.independentInputs k i)
      rw [← r'.update i] at e4
      rw [← r.update i] at e5
      have e6 := norm_sub_le_norm_sub_add_norm_sub (k' i) (ode.computeUpdateDerivative
        (st.linearizationPoints i) (stageInDFl dot T p'.finalTime p'.finalState p'.independentInputs
        k' i) h (T.A i i)).stageUpdate (k i)
      have e7 : inDist (stageInDFl dot T p'.finalTime p'.finalState p'.independentInputs k' i)
          (stageInD T p.finalTime p.finalState p.independentInputs k i)
          ≤ D + (u * (α' * (Z * S)) + α * (C ^ i.val * Q)) := by
        simp only [inDist, stageInDFl, stageInD]
        have := norm_sub_le_norm_sub_add_norm_sub (accumulateStagesFl dot T i k')
          (accumulateStages T i k') (accumulateStages T i k)
        have hDd : D = |p'.finalTime - p.finalTime| + ‖p'.finalState - p.finalState‖
          + ‖p'.independentInputs - p.independentInputs‖ := rfl
        rw [← hα] at e3
        linarith
      have e8 := mul_le_mul_of_nonneg_left e7 hL
      have e9 := mul_le_mul_of_nonneg_left e2 hκ0
      have hSZ : S ≤ Z * S := by
        have := mul_le_mul_of_nonneg_right (pow_one s) hS0
        linarith
      have e10 : κ * (S + α' * (Z * S)) ≤ κ * (K * S) := by
        refine mul_le_mul_of_nonneg_left ?_ hκ0
        have t1 : K * S = (L + 1) * ((1 + α') * (Z * S)) := by rw [hK, hC]; ring
        have t2 : (1 + α') * (Z * S) ≤ (L + 1) * ((1 + α') * (Z * S)) :=
          le_mul_of_one_le_left (by positivity) (by linarith)
        rw [t1]
        linarith
      have e11 : L * (u * (α' * (Z * S))) ≤ u * (K * S) := by
        have t1 : K * S = (L + 1) * ((1 + α') * (Z * S)) := by rw [hK, hC]; ring
        have t2 : L * (u * (α' * (Z * S))) = u * (L * (α' * (Z * S))) := by ring
        rw [t1, t2]
        refine mul_le_mul_of_nonneg_left ?_ hu
        refine mul_le_mul (by linarith) (mul_le_mul_of_nonneg_right (by linarith) (by positivity))
          (by positivity) (by positivity)
      have e12 : L * D ≤ (L + 1) * (C ^ i.val * Q) - (u + κ) * (K * S) - D + 0 := by
        have t1 : Q ≤ C ^ i.val * Q := le_mul_of_one_le_left hQ0 (pow_one _)
        have t2 := mul_le_mul_of_nonneg_left t1 (by positivity : 0 ≤ L + 1)
        have t3 : (L + 1) * Q = L * D + L * ((u + κ) * (K * S)) + D + (u + κ) * (K * S) := by
          rw [hQ]; ring
        have t4 : 0 ≤ L * ((u + κ) * (K * S)) := by positivity
        linarith
      have e13 : L * (α * (C ^ i.val * Q)) ≤ (L + 1) * (α' * (C ^ i.val * Q)) := by
        refine mul_le_mul (by linarith) (mul_le_mul_of_nonneg_right hαα (by positivity))
          (by positivity) (by positivity)
      have e14 : C ^ (i.val + 1) * Q = (L + 1) * (C ^ i.val * Q) + (L + 1) * (α' * (C ^ i.val * Q)) := by
        rw [pow_succ]
        nth_rewrite 2 [hC]
        ring
      rw [e14]
      linarith
  have diff' : ∀ i : Fin s, ‖k' i - k i‖ ≤ Z * Q := fun i =>
    (diff (i.val + 1) i (Nat.lt_succ_self _)).trans (mul_le_mul_of_nonneg_right (pow_le i) hQ0)
  -- the final state
  have hstep : accumulateStepFl fl dot T.b p'.finalState k' h
      = accumulateStepFl fl dot (fun i => h * T.b i) p'.finalState k' 1 := by
    funext x
    simp only [accumulateStepFl, one_mul]
  have hyS : ‖p'.finalState‖ ≤ S := by
    have : S = |p'.finalTime| + ‖p'.finalState‖ + ‖p'.independentInputs‖ := rfl
    have h1 := abs_nonneg p'.finalTime
    have h2 := norm_nonneg p'.independentInputs
    linarith
  have f1 := accumulateStepFl_error hf hd (fun i => h * T.b i) p'.finalState k' (h := 1)
    zero_le_one le_rfl hS0 (by positivity : 0 ≤ Z * S) hyS
    ((pi_norm_le_iff_of_nonneg (by positivity)).mpr size')
  rw [← hstep, one_smul] at f1
  have hsum : ∑ i, |h * T.b i| = |h| * β := by
    rw [hβ, Finset.mul_sum]
    exact Finset.sum_congr rfl fun i _ => abs_mul _ _
  rw [hsum] at f1
  have f2 : accumulateStep T.b p.finalState k h = p.finalState + ∑ i, (h * T.b i) • k i := by
    funext x
    simp only [accumulateStep, Pi.add_apply, Finset.sum_apply, Pi.smul_apply, smul_eq_mul]
    congr 1
    exact Finset.sum_congr rfl fun i _ => by ring
  have f3 : ‖(p'.finalState + ∑ i, (h * T.b i) • k' i) - (p.finalState + ∑ i, (h * T.b i) • k i)‖
      ≤ ‖p'.finalState - p.finalState‖ + |h| * β * (Z * Q) := by
    have : (p'.finalState + ∑ i, (h * T.b i) • k' i) - (p.finalState + ∑ i, (h * T.b i) • k i)
        = (p'.finalState - p.finalState) + ∑ i, (h * T.b i) • (k' i - k i) := by
      simp only [smul_sub, Finset.sum_sub_distrib]
      abel
    rw [this]
    refine (norm_add_le _ _).trans (add_le_add le_rfl ?_)
    rw [← hsum, Finset.sum_mul]
    refine (norm_sum_le _ _).trans (Finset.sum_le_sum fun i _ => ?_)
    rw [norm_smul, Real.norm_eq_abs]
    exact mul_le_mul_of_nonneg_left (diff' i) (abs_nonneg _)
  have f4 : ‖(computeStepDerivativeFl fl dot T od st p' h).finalState
      - (computeStepDerivative T ode st p h).finalState‖
      ≤ u * (S + 2 ^ (s + 4) * (|h| * β * (Z * S)))
        + (‖p'.finalState - p.finalState‖ + |h| * β * (Z * Q)) := by
    rw [r'.finalState, r.finalState, f2]
    exact (norm_sub_le_norm_sub_add_norm_sub _ _ _).trans (add_le_add f1 f3)
  have f5 : pubDist (computeStepDerivativeFl fl dot T od st p' h) (computeStepDerivative T ode st p h)
      ≤ D + u * (S + 2 ^ (s + 4) * (|h| * β * (Z * S))) + |h| * β * (Z * Q) := by
    simp only [pubDist, r'.finalTime, r.finalTime, r'.indep, r.indep]
    have hDd : D = |p'.finalTime - p.finalTime| + ‖p'.finalState - p.finalState‖
      + ‖p'.independentInputs - p.independentInputs‖ := rfl
    linarith
  refine f5.trans ?_
  have g1 : |h| * β * (Z * Q) ≤ β * Z * |h| * D + H * (β * Z) * K * (u + κ) * S := by
    have t1 : |h| * β * (Z * Q) = β * Z * |h| * D + |h| * (β * Z * (K * ((u + κ) * S))) := by
      rw [hQ]; ring
    have t2 : |h| * (β * Z * (K * ((u + κ) * S))) ≤ H * (β * Z * (K * ((u + κ) * S))) :=
      mul_le_mul_of_nonneg_right hh (by positivity)
    rw [t1]
    linarith
  have g2 : u * (S + 2 ^ (s + 4) * (|h| * β * (Z * S)))
      ≤ (u + κ) * (S + 2 ^ (s + 4) * (H * β * (Z * S))) := by
    refine mul_le_mul (by linarith) ?_ (by positivity) hδ0
    have : |h| * (β * (Z * S)) ≤ H * (β * (Z * S)) :=
      mul_le_mul_of_nonneg_right hh (by positivity)
    have t3 : (2 : ℝ) ^ (s + 4) * (|h| * β * (Z * S)) ≤ 2 ^ (s + 4) * (H * β * (Z * S)) := by
      refine mul_le_mul_of_nonneg_left ?_ (by positivity)
      linarith
    linarith
  linarith

/-! ### The adjoint step -/

theorem dot_le {q : ℕ} (v w : Fin q → ℝ) : |Spec.dot v w| ≤ q * (‖v‖ * ‖w‖) := by
  unfold Spec.dot
  refine (Finset.abs_sum_le_sum_abs _ _).trans ?_
  refine (Finset.sum_le_sum (g := fun _ => ‖v‖ * ‖w‖) fun i _ => ?_).trans (by simp)
  rw [abs_mul]
  exact mul_le_mul (norm_le_pi_norm v i) (norm_le_pi_norm w i) (abs_nonneg _) (norm_nonneg _)

theorem dot_single {q : ℕ} (v : Fin q → ℝ) (j : Fin q) :
    Spec.dot v (Function.update 0 j 1) = v j := by
  simp [Spec.dot, Function.update_apply]

theorem norm_single {q : ℕ} (j : Fin q) : ‖(Function.update 0 j 1 : Fin q → ℝ)‖ ≤ 1 := by
  refine (pi_norm_le_iff_of_nonneg zero_le_one).mpr fun x => ?_
  rw [Function.update_apply]
  split_ifs <;> simp

theorem dot_sub {q : ℕ} (v w z : Fin q → ℝ) : Spec.dot (v - w) z = Spec.dot v z - Spec.dot w z := by
  simp [Spec.dot, sub_mul, Finset.sum_sub_distrib]

/-- All four parts of the adjoint are Lipschitz continuous. -/
theorem Accurate.adj_lip {L κ : ℝ} {ode od : ODE ℝ n m o l} {lin : Fin l → ℝ} {h a : ℝ}
    (hL : 0 ≤ L) (H : Accurate L κ ode od lin h a) (μ ν : Fin n → ℝ) :
    ‖(ode.computeUpdateAdjoint lin ⟨μ, 0, 0⟩ h a).stepInput
        - (ode.computeUpdateAdjoint lin ⟨ν, 0, 0⟩ h a).stepInput‖ ≤ n * L * ‖μ - ν‖ ∧
    ‖(ode.computeUpdateAdjoint lin ⟨μ, 0, 0⟩ h a).stageInput
        - (ode.computeUpdateAdjoint lin ⟨ν, 0, 0⟩ h a).stageInput‖ ≤ n * L * ‖μ - ν‖ ∧
    ‖(ode.computeUpdateAdjoint lin ⟨μ, 0, 0⟩ h a).independentInput
        - (ode.computeUpdateAdjoint lin ⟨ν, 0, 0⟩ h a).independentInput‖ ≤ n * L * ‖μ - ν‖ ∧
    |(ode.computeUpdateAdjoint lin ⟨μ, 0, 0⟩ h a).time
        - (ode.computeUpdateAdjoint lin ⟨ν, 0, 0⟩ h a).time| ≤ n * L * ‖μ - ν‖ := by
  set r := ode.computeUpdateAdjoint lin ⟨μ, 0, 0⟩ h a with hr
  set q := ode.computeUpdateAdjoint lin ⟨ν, 0, 0⟩ h a with hq
  have key : ∀ x : OdeInput ℝ n m, inSize x ≤ 1 →
      |dotIn r x - dotIn q x| ≤ n * L * ‖μ - ν‖ := by
    intro x hx
    have h1 := H.adjoint x ⟨μ, 0, 0⟩
    have h2 := H.adjoint x ⟨ν, 0, 0⟩
    rw [← hr] at h1
    rw [← hq] at h2
    rw [← h1, ← h2]
    have h3 : dotOut (⟨μ, 0, 0⟩ : OdeOut ℝ n o) (ode.computeUpdateDerivative lin x h a)
        - dotOut (⟨ν, 0, 0⟩ : OdeOut ℝ n o) (ode.computeUpdateDerivative lin x h a)
        = Spec.dot (μ - ν) (ode.computeUpdateDerivative lin x h a).stageUpdate := by
      rw [dot_sub]
      simp only [dotOut]
      ring
    rw [h3]
    refine (dot_le _ _).trans ?_
    have h4 := (H.bound x).trans (mul_le_of_le_one_right hL hx)
    have h5 := mul_le_mul_of_nonneg_left h4 (norm_nonneg (μ - ν))
    have h6 := mul_le_mul_of_nonneg_left h5 (Nat.cast_nonneg (α := ℝ) n)
    linarith
  have hn : 0 ≤ n * L * ‖μ - ν‖ := by positivity
  have z1 : ∀ (k : ℕ) (v : Fin k → ℝ), Spec.dot v 0 = 0 := fun k v => by simp [Spec.dot]
  refine ⟨?_, ?_, ?_, ?_⟩
  · refine (pi_norm_le_iff_of_nonneg hn).mpr fun j => ?_
    have := key ⟨Function.update 0 j 1, 0, 0, 0⟩ (by simpa [inSize] using norm_single j)
    simpa [dotIn, z1, dot_single] using this
  · refine (pi_norm_le_iff_of_nonneg hn).mpr fun j => ?_
    have := key ⟨0, Function.update 0 j 1, 0, 0⟩ (by simpa [inSize] using norm_single j)
    simpa [dotIn, z1, dot_single] using this
  · refine (pi_norm_le_iff_of_nonneg hn).mpr fun j => ?_
    have := key ⟨0, 0, Function.update 0 j 1, 0⟩ (by simpa [inSize] using norm_single j)
    simpa [dotIn, z1, dot_single] using this
  · have := key ⟨0, 0, 0, 1⟩ (by simp [inSize])
    simpa [dotIn, z1] using this

theorem Accurate.adj_zero {L κ : ℝ} {ode od : ODE ℝ n m o l} {lin : Fin l → ℝ} {h a : ℝ}
    (H : Accurate L κ ode od lin h a) :
    ode.computeUpdateAdjoint lin ⟨0, 0, 0⟩ h a = ⟨0, 0, 0, 0⟩ := by
  set r := ode.computeUpdateAdjoint lin ⟨0, 0, 0⟩ h a with hr
  have key : ∀ x : OdeInput ℝ n m, dotIn r x = 0 := by
    intro x
    rw [hr, ← H.adjoint x ⟨0, 0, 0⟩]
    simp [dotOut, Spec.dot]
  have z1 : ∀ (k : ℕ) (v : Fin k → ℝ), Spec.dot v 0 = 0 := fun k v => by simp [Spec.dot]
  have e1 : r.stepInput = 0 := funext fun j => by
    simpa [dotIn, z1, dot_single] using key ⟨Function.update 0 j 1, 0, 0, 0⟩
  have e2 : r.stageInput = 0 := funext fun j => by
    simpa [dotIn, z1, dot_single] using key ⟨0, Function.update 0 j 1, 0, 0⟩
  have e3 : r.independentInput = 0 := funext fun j => by
    simpa [dotIn, z1, dot_single] using key ⟨0, 0, Function.update 0 j 1, 0⟩
  have e4 : r.time = 0 := by simpa [dotIn, z1] using key ⟨0, 0, 0, 1⟩
  rcases hrr : r with ⟨a1, a2, a3, a4⟩
  rw [hrr] at e1 e2 e3 e4
  dsimp only at e1 e2 e3 e4
  rw [e1, e2, e3, e4]

/-- Computed and exact adjoint of a stage problem. -/
structure AdjNear (ρ ε : ℝ) (r' r : OdeInput ℝ n m) : Prop where
  step : ‖r'.stepInput‖ ≤ ρ
  stage : ‖r'.stageInput‖ ≤ ρ
  indep : ‖r'.independentInput‖ ≤ ρ
  time : |r'.time| ≤ ρ
  step_sub : ‖r'.stepInput - r.stepInput‖ ≤ ε
  stage_sub : ‖r'.stageInput - r.stageInput‖ ≤ ε
  indep_sub : ‖r'.independentInput - r.independentInput‖ ≤ ε
  time_sub : |r'.time - r.time| ≤ ε

theorem Accurate.adj_near {L κ : ℝ} {ode od : ODE ℝ n m o l} {lin : Fin l → ℝ} {h a : ℝ}
    (hL : 0 ≤ L) (hκ0 : 0 ≤ κ) (hκ1 : κ ≤ 1) (H : Accurate L κ ode od lin h a) {μ ν : Fin n → ℝ}
    {M N : ℝ} (hμ : ‖μ‖ ≤ M) (hν : ‖μ - ν‖ ≤ N) :
    AdjNear ((n * L + 1) * M) (κ * M + n * L * N) (od.computeUpdateAdjoint lin ⟨μ, 0, 0⟩ h a)
      (ode.computeUpdateAdjoint lin ⟨ν, 0, 0⟩ h a) := by
  obtain ⟨a1, a2, a3, a4⟩ := H.adj_lip hL μ 0
  rw [H.adj_zero] at a1 a2 a3 a4
  simp only [sub_zero] at a1 a2 a3 a4
  obtain ⟨b1, b2, b3, b4⟩ := H.adj_lip hL μ ν
  have e := H.adj_err μ
  unfold inDist at e
  set r' := od.computeUpdateAdjoint lin ⟨μ, 0, 0⟩ h a
  set r := ode.computeUpdateAdjoint lin ⟨μ, 0, 0⟩ h a
  set q := ode.computeUpdateAdjoint lin ⟨ν, 0, 0⟩ h a
  have n1 := norm_nonneg (r'.stepInput - r.stepInput)
  have n2 := norm_nonneg (r'.stageInput - r.stageInput)
  have n3 := norm_nonneg (r'.independentInput - r.independentInput)
  have n4 := abs_nonneg (r'.time - r.time)
  have hnL : 0 ≤ n * L := by positivity
  have k1 : κ * ‖μ‖ ≤ κ * M := mul_le_mul_of_nonneg_left hμ hκ0
  have k2 : κ * M ≤ 1 * M := mul_le_mul_of_nonneg_right hκ1 ((norm_nonneg _).trans hμ)
  have k3 : n * L * ‖μ‖ ≤ n * L * M := mul_le_mul_of_nonneg_left hμ hnL
  have k4 : n * L * ‖μ - ν‖ ≤ n * L * N := mul_le_mul_of_nonneg_left hν hnL
  have k5 : (n * L + 1) * M = n * L * M + M := by ring
  have abs_tri : ∀ x y z : ℝ, |x - z| ≤ |x - y| + |y - z| := fun x y z => abs_sub_le x y z
  have abs_tri2 : ∀ x y : ℝ, |x| ≤ |y| + |x - y| := fun x y => by
    have := abs_add_le y (x - y)
    rwa [add_sub_cancel] at this
  constructor
  · have := norm_le_norm_add_norm_sub' r'.stepInput r.stepInput; linarith
  · have := norm_le_norm_add_norm_sub' r'.stageInput r.stageInput; linarith
  · have := norm_le_norm_add_norm_sub' r'.independentInput r.independentInput; linarith
  · have := abs_tri2 r'.time r.time; linarith
  · have := norm_sub_le_norm_sub_add_norm_sub r'.stepInput r.stepInput q.stepInput; linarith
  · have := norm_sub_le_norm_sub_add_norm_sub r'.stageInput r.stageInput q.stageInput; linarith
  · have := norm_sub_le_norm_sub_add_norm_sub r'.independentInput r.independentInput
      q.independentInput
    linarith
  · have := abs_tri r'.time r.time q.time; linarith

theorem addFl_err (hf : Rounds fl u) {k : ℕ} (v w : Fin k → ℝ) :
    ‖addFl fl v w - (v + w)‖ ≤ u * (‖v‖ + ‖w‖) := by
  have hu := hf.nonneg
  refine (pi_norm_le_iff_of_nonneg (by positivity)).mpr fun x => ?_
  simp only [addFl, Pi.sub_apply, Pi.add_apply, Real.norm_eq_abs]
  refine (hf.err _).trans (mul_le_mul_of_nonneg_left ?_ hu)
  exact (abs_add_le _ _).trans (add_le_add (norm_le_pi_norm v x) (norm_le_pi_norm w x))

theorem addFl_le (hf : Rounds fl u) {k : ℕ} (v w : Fin k → ℝ) :
    ‖addFl fl v w‖ ≤ 2 * (‖v‖ + ‖w‖) := by
  refine (pi_norm_le_iff_of_nonneg (by positivity)).mpr fun x => ?_
  refine (hf.abs_le _).trans (mul_le_mul_of_nonneg_left ?_ (by norm_num))
  exact (abs_add_le _ _).trans (add_le_add (norm_le_pi_norm v x) (norm_le_pi_norm w x))

theorem addFl_sub (hf : Rounds fl u) {k : ℕ} (v w v' w' : Fin k → ℝ) :
    ‖addFl fl v w - (v' + w')‖ ≤ ‖v - v'‖ + ‖w - w'‖ + u * (‖v‖ + ‖w‖) := by
  have h1 := addFl_err hf v w
  have h2 := norm_sub_le_norm_sub_add_norm_sub (addFl fl v w) (v + w) (v' + w')
  have h3 : v + w - (v' + w') = (v - v') + (w - w') := by abel
  rw [h3] at h2
  have h4 := norm_add_le (v - v') (w - w')
  linarith

theorem smulFl_le (hf : Rounds fl u) {k : ℕ} (a : ℝ) (v : Fin k → ℝ) :
    ‖(fun x => fl (a * v x) : Fin k → ℝ)‖ ≤ 2 * (|a| * ‖v‖) := by
  refine (pi_norm_le_iff_of_nonneg (by positivity)).mpr fun x => ?_
  refine (hf.abs_le _).trans (mul_le_mul_of_nonneg_left ?_ (by norm_num))
  rw [abs_mul]
  exact mul_le_mul_of_nonneg_left (norm_le_pi_norm v x) (abs_nonneg _)

theorem smulFl_sub (hf : Rounds fl u) {k : ℕ} (a : ℝ) (v v' : Fin k → ℝ) :
    ‖(fun x => fl (a * v x) : Fin k → ℝ) - fun x => a * v' x‖
      ≤ u * (|a| * ‖v‖) + |a| * ‖v - v'‖ := by
  have hu := hf.nonneg
  refine (pi_norm_le_iff_of_nonneg (by positivity)).mpr fun x => ?_
  simp only [Pi.sub_apply, Real.norm_eq_abs]
  have h1 := hf.err (a * v x)
  have h2 : |a * v x| ≤ |a| * ‖v‖ := by
    rw [abs_mul]
    exact mul_le_mul_of_nonneg_left (norm_le_pi_norm v x) (abs_nonneg _)
  have h3 : |a * v x - a * v' x| ≤ |a| * ‖v - v'‖ := by
    rw [← mul_sub, abs_mul]
    exact mul_le_mul_of_nonneg_left (norm_le_pi_norm (v - v') x) (abs_nonneg _)
  have h4 := mul_le_mul_of_nonneg_left h2 hu
  have h5 := abs_sub_le (fl (a * v x)) (a * v x) (a * v' x)
  linarith

theorem entry_le (A : Fin s → Fin s → ℝ) (i j : Fin s) : |A i j| ≤ Conv.total A := by
  have := sum_row_le A i {j}
  simpa using this

/-- What holds between the stages of the two adjoint steps when `q` stages are left. -/
structure AdjInv (C U Q S ρ D Δ : ℝ) (q : ℕ) (r' r : RKState ℝ s n m o l) : Prop where
  states' : r'.stageStates = 0
  states : r.stageStates = 0
  outs' : r'.stageIndependentOutputs = 0
  outs : r.stageIndependentOutputs = 0
  times' : ∀ j : Fin s, j.val < q → r'.stageTimes j = 0
  times : ∀ j : Fin s, j.val < q → r.stageTimes j = 0
  upd : ∀ j : Fin s, j.val < q → ‖r'.stageUpdates j‖ ≤ C ^ (s - q) * U
  upd_sub : ∀ j : Fin s, j.val < q → ‖r'.stageUpdates j - r.stageUpdates j‖ ≤ C ^ (s - q) * Q
  size : |r'.startTime| + ‖r'.startState‖ + ‖r'.independentInputs‖
    ≤ 2 ^ (s - q) * (S + 8 * (s - q : ℕ) * ρ)
  dist : |r'.startTime - r.startTime| + ‖r'.startState - r.startState‖
    + ‖r'.independentInputs - r.independentInputs‖ ≤ D + (s - q : ℕ) * Δ

/-- One stage of the adjoint step. -/
theorem AdjInv.step (hf : Rounds fl u) (T : Coeffs ℝ s) {L κ : ℝ} (hL : 0 ≤ L) (hκ0 : 0 ≤ κ)
    (hκ1 : κ ≤ 1) {ode od : ODE ℝ n m o l} {lin : Fin s → Fin l → ℝ} {h : ℝ}
    (hacc : ∀ i, Accurate L κ ode od (lin i) h (T.A i i)) {C Z U Y Q S ρ ε X D : ℝ}
    (hC : C = 2 + 4 * (Conv.total T.A * (n * L + 1))) (hZ : Z = C ^ s) (hU : 0 ≤ U) (hS : 0 ≤ S)
    (hY : Y = Z * (Conv.total T.A + 1 + 3 * (Conv.total T.A * (n * L + 1)))) (hQ0 : 0 ≤ Q)
    (hQ : (u + κ) * (Y * U) ≤ Q) (hρ : ρ = (n * L + 1) * (Z * U))
    (hε : ε = (u + κ) * (Z * U) + n * L * (Z * Q)) (hX : X = 2 ^ s * (S + 8 * s * ρ))
    (i : Fin s) (y : RKState ℝ s n m o l × RKState ℝ s n m o l)
    (H : AdjInv C U Q S ρ D (3 * ε + u * (X + 5 * ρ)) (i + 1) y.1 y.2) :
    AdjInv C U Q S ρ D (3 * ε + u * (X + 5 * ρ)) i (computeStageAdjointFl fl T od h lin y.1 i)
      (computeStageAdjoint T ode h lin y.2 i) := by
  obtain ⟨r', r⟩ := y
  obtain ⟨h1, h2, h3, h4, h5, h6, h7, h8, h9, h10⟩ := H
  dsimp only at h1 h2 h3 h4 h5 h6 h7 h8 h9 h10 ⊢
  have hu := hf.nonneg
  have hu1 := hf.lt_one
  have hα0 := Conv.total_nonneg T.A
  set α := Conv.total T.A with hα
  have hnL : 0 ≤ n * L := by positivity
  set L' := n * L with hL'
  have hC1 : 1 ≤ C := by
    have : 0 ≤ α * (L' + 1) := by positivity
    rw [hC]; linarith
  have hk : s - i.val = s - (i.val + 1) + 1 := by omega
  set k := s - (i.val + 1) with hkd
  have hks : k < s := by omega
  have hCk : C ^ k ≤ Z := by rw [hZ]; exact pow_le_pow_right₀ hC1 hks.le
  have hCk1 : 1 ≤ C ^ k := one_le_pow₀ hC1
  have hCk0 : 0 ≤ C ^ k := by linarith
  have hZ0 : 0 ≤ Z := hCk0.trans hCk
  have near := (hacc i).adj_near hL hκ0 hκ1 (h7 i (Nat.lt_succ_self _)) (h8 i (Nat.lt_succ_self _))
  rw [← hL'] at near
  have e' : r'.stageStates i = 0 := by rw [h1]; rfl
  have e2' : r.stageStates i = 0 := by rw [h2]; rfl
  have e3' : r'.stageIndependentOutputs i = 0 := by rw [h3]; rfl
  have e4' : r.stageIndependentOutputs i = 0 := by rw [h4]; rfl
  unfold computeStageAdjointFl computeStageAdjoint
  simp only [e', e2', e3', e4']
  set a' := od.computeUpdateAdjoint (lin i) ⟨r'.stageUpdates i, 0, 0⟩ h (T.A i i)
  set a := ode.computeUpdateAdjoint (lin i) ⟨r.stageUpdates i, 0, 0⟩ h (T.A i i)
  obtain ⟨n1, n2, n3, n4, m1, m2, m3, m4⟩ := near
  have hM : C ^ k * U ≤ Z * U := mul_le_mul_of_nonneg_right hCk hU
  have hN : C ^ k * Q ≤ Z * Q := mul_le_mul_of_nonneg_right hCk hQ0
  have hρM : (L' + 1) * (C ^ k * U) ≤ ρ := by
    rw [hρ]; exact mul_le_mul_of_nonneg_left hM (by positivity)
  have hρ0 : 0 ≤ ρ := by rw [hρ]; positivity
  have hεM : κ * (C ^ k * U) + L' * (C ^ k * Q) ≤ ε := by
    rw [hε]
    have t1 := mul_le_mul_of_nonneg_left hM hκ0
    have t2 := mul_le_mul_of_nonneg_left hN hnL
    have t3 : 0 ≤ u * (Z * U) := by positivity
    linarith
  have hM0 : 0 ≤ C ^ k * U := by positivity
  have hsmul : ∀ j : Fin s, |T.A i j| * ‖a'.stageInput‖ ≤ α * ((L' + 1) * (C ^ k * U)) := fun j =>
    mul_le_mul (entry_le T.A i j) n2 (norm_nonneg _) hα0
  refine ⟨h1, h2, h3, h4, ?_, ?_, ?_, ?_, ?_, ?_⟩
  · intro j hj
    have hne : j ≠ i := fun e => by rw [e] at hj; omega
    dsimp only
    rw [Function.update_of_ne hne]
    exact h5 j (by omega)
  · intro j hj
    have hne : j ≠ i := fun e => by rw [e] at hj; omega
    dsimp only
    rw [Function.update_of_ne hne]
    exact h6 j (by omega)
  · intro j hj
    have hlt : j < i := hj
    dsimp only
    rw [if_pos hlt, hk]
    refine (addFl_le hf _ _).trans ?_
    have t1 := h7 j (by omega)
    have t2 := (smulFl_le hf (T.A i j) a'.stageInput).trans
      (mul_le_mul_of_nonneg_left (hsmul j) (by norm_num))
    have t3 : C ^ (k + 1) * U = 2 * (C ^ k * U) + 4 * (α * ((L' + 1) * (C ^ k * U))) := by
      rw [pow_succ]
      nth_rewrite 2 [hC]
      ring
    rw [t3]
    linarith
  · intro j hj
    have hlt : j < i := hj
    dsimp only
    rw [if_pos hlt, if_pos hlt, hk]
    refine (addFl_sub hf _ _ _ _).trans ?_
    have t1 := h8 j (by omega)
    have t2 := smulFl_sub hf (T.A i j) a'.stageInput a.stageInput
    have t3 := mul_le_mul_of_nonneg_left (hsmul j) hu
    have t4 : |T.A i j| * ‖a'.stageInput - a.stageInput‖
        ≤ α * (κ * (C ^ k * U) + L' * (C ^ k * Q)) :=
      mul_le_mul (entry_le T.A i j) m2 (norm_nonneg _) hα0
    have t5 := (smulFl_le hf (T.A i j) a'.stageInput).trans
      (mul_le_mul_of_nonneg_left (hsmul j) (by norm_num))
    have t6 := mul_le_mul_of_nonneg_left (add_le_add (h7 j (by omega)) t5) hu
    have t7 : (u + κ) * ((C ^ k * U) * (α + 1 + 3 * (α * (L' + 1)))) ≤ C ^ k * Q := by
      have w1 : (C ^ k * U) * (α + 1 + 3 * (α * (L' + 1)))
          ≤ (Z * U) * (α + 1 + 3 * (α * (L' + 1))) :=
        mul_le_mul_of_nonneg_right hM (by positivity)
      have w2 := mul_le_mul_of_nonneg_left w1 (by positivity : 0 ≤ u + κ)
      have w3 : (Z * U) * (α + 1 + 3 * (α * (L' + 1))) = Y * U := by rw [hY]; ring
      rw [w3] at w2
      have w4 : Q ≤ C ^ k * Q := le_mul_of_one_le_left hQ0 hCk1
      linarith
    have t8 : C ^ (k + 1) * Q = 2 * (C ^ k * Q) + 4 * (α * ((L' + 1) * (C ^ k * Q))) := by
      rw [pow_succ]
      nth_rewrite 2 [hC]
      ring
    have hkQ0 : 0 ≤ C ^ k * Q := by positivity
    have t9 : α * (L' * (C ^ k * Q)) ≤ 4 * (α * ((L' + 1) * (C ^ k * Q))) := by
      have : 0 ≤ α * (L' * (C ^ k * Q)) := by positivity
      have : 0 ≤ α * (C ^ k * Q) := by positivity
      linarith
    have t10 : 0 ≤ κ * ((C ^ k * U) * (1 + 3 * (α * (L' + 1)))) := by positivity
    have t11 : 0 ≤ u * ((C ^ k * U) * α) := by positivity
    rw [t8]
    linarith
  all_goals
    have ht' : r'.stageTimes i = 0 := h5 i (Nat.lt_succ_self _)
    have ht : r.stageTimes i = 0 := h6 i (Nat.lt_succ_self _)
    simp only [ht', ht, zero_add]
    have c1 : |fl a'.time| ≤ 2 * ρ :=
      (hf.abs_le _).trans (mul_le_mul_of_nonneg_left (n4.trans hρM) (by norm_num))
  · have c2 := (hf.abs_le (r'.startTime + fl a'.time)).trans
      (mul_le_mul_of_nonneg_left (abs_add_le _ _) (by norm_num))
    have c3 := addFl_le hf r'.startState a'.stepInput
    have c4 := addFl_le hf r'.independentInputs a'.independentInput
    have c5 := n1.trans hρM
    have c6 := n3.trans hρM
    rw [hk]
    push_cast
    have c7 : (2 : ℝ) ^ (k + 1) * (S + 8 * (k + 1) * ρ)
        = 2 * (2 ^ k * (S + 8 * k * ρ)) + 8 * (2 ^ (k + 1) * ρ) := by rw [pow_succ]; ring
    have c8 : (1 : ℝ) ≤ 2 ^ (k + 1) := one_le_pow₀ (by norm_num)
    have c9 := mul_le_mul_of_nonneg_right c8 hρ0
    rw [c7]
    linarith
  · have hsz : |r'.startTime| + ‖r'.startState‖ + ‖r'.independentInputs‖ ≤ X := by
      refine h9.trans ?_
      rw [hX]
      have w1 : (k : ℝ) ≤ s := by exact_mod_cast hks.le
      have w2 : (2 : ℝ) ^ k ≤ 2 ^ s := pow_le_pow_right₀ (by norm_num) hks.le
      refine mul_le_mul w2 ?_ (by positivity) (by positivity)
      have := mul_le_mul_of_nonneg_right w1 hρ0
      linarith
    have d1 := addFl_sub hf r'.startState a'.stepInput r.startState a.stepInput
    have d2 := addFl_sub hf r'.independentInputs a'.independentInput r.independentInputs
      a.independentInput
    have d3 : |fl a'.time - a.time| ≤ u * ρ + ε := by
      have w1 := abs_sub_le (fl a'.time) a'.time a.time
      have w2 := (hf.err a'.time).trans (mul_le_mul_of_nonneg_left (n4.trans hρM) hu)
      have w3 := m4.trans hεM
      linarith
    have d4 : |fl (r'.startTime + fl a'.time) - (r.startTime + a.time)|
        ≤ |r'.startTime - r.startTime| + (u * ρ + ε) + u * (|r'.startTime| + 2 * ρ) := by
      have w1 := abs_sub_le (fl (r'.startTime + fl a'.time)) (r'.startTime + fl a'.time)
        (r.startTime + a.time)
      have w2 := (hf.err (r'.startTime + fl a'.time)).trans
        (mul_le_mul_of_nonneg_left ((abs_add_le _ _).trans (add_le_add le_rfl c1)) hu)
      have w3 : r'.startTime + fl a'.time - (r.startTime + a.time)
          = (r'.startTime - r.startTime) + (fl a'.time - a.time) := by ring
      have w4 := abs_add_le (r'.startTime - r.startTime) (fl a'.time - a.time)
      rw [← w3] at w4
      linarith
    have d5 := m1.trans hεM
    have d6 := m3.trans hεM
    have d7 := mul_le_mul_of_nonneg_left (n1.trans hρM) hu
    have d8 := mul_le_mul_of_nonneg_left (n3.trans hρM) hu
    have d9 := mul_le_mul_of_nonneg_left hsz hu
    rw [hk]
    push_cast
    linarith

/-- One adjoint step from a perturbation without stage states. -/
theorem adj_dist (n : ℕ) (T : Coeffs ℝ s) {L H : ℝ} (hL : 0 ≤ L) (hH : 0 ≤ H) :
    ∃ c g : ℝ, 0 ≤ c ∧ 0 ≤ g ∧ ∀ {m o l : ℕ} (fl : ℝ → ℝ) (u : ℝ) (κ : ℝ),
      Rounds fl u → 0 ≤ κ → κ ≤ 1 → ∀ (ode od : ODE ℝ n m o l)
      (st p' p : RKState ℝ s n m o l) (h : ℝ), |h| ≤ H →
      (∀ i, Accurate L κ ode od (st.linearizationPoints i) h (T.A i i)) →
      p'.stageStates = 0 → p.stageStates = 0 →
      (computeStepAdjointFl fl T od st p' h).stageStates = 0 ∧
      pubDist (computeStepAdjointFl fl T od st p' h) (computeStepAdjoint T ode st p h)
        ≤ (1 + c * |h|) * pubDist p' p + g * (u + κ) * pubSize p' := by
  have hα0 := Conv.total_nonneg T.A
  set α := Conv.total T.A with hα
  have hnL : 0 ≤ n * L := by positivity
  set L' := n * L with hL'
  set C := 2 + 4 * (α * (L' + 1)) with hC
  have hC1 : 1 ≤ C := by
    have : 0 ≤ α * (L' + 1) := by positivity
    rw [hC]; linarith
  have hβ0 : 0 ≤ ∑ i, |T.b i| := Finset.sum_nonneg fun _ _ => abs_nonneg _
  set β := ∑ i, |T.b i| with hβ
  set Z := C ^ s with hZ
  have hZ0 : 0 ≤ Z := by positivity
  set Y := Z * (α + 1 + 3 * (α * (L' + 1))) with hY
  have hY0 : 0 ≤ Y := by positivity
  refine ⟨3 * s * L' * Z * β, 1 + s * (3 * (4 * H * β * Z + 3 * L' * Z * H * β
    + 4 * L' * Z * Y * H * β) + (2 ^ s * (2 + 8 * s * ((L' + 1) * (Z * (4 * H * β))))
    + 5 * ((L' + 1) * (Z * (4 * H * β))))), by positivity, by positivity, ?_⟩
  intro m o l fl u κ hf hκ0 hκ1 ode od st p' p h hh hacc hp' hp
  have hu := hf.nonneg
  have hu1 := hf.lt_one
  set S := pubSize p' with hS
  set D := pubDist p' p with hD
  have hS0 : 0 ≤ S := pubSize_nonneg _
  have hD0 : 0 ≤ D := pubDist_nonneg _ _
  have hSd : S = |p'.finalTime| + ‖p'.finalState‖ + ‖p'.independentInputs‖ := rfl
  have hDd : D = |p'.finalTime - p.finalTime| + ‖p'.finalState - p.finalState‖
    + ‖p'.independentInputs - p.independentInputs‖ := rfl
  have hyS : ‖p'.finalState‖ ≤ S := by
    have h1 := abs_nonneg p'.finalTime
    have h2 := norm_nonneg p'.independentInputs
    linarith
  have htS : |p'.finalTime| ≤ S := by
    have h1 := norm_nonneg p'.finalState
    have h2 := norm_nonneg p'.independentInputs
    linarith
  have hyD : ‖p'.finalState - p.finalState‖ ≤ D := by
    have h1 := abs_nonneg (p'.finalTime - p.finalTime)
    have h2 := norm_nonneg (p'.independentInputs - p.independentInputs)
    linarith
  set U := 4 * (|h| * β * S) with hU
  have hU0 : 0 ≤ U := by positivity
  set Q := |h| * β * (D + 3 * ((u + κ) * S)) + (u + κ) * (Y * U) with hQ
  have hQ0 : 0 ≤ Q := by positivity
  set ρ := (L' + 1) * (Z * U) with hρ
  set ε := (u + κ) * (Z * U) + L' * (Z * Q) with hε
  set X := 2 ^ s * (2 * S + 8 * s * ρ) with hX
  have hb : ∀ i, |T.b i| ≤ β := fun i =>
    Finset.single_le_sum (f := fun i => |T.b i|) (fun _ _ => abs_nonneg _) (Finset.mem_univ i)
  have hhb : ∀ i, |h * T.b i| ≤ |h| * β := fun i => by
    rw [abs_mul]; exact mul_le_mul_of_nonneg_left (hb i) (abs_nonneg _)
  have hsc : ∀ i, |fl (h * T.b i)| ≤ 2 * (|h| * β) := fun i =>
    (hf.abs_le _).trans (mul_le_mul_of_nonneg_left (hhb i) (by norm_num))
  let e0 : RKState ℝ s n m o l :=
    { p with
      stageTimes := 0
      stageIndependentOutputs := 0
      finalTime := p.finalTime + 0
      startState := p.finalState
      stageUpdates := fun i x => h * T.b i * p.finalState x
      startTime := p.finalTime + 0 }
  have start : AdjInv C U Q (2 * S) ρ (D + u * S) (3 * ε + u * (X + 5 * ρ)) s
      (adjointStartFl fl T p' h) e0 := by
    refine ⟨hp', hp, rfl, rfl, fun _ _ => rfl, fun _ _ => rfl, ?_, ?_, ?_, ?_⟩
    · intro j _
      rw [Nat.sub_self, _root_.pow_zero, one_mul]
      refine (smulFl_le hf (fl (h * T.b j)) p'.finalState).trans ?_
      have := mul_le_mul (hsc j) hyS (norm_nonneg _) (by positivity)
      rw [hU]
      linarith
    · intro j _
      rw [Nat.sub_self, _root_.pow_zero, one_mul]
      have t1 := smulFl_sub hf (fl (h * T.b j)) p'.finalState p'.finalState
      rw [sub_self, norm_zero, mul_zero, add_zero] at t1
      have t2 : ‖(fun x => fl (h * T.b j) * p'.finalState x)
          - fun x => h * T.b j * p.finalState x‖
          ≤ u * (|h| * β) * S + |h| * β * D := by
        refine (pi_norm_le_iff_of_nonneg (by positivity)).mpr fun x => ?_
        simp only [Pi.sub_apply, Real.norm_eq_abs]
        have w1 : fl (h * T.b j) * p'.finalState x - h * T.b j * p.finalState x
            = (fl (h * T.b j) - h * T.b j) * p'.finalState x
              + h * T.b j * (p'.finalState x - p.finalState x) := by ring
        rw [w1]
        refine (abs_add_le _ _).trans ?_
        rw [abs_mul, abs_mul]
        refine add_le_add ?_ ?_
        · exact mul_le_mul ((hf.err _).trans (mul_le_mul_of_nonneg_left (hhb j) hu))
            ((norm_le_pi_norm p'.finalState x).trans hyS) (abs_nonneg _) (by positivity)
        · exact mul_le_mul (hhb j)
            ((norm_le_pi_norm (p'.finalState - p.finalState) x).trans hyD) (abs_nonneg _)
            (by positivity)
      have t3 := mul_le_mul_of_nonneg_left
        (mul_le_mul (hsc j) hyS (norm_nonneg _) (by positivity)) hu
      have t4 := norm_sub_le_norm_sub_add_norm_sub (fun x => fl (fl (h * T.b j) * p'.finalState x))
        (fun x => fl (h * T.b j) * p'.finalState x) (fun x => h * T.b j * p.finalState x)
      have t5 : 0 ≤ (u + κ) * (Y * U) := by positivity
      have t6 : 0 ≤ |h| * β * (3 * (κ * S)) := by positivity
      change ‖(fun x => fl (fl (h * T.b j) * p'.finalState x))
        - fun x => h * T.b j * p.finalState x‖ ≤ Q
      rw [hQ]
      linarith
    · rw [Nat.sub_self, _root_.pow_zero, one_mul]
      simp only [adjointStartFl, Nat.cast_zero, mul_zero, zero_mul, add_zero]
      have := hf.abs_le p'.finalTime
      have n1 := norm_nonneg p'.finalState
      have n2 := norm_nonneg p'.independentInputs
      linarith
    · simp only [adjointStartFl, e0, Nat.sub_self, Nat.cast_zero, zero_mul, add_zero]
      have t1 := hf.err p'.finalTime
      have t2 := mul_le_mul_of_nonneg_left htS hu
      have t3 := abs_sub_le (fl p'.finalTime) p'.finalTime p.finalTime
      linarith
  have fin := Loop.foldl_finRange_reverse
    (fun (y : RKState ℝ s n m o l × RKState ℝ s n m o l) i =>
      (computeStageAdjointFl fl T od h st.linearizationPoints y.1 i,
        computeStageAdjoint T ode h st.linearizationPoints y.2 i))
    (fun q y => AdjInv C U Q (2 * S) ρ (D + u * S) (3 * ε + u * (X + 5 * ρ)) q y.1 y.2)
    (adjointStartFl fl T p' h, e0) start
    (fun i y hy => AdjInv.step hf T hL hκ0 hκ1 hacc hC hZ hU0 (by positivity) hY hQ0
      (by rw [hQ]; have : 0 ≤ |h| * β * (D + 3 * ((u + κ) * S)) := by positivity
          linarith) hρ hε hX i y hy)
  rw [foldl_pair] at fin
  refine ⟨fin.states', ?_⟩
  have hd := fin.dist
  rw [Nat.sub_zero] at hd
  have hgoal : pubDist (computeStepAdjointFl fl T od st p' h) (computeStepAdjoint T ode st p h)
      ≤ D + u * S + s * (3 * ε + u * (X + 5 * ρ)) := hd
  refine hgoal.trans ?_
  have hUS : U ≤ 4 * H * β * S := by
    rw [hU]
    have := mul_le_mul_of_nonneg_right hh (by positivity : 0 ≤ β * S)
    linarith
  have hδ0 : 0 ≤ u + κ := by positivity
  have hρS : ρ ≤ (L' + 1) * (Z * (4 * H * β)) * S := by
    rw [hρ]
    have := mul_le_mul_of_nonneg_left (mul_le_mul_of_nonneg_left hUS hZ0)
      (by positivity : 0 ≤ L' + 1)
    linarith
  have hρ0 : 0 ≤ ρ := by positivity
  have hXS : X + 5 * ρ ≤ (2 ^ s * (2 + 8 * s * ((L' + 1) * (Z * (4 * H * β))))
      + 5 * ((L' + 1) * (Z * (4 * H * β)))) * S := by
    have w1 := mul_le_mul_of_nonneg_left hρS (by positivity : (0 : ℝ) ≤ 2 ^ s * (8 * s))
    rw [hX]
    linarith
  have hX0 : 0 ≤ X + 5 * ρ := by positivity
  have hεS : ε ≤ L' * Z * β * |h| * D + (u + κ) * (4 * H * β * Z + 3 * L' * Z * H * β
      + 4 * L' * Z * Y * H * β) * S := by
    have w1 := mul_le_mul_of_nonneg_left hUS (by positivity : 0 ≤ (u + κ) * Z)
    have w2 := mul_le_mul_of_nonneg_left hUS (by positivity : 0 ≤ L' * Z * (u + κ) * Y)
    have w3 := mul_le_mul_of_nonneg_right hh (by positivity : 0 ≤ L' * Z * β * (3 * ((u + κ) * S)))
    rw [hε, hQ]
    linarith
  have hs0 : (0 : ℝ) ≤ s := Nat.cast_nonneg _
  have v1 := mul_le_mul_of_nonneg_left hεS (by positivity : (0 : ℝ) ≤ 3 * s)
  have v2 : u * (X + 5 * ρ) ≤ (u + κ) * ((2 ^ s * (2 + 8 * s * ((L' + 1) * (Z * (4 * H * β))))
      + 5 * ((L' + 1) * (Z * (4 * H * β)))) * S) :=
    mul_le_mul (by linarith) hXS hX0 hδ0
  have v3 := mul_le_mul_of_nonneg_left v2 hs0
  have v4 : 0 ≤ κ * S := by positivity
  linarith

end Verif.Fl
