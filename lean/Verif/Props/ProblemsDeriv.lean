/-
C101: products with the Jacobian of the shipped test problems.
-/
import Verif.Components.Linear
import Verif.Conv.UniformPair
import Verif.Props.GuideDeriv
import Verif.Props.TestProblems

namespace Verif.Props

open Verif.RK Verif.RK.Spec Verif.Control Verif.XReal Verif.Integrator Verif.Tableau Verif.Comp
open Verif.OM (entriesOf Solves SolvesLinear Agree)
open Classical

variable {s n m o l : ℕ}

/-! ### The linear problem -/

theorem linear_entries : entriesOf linearLayout.outputs = {("_auto_ivc.v0", 0), ("_auto_ivc.v1", 0),
    ("test_comp.y_stage", 0)} := by decide +kernel

theorem linear_proper : linearLayout.Proper := by constructor <;> decide +kernel

theorem linear_fits : OM.Fits linearConf linearLayout := by constructor <;> decide +kernel

theorem linear_built : OM.Built linearConf := ⟨linearProblem, 1, ["y"], [], [linearMeta], 0,
  linear_setup, rfl⟩

/-- The derivative call solves the stage equation with the direction as inputs. -/
theorem linear_derivative {fwd rev} (hJ : SolvesLinear linearLayout (linearEnv fwd rev) linearJac)
    (v0 : OM.Vectors ℝ) (lin : Fin (OM.pointSize linearLayout) → ℝ) (d : OdeInput ℝ 1 0) (h a : ℝ) :
    ((linearOde fwd rev v0).computeUpdateDerivative lin d h a).stageUpdate
      = fun _ => -(d.stepInput 0 + h * d.stageInput 0) * (1 + h * a)⁻¹ := by
  funext i
  obtain rfl : i = 0 := Subsingleton.elim _ _
  set v := OM.setPoint linearLayout (List.ofFn lin) v0 with hv
  set rhs := OM.inputsToVec linearConf (-1) (OM.toInputs d) (fun _ _ => 0) with hrhs
  have key := hJ.fwd v h a rhs
  set x := (linearEnv fwd rev).solveFwd v h a rhs with hx
  have hgoal : ((linearOde fwd rev v0).computeUpdateDerivative lin d h a).stageUpdate 0
      = x "test_comp.y_stage" 0 := by
    change OM.vecToOutputs linearConf x (fun _ => 0) 0 = _
    simp [OM.vecToOutputs, linearConf, linearMeta, scalarQuantity, OM.getVar]
  rw [hgoal]
  unfold Solves at key
  rw [linear_entries] at key
  have k0 := key ("_auto_ivc.v0", 0) (by simp)
  have k1 := key ("_auto_ivc.v1", 0) (by simp)
  have k2 := key ("test_comp.y_stage", 0) (by simp)
  have r0 : rhs "_auto_ivc.v0" 0 = -d.stepInput 0 := by
    simp [hrhs, OM.inputsToVec, linearConf, linearMeta, OM.writeState, OM.writeTime, scalarQuantity,
      OM.setVar, sourceOf, linearConn, OM.toInputs, OM.flat, Function.update]
  have r1 : rhs "_auto_ivc.v1" 0 = -d.stageInput 0 := by
    simp [hrhs, OM.inputsToVec, linearConf, linearMeta, OM.writeState, OM.writeTime, scalarQuantity,
      OM.setVar, sourceOf, linearConn, OM.toInputs, OM.flat]
  have r2 : rhs "test_comp.y_stage" 0 = 0 := by
    simp [hrhs, OM.inputsToVec, linearConf, linearMeta, OM.writeState, OM.writeTime, scalarQuantity,
      OM.setVar, sourceOf, linearConn, OM.toInputs, OM.flat, Function.update]
  simp [linearJac, linearApply, unitVec, r0] at k0
  simp [linearJac, linearApply, unitVec, r1] at k1
  simp [linearJac, linearApply, unitVec, transfer, linearConn, simpleLinearFwd, Function.update, r2,
    k0, k1] at k2
  linear_combination -k2

theorem linear_smooth (q : ℕ) : SmoothAll linearRhs q := by
  unfold SmoothAll linearRhs
  fun_prop

theorem jac_of_hasDerivAt {f : Rhs ℝ n m} (hf : SmoothAll f 1) {t : ℝ} {y : Fin n → ℝ}
    {p : Fin m → ℝ} {τ : ℝ} {d : Fin n → ℝ} {π : Fin m → ℝ} {w : Fin n → ℝ}
    (h : HasDerivAt (fun ε : ℝ => f (t + ε * τ) (y + ε • d) (p + ε • π)) w 0) :
    jac f t y p (τ, d, π) = w := by
  have h1 : HasDerivAt (fun ε : ℝ => ((t, y, p) : ℝ × (Fin n → ℝ) × (Fin m → ℝ)) + ε • (τ, d, π))
      (τ, d, π) 0 := by
    simpa using ((hasDerivAt_id (0 : ℝ)).smul_const (τ, d, π)).const_add (t, y, p)
  have h2 : HasFDerivAt (fun z : ℝ × (Fin n → ℝ) × (Fin m → ℝ) => f z.1 z.2.1 z.2.2)
      (jac f t y p) (((t, y, p) : ℝ × (Fin n → ℝ) × (Fin m → ℝ)) + (0 : ℝ) • (τ, d, π)) := by
    rw [zero_smul, add_zero]
    exact ((ContDiff.differentiable hf (by norm_num)) _).hasFDerivAt
  have h3 := h2.comp_hasDerivAt (0 : ℝ) h1
  exact h3.unique h

theorem linear_jac (t : ℝ) (y : Fin 1 → ℝ) (p : Fin 0 → ℝ) (τ : ℝ) (d : Fin 1 → ℝ) (π : Fin 0 → ℝ) :
    jac linearRhs t y p (τ, d, π) = -d := by
  refine jac_of_hasDerivAt (linear_smooth 1) ?_
  have := ((hasDerivAt_id (0 : ℝ)).smul_const d).const_add y
  rw [one_smul] at this
  exact this.neg

theorem linear_isSensitivity (y0 t0 t1 v τ : ℝ) :
    IsSensitivity linearRhs ![] τ ![] (fun t _ => simpleLinearSolution t y0 t0)
      (fun t _ => v * Real.exp (-(t - t0))) t0 t1 := by
  intro t _
  rw [linear_jac, hasDerivWithinAt_pi]
  intro x
  refine HasDerivAt.hasDerivWithinAt ?_
  have := ((((hasDerivAt_id t).sub_const t0).neg).exp).const_mul v
  refine this.congr_deriv ?_
  simp

theorem linear_bounds {R h a x y : ℝ} (h0 : 0 ≤ h) (hle : h ≤ min 1 (1 / (2 * (|a| + 1))))
    (hx : |x| ≤ R) (hy : |y| ≤ R) : 1 / 2 ≤ 1 + h * a ∧ |-(x + h * y) * (1 + h * a)⁻¹| ≤ 4 * |R| := by
  have hD : 1 / 2 ≤ 1 + h * a := by
    have := (input_den (b := -1) (a := a) h0 (by simpa using hle)).1
    linarith
  refine ⟨hD, ?_⟩
  have := input_bounds (b := -1) h0 (hle.trans (min_le_left _ _)) hD hx hy
  rw [div_eq_mul_inv] at this
  simpa using this

theorem linear_nearby (a : ℝ) (fwd rev v0) :
    SolvesNearby (linearOde fwd rev v0) linearRhs ![] 0 a := by
  intro R
  refine ⟨4 * |R|, min 1 (1 / (2 * (|a| + 1))), by positivity, fun h z h0 hle hz g1 g2 _ => ?_⟩
  obtain ⟨hD, hb⟩ := linear_bounds h0 hle ((norm_le_pi_norm z.stepInput 0).trans g1)
    ((norm_le_pi_norm z.stageInput 0).trans g2)
  constructor
  · rw [linearOde_update]
    refine (pi_norm_le_iff_of_nonneg (by positivity)).mpr fun x => ?_
    simp only [simpleLinear, div_eq_mul_inv]
    exact hb
  · have := linear_solves (ode := linearOde fwd rev v0) (fun z h a => ⟨v0, rfl⟩)
      (by linarith : 1 + h * a ≠ 0) z
    rw [hz] at this
    rw [sub_eq_zero.mpr this, norm_zero]

theorem linear_linearized (a : ℝ) {fwd rev}
    (hJ : SolvesLinear linearLayout (linearEnv fwd rev) linearJac) (v0) :
    SolvesLinearized (linearOde fwd rev v0) linearRhs ![] 0 a := by
  intro R
  refine ⟨4 * |R|, min 1 (1 / (2 * (|a| + 1))), by positivity,
    fun h z d h0 hle hz g1 g2 _ g3 g4 g5 _ => ?_⟩
  obtain ⟨hD, hb⟩ := linear_bounds h0 hle ((norm_le_pi_norm d.stepInput 0).trans g3)
    ((norm_le_pi_norm d.stageInput 0).trans g4)
  have hD0 : 1 + h * a ≠ 0 := by linarith
  intro k kd
  have hkd : kd = fun _ => -(d.stepInput 0 + h * d.stageInput 0) * (1 + h * a)⁻¹ :=
    linear_derivative hJ v0 _ d h a
  constructor
  · rw [hkd]
    exact (pi_norm_le_iff_of_nonneg (by positivity)).mpr fun x => hb
  · rw [linear_jac]
    refine le_of_eq ?_
    rw [norm_eq_zero]
    funext x
    obtain rfl : x = 0 := Subsingleton.elim _ _
    simp only [Pi.sub_apply, Pi.neg_apply, Pi.zero_apply, hkd]
    field_simp
    ring

/-- C101, `SimpleLinearODE` with the plain shipped tableaux: with linear solves that use
`compute_jacvec_product` of the component, forward products with the rate `v` of the initial value
converge to `v exp(-(t - t0))`, and reverse products to the transpose, with the order of the scheme. -/
theorem C101_linear {q : ℕ} (hq : 1 ≤ q) (y0 t0 t1 v τ : ℝ) : ∃ K r : ℝ, 0 < K ∧ 0 < r ∧
    ∀ e ∈ plainShipped, e.tab.p = some q → ∀ (v0 : OM.Vectors ℝ) (fwd rev)
      (E : Env e.tab.stages 1 0 0 (OM.pointSize linearLayout)), E.T = e.tab.coeffs →
      E.ode = linearOde fwd rev v0 → SolvesLinear linearLayout (linearEnv fwd rev) linearJac →
      ∃ C h1 : ℝ, 0 < C ∧ 0 < h1 ∧
        ForwardWithin (rkBackend E) FixedEnd ![] τ ![] (fun t _ => simpleLinearSolution t y0 t0)
          (fun t _ => v * Real.exp (-(t - t0))) t0 t1 h1 (r - e.tol)
          (fun e0 h => K * (e0 + e.tol) + C * h ^ q) ∧
        ReverseWithin (rkBackend E) rkRestore (fun d => d.stageStates = 0) FixedEnd ![] τ ![]
          (fun t _ => simpleLinearSolution t y0 t0) (fun t _ => v * Real.exp (-(t - t0))) t0 t1 h1
          (r - e.tol) (fun e0 h => K * (e0 + e.tol) + C * h ^ q) := by
  obtain ⟨β, hβ, -⟩ := shipped_weights
  obtain ⟨K, r, hK, hr, hF⟩ := C81_forward hq (linear_smooth (q + 1))
    (linear_isSolution y0 t0 t1) (linear_isSensitivity y0 t0 t1 v τ) β
  obtain ⟨K', r', hK', hr', hR⟩ := C81_reverse hq (linear_smooth (q + 1))
    (linear_isSolution y0 t0 t1) (linear_isSensitivity y0 t0 t1 v τ) β
  refine ⟨max K K', min r r', lt_max_of_lt_left hK, lt_min hr hr', fun e he hp v0 fwd rev E hT hode
    hJ => ?_⟩
  have hA : Accurate E.T β e.tol q := hT ▸ plain_accurate e he hp (hβ e he)
  have hn : ∀ i, SolvesNearby E.ode linearRhs ![] 0 (E.T.A i i) := fun i =>
    hode ▸ linear_nearby _ fwd rev v0
  have hl : ∀ i, SolvesLinearized E.ode linearRhs ![] 0 (E.T.A i i) := fun i =>
    hode ▸ linear_linearized _ hJ v0
  obtain ⟨C, h1, hC, hh1, H⟩ := hF _ _ _ E e.tol 0 hA le_rfl hn hl
  obtain ⟨C', h1', hC', hh1', H'⟩ := hR _ _ _ E e.tol 0 hA le_rfl hn hl
    (hode ▸ OM.omOde_noStageState _ _ _ _) (fun lin h i => hode ▸ OM.omOde_adjoint
      (built_sound linear_built) linear_proper linear_fits v0 hJ lin h _)
  rw [sub_zero] at H H'
  simp only [add_zero] at H H'
  have hE : ∀ opt c t0 H t', FixedEnd opt c t0 H t' → 0 ≤ H := fun _ _ _ _ _ h => h.nonneg
  exact ⟨max C C', min h1 h1', lt_max_of_lt_left hC, lt_min hh1 hh1',
    H.weaken hE (min_le_left _ _) (sub_le_sub_right (min_le_left _ _) _)
      (weaken_err hA.nonneg (le_max_left _ _) (le_max_left _ _)),
    H'.weaken hE (min_le_right _ _) (sub_le_sub_right (min_le_right _ _) _)
      (weaken_err hA.nonneg (le_max_right _ _) (le_max_right _ _))⟩

/-- C101, `SimpleLinearODE` with the shipped embedded tableaux, adaptive runs included. -/
theorem C101_linear_embedded {q : ℕ} (hq : 1 ≤ q) (y0 t0 t1 v τ : ℝ) : ∃ K r : ℝ, 0 < K ∧ 0 < r ∧
    ∀ e ∈ embShipped, e.tab.p = some q → ∀ (v0 : OM.Vectors ℝ) (fwd rev)
      (E : Env e.tab.stages 1 0 0 (OM.pointSize linearLayout)), E.T = e.tab.coeffs →
      E.ode = linearOde fwd rev v0 → SolvesLinear linearLayout (linearEnv fwd rev) linearJac →
      ∃ C h1 : ℝ, 0 < C ∧ 0 < h1 ∧
        ForwardWithin (embBackend E e.tab.bhat) AnyEnd ![] τ ![]
          (fun t _ => simpleLinearSolution t y0 t0)
          (fun t _ => v * Real.exp (-(t - t0))) t0 t1 h1 (r - e.tol)
          (fun e0 h => K * (e0 + e.tol) + C * h ^ q) ∧
        ReverseWithin (embBackend E e.tab.bhat) embRestore (fun d => d.stageStates = 0) AnyEnd ![] τ
          ![] (fun t _ => simpleLinearSolution t y0 t0) (fun t _ => v * Real.exp (-(t - t0))) t0 t1
          h1 (r - e.tol) (fun e0 h => K * (e0 + e.tol) + C * h ^ q) := by
  obtain ⟨β, -, hβ⟩ := shipped_weights
  obtain ⟨K, r, hK, hr, hF⟩ := C81_forward_embedded hq (linear_smooth (q + 1))
    (linear_isSolution y0 t0 t1) (linear_isSensitivity y0 t0 t1 v τ) β
  obtain ⟨K', r', hK', hr', hR⟩ := C81_reverse_embedded hq (linear_smooth (q + 1))
    (linear_isSolution y0 t0 t1) (linear_isSensitivity y0 t0 t1 v τ) β
  refine ⟨max K K', min r r', lt_max_of_lt_left hK, lt_min hr hr', fun e he hp v0 fwd rev E hT hode
    hJ => ?_⟩
  have hA : Accurate E.T β e.tol q := hT ▸ emb_accurate e he hp (hβ e he)
  have hn : ∀ i, SolvesNearby E.ode linearRhs ![] 0 (E.T.A i i) := fun i =>
    hode ▸ linear_nearby _ fwd rev v0
  have hl : ∀ i, SolvesLinearized E.ode linearRhs ![] 0 (E.T.A i i) := fun i =>
    hode ▸ linear_linearized _ hJ v0
  obtain ⟨C, h1, hC, hh1, H⟩ := hF _ _ _ E e.tab.bhat e.tol 0 hA le_rfl hn hl
  obtain ⟨C', h1', hC', hh1', H'⟩ := hR _ _ _ E e.tab.bhat e.tol 0 hA le_rfl hn hl
    (hode ▸ OM.omOde_noStageState _ _ _ _) (fun lin h i => hode ▸ OM.omOde_adjoint
      (built_sound linear_built) linear_proper linear_fits v0 hJ lin h _)
  rw [sub_zero] at H H'
  simp only [add_zero] at H H'
  have hE : ∀ opt c t0 H t', AnyEnd opt c t0 H t' → 0 ≤ H := fun _ _ _ _ _ h => h.nonneg
  exact ⟨max C C', min h1 h1', lt_max_of_lt_left hC, lt_min hh1 hh1',
    H.weaken hE (min_le_left _ _) (sub_le_sub_right (min_le_left _ _) _)
      (weaken_err hA.nonneg (le_max_left _ _) (le_max_left _ _)),
    H'.weaken hE (min_le_right _ _) (sub_le_sub_right (min_le_right _ _) _)
      (weaken_err hA.nonneg (le_max_right _ _) (le_max_right _ _))⟩

/-! ### The problem of Prothero and Robinson -/

theorem prothero_entries : entriesOf protheroLayout.outputs = {("_auto_ivc.v0", 0),
    ("_auto_ivc.v1", 0), ("_auto_ivc.v2", 0), ("test_comp.x_stage", 0)} := by decide +kernel

theorem prothero_proper : protheroLayout.Proper := by constructor <;> decide +kernel

theorem prothero_fits : OM.Fits protheroConf protheroLayout := by constructor <;> decide +kernel

theorem prothero_built : OM.Built protheroConf := ⟨protheroProblem, 1, ["x"], [], [protheroMeta], 0,
  prothero_setup, rfl⟩

theorem prothero_rhs (d : OM.Inputs ℝ) :
    OM.inputsToVec protheroConf (-1) d (fun _ _ => 0) "test_comp.x_stage" 0 = 0 := by
  simp [OM.inputsToVec, protheroConf, protheroMeta, OM.writeState, OM.writeTime,
    scalarQuantity, OM.setVar, sourceOf, protheroConn, Function.update]

theorem prothero_output (x : OM.Vec ℝ) (f : ℕ → ℝ) :
    OM.vecToOutputs protheroConf x f 0 = x "test_comp.x_stage" 0 := by
  simp [OM.vecToOutputs, protheroConf, protheroMeta, scalarQuantity, OM.getVar]

theorem diagonal_solve {I : Finset (String × ℕ)} {x b : OM.Vec ℝ} {v : OM.Vectors ℝ} {h a : ℝ}
    (key : Solves I (protheroJac v h a) x b) {e : String × ℕ} (he : e ∈ I) :
    x e.1 e.2 = -b e.1 e.2 := by
  have k := key e he
  rw [Finset.sum_eq_single e (fun e' _ hne => by rw [protheroJac, if_neg hne.symm, zero_mul])
    (fun h => absurd he h), protheroJac, if_pos rfl] at k
  linarith

/-- All derivative calls give zero. -/
theorem prothero_derivative {lam : ℝ} {fwd rev}
    (hJ : SolvesLinear protheroLayout (protheroEnv lam fwd rev) protheroJac)
    (v0 : OM.Vectors ℝ) (lin : Fin (OM.pointSize protheroLayout) → ℝ) (d : OdeInput ℝ 1 0)
    (h a : ℝ) : ((protheroOde lam fwd rev v0).computeUpdateDerivative lin d h a).stageUpdate = 0 := by
  funext i
  obtain rfl : i = 0 := Subsingleton.elim _ _
  have key := diagonal_solve (hJ.fwd (OM.setPoint protheroLayout (List.ofFn lin) v0) h a
    (OM.inputsToVec protheroConf (-1) (OM.toInputs d) (fun _ _ => 0)))
    (e := ("test_comp.x_stage", 0)) (by decide +kernel)
  dsimp only at key
  rw [prothero_rhs, neg_zero] at key
  exact (prothero_output _ (fun _ => 0)).trans key

/-- If the derivative calls give zero, steps do not change the direction. -/
theorem fwd_steps_zero {s n m o l : ℕ} {E : Env s n m o l} {p π : Fin m → ℝ} {τ t t' : ℝ}
    {hs : List ℝ} {z z' : (Fin n → ℝ) × (Fin n → ℝ)}
    (h0 : ∀ lin d h a, (E.ode.computeUpdateDerivative lin d h a).stageUpdate = 0)
    (h : IsSteps (FwdStepOf E p τ π) t z hs t' z') : z'.2 = z.2 := by
  induction h with
  | nil => rfl
  | @cons t y h y₁ hs t' y' hst _ ih =>
    rw [ih]
    obtain ⟨st, pert, -, -, -, -, h2, -, -, h3⟩ := hst
    have hrd := computeStepDerivative_result E.T E.ode (computeStep E.T E.ode st h) pert h
    rw [h3, hrd.finalState, ← h2]
    funext x
    rw [accumulateStep_apply]
    have e : ∀ i, (computeStepDerivative E.T E.ode (computeStep E.T E.ode st h) pert
        h).stageUpdates i = 0 := fun i => (hrd.update i).trans (h0 _ _ _ _)
    simp [e]

theorem prothero_transposed {lam : ℝ} {fwd rev}
    (hJ : SolvesLinear protheroLayout (protheroEnv lam fwd rev) protheroJac) (v0 : OM.Vectors ℝ)
    (lin : Fin (OM.pointSize protheroLayout) → ℝ) (h a : ℝ) :
    AdjointPair (protheroOde lam fwd rev v0) lin h a :=
  OM.omOde_adjoint (built_sound prothero_built) prothero_proper prothero_fits v0 hJ lin h a

/-- The reverse products of a backend whose forward products are the seeds. -/
theorem reverse_zero {D : Type} {s n m o l : ℕ} {E : Env s n m o l}
    {B : Backend D (StartingValues ℝ n m) (Outputs n)} (C : RKCore B E)
    (W : Lawful B) (hW : ∀ a b, W.obs a = W.obs b → rkObs (C.core a) = rkObs (C.core b))
    (hz : NoStageState E.ode) (hadj : ∀ lin h i, AdjointPair E.ode lin h (E.T.A i i))
    {R : Restore D} {clean : D → Prop} {End : Options → Ctrl → ℝ → ℝ → ℝ → Prop}
    (hhit : ∀ d i, B.cacheHit (B.load d i) i = true)
    (hpy : ∀ {opt : Options} {i dI : StartingValues ℝ n m} {dO : Outputs n} {N fuel : ℕ}
      {sched : Schedule} {e : IState D} {w : World D (PyData D)},
      Legal N sched → opt.crit = .steps (N + 1) → N + 1 < fuel →
      (opt.adaptive = false ∨ ∃ par cfg, w.ctrl = .base par cfg) → w.cached = none →
      clean w.pert → (rev B opt (pyCk B opt R e N sched) fuel w i dO dI).2
        = (rev B opt (allCk B opt) fuel ⟨w.tis, w.pert, w.ctrl, none, [], []⟩ i dO dI).2)
    (hF : ∀ (opt : Options) (H t' : ℝ) (fuel : ℕ) (w w' : World D Unit)
      (i di : StartingValues ℝ n m) (dO v : Outputs n), End opt w.ctrl i.initialTime H t' →
      fwd B opt fuel w i di dO = (w', .ok v) →
      v.time = dO.time + di.initialTime ∧ v.values = di.initialValues)
    {opt : Options} {c : Ctrl} {H t' : ℝ} {i dI g : StartingValues ℝ n m} {dO : Outputs n}
    (he : End opt c i.initialTime H t') (hg : RevResult B R clean opt c i dO dI g) :
    g.initialValues = dO.values := by
  obtain ⟨d, q, tr, k1, k2⟩ := revResult_run (hhit · i) hpy hg
  funext x
  obtain ⟨w, w', fuel, v, rfl, hv, hpair⟩ := reverse_pairing C W hW hz hadj k1 k2
    ⟨0, Pi.single x 1, 0⟩
  obtain ⟨g1, g2⟩ := hF opt H t' fuel w w' i ⟨0, Pi.single x 1, 0⟩ ⟨0, 0⟩ v he hv
  rw [g1, g2] at hpair
  simp [dot, Pi.single_apply] at hpair
  exact hpair.symm

/-- C101 fails for the component of Prothero and Robinson: it has no derivatives, so that forward
products are their seeds, whatever the scheme and the step size, and so are reverse products. The
derivative of the exact solution with respect to the initial value is `exp(lam (t - t0))`, which is
not one unless `lam = 0` or `t = t0`. -/
theorem C101_prothero_robinson_violated {s : ℕ} {lam : ℝ} {sf sr}
    (hJ : SolvesLinear protheroLayout (protheroEnv lam sf sr) protheroJac) (v0 : OM.Vectors ℝ)
    (E : Env s 1 0 0 (OM.pointSize protheroLayout)) (hode : E.ode = protheroOde lam sf sr v0) :
    (∀ (σ : Type) (opt : Options) (H t' : ℝ) (fuel : ℕ)
      (w w' : World (RKState ℝ s 1 0 0 (OM.pointSize protheroLayout)) σ)
      (i di : StartingValues ℝ 1 0) (dO v : Outputs 1), FixedEnd opt w.ctrl i.initialTime H t' →
      fwd (rkBackend E) opt fuel w i di dO = (w', .ok v) → v.values = di.initialValues) ∧
    (∀ (opt : Options) (c : Ctrl) (H t' : ℝ) (i dI g : StartingValues ℝ 1 0) (dO : Outputs 1),
      FixedEnd opt c i.initialTime H t' →
      RevResult (rkBackend E) rkRestore (fun d => d.stageStates = 0) opt c i dO dI g →
      g.initialValues = dO.values) ∧
    (∀ x0 t0 t : ℝ, HasDerivAt (fun x => protheroExact lam x t0 t) (Real.exp (lam * (t - t0))) x0) ∧
    ∀ t0 t : ℝ, lam ≠ 0 → t ≠ t0 → Real.exp (lam * (t - t0)) ≠ 1 := by
  have h0 : ∀ lin d h a, (E.ode.computeUpdateDerivative lin d h a).stageUpdate = 0 :=
    hode ▸ prothero_derivative hJ v0
  have hz : NoStageState E.ode := hode ▸ OM.omOde_noStageState _ _ _ _
  have hF : ∀ (σ : Type) (opt : Options) (H t' : ℝ) (fuel : ℕ)
      (w w' : World (RKState ℝ s 1 0 0 (OM.pointSize protheroLayout)) σ)
      (i di : StartingValues ℝ 1 0) (dO v : Outputs 1), FixedEnd opt w.ctrl i.initialTime H t' →
      fwd (rkBackend E) opt fuel w i di dO = (w', .ok v) →
      v.time = dO.time + di.initialTime ∧ v.values = di.initialValues := by
    intro σ opt H t' fuel w w' i di dO v he hv
    obtain ⟨k1, hs, -, u, k3⟩ := fixed_fwd (rkCore E) (fun _ => rfl) he hv
    exact ⟨k1, fwd_steps_zero h0 k3⟩
  refine ⟨fun σ opt H t' fuel w w' i di dO v he hv => (hF σ opt H t' fuel w w' i di dO v he hv).2,
    fun opt c H t' i dI g dO he hg => ?_, fun x0 t0 t => ?_, fun t0 t hl ht h => ?_⟩
  · refine reverse_zero (rkCore E) (rkLawful E hz) (fun a b h => h) hz
      (fun lin h i => hode ▸ prothero_transposed hJ v0 lin h _)
      (fun d i => by simp [rkBackend, rkCacheHit, rkLoad]) ?_ (hF Unit) he hg
    intro opt i dI dO N fuel sched e w hl hN hf hp hw cw
    exact C33_pyrevolve_reverse_partial E hz hl hN hf hp rfl hw rfl cw cw i dI dO
  · have := (((hasDerivAt_id x0).sub_const (Real.sin (t0 + Real.pi / 4))).mul_const
      (Real.exp (lam * (t - t0)))).const_add (Real.sin (t + Real.pi / 4))
    simpa [protheroExact] using this
  · rw [Real.exp_eq_one_iff, mul_eq_zero, sub_eq_zero] at h
    exact h.elim hl ht

/-- The same with embedded schemes, adaptive runs included. -/
theorem C101_prothero_robinson_embedded_violated {s : ℕ} {lam : ℝ} {sf sr}
    (hJ : SolvesLinear protheroLayout (protheroEnv lam sf sr) protheroJac) (v0 : OM.Vectors ℝ)
    (E : Env s 1 0 0 (OM.pointSize protheroLayout)) (hode : E.ode = protheroOde lam sf sr v0)
    (bhat : Fin s → ℝ) :
    (∀ (σ : Type) (opt : Options) (H t' : ℝ) (fuel : ℕ)
      (w w' : World (EmbRKState ℝ s 1 0 0 (OM.pointSize protheroLayout)) σ)
      (i di : StartingValues ℝ 1 0) (dO v : Outputs 1), AnyEnd opt w.ctrl i.initialTime H t' →
      fwd (embBackend E bhat) opt fuel w i di dO = (w', .ok v) → v.values = di.initialValues) ∧
    (∀ (opt : Options) (c : Ctrl) (H t' : ℝ) (i dI g : StartingValues ℝ 1 0) (dO : Outputs 1),
      AnyEnd opt c i.initialTime H t' →
      RevResult (embBackend E bhat) embRestore (fun d => d.stageStates = 0) opt c i dO dI g →
      g.initialValues = dO.values) := by
  have h0 : ∀ lin d h a, (E.ode.computeUpdateDerivative lin d h a).stageUpdate = 0 :=
    hode ▸ prothero_derivative hJ v0
  have hz : NoStageState E.ode := hode ▸ OM.omOde_noStageState _ _ _ _
  have hF : ∀ (σ : Type) (opt : Options) (H t' : ℝ) (fuel : ℕ)
      (w w' : World (EmbRKState ℝ s 1 0 0 (OM.pointSize protheroLayout)) σ)
      (i di : StartingValues ℝ 1 0) (dO v : Outputs 1), AnyEnd opt w.ctrl i.initialTime H t' →
      fwd (embBackend E bhat) opt fuel w i di dO = (w', .ok v) →
      v.time = dO.time + di.initialTime ∧ v.values = di.initialValues := by
    intro σ opt H t' fuel w w' i di dO v he hv
    obtain ⟨k1, hs, -, u, k3⟩ := any_fwd bhat he hv
    exact ⟨k1, fwd_steps_zero h0 k3⟩
  refine ⟨fun σ opt H t' fuel w w' i di dO v he hv => (hF σ opt H t' fuel w w' i di dO v he hv).2,
    fun opt c H t' i dI g dO he hg => ?_⟩
  refine reverse_zero (embCore E bhat) (embLawful E bhat hz) (fun a b h => h) hz
    (fun lin h i => hode ▸ prothero_transposed hJ v0 lin h _)
    (fun d i => by simp [embBackend, rkCacheHit, rkLoad]) ?_ (hF Unit) he hg
  intro opt i dI dO N fuel sched e w hl hN hf hp hw cw
  exact C33_embedded_pyrevolve_reverse_partial E bhat hz hl hN hf hp rfl hw rfl cw cw i dI dO

end Verif.Props
