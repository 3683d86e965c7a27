/-
Errors of runs for linear problems, independent of the stiffness (C88).

The error along a left eigenvector `w` of the matrix of the problem is bounded by the derivatives of
the component of the solution along `w`, a power of the step size, and constants of the tableau; the
eigenvalue does not occur, so that bounds hold also for step sizes for which the problem is stiff.
-/
import Verif.Stab.StiffShipped
import Verif.Props.Stability
import Verif.Props.TestProblems

namespace Verif.Props

open Verif.RK Verif.RK.Spec Verif.Control Verif.XReal Verif.Integrator Verif.Tableau Verif.Stab
  Verif.Comp
open Classical

variable {s n m o l : ℕ} {f : Rhs ℝ n m} {L : Matrix (Fin n) (Fin n) ℝ}
  {g : ℝ → (Fin m → ℝ) → Fin n → ℝ} {w : Fin n → ℂ} {lam : ℂ}

/-- The implicit tableaux the package ships, with the power of the step size in the error bound, its
constant, and the effect of the rounded coefficients. -/
noncomputable def stiffOrders : List (Tableau ℝ × ℕ × ℚ × ℚ) := [
  (implicitEuler.map (Rat.castHom ℝ), 1, 41 / 10 ^ 1, 0),
  (implicitMidpoint.map (Rat.castHom ℝ), 1, 26 / 10 ^ 1, 0),
  (thirdOrderTwoStageSdirk.map embQ3, 1, 37 / 10 ^ 1, 0),
  (fifthOrderFiveStageSdirk.map (Rat.castHom ℝ), 1, 52, 12 / 10 ^ 25),
  ((embeddedSecondOrderTwoStageSdirk.map embQ2).toTableau, 1, 11, 0),
  ((embeddedSecondOrderThreeStageEsdirk.map embQ2).toTableau, 2, 64 / 10 ^ 1, 0),
  ((embeddedThirdOrderThreeStageSdirk1.map (Rat.castHom ℝ)).toTableau, 1, 31, 0),
  ((embeddedThirdOrderThreeStageSdirk2.map (Rat.castHom ℝ)).toTableau, 1, 40 / 10 ^ 1, 0),
  ((embeddedThirdOrderThreeStageEsdirk.map embQ3r).toTableau, 2, 99 / 10 ^ 1, 0),
  ((embeddedThirdOrderFourStageSdirk.map (Rat.castHom ℝ)).toTableau, 1, 45, 0),
  ((embeddedThirdOrderSecondWeakStageOrderFourStageDirk.map (Rat.castHom ℝ)).toTableau, 2, 200, 38 / 10 ^ 9),
  ((embeddedThirdOrderThirdWeakStageOrderFourStageDirk.map (Rat.castHom ℝ)).toTableau, 3, 1800, 17 / 10 ^ 9),
  ((embeddedThirdOrderFourStageEsdirk.map (Rat.castHom ℝ)).toTableau, 2, 24, 0),
  ((embeddedThirdOrderFiveStageEsdirk.map embQ2).toTableau, 2, 52, 0),
  ((embeddedFourthOrderFourStageSdirk.map (Rat.castHom ℝ)).toTableau, 1, 50, 0),
  ((embeddedFourthOrderFiveStageSdirk.map embQ2).toTableau, 1, 140, 0),
  ((embeddedFourthOrderFiveStageEsdirk.map (Rat.castHom ℝ)).toTableau, 2, 26, 0),
  ((embeddedFourthOrderSixStageEsdirk.map embQ2).toTableau, 2, 77, 0),
  ((embeddedFourthOrderThirdWeakStageOrderSixStageDirk.map (Rat.castHom ℝ)).toTableau, 3, 13000, 83 / 10 ^ 12),
  ((embeddedFifthOrderSixStageEsdirk.map (Rat.castHom ℝ)).toTableau, 2, 120, 86 / 10 ^ 26)]

theorem order_zero {s q : ℕ} {A : Fin s → Fin s → ℝ} {b c : Fin s → ℝ} {C δ : ℝ} {p : Option ℕ}
    (h : StiffOrder 0 C δ q A b c) (hp : p ≠ some 5) : StiffOrder (slack p) C δ q A b c := by
  rw [slack, if_neg hp]
  exact h

theorem order_five {s q : ℕ} {A : Fin s → Fin s → ℝ} {b c : Fin s → ℝ} {C δ : ℝ}
    (h : StiffOrder (1 / 10 ^ 25) C δ q A b c) : StiffOrder (slack (some 5)) C δ q A b c := by
  rw [slack, if_pos rfl]
  exact h

theorem stiffOrders_ok (T : Tableau ℝ) (q : ℕ) (C δ : ℚ) (h : (T, q, C, δ) ∈ stiffOrders) :
    StiffOrder (slack T.p) (C : ℝ) (δ : ℝ) q T.A T.b T.c ∧ 0 ≤ C ∧ 0 ≤ δ := by
  simp only [stiffOrders, List.mem_cons, List.not_mem_nil, or_false, Prod.mk.injEq] at h
  rcases h with ⟨rfl, rfl, rfl, rfl⟩ |
      ⟨rfl, rfl, rfl, rfl⟩ |
      ⟨rfl, rfl, rfl, rfl⟩ |
      ⟨rfl, rfl, rfl, rfl⟩ |
      ⟨rfl, rfl, rfl, rfl⟩ |
      ⟨rfl, rfl, rfl, rfl⟩ |
      ⟨rfl, rfl, rfl, rfl⟩ |
      ⟨rfl, rfl, rfl, rfl⟩ |
      ⟨rfl, rfl, rfl, rfl⟩ |
      ⟨rfl, rfl, rfl, rfl⟩ |
      ⟨rfl, rfl, rfl, rfl⟩ |
      ⟨rfl, rfl, rfl, rfl⟩ |
      ⟨rfl, rfl, rfl, rfl⟩ |
      ⟨rfl, rfl, rfl, rfl⟩ |
      ⟨rfl, rfl, rfl, rfl⟩ |
      ⟨rfl, rfl, rfl, rfl⟩ |
      ⟨rfl, rfl, rfl, rfl⟩ |
      ⟨rfl, rfl, rfl, rfl⟩ |
      ⟨rfl, rfl, rfl, rfl⟩ |
      ⟨rfl, rfl, rfl, rfl⟩
  · exact ⟨order_zero implicitEuler_stiff (by change some 1 ≠ some 5; decide), by norm_num, by norm_num⟩
  · exact ⟨order_zero implicitMidpoint_stiff (by change some 2 ≠ some 5; decide), by norm_num, by norm_num⟩
  · exact ⟨order_zero thirdOrderTwoStageSdirk_stiff (by change some 3 ≠ some 5; decide), by norm_num, by norm_num⟩
  · exact ⟨order_five fifthOrderFiveStageSdirk_stiff, by norm_num, by norm_num⟩
  · exact ⟨order_zero embeddedSecondOrderTwoStageSdirk_stiff (by change some 2 ≠ some 5; decide), by norm_num, by norm_num⟩
  · exact ⟨order_zero embeddedSecondOrderThreeStageEsdirk_stiff (by change some 2 ≠ some 5; decide), by norm_num, by norm_num⟩
  · exact ⟨order_zero embeddedThirdOrderThreeStageSdirk1_stiff (by change some 3 ≠ some 5; decide), by norm_num, by norm_num⟩
  · exact ⟨order_zero embeddedThirdOrderThreeStageSdirk2_stiff (by change some 3 ≠ some 5; decide), by norm_num, by norm_num⟩
  · exact ⟨order_zero embeddedThirdOrderThreeStageEsdirk_stiff (by change some 3 ≠ some 5; decide), by norm_num, by norm_num⟩
  · exact ⟨order_zero embeddedThirdOrderFourStageSdirk_stiff (by change some 3 ≠ some 5; decide), by norm_num, by norm_num⟩
  · exact ⟨order_zero embeddedThirdOrderSecondWeakStageOrderFourStageDirk_stiff (by change some 3 ≠ some 5; decide), by norm_num, by norm_num⟩
  · exact ⟨order_zero embeddedThirdOrderThirdWeakStageOrderFourStageDirk_stiff (by change some 3 ≠ some 5; decide), by norm_num, by norm_num⟩
  · exact ⟨order_zero embeddedThirdOrderFourStageEsdirk_stiff (by change some 3 ≠ some 5; decide), by norm_num, by norm_num⟩
  · exact ⟨order_zero embeddedThirdOrderFiveStageEsdirk_stiff (by change some 3 ≠ some 5; decide), by norm_num, by norm_num⟩
  · exact ⟨order_zero embeddedFourthOrderFourStageSdirk_stiff (by change some 4 ≠ some 5; decide), by norm_num, by norm_num⟩
  · exact ⟨order_zero embeddedFourthOrderFiveStageSdirk_stiff (by change some 4 ≠ some 5; decide), by norm_num, by norm_num⟩
  · exact ⟨order_zero embeddedFourthOrderFiveStageEsdirk_stiff (by change some 4 ≠ some 5; decide), by norm_num, by norm_num⟩
  · exact ⟨order_zero embeddedFourthOrderSixStageEsdirk_stiff (by change some 4 ≠ some 5; decide), by norm_num, by norm_num⟩
  · exact ⟨order_zero embeddedFourthOrderThirdWeakStageOrderSixStageDirk_stiff (by change some 4 ≠ some 5; decide), by norm_num, by norm_num⟩
  · exact ⟨order_five embeddedFifthOrderSixStageEsdirk_stiff, by norm_num, by norm_num⟩

/-- The list covers all shipped tableaux that are not explicit. -/
theorem C88_list_complete :
    (∀ e ∈ plainShipped, StrictlyLower e.tab.A ∨ ∃ q C δ, (e.tab, q, C, δ) ∈ stiffOrders) ∧
    ∀ e ∈ embShipped, StrictlyLower e.tab.A ∨
      ∃ q C δ, (e.tab.toTableau, q, C, δ) ∈ stiffOrders := by
  constructor <;> intro e he
  · simp only [plainShipped, List.mem_cons, List.not_mem_nil, or_false] at he
    rcases he with rfl | rfl | rfl | rfl | rfl | rfl
    · exact .inl (strictly_map explicitEuler_strictly)
    · exact .inr ⟨1, 41 / 10 ^ 1, 0, by simp [stiffOrders]⟩
    · exact .inr ⟨1, 26 / 10 ^ 1, 0, by simp [stiffOrders]⟩
    · exact .inr ⟨1, 37 / 10 ^ 1, 0, by simp [stiffOrders]⟩
    · exact .inl (strictly_map rungeKuttaFour_strictly)
    · exact .inr ⟨1, 52, 12 / 10 ^ 25, by simp [stiffOrders]⟩
  · simp only [embShipped, List.mem_cons, List.not_mem_nil, or_false] at he
    rcases he with rfl | rfl | rfl | rfl | rfl | rfl | rfl | rfl | rfl |
      rfl | rfl | rfl | rfl | rfl | rfl | rfl | rfl | rfl
    · exact .inl (strictly_map (T := embeddedHeunEuler.toTableau) heunEuler_strictly)
    · exact .inr ⟨1, 11, 0, by simp [stiffOrders]⟩
    · exact .inr ⟨2, 64 / 10 ^ 1, 0, by simp [stiffOrders]⟩
    · exact .inr ⟨1, 31, 0, by simp [stiffOrders]⟩
    · exact .inr ⟨1, 40 / 10 ^ 1, 0, by simp [stiffOrders]⟩
    · exact .inr ⟨2, 99 / 10 ^ 1, 0, by simp [stiffOrders]⟩
    · exact .inr ⟨1, 45, 0, by simp [stiffOrders]⟩
    · exact .inr ⟨2, 200, 38 / 10 ^ 9, by simp [stiffOrders]⟩
    · exact .inr ⟨3, 1800, 17 / 10 ^ 9, by simp [stiffOrders]⟩
    · exact .inr ⟨2, 24, 0, by simp [stiffOrders]⟩
    · exact .inr ⟨2, 52, 0, by simp [stiffOrders]⟩
    · exact .inr ⟨1, 50, 0, by simp [stiffOrders]⟩
    · exact .inr ⟨1, 140, 0, by simp [stiffOrders]⟩
    · exact .inr ⟨2, 26, 0, by simp [stiffOrders]⟩
    · exact .inr ⟨2, 77, 0, by simp [stiffOrders]⟩
    · exact .inr ⟨3, 13000, 83 / 10 ^ 12, by simp [stiffOrders]⟩
    · exact .inl (strictly_map (T := embeddedRungeKuttaFehlberg.toTableau) fehlberg_strictly)
    · exact .inr ⟨2, 120, 86 / 10 ^ 26, by simp [stiffOrders]⟩

/-- A run over `N` fixed steps of size `dt` with the plain or the embedded integrator. -/
inductive OneRun (E : Env s n m o l) (dt : ℝ) (N : ℕ) (i : StartingValues ℝ n m) (v : Outputs n) :
    Prop
  | plain (h : FixedRun (rkBackend E) rkRestore dt i v N) : OneRun E dt N i v
  | embedded {bhat : Fin s → ℝ} (h : FixedRun (embBackend E bhat) embRestore dt i v N) :
      OneRun E dt N i v

theorem OneRun.trajectory {E : Env s n m o l} {dt : ℝ} {N : ℕ} {i : StartingValues ℝ n m}
    {v : Outputs n} (h : OneRun E dt N i v) (hT : LowerTriangular E.T.A)
    (hs : ∀ i, SolvesStage E.ode f dt (E.T.A i i)) :
    IsTrajectory E.T.A E.T.b E.T.c f i.independentInputs i.initialTime i.initialValues
      (List.replicate N dt) v.time v.values := by
  cases h with
  | plain h => exact steps_trajectory hT h.plain (replicate_solves hs)
  | embedded h => exact steps_trajectory hT h.embedded (replicate_solves hs)

/-- C88, fixed steps of any size, to a number of steps, a final time or with pyrevolve: along every
left eigenvector with an eigenvalue in the left half plane the error is at most that of the initial
values plus `M (C dt^q + δ ∑ dt^k)` per unit of time, where `M` bounds the derivatives of the
component of the solution. The constants do not depend on the problem. The scheme of order five may
enlarge errors by a factor `1 + 1e-25` per step. -/
theorem C88_linear (T : Tableau ℝ) (q : ℕ) (C δ : ℚ) (hTq : (T, q, C, δ) ∈ stiffOrders)
    {E : Env T.stages n m o l} (hE : E.T = T.coeffs) (hf : IsAffine f L g)
    (hw : LeftEigen L w lam) (hl : lam.re ≤ 0) {dt : ℝ} (hdt : 0 ≤ dt)
    (hs : ∀ i, SolvesStage E.ode f dt (E.T.A i i)) {N : ℕ} {i : StartingValues ℝ n m}
    {v : Outputs n} (h : OneRun E dt N i v) {y : ℝ → Fin n → ℝ} {t1 : ℝ}
    (hy : IsSolution f i.independentInputs y i.initialTime t1) {η : ℕ → ℝ → ℂ} {M : ℝ}
    (hη : AlongDerivs w y η q M i.initialTime t1) (h01 : i.initialTime < t1)
    (ht1 : i.initialTime + N * dt + 2 * dt ≤ t1) :
    v.time = i.initialTime + N * dt ∧
    ‖along w (v.values - y v.time)‖ ≤ (1 + slack T.p) ^ N *
      (‖along w (i.initialValues - y i.initialTime)‖
        + M * (N * dt) * (C * dt ^ q + δ * ∑ k ∈ Finset.range q, dt ^ k)) := by
  obtain ⟨hO, hC, hδ⟩ := stiffOrders_ok T q C δ hTq
  have htr := h.trajectory (f := f) (by rw [hE]; exact hO.lower) hs
  have htime := htr.time
  rw [List.sum_replicate, nsmul_eq_mul] at htime
  refine ⟨htime, ?_⟩
  have hO' : StiffOrder (slack T.p) (C : ℝ) (δ : ℝ) q E.T.A E.T.b E.T.c := by rw [hE]; exact hO
  have := hO'.trajectory (slack_nonneg _) (by exact_mod_cast hC) (by exact_mod_cast hδ) hf hw hl hη
    h01 hy (H := dt) (fun x hx => by rw [List.eq_of_mem_replicate hx]; exact ⟨hdt, le_rfl⟩) le_rfl
    (by rw [htime]; exact ht1) htr
  rw [List.length_replicate] at this
  refine this.trans (le_of_eq ?_)
  rw [show v.time - i.initialTime = N * dt by rw [htime]; ring]

/-- C88 for adaptive runs to a final time `Tf`, except for the scheme of order five: whatever steps
up to `u` are chosen. -/
theorem C88_linear_adaptive (T : Tableau ℝ) (q : ℕ) (C δ : ℚ) (hTq : (T, q, C, δ) ∈ stiffOrders)
    (h5 : T.p ≠ some 5) {E : Env T.stages n m o l} (hE : E.T = T.coeffs) {bhat : Fin T.stages → ℝ}
    (hf : IsAffine f L g) (hw : LeftEigen L w lam) (hl : lam.re ≤ 0) {Tf u : ℝ}
    (hs : ∀ h, 0 ≤ h → h ≤ u → ∀ i, SolvesStage E.ode f h (E.T.A i i))
    {i : StartingValues ℝ n m} {v : Outputs n} (h : AdaptiveRun E bhat Tf u i v)
    {y : ℝ → Fin n → ℝ} {t1 : ℝ} (hy : IsSolution f i.independentInputs y i.initialTime t1)
    {η : ℕ → ℝ → ℂ} {M : ℝ} (hη : AlongDerivs w y η q M i.initialTime t1)
    (h01 : i.initialTime < t1) (ht1 : v.time + 2 * u ≤ t1) :
    ‖along w (v.values - y v.time)‖ ≤ ‖along w (i.initialValues - y i.initialTime)‖
      + M * (v.time - i.initialTime) * (C * u ^ q + δ * ∑ k ∈ Finset.range q, u ^ k) := by
  obtain ⟨hO, hC, hδ⟩ := stiffOrders_ok T q C δ hTq
  obtain ⟨hs', g1, g2⟩ := h.isSteps
  have htr := steps_trajectory (f := f) (by rw [hE]; exact hO.lower) g2
    fun h hh => hs h (g1 h hh).1 (g1 h hh).2
  have hO' : StiffOrder 0 (C : ℝ) (δ : ℝ) q E.T.A E.T.b E.T.c := by
    rw [slack, if_neg h5] at hO
    rw [hE]
    exact hO
  have := hO'.trajectory le_rfl (by exact_mod_cast hC) (by exact_mod_cast hδ) hf hw hl hη h01 hy
    g1 le_rfl ht1 htr
  simpa using this

/-! ### The problem of Prothero and Robinson -/

/-- The derivatives of `sin(t + π/4)`. -/
noncomputable def sinDerivs (k : ℕ) (t : ℝ) : ℂ := (Real.sin (t + Real.pi / 4 + k * (Real.pi / 2)) : ℝ)

theorem sinDerivs_bounded (q : ℕ) (t0 t1 : ℝ) : BoundedDerivs sinDerivs q 1 t0 t1 := by
  refine ⟨fun k _ t _ => ?_, fun k _ _ t _ => ?_⟩
  · refine HasDerivAt.hasDerivWithinAt ?_
    have h1 : HasDerivAt (fun t : ℝ => Real.sin (t + Real.pi / 4 + k * (Real.pi / 2)))
        (Real.cos (t + Real.pi / 4 + k * (Real.pi / 2))) t := by
      have := (((hasDerivAt_id t).add_const (Real.pi / 4)).add_const (k * (Real.pi / 2))).sin
      simpa using this
    refine h1.ofReal_comp.congr_deriv ?_
    rw [sinDerivs]
    congr 1
    rw [← Real.sin_add_pi_div_two]
    congr 1
    push_cast
    ring
  · rw [sinDerivs, Complex.norm_real]
    exact Real.abs_sin_le_one _

theorem along_one (y : Fin 1 → ℝ) : along ![1] y = (y 0 : ℂ) := by
  simp [along]

theorem norm_along_one (y : Fin 1 → ℝ) : ‖along ![1] y‖ = ‖y‖ := by
  rw [along_one, Complex.norm_real]
  refine le_antisymm (norm_le_pi_norm y 0) ((pi_norm_le_iff_of_nonneg (norm_nonneg _)).mpr fun x => ?_)
  obtain rfl : x = 0 := Subsingleton.elim _ _
  exact le_rfl

theorem prothero_along (q : ℕ) (t0 t1 : ℝ) :
    AlongDerivs ![1] (fun t _ => Real.sin (t + Real.pi / 4)) sinDerivs q 1 t0 t1 :=
  ⟨sinDerivs_bounded q t0 t1, fun t _ => by rw [along_one, sinDerivs]; simp⟩

theorem prothero_affine (lam : ℝ) : IsAffine (protheroRhs lam) (fun _ _ => lam) fun t _ _ =>
    -lam * Real.sin (t + Real.pi / 4) + Real.cos (t + Real.pi / 4) := fun t y p x => by
  simp only [protheroRhs, Fin.sum_univ_one]
  ring

theorem prothero_eigen (lam : ℝ) : LeftEigen (fun _ _ : Fin 1 => lam) ![1] (lam : ℂ) := fun x => by
  obtain rfl : x = 0 := Subsingleton.elim _ _
  simp

theorem prothero_smooth_solution (lam t0 t1 : ℝ) :
    IsSolution (protheroRhs lam) ![] (fun t _ => Real.sin (t + Real.pi / 4)) t0 t1 := by
  have := prothero_isSolution lam (Real.sin (t0 + Real.pi / 4)) t0 t1
  simpa [protheroExact] using this

/-- The stage equations can be solved for all steps when `λ ≤ 0`. -/
theorem prothero_denominator {T : Tableau ℝ} {q : ℕ} {C δ : ℚ} (h : (T, q, C, δ) ∈ stiffOrders)
    {lam x : ℝ} (hl : lam ≤ 0) (hx : 0 ≤ x) (i : Fin T.stages) : 1 - lam * x * T.A i i ≠ 0 := by
  have h1 : 0 ≤ T.A i i := by
    rcases (stiffOrders_ok T q C δ h).1.stages i with h | h
    · exact h.le
    · exact (h.1 i).ge
  have h2 : lam * x * T.A i i ≤ 0 :=
    mul_nonpos_of_nonpos_of_nonneg (mul_nonpos_of_nonpos_of_nonneg hl hx) h1
  linarith

theorem prothero_stiff_error {T : Tableau ℝ} {q : ℕ} {C δ : ℚ} (hTq : (T, q, C, δ) ∈ stiffOrders)
    (h5 : T.p ≠ some 5) {lam : ℝ} (hl : lam ≤ 0) (t0 t1 d r : ℝ) {fwd rev}
    {E : Env T.stages 1 0 0 (OM.pointSize protheroLayout)} (hE : E.T = T.coeffs)
    (hev : Evaluates E.ode (protheroOde lam fwd rev)) :
    StepError E ![] (fun t _ => Real.sin (t + Real.pi / 4)) t0 t1 d r fun e0 H =>
      e0 + (t1 - t0) * (C * H ^ q + δ * ∑ k ∈ Finset.range q, H ^ k) := by
  intro H t' u u' hs hH _ hb hst ht1 _
  obtain ⟨hO, hC, hδ⟩ := stiffOrders_ok T q C δ hTq
  have hC' : (0 : ℝ) ≤ C := by exact_mod_cast hC
  have hδ' : (0 : ℝ) ≤ δ := by exact_mod_cast hδ
  have hO' : StiffOrder 0 (C : ℝ) (δ : ℝ) q E.T.A E.T.b E.T.c := by
    rw [slack, if_neg h5] at hO
    rw [hE]
    exact hO
  have htr := steps_trajectory (f := protheroRhs lam) (by rw [hE]; exact hO.lower) hst
    fun h hh i => by
      refine prothero_solves hev ?_
      have := prothero_denominator hTq hl (hb h hh).1
      rw [hE]
      exact this i
  have htime := htr.time
  have hsum : 0 ≤ hs.sum := List.sum_nonneg fun x hx => (hb x hx).1
  have h2 := hO'.trajectory le_rfl hC' hδ' (prothero_affine lam) (prothero_eigen lam)
    (by simpa using hl) (prothero_along q t0 (t' + 2 * H + 1)) (by linarith)
    (prothero_smooth_solution lam t0 _) hb le_rfl (by linarith) htr
  rw [norm_along_one, norm_along_one, add_zero, one_pow, one_mul, one_mul] at h2
  refine h2.trans (add_le_add_right (mul_le_mul_of_nonneg_right (by linarith) ?_) _)
  have : 0 ≤ ∑ k ∈ Finset.range q, H ^ k := Finset.sum_nonneg fun k _ => pow_nonneg hH k
  positivity

/-- C88, the problem of Prothero and Robinson, implicit plain tableaux except for the scheme of
order five: one bound holds for all parameters `λ ≤ 0`, all step sizes and all runs; `e0` is the
distance of the initial values to `sin(t0 + π/4)`. -/
theorem C88_prothero_robinson (T : Tableau ℝ) (q : ℕ) (C δ : ℚ) (hTq : (T, q, C, δ) ∈ stiffOrders)
    (h5 : T.p ≠ some 5) {lam : ℝ} (hl : lam ≤ 0) (t0 t1 d r : ℝ) {fwd rev}
    {E : Env T.stages 1 0 0 (OM.pointSize protheroLayout)} (hE : E.T = T.coeffs)
    (hev : Evaluates E.ode (protheroOde lam fwd rev)) :
    PlainRuns E ![] (fun t _ => Real.sin (t + Real.pi / 4)) t0 t1 d r fun e0 h =>
      e0 + (t1 - t0) * (C * h ^ q + δ * ∑ k ∈ Finset.range q, h ^ k) :=
  (prothero_stiff_error hTq h5 hl t0 t1 d r hE hev).plain

/-- C88, the problem of Prothero and Robinson with the embedded integrator, also adaptive. -/
theorem C88_prothero_robinson_embedded (T : Tableau ℝ) (q : ℕ) (C δ : ℚ)
    (hTq : (T, q, C, δ) ∈ stiffOrders) (h5 : T.p ≠ some 5) {lam : ℝ} (hl : lam ≤ 0)
    (t0 t1 d r : ℝ) {fwd rev} {E : Env T.stages 1 0 0 (OM.pointSize protheroLayout)}
    {bhat : Fin T.stages → ℝ} (hE : E.T = T.coeffs)
    (hev : Evaluates E.ode (protheroOde lam fwd rev)) :
    EmbRuns E bhat ![] (fun t _ => Real.sin (t + Real.pi / 4)) t0 t1 d r fun e0 h =>
      e0 + (t1 - t0) * (C * h ^ q + δ * ∑ k ∈ Finset.range q, h ^ k) :=
  (prothero_stiff_error hTq h5 hl t0 t1 d r hE hev).emb bhat

/-- C88, the problem of Prothero and Robinson with all implicit tableaux, fixed steps. -/
theorem C88_prothero_robinson_fixed (T : Tableau ℝ) (q : ℕ) (C δ : ℚ)
    (hTq : (T, q, C, δ) ∈ stiffOrders) {lam : ℝ} (hl : lam ≤ 0) {fwd rev}
    {E : Env T.stages 1 0 0 (OM.pointSize protheroLayout)} (hE : E.T = T.coeffs)
    (hev : Evaluates E.ode (protheroOde lam fwd rev)) {dt : ℝ} (hdt : 0 ≤ dt) {N : ℕ}
    {i : StartingValues ℝ 1 0} {v : Outputs 1} (h : OneRun E dt N i v) :
    |v.values 0 - Real.sin (v.time + Real.pi / 4)| ≤ (1 + slack T.p) ^ N *
      (|i.initialValues 0 - Real.sin (i.initialTime + Real.pi / 4)|
        + N * dt * (C * dt ^ q + δ * ∑ k ∈ Finset.range q, dt ^ k)) := by
  have hN : 0 ≤ N * dt := by positivity
  have hp : i.independentInputs = ![] := Subsingleton.elim _ _
  have h1 := (C88_linear T q C δ hTq hE (prothero_affine lam) (prothero_eigen lam) (by simpa using hl)
    hdt (fun i => by
      refine prothero_solves hev ?_
      have := prothero_denominator hTq hl hdt
      rw [hE]
      exact this i) h (t1 := i.initialTime + N * dt + 2 * dt + 1)
    (by rw [hp]; exact prothero_smooth_solution lam _ _) (prothero_along q _ _) (by linarith)
    (by linarith)).2
  simpa only [along_one, Pi.sub_apply, Complex.norm_real, Real.norm_eq_abs, one_mul] using h1

/-! ### The names of the tableaux -/

theorem weak_of_check {s q : ℕ} {A : Fin s → Fin s → ℚ} {b c : Fin s → ℚ} {ε : ℚ}
    (h : ∀ j < s, ∀ k < q,
      ratUp (∑ i : Fin s, (rowPow A b j).getD i 0 * residualIn A c k i) ≤ ε) :
    WeakStageOrder (ε : ℝ) q (fun i j => Rat.castHom ℝ (A i j)) (fun i => Rat.castHom ℝ (b i))
      (fun i => Rat.castHom ℝ (c i)) := fun k hk j hj => by
  have e : (ratUp (∑ i : Fin s, (rowPow A b j).getD i 0 * residualIn A c k i) : ℝ) ≤ ε := by
    exact_mod_cast h j hj k hk
  have e' := (ratUp_sound _).trans e
  rw [map_sum] at e'
  rw [Matrix.dotProduct_mulVec, dotProduct]
  have : ∑ i, Matrix.vecMul (fun i => Rat.castHom ℝ (b i))
        (Matrix.of (fun i j => Rat.castHom ℝ (A i j)) ^ j) i
        * residual (fun i j => Rat.castHom ℝ (A i j)) (fun i => Rat.castHom ℝ (c i)) k i
      = ∑ i : Fin s, Rat.castHom ℝ ((rowPow A b j).getD i 0 * residualIn A c k i) :=
    Finset.sum_congr rfl fun i _ => by rw [map_mul, rowPow_map, residualIn_map]
  rw [this]
  exact e'

/-- C88: the three tableaux with a weak stage order in their names have it, up to the digits of
their coefficients: `b A^j (A c^k - c^(k+1)/(k+1))` vanishes for all `j` and `k` less than it. -/
theorem C88_weak_stage_order :
    (let T := embeddedThirdOrderSecondWeakStageOrderFourStageDirk.map (Rat.castHom ℝ);
      WeakStageOrder ((1 / 10 ^ 11 : ℚ) : ℝ) 2 T.A T.b T.c) ∧
    (let T := embeddedThirdOrderThirdWeakStageOrderFourStageDirk.map (Rat.castHom ℝ);
      WeakStageOrder ((1 / 10 ^ 10 : ℚ) : ℝ) 3 T.A T.b T.c) ∧
    (let T := embeddedFourthOrderThirdWeakStageOrderSixStageDirk.map (Rat.castHom ℝ);
      WeakStageOrder ((1 / 10 ^ 15 : ℚ) : ℝ) 3 T.A T.b T.c) :=
  ⟨weak_of_check (A := embeddedThirdOrderSecondWeakStageOrderFourStageDirk.A)
      (b := embeddedThirdOrderSecondWeakStageOrderFourStageDirk.b)
      (c := embeddedThirdOrderSecondWeakStageOrderFourStageDirk.c) (by decide +kernel),
    weak_of_check (A := embeddedThirdOrderThirdWeakStageOrderFourStageDirk.A)
      (b := embeddedThirdOrderThirdWeakStageOrderFourStageDirk.b)
      (c := embeddedThirdOrderThirdWeakStageOrderFourStageDirk.c) (by decide +kernel),
    weak_of_check (A := embeddedFourthOrderThirdWeakStageOrderSixStageDirk.A)
      (b := embeddedFourthOrderThirdWeakStageOrderSixStageDirk.b)
      (c := embeddedFourthOrderThirdWeakStageOrderSixStageDirk.c) (by decide +kernel)⟩

/-! ### Examples -/

namespace StiffEx

def noSolve : OM.Vectors ℝ → ℝ → ℝ → OM.Vec ℝ → OM.Vec ℝ := fun _ _ _ x => x

/-- The problem of Prothero and Robinson with a tableau. -/
noncomputable def env (T : Tableau ℝ) (lam : ℝ) : Env T.stages 1 0 0 (OM.pointSize protheroLayout) where
  T := T.coeffs
  ode := protheroOde lam noSolve noSolve ⟨fun _ _ => 0, fun _ _ => 0⟩
  fails _ _ := none
  nonfinite _ _ := .error .backend
  measure _ _ := 0

/-- Implicit Euler with one hundred steps of size `0.01` and any `λ ≤ 0`. -/
example (lam : ℝ) (hl : lam ≤ 0) : ∃ v : Outputs 1,
    OneRun (env (implicitEuler.map (Rat.castHom ℝ)) lam) 0.01 100
      ⟨0, fun _ => Real.sin (Real.pi / 4), ![]⟩ v ∧
    |v.values 0 - Real.sin (v.time + Real.pi / 4)| ≤ 0.041 := by
  obtain ⟨v, hv⟩ := InvariantEx.fixed_ok (env (implicitEuler.map (Rat.castHom ℝ)) lam) (fun _ _ => rfl) 0.01 100
    ⟨0, fun _ => Real.sin (Real.pi / 4), ![]⟩
  refine ⟨v, .plain hv, ?_⟩
  have h := C88_prothero_robinson_fixed (implicitEuler.map (Rat.castHom ℝ)) 1 (41 / 10 ^ 1) 0
    List.mem_cons_self hl (E := env _ lam) rfl (fun z h a => ⟨_, rfl⟩) (by norm_num) (.plain hv)
  have h2 : slack (implicitEuler.map (Rat.castHom ℝ)).p = 0 := if_neg (by decide)
  rw [h2] at h
  norm_num at h ⊢
  exact h

/-- The embedded scheme of order three and weak stage order three, adaptive, with steps up to one
half: the bound is the same for all `λ ≤ 0`. -/
example (lam : ℝ) (hl : lam ≤ 0) :
    let T := embeddedThirdOrderThirdWeakStageOrderFourStageDirk.map (Rat.castHom ℝ)
    ∃ v : Outputs 1, AdaptiveRun (env T.toTableau lam) T.bhat 1 (1 / 2)
      ⟨0, fun _ => Real.sin (Real.pi / 4), ![]⟩ v ∧
      ‖along ![1] (v.values - fun _ => Real.sin (v.time + Real.pi / 4))‖
        ≤ 1 * (v.time - 0) * (((1800 : ℚ) : ℝ) * (1 / 2) ^ 3
          + ((17 / 10 ^ 9 : ℚ) : ℝ) * ∑ k ∈ Finset.range 3, (1 / 2 : ℝ) ^ k) := by
  intro T
  obtain ⟨v, hv⟩ := StabEx.adaptive_run (env T.toTableau lam) (fun _ _ => rfl) (fun _ _ => rfl)
    T.bhat ⟨0, fun _ => Real.sin (Real.pi / 4), ![]⟩
  rw [show (0 : ℝ) + 1 = 1 by norm_num] at hv
  refine ⟨v, hv, ?_⟩
  have hm : (T.toTableau, 3, (1800 : ℚ), (17 / 10 ^ 9 : ℚ)) ∈ stiffOrders := by
    simp [stiffOrders, T]
  have h := C88_linear_adaptive T.toTableau 3 1800 (17 / 10 ^ 9) hm
    (by change some 3 ≠ some 5; decide) (E := env T.toTableau lam) rfl (bhat := T.bhat)
    (prothero_affine lam) (prothero_eigen lam) (by simpa using hl)
    (fun h h0 _ i => prothero_solves (fun z h a => ⟨_, rfl⟩) (prothero_denominator hm hl h0 i)) hv
    (t1 := max (v.time + 2 * (1 / 2)) 1) (prothero_smooth_solution lam _ _)
    (prothero_along 3 _ _) (lt_max_of_lt_right (by norm_num)) (le_max_left _ _)
  refine h.trans (le_of_eq ?_)
  have : ((fun _ => Real.sin (Real.pi / 4)) - fun _ => Real.sin ((0 : ℝ) + Real.pi / 4) : Fin 1 → ℝ)
      = 0 := by
    funext x
    simp
  rw [this]
  simp [along]

/-- The oscillator along the eigenvector `(i, 1)`: the component of the solution is `exp(i t)`. -/
theorem osc_along (q : ℕ) (t0 t1 : ℝ) : AlongDerivs ![Complex.I, 1]
    (fun t => ![Real.sin t, Real.cos t]) (fun k t => Complex.I ^ k * Complex.exp (t * Complex.I)) q 1
    t0 t1 := by
  refine ⟨⟨fun k _ t _ => ?_, fun k _ _ t _ => ?_⟩, fun t _ => ?_⟩
  · refine HasDerivAt.hasDerivWithinAt ?_
    have h1 : HasDerivAt (fun t : ℝ => (t : ℂ) * Complex.I) (1 * Complex.I) t :=
      Complex.ofRealCLM.hasDerivAt.mul_const _
    have h2 := (h1.cexp).const_mul (Complex.I ^ k)
    refine h2.congr_deriv ?_
    rw [pow_succ]
    ring
  · simp
  · rw [Complex.exp_mul_I]
    simp [along, Fin.sum_univ_two]
    ring

theorem osc_solution (t0 t1 : ℝ) (p : Fin 1 → ℝ) :
    IsSolution StabEx.oscRhs p (fun t => ![Real.sin t, Real.cos t]) t0 t1 := fun t _ => by
  rw [hasDerivWithinAt_pi]
  intro x
  fin_cases x
  · exact (Real.hasDerivAt_sin t).hasDerivWithinAt
  · exact (Real.hasDerivAt_cos t).hasDerivWithinAt

/-- The oscillator with the implicit midpoint rule. -/
example (dt : ℝ) (hdt : 0 ≤ dt) (N : ℕ) : ∃ v : Outputs 2,
    OneRun (StabEx.osc (implicitMidpoint.map (Rat.castHom ℝ))) dt N ⟨0, ![0, 1], fun _ => 0⟩ v ∧
    ‖along ![Complex.I, 1] (v.values - ![Real.sin v.time, Real.cos v.time])‖
      ≤ N * dt * (((26 / 10 ^ 1 : ℚ) : ℝ) * dt) := by
  obtain ⟨v, hv⟩ := InvariantEx.fixed_ok (StabEx.osc (implicitMidpoint.map (Rat.castHom ℝ)))
    (fun _ _ => rfl) dt N ⟨0, ![0, 1], fun _ => 0⟩
  refine ⟨v, .plain hv, ?_⟩
  have hN : 0 ≤ N * dt := by positivity
  have h := (C88_linear (implicitMidpoint.map (Rat.castHom ℝ)) 1 (26 / 10 ^ 1) 0
    (List.mem_cons_of_mem _ List.mem_cons_self) (E := StabEx.osc _) rfl StabEx.osc_affine
    StabEx.osc_eigen (by simp) hdt (fun i => StabEx.osc_solves _ _ _) (.plain hv)
    (t1 := N * dt + 2 * dt + 1) (osc_solution _ _ _) (osc_along 1 _ _) (by dsimp only; linarith)
    (by dsimp only; linarith)).2
  have h2 : slack (implicitMidpoint.map (Rat.castHom ℝ)).p = 0 := if_neg (by decide)
  have h3 : (![0, 1] - ![Real.sin 0, Real.cos 0] : Fin 2 → ℝ) = 0 := by
    funext x
    fin_cases x <;> simp
  dsimp only at h
  rw [h2, h3] at h
  have h4 : along ![Complex.I, 1] (0 : Fin 2 → ℝ) = 0 := by simp [along]
  rw [h4] at h
  simpa using h

end StiffEx

end Verif.Props
