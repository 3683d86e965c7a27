/-
The size of the error estimates of embedded schemes (C71).
-/
import Verif.Conv.Estimate
import Verif.Props.Inexact

namespace Verif.Props

open Verif.RK Verif.RK.Spec Verif.Control Verif.XReal Verif.Integrator Verif.Tableau
open Classical

variable {s n m o l : ℕ}

/-- The step with the embedded weights. -/
def withWeights (T : Coeffs ℝ s) (bhat : Fin s → ℝ) : Coeffs ℝ s := ⟨T.A, bhat, T.c⟩

theorem Accurate.mono {T : Coeffs ℝ s} {β ε : ℝ} {q q' : ℕ} (h : Accurate T β ε q) (hq : q' ≤ q) :
    Accurate T β ε q' :=
  ⟨h.lower, h.nonneg, h.weights, h.rows, fun t ht => h.order t (ht.trans hq)⟩

/-- The state after a step of the embedded discretization. -/
theorem emb_step_fields {E : Env s n m o l} {bhat : Fin s → ℝ} {d d' : EmbRKState ℝ s n m o l}
    {h : ℝ} (hst : (embBackend E bhat).step d (fin h) = .ok d') :
    StepResult E.T E.ode h d.finalTime d.finalState d.independentInputs d'.toRKState ∧
    d'.finalState = d.finalState + h • ∑ i, E.T.b i • d'.stageUpdates i ∧
    d'.embeddedState = d.finalState + h • ∑ i, bhat i • d'.stageUpdates i ∧
    d'.errorEstimate = h • ∑ i, (E.T.b i - bhat i) • d'.stageUpdates i := by
  simp only [embBackend] at hst
  split at hst
  · cases hst
  obtain rfl := Except.ok.inj hst
  have hr := computeStep_result E.T E.ode d.toRKState h
  refine ⟨hr, ?_, ?_, ?_⟩
  · funext x
    rw [show (computeStepEmb E.T bhat E.ode d h).finalState
      = (computeStep E.T E.ode d.toRKState h).finalState from rfl, hr.finalState,
      accumulateStep_apply]
    simp only [Pi.add_apply, Pi.smul_apply, Finset.sum_apply, smul_eq_mul]
    rfl
  · funext x
    simp only [computeStepEmb, computeErrorEstimate, hr.startState, accumulateStep_apply,
      Pi.add_apply, Pi.smul_apply, Finset.sum_apply, smul_eq_mul]
  · funext x
    rw [C08_error_estimate]
    simp only [Pi.smul_apply, Finset.sum_apply, smul_eq_mul]

section
variable {f : Rhs ℝ n m} {p : Fin m → ℝ} {q : ℕ} {y : ℝ → Fin n → ℝ} {t0 t1 : ℝ}

/-- C71: for a smooth problem and an embedded scheme whose two sets of weights have order `q` with
the accuracies `ε` and `ε'`, the error estimate of a step from a bounded set is at most
`K (ε + ε' + η) h + C h^(q+1)`, where `η` bounds the residuals of the stage equations. The constant
`K` depends on the problem, the set and a bound of the weights only. -/
theorem C71_order (hq : 1 ≤ q) (hf : Smooth f p q) (R β : ℝ) :
    ∃ K : ℝ, 0 ≤ K ∧ ∀ (s o l : ℕ) (E : Env s n m o l) (bhat : Fin s → ℝ) (ε ε' η : ℝ),
      Accurate E.T β ε q → Accurate (withWeights E.T bhat) β ε' q → 0 ≤ η →
      (∀ i, SolvesNearby E.ode f p η (E.T.A i i)) →
      ∃ C δ : ℝ, 0 ≤ C ∧ 0 < δ ∧ ∀ (d d' : EmbRKState ℝ s n m o l) (h : ℝ),
        d.independentInputs = p → |d.finalTime| ≤ R → ‖d.finalState‖ ≤ R → 0 ≤ h → h < δ →
        (embBackend E bhat).step d (fin h) = .ok d' →
        ‖d'.errorEstimate‖ ≤ K * (ε + ε' + η) * h + C * h ^ (q + 1) := by
  obtain ⟨K, hK0, hK⟩ := Conv.combination (f := fun t y => f t y p) hq hf R (2 * β)
  refine ⟨2 * K, by positivity, fun s o l E bhat ε ε' η hA hA' hη hs => ?_⟩
  obtain ⟨M, h1, hh1, hM⟩ := nearby_result hA.lower hs R
  obtain ⟨C, δ, hC, hδ, hE⟩ := hK s E.T.A (fun i => E.T.b i - bhat i) E.T.c ε (ε + ε') M hA.nonneg
    (add_nonneg hA.nonneg hA'.nonneg) (by
      calc ∑ i, |E.T.b i - bhat i| ≤ ∑ i, (|E.T.b i| + |bhat i|) :=
            Finset.sum_le_sum fun i _ => abs_sub _ _
        _ = ∑ i, |E.T.b i| + ∑ i, |bhat i| := Finset.sum_add_distrib
        _ ≤ 2 * β := by
          have := hA.weights
          have : ∑ i, |bhat i| ≤ β := hA'.weights
          linarith) hA.rows (fun τ hτ => by
      have g1 := hA.order τ hτ
      have g2 : |∑ i, bhat i * τ.weight E.T.A i - 1 / τ.density| ≤ ε' := hA'.order τ hτ
      have g3 : ∑ i, (E.T.b i - bhat i) * τ.weight E.T.A i
          = (∑ i, E.T.b i * τ.weight E.T.A i - 1 / τ.density)
            - (∑ i, bhat i * τ.weight E.T.A i - 1 / τ.density) := by
        simp only [sub_mul, Finset.sum_sub_distrib]
        ring
      rw [g3]
      exact (abs_sub _ _).trans (add_le_add g1 g2))
  refine ⟨C, min δ h1, hC, lt_min hδ hh1, fun d d' h hp ht hu h0 hlt hst => ?_⟩
  obtain ⟨hr, -, -, he⟩ := emb_step_fields hst
  rw [hp] at hr
  obtain ⟨g1, g2⟩ := hM h _ _ _ hr h0 (hlt.trans_le (min_le_right _ _)).le ht hu
  have := hE d.finalTime h η d.finalState d'.stageUpdates ht hu h0
    (hlt.trans_le (min_le_left _ _)) hη g2 g1
  rw [he]
  refine this.trans ?_
  have : 0 ≤ K * (ε' + η) * h := by
    have := hA'.nonneg
    positivity
  nlinarith

/-- C71: the error estimate of a step from a point of the solution agrees with the error of the
embedded solution up to the local error of the main scheme, and with the error of the main solution
(of opposite sign) up to the local error of the embedded scheme. -/
theorem C71_local_error (hq : 1 ≤ q) (hf : Smooth f p q) (hy : IsSolution f p y t0 t1) (β : ℝ) :
    ∃ K : ℝ, 0 ≤ K ∧ ∀ (s o l : ℕ) (E : Env s n m o l) (bhat : Fin s → ℝ) (ε η : ℝ), 0 ≤ η →
      (∀ i, SolvesNearby E.ode f p η (E.T.A i i)) →
      (Accurate E.T β ε q →
        ∃ C δ : ℝ, 0 ≤ C ∧ 0 < δ ∧ ∀ (d d' : EmbRKState ℝ s n m o l) (h : ℝ),
          d.independentInputs = p → t0 ≤ d.finalTime → d.finalState = y d.finalTime → 0 ≤ h →
          d.finalTime + h ≤ t1 → h < δ → (embBackend E bhat).step d (fin h) = .ok d' →
          ‖d'.errorEstimate - (y (d.finalTime + h) - d'.embeddedState)‖
            ≤ K * (ε + η) * h + C * h ^ (q + 1)) ∧
      (Accurate (withWeights E.T bhat) β ε q →
        ∃ C δ : ℝ, 0 ≤ C ∧ 0 < δ ∧ ∀ (d d' : EmbRKState ℝ s n m o l) (h : ℝ),
          d.independentInputs = p → t0 ≤ d.finalTime → d.finalState = y d.finalTime → 0 ≤ h →
          d.finalTime + h ≤ t1 → h < δ → (embBackend E bhat).step d (fin h) = .ok d' →
          ‖d'.errorEstimate - (d'.finalState - y (d.finalTime + h))‖
            ≤ K * (ε + η) * h + C * h ^ (q + 1)) := by
  obtain ⟨K, R, hK0, hR, hK⟩ := Conv.local_error_nearby (f := fun t y => f t y p) hq hf hy β
  refine ⟨K, hK0, fun s o l E bhat ε η hη hs => ⟨fun hA => ?_, fun hA => ?_⟩⟩
  · obtain ⟨M, h1, hh1, hM⟩ := nearby_result hA.lower hs R
    obtain ⟨C, δ, hC, hδ, hE⟩ := hK s E.T.A E.T.b E.T.c ε M hA.nonneg hA.weights hA.rows hA.order
    refine ⟨C, min δ h1, hC, lt_min hδ hh1, fun d d' h hp ht hu h0 ht1 hlt hst => ?_⟩
    obtain ⟨hr, e1, e2, e3⟩ := emb_step_fields hst
    rw [hp] at hr
    obtain ⟨r1, r2⟩ := hR d.finalTime ⟨ht, by linarith⟩
    rw [← hu] at r2
    obtain ⟨g1, g2⟩ := hM h _ _ _ hr h0 (hlt.trans_le (min_le_right _ _)).le r1 r2
    rw [hu] at g1
    have := hE d.finalTime h η d'.stageUpdates ht h0 ht1 (hlt.trans_le (min_le_left _ _)) hη g2 g1
    refine le_trans (le_of_eq ?_) this
    congr 1
    rw [e3, e2, hu]
    simp only [sub_smul, smul_sub, Finset.sum_sub_distrib]
    abel
  · obtain ⟨M, h1, hh1, hM⟩ := nearby_result (E := E) hA.lower hs R
    obtain ⟨C, δ, hC, hδ, hE⟩ := hK s E.T.A bhat E.T.c ε M hA.nonneg hA.weights hA.rows hA.order
    refine ⟨C, min δ h1, hC, lt_min hδ hh1, fun d d' h hp ht hu h0 ht1 hlt hst => ?_⟩
    obtain ⟨hr, e1, e2, e3⟩ := emb_step_fields hst
    rw [hp] at hr
    obtain ⟨r1, r2⟩ := hR d.finalTime ⟨ht, by linarith⟩
    rw [← hu] at r2
    obtain ⟨g1, g2⟩ := hM h _ _ _ hr h0 (hlt.trans_le (min_le_right _ _)).le r1 r2
    rw [hu] at g1
    have := hE d.finalTime h η d'.stageUpdates ht h0 ht1 (hlt.trans_le (min_le_left _ _)) hη g2 g1
    rw [← norm_neg]
    refine le_trans (le_of_eq ?_) this
    congr 1
    rw [e3, e1, hu]
    simp only [sub_smul, smul_sub, Finset.sum_sub_distrib]
    abel

/-- C71 for the shipped embedded tableaux: the estimate has the order `min_p_order` the controllers
are configured with, up to the stated accuracies of the coefficients. -/
theorem C71_shipped (hq : 1 ≤ q) (hf : Smooth f p q) (R β : ℝ) :
    ∃ K : ℝ, 0 ≤ K ∧ ∀ e ∈ embShipped, e.tab.minPOrder = .ok q → ∑ i, |e.tab.b i| ≤ β →
      ∑ i, |e.tab.bhat i| ≤ β →
      ∀ (o l : ℕ) (E : Env e.tab.stages n m o l) (η : ℝ), E.T = e.tab.coeffs → 0 ≤ η →
      (∀ i, SolvesNearby E.ode f p η (E.T.A i i)) →
      ∃ C δ : ℝ, 0 ≤ C ∧ 0 < δ ∧ ∀ (d d' : EmbRKState ℝ e.tab.stages n m o l) (h : ℝ),
        d.independentInputs = p → |d.finalTime| ≤ R → ‖d.finalState‖ ≤ R → 0 ≤ h → h < δ →
        (embBackend E e.tab.bhat).step d (fin h) = .ok d' →
        ‖d'.errorEstimate‖ ≤ K * (e.tol + e.tolHat + η) * h + C * h ^ (q + 1) := by
  obtain ⟨K, hK0, hK⟩ := C71_order hq hf R β
  refine ⟨2 * K, by positivity, fun e he hmin hb hb' o l E η hT hη hs => ?_⟩
  obtain ⟨p1, p2, g1, g2, g3, g4, g5, g6, g7, g8⟩ := C05_embedded_tableaux e he
  have hmin' : q = min p1 p2 := by
    rw [C04_min_order_partial e.tab p1 p2 g1 g2] at hmin
    exact (Except.ok.inj hmin).symm
  have t1 : 0 ≤ e.tol := (abs_nonneg _).trans g3
  have t2 : 0 ≤ e.tolHat := (abs_nonneg _).trans g4
  obtain ⟨C, δ, hC, hδ, hE⟩ := hK _ o l E e.tab.bhat e.tol (e.tol + e.tolHat) η
    (by rw [hT]; exact ⟨g6, t1, hb, g5, fun t ht => g7 t (ht.trans (by omega))⟩)
    (by
      rw [hT]
      exact ⟨g6, by positivity, hb', fun i => (g5 i).trans (by linarith),
        fun t ht => (g8 t (ht.trans (by omega))).trans (by linarith)⟩) hη hs
  refine ⟨C, δ, hC, hδ, fun d d' h k1 k2 k3 k4 k5 k6 => (hE d d' h k1 k2 k3 k4 k5 k6).trans ?_⟩
  have : 0 ≤ K * (e.tolHat + η) * h := by positivity
  nlinarith

end

/-! ### Concrete cases -/

namespace EstimateEx
open InexactEx

/-- Heun's scheme with the Euler scheme embedded. -/
noncomputable def heun : EmbEntry := ⟨embeddedHeunEuler.map (Rat.castHom ℝ), 0, 0⟩

/-- It for `y' = y²`. -/
noncomputable def envH : Env heun.tab.stages 1 1 0 0 where
  T := heun.tab.coeffs
  ode := (envS 0).ode
  fails := fun _ _ => none
  nonfinite := fun _ _ => .error .backend
  measure := fun e _ => fin |e 0|

theorem heun_explicit (i : Fin heun.tab.stages) : envH.T.A i i = 0 := by
  have h : ∀ i, embeddedHeunEuler.A i i = 0 := by decide +kernel
  change ((embeddedHeunEuler.A i i : ℚ) : ℝ) = 0
  rw [h i, Rat.cast_zero]

theorem heun_solves (i : Fin heun.tab.stages) :
    SolvesNearby envH.ode square (fun _ => 0) 0 (envH.T.A i i) := by
  rw [heun_explicit i]
  exact explicit_nearby (smooth 1) one_pos (fun h _ _ => solves h)

/-- The estimates of steps from values of at most 2 are at most `C h²`. -/
example : ∃ C δ : ℝ, 0 ≤ C ∧ 0 < δ ∧ ∀ (d : EmbRKState ℝ heun.tab.stages 1 1 0 0) (h : ℝ),
    d.independentInputs = 0 → |d.finalTime| ≤ 2 → ‖d.finalState‖ ≤ 2 → 0 ≤ h → h < δ →
    ∃ d', (embBackend envH heun.tab.bhat).step d (fin h) = .ok d' ∧
      ‖d'.errorEstimate‖ ≤ C * h ^ 2 := by
  obtain ⟨K, -, hK⟩ := C71_shipped (q := 1) le_rfl (smooth 1) 2
    (max (∑ i, |heun.tab.b i|) (∑ i, |heun.tab.bhat i|))
  obtain ⟨C, δ, hC, hδ, hE⟩ := hK heun (by simp [embShipped, heun])
    (C04_min_order_partial _ 2 1 rfl rfl) (le_max_left _ _) (le_max_right _ _) 0 0 envH 0 rfl le_rfl
    heun_solves
  refine ⟨C, δ, hC, hδ, fun d h h1 h2 h3 h4 h5 => ⟨_, rfl, ?_⟩⟩
  have := hE d _ h h1 h2 h3 h4 h5 rfl
  simpa [heun] using this

end EstimateEx

end Verif.Props
