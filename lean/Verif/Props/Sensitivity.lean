/-
C81: products with the Jacobian converge to the sensitivities of the exact solution.
-/
import Verif.Conv.Flow
import Verif.Integrator.Sensitivity
import Verif.Props.Inexact
import Verif.Props.Deriv
import Verif.Props.Pyrevolve

namespace Verif.Props

open Verif.RK Verif.RK.Spec Verif.Control Verif.XReal Verif.Integrator Verif.Tableau
open Classical

variable {D : Type} {s n m o l : ℕ}

/-- The derivative of the right-hand side with respect to time, state and parameters. -/
noncomputable def jac (f : Rhs ℝ n m) (t : ℝ) (y : Fin n → ℝ) (p : Fin m → ℝ) :
    (ℝ × (Fin n → ℝ) × (Fin m → ℝ)) →L[ℝ] (Fin n → ℝ) :=
  fderiv ℝ (fun z : ℝ × (Fin n → ℝ) × (Fin m → ℝ) => f z.1 z.2.1 z.2.2) (t, y, p)

/-- `f` is `q` times continuously differentiable in time, state and parameters. -/
def SmoothAll (f : Rhs ℝ n m) (q : ℕ) : Prop :=
  ContDiff ℝ q (fun z : ℝ × (Fin n → ℝ) × (Fin m → ℝ) => f z.1 z.2.1 z.2.2)

/-- `δ` solves the variational equation `δ' = ∂f/∂t τ + ∂f/∂y δ + ∂f/∂p π` along the solution `y`: it
is the derivative of the solution if the time of all events is shifted with rate `τ`, the parameters
change with rate `π` and the initial values with rate `δ(t0)`. -/
def IsSensitivity (f : Rhs ℝ n m) (p : Fin m → ℝ) (τ : ℝ) (π : Fin m → ℝ) (y δ : ℝ → Fin n → ℝ)
    (t0 t1 : ℝ) : Prop :=
  ∀ t ∈ Set.Icc t0 t1, HasDerivWithinAt δ (jac f t (y t) p (τ, δ t, π)) (Set.Icc t0 t1) t

/-- For bounded inputs and small steps the derivative call of the backend, at the linearization point
its update call recorded, returns bounded updates that satisfy the linearized stage equation
`kd = Df(t, y + h acc + h a k, p) (dt, dy + h dacc + h a kd, dp)` up to the residual `η`. -/
def SolvesLinearized (ode : ODE ℝ n m o l) (f : Rhs ℝ n m) (p : Fin m → ℝ) (η a : ℝ) : Prop :=
  ∀ R : ℝ, ∃ M h1 : ℝ, 0 < h1 ∧ ∀ (h : ℝ) (inp din : OdeInput ℝ n m), 0 ≤ h → h ≤ h1 →
    inp.independentInput = p → ‖inp.stepInput‖ ≤ R → ‖inp.stageInput‖ ≤ R → |inp.time| ≤ R →
    ‖din.stepInput‖ ≤ R → ‖din.stageInput‖ ≤ R → ‖din.independentInput‖ ≤ R → |din.time| ≤ R →
    let k := (ode.computeUpdate inp h a).1.stageUpdate
    let kd := (ode.computeUpdateDerivative (ode.computeUpdate inp h a).2 din h a).stageUpdate
    ‖kd‖ ≤ M ∧
    ‖kd - jac f inp.time (fun x => inp.stepInput x + h * inp.stageInput x + h * a * k x) p
      (din.time, fun x => din.stepInput x + h * din.stageInput x + h * a * kd x,
        din.independentInput)‖ ≤ η

/-- The stages of the derivatives of steps from a bounded set are bounded and satisfy the linearized
stage system up to `η`. -/
theorem linearized_result {E : Env s n m o l} {f : Rhs ℝ n m} {p : Fin m → ℝ} {η : ℝ}
    (hT : LowerTriangular E.T.A) (hs : ∀ i, SolvesNearby E.ode f p η (E.T.A i i))
    (hd : ∀ i, SolvesLinearized E.ode f p η (E.T.A i i)) (R : ℝ) :
    ∃ M h1 : ℝ, 0 < h1 ∧ ∀ h t u τ π v (r d : RKState ℝ s n m o l),
      StepResult E.T E.ode h t u p r →
      StepDerivResult E.T E.ode h r.linearizationPoints τ v π d → 0 ≤ h →
      h ≤ h1 → |t| ≤ R → ‖u‖ ≤ R → |τ| ≤ R → ‖v‖ ≤ R → ‖π‖ ≤ R → ∀ i,
      ‖d.stageUpdates i‖ ≤ M ∧
      ‖d.stageUpdates i - jac f (t + E.T.c i * h) (u + h • ∑ j, E.T.A i j • r.stageUpdates j) p
        (τ, v + h • ∑ j, E.T.A i j • d.stageUpdates j, π)‖ ≤ η := by
  obtain ⟨M0, h0, hh0, H0⟩ := nearby_result hT hs R
  have key : ∀ q : ℕ, ∃ M h1 : ℝ, 0 ≤ M ∧ 0 < h1 ∧ ∀ h t u τ π v (r d : RKState ℝ s n m o l),
      StepResult E.T E.ode h t u p r →
      StepDerivResult E.T E.ode h r.linearizationPoints τ v π d → 0 ≤ h →
      h ≤ h1 → |t| ≤ R → ‖u‖ ≤ R → |τ| ≤ R → ‖v‖ ≤ R → ‖π‖ ≤ R →
      ∀ i : Fin s, i.val < q → ‖d.stageUpdates i‖ ≤ M ∧
      ‖d.stageUpdates i - jac f (t + E.T.c i * h) (u + h • ∑ j, E.T.A i j • r.stageUpdates j) p
        (τ, v + h • ∑ j, E.T.A i j • d.stageUpdates j, π)‖ ≤ η := by
    intro q
    induction q with
    | zero =>
      exact ⟨0, 1, le_rfl, one_pos, fun _ _ _ _ _ _ _ _ _ _ _ _ _ _ _ _ _ i hi =>
        absurd hi (by omega)⟩
    | succ q ih =>
      obtain ⟨M, h1, hM, hh1, H⟩ := ih
      by_cases hq : q < s
      · set i₀ : Fin s := ⟨q, hq⟩
        obtain ⟨M', h1', hh1', H'⟩ := hd i₀ (max (R + |E.T.c i₀|) (max R
          (max (Conv.total E.T.A * max M0 0) (Conv.total E.T.A * M))))
        refine ⟨max M M', min (min 1 h0) (min h1 h1'), hM.trans (le_max_left _ _),
          lt_min (lt_min one_pos hh0) (lt_min hh1 hh1'),
          fun h t u τ π v r d hr hrd g0 hle ht hu hτ hv hπ i hi => ?_⟩
        have hle0 : h ≤ 1 := hle.trans ((min_le_left _ _).trans (min_le_left _ _))
        have hle1 : h ≤ h0 := hle.trans ((min_le_left _ _).trans (min_le_right _ _))
        have hle2 : h ≤ h1 := hle.trans ((min_le_right _ _).trans (min_le_left _ _))
        have hle3 : h ≤ h1' := hle.trans ((min_le_right _ _).trans (min_le_right _ _))
        have Hi := H h t u τ π v r d hr hrd g0 hle2 ht hu hτ hv hπ
        by_cases hiq : i.val < q
        · exact ⟨(Hi i hiq).1.trans (le_max_left _ _), (Hi i hiq).2⟩
        · have hi0 : i₀ = i := Fin.ext (by change q = i.val; omega)
          rw [hi0] at H'
          obtain ⟨-, hk⟩ := H0 h t u r hr g0 hle1 ht hu
          have hacc : ‖accumulateStages E.T i r.stageUpdates‖ ≤ Conv.total E.T.A * max M0 0 :=
            norm_accumulateStages E.T i _ (le_max_right _ _) fun j _ =>
              (norm_le_pi_norm r.stageUpdates j).trans (hk.trans (le_max_left _ _))
          have haccd : ‖accumulateStages E.T i d.stageUpdates‖ ≤ Conv.total E.T.A * M :=
            norm_accumulateStages E.T i _ hM fun j hj => (Hi j (by
              have : j.val < i.val := hj
              omega)).1
          have htime : |t + h * E.T.c i| ≤ R + |E.T.c i| := by
            refine (abs_add_le _ _).trans (add_le_add ht ?_)
            rw [abs_mul, abs_of_nonneg g0]
            exact mul_le_of_le_one_left (abs_nonneg _) hle0
          have hRR : R ≤ max (R + |E.T.c i|) (max R
              (max (Conv.total E.T.A * max M0 0) (Conv.total E.T.A * M))) :=
            (le_max_left _ _).trans (le_max_right _ _)
          have := H' h (stageIn E.T h t u p r.stageUpdates i)
            (stageInD E.T τ v π d.stageUpdates i) g0 hle3 rfl (hu.trans hRR)
            (hacc.trans ((le_max_left _ _).trans ((le_max_right _ _).trans (le_max_right _ _))))
            (htime.trans (le_max_left _ _)) (hv.trans hRR)
            (haccd.trans ((le_max_right _ _).trans ((le_max_right _ _).trans (le_max_right _ _))))
            (hπ.trans hRR) (hτ.trans hRR)
          dsimp only at this
          rw [← hr.lin i, ← hrd.update i, ← hr.update i] at this
          refine ⟨this.1.trans (le_max_right _ _), ?_⟩
          have e := this.2
          have e1 := stageInput_eq E.T.A E.T.b E.T.c hT h u r.stageUpdates i
          have e2 := stageInput_eq E.T.A E.T.b E.T.c hT h v d.stageUpdates i
          simp only [stageIn, stageInD] at e
          rw [e1, e2, mul_comm h (E.T.c i)] at e
          have e3 : ∀ (u : Fin n → ℝ) (k : Fin s → Fin n → ℝ),
              (fun x => u x + h * ∑ j, E.T.A i j * k j x) = u + h • ∑ j, E.T.A i j • k j := by
            intro u k
            funext x
            simp [Finset.sum_apply]
          rw [e3, e3] at e
          exact e
      · refine ⟨M, h1, hM, hh1, fun h t u τ π v r d hr hrd g0 hle ht hu hτ hv hπ i hi => ?_⟩
        exact H h t u τ π v r d hr hrd g0 hle ht hu hτ hv hπ i (by omega)
  obtain ⟨M, h1, hM, hh1, H⟩ := key s
  exact ⟨M, h1, hh1, fun h t u τ π v r d hr hrd g0 hle ht hu hτ hv hπ i =>
    H h t u τ π v r d hr hrd g0 hle ht hu hτ hv hπ i i.2⟩

/-- The right-hand side of the equation for the values together with their derivatives. -/
noncomputable def pairRhs (f : Rhs ℝ n m) (p : Fin m → ℝ) (τ : ℝ) (π : Fin m → ℝ) (t : ℝ)
    (z : (Fin n → ℝ) × (Fin n → ℝ)) : (Fin n → ℝ) × (Fin n → ℝ) :=
  (f t z.1 p, jac f t z.1 p (τ, z.2, π))

theorem pair_sum (c : Fin s → ℝ) (k kd : Fin s → Fin n → ℝ) (u v : Fin n → ℝ) (h : ℝ) :
    ((u, v) : (Fin n → ℝ) × (Fin n → ℝ)) + h • ∑ j, c j • (k j, kd j)
      = (u + h • ∑ j, c j • k j, v + h • ∑ j, c j • kd j) := by
  rw [Prod.ext_iff]
  simp [Prod.fst_sum, Prod.snd_sum]

/-- Steps of values and derivatives are steps with inexact stages for the pair of equations. -/
theorem pair_stages {E : Env s n m o l} {f : Rhs ℝ n m} {p : Fin m → ℝ} {η : ℝ}
    (hT : LowerTriangular E.T.A) (hs : ∀ i, SolvesNearby E.ode f p η (E.T.A i i))
    (hd : ∀ i, SolvesLinearized E.ode f p η (E.T.A i i)) (τ : ℝ) (π : Fin m → ℝ) (R : ℝ) :
    ∃ M h1 : ℝ, 0 < h1 ∧ ∀ h t z z₁, 0 ≤ h → h ≤ h1 → |t| ≤ R → ‖z‖ ≤ R →
      FwdStepOf E p τ π h t z z₁ →
      ∃ k, Conv.InexactStages η E.T.A E.T.c (pairRhs f p τ π) h t z k ∧ ‖k‖ ≤ M ∧
        z₁ = z + h • ∑ i, E.T.b i • k i := by
  set R' := max R (max |τ| ‖π‖) with hR'
  obtain ⟨M, h1, hh1, H⟩ := nearby_result hT hs R'
  obtain ⟨M', h1', hh1', H'⟩ := linearized_result hT hs hd R'
  have hRR : R ≤ R' := le_max_left _ _
  refine ⟨max M (max M' 0), min h1 h1', lt_min hh1 hh1', fun h t z z₁ h0 hle ht hz hst => ?_⟩
  obtain ⟨u, v⟩ := z
  obtain ⟨u₁, v₁⟩ := z₁
  obtain ⟨st, pert, rfl, rfl, rfl, rfl, rfl, rfl, rfl, rfl⟩ := hst
  have hr := computeStep_result E.T E.ode st h
  have hrd := computeStepDerivative_result E.T E.ode (computeStep E.T E.ode st h) pert h
  have hu : ‖st.finalState‖ ≤ R' := ((norm_fst_le _).trans hz).trans hRR
  have hv : ‖pert.finalState‖ ≤ R' := ((norm_snd_le _).trans hz).trans hRR
  obtain ⟨g1, g2⟩ := H h _ _ _ hr h0 (hle.trans (min_le_left _ _)) (ht.trans hRR) hu
  have G := H' h _ _ _ _ _ _ _ hr hrd h0 (hle.trans (min_le_right _ _)) (ht.trans hRR) hu
    ((le_max_left _ _).trans (le_max_right _ _)) hv ((le_max_right _ _).trans (le_max_right _ _))
  refine ⟨fun i => ((computeStep E.T E.ode st h).stageUpdates i,
    (computeStepDerivative E.T E.ode (computeStep E.T E.ode st h) pert h).stageUpdates i), ?_, ?_,
    ?_⟩
  · intro i
    rw [pair_sum, pairRhs, Prod.mk_sub_mk, Prod.norm_def, max_le_iff]
    exact ⟨g1 i, (G i).2⟩
  · refine (pi_norm_le_iff_of_nonneg ((le_max_right _ _).trans (le_max_right _ _))).mpr fun i => ?_
    rw [Prod.norm_def, max_le_iff]
    exact ⟨((norm_le_pi_norm _ i).trans g2).trans (le_max_left _ _),
      (G i).1.trans ((le_max_left _ _).trans (le_max_right _ _))⟩
  · rw [pair_sum, hr.finalState, hrd.finalState]
    rw [Prod.mk.injEq]
    constructor <;>
    · funext x
      rw [accumulateStep_apply]
      simp [Finset.sum_apply]

section
variable {f : Rhs ℝ n m} {p : Fin m → ℝ} {τ : ℝ} {π : Fin m → ℝ} {q : ℕ} {y δ : ℝ → Fin n → ℝ}
  {t0 t1 : ℝ}

theorem pairRhs_smooth (hf : SmoothAll f (q + 1)) :
    ContDiff ℝ q (fun z : ℝ × ((Fin n → ℝ) × (Fin n → ℝ)) => pairRhs f p τ π z.1 z.2) := by
  unfold pairRhs jac
  have h1 : ContDiff ℝ q (fun z : ℝ × ((Fin n → ℝ) × (Fin n → ℝ)) =>
      (z.1, z.2.1, p)) := by fun_prop
  refine ContDiff.prodMk ?_ ?_
  · exact (hf.of_le (by exact_mod_cast Nat.le_succ q)).comp h1
  · have h2 : ContDiff ℝ q (fderiv ℝ (fun z : ℝ × (Fin n → ℝ) × (Fin m → ℝ) =>
        f z.1 z.2.1 z.2.2)) := hf.fderiv_right (by norm_cast)
    have h3 := h2.comp h1
    exact h3.clm_apply (by fun_prop)

/-- The error of sequences of steps of values and derivatives. -/
theorem pair_error (hq : 1 ≤ q) (hf : SmoothAll f (q + 1)) (hy : IsSolution f p y t0 t1)
    (hδ : IsSensitivity f p τ π y δ t0 t1) (β : ℝ) :
    ∃ K r : ℝ, 0 < K ∧ 0 < r ∧ ∀ (s o l : ℕ) (E : Env s n m o l) (ε η : ℝ), Accurate E.T β ε q →
      0 ≤ η → (∀ i, SolvesNearby E.ode f p η (E.T.A i i)) →
      (∀ i, SolvesLinearized E.ode f p η (E.T.A i i)) →
      ∃ C h1 : ℝ, 0 < C ∧ 0 < h1 ∧ ∀ (H t' : ℝ) (u u' v v' : Fin n → ℝ) (hs : List ℝ), 0 ≤ H →
        H < h1 → (∀ h ∈ hs, 0 ≤ h ∧ h ≤ H) → IsSteps (FwdStepOf E p τ π) t0 (u, v) hs t' (u', v') →
        t' ≤ t1 → max ‖u - y t0‖ ‖v - δ t0‖ + ε + η ≤ r →
        ‖v' - δ t'‖ ≤ K * (max ‖u - y t0‖ ‖v - δ t0‖ + ε + η) + C * H ^ q := by
  have hsol : ∀ t ∈ Set.Icc t0 t1, HasDerivWithinAt (fun t => (y t, δ t))
      (pairRhs f p τ π t (y t, δ t)) (Set.Icc t0 t1) t := fun t ht =>
    (hy t ht).prodMk (hδ t ht)
  obtain ⟨K, r, R, hK, hr, hE⟩ := Conv.convergence_nearby (f := pairRhs f p τ π) hq
    (pairRhs_smooth hf) hsol β
  refine ⟨K, r, hK, hr, fun s o l E ε η hA hη hs hd => ?_⟩
  obtain ⟨M, h1, hh1, hM⟩ := pair_stages hA.lower hs hd τ π (max R (|t0| + |t1|))
  obtain ⟨C, h2, hC, hh2, hE⟩ := hE s E.T.A E.T.b E.T.c ε M hA.nonneg hA.weights hA.rows hA.order
  refine ⟨C, min h2 h1, hC, lt_min hh2 hh1, fun H t' u u' v v' hl h0 hH hb hst ht' hle => ?_⟩
  have e0 : ‖((u, v) : (Fin n → ℝ) × (Fin n → ℝ)) - (y t0, δ t0)‖
      = max ‖u - y t0‖ ‖v - δ t0‖ := by rw [Prod.mk_sub_mk, Prod.norm_mk]
  have := hE (FwdStepOf E p τ π) H t' η (u, v) (u', v') hl h0 (hH.trans_le (min_le_left _ _)) hη
    ?_ hb hst ht' (by rw [e0]; exact hle)
  · rw [e0] at this
    refine le_trans ?_ this
    rw [Prod.mk_sub_mk, Prod.norm_mk]
    exact le_max_right _ _
  · intro h t z z₁ g0 g1 g2 g3 g4 g5
    refine hM h t z z₁ g0 (g1.trans (hH.trans_le (min_le_right _ _)).le) ?_
      (g4.trans (le_max_left _ _)) g5
    refine le_trans ?_ (le_max_right _ _)
    rw [abs_le]
    constructor <;> linarith [neg_abs_le t0, le_abs_self t1, abs_nonneg t0, abs_nonneg t1]

/-- `δ` is the derivative of exact solutions with respect to their data: for `ε` near 0 there are
solutions `Y ε` of the problem started at time `t0 + ε τ` with initial values `y(t0) + ε v` and
parameters `p + ε π` (`Y ε t` is the value at time `t + ε τ`), and `δ` is their derivative in
`ε` at 0. -/
def IsExactDerivative (f : Rhs ℝ n m) (p : Fin m → ℝ) (τ : ℝ) (v : Fin n → ℝ) (π : Fin m → ℝ)
    (y δ : ℝ → Fin n → ℝ) (t0 t1 : ℝ) : Prop :=
  ∃ Y : ℝ → ℝ → Fin n → ℝ,
    (∀ᶠ ε in nhds (0 : ℝ), Y ε t0 = y t0 + ε • v ∧ ∀ t ∈ Set.Icc t0 t1,
      HasDerivWithinAt (Y ε) (f (t + ε * τ) (Y ε t) (p + ε • π)) (Set.Icc t0 t1) t) ∧
    ∀ t ∈ Set.Icc t0 t1, Y 0 t = y t ∧ HasDerivAt (fun ε => Y ε t) (δ t) 0

/-- Solutions of the variational equation are derivatives of the exact solution. -/
theorem sensitivity_exact (h : t0 ≤ t1) (hf : SmoothAll f 1) (hy : IsSolution f p y t0 t1)
    (hsens : IsSensitivity f p τ π y δ t0 t1) : IsExactDerivative f p τ (δ t0) π y δ t0 t1 := by
  obtain ⟨ρ, R, hρ, H⟩ := Conv.nearby_solutions h hf hy
  have hex : ∀ ε : ℝ, ∃ z : ℝ → Fin n → ℝ, (|ε * τ| ≤ ρ ∧ ‖ε • δ t0‖ ≤ ρ ∧ ‖ε • π‖ ≤ ρ) →
      z t0 = y t0 + ε • δ t0 ∧ (∀ t ∈ Set.Icc t0 t1, ‖z t‖ ≤ R) ∧ ∀ t ∈ Set.Icc t0 t1,
        HasDerivWithinAt z (f (t + ε * τ) (z t) (p + ε • π)) (Set.Icc t0 t1) t := by
    intro ε
    by_cases hc : |ε * τ| ≤ ρ ∧ ‖ε • δ t0‖ ≤ ρ ∧ ‖ε • π‖ ≤ ρ
    · obtain ⟨z, hz⟩ := H (ε * τ) (ε • δ t0) (ε • π) hc.1 hc.2.1 hc.2.2
      exact ⟨z, fun _ => hz⟩
    · exact ⟨y, fun h => absurd h hc⟩
  choose Y hY using hex
  have hsmall : ∀ᶠ ε in nhds (0 : ℝ), |ε * τ| ≤ ρ ∧ ‖ε • δ t0‖ ≤ ρ ∧ ‖ε • π‖ ≤ ρ := by
    have c1 : ContinuousAt (fun ε : ℝ => |ε * τ|) 0 := by fun_prop
    have c2 : ContinuousAt (fun ε : ℝ => ‖ε • δ t0‖) 0 := by fun_prop
    have c3 : ContinuousAt (fun ε : ℝ => ‖ε • π‖) 0 := by fun_prop
    filter_upwards [c1.eventually_lt continuousAt_const (by simpa using hρ : |0 * τ| < ρ),
      c2.eventually_lt continuousAt_const (by simpa using hρ : ‖(0 : ℝ) • δ t0‖ < ρ),
      c3.eventually_lt continuousAt_const (by simpa using hρ : ‖(0 : ℝ) • π‖ < ρ)] with ε a b c
    exact ⟨a.le, b.le, c.le⟩
  have hev : ∀ᶠ ε in nhds (0 : ℝ), Y ε t0 = y t0 + ε • δ t0 ∧
      (∀ t ∈ Set.Icc t0 t1, ‖Y ε t‖ ≤ R) ∧ ∀ t ∈ Set.Icc t0 t1,
        HasDerivWithinAt (Y ε) (f (t + ε * τ) (Y ε t) (p + ε • π)) (Set.Icc t0 t1) t := by
    filter_upwards [hsmall] with ε hε
    exact hY ε hε
  refine ⟨Y, ?_, Conv.flow_deriv h hf hy hsens hev⟩
  filter_upwards [hsmall] with ε hε
  exact ⟨(hY ε hε).1, (hY ε hε).2.2⟩

/-- For every direction there is a solution of the variational equation. -/
theorem sensitivity_exists (h : t0 ≤ t1) (hf : SmoothAll f 1) (hy : IsSolution f p y t0 t1) (τ : ℝ)
    (v : Fin n → ℝ) (π : Fin m → ℝ) : ∃ δ : ℝ → Fin n → ℝ, δ t0 = v ∧
      IsSensitivity f p τ π y δ t0 t1 := by
  have hyc : ContinuousOn y (Set.Icc t0 t1) := fun t ht => (hy t ht).continuousWithinAt
  have hJ : ContinuousOn (fun t => jac f t (y t) p) (Set.Icc t0 t1) := by
    have h1 : Continuous (fderiv ℝ (fun z : ℝ × (Fin n → ℝ) × (Fin m → ℝ) => f z.1 z.2.1 z.2.2)) :=
      ContDiff.continuous_fderiv hf (by norm_num)
    exact h1.comp_continuousOn (continuousOn_id.prodMk (hyc.prodMk continuousOn_const))
  let ι : (Fin n → ℝ) →L[ℝ] ℝ × (Fin n → ℝ) × (Fin m → ℝ) :=
    (ContinuousLinearMap.inr ℝ ℝ _).comp (ContinuousLinearMap.inl ℝ _ _)
  obtain ⟨δ, hδ0, hδ⟩ := Conv.linear_exists (G := fun t => (jac f t (y t) p).comp ι)
    (g := fun t => jac f t (y t) p (τ, 0, π)) h (hJ.clm_comp continuousOn_const)
    (hJ.clm_apply continuousOn_const) v
  refine ⟨δ, hδ0, fun t ht => ?_⟩
  have := hδ t ht
  simp only [ContinuousLinearMap.comp_apply, ← map_add] at this
  have e : ι (δ t) + (τ, 0, π) = (τ, δ t, π) := by simp [ι]
  rwa [e] at this

/-- Backends that solve the stage equations and whose derivative call is the derivative of the update
call solve the linearized stage equations. -/
theorem linearized_of_differentiable {ode : ODE ℝ n m o l} {a h1 : ℝ} (hf : SmoothAll f 1)
    (hh1 : 0 < h1) (hs : ∀ h, 0 ≤ h → h ≤ h1 → SolvesStage ode f h a)
    (hd : ∀ h, 0 ≤ h → h ≤ h1 → DifferentiableBackend ode h a) (hn : SolvesNearby ode f p 0 a) :
    SolvesLinearized ode f p 0 a := by
  intro R
  obtain ⟨M, h0, hh0, H⟩ := hn R
  have hjc : Continuous fun z : ℝ × (Fin n → ℝ) => jac f z.1 z.2 p :=
    (ContDiff.continuous_fderiv hf (by norm_num)).comp
      (by fun_prop : Continuous fun z : ℝ × (Fin n → ℝ) => (z.1, z.2, p))
  obtain ⟨B, hB⟩ := (isCompact_closedBall (0 : ℝ × (Fin n → ℝ)) (R + R + |a| * M))
    |>.exists_bound_of_continuousOn hjc.continuousOn
  set B' := max B 0 with hB'
  have hB0 : 0 ≤ B' := le_max_right _ _
  refine ⟨4 * R * B', min (min h0 h1) (min 1 (1 / (2 * (B' * |a| + 1)))),
    lt_min (lt_min hh0 hh1) (lt_min one_pos (by positivity)), ?_⟩
  intro h inp din g0 g1 hp k1 k2 k3 d1 d2 d3 d4
  have hle0 : h ≤ h0 := g1.trans ((min_le_left _ _).trans (min_le_left _ _))
  have hle1 : h ≤ h1 := g1.trans ((min_le_left _ _).trans (min_le_right _ _))
  have hle2 : h ≤ 1 := g1.trans ((min_le_right _ _).trans (min_le_left _ _))
  have hle3 : h ≤ 1 / (2 * (B' * |a| + 1)) :=
    g1.trans ((min_le_right _ _).trans (min_le_right _ _))
  have hR0 : 0 ≤ R := (abs_nonneg _).trans k3
  intro k kd
  obtain ⟨L, hL, hLd⟩ := hd h g0 hle1 inp
  have hkM : ‖k‖ ≤ M := (H h inp g0 hle0 hp k1 k2 k3).1
  have hM0 : 0 ≤ M := (norm_nonneg _).trans hkM
  -- the point of linearization
  let Z : InSpace n m → ℝ × (Fin n → ℝ) × (Fin m → ℝ) := fun z =>
    (z.2.2.2, z.1 + h • z.2.1 + (h * a) • (ode.computeUpdate (toIn z) h a).1.stageUpdate, z.2.2.1)
  let Pt : InSpace n m →L[ℝ] ℝ := (ContinuousLinearMap.snd ℝ (Fin m → ℝ) ℝ).comp
    ((ContinuousLinearMap.snd ℝ (Fin n → ℝ) ((Fin m → ℝ) × ℝ)).comp
      (ContinuousLinearMap.snd ℝ (Fin n → ℝ) ((Fin n → ℝ) × (Fin m → ℝ) × ℝ)))
  let Pp : InSpace n m →L[ℝ] (Fin m → ℝ) := (ContinuousLinearMap.fst ℝ (Fin m → ℝ) ℝ).comp
    ((ContinuousLinearMap.snd ℝ (Fin n → ℝ) ((Fin m → ℝ) × ℝ)).comp
      (ContinuousLinearMap.snd ℝ (Fin n → ℝ) ((Fin n → ℝ) × (Fin m → ℝ) × ℝ)))
  let Ps : InSpace n m →L[ℝ] (Fin n → ℝ) :=
    (ContinuousLinearMap.fst ℝ (Fin n → ℝ) ((Fin m → ℝ) × ℝ)).comp
      (ContinuousLinearMap.snd ℝ (Fin n → ℝ) ((Fin n → ℝ) × (Fin m → ℝ) × ℝ))
  let Py : InSpace n m →L[ℝ] (Fin n → ℝ) :=
    ContinuousLinearMap.fst ℝ (Fin n → ℝ) ((Fin n → ℝ) × (Fin m → ℝ) × ℝ)
  have hZ : HasFDerivAt Z (Pt.prod ((Py + h • Ps + (h * a) • L).prod Pp)) (ofIn inp) := by
    refine HasFDerivAt.prodMk Pt.hasFDerivAt (HasFDerivAt.prodMk ((HasFDerivAt.add Py.hasFDerivAt
      (Ps.hasFDerivAt.const_smul h)).add (hL.const_smul (h * a))) Pp.hasFDerivAt)
  have hZ0 : Z (ofIn inp) = (inp.time,
      (fun x => inp.stepInput x + h * inp.stageInput x + h * a * k x), p) := by
    rw [← hp]
    rfl
  have hF : HasFDerivAt (fun z : ℝ × (Fin n → ℝ) × (Fin m → ℝ) => f z.1 z.2.1 z.2.2)
      (jac f inp.time (fun x => inp.stepInput x + h * inp.stageInput x + h * a * k x) p)
      (Z (ofIn inp)) := by
    rw [hZ0]
    exact ((ContDiff.differentiable hf (by norm_num)) _).hasFDerivAt
  have hk : (fun z => (ode.computeUpdate (toIn z) h a).1.stageUpdate)
      = (fun z : ℝ × (Fin n → ℝ) × (Fin m → ℝ) => f z.1 z.2.1 z.2.2) ∘ Z := by
    funext z
    exact hs h g0 hle1 (toIn z)
  have hL2 := hF.comp _ hZ
  rw [← hk] at hL2
  have e := congrArg (fun T => T (ofIn din)) (hL.unique hL2)
  have hkd : kd = L (ofIn din) := hLd din
  have heq : kd = jac f inp.time (fun x => inp.stepInput x + h * inp.stageInput x + h * a * k x) p
      (din.time, fun x => din.stepInput x + h * din.stageInput x + h * a * kd x,
        din.independentInput) := by
    rw [ContinuousLinearMap.comp_apply, ← hkd] at e
    refine e.trans (congrArg _ ?_)
    rw [ContinuousLinearMap.prod_apply, ContinuousLinearMap.prod_apply]
    refine Prod.ext rfl (Prod.ext ?_ rfl)
    change _ = fun x => din.stepInput x + h * din.stageInput x + h * a * kd x
    rw [hkd]
    rfl
  refine ⟨?_, by rw [← heq, sub_self, norm_zero]⟩
  -- the bound
  have hJ : ‖jac f inp.time
      (fun x => inp.stepInput x + h * inp.stageInput x + h * a * k x) p‖ ≤ B' := by
    refine (hB (inp.time, _) ?_).trans (le_max_left _ _)
    rw [mem_closedBall_zero_iff, Prod.norm_mk]
    refine max_le (k3.trans ?_) ?_
    · have := mul_nonneg (abs_nonneg a) hM0
      linarith
    · have e1 : (fun x => inp.stepInput x + h * inp.stageInput x + h * a * k x)
          = inp.stepInput + h • inp.stageInput + (h * a) • k := rfl
      rw [e1]
      refine (norm_add_le _ _).trans (add_le_add ((norm_add_le _ _).trans (add_le_add k1 ?_)) ?_)
      · rw [norm_smul, Real.norm_of_nonneg g0]
        exact (mul_le_of_le_one_left (norm_nonneg _) hle2).trans k2
      · rw [norm_smul, norm_mul, Real.norm_of_nonneg g0, Real.norm_eq_abs]
        refine mul_le_mul ?_ hkM (norm_nonneg _) (abs_nonneg _)
        exact mul_le_of_le_one_left (abs_nonneg _) hle2
  have hnorm : ‖kd‖ ≤ B' * (2 * R + h * |a| * ‖kd‖) := by
    rw [heq]
    refine (ContinuousLinearMap.le_opNorm _ _).trans (mul_le_mul hJ ?_ (norm_nonneg _) hB0)
    rw [← heq]
    have hpos : 0 ≤ h * |a| * ‖kd‖ := by positivity
    rw [Prod.norm_mk, Prod.norm_mk]
    refine max_le ?_ (max_le ?_ ?_)
    · rw [Real.norm_eq_abs]
      linarith
    · have e1 : (fun x => din.stepInput x + h * din.stageInput x + h * a * kd x)
          = din.stepInput + h • din.stageInput + (h * a) • kd := rfl
      rw [e1]
      refine (norm_add_le _ _).trans (add_le_add ((norm_add_le _ _).trans ?_) ?_)
      · rw [norm_smul, Real.norm_of_nonneg g0]
        have := (mul_le_of_le_one_left (norm_nonneg din.stageInput) hle2).trans d2
        linarith
      · rw [norm_smul, norm_mul, Real.norm_of_nonneg g0, Real.norm_eq_abs]
    · linarith
  have hhalf : B' * (h * |a|) ≤ 1 / 2 := by
    have h1 : h * (2 * (B' * |a| + 1)) ≤ 1 := by
      rwa [le_div_iff₀ (by positivity)] at hle3
    nlinarith
  have := mul_le_mul_of_nonneg_right hhalf (norm_nonneg kd)
  nlinarith

/-! ### Runs -/

/-- Options for which runs with fixed steps that start at `t0` have steps of size `H` and end at
`t'`: a number of steps, or a final time, which is passed by less than a step. -/
inductive FixedEnd (opt : Options) (_ : Ctrl) (t0 : ℝ) : ℝ → ℝ → Prop
  | steps {N : ℕ} {dt : ℝ} : opt.adaptive = false → opt.crit = .steps N →
      opt.initialStep = fin dt → 0 ≤ dt → FixedEnd opt _ t0 dt (t0 + N * dt)
  | final {T dt : ℝ} : opt.adaptive = false → opt.crit = .finalTime T →
      opt.initialStep = fin dt → 0 < dt → FixedEnd opt _ t0 dt (t0 + ⌈(T - t0) / dt⌉₊ * dt)

/-- The same with adaptive runs to a final time; `H` is the upper bound of the controller. -/
inductive AnyEnd (opt : Options) (c : Ctrl) (t0 : ℝ) : ℝ → ℝ → Prop
  | fixed {H t' : ℝ} : FixedEnd opt c t0 H t' → AnyEnd opt c t0 H t'
  | adaptive {T lo u h0 : ℝ} : opt.adaptive = true → opt.crit = .finalTime T →
      opt.initialStep = fin h0 → c.config.lower = fin lo → c.config.upper = fin u → 0 ≤ lo →
      lo ≤ u → 0 ≤ h0 → h0 ≤ u → t0 + h0 ≤ T → AnyEnd opt c t0 u T

/-- All forward products at times, parameters and seeds `t0, p, τ, π`, with initial values and seed
within `r` of `y(t0)` and `δ(t0)`, and steps smaller than `h1`: the time of the product is the seed
of the time, and the values are those of `δ` at the end of the run up to `err`. -/
def ForwardWithin (B : Backend D (StartingValues ℝ n m) (Outputs n))
    (End : Options → Ctrl → ℝ → ℝ → ℝ → Prop) (p : Fin m → ℝ) (τ : ℝ) (π : Fin m → ℝ)
    (y δ : ℝ → Fin n → ℝ) (t0 t1 h1 r : ℝ) (err : ℝ → ℝ → ℝ) : Prop :=
  ∀ (σ : Type) (opt : Options) (H t' : ℝ) (fuel : ℕ) (w w' : World D σ)
    (i di : StartingValues ℝ n m) (dO v : Outputs n),
    End opt w.ctrl t0 H t' → H < h1 → t' ≤ t1 → i.initialTime = t0 → i.independentInputs = p →
    di.initialTime = τ → di.independentInputs = π →
    max ‖i.initialValues - y t0‖ ‖di.initialValues - δ t0‖ ≤ r →
    fwd B opt fuel w i di dO = (w', .ok v) →
    v.time = dO.time + τ ∧ ‖v.values - δ t'‖
      ≤ err (max ‖i.initialValues - y t0‖ ‖di.initialValues - δ t0‖) H

/-- `g` is the result of a reverse product at the inputs `i` of a component whose controller was in
state `c`: with all states stored and nothing cached, or directly after `compute`, or with
pyrevolve and nothing cached. -/
inductive RevResult (B : Backend D (StartingValues ℝ n m) (Outputs n)) (R : Restore D)
    (clean : D → Prop) (opt : Options) (c : Ctrl) (i : StartingValues ℝ n m) (dO : Outputs n)
    (dI g : StartingValues ℝ n m) : Prop
  | fresh {fuel : ℕ} {w w' : World D (List (IState D))} : w.ctrl = c → cacheOk B w i = false →
      rev B opt (allCk B opt) fuel w i dO dI = (w', .ok g) → RevResult B R clean opt c i dO dI g
  | afterCompute {fuel fuel' : ℕ} {w0 w w' : World D (List (IState D))} {v : Outputs n} :
      w0.ctrl = c → compute B opt (allCk B opt) fuel w0 i = (w, .ok v) →
      rev B opt (allCk B opt) fuel' w i dO dI = (w', .ok g) → RevResult B R clean opt c i dO dI g
  | pyrevolve {N fuel : ℕ} {sched : Schedule} {e : IState D} {w w' : World D (PyData D)} :
      w.ctrl = c → Legal N sched → opt.crit = .steps (N + 1) → N + 1 < fuel →
      (opt.adaptive = false ∨ ∃ par cfg, c = .base par cfg) → w.cached = none → clean w.pert →
      rev B opt (pyCk B opt R e N sched) fuel w i dO dI = (w', .ok g) →
      RevResult B R clean opt c i dO dI g

/-- All reverse products: paired with the seeds of the exact sensitivity they give the pairing of
the seed with the exact sensitivity at the end of the run, up to `err` times the size of the
seed. -/
def ReverseWithin (B : Backend D (StartingValues ℝ n m) (Outputs n)) (R : Restore D)
    (clean : D → Prop) (End : Options → Ctrl → ℝ → ℝ → ℝ → Prop) (p : Fin m → ℝ) (τ : ℝ)
    (π : Fin m → ℝ) (y δ : ℝ → Fin n → ℝ) (t0 t1 h1 r : ℝ) (err : ℝ → ℝ → ℝ) : Prop :=
  ∀ (opt : Options) (c : Ctrl) (H t' : ℝ) (i dI g : StartingValues ℝ n m) (dO : Outputs n),
    End opt c t0 H t' → H < h1 → t' ≤ t1 → i.initialTime = t0 → i.independentInputs = p →
    ‖i.initialValues - y t0‖ ≤ r → RevResult B R clean opt c i dO dI g →
    |∑ x, g.initialValues x * δ t0 x + (g.initialTime - dI.initialTime) * τ
        + ∑ x, g.independentInputs x * π x - (∑ x, dO.values x * δ t' x + dO.time * τ)|
      ≤ (∑ x, |dO.values x|) * err ‖i.initialValues - y t0‖ H

theorem FixedEnd.nonneg {opt : Options} {c : Ctrl} {t0 H t' : ℝ} (h : FixedEnd opt c t0 H t') :
    0 ≤ H := by
  cases h with
  | steps _ _ _ h => exact h
  | final _ _ _ h => exact h.le

theorem AnyEnd.nonneg {opt : Options} {c : Ctrl} {t0 H t' : ℝ} (h : AnyEnd opt c t0 H t') :
    0 ≤ H := by
  cases h with
  | fixed h => exact h.nonneg
  | adaptive _ _ _ _ _ h1 h2 _ _ _ => exact h1.trans h2

variable {B : Backend D (StartingValues ℝ n m) (Outputs n)} {opt : Options} {σ : Type}

theorem fixed_fwd {E : Env s n m o l} (C : RKCore B E)
    (htm : ∀ d, B.time d = fin (C.core d).finalTime) {H t' : ℝ} {fuel : ℕ} {w w' : World D σ}
    {i di : StartingValues ℝ n m} {dO v : Outputs n} (he : FixedEnd opt w.ctrl i.initialTime H t')
    (h : fwd B opt fuel w i di dO = (w', .ok v)) :
    v.time = dO.time + di.initialTime ∧ ∃ hs : List ℝ, (∀ h ∈ hs, 0 ≤ h ∧ h ≤ H) ∧ ∃ u,
      IsSteps (FwdStepOf E i.independentInputs di.initialTime di.independentInputs)
        i.initialTime (i.initialValues, di.initialValues) hs t' (u, v.values) := by
  cases he with
  | @steps N dt ha hc hi h0 =>
    obtain ⟨k1, u, k2⟩ := fwd_fixed_steps C ha hc hi h
    refine ⟨k1, _, fun x hx => ?_, u, k2⟩
    obtain rfl := List.eq_of_mem_replicate hx
    exact ⟨h0, le_rfl⟩
  | @final T dt ha hc hi h0 =>
    obtain ⟨k1, u, k2⟩ := fwd_final_steps C htm h0 ha hc hi h
    refine ⟨k1, _, fun x hx => ?_, u, k2⟩
    obtain rfl := List.eq_of_mem_replicate hx
    exact ⟨h0.le, le_rfl⟩

theorem any_fwd {E : Env s n m o l} (bhat : Fin s → ℝ) {H t' : ℝ} {fuel : ℕ}
    {w w' : World (EmbRKState ℝ s n m o l) σ}
    {i di : StartingValues ℝ n m} {dO v : Outputs n} (he : AnyEnd opt w.ctrl i.initialTime H t')
    (h : fwd (embBackend E bhat) opt fuel w i di dO = (w', .ok v)) :
    v.time = dO.time + di.initialTime ∧ ∃ hs : List ℝ, (∀ h ∈ hs, 0 ≤ h ∧ h ≤ H) ∧ ∃ u,
      IsSteps (FwdStepOf E i.independentInputs di.initialTime di.independentInputs)
        i.initialTime (i.initialValues, di.initialValues) hs t' (u, v.values) := by
  cases he with
  | fixed he => exact fixed_fwd (embCore E bhat) (fun _ => rfl) he h
  | adaptive ha hc hi hl hu h1 h2 h3 h4 h5 =>
    exact fwd_adaptive_steps bhat h1 h2 ha hc hi h3 h4 hl hu h5 h

/-- A forward product to every run of a reverse product. -/
theorem reverse_pairing {E : Env s n m o l} (C : RKCore B E) (W : Lawful B)
    (hW : ∀ a b, W.obs a = W.obs b → rkObs (C.core a) = rkObs (C.core b))
    (hz : NoStageState E.ode) (hadj : ∀ lin h i, AdjointPair E.ode lin h (E.T.A i i))
    {c : Ctrl} {d : D} {i dI g : StartingValues ℝ n m} {dO : Outputs n} {q : D}
    {t1 : List (Ctrl × IState D)} (h1 : Run B opt 0 c (startOf B opt c d i) t1)
    (hg : g = B.writeIn (revAlong B (t1.map Prod.snd).reverse (B.seed q dO)) dI)
    (di : StartingValues ℝ n m) :
    ∃ (w w' : World D Unit) (fuel : ℕ) (v : Outputs n), w.ctrl = c ∧
      fwd B opt fuel w i di ⟨0, 0⟩ = (w', .ok v) ∧
      dot dO.values v.values + dO.time * v.time
        = dot g.initialValues di.initialValues + (g.initialTime - dI.initialTime) * di.initialTime
          + dot g.independentInputs di.independentInputs := by
  obtain ⟨t2, h2, -⟩ := Run.same W h1 (start_same_fwd W c d d i)
  let w : World D Unit := ⟨startOf B opt c d i, q, c, none, (), []⟩
  obtain ⟨t2, h2, -⟩ := Run.same W h1 (start_same_fwd W c d w.tis.disc i)
  have h3 := fwd_of_run (w := w) h2 (Nat.lt_succ_self _) di ⟨0, 0⟩
  refine ⟨w, _, _, _, rfl, Prod.ext rfl h3, ?_⟩
  have := transpose_of_runs C W hW hz hadj h1 h2 rfl hg (dO0 := ⟨0, 0⟩) (p := q) (di := di)
  rw [sub_zero] at this
  exact this

theorem revResult_run {R : Restore D} {clean : D → Prop} {c : Ctrl} {i dI g : StartingValues ℝ n m}
    {dO : Outputs n} (hhit : ∀ d, B.cacheHit (B.load d i) i = true)
    (hpy : ∀ {N fuel : ℕ} {sched : Schedule} {e : IState D} {w : World D (PyData D)},
      Legal N sched → opt.crit = .steps (N + 1) → N + 1 < fuel →
      (opt.adaptive = false ∨ ∃ par cfg, w.ctrl = .base par cfg) → w.cached = none →
      clean w.pert → (rev B opt (pyCk B opt R e N sched) fuel w i dO dI).2
        = (rev B opt (allCk B opt) fuel ⟨w.tis, w.pert, w.ctrl, none, [], []⟩ i dO dI).2)
    (h : RevResult B R clean opt c i dO dI g) :
    ∃ d q tr, Run B opt 0 c (startOf B opt c d i) tr ∧
      g = B.writeIn (revAlong B (tr.map Prod.snd).reverse (B.seed q dO)) dI := by
  cases h with
  | fresh hc hca h =>
    obtain ⟨tr, h1, h2⟩ := rev_uncached hca h
    subst hc
    exact ⟨_, _, tr, h1, h2⟩
  | afterCompute hc hcomp h =>
    obtain ⟨tr, h1, h2⟩ := rev_after_compute hhit hcomp h
    subst hc
    exact ⟨_, _, tr, h1, h2⟩
  | @pyrevolve N fuel sched e w w' hc hl hN hf hp hw cw h =>
    subst hc
    have e1 := congrArg Prod.snd h
    rw [hpy hl hN hf hp hw cw] at e1
    obtain ⟨tr, h1, h2⟩ := rev_uncached (by simp [cacheOk]) (Prod.ext rfl e1)
    exact ⟨_, _, tr, h1, h2⟩

theorem abs_dot_le (a b : Fin n → ℝ) : |∑ x, a x * b x| ≤ (∑ x, |a x|) * ‖b‖ := by
  rw [Finset.sum_mul]
  refine (Finset.abs_sum_le_sum_abs _ _).trans (Finset.sum_le_sum fun x _ => ?_)
  rw [abs_mul]
  exact mul_le_mul_of_nonneg_left (norm_le_pi_norm b x) (abs_nonneg _)

/-- Reverse products are as accurate as forward products. -/
theorem reverse_of_forward {E : Env s n m o l} (C : RKCore B E) (W : Lawful B)
    (hW : ∀ a b, W.obs a = W.obs b → rkObs (C.core a) = rkObs (C.core b))
    (hz : NoStageState E.ode) (hadj : ∀ lin h i, AdjointPair E.ode lin h (E.T.A i i))
    {R : Restore D} {clean : D → Prop} {End : Options → Ctrl → ℝ → ℝ → ℝ → Prop}
    (hhit : ∀ d i, B.cacheHit (B.load d i) i = true)
    (hpy : ∀ {opt : Options} {i dI : StartingValues ℝ n m} {dO : Outputs n} {N fuel : ℕ}
      {sched : Schedule} {e : IState D} {w : World D (PyData D)},
      Legal N sched → opt.crit = .steps (N + 1) → N + 1 < fuel →
      (opt.adaptive = false ∨ ∃ par cfg, w.ctrl = .base par cfg) → w.cached = none →
      clean w.pert → (rev B opt (pyCk B opt R e N sched) fuel w i dO dI).2
        = (rev B opt (allCk B opt) fuel ⟨w.tis, w.pert, w.ctrl, none, [], []⟩ i dO dI).2)
    {r h1 : ℝ} {err : ℝ → ℝ → ℝ} (hF : ForwardWithin B End p τ π y δ t0 t1 h1 r err) :
    ReverseWithin B R clean End p τ π y δ t0 t1 h1 r err := by
  intro opt c H t' i dI g dO he hH ht hi hp hr hg
  obtain ⟨d, q, tr, k1, k2⟩ := revResult_run (hhit · i) hpy hg
  obtain ⟨w, w', fuel, v, rfl, hv, hpair⟩ := reverse_pairing C W hW hz hadj k1 k2 ⟨τ, δ t0, π⟩
  have hmax : max ‖i.initialValues - y t0‖ ‖δ t0 - δ t0‖ = ‖i.initialValues - y t0‖ := by
    rw [sub_self, norm_zero, max_eq_left (norm_nonneg _)]
  obtain ⟨g1, g2⟩ := hF _ opt H t' fuel w w' i ⟨τ, δ t0, π⟩ _ v he hH ht hi hp rfl rfl
    (by rw [hmax]; exact hr) hv
  dsimp only at g1 g2
  rw [hmax] at g2
  rw [zero_add] at g1
  simp only [dot, g1] at hpair
  rw [← hpair]
  have e1 : ∑ x, dO.values x * v.values x + dO.time * τ
      - (∑ x, dO.values x * δ t' x + dO.time * τ)
      = ∑ x, dO.values x * (v.values - δ t') x := by
    simp only [Pi.sub_apply, mul_sub, Finset.sum_sub_distrib]
    ring
  rw [e1]
  exact (abs_dot_le _ _).trans
    (mul_le_mul_of_nonneg_left g2 (Finset.sum_nonneg fun _ _ => abs_nonneg _))

/-! ### C81 -/

/-- C81, what the sensitivities are: along every solution of a smooth problem, and in every
direction, the variational equation has a solution, and its solutions are the derivatives of the
exact solutions with respect to initial time, initial values and parameters. -/
theorem C81_sensitivity_is_derivative (h : t0 ≤ t1) (hf : SmoothAll f 1)
    (hy : IsSolution f p y t0 t1) (τ : ℝ) (v : Fin n → ℝ) (π : Fin m → ℝ) :
    (∃ δ : ℝ → Fin n → ℝ, δ t0 = v ∧ IsSensitivity f p τ π y δ t0 t1) ∧
      ∀ δ : ℝ → Fin n → ℝ, IsSensitivity f p τ π y δ t0 t1 →
        IsExactDerivative f p τ (δ t0) π y δ t0 t1 :=
  ⟨sensitivity_exists h hf hy τ v π, fun _ hδ => sensitivity_exact h hf hy hδ⟩

/-- C81 (plain schemes), forward products: for a scheme that satisfies the conditions up to order
`q` up to `ε`, and stage equations and linearized stage equations that are solved up to `η`, the
product with the seeds of a sensitivity is this sensitivity at the end of the run up to
`K (e0 + ε + η) + C h^q`, where `e0` is the error of the initial values and `K` depends only on the
problem. -/
theorem C81_forward (hq : 1 ≤ q) (hf : SmoothAll f (q + 1)) (hy : IsSolution f p y t0 t1)
    (hδ : IsSensitivity f p τ π y δ t0 t1) (β : ℝ) :
    ∃ K r : ℝ, 0 < K ∧ 0 < r ∧ ∀ (s o l : ℕ) (E : Env s n m o l) (ε η : ℝ), Accurate E.T β ε q →
      0 ≤ η → (∀ i, SolvesNearby E.ode f p η (E.T.A i i)) →
      (∀ i, SolvesLinearized E.ode f p η (E.T.A i i)) →
      ∃ C h1 : ℝ, 0 < C ∧ 0 < h1 ∧
        ForwardWithin (rkBackend E) FixedEnd p τ π y δ t0 t1 h1 (r - ε - η)
          (fun e0 h => K * (e0 + ε + η) + C * h ^ q) := by
  obtain ⟨K, r, hK, hr, hE⟩ := pair_error hq hf hy hδ β
  refine ⟨K, r, hK, hr, fun s o l E ε η hA hη hs hd => ?_⟩
  obtain ⟨C, h1, hC, hh1, H⟩ := hE s o l E ε η hA hη hs hd
  refine ⟨C, h1, hC, hh1, ?_⟩
  intro σ opt h t' fuel w w' i di dO v he hh ht hi hp hτ hπ hrr hv
  subst hi hp hτ hπ
  obtain ⟨k1, hs, k2, u, k3⟩ := fixed_fwd (rkCore E) (fun _ => rfl) he hv
  exact ⟨k1, H h t' _ u _ _ hs he.nonneg hh k2 k3 ht (by linarith)⟩

/-- C81 (embedded schemes), forward products, also of adaptive runs; `h` is their upper bound for
step sizes. -/
theorem C81_forward_embedded (hq : 1 ≤ q) (hf : SmoothAll f (q + 1)) (hy : IsSolution f p y t0 t1)
    (hδ : IsSensitivity f p τ π y δ t0 t1) (β : ℝ) :
    ∃ K r : ℝ, 0 < K ∧ 0 < r ∧ ∀ (s o l : ℕ) (E : Env s n m o l) (bhat : Fin s → ℝ) (ε η : ℝ),
      Accurate E.T β ε q → 0 ≤ η → (∀ i, SolvesNearby E.ode f p η (E.T.A i i)) →
      (∀ i, SolvesLinearized E.ode f p η (E.T.A i i)) →
      ∃ C h1 : ℝ, 0 < C ∧ 0 < h1 ∧
        ForwardWithin (embBackend E bhat) AnyEnd p τ π y δ t0 t1 h1 (r - ε - η)
          (fun e0 h => K * (e0 + ε + η) + C * h ^ q) := by
  obtain ⟨K, r, hK, hr, hE⟩ := pair_error hq hf hy hδ β
  refine ⟨K, r, hK, hr, fun s o l E bhat ε η hA hη hs hd => ?_⟩
  obtain ⟨C, h1, hC, hh1, H⟩ := hE s o l E ε η hA hη hs hd
  refine ⟨C, h1, hC, hh1, ?_⟩
  intro σ opt h t' fuel w w' i di dO v he hh ht hi hp hτ hπ hrr hv
  subst hi hp hτ hπ
  obtain ⟨k1, hs, k2, u, k3⟩ := any_fwd bhat he hv
  exact ⟨k1, H h t' _ u _ _ hs he.nonneg hh k2 k3 ht (by linarith)⟩

/-- C81 (plain schemes), reverse products: if moreover the adjoint call of the backend is the
transpose of its derivative call, reverse products are the transpose of the exact sensitivities up
to the same error. -/
theorem C81_reverse (hq : 1 ≤ q) (hf : SmoothAll f (q + 1)) (hy : IsSolution f p y t0 t1)
    (hδ : IsSensitivity f p τ π y δ t0 t1) (β : ℝ) :
    ∃ K r : ℝ, 0 < K ∧ 0 < r ∧ ∀ (s o l : ℕ) (E : Env s n m o l) (ε η : ℝ), Accurate E.T β ε q →
      0 ≤ η → (∀ i, SolvesNearby E.ode f p η (E.T.A i i)) →
      (∀ i, SolvesLinearized E.ode f p η (E.T.A i i)) → NoStageState E.ode →
      (∀ lin h i, AdjointPair E.ode lin h (E.T.A i i)) →
      ∃ C h1 : ℝ, 0 < C ∧ 0 < h1 ∧
        ReverseWithin (rkBackend E) rkRestore (fun d => d.stageStates = 0) FixedEnd p τ π y δ t0 t1
          h1 (r - ε - η) (fun e0 h => K * (e0 + ε + η) + C * h ^ q) := by
  obtain ⟨K, r, hK, hr, hE⟩ := C81_forward hq hf hy hδ β
  refine ⟨K, r, hK, hr, fun s o l E ε η hA hη hs hd hz hadj => ?_⟩
  obtain ⟨C, h1, hC, hh1, H⟩ := hE s o l E ε η hA hη hs hd
  refine ⟨C, h1, hC, hh1, reverse_of_forward (rkCore E) (rkLawful E hz) (fun a b h => h) hz hadj
    (fun d i => by simp [rkBackend, rkCacheHit, rkLoad]) ?_ H⟩
  intro opt i dI dO N fuel sched e w hl hN hf hp hw cw
  exact C33_pyrevolve_reverse_partial E hz hl hN hf hp rfl hw rfl cw cw i dI dO

/-- C81 (embedded schemes), reverse products. -/
theorem C81_reverse_embedded (hq : 1 ≤ q) (hf : SmoothAll f (q + 1)) (hy : IsSolution f p y t0 t1)
    (hδ : IsSensitivity f p τ π y δ t0 t1) (β : ℝ) :
    ∃ K r : ℝ, 0 < K ∧ 0 < r ∧ ∀ (s o l : ℕ) (E : Env s n m o l) (bhat : Fin s → ℝ) (ε η : ℝ),
      Accurate E.T β ε q → 0 ≤ η → (∀ i, SolvesNearby E.ode f p η (E.T.A i i)) →
      (∀ i, SolvesLinearized E.ode f p η (E.T.A i i)) → NoStageState E.ode →
      (∀ lin h i, AdjointPair E.ode lin h (E.T.A i i)) →
      ∃ C h1 : ℝ, 0 < C ∧ 0 < h1 ∧
        ReverseWithin (embBackend E bhat) embRestore (fun d => d.stageStates = 0) AnyEnd p τ π y δ
          t0 t1 h1 (r - ε - η) (fun e0 h => K * (e0 + ε + η) + C * h ^ q) := by
  obtain ⟨K, r, hK, hr, hE⟩ := C81_forward_embedded hq hf hy hδ β
  refine ⟨K, r, hK, hr, fun s o l E bhat ε η hA hη hs hd hz hadj => ?_⟩
  obtain ⟨C, h1, hC, hh1, H⟩ := hE s o l E bhat ε η hA hη hs hd
  refine ⟨C, h1, hC, hh1, reverse_of_forward (embCore E bhat) (embLawful E bhat hz)
    (fun a b h => h) hz hadj (fun d i => by simp [embBackend, rkCacheHit, rkLoad]) ?_ H⟩
  intro opt i dI dO N fuel sched e w hl hN hf hp hw cw
  exact C33_embedded_pyrevolve_reverse_partial E bhat hz hl hN hf hp rfl hw rfl cw cw i dI dO

theorem smooth_of_all (h : SmoothAll f q) : Smooth f p q :=
  h.comp (contDiff_fst.prodMk (contDiff_snd.prodMk contDiff_const))

/-- C81 for the explicit shipped plain tableaux: the backend has to evaluate the right-hand side,
its derivative call has to be the derivative of this evaluation, and its adjoint call the transpose
of the derivative call, nothing else. -/
theorem C81_shipped_explicit (hq : 1 ≤ q) (hf : SmoothAll f (q + 1)) (hy : IsSolution f p y t0 t1)
    (hδ : IsSensitivity f p τ π y δ t0 t1) (β : ℝ) :
    ∃ K r : ℝ, 0 < K ∧ 0 < r ∧ ∀ e ∈ plainShipped, e.tab.p = some q → ∑ i, |e.tab.b i| ≤ β →
      StrictlyLower e.tab.A →
      ∀ (o l : ℕ) (E : Env e.tab.stages n m o l) (h0 : ℝ), E.T = e.tab.coeffs → 0 < h0 →
      (∀ h, 0 ≤ h → h ≤ h0 → SolvesStage E.ode f h 0) →
      (∀ h, 0 ≤ h → h ≤ h0 → DifferentiableBackend E.ode h 0) →
      ∃ C h1 : ℝ, 0 < C ∧ 0 < h1 ∧
        ForwardWithin (rkBackend E) FixedEnd p τ π y δ t0 t1 h1 (r - e.tol)
          (fun e0 h => K * (e0 + e.tol) + C * h ^ q) ∧
        (NoStageState E.ode → (∀ lin h, AdjointPair E.ode lin h 0) →
          ReverseWithin (rkBackend E) rkRestore (fun d => d.stageStates = 0) FixedEnd p τ π y δ
            t0 t1 h1 (r - e.tol) (fun e0 h => K * (e0 + e.tol) + C * h ^ q)) := by
  obtain ⟨K, r, hK, hr, hE⟩ := C81_forward hq hf hy hδ β
  refine ⟨K, r, hK, hr, fun e he hp hb hX o l E h0 hT hh0 hs hd => ?_⟩
  have hA : ∀ i, E.T.A i i = 0 := fun i => by
    rw [hT]
    exact hX i i le_rfl
  have hn : SolvesNearby E.ode f p 0 0 := explicit_nearby (smooth_of_all hf) hh0 hs
  have hl : SolvesLinearized E.ode f p 0 0 :=
    linearized_of_differentiable (hf.of_le (by norm_cast; omega)) hh0 hs hd hn
  have hacc : Accurate E.T β e.tol q := by
    obtain ⟨q', g1, g2, g3, g4, g5⟩ := C05_plain_tableaux e he
    obtain rfl : q = q' := Option.some.inj (hp.symm.trans g1)
    rw [hT]
    exact ⟨g4, (abs_nonneg _).trans g2, hb, g3, g5⟩
  obtain ⟨C, h1, hC, hh1, H⟩ := hE _ o l E e.tol 0 hacc le_rfl (fun i => by rw [hA]; exact hn)
    (fun i => by rw [hA]; exact hl)
  simp only [sub_zero, add_zero] at H
  refine ⟨C, h1, hC, hh1, H, fun hz hadj => ?_⟩
  refine reverse_of_forward (rkCore E) (rkLawful E hz) (fun a b h => h) hz
    (fun lin h i => by rw [hA]; exact hadj lin h)
    (fun d i => by simp [rkBackend, rkCacheHit, rkLoad]) ?_ H
  intro opt i dI dO N fuel sched e w hl hN hf hp hw cw
  exact C33_pyrevolve_reverse_partial E hz hl hN hf hp rfl hw rfl cw cw i dI dO

end

/-! ### Concrete cases -/

namespace SensEx

/-- `y' = p y²`. -/
def rhs : Rhs ℝ 1 1 := fun _ y p x => p x * (y x * y x)

/-- The classical Runge-Kutta scheme for it, with exact derivatives. The linearization point consists
of the value and the parameter. -/
noncomputable def env : Env (rungeKuttaFour.map (Rat.castHom ℝ)).stages 1 1 0 2 where
  T := (rungeKuttaFour.map (Rat.castHom ℝ)).coeffs
  ode :=
    { computeUpdate := fun inp h _ => (⟨fun x => inp.independentInput x
        * ((inp.stepInput x + h * inp.stageInput x) * (inp.stepInput x + h * inp.stageInput x)),
          0, 0⟩, ![inp.stepInput 0 + h * inp.stageInput 0, inp.independentInput 0])
      computeUpdateDerivative := fun lin d h _ => ⟨fun x => d.independentInput x * (lin 0 * lin 0)
        + lin 1 * (2 * lin 0 * (d.stepInput x + h * d.stageInput x)), 0, 0⟩
      computeUpdateAdjoint := fun lin d h _ => ⟨fun x => lin 1 * (2 * lin 0) * d.stageUpdate x,
        fun x => h * (lin 1 * (2 * lin 0) * d.stageUpdate x),
        fun x => lin 0 * lin 0 * d.stageUpdate x, 0⟩ }
  fails := fun _ _ => none
  nonfinite := fun _ _ => .error .backend
  measure := fun e _ => fin |e 0|

theorem smooth (q : ℕ) : SmoothAll rhs q := by
  unfold SmoothAll rhs
  fun_prop

theorem jac_eq (t : ℝ) (y p : Fin 1 → ℝ) (τ : ℝ) (d π : Fin 1 → ℝ) :
    jac rhs t y p (τ, d, π) = fun x => π x * (y x * y x) + p x * (2 * y x * d x) := by
  have h1 : HasDerivAt (fun ε : ℝ => ((t, y, p) : ℝ × (Fin 1 → ℝ) × (Fin 1 → ℝ)) + ε • (τ, d, π))
      (τ, d, π) 0 := by
    simpa using ((hasDerivAt_id (0 : ℝ)).smul_const (τ, d, π)).const_add (t, y, p)
  have h2 : HasFDerivAt (fun z : ℝ × (Fin 1 → ℝ) × (Fin 1 → ℝ) => rhs z.1 z.2.1 z.2.2)
      (jac rhs t y p) (((t, y, p) : ℝ × (Fin 1 → ℝ) × (Fin 1 → ℝ)) + (0 : ℝ) • (τ, d, π)) := by
    rw [zero_smul, add_zero]
    exact ((ContDiff.differentiable (smooth 1) (by norm_num)) _).hasFDerivAt
  have h3 := h2.comp_hasDerivAt (0 : ℝ) h1
  refine h3.unique ?_
  rw [hasDerivAt_pi]
  intro x
  have k1 : HasDerivAt (fun ε : ℝ => y x + ε * d x) (d x) 0 := by
    simpa using ((hasDerivAt_id (0 : ℝ)).mul_const (d x)).const_add (y x)
  have k2 : HasDerivAt (fun ε : ℝ => p x + ε * π x) (π x) 0 := by
    simpa using ((hasDerivAt_id (0 : ℝ)).mul_const (π x)).const_add (p x)
  refine (k2.mul (k1.mul k1)).congr_deriv ?_
  simp only [Pi.mul_apply, zero_mul, add_zero]
  ring

noncomputable def sol (t : ℝ) : Fin 1 → ℝ := fun _ => (1 - t)⁻¹

/-- The derivative of the solution in the direction `v` of the initial value and `π` of the
parameter. -/
noncomputable def sens (v π t : ℝ) : Fin 1 → ℝ := fun _ => (v + t * π) * ((1 - t)⁻¹ * (1 - t)⁻¹)

theorem sol_solves : IsSolution rhs (fun _ => 1) sol 0 (1 / 2) := by
  intro t ht
  refine (InexactEx.sol_solves t ht).congr_deriv ?_
  funext x
  simp [rhs, InexactEx.square, sol, InexactEx.sol]

theorem sens_solves (v π : ℝ) :
    IsSensitivity rhs (fun _ => 1) 0 (fun _ => π) sol (sens v π) 0 (1 / 2) := by
  intro t ht
  rw [jac_eq, hasDerivWithinAt_pi]
  intro x
  have h1 : (1 - t) ≠ 0 := by linarith [ht.2]
  have h2 : HasDerivAt (fun t : ℝ => 1 - t) (-1) t := (hasDerivAt_id t).const_sub 1
  have h3 : HasDerivAt (fun t : ℝ => v + t * π) π t := by
    simpa using ((hasDerivAt_id t).mul_const π).const_add v
  have h4 := (h3.mul ((h2.inv h1).mul (h2.inv h1))).hasDerivWithinAt (s := Set.Icc 0 (1 / 2))
  refine h4.congr_deriv ?_
  simp only [sol, sens, Pi.mul_apply, Pi.inv_apply]
  field_simp
  ring

theorem solves (h : ℝ) : SolvesStage env.ode rhs h 0 := by
  intro inp
  funext x
  simp [env, rhs]

theorem differentiable (h : ℝ) : DifferentiableBackend env.ode h 0 := by
  intro inp
  let y : InSpace 1 1 →L[ℝ] ℝ := (ContinuousLinearMap.proj 0).comp
    (ContinuousLinearMap.fst ℝ (Fin 1 → ℝ) ((Fin 1 → ℝ) × (Fin 1 → ℝ) × ℝ))
  let a : InSpace 1 1 →L[ℝ] ℝ := (ContinuousLinearMap.proj 0).comp
    ((ContinuousLinearMap.fst ℝ (Fin 1 → ℝ) ((Fin 1 → ℝ) × ℝ)).comp
      (ContinuousLinearMap.snd ℝ (Fin 1 → ℝ) ((Fin 1 → ℝ) × (Fin 1 → ℝ) × ℝ)))
  let p : InSpace 1 1 →L[ℝ] ℝ := (ContinuousLinearMap.proj 0).comp
    ((ContinuousLinearMap.fst ℝ (Fin 1 → ℝ) ℝ).comp
      ((ContinuousLinearMap.snd ℝ (Fin 1 → ℝ) ((Fin 1 → ℝ) × ℝ)).comp
        (ContinuousLinearMap.snd ℝ (Fin 1 → ℝ) ((Fin 1 → ℝ) × (Fin 1 → ℝ) × ℝ))))
  have h1 : HasFDerivAt (fun z => y z + h * a z) (y + h • a) (ofIn inp) :=
    y.hasFDerivAt.add (a.hasFDerivAt.const_mul h)
  have h2 := p.hasFDerivAt (x := ofIn inp) |>.mul (h1.mul h1)
  have h3 : HasFDerivAt (fun z => (env.ode.computeUpdate (toIn z) h 0).1.stageUpdate)
      (ContinuousLinearMap.pi fun _ => p (ofIn inp) • ((y (ofIn inp) + h * a (ofIn inp)) • (y + h • a)
        + (y (ofIn inp) + h * a (ofIn inp)) • (y + h • a))
        + ((y (ofIn inp) + h * a (ofIn inp)) * (y (ofIn inp) + h * a (ofIn inp))) • p)
      (ofIn inp) := by
    refine hasFDerivAt_pi.mpr fun x => ?_
    refine h2.congr_of_eventuallyEq (Filter.Eventually.of_forall fun z => ?_)
    rw [Fin.fin_one_eq_zero x]
    rfl
  refine ⟨_, h3, fun d => ?_⟩
  funext x
  rw [Fin.fin_one_eq_zero x]
  simp [env, y, a, p, ofIn]
  ring

theorem adjoint (lin : Fin 2 → ℝ) (h : ℝ) : AdjointPair env.ode lin h 0 := by
  intro d k
  simp [env, dotOut, dotIn, dot]
  ring

/-- Forward and reverse products of `y' = p y²` from 1 at time 0 with `p = 1`, where the solution is
`1/(1 - t)`, and its derivative with respect to initial value and parameter in direction `(v, π)` is
`(v + t π)/(1 - t)²`: all forward products over times up to 1/2 with small steps succeed and have
this value up to `C dt^4`, and reverse products with seed `s` (which succeed too) have its
transpose. -/
example (v π s : ℝ) : ∃ C h1 : ℝ, 0 < C ∧ 0 < h1 ∧ ∀ (dt : ℝ) (N : ℕ), 0 ≤ dt → dt < h1 →
    N * dt ≤ 1 / 2 → ∀ w, cacheOk (rkBackend env) w ⟨0, fun _ => 1, fun _ => 1⟩ = false →
    (∃ w' r, fwd (rkBackend env) { adaptive := false, crit := .steps N, initialStep := fin dt }
        (N + 1) w ⟨0, fun _ => 1, fun _ => 1⟩ ⟨0, fun _ => v, fun _ => π⟩ ⟨0, 0⟩ = (w', .ok r) ∧
      |r.values 0 - (v + N * dt * π) / (1 - N * dt) ^ 2| ≤ C * dt ^ 4) ∧
    ∃ w' g, rev (rkBackend env) { adaptive := false, crit := .steps N, initialStep := fin dt }
        (allCk (rkBackend env) { adaptive := false, crit := .steps N, initialStep := fin dt })
        (N + 1) w ⟨0, fun _ => 1, fun _ => 1⟩ ⟨0, fun _ => s⟩ ⟨0, 0, 0⟩ = (w', .ok g) ∧
      |g.initialValues 0 * v + g.independentInputs 0 * π
        - s * ((v + N * dt * π) / (1 - N * dt) ^ 2)| ≤ |s| * (C * dt ^ 4) := by
  obtain ⟨K, r, -, hr, hE⟩ := C81_shipped_explicit (q := 4) (by norm_num) (smooth 5) sol_solves
    (sens_solves v π) (∑ i, |env.T.b i|)
  obtain ⟨C, h1, hC, hh1, hF, hR⟩ := hE ⟨rungeKuttaFour.map (Rat.castHom ℝ), 0⟩
    (by simp [plainShipped]) rfl le_rfl InexactEx.strictly 0 2 env 1 rfl one_pos
    (fun h _ _ => solves h) (fun h _ _ => differentiable h)
  replace hR := hR (fun _ _ _ _ => rfl) adjoint
  refine ⟨C, h1, hC, hh1, fun dt N h0 hdt hN w hca => ?_⟩
  have e3 : ((fun _ => 1 : Fin 1 → ℝ) - sol 0) = 0 := by
    funext x; simp [sol]
  have e4 : ((fun _ => v : Fin 1 → ℝ) - sens v π 0) = 0 := by
    funext x; simp [sens]
  have hend : FixedEnd { adaptive := false, crit := .steps N, initialStep := fin dt } w.ctrl 0 dt
      (0 + N * dt) := .steps rfl rfl rfl h0
  have hsens : sens v π (0 + N * dt) 0 = (v + N * dt * π) / (1 - N * dt) ^ 2 := by
    simp only [sens, zero_add]
    rw [div_eq_mul_inv, pow_two, mul_inv]
  obtain ⟨tr, htr⟩ := exists_run_fixed (B := rkBackend env)
    (opt := { adaptive := false, crit := .steps N, initialStep := fin dt }) (n := N) rfl rfl
    (by simp) w.ctrl (startOfFwd (rkBackend env)
      { adaptive := false, crit := .steps N, initialStep := fin dt } w.ctrl w.tis.disc
      ⟨0, fun _ => 1, fun _ => 1⟩) (fun d => ⟨_, rfl⟩) 0
  have hlen := htr.length_steps rfl (Nat.zero_le _)
  have hf := fwd_of_run (w := w) (fuel := N + 1) htr (by omega) ⟨0, fun _ => v, fun _ => π⟩ ⟨0, 0⟩
  obtain ⟨wr', g, hg⟩ := C14_reverse_succeeds (rkLawful env fun _ _ _ _ => rfl) (wr := w)
    (dO := ⟨0, fun _ => s⟩) (dI := ⟨0, 0, 0⟩) rfl (Prod.ext rfl hf)
  refine ⟨⟨_, _, Prod.ext rfl hf, ?_⟩, _, g, hg, ?_⟩
  · have := (hF _ _ dt _ (N + 1) w _ _ _ _ _ hend hdt (by simpa using hN) rfl rfl rfl rfl
      (by simpa [e3, e4] using hr.le) (Prod.ext rfl hf)).2
    simp only [e3, e4, norm_zero, max_self, zero_add, mul_zero] at this
    refine le_trans ?_ this
    rw [← hsens]
    simp only [zero_add]
    exact norm_le_pi_norm (_ - sens v π (N * dt)) 0
  · have := hR _ w.ctrl dt _ _ _ g _ hend hdt (by simpa using hN) rfl rfl
      (by simpa [e3] using hr.le) (.fresh rfl hca hg)
    simp only [e3, norm_zero, zero_add, mul_zero] at this
    simp only [zero_add] at hsens
    simp only [Finset.univ_unique, Fin.default_eq_zero, Finset.sum_singleton, hsens,
      add_zero] at this
    simpa [sens] using this

end SensEx

end Verif.Props
