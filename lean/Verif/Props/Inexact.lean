/-
Errors of runs whose stage equations are solved up to a residual (C67), and C66 for right-hand sides
that are smooth but not Lipschitz on the whole space.
-/
import Verif.Conv.Nearby
import Verif.Props.Rounded

namespace Verif.Props

open Verif.RK Verif.RK.Spec Verif.Control Verif.XReal Verif.Integrator Verif.Tableau
open Classical

variable {s n m o l : ℕ}

/-- For bounded inputs and small steps the backend returns bounded updates `k` that satisfy the stage
equation `k = f(t, y + h acc + h a k, p)` up to the residual `η`. -/
def SolvesNearby (ode : ODE ℝ n m o l) (f : Rhs ℝ n m) (p : Fin m → ℝ) (η a : ℝ) : Prop :=
  ∀ R : ℝ, ∃ M h1 : ℝ, 0 < h1 ∧ ∀ (h : ℝ) (inp : OdeInput ℝ n m), 0 ≤ h → h ≤ h1 →
    inp.independentInput = p → ‖inp.stepInput‖ ≤ R → ‖inp.stageInput‖ ≤ R → |inp.time| ≤ R →
    ‖(ode.computeUpdate inp h a).1.stageUpdate‖ ≤ M ∧
    ‖(ode.computeUpdate inp h a).1.stageUpdate
      - f inp.time (fun x => inp.stepInput x + h * inp.stageInput x
          + h * a * (ode.computeUpdate inp h a).1.stageUpdate x) p‖ ≤ η

/-- `f` is `q` times continuously differentiable in time and state. -/
def Smooth (f : Rhs ℝ n m) (p : Fin m → ℝ) (q : ℕ) : Prop :=
  ContDiff ℝ q (fun z : ℝ × (Fin n → ℝ) => f z.1 z.2 p)

theorem norm_accumulateStages (T : Coeffs ℝ s) (i : Fin s) (k : Fin s → Fin n → ℝ) {M : ℝ}
    (hM : 0 ≤ M) (hk : ∀ j, j < i → ‖k j‖ ≤ M) : ‖accumulateStages T i k‖ ≤ Conv.total T.A * M := by
  refine (pi_norm_le_iff_of_nonneg (mul_nonneg (Conv.total_nonneg _) hM)).mpr fun x => ?_
  rw [accumulateStages_apply]
  calc ‖∑ j ∈ Finset.univ.filter (fun j : Fin s => j < i), T.A i j * k j x‖
      ≤ ∑ j ∈ Finset.univ.filter (fun j : Fin s => j < i), |T.A i j| * M := by
        refine norm_sum_le_of_le _ fun j hj => ?_
        rw [norm_mul, Real.norm_eq_abs]
        exact mul_le_mul_of_nonneg_left
          ((norm_le_pi_norm (k j) x).trans (hk j (Finset.mem_filter.mp hj).2)) (abs_nonneg _)
    _ = (∑ j ∈ Finset.univ.filter (fun j : Fin s => j < i), |T.A i j|) * M := by
        rw [Finset.sum_mul]
    _ ≤ Conv.total T.A * M := by
        refine mul_le_mul_of_nonneg_right ?_ hM
        refine (Finset.sum_le_sum_of_subset_of_nonneg (Finset.filter_subset _ _)
          fun _ _ _ => abs_nonneg _).trans ?_
        exact Finset.single_le_sum (f := fun i => ∑ j, |T.A i j|)
          (fun _ _ => Finset.sum_nonneg fun _ _ => abs_nonneg _) (Finset.mem_univ i)

/-- The stages of steps from a bounded set are bounded and satisfy the stage system up to `η`. -/
theorem nearby_result {E : Env s n m o l} {f : Rhs ℝ n m} {p : Fin m → ℝ} {η : ℝ}
    (hT : LowerTriangular E.T.A) (hs : ∀ i, SolvesNearby E.ode f p η (E.T.A i i)) (R : ℝ) :
    ∃ M h1 : ℝ, 0 < h1 ∧ ∀ h t u (r : RKState ℝ s n m o l), StepResult E.T E.ode h t u p r → 0 ≤ h →
      h ≤ h1 → |t| ≤ R → ‖u‖ ≤ R →
      Conv.InexactStages η E.T.A E.T.c (fun t y => f t y p) h t u r.stageUpdates ∧
        ‖r.stageUpdates‖ ≤ M := by
  have key : ∀ q : ℕ, ∃ M h1 : ℝ, 0 ≤ M ∧ 0 < h1 ∧ ∀ h t u (r : RKState ℝ s n m o l),
      StepResult E.T E.ode h t u p r → 0 ≤ h → h ≤ h1 → |t| ≤ R → ‖u‖ ≤ R →
      ∀ i : Fin s, i.val < q → ‖r.stageUpdates i‖ ≤ M ∧
        ‖r.stageUpdates i - f (t + E.T.c i * h) (u + h • ∑ j, E.T.A i j • r.stageUpdates j) p‖
          ≤ η := by
    intro q
    induction q with
    | zero => exact ⟨0, 1, le_rfl, one_pos, fun _ _ _ _ _ _ _ _ _ i hi => absurd hi (by omega)⟩
    | succ q ih =>
      obtain ⟨M, h1, hM, hh1, H⟩ := ih
      by_cases hq : q < s
      · set i₀ : Fin s := ⟨q, hq⟩
        obtain ⟨M', h1', hh1', H'⟩ := hs i₀ (max (R + |E.T.c i₀|) (max R (Conv.total E.T.A * M)))
        refine ⟨max M M', min 1 (min h1 h1'), hM.trans (le_max_left _ _),
          lt_min one_pos (lt_min hh1 hh1'), fun h t u r hr h0 hle ht hu i hi => ?_⟩
        have hle1 : h ≤ 1 := hle.trans (min_le_left _ _)
        have hle2 : h ≤ h1 := hle.trans ((min_le_right _ _).trans (min_le_left _ _))
        have hle3 : h ≤ h1' := hle.trans ((min_le_right _ _).trans (min_le_right _ _))
        have Hi := H h t u r hr h0 hle2 ht hu
        by_cases hiq : i.val < q
        · exact ⟨(Hi i hiq).1.trans (le_max_left _ _), (Hi i hiq).2⟩
        · have hi0 : i₀ = i := Fin.ext (by change q = i.val; omega)
          rw [hi0] at H'
          have hacc : ‖accumulateStages E.T i r.stageUpdates‖ ≤ Conv.total E.T.A * M :=
            norm_accumulateStages E.T i _ hM fun j hj => (Hi j (by
              have : j.val < i.val := hj
              omega)).1
          have htime : |t + h * E.T.c i| ≤ R + |E.T.c i| := by
            refine (abs_add_le _ _).trans (add_le_add ht ?_)
            rw [abs_mul, abs_of_nonneg h0]
            exact mul_le_of_le_one_left (abs_nonneg _) hle1
          have := H' h (stageIn E.T h t u p r.stageUpdates i) h0 hle3 rfl
            (hu.trans ((le_max_left _ _).trans (le_max_right _ _)))
            (hacc.trans ((le_max_right _ _).trans (le_max_right _ _)))
            (htime.trans (le_max_left _ _))
          rw [← hr.update i] at this
          refine ⟨this.1.trans (le_max_right _ _), ?_⟩
          have e := this.2
          have h2 := stageInput_eq E.T.A E.T.b E.T.c hT h u r.stageUpdates i
          simp only [stageIn] at e
          rw [h2, mul_comm h (E.T.c i)] at e
          have h3 : (fun x => u x + h * ∑ j, E.T.A i j * r.stageUpdates j x)
              = u + h • ∑ j, E.T.A i j • r.stageUpdates j := by
            funext x
            simp [Finset.sum_apply]
          rw [h3] at e
          exact e
      · refine ⟨M, h1, hM, hh1, fun h t u r hr h0 hle ht hu i hi => ?_⟩
        exact H h t u r hr h0 hle ht hu i (by omega)
  obtain ⟨M, h1, hM, hh1, H⟩ := key s
  refine ⟨M, h1, hh1, fun h t u r hr h0 hle ht hu => ?_⟩
  have Hi := H h t u r hr h0 hle ht hu
  exact ⟨fun i => (Hi i i.2).2, (pi_norm_le_iff_of_nonneg hM).mpr fun i => (Hi i i.2).1⟩

/-- Steps from a bounded set are steps with inexact stages. -/
theorem nearby_stages {E : Env s n m o l} {f : Rhs ℝ n m} {p : Fin m → ℝ} {η : ℝ}
    (hT : LowerTriangular E.T.A) (hs : ∀ i, SolvesNearby E.ode f p η (E.T.A i i)) (R : ℝ) :
    ∃ M h1 : ℝ, 0 < h1 ∧ ∀ h t u u₁, 0 ≤ h → h ≤ h1 → |t| ≤ R → ‖u‖ ≤ R → StepOf E p h t u u₁ →
      ∃ k, Conv.InexactStages η E.T.A E.T.c (fun t y => f t y p) h t u k ∧ ‖k‖ ≤ M ∧
        u₁ = u + h • ∑ i, E.T.b i • k i := by
  obtain ⟨M, h1, hh1, H⟩ := nearby_result hT hs R
  refine ⟨M, h1, hh1, fun h t u u₁ h0 hle ht hu hst => ?_⟩
  obtain ⟨st, rfl, rfl, rfl, rfl⟩ := hst
  have hr := computeStep_result E.T E.ode st h
  obtain ⟨g1, g2⟩ := H h _ _ _ hr h0 hle ht hu
  refine ⟨_, g1, g2, ?_⟩
  rw [hr.finalState]
  funext x
  rw [accumulateStep_apply]
  simp [Finset.sum_apply]

section
variable {f : Rhs ℝ n m} {p : Fin m → ℝ} {q : ℕ} {y : ℝ → Fin n → ℝ} {t0 t1 : ℝ}

/-- The error of sequences of steps of the discretization near the solution. -/
theorem nearby_error (hq : 1 ≤ q) (hf : Smooth f p q) (hy : IsSolution f p y t0 t1) (β : ℝ) :
    ∃ K r : ℝ, 0 < K ∧ 0 < r ∧ ∀ (s o l : ℕ) (E : Env s n m o l) (ε η : ℝ), Accurate E.T β ε q →
      0 ≤ η → (∀ i, SolvesNearby E.ode f p η (E.T.A i i)) →
      ∃ C δ : ℝ, 0 < C ∧ 0 < δ ∧ ∀ (H t' : ℝ) (u u' : Fin n → ℝ) (hs : List ℝ), 0 ≤ H → H < δ →
        (∀ h ∈ hs, 0 ≤ h ∧ h ≤ H) → IsSteps (StepOf E p) t0 u hs t' u' → t' ≤ t1 →
        ‖u - y t0‖ + ε + η ≤ r → ‖u' - y t'‖ ≤ K * (‖u - y t0‖ + ε + η) + C * H ^ q := by
  obtain ⟨K, r, R, hK, hr, hE⟩ := Conv.convergence_nearby (f := fun t y => f t y p) hq hf hy β
  refine ⟨K, r, hK, hr, fun s o l E ε η hA hη hs => ?_⟩
  obtain ⟨M, h1, hh1, hM⟩ := nearby_stages hA.lower hs (max R (|t0| + |t1|))
  obtain ⟨C, δ, hC, hδ, hE⟩ := hE s E.T.A E.T.b E.T.c ε M hA.nonneg hA.weights hA.rows hA.order
  refine ⟨C, min δ h1, hC, lt_min hδ hh1, fun H t' u u' hl h0 hH hb hst ht' hle => ?_⟩
  refine hE (StepOf E p) H t' η u u' hl h0 (hH.trans_le (min_le_left _ _)) hη ?_ hb hst ht' hle
  intro h t u u₁ g0 g1 g2 g3 g4 g5
  refine hM h t u u₁ g0 (g1.trans (hH.trans_le (min_le_right _ _)).le) ?_
    (g4.trans (le_max_left _ _)) g5
  refine le_trans ?_ (le_max_right _ _)
  rw [abs_le]
  constructor <;> linarith [neg_abs_le t0, le_abs_self t1, abs_nonneg t0, abs_nonneg t1]

/-- C67, plain schemes: for a smooth problem there are constants `K` and `r`, depending on the
problem and a bound of the weights only, such that for any scheme of accuracy `ε` and any backend
solving the stage equations near the solution with residuals of at most `η` there are constants
`C` and `δ`: runs with steps smaller than `δ` have an error of at most
`K (error of the initial values + ε + η) + C dt^q`, if the bracket is at most `r`. In particular the
effect of the residuals does not grow with the number of steps. -/
theorem C67_fixed (hq : 1 ≤ q) (hf : Smooth f p q) (hy : IsSolution f p y t0 t1) (β : ℝ) :
    ∃ K r : ℝ, 0 < K ∧ 0 < r ∧ ∀ (s o l : ℕ) (E : Env s n m o l) (ε η : ℝ), Accurate E.T β ε q →
      0 ≤ η → (∀ i, SolvesNearby E.ode f p η (E.T.A i i)) →
      ∃ C δ : ℝ, 0 < C ∧ 0 < δ ∧
        StepsWithin (rkBackend E) p y t0 t1 δ (r - ε - η)
          (fun e0 h => K * (e0 + ε + η) + C * h ^ q) ∧
        FinalTimeWithin (rkBackend E) p y t0 t1 δ (r - ε - η)
          (fun e0 h => K * (e0 + ε + η) + C * h ^ q) ∧
        PyrevolveWithin (rkBackend E) rkRestore p y t0 t1 δ (r - ε - η)
          (fun e0 h => K * (e0 + ε + η) + C * h ^ q) := by
  obtain ⟨K, r, hK, hr, hE⟩ := nearby_error hq hf hy β
  refine ⟨K, r, hK, hr, fun s o l E ε η hA hη hs => ?_⟩
  obtain ⟨C, δ, hC, hδ, hE⟩ := hE s o l E ε η hA hη hs
  exact ⟨C, δ, hC, hδ, runs_of_steps (rkCore E) (fun _ => rfl) (R := rkRestore)
    (err := fun e0 h => K * (e0 + ε + η) + C * h ^ q) (fun _ _ => rfl)
    fun H t' u u' hs g0 g1 g2 g3 g4 g5 => hE H t' u u' hs g0 g1 g2 g3 g4 (by linarith)⟩

/-- C67, embedded schemes with fixed or adaptive steps. -/
theorem C67_embedded (hq : 1 ≤ q) (hf : Smooth f p q) (hy : IsSolution f p y t0 t1) (β : ℝ) :
    ∃ K r : ℝ, 0 < K ∧ 0 < r ∧ ∀ (s o l : ℕ) (E : Env s n m o l) (bhat : Fin s → ℝ) (ε η : ℝ),
      Accurate E.T β ε q → 0 ≤ η → (∀ i, SolvesNearby E.ode f p η (E.T.A i i)) →
      ∃ C δ : ℝ, 0 < C ∧ 0 < δ ∧
        StepsWithin (embBackend E bhat) p y t0 t1 δ (r - ε - η)
          (fun e0 h => K * (e0 + ε + η) + C * h ^ q) ∧
        FinalTimeWithin (embBackend E bhat) p y t0 t1 δ (r - ε - η)
          (fun e0 h => K * (e0 + ε + η) + C * h ^ q) ∧
        PyrevolveWithin (embBackend E bhat) embRestore p y t0 t1 δ (r - ε - η)
          (fun e0 h => K * (e0 + ε + η) + C * h ^ q) ∧
        AdaptiveWithin E bhat p y t0 t1 δ (r - ε - η)
          (fun e0 h => K * (e0 + ε + η) + C * h ^ q) := by
  obtain ⟨K, r, hK, hr, hE⟩ := nearby_error hq hf hy β
  refine ⟨K, r, hK, hr, fun s o l E bhat ε η hA hη hs => ?_⟩
  obtain ⟨C, δ, hC, hδ, hE⟩ := hE s o l E ε η hA hη hs
  have hst : ∀ (H t' : ℝ) (u u' : Fin n → ℝ) (hs : List ℝ), 0 ≤ H → H < δ →
        (∀ h ∈ hs, 0 ≤ h ∧ h ≤ H) → IsSteps (StepOf E p) t0 u hs t' u' → t' ≤ t1 →
        ‖u - y t0‖ ≤ r - ε - η → ‖u' - y t'‖ ≤ K * (‖u - y t0‖ + ε + η) + C * H ^ q :=
    fun H t' u u' hs g0 g1 g2 g3 g4 g5 => hE H t' u u' hs g0 g1 g2 g3 g4 (by linarith)
  obtain ⟨g1, g2, g3⟩ := runs_of_steps (embCore E bhat) (fun _ => rfl) (R := embRestore)
    (err := fun e0 h => K * (e0 + ε + η) + C * h ^ q) (fun _ _ => rfl) hst
  exact ⟨C, δ, hC, hδ, g1, g2, g3,
    adaptive_of_steps (err := fun e0 h => K * (e0 + ε + η) + C * h ^ q) bhat hst⟩

/-- C66 for smooth right-hand sides that need not be Lipschitz, plain schemes: near the solution
and with stage equations solved exactly there for small steps. -/
theorem C66_smooth (hq : 1 ≤ q) (hf : Smooth f p q) (hy : IsSolution f p y t0 t1) (β : ℝ) :
    ∃ K r : ℝ, 0 < K ∧ 0 < r ∧ ∀ (s o l : ℕ) (E : Env s n m o l) (ε : ℝ), Accurate E.T β ε q →
      (∀ i, SolvesNearby E.ode f p 0 (E.T.A i i)) →
      ∃ C δ : ℝ, 0 < C ∧ 0 < δ ∧
        StepsWithin (rkBackend E) p y t0 t1 δ (r - ε) (fun e0 h => K * (e0 + ε) + C * h ^ q) ∧
        FinalTimeWithin (rkBackend E) p y t0 t1 δ (r - ε)
          (fun e0 h => K * (e0 + ε) + C * h ^ q) ∧
        PyrevolveWithin (rkBackend E) rkRestore p y t0 t1 δ (r - ε)
          (fun e0 h => K * (e0 + ε) + C * h ^ q) := by
  obtain ⟨K, r, hK, hr, hE⟩ := C67_fixed hq hf hy β
  refine ⟨K, r, hK, hr, fun s o l E ε hA hs => ?_⟩
  simpa only [sub_zero, add_zero] using hE s o l E ε 0 hA le_rfl hs

/-- C66 for smooth right-hand sides, embedded schemes. -/
theorem C66_smooth_embedded (hq : 1 ≤ q) (hf : Smooth f p q) (hy : IsSolution f p y t0 t1)
    (β : ℝ) :
    ∃ K r : ℝ, 0 < K ∧ 0 < r ∧ ∀ (s o l : ℕ) (E : Env s n m o l) (bhat : Fin s → ℝ) (ε : ℝ),
      Accurate E.T β ε q → (∀ i, SolvesNearby E.ode f p 0 (E.T.A i i)) →
      ∃ C δ : ℝ, 0 < C ∧ 0 < δ ∧
        StepsWithin (embBackend E bhat) p y t0 t1 δ (r - ε)
          (fun e0 h => K * (e0 + ε) + C * h ^ q) ∧
        FinalTimeWithin (embBackend E bhat) p y t0 t1 δ (r - ε)
          (fun e0 h => K * (e0 + ε) + C * h ^ q) ∧
        PyrevolveWithin (embBackend E bhat) embRestore p y t0 t1 δ (r - ε)
          (fun e0 h => K * (e0 + ε) + C * h ^ q) ∧
        AdaptiveWithin E bhat p y t0 t1 δ (r - ε) (fun e0 h => K * (e0 + ε) + C * h ^ q) := by
  obtain ⟨K, r, hK, hr, hE⟩ := C67_embedded hq hf hy β
  refine ⟨K, r, hK, hr, fun s o l E bhat ε hA hs => ?_⟩
  simpa only [sub_zero, add_zero] using hE s o l E bhat ε 0 hA le_rfl hs

/-- Backends that solve the explicit stage equations do so with bounded updates. -/
theorem explicit_nearby {ode : ODE ℝ n m o l} {h1 : ℝ} (hf : Smooth f p q) (hh1 : 0 < h1)
    (hs : ∀ h, 0 ≤ h → h ≤ h1 → SolvesStage ode f h 0) : SolvesNearby ode f p 0 0 := by
  intro R
  obtain ⟨M, hM⟩ := (isCompact_Icc.prod (isCompact_closedBall (0 : Fin n → ℝ) (R + h1 * R)))
    |>.exists_bound_of_continuousOn (s := Set.Icc (-R) R ×ˢ Metric.closedBall 0 (R + h1 * R))
      hf.continuous.continuousOn
  refine ⟨M, h1, hh1, fun h inp h0 hle hp g1 g2 g3 => ?_⟩
  have e := hs h h0 hle inp
  rw [hp] at e
  refine ⟨?_, by rw [← e, sub_self, norm_zero]⟩
  rw [e]
  refine hM (inp.time, _) ⟨⟨by linarith [neg_abs_le inp.time], by linarith [le_abs_self inp.time]⟩,
    ?_⟩
  rw [mem_closedBall_zero_iff]
  have : (fun x => inp.stepInput x + h * inp.stageInput x
      + h * 0 * (ode.computeUpdate inp h 0).1.stageUpdate x)
      = inp.stepInput + h • inp.stageInput := by
    funext x
    simp
  change ‖fun x => inp.stepInput x + h * inp.stageInput x
      + h * 0 * (ode.computeUpdate inp h 0).1.stageUpdate x‖ ≤ _
  rw [this]
  refine (norm_add_le _ _).trans (add_le_add g1 ?_)
  rw [norm_smul, Real.norm_of_nonneg h0]
  exact mul_le_mul hle g2 (norm_nonneg _) hh1.le

/-- C66 for the explicit shipped plain tableaux and any smooth right-hand side: the backend has to
evaluate the right-hand side, nothing else. -/
theorem C66_shipped_explicit (hq : 1 ≤ q) (hf : Smooth f p q) (hy : IsSolution f p y t0 t1) (β : ℝ) :
    ∃ K r : ℝ, 0 < K ∧ 0 < r ∧ ∀ e ∈ plainShipped, e.tab.p = some q → ∑ i, |e.tab.b i| ≤ β →
      StrictlyLower e.tab.A →
      ∀ (o l : ℕ) (E : Env e.tab.stages n m o l) (h1 : ℝ), E.T = e.tab.coeffs → 0 < h1 →
      (∀ h, 0 ≤ h → h ≤ h1 → SolvesStage E.ode f h 0) →
      ∃ C δ : ℝ, 0 < C ∧ 0 < δ ∧
        StepsWithin (rkBackend E) p y t0 t1 δ (r - e.tol)
          (fun e0 h => K * (e0 + e.tol) + C * h ^ q) ∧
        FinalTimeWithin (rkBackend E) p y t0 t1 δ (r - e.tol)
          (fun e0 h => K * (e0 + e.tol) + C * h ^ q) ∧
        PyrevolveWithin (rkBackend E) rkRestore p y t0 t1 δ (r - e.tol)
          (fun e0 h => K * (e0 + e.tol) + C * h ^ q) := by
  obtain ⟨K, r, hK, hr, hE⟩ := C66_smooth hq hf hy β
  refine ⟨K, r, hK, hr, fun e he hp hb hX o l E h1 hT hh1 hs => hE _ o l E e.tol ?_ fun i => ?_⟩
  · obtain ⟨q', g1, g2, g3, g4, g5⟩ := C05_plain_tableaux e he
    obtain rfl : q = q' := Option.some.inj (hp.symm.trans g1)
    rw [hT]
    exact ⟨g4, (abs_nonneg _).trans g2, hb, g3, g5⟩
  · have : E.T.A i i = 0 := by
      rw [hT]
      exact hX i i le_rfl
    rw [this]
    exact explicit_nearby hf hh1 hs

end

/-! ### Concrete cases -/

namespace InexactEx

/-- `y' = y²`, which is not Lipschitz. -/
def square : Rhs ℝ 1 1 := fun _ y _ x => y x * y x

/-- The classical Runge-Kutta scheme for it, with an error `η` in each evaluation. -/
noncomputable def envS (η : ℝ) : Env (rungeKuttaFour.map (Rat.castHom ℝ)).stages 1 1 0 0 where
  T := (rungeKuttaFour.map (Rat.castHom ℝ)).coeffs
  ode :=
    { computeUpdate := fun inp h _ => (⟨fun x => (inp.stepInput x + h * inp.stageInput x)
        * (inp.stepInput x + h * inp.stageInput x) + η, 0, 0⟩, 0)
      computeUpdateDerivative := fun _ _ _ _ => ⟨0, 0, 0⟩
      computeUpdateAdjoint := fun _ _ _ _ => ⟨0, 0, 0, 0⟩ }
  fails := fun _ _ => none
  nonfinite := fun _ _ => .error .backend
  measure := fun e _ => fin |e 0|

noncomputable def sol (t : ℝ) : Fin 1 → ℝ := fun _ => (1 - t)⁻¹

theorem smooth (q : ℕ) : Smooth square (fun _ => 0) q := by
  unfold Smooth square
  fun_prop

theorem sol_solves : IsSolution square (fun _ => 0) sol 0 (1 / 2) := by
  intro t ht
  rw [hasDerivWithinAt_pi]
  intro x
  have h1 : (1 - t) ≠ 0 := by linarith [ht.2]
  have h2 : HasDerivAt (fun t : ℝ => 1 - t) (-1) t := by
    exact (hasDerivAt_id t).const_sub 1
  have h3 := (h2.inv h1).hasDerivWithinAt (s := Set.Icc 0 (1 / 2))
  refine h3.congr_deriv ?_
  simp only [square, sol]
  field_simp

theorem strictly : StrictlyLower (rungeKuttaFour.map (Rat.castHom ℝ)).A := by
  intro i j hij
  have h : ∀ i j, i ≤ j → rungeKuttaFour.A i j = 0 := by decide +kernel
  change ((rungeKuttaFour.A i j : ℚ) : ℝ) = 0
  rw [h i j hij, Rat.cast_zero]

theorem solves (h : ℝ) : SolvesStage (envS 0).ode square h 0 := by
  intro inp
  funext x
  simp [envS, square]

/-- `y' = y²` from the exact value 1 at time 0: all runs with small steps that stay below time 1/2
succeed and have an error of at most `C dt^4`. -/
example (ch : Choice) : ∃ C δ : ℝ, 0 < C ∧ 0 < δ ∧ ∀ (dt : ℝ) (N : ℕ), 0 ≤ dt → dt < δ →
    N * dt ≤ 1 / 2 → ∀ w, ∃ w' v, compute (rkBackend (envS 0))
      { adaptive := false, crit := .steps N, initialStep := fin dt }
      (ch.ck (rkBackend (envS 0)) { adaptive := false, crit := .steps N, initialStep := fin dt })
      (N + 1) w ⟨0, fun _ => 1, fun _ => 0⟩ = (w', .ok v) ∧
      ‖v.values - sol v.time‖ ≤ C * dt ^ 4 := by
  obtain ⟨K, r, -, hr, hE⟩ := C66_shipped_explicit (q := 4) (by norm_num) (smooth 4) sol_solves
    (∑ i, |(envS 0).T.b i|)
  obtain ⟨C, δ, hC, hδ, hR, -, -⟩ := hE ⟨rungeKuttaFour.map (Rat.castHom ℝ), 0⟩
    (by simp [plainShipped]) rfl le_rfl strictly 0 0 (envS 0) 1 rfl one_pos (fun h _ _ => solves h)
  refine ⟨C, δ, hC, hδ, fun dt N h0 hdt hN w => ?_⟩
  obtain ⟨w', v, hv⟩ := Integrator.Ex.compute_ok (envS 0) (fun _ _ => rfl)
    { adaptive := false, crit := .steps N, initialStep := fin dt } dt N rfl rfl rfl (by simp) ch w
    ⟨0, fun _ => 1, fun _ => 0⟩ (N + 1) (Nat.lt_succ_self N)
  have e3 : ((fun _ => 1 : Fin 1 → ℝ) - sol 0) = 0 := by
    funext x; simp [sol]
  obtain ⟨-, e2⟩ := hR _ dt N (N + 1) ch w w' _ v rfl rfl rfl h0 hdt rfl rfl
    (by simpa [e3] using hr.le) (by simpa using hN) hv
  refine ⟨w', v, hv, ?_⟩
  simp only [e3, norm_zero, zero_add, mul_zero] at e2
  exact e2

theorem accurate (η : ℝ) : Accurate (envS η).T (∑ i, |(envS η).T.b i|) 0 4 := by
  obtain ⟨q', g1, g2, g3, g4, g5⟩ := C05_plain_tableaux
    ⟨rungeKuttaFour.map (Rat.castHom ℝ), 0⟩ (by simp [plainShipped])
  obtain rfl : 4 = q' := Option.some.inj g1
  exact ⟨g4, le_rfl, le_rfl, g3, g5⟩

theorem inexact (η : ℝ) (hη : 0 ≤ η) : SolvesNearby (envS η).ode square (fun _ => 0) η 0 := by
  intro R
  obtain ⟨M, h1, hh1, H⟩ := explicit_nearby (smooth 1) one_pos (fun h _ _ => solves h) R
  refine ⟨M + η, h1, hh1, fun h inp g0 g1 g2 g3 g4 g5 => ?_⟩
  obtain ⟨e1, -⟩ := H h inp g0 g1 g2 g3 g4 g5
  have e : ((envS η).ode.computeUpdate inp h 0).1.stageUpdate
      = ((envS 0).ode.computeUpdate inp h 0).1.stageUpdate + fun _ => η := by
    funext x
    simp [envS]
  have hc : ‖(fun _ => η : Fin 1 → ℝ)‖ ≤ η :=
    (pi_norm_le_iff_of_nonneg hη).mpr fun _ => (Real.norm_of_nonneg hη).le
  refine ⟨?_, ?_⟩
  · rw [e]
    exact (norm_add_le _ _).trans (add_le_add e1 hc)
  · refine le_trans (le_of_eq (congrArg _ ?_)) hc
    funext x
    simp [envS, square]

/-- With errors in the evaluations: there are constants `K` and `r` such that for every `η < r` the
runs have an error of at most `K η + C dt^4`. -/
example (ch : Choice) : ∃ K r : ℝ, 0 < r ∧ ∀ η, 0 ≤ η → η ≤ r → ∃ C δ : ℝ, 0 < C ∧ 0 < δ ∧
    ∀ (dt : ℝ) (N : ℕ), 0 ≤ dt → dt < δ → N * dt ≤ 1 / 2 → ∀ w, ∃ w' v,
      compute (rkBackend (envS η))
      { adaptive := false, crit := .steps N, initialStep := fin dt }
      (ch.ck (rkBackend (envS η)) { adaptive := false, crit := .steps N, initialStep := fin dt })
      (N + 1) w ⟨0, fun _ => 1, fun _ => 0⟩ = (w', .ok v) ∧
      ‖v.values - sol v.time‖ ≤ K * η + C * dt ^ 4 := by
  obtain ⟨K, r, -, hr, hE⟩ := C67_fixed (q := 4) (by norm_num) (smooth 4) sol_solves
    (∑ i, |(envS 0).T.b i|)
  refine ⟨K, r, hr, fun η hη hηr => ?_⟩
  obtain ⟨C, δ, hC, hδ, hR, -, -⟩ := hE _ 0 0 (envS η) 0 η (accurate η) hη fun i => by
    have : (envS η).T.A i i = 0 := strictly i i le_rfl
    rw [this]
    exact inexact η hη
  refine ⟨C, δ, hC, hδ, fun dt N h0 hdt hN w => ?_⟩
  obtain ⟨w', v, hv⟩ := Integrator.Ex.compute_ok (envS η) (fun _ _ => rfl)
    { adaptive := false, crit := .steps N, initialStep := fin dt } dt N rfl rfl rfl (by simp) ch w
    ⟨0, fun _ => 1, fun _ => 0⟩ (N + 1) (Nat.lt_succ_self N)
  have e3 : ((fun _ => 1 : Fin 1 → ℝ) - sol 0) = 0 := by
    funext x; simp [sol]
  obtain ⟨-, e2⟩ := hR _ dt N (N + 1) ch w w' _ v rfl rfl rfl h0 hdt rfl rfl
    (by simpa [e3] using hηr) (by simpa using hN) hv
  refine ⟨w', v, hv, ?_⟩
  simp only [e3, norm_zero, zero_add, add_zero] at e2
  exact e2

end InexactEx

end Verif.Props
