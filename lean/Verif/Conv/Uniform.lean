/-
Errors of runs whose stage equations are solved up to a residual that depends on the size of the
inputs, with constants that do not depend on the backend (used for C87).
-/
import Verif.Props.Inexact
import Verif.Props.Pseudo

namespace Verif.Props

open Verif.RK Verif.RK.Spec Verif.Control Verif.XReal Verif.Integrator Verif.Tableau
open Classical

variable {s n m o l : ℕ}

/-- For inputs bounded by `R` and steps up to `h1 R` the backend returns updates bounded by `M R`
that satisfy the stage equation up to the residual `η R`. -/
def SolvesUpTo (M h1 η : ℝ → ℝ) (ode : ODE ℝ n m o l) (f : Rhs ℝ n m) (p : Fin m → ℝ) (a : ℝ) :
    Prop :=
  ∀ (R h : ℝ) (inp : OdeInput ℝ n m), 0 ≤ h → h ≤ h1 R →
    inp.independentInput = p → ‖inp.stepInput‖ ≤ R → ‖inp.stageInput‖ ≤ R → |inp.time| ≤ R →
    ‖(ode.computeUpdate inp h a).1.stageUpdate‖ ≤ M R ∧
    ‖(ode.computeUpdate inp h a).1.stageUpdate
      - f inp.time (fun x => inp.stepInput x + h * inp.stageInput x
          + h * a * (ode.computeUpdate inp h a).1.stageUpdate x) p‖ ≤ η R

/-- The stages of steps from a bounded set. -/
theorem upTo_result (T : Coeffs ℝ s) (hT : LowerTriangular T.A) (f : Rhs ℝ n m) (p : Fin m → ℝ)
    {M h1 : ℝ → ℝ} (hh1 : ∀ R, 0 < h1 R) (R : ℝ) :
    ∃ R' M' h' : ℝ, 0 < h' ∧ ∀ (o l : ℕ) (ode : ODE ℝ n m o l) (η : ℝ → ℝ), Monotone η →
      (∀ i, SolvesUpTo M h1 η ode f p (T.A i i)) →
      ∀ h t u (r : RKState ℝ s n m o l), StepResult T ode h t u p r → 0 ≤ h → h ≤ h' → |t| ≤ R →
      ‖u‖ ≤ R →
      Conv.InexactStages (η R') T.A T.c (fun t y => f t y p) h t u r.stageUpdates ∧
        ‖r.stageUpdates‖ ≤ M' := by
  have key : ∀ q : ℕ, ∃ R' M' h' : ℝ, 0 ≤ M' ∧ 0 < h' ∧
      ∀ (o l : ℕ) (ode : ODE ℝ n m o l) (η : ℝ → ℝ), Monotone η →
      (∀ i, SolvesUpTo M h1 η ode f p (T.A i i)) →
      ∀ h t u (r : RKState ℝ s n m o l), StepResult T ode h t u p r → 0 ≤ h → h ≤ h' → |t| ≤ R →
      ‖u‖ ≤ R → ∀ i : Fin s, i.val < q → ‖r.stageUpdates i‖ ≤ M' ∧
        ‖r.stageUpdates i - f (t + T.c i * h) (u + h • ∑ j, T.A i j • r.stageUpdates j) p‖
          ≤ η R' := by
    intro q
    induction q with
    | zero =>
      exact ⟨0, 0, 1, le_rfl, one_pos, fun _ _ _ _ _ _ _ _ _ _ _ _ _ _ _ i hi => absurd hi (by omega)⟩
    | succ q ih =>
      obtain ⟨R', M', h', hM', hh', H⟩ := ih
      by_cases hq : q < s
      · set i₀ : Fin s := ⟨q, hq⟩
        set Q := max (R + |T.c i₀|) (max R (Conv.total T.A * M')) with hQ
        refine ⟨max R' Q, max M' (M Q), min 1 (min h' (h1 Q)), hM'.trans (le_max_left _ _),
          lt_min one_pos (lt_min hh' (hh1 _)),
          fun o l ode η hη hs h t u r hr h0 hle ht hu i hi => ?_⟩
        have hle1 : h ≤ 1 := hle.trans (min_le_left _ _)
        have hle2 : h ≤ h' := hle.trans ((min_le_right _ _).trans (min_le_left _ _))
        have hle3 : h ≤ h1 Q := hle.trans ((min_le_right _ _).trans (min_le_right _ _))
        have Hi := H o l ode η hη hs h t u r hr h0 hle2 ht hu
        by_cases hiq : i.val < q
        · exact ⟨(Hi i hiq).1.trans (le_max_left _ _), (Hi i hiq).2.trans (hη (le_max_left _ _))⟩
        · have hi0 : i₀ = i := Fin.ext (by change q = i.val; omega)
          have hacc : ‖accumulateStages T i r.stageUpdates‖ ≤ Conv.total T.A * M' :=
            norm_accumulateStages T i _ hM' fun j hj => (Hi j (by
              have : j.val < i.val := hj
              omega)).1
          have htime : |t + h * T.c i| ≤ R + |T.c i| := by
            refine (abs_add_le _ _).trans (add_le_add ht ?_)
            rw [abs_mul, abs_of_nonneg h0]
            exact mul_le_of_le_one_left (abs_nonneg _) hle1
          rw [hi0] at hQ
          have := hs i Q h (stageIn T h t u p r.stageUpdates i) h0 hle3 rfl
            (hu.trans (hQ ▸ (le_max_left _ _).trans (le_max_right _ _)))
            (hacc.trans (hQ ▸ (le_max_right _ _).trans (le_max_right _ _)))
            (htime.trans (hQ ▸ le_max_left _ _))
          rw [← hr.update i] at this
          refine ⟨this.1.trans (le_max_right _ _), ?_⟩
          have e := this.2
          have h2 := stageInput_eq T.A T.b T.c hT h u r.stageUpdates i
          simp only [stageIn] at e
          rw [h2, mul_comm h (T.c i)] at e
          have h3 : (fun x => u x + h * ∑ j, T.A i j * r.stageUpdates j x)
              = u + h • ∑ j, T.A i j • r.stageUpdates j := by
            funext x
            simp [Finset.sum_apply]
          rw [h3] at e
          exact e.trans (hη (le_max_right _ _))
      · refine ⟨R', M', h', hM', hh', fun o l ode η hη hs h t u r hr h0 hle ht hu i hi => ?_⟩
        exact H o l ode η hη hs h t u r hr h0 hle ht hu i (by omega)
  obtain ⟨R', M', h', hM', hh', H⟩ := key s
  refine ⟨R', M', h', hh', fun o l ode η hη hs h t u r hr h0 hle ht hu => ?_⟩
  have Hi := H o l ode η hη hs h t u r hr h0 hle ht hu
  exact ⟨fun i => (Hi i i.2).2, (pi_norm_le_iff_of_nonneg hM').mpr fun i => (Hi i i.2).1⟩

/-- Errors of sequences of steps: `err e0 H` bounds the error for initial values with error `e0 ≤ r`
and steps of size at most `H < δ`. -/
def StepError (E : Env s n m o l) (p : Fin m → ℝ) (y : ℝ → Fin n → ℝ) (t0 t1 δ r : ℝ)
    (err : ℝ → ℝ → ℝ) : Prop :=
  ∀ (H t' : ℝ) (u u' : Fin n → ℝ) (hs : List ℝ), 0 ≤ H → H < δ →
    (∀ h ∈ hs, 0 ≤ h ∧ h ≤ H) → IsSteps (StepOf E p) t0 u hs t' u' → t' ≤ t1 →
    ‖u - y t0‖ ≤ r → ‖u' - y t'‖ ≤ err ‖u - y t0‖ H

section
variable {f : Rhs ℝ n m} {p : Fin m → ℝ} {q : ℕ} {y : ℝ → Fin n → ℝ} {t0 t1 : ℝ}

/-- The error of sequences of steps near the solution, with constants that do not depend on the
backend. -/
theorem upTo_error (hq : 1 ≤ q) (hf : Smooth f p q) (hy : IsSolution f p y t0 t1) (β : ℝ) :
    ∃ K r : ℝ, 0 < K ∧ 0 < r ∧ ∀ (s : ℕ) (T : Coeffs ℝ s) (ε : ℝ), Accurate T β ε q →
      ∀ M h1 : ℝ → ℝ, (∀ R, 0 < h1 R) →
      ∃ R C δ : ℝ, 0 < C ∧ 0 < δ ∧ ∀ (o l : ℕ) (E : Env s n m o l) (η : ℝ → ℝ), E.T = T →
        Monotone η → 0 ≤ η R → (∀ i, SolvesUpTo M h1 η E.ode f p (T.A i i)) →
        StepError E p y t0 t1 δ (r - ε - η R) fun e0 H => K * (e0 + ε + η R) + C * H ^ q := by
  obtain ⟨K, r, R, hK, hr, hE⟩ := Conv.convergence_nearby (f := fun t y => f t y p) hq hf hy β
  refine ⟨K, r, hK, hr, fun s T ε hA M h1 hh1 => ?_⟩
  obtain ⟨R', M', h', hh', hM⟩ := upTo_result T hA.lower f p (M := M) hh1 (max R (|t0| + |t1|))
  obtain ⟨C, δ, hC, hδ, hE⟩ := hE s T.A T.b T.c ε M' hA.nonneg hA.weights hA.rows hA.order
  refine ⟨R', C, min δ h', hC, lt_min hδ hh', fun o l E η hT hη hη0 hs H t' u u' hl h0 hH hb hst
    ht' hle => ?_⟩
  subst hT
  refine hE (StepOf E p) H t' (η R') u u' hl h0 (hH.trans_le (min_le_left _ _)) hη0 ?_ hb hst ht'
    (by linarith)
  intro h t u u₁ g0 g1 g2 g3 g4 g5
  obtain ⟨st, rfl, rfl, rfl, rfl⟩ := g5
  have hr := computeStep_result E.T E.ode st h
  have ht : |st.finalTime| ≤ max R (|t0| + |t1|) := by
    refine le_trans ?_ (le_max_right _ _)
    rw [abs_le]
    constructor <;> linarith [neg_abs_le t0, le_abs_self t1, abs_nonneg t0, abs_nonneg t1]
  obtain ⟨e1, e2⟩ := hM o l E.ode η hη hs h _ _ _ hr g0
    (g1.trans (hH.trans_le (min_le_right _ _)).le) ht (g4.trans (le_max_left _ _))
  refine ⟨_, e1, e2, ?_⟩
  rw [hr.finalState]
  funext x
  rw [accumulateStep_apply]
  simp [Finset.sum_apply]

/-- The same for regular problems and stage equations that are solved exactly for small steps. -/
theorem regular_error (hq : 1 ≤ q) (hf : Regular f p q) (hy : IsSolution f p y t0 t1) (β : ℝ) :
    ∃ K : ℝ, 0 < K ∧ ∀ (s : ℕ) (T : Coeffs ℝ s) (ε : ℝ), Accurate T β ε q → ∀ h1 : ℝ, 0 < h1 →
      ∃ C δ : ℝ, 0 < C ∧ 0 < δ ∧ ∀ (r : ℝ) (o l : ℕ) (E : Env s n m o l), E.T = T →
        (∀ h, 0 ≤ h → h ≤ h1 → ∀ i, SolvesStage E.ode f h (T.A i i)) →
        StepError E p y t0 t1 δ r fun e0 H => K * (e0 + ε) + C * H ^ q := by
  obtain ⟨K, hK, hE⟩ := trajectory_error_within hq hf hy β
  refine ⟨K, hK, fun s T ε hA h1 hh1 => ?_⟩
  obtain ⟨C, δ, hC, hδ, hE⟩ := hE s T ε hA
  refine ⟨C, min δ h1, hC, lt_min hδ hh1, fun r o l E hT hs => ?_⟩
  subst hT
  exact steps_within (err := fun e0 H => K * (e0 + ε) + C * H ^ q) hA.lower hs hE

end

end Verif.Props
