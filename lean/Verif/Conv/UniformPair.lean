/-
Errors of derivatives of runs whose linearized stage equations are solved up to a residual that
depends on the size of the inputs (used for C101).
-/
import Verif.Conv.Uniform
import Verif.Props.Sensitivity

namespace Verif.Props

open Verif.RK Verif.RK.Spec Verif.Control Verif.XReal Verif.Integrator Verif.Tableau
open Classical

variable {s n m o l : ℕ}

/-- For inputs and directions bounded by `R` and steps up to `h1 R` the derivative call at the point
recorded by the update returns values bounded by `M R` that satisfy the linearized stage equation up to
the residual `η R`. -/
def LinearizedUpTo (M h1 η : ℝ → ℝ) (ode : ODE ℝ n m o l) (f : Rhs ℝ n m) (p : Fin m → ℝ) (a : ℝ) :
    Prop :=
  ∀ (R h : ℝ) (inp din : OdeInput ℝ n m), 0 ≤ h → h ≤ h1 R →
    inp.independentInput = p → ‖inp.stepInput‖ ≤ R → ‖inp.stageInput‖ ≤ R → |inp.time| ≤ R →
    ‖din.stepInput‖ ≤ R → ‖din.stageInput‖ ≤ R → ‖din.independentInput‖ ≤ R → |din.time| ≤ R →
    let k := (ode.computeUpdate inp h a).1.stageUpdate
    let kd := (ode.computeUpdateDerivative (ode.computeUpdate inp h a).2 din h a).stageUpdate
    ‖kd‖ ≤ M R ∧
    ‖kd - jac f inp.time (fun x => inp.stepInput x + h * inp.stageInput x + h * a * k x) p
      (din.time, fun x => din.stepInput x + h * din.stageInput x + h * a * kd x,
        din.independentInput)‖ ≤ η R

/-- The stages of the derivatives of steps from a bounded set. -/
theorem upTo_linearized (T : Coeffs ℝ s) (hT : LowerTriangular T.A) (f : Rhs ℝ n m)
    (p : Fin m → ℝ) {M h1 : ℝ → ℝ} (hh1 : ∀ R, 0 < h1 R) (R : ℝ) :
    ∃ R' M' h' : ℝ, 0 < h' ∧ ∀ (o l : ℕ) (ode : ODE ℝ n m o l) (η : ℝ → ℝ), Monotone η →
      (∀ i, SolvesUpTo M h1 η ode f p (T.A i i)) →
      (∀ i, LinearizedUpTo M h1 η ode f p (T.A i i)) →
      ∀ h t u τ π v (r d : RKState ℝ s n m o l),
      StepResult T ode h t u p r → StepDerivResult T ode h r.linearizationPoints τ v π d → 0 ≤ h →
      h ≤ h' → |t| ≤ R → ‖u‖ ≤ R → |τ| ≤ R → ‖v‖ ≤ R → ‖π‖ ≤ R → ∀ i,
      ‖d.stageUpdates i‖ ≤ M' ∧
      ‖d.stageUpdates i - jac f (t + T.c i * h) (u + h • ∑ j, T.A i j • r.stageUpdates j) p
        (τ, v + h • ∑ j, T.A i j • d.stageUpdates j, π)‖ ≤ η R' := by
  obtain ⟨R0, M0, h0, hh0, H0⟩ := upTo_result T hT f p (M := M) hh1 R
  have key : ∀ q : ℕ, ∃ R' M' h' : ℝ, 0 ≤ M' ∧ 0 < h' ∧
      ∀ (o l : ℕ) (ode : ODE ℝ n m o l) (η : ℝ → ℝ), Monotone η →
      (∀ i, SolvesUpTo M h1 η ode f p (T.A i i)) →
      (∀ i, LinearizedUpTo M h1 η ode f p (T.A i i)) →
      ∀ h t u τ π v (r d : RKState ℝ s n m o l),
      StepResult T ode h t u p r → StepDerivResult T ode h r.linearizationPoints τ v π d → 0 ≤ h →
      h ≤ h' → |t| ≤ R → ‖u‖ ≤ R → |τ| ≤ R → ‖v‖ ≤ R → ‖π‖ ≤ R →
      ∀ i : Fin s, i.val < q → ‖d.stageUpdates i‖ ≤ M' ∧
      ‖d.stageUpdates i - jac f (t + T.c i * h) (u + h • ∑ j, T.A i j • r.stageUpdates j) p
        (τ, v + h • ∑ j, T.A i j • d.stageUpdates j, π)‖ ≤ η R' := by
    intro q
    induction q with
    | zero =>
      exact ⟨0, 0, 1, le_rfl, one_pos, fun _ _ _ _ _ _ _ _ _ _ _ _ _ _ _ _ _ _ _ _ _ _ _ _ i hi =>
        absurd hi (by omega)⟩
    | succ q ih =>
      obtain ⟨R', M', h', hM', hh', H⟩ := ih
      by_cases hq : q < s
      · set i₀ : Fin s := ⟨q, hq⟩
        set Q := max (R + |T.c i₀|) (max R
          (max (Conv.total T.A * max M0 0) (Conv.total T.A * M'))) with hQ
        refine ⟨max R' Q, max M' (M Q), min (min 1 h0) (min h' (h1 Q)), hM'.trans (le_max_left _ _),
          lt_min (lt_min one_pos hh0) (lt_min hh' (hh1 _)),
          fun o l ode η hη hs hd h t u τ π v r d hr hrd g0 hle ht hu hτ hv hπ i hi => ?_⟩
        have hle0 : h ≤ 1 := hle.trans ((min_le_left _ _).trans (min_le_left _ _))
        have hle1 : h ≤ h0 := hle.trans ((min_le_left _ _).trans (min_le_right _ _))
        have hle2 : h ≤ h' := hle.trans ((min_le_right _ _).trans (min_le_left _ _))
        have hle3 : h ≤ h1 Q := hle.trans ((min_le_right _ _).trans (min_le_right _ _))
        have Hi := H o l ode η hη hs hd h t u τ π v r d hr hrd g0 hle2 ht hu hτ hv hπ
        by_cases hiq : i.val < q
        · exact ⟨(Hi i hiq).1.trans (le_max_left _ _), (Hi i hiq).2.trans (hη (le_max_left _ _))⟩
        · have hi0 : i₀ = i := Fin.ext (by change q = i.val; omega)
          rw [hi0] at hQ
          obtain ⟨-, hk⟩ := H0 o l ode η hη hs h t u r hr g0 hle1 ht hu
          have hacc : ‖accumulateStages T i r.stageUpdates‖ ≤ Conv.total T.A * max M0 0 :=
            norm_accumulateStages T i _ (le_max_right _ _) fun j _ =>
              (norm_le_pi_norm r.stageUpdates j).trans (hk.trans (le_max_left _ _))
          have haccd : ‖accumulateStages T i d.stageUpdates‖ ≤ Conv.total T.A * M' :=
            norm_accumulateStages T i _ hM' fun j hj => (Hi j (by
              have : j.val < i.val := hj
              omega)).1
          have htime : |t + h * T.c i| ≤ R + |T.c i| := by
            refine (abs_add_le _ _).trans (add_le_add ht ?_)
            rw [abs_mul, abs_of_nonneg g0]
            exact mul_le_of_le_one_left (abs_nonneg _) hle0
          have hRR : R ≤ Q := hQ ▸ (le_max_left _ _).trans (le_max_right _ _)
          have := hd i Q h (stageIn T h t u p r.stageUpdates i)
            (stageInD T τ v π d.stageUpdates i) g0 hle3 rfl (hu.trans hRR)
            (hacc.trans (hQ ▸ (le_max_left _ _).trans ((le_max_right _ _).trans (le_max_right _ _))))
            (htime.trans (hQ ▸ le_max_left _ _)) (hv.trans hRR)
            (haccd.trans (hQ ▸ (le_max_right _ _).trans ((le_max_right _ _).trans (le_max_right _ _))))
            (hπ.trans hRR) (hτ.trans hRR)
          dsimp only at this
          rw [← hr.lin i, ← hrd.update i, ← hr.update i] at this
          refine ⟨this.1.trans (le_max_right _ _), ?_⟩
          have e := this.2
          have e1 := stageInput_eq T.A T.b T.c hT h u r.stageUpdates i
          have e2 := stageInput_eq T.A T.b T.c hT h v d.stageUpdates i
          simp only [stageIn, stageInD] at e
          rw [e1, e2, mul_comm h (T.c i)] at e
          have e3 : ∀ (u : Fin n → ℝ) (k : Fin s → Fin n → ℝ),
              (fun x => u x + h * ∑ j, T.A i j * k j x) = u + h • ∑ j, T.A i j • k j := by
            intro u k
            funext x
            simp [Finset.sum_apply]
          rw [e3, e3] at e
          exact e.trans (hη (le_max_right _ _))
      · refine ⟨R', M', h', hM', hh',
          fun o l ode η hη hs hd h t u τ π v r d hr hrd g0 hle ht hu hτ hv hπ i hi => ?_⟩
        exact H o l ode η hη hs hd h t u τ π v r d hr hrd g0 hle ht hu hτ hv hπ i (by omega)
  obtain ⟨R', M', h', hM', hh', H⟩ := key s
  exact ⟨R', M', h', hh', fun o l ode η hη hs hd h t u τ π v r d hr hrd g0 hle ht hu hτ hv hπ i =>
    H o l ode η hη hs hd h t u τ π v r d hr hrd g0 hle ht hu hτ hv hπ i i.2⟩

/-- Steps of values and derivatives are steps with inexact stages for the pair of equations. -/
theorem upTo_pair_stages (T : Coeffs ℝ s) (hT : LowerTriangular T.A) (f : Rhs ℝ n m)
    (p : Fin m → ℝ) {M h1 : ℝ → ℝ} (hh1 : ∀ R, 0 < h1 R) (τ : ℝ) (π : Fin m → ℝ) (R : ℝ) :
    ∃ R' M' h' : ℝ, 0 < h' ∧ ∀ (o l : ℕ) (E : Env s n m o l) (η : ℝ → ℝ), E.T = T → Monotone η →
      (∀ i, SolvesUpTo M h1 η E.ode f p (T.A i i)) →
      (∀ i, LinearizedUpTo M h1 η E.ode f p (T.A i i)) →
      ∀ h t z z₁, 0 ≤ h → h ≤ h' → |t| ≤ R → ‖z‖ ≤ R → FwdStepOf E p τ π h t z z₁ →
      ∃ k, Conv.InexactStages (η R') T.A T.c (pairRhs f p τ π) h t z k ∧ ‖k‖ ≤ M' ∧
        z₁ = z + h • ∑ i, T.b i • k i := by
  set Q := max R (max |τ| ‖π‖) with hQ
  obtain ⟨R₁, M₁, h₁, hh₁, H⟩ := upTo_result T hT f p (M := M) hh1 Q
  obtain ⟨R₂, M₂, h₂, hh₂, H'⟩ := upTo_linearized T hT f p (M := M) hh1 Q
  have hRR : R ≤ Q := le_max_left _ _
  refine ⟨max R₁ R₂, max M₁ (max M₂ 0), min h₁ h₂, lt_min hh₁ hh₂,
    fun o l E η hE hη hs hd h t z z₁ h0 hle ht hz hst => ?_⟩
  subst hE
  obtain ⟨u, v⟩ := z
  obtain ⟨u₁, v₁⟩ := z₁
  obtain ⟨st, pert, rfl, rfl, rfl, rfl, rfl, rfl, rfl, rfl⟩ := hst
  have hr := computeStep_result E.T E.ode st h
  have hrd := computeStepDerivative_result E.T E.ode (computeStep E.T E.ode st h) pert h
  have hu : ‖st.finalState‖ ≤ Q := ((norm_fst_le _).trans hz).trans hRR
  have hv : ‖pert.finalState‖ ≤ Q := ((norm_snd_le _).trans hz).trans hRR
  obtain ⟨g1, g2⟩ := H o l E.ode η hη hs h _ _ _ hr h0 (hle.trans (min_le_left _ _))
    (ht.trans hRR) hu
  have G := H' o l E.ode η hη hs hd h _ _ _ _ _ _ _ hr hrd h0 (hle.trans (min_le_right _ _))
    (ht.trans hRR) hu ((le_max_left _ _).trans (le_max_right _ _)) hv
    ((le_max_right _ _).trans (le_max_right _ _))
  refine ⟨fun i => ((computeStep E.T E.ode st h).stageUpdates i,
    (computeStepDerivative E.T E.ode (computeStep E.T E.ode st h) pert h).stageUpdates i), ?_, ?_,
    ?_⟩
  · intro i
    rw [pair_sum, pairRhs, Prod.mk_sub_mk, Prod.norm_def, max_le_iff]
    exact ⟨(g1 i).trans (hη (le_max_left _ _)), (G i).2.trans (hη (le_max_right _ _))⟩
  · refine (pi_norm_le_iff_of_nonneg ((le_max_right _ _).trans (le_max_right _ _))).mpr fun i => ?_
    rw [Prod.norm_def, max_le_iff]
    exact ⟨((norm_le_pi_norm _ i).trans g2).trans (le_max_left _ _),
      (G i).1.trans ((le_max_left _ _).trans (le_max_right _ _))⟩
  · rw [pair_sum, hr.finalState, hrd.finalState]
    rw [Prod.mk.injEq]
    constructor <;>
    · funext x
      rw [accumulateStep_apply]
      simp [Finset.sum_apply]

section
variable {f : Rhs ℝ n m} {p : Fin m → ℝ} {τ : ℝ} {π : Fin m → ℝ} {q : ℕ} {y δ : ℝ → Fin n → ℝ}
  {t0 t1 : ℝ}

/-- Errors of sequences of steps of values and derivatives. -/
def PairError (E : Env s n m o l) (p : Fin m → ℝ) (τ : ℝ) (π : Fin m → ℝ) (y δ : ℝ → Fin n → ℝ)
    (t0 t1 h1 r : ℝ) (err : ℝ → ℝ → ℝ) : Prop :=
  ∀ (H t' : ℝ) (u u' v v' : Fin n → ℝ) (hs : List ℝ), 0 ≤ H → H < h1 →
    (∀ h ∈ hs, 0 ≤ h ∧ h ≤ H) → IsSteps (FwdStepOf E p τ π) t0 (u, v) hs t' (u', v') → t' ≤ t1 →
    max ‖u - y t0‖ ‖v - δ t0‖ ≤ r → ‖v' - δ t'‖ ≤ err (max ‖u - y t0‖ ‖v - δ t0‖) H

theorem PairError.forward {E : Env s n m o l} {h1 r : ℝ} {err : ℝ → ℝ → ℝ}
    (h : PairError E p τ π y δ t0 t1 h1 r err) :
    ForwardWithin (rkBackend E) FixedEnd p τ π y δ t0 t1 h1 r err := by
  intro σ opt H t' fuel w w' i di dO v he hh ht hi hp hτ hπ hrr hv
  subst hi hp hτ hπ
  obtain ⟨k1, hs, k2, u, k3⟩ := fixed_fwd (rkCore E) (fun _ => rfl) he hv
  exact ⟨k1, h H t' _ _ _ _ hs he.nonneg hh k2 k3 ht hrr⟩

theorem PairError.forward_embedded {E : Env s n m o l} {h1 r : ℝ} {err : ℝ → ℝ → ℝ}
    (h : PairError E p τ π y δ t0 t1 h1 r err) (bhat : Fin s → ℝ) :
    ForwardWithin (embBackend E bhat) AnyEnd p τ π y δ t0 t1 h1 r err := by
  intro σ opt H t' fuel w w' i di dO v he hh ht hi hp hτ hπ hrr hv
  subst hi hp hτ hπ
  obtain ⟨k1, hs, k2, u, k3⟩ := any_fwd bhat he hv
  exact ⟨k1, h H t' _ _ _ _ hs he.nonneg hh k2 k3 ht hrr⟩

theorem upTo_pair_error (hq : 1 ≤ q) (hf : SmoothAll f (q + 1)) (hy : IsSolution f p y t0 t1)
    (hδ : IsSensitivity f p τ π y δ t0 t1) (β : ℝ) :
    ∃ K r : ℝ, 0 < K ∧ 0 < r ∧ ∀ (s : ℕ) (T : Coeffs ℝ s) (ε : ℝ), Accurate T β ε q →
      ∀ M h1 : ℝ → ℝ, (∀ R, 0 < h1 R) →
      ∃ R C h2 : ℝ, 0 < C ∧ 0 < h2 ∧ ∀ (o l : ℕ) (E : Env s n m o l) (η : ℝ → ℝ), E.T = T →
        Monotone η → 0 ≤ η R → (∀ i, SolvesUpTo M h1 η E.ode f p (T.A i i)) →
        (∀ i, LinearizedUpTo M h1 η E.ode f p (T.A i i)) →
        PairError E p τ π y δ t0 t1 h2 (r - ε - η R) fun e0 H => K * (e0 + ε + η R) + C * H ^ q := by
  have hsol : ∀ t ∈ Set.Icc t0 t1, HasDerivWithinAt (fun t => (y t, δ t))
      (pairRhs f p τ π t (y t, δ t)) (Set.Icc t0 t1) t := fun t ht =>
    (hy t ht).prodMk (hδ t ht)
  obtain ⟨K, r, R, hK, hr, hE⟩ := Conv.convergence_nearby (f := pairRhs f p τ π) hq
    (pairRhs_smooth hf) hsol β
  refine ⟨K, r, hK, hr, fun s T ε hA M h1 hh1 => ?_⟩
  obtain ⟨R', M', h', hh', hM⟩ := upTo_pair_stages T hA.lower f p (M := M) hh1 τ π
    (max R (|t0| + |t1|))
  obtain ⟨C, h2, hC, hh2, hE⟩ := hE s T.A T.b T.c ε M' hA.nonneg hA.weights hA.rows hA.order
  refine ⟨R', C, min h2 h', hC, lt_min hh2 hh', fun o l E η hT hη hη0 hs hd H t' u u' v v' hl h0 hH
    hb hst ht' hle => ?_⟩
  have e0 : ‖((u, v) : (Fin n → ℝ) × (Fin n → ℝ)) - (y t0, δ t0)‖
      = max ‖u - y t0‖ ‖v - δ t0‖ := by rw [Prod.mk_sub_mk, Prod.norm_mk]
  have := hE (FwdStepOf E p τ π) H t' (η R') (u, v) (u', v') hl h0 (hH.trans_le (min_le_left _ _))
    hη0 ?_ hb hst ht' (by rw [e0]; linarith)
  · rw [e0] at this
    refine le_trans ?_ this
    rw [Prod.mk_sub_mk, Prod.norm_mk]
    exact le_max_right _ _
  · intro h t z z₁ g0 g1 g2 g3 g4 g5
    refine hM o l E η hT hη hs hd h t z z₁ g0 (g1.trans (hH.trans_le (min_le_right _ _)).le) ?_
      (g4.trans (le_max_left _ _)) g5
    refine le_trans ?_ (le_max_right _ _)
    rw [abs_le]
    constructor <;> linarith [neg_abs_le t0, le_abs_self t1, abs_nonneg t0, abs_nonneg t1]

end

end Verif.Props
