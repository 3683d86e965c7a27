/-
The leading term of the error estimates (C71), and the accuracy of adaptive runs in terms of the
tolerance (C100).
-/
import Verif.Conv.Leading
import Verif.Integrator.Accepted
import Verif.Props.Finish

namespace Verif.Props

open Verif.RK Verif.RK.Spec Verif.Control Verif.XReal Verif.Integrator Verif.Tableau
open Classical

variable {s n m o l : ℕ}

/-- The coefficient of `h^(e+1)` in the difference of a step with the main and the embedded weights
from the value `u` at time `t`. -/
noncomputable def pairTerm (f : Rhs ℝ n m) (p : Fin m → ℝ) (T : Coeffs ℝ s) (bhat : Fin s → ℝ)
    (e : ℕ) (t : ℝ) (u : Fin n → ℝ) : Fin n → ℝ :=
  Conv.leadingTerm (fun t y => f t y p) T.A (fun i => T.b i - bhat i) e t u

section
variable {f : Rhs ℝ n m} {p : Fin m → ℝ} {k e : ℕ} {y : ℝ → Fin n → ℝ} {t0 t1 : ℝ}

/-- C71: the estimate is `h^(e+1)` times the leading term of the difference of the two schemes, up to
the accuracies and the next power of the step size. In particular it is not smaller than that order
where the leading term does not vanish. -/
theorem C71_leading_term (hf : Smooth f p (e + 1)) (R β : ℝ) :
    ∃ K : ℝ, 0 ≤ K ∧ ∀ (s o l : ℕ) (E : Env s n m o l) (bhat : Fin s → ℝ) (ε ε' η : ℝ),
      Accurate E.T β ε e → Accurate (withWeights E.T bhat) β ε' e → 0 ≤ η →
      (∀ i, SolvesNearby E.ode f p η (E.T.A i i)) →
      ∃ C δ : ℝ, 0 ≤ C ∧ 0 < δ ∧ ∀ (d d' : EmbRKState ℝ s n m o l) (h : ℝ),
        d.independentInputs = p → |d.finalTime| ≤ R → ‖d.finalState‖ ≤ R → 0 ≤ h → h < δ →
        (embBackend E bhat).step d (fin h) = .ok d' →
        ‖d'.errorEstimate - h ^ (e + 1) • pairTerm f p E.T bhat e d.finalTime d.finalState‖
          ≤ K * (ε + ε' + η) * h + C * h ^ (e + 2) := by
  obtain ⟨K, hK0, hK⟩ := Conv.combination_leading (f := fun t y => f t y p) hf R (2 * β)
  refine ⟨2 * K, by positivity, fun s o l E bhat ε ε' η hA hA' hη hs => ?_⟩
  obtain ⟨M, h1, hh1, hM⟩ := nearby_result hA.lower hs R
  obtain ⟨C, δ, hC, hδ, hE⟩ := hK s E.T.A (fun i => E.T.b i - bhat i) E.T.c ε (ε + ε') M hA.nonneg
    (add_nonneg hA.nonneg hA'.nonneg) (by
      calc ∑ i, |E.T.b i - bhat i| ≤ ∑ i, (|E.T.b i| + |bhat i|) :=
            Finset.sum_le_sum fun i _ => abs_sub _ _
        _ = ∑ i, |E.T.b i| + ∑ i, |bhat i| := Finset.sum_add_distrib
        _ ≤ 2 * β := by
          have := hA.weights
          have : ∑ i, |bhat i| ≤ β := hA'.weights
          linarith) hA.rows (fun τ hτ => by
      have g1 := hA.order τ hτ
      have g2 : |∑ i, bhat i * τ.weight E.T.A i - 1 / τ.density| ≤ ε' := hA'.order τ hτ
      have g3 : ∑ i, (E.T.b i - bhat i) * τ.weight E.T.A i
          = (∑ i, E.T.b i * τ.weight E.T.A i - 1 / τ.density)
            - (∑ i, bhat i * τ.weight E.T.A i - 1 / τ.density) := by
        simp only [sub_mul, Finset.sum_sub_distrib]
        ring
      rw [g3]
      exact (abs_sub _ _).trans (add_le_add g1 g2))
  refine ⟨C, min δ h1, hC, lt_min hδ hh1, fun d d' h hp ht hu h0 hlt hst => ?_⟩
  obtain ⟨hr, -, -, he⟩ := emb_step_fields hst
  rw [hp] at hr
  obtain ⟨g1, g2⟩ := hM h _ _ _ hr h0 (hlt.trans_le (min_le_right _ _)).le ht hu
  have := hE d.finalTime h η d.finalState d'.stageUpdates ht hu h0
    (hlt.trans_le (min_le_left _ _)) hη g2 g1
  rw [he]
  refine this.trans ?_
  have : 0 ≤ K * (ε' + η) * h := by
    have := hA'.nonneg
    positivity
  nlinarith

/-- A function that does not vanish along a curve is bounded away from zero near it. -/
theorem away_from_zero {Φ : ℝ × (Fin n → ℝ) → Fin n → ℝ} (hΦ : Continuous Φ)
    (hy : ContinuousOn y (Set.Icc t0 t1)) (h0 : ∀ t ∈ Set.Icc t0 t1, Φ (t, y t) ≠ 0) :
    ∃ c ρ : ℝ, 0 < c ∧ 0 < ρ ∧ ρ ≤ 1 ∧ ∀ t ∈ Set.Icc t0 t1, ∀ u, ‖u - y t‖ ≤ ρ → c ≤ ‖Φ (t, u)‖ := by
  rcases (Set.Icc t0 t1).eq_empty_or_nonempty with hem | hne
  · exact ⟨1, 1, one_pos, one_pos, le_rfl, fun t ht => by rw [hem] at ht; exact absurd ht (by simp)⟩
  set g : ℝ × (Fin n → ℝ) → ℝ := fun q => ‖Φ (q.1, y q.1 + q.2)‖ with hg
  have hgc : ContinuousOn g (Set.Icc t0 t1 ×ˢ Metric.closedBall 0 1) := by
    refine (hΦ.comp_continuousOn ?_).norm
    exact continuousOn_fst.prodMk ((hy.comp continuousOn_fst fun q hq => hq.1).add continuousOn_snd)
  have hu := (isCompact_Icc.prod (isCompact_closedBall (0 : Fin n → ℝ) 1)).uniformContinuousOn_of_continuous
    hgc
  obtain ⟨ts, hts, hmin⟩ := isCompact_Icc.exists_isMinOn hne
    (f := fun t => ‖Φ (t, y t)‖) (hΦ.comp_continuousOn (continuousOn_id.prodMk hy)).norm
  have hm : 0 < ‖Φ (ts, y ts)‖ := norm_pos_iff.mpr (h0 ts hts)
  obtain ⟨δ, hδ, hd⟩ := Metric.uniformContinuousOn_iff.mp hu (‖Φ (ts, y ts)‖ / 2) (by positivity)
  refine ⟨‖Φ (ts, y ts)‖ / 2, min 1 (δ / 2), by positivity, lt_min one_pos (by positivity),
    min_le_left _ _, fun t ht u hle => ?_⟩
  have h1 := hd (t, u - y t) ⟨ht, by
    rw [mem_closedBall_zero_iff]; exact hle.trans (min_le_left _ _)⟩ (t, 0) ⟨ht, by simp⟩ (by
      rw [Prod.dist_eq, dist_self, dist_zero_right]
      have := hle.trans (min_le_right _ _)
      exact max_lt hδ (by linarith))
  have h2 : ‖Φ (ts, y ts)‖ ≤ ‖Φ (t, y t)‖ := hmin ht
  simp only [hg, add_sub_cancel, add_zero, Real.dist_eq] at h1
  have := (abs_lt.mp h1).1
  linarith

/-- A small measured error means a small estimate, for values in a bounded set. -/
def MeasureFaithful (E : Env s n m o l) : Prop :=
  ∀ R, ∃ κ, 0 ≤ κ ∧ ∀ e v τ, ‖v‖ ≤ R → 0 ≤ τ → le (E.measure e v) (fin τ) → ‖e‖ ≤ κ * τ

/-- Adaptive runs with the lower bound 0, the upper bound `u`, the tolerance `τ` and any controllers,
if no step is accepted for being as long as the time left after it. -/
def ToleranceWithin (E : Env s n m o l) (bhat : Fin s → ℝ) (p : Fin m → ℝ)
    (y : ℝ → Fin n → ℝ) (t0 t1 δ r : ℝ) (err : ℝ → ℝ → ℝ) : Prop :=
  ∀ (opt : Options) (τ u h0 : ℝ) (fuel : ℕ) (ch : Choice)
    (w w' : World (EmbRKState ℝ s n m o l) (ch.Data (EmbRKState ℝ s n m o l)))
    (i : StartingValues ℝ n m) (v : Outputs n),
    opt.adaptive = true → opt.initialStep = fin h0 →
    w.ctrl.config.lower = 0 → w.ctrl.config.upper = fin u → w.ctrl.config.tol = fin τ → 0 ≤ τ →
    u < δ → 0 ≤ h0 → h0 ≤ u → (∀ T, opt.crit = .finalTime T → t0 + h0 ≤ T) →
    (∀ tr, Run (embBackend E bhat) opt 0 w.ctrl
        (startOf (embBackend E bhat) opt w.ctrl w.tis.disc i) tr →
      ∀ q ∈ tr, ∀ T h, opt.crit = .finalTime T → q.2.stepHist.1 = fin h →
        1 / 10 ^ 10 ≤ |h - (T - q.2.disc.finalTime)|) →
    i.initialTime = t0 → i.independentInputs = p → ‖i.initialValues - y t0‖ ≤ r →
    compute (embBackend E bhat) opt (ch.ck (embBackend E bhat) opt) fuel w i = (w', .ok v) →
    v.time ≤ t1 → ‖v.values - y v.time‖ ≤ err ‖i.initialValues - y t0‖ τ

/-- The step size for which an estimate of at least `c h^(e+1) - μ h - C h^(e+2)` meets `τ`. -/
theorem size_bound {c τ μ C h : ℝ} (he : 1 ≤ e) (hc : 0 < c) (hτ : 0 ≤ τ) (h0 : 0 ≤ h) (hh : C * h ≤ c / 2)
    (hle : c * h ^ (e + 1) ≤ τ + μ * h + C * h ^ (e + 2)) :
    h ≤ max ((4 * τ / c) ^ (1 / ((e : ℝ) + 1))) ((4 * μ / c) ^ (1 / (e : ℝ))) := by
  have hp : 0 ≤ h ^ (e + 1) := by positivity
  have h1 : c / 2 * h ^ (e + 1) ≤ τ + μ * h := by
    have : C * h ^ (e + 2) ≤ c / 2 * h ^ (e + 1) := by
      calc C * h ^ (e + 2) = C * h * h ^ (e + 1) := by ring
        _ ≤ _ := by gcongr
    linarith
  rcases h0.eq_or_lt with rfl | hpos
  · exact le_trans (by positivity) (le_max_left _ _)
  rcases le_total (μ * h) τ with hl | hl
  · refine le_trans ?_ (le_max_left _ _)
    have h2 : h ^ (e + 1) ≤ 4 * τ / c := by
      rw [le_div_iff₀ hc]
      linarith
    calc h = (h ^ (e + 1)) ^ (1 / ((e : ℝ) + 1)) := by
          rw [← Real.rpow_natCast, ← Real.rpow_mul h0]
          push_cast
          rw [mul_one_div_cancel (by positivity), Real.rpow_one]
      _ ≤ _ := Real.rpow_le_rpow hp h2 (by positivity)
  · refine le_trans ?_ (le_max_right _ _)
    have h2 : h ^ e ≤ 4 * μ / c := by
      rw [le_div_iff₀ hc]
      have : c / 2 * h ^ e * h ≤ 2 * μ * h := by
        calc c / 2 * h ^ e * h = c / 2 * h ^ (e + 1) := by ring
          _ ≤ _ := by linarith
      have := le_of_mul_le_mul_right this hpos
      linarith
    have he0 : (e : ℝ) ≠ 0 := by
      have : e ≠ 0 := by omega
      exact_mod_cast this
    calc h = (h ^ e) ^ (1 / (e : ℝ)) := by
          rw [← Real.rpow_natCast, ← Real.rpow_mul h0, mul_one_div_cancel he0, Real.rpow_one]
      _ ≤ _ := Real.rpow_le_rpow (by positivity) h2 (by positivity)

/-- The common statement for both termination criteria. -/
theorem tolerance_within (he : 1 ≤ e) (hek : e ≤ k) (hf : Smooth f p (k + 1))
    (hy : IsSolution f p y t0 t1) (β : ℝ) :
    ∃ K : ℝ, 0 < K ∧ ∀ (s : ℕ) (T : Coeffs ℝ s) (bhat : Fin s → ℝ) (ε ε' : ℝ),
      Accurate T β ε k → Accurate (withWeights T bhat) β ε' e →
      (∀ t ∈ Set.Icc t0 t1, pairTerm f p T bhat e t (y t) ≠ 0) →
      ∃ r : ℝ, 0 < r ∧ ∀ (o l : ℕ) (E : Env s n m o l) (η : ℝ), E.T = T → 0 ≤ η →
        (∀ i, SolvesNearby E.ode f p η (E.T.A i i)) → MeasureFaithful E →
        ∃ C δ : ℝ, 0 < C ∧ 0 < δ ∧ ToleranceWithin E bhat p y t0 t1 δ (r - ε - η)
          fun e0 τ => K * (e0 + ε + η) + C * (τ ^ ((k : ℝ) / (e + 1))
            + (ε + ε' + η) ^ ((k : ℝ) / e) + (1 / 10 ^ 10) ^ k) := by
  have hk : 1 ≤ k := he.trans hek
  have hfk : Smooth f p k := hf.of_le (by exact_mod_cast Nat.le_succ k)
  have hfe : Smooth f p (e + 1) := hf.of_le (by exact_mod_cast Nat.succ_le_succ hek)
  have hyc : ContinuousOn y (Set.Icc t0 t1) := fun t ht => (hy t ht).continuousWithinAt
  obtain ⟨K, r0, hK, hr0, hE⟩ := nearby_error hk hfk hy β
  obtain ⟨Y, hY⟩ : ∃ Y, ∀ t ∈ Set.Icc t0 t1, ‖y t‖ ≤ Y :=
    isCompact_Icc.exists_bound_of_continuousOn hyc
  set R := max (|t0| + |t1|) (Y + 1) with hR
  obtain ⟨K1, hK1, hL⟩ := C71_leading_term hfe R β
  refine ⟨K, hK, fun s T bhat ε ε' hA hA' hΦ => ?_⟩
  obtain ⟨c, ρ, hc, hρ, hρ1, htube⟩ := away_from_zero
    (Φ := fun q => pairTerm f p T bhat e q.1 q.2)
    (Conv.leadingTerm_continuous (f := fun t y => f t y p)
      (hfe.of_le (by exact_mod_cast Nat.le_succ e)) _ _) hyc hΦ
  refine ⟨min r0 (ρ / (2 * K)), lt_min hr0 (by positivity), fun o l E η hT hη hs hmeas => ?_⟩
  subst hT
  obtain ⟨C0, δ0, hC0, hδ0, hE⟩ := hE s o l E ε η hA hη hs
  obtain ⟨C1, δ1, hC1, hδ1, hL⟩ := hL s o l E bhat ε ε' η (hA.mono hek) hA' hη hs
  obtain ⟨κ, hκ, hmeas⟩ := hmeas R
  have hε := hA.nonneg
  have hε' := hA'.nonneg
  set μ := ε + ε' + η with hμ
  have hμ0 : 0 ≤ μ := by positivity
  set a := (4 * κ / c) ^ ((k : ℝ) / (e + 1)) with ha'
  set b := (4 * K1 / c) ^ ((k : ℝ) / e) with hb'
  refine ⟨C0 * (1 + a + b), min (min 1 (ρ / (2 * C0))) (min δ0 (min δ1 (c / (2 * (C1 + 1))))),
    by positivity, lt_min (lt_min one_pos (by positivity)) (lt_min hδ0 (lt_min hδ1 (by positivity))),
    ?_⟩
  intro opt τ u h0 fuel ch w w' i v ha hi hlo hup htol hτ hu hh0 hh0u hstep hno hti hpi hr hcomp hvt
  have hu0 : 0 ≤ u := hh0.trans hh0u
  have hua : u ≤ 1 := (hu.trans_le ((min_le_left _ _).trans (min_le_left _ _))).le
  have hub : u ≤ ρ / (2 * C0) := (hu.trans_le ((min_le_left _ _).trans (min_le_right _ _))).le
  have huc : u < δ0 := hu.trans_le ((min_le_right _ _).trans (min_le_left _ _))
  have hud : u < δ1 :=
    hu.trans_le ((min_le_right _ _).trans ((min_le_right _ _).trans (min_le_left _ _)))
  have hue : u ≤ c / (2 * (C1 + 1)) :=
    (hu.trans_le ((min_le_right _ _).trans ((min_le_right _ _).trans (min_le_right _ _)))).le
  have hr1 : ‖i.initialValues - y t0‖ + ε + η ≤ r0 := by
    have := min_le_left r0 (ρ / (2 * K))
    linarith
  have hr2 : K * (‖i.initialValues - y t0‖ + ε + η) ≤ ρ / 2 := by
    have h1 := min_le_right r0 (ρ / (2 * K))
    calc K * (‖i.initialValues - y t0‖ + ε + η) ≤ K * (ρ / (2 * K)) := by
          gcongr
          linarith
      _ = ρ / 2 := by field_simp
  have hr3 : C0 * u ^ k ≤ ρ / 2 := by
    calc C0 * u ^ k ≤ C0 * u ^ 1 := by
          gcongr ?_ * ?_
          exact pow_le_pow_of_le_one hu0 hua hk
      _ = C0 * u := by rw [pow_one]
      _ ≤ C0 * (ρ / (2 * C0)) := by gcongr
      _ = ρ / 2 := by field_simp
  -- values reached by small steps are near the solution
  have hclose : ∀ t v, Reach E p t0 i.initialValues u t v → t ≤ t1 → ‖v - y t‖ ≤ ρ := by
    rintro t v ⟨hl, r1, r2⟩ ht
    have := hE u t _ _ hl hu0 huc r1 r2 ht hr1
    linarith
  have hbound : ∀ t v, t0 ≤ t → t ≤ t1 → ‖v - y t‖ ≤ ρ → |t| ≤ R ∧ ‖v‖ ≤ R := by
    intro t v g0 g1 g2
    refine ⟨le_trans ?_ (le_max_left _ _), le_trans ?_ (le_max_right _ _)⟩
    · rw [abs_le]
      constructor <;> linarith [neg_abs_le t0, le_abs_self t1, abs_nonneg t0, abs_nonneg t1]
    · have c2 := hY t ⟨g0, g1⟩
      have c5 := norm_add_le (v - y t) (y t)
      rw [sub_add_cancel] at c5
      linarith
  set σ := max (1 / 10 ^ 10) (max ((4 * (κ * τ) / c) ^ (1 / ((e : ℝ) + 1)))
    ((4 * (K1 * μ) / c) ^ (1 / (e : ℝ)))) with hσ
  have hQ : ∀ (d : EmbRKState ℝ s n m o l) (h : ℝ) (d' : EmbRKState ℝ s n m o l),
      (d.independentInputs = p ∧ t0 ≤ d.finalTime ∧
        Reach E p t0 i.initialValues u d.finalTime d.finalState) → 0 ≤ h → h ≤ u →
      (embBackend E bhat).step d (fin h) = .ok d' → d'.finalTime ≤ t1 →
      ((d.set d').independentInputs = p ∧ t0 ≤ (d.set d').finalTime ∧
        Reach E p t0 i.initialValues u (d.set d').finalTime (d.set d').finalState) ∧
      (h < 1 / 10 ^ 10 ∨ le (E.measure d'.errorEstimate d'.finalState) (fin τ) → h ≤ σ) := by
    rintro d h d' ⟨q1, q2, q3⟩ hh hhu hst ht1
    have htd := emb_step_time E bhat hst
    have hreach : Reach E p t0 i.initialValues u d'.finalTime d'.finalState := by
      obtain ⟨hl, r1, r2⟩ := q3
      refine ⟨hl ++ [h], ?_, ?_⟩
      · intro z hz
        rcases List.mem_append.mp hz with hz | hz
        · exact r1 z hz
        · rw [List.mem_singleton.mp hz]
          exact ⟨hh, hhu⟩
      · refine r2.append ?_
        rw [htd]
        refine .cons (y₁ := d'.finalState) ⟨d.toRKState, rfl, rfl, q1, ?_⟩ (.nil _ _)
        exact congrArg RKState.finalState ((embCore E bhat).step_core _ _ _ hst)
    refine ⟨⟨(emb_step_fields hst).1.indep.trans q1, ?_, hreach⟩, ?_⟩
    · change t0 ≤ d'.finalTime
      linarith
    · rintro (hsm | hm)
      · exact hsm.le.trans (le_max_left _ _)
      · refine le_trans ?_ (le_max_right _ _)
        have hdt : d.finalTime ≤ t1 := by linarith
        have n1 := hclose _ _ q3 hdt
        have n2 := hclose _ _ hreach ht1
        obtain ⟨b1, b2⟩ := hbound _ _ q2 hdt n1
        obtain ⟨-, b3⟩ := hbound _ _ (by linarith) ht1 n2
        have hest := hmeas _ _ τ b3 hτ hm
        have hlead := hL d d' h q1 b1 b2 hh (hhu.trans_lt hud) hst
        have hlow := htube d.finalTime ⟨q2, hdt⟩ _ n1
        refine size_bound (C := C1) he hc (by positivity) hh ?_ ?_
        · calc C1 * h ≤ (C1 + 1) * (c / (2 * (C1 + 1))) := by
                gcongr
                · linarith
                · exact hhu.trans hue
            _ = c / 2 := by field_simp
        · have h2 : c * h ^ (e + 1)
              ≤ ‖h ^ (e + 1) • pairTerm f p E.T bhat e d.finalTime d.finalState‖ := by
            rw [norm_smul, Real.norm_of_nonneg (by positivity), mul_comm]
            gcongr
          have h3 := norm_sub_norm_le (h ^ (e + 1) • pairTerm f p E.T bhat e d.finalTime
            d.finalState) d'.errorEstimate
          rw [norm_sub_rev] at h3
          linarith
  obtain ⟨hs', e1, e2, -, -, tr, e5, e6⟩ := choice_chain (embCore E bhat) hcomp
  have hlast : (lastOf w.ctrl (startOf (embBackend E bhat) opt w.ctrl w.tis.disc i) tr).2.disc.finalTime
      ≤ t1 := by
    obtain ⟨tr', k1, -, -, k2, -, k3, -⟩ := compute_run hcomp
    have : tr' = tr := k1.unique e5
    rw [← this, ← k2]
    have : v.time = w'.tis.disc.finalTime := by rw [k3]; rfl
    rw [← this]
    exact hvt
  obtain ⟨hr', k1, k2⟩ := run_accepted_sizes bhat hu0 ha hQ e5 hlo hup htol
    ⟨h0, hi, hh0, hh0u, fun T hT => by
      change i.initialTime + h0 ≤ T
      rw [hti]
      exact hstep T hT⟩
    ⟨hpi, hti.ge, ⟨[], by simp, by
      change IsSteps _ _ _ _ i.initialTime _
      rw [hti]
      exact .nil _ _⟩⟩ hlast (hno tr e5)
  have hsteps := chain_result (embCore E bhat) e1 e2 hr' (e6.trans k1)
  rw [hti, hpi] at hsteps
  have hσ0 : 0 ≤ σ := le_trans (by positivity) (le_max_left _ _)
  have hfin := hE (min u σ) v.time _ _ hr' (le_min hu0 hσ0) ((min_le_left _ _).trans_lt huc)
    (fun h hh => ⟨(k2 h hh).1, le_min (k2 h hh).2.1 (k2 h hh).2.2⟩) hsteps hvt hr1
  refine hfin.trans ?_
  dsimp only
  have hke : (0 : ℝ) ≤ (k : ℝ) / (e + 1) := by positivity
  have hpow : σ ^ k ≤ (1 / 10 ^ 10) ^ k + (a * τ ^ ((k : ℝ) / (e + 1)) + b * μ ^ ((k : ℝ) / e)) := by
    have x1 : ((4 * (κ * τ) / c) ^ (1 / ((e : ℝ) + 1))) ^ k = a * τ ^ ((k : ℝ) / (e + 1)) := by
      rw [← Real.rpow_natCast, ← Real.rpow_mul (by positivity), ha', ← Real.mul_rpow (by positivity) hτ]
      congr 1 <;> ring
    have x2 : ((4 * (K1 * μ) / c) ^ (1 / (e : ℝ))) ^ k = b * μ ^ ((k : ℝ) / e) := by
      rw [← Real.rpow_natCast, ← Real.rpow_mul (by positivity), hb', ← Real.mul_rpow (by positivity) hμ0]
      congr 1 <;> ring
    have hmax : ∀ x z : ℝ, 0 ≤ x → 0 ≤ z → (max x z) ^ k ≤ x ^ k + z ^ k := by
      intro x z hx hz
      rcases le_total x z with h | h
      · rw [max_eq_right h]
        have : 0 ≤ x ^ k := by positivity
        linarith
      · rw [max_eq_left h]
        have : 0 ≤ z ^ k := by positivity
        linarith
    refine (hmax _ _ (by positivity) (le_max_of_le_left (by positivity))).trans ?_
    gcongr
    rw [← x1, ← x2]
    exact hmax _ _ (by positivity) (by positivity)
  have hmin : (min u σ) ^ k ≤ σ ^ k := pow_le_pow_left₀ (le_min hu0 hσ0) (min_le_right _ _) k
  have ha0 : 0 ≤ a := by positivity
  have hb0 : 0 ≤ b := by positivity
  have t1' : 0 ≤ τ ^ ((k : ℝ) / (e + 1)) := by positivity
  have t2' : 0 ≤ μ ^ ((k : ℝ) / e) := by positivity
  have t3' : (0 : ℝ) ≤ (1 / 10 ^ 10) ^ k := by positivity
  have hsum : (min u σ) ^ k ≤ (1 + a + b) * (τ ^ ((k : ℝ) / (e + 1)) + μ ^ ((k : ℝ) / e)
      + (1 / 10 ^ 10) ^ k) := by
    nlinarith [mul_nonneg ha0 t2', mul_nonneg ha0 t3', mul_nonneg hb0 t1', mul_nonneg hb0 t3']
  have := mul_le_mul_of_nonneg_left hsum hC0.le
  linarith

/-- C100, a number of steps: for a smooth problem whose solution does not make the leading term of
the difference of the two schemes vanish, the error of adaptive runs is at most `K` times the error
of the initial values and the inaccuracies of coefficients and stages, plus a multiple of
`τ^(k/(e+1))`, where `τ` is the tolerance, `k` the order of the scheme and `e` that of the embedded
one. (The two further terms come from the inaccuracies, and from steps below `1e-10`, which are
accepted with any estimate.) The upper bound of the step sizes enters only through the condition
that it is below `δ`. -/
theorem C100_number_of_steps (he : 1 ≤ e) (hek : e ≤ k) (hf : Smooth f p (k + 1))
    (hy : IsSolution f p y t0 t1) (β : ℝ) :
    ∃ K : ℝ, 0 < K ∧ ∀ (s : ℕ) (T : Coeffs ℝ s) (bhat : Fin s → ℝ) (ε ε' : ℝ),
      Accurate T β ε k → Accurate (withWeights T bhat) β ε' e →
      (∀ t ∈ Set.Icc t0 t1, pairTerm f p T bhat e t (y t) ≠ 0) →
      ∃ r : ℝ, 0 < r ∧ ∀ (o l : ℕ) (E : Env s n m o l) (η : ℝ), E.T = T → 0 ≤ η →
        (∀ i, SolvesNearby E.ode f p η (E.T.A i i)) → MeasureFaithful E →
        ∃ C δ : ℝ, 0 < C ∧ 0 < δ ∧
          ∀ (opt : Options) (N : ℕ) (τ u h0 : ℝ) (fuel : ℕ) (ch : Choice)
            (w w' : World (EmbRKState ℝ s n m o l) (ch.Data (EmbRKState ℝ s n m o l)))
            (i : StartingValues ℝ n m) (v : Outputs n),
            opt.adaptive = true → opt.crit = .steps N → opt.initialStep = fin h0 →
            w.ctrl.config.lower = 0 → w.ctrl.config.upper = fin u → w.ctrl.config.tol = fin τ →
            0 ≤ τ → u < δ → 0 ≤ h0 → h0 ≤ u → i.initialTime = t0 → i.independentInputs = p →
            ‖i.initialValues - y t0‖ + ε + η ≤ r →
            compute (embBackend E bhat) opt (ch.ck (embBackend E bhat) opt) fuel w i
              = (w', .ok v) → v.time ≤ t1 →
            ‖v.values - y v.time‖ ≤ K * (‖i.initialValues - y t0‖ + ε + η)
              + C * (τ ^ ((k : ℝ) / (e + 1)) + (ε + ε' + η) ^ ((k : ℝ) / e) + (1 / 10 ^ 10) ^ k) := by
  obtain ⟨K, hK, H⟩ := tolerance_within he hek hf hy β
  refine ⟨K, hK, fun s T bhat ε ε' hA hA' hΦ => ?_⟩
  obtain ⟨r, hr, H⟩ := H s T bhat ε ε' hA hA' hΦ
  refine ⟨r, hr, fun o l E η hT hη hs hm => ?_⟩
  obtain ⟨C, δ, hC, hδ, H⟩ := H o l E η hT hη hs hm
  refine ⟨C, δ, hC, hδ, fun opt N τ u h0 fuel ch w w' i v ha hc hi hlo hup htol hτ hu hh0 hh0u hti
    hpi hr hcomp hvt => ?_⟩
  exact H opt τ u h0 fuel ch w w' i v ha hi hlo hup htol hτ hu hh0 hh0u
    (fun T hT => by rw [hc] at hT; cases hT)
    (fun tr _ q _ T h hT => by rw [hc] at hT; cases hT) hti hpi (by linarith) hcomp hvt

/-- C100, a final time. Partial: no step may be as long (within `1e-10`) as the time left after it,
because such steps are accepted with any estimate, see `C100_half_time_violated`. -/
theorem C100_final_time_partial (he : 1 ≤ e) (hek : e ≤ k) (hf : Smooth f p (k + 1))
    (hy : IsSolution f p y t0 t1) (β : ℝ) :
    ∃ K : ℝ, 0 < K ∧ ∀ (s : ℕ) (T : Coeffs ℝ s) (bhat : Fin s → ℝ) (ε ε' : ℝ),
      Accurate T β ε k → Accurate (withWeights T bhat) β ε' e →
      (∀ t ∈ Set.Icc t0 t1, pairTerm f p T bhat e t (y t) ≠ 0) →
      ∃ r : ℝ, 0 < r ∧ ∀ (o l : ℕ) (E : Env s n m o l) (η : ℝ), E.T = T → 0 ≤ η →
        (∀ i, SolvesNearby E.ode f p η (E.T.A i i)) → MeasureFaithful E →
        ∃ C δ : ℝ, 0 < C ∧ 0 < δ ∧
          ∀ (opt : Options) (t' τ u h0 : ℝ) (fuel : ℕ) (ch : Choice)
            (w w' : World (EmbRKState ℝ s n m o l) (ch.Data (EmbRKState ℝ s n m o l)))
            (i : StartingValues ℝ n m) (v : Outputs n),
            opt.adaptive = true → opt.crit = .finalTime t' → opt.initialStep = fin h0 →
            w.ctrl.config.lower = 0 → w.ctrl.config.upper = fin u → w.ctrl.config.tol = fin τ →
            0 ≤ τ → u < δ → 0 ≤ h0 → h0 ≤ u → t0 + h0 ≤ t' → t' ≤ t1 →
            i.initialTime = t0 → i.independentInputs = p → ‖i.initialValues - y t0‖ + ε + η ≤ r →
            (∀ tr, Run (embBackend E bhat) opt 0 w.ctrl
                (startOf (embBackend E bhat) opt w.ctrl w.tis.disc i) tr →
              ∀ q ∈ tr, ∀ h, q.2.stepHist.1 = fin h →
                1 / 10 ^ 10 ≤ |h - (t' - q.2.disc.finalTime)|) →
            compute (embBackend E bhat) opt (ch.ck (embBackend E bhat) opt) fuel w i
              = (w', .ok v) →
            v.time = t' ∧ ‖v.values - y t'‖ ≤ K * (‖i.initialValues - y t0‖ + ε + η)
              + C * (τ ^ ((k : ℝ) / (e + 1)) + (ε + ε' + η) ^ ((k : ℝ) / e) + (1 / 10 ^ 10) ^ k) := by
  obtain ⟨K, hK, H⟩ := tolerance_within he hek hf hy β
  refine ⟨K, hK, fun s T bhat ε ε' hA hA' hΦ => ?_⟩
  obtain ⟨r, hr, H⟩ := H s T bhat ε ε' hA hA' hΦ
  refine ⟨r, hr, fun o l E η hT hη hs hm => ?_⟩
  obtain ⟨C, δ, hC, hδ, H⟩ := H o l E η hT hη hs hm
  refine ⟨C, δ, hC, hδ, fun opt t' τ u h0 fuel ch w w' i v ha hc hi hlo hup htol hτ hu hh0 hh0u hle
    ht' hti hpi hr hno hcomp => ?_⟩
  have hT1 : ∀ T, opt.crit = .finalTime T → T = t' := fun T hT => by
    rw [hc] at hT
    simpa using hT.symm
  have e1 := (C18_never_past_final_time E bhat ha hc hi (ch := ch) fuel w hlo i
    (by linarith) (by rw [hti]; exact hle)).2.2 v (by rw [hcomp])
  have := H opt τ u h0 fuel ch w w' i v ha hi hlo hup htol hτ hu hh0 hh0u
    (fun T hT => by rw [hT1 T hT]; exact hle)
    (fun tr htr q hq T h hT hh => by rw [hT1 T hT]; exact hno tr htr q hq h hh) hti hpi
    (by linarith) hcomp (by rw [e1]; exact ht')
  rw [e1] at this
  exact ⟨e1, this⟩

end

/-! ### The hypotheses of C100 -/

/-- The leading term for an embedded scheme of order one: a multiple of the second derivative of the
solution. -/
theorem pairTerm_one (f : Rhs ℝ n m) (p : Fin m → ℝ) (T : Coeffs ℝ s) (bhat : Fin s → ℝ) (t : ℝ)
    (u : Fin n → ℝ) (hf : Smooth f p 1) :
    pairTerm f p T bhat 1 t u = (∑ i, (T.b i - bhat i) * ∑ j, T.A i j)
      • fderiv ℝ (fun q : ℝ × (Fin n → ℝ) => f q.1 q.2 p) (t, u) (1, f t u p) :=
  Conv.leadingTerm_one T.A _ t u (hf.differentiable (by norm_num)).differentiableAt

/-- The simple error measure with a norm that bounds the maximum norm. -/
theorem simple_faithful {E : Env s n m o l} {norm : (Fin n → ℝ) → ℝ} {κ : ℝ} (hκ0 : 0 ≤ κ)
    (hκ : ∀ x, ‖x‖ ≤ κ * norm x)
    (hE : ∀ e v, E.measure e v = fin (OM.simpleMeasure norm e v)) : MeasureFaithful E := by
  refine fun R => ⟨κ, hκ0, fun e v τ _ hτ hle => ?_⟩
  rw [hE, le_fin] at hle
  exact (hκ e).trans (mul_le_mul_of_nonneg_left hle hκ0)

/-- The improved error measure. -/
theorem improved_faithful {E : Env s n m o l} {norm : (Fin n → ℝ) → ℝ} {κ κ' eta eps : ℝ}
    (hκ0 : 0 ≤ κ) (hκ'0 : 0 ≤ κ') (h0 : ∀ x, 0 ≤ norm x) (hκ : ∀ x, ‖x‖ ≤ κ * norm x)
    (hκ' : ∀ x, norm x ≤ κ' * ‖x‖) (heta : 0 < eta) (heps : 0 < eps)
    (hE : ∀ e v r, OM.improvedMeasure norm eta eps e v = some r → E.measure e v = fin r) :
    MeasureFaithful E := by
  intro R
  refine ⟨κ * (κ' * |R| + eta / eps), by positivity, fun e v τ hv hτ hle => ?_⟩
  have hd : 0 < norm v + eta / eps := by
    have := h0 v
    positivity
  have hm : OM.improvedMeasure norm eta eps e v = some (norm e / (norm v + eta / eps)) := by
    unfold OM.improvedMeasure
    rw [if_neg heps.ne', if_neg hd.ne']
  rw [hE e v _ hm, le_fin, div_le_iff₀ hd] at hle
  calc ‖e‖ ≤ κ * norm e := hκ e
    _ ≤ κ * (τ * (norm v + eta / eps)) := by gcongr
    _ ≤ κ * (τ * (κ' * |R| + eta / eps)) := by
        gcongr
        exact (hκ' v).trans (by gcongr; exact hv.trans (le_abs_self R))
    _ = _ := by ring

/-- A first attempt that is as long as the time left after it or meets the tolerance is accepted. -/
theorem first_attempt {E : Env s n m o l} {bhat : Fin s → ℝ} {opt : Options} {T h lo : ℝ}
    (ha : opt.adaptive = true) (hc : opt.crit = .finalTime T) (f : ℕ) {c c' : Ctrl}
    (hlo : c.config.lower = fin lo) {x x' : IState (EmbRKState ℝ s n m o l)} (hx : x.sugg = fin h)
    (hT : x.disc.finalTime + 2 * h = T ∨ ∀ d, (embBackend E bhat).step x.disc (fin h) = .ok d →
      le (E.measure d.errorEstimate d.finalState) c.config.tol)
    (hit : iterateOnStep (embBackend E bhat) opt f c x = (c', x', .ok ())) :
    x'.stepHist.1 = fin h ∧ x'.disc.finalTime = x.disc.finalTime + h := by
  cases f with
  | zero => simp [iterateOnStep] at hit
  | succ f =>
    simp only [iterateOnStep] at hit
    rcases hs : (embBackend E bhat).step x.disc x.sugg with e | d
    · rw [hs] at hit; simp at hit
    rw [hs] at hit
    dsimp only at hit
    rw [if_pos ha] at hit
    rcases hm : (embBackend E bhat).measure d with e | err
    · rw [hm] at hit; simp at hit
    rw [hm] at hit
    dsimp only at hit
    have herr : err = E.measure d.errorEstimate d.finalState := (Except.ok.inj hm).symm
    rw [hx] at hs
    have htime := emb_step_time E bhat hs
    have hrem : opt.crit.remaining ((embBackend E bhat).time d)
        = fin (T - (x.disc.finalTime + h)) := by
      rw [hc]
      simp only [Crit.remaining, embBackend, sub_fin, htime]
    rw [hrem] at hit
    rcases hcall : c.call true ⟨err, x.sugg, fin (T - (x.disc.finalTime + h)), x.errHist, x.stepHist⟩
      with ⟨c1, e | st⟩
    · rw [hcall] at hit; simp at hit
    rw [hcall] at hit
    dsimp only at hit
    have hacc : st.acc = true := by
      refine (C19_acceptance_partial c true ⟨err, x.sugg, fin (T - (x.disc.finalTime + h)), x.errHist,
        x.stepHist⟩ st h lo _ hx hlo rfl (by rw [hcall])).mpr (.inr ?_)
      rcases hT with hT | hT
      · left
        rw [show h - (T - (x.disc.finalTime + h)) = 0 by linarith]
        norm_num
      · right
        rw [herr]
        exact hT d hs
    rw [if_pos hacc] at hit
    simp only [Prod.mk.injEq, and_true] at hit
    rw [← hit.2]
    exact ⟨hx, htime⟩

namespace ToleranceEx
open InexactEx EstimateEx FinishEx

/-! `y' = y²` with Heun's scheme, the Euler scheme embedded. -/

theorem heun_A : ∀ i j, heun.tab.A i j = ((embeddedHeunEuler.A i j : ℚ) : ℝ) := fun _ _ => rfl

theorem heun_pair : ∑ i, (heun.tab.b i - heun.tab.bhat i) * ∑ j, heun.tab.A i j = 1 / 2 := by
  have h : ∑ i, (embeddedHeunEuler.b i - embeddedHeunEuler.bhat i) * ∑ j, embeddedHeunEuler.A i j
      = 1 / 2 := by decide +kernel
  have h' := congrArg (Rat.castHom ℝ) h
  simp only [map_sum, map_mul, map_sub, map_div₀, map_one, map_ofNat] at h'
  exact h'

/-- The second derivative of the solutions of `y' = y²` is `2 y³`. -/
theorem square_pair (t : ℝ) (u : Fin 1 → ℝ) :
    pairTerm square (fun _ => 0) heun.tab.coeffs heun.tab.bhat 1 t u 0 = u 0 ^ 3 := by
  have hd : HasFDerivAt (fun q : ℝ × (Fin 1 → ℝ) => square q.1 q.2 (fun _ : Fin 1 => (0 : ℝ)))
      (ContinuousLinearMap.pi fun x => (2 * u x) •
        ((ContinuousLinearMap.proj x).comp (ContinuousLinearMap.snd ℝ ℝ (Fin 1 → ℝ)))) (t, u) := by
    rw [hasFDerivAt_pi]
    intro x
    have h1 : HasFDerivAt (fun q : ℝ × (Fin 1 → ℝ) => q.2 x)
        ((ContinuousLinearMap.proj x).comp (ContinuousLinearMap.snd ℝ ℝ (Fin 1 → ℝ))) (t, u) :=
      ((ContinuousLinearMap.proj x).comp (ContinuousLinearMap.snd ℝ ℝ (Fin 1 → ℝ))).hasFDerivAt
    have h2 := h1.mul h1
    refine h2.congr_fderiv ?_
    ext z
    · simp
    · simp; ring
  rw [pairTerm_one _ _ _ _ _ _ (smooth 1), hd.fderiv]
  have : ∑ i, (heun.tab.coeffs.b i - heun.tab.bhat i) * ∑ j, heun.tab.coeffs.A i j = 1 / 2 := heun_pair
  rw [this]
  simp [square]
  ring

theorem heun_accurate2 : Accurate heun.tab.coeffs
    (max (∑ i, |heun.tab.b i|) (∑ i, |heun.tab.bhat i|)) 0 2 := by
  obtain ⟨p1, p2, g1, -, -, -, g5, g6, g7, -⟩ := C05_embedded_tableaux heun
    (by simp [embShipped, heun])
  obtain rfl : 2 = p1 := Option.some.inj g1
  exact ⟨g6, le_rfl, le_max_left _ _, g5, fun t ht => g7 t ht⟩

theorem heun_accurate_hat : Accurate (withWeights heun.tab.coeffs heun.tab.bhat)
    (max (∑ i, |heun.tab.b i|) (∑ i, |heun.tab.bhat i|)) 0 1 := by
  obtain ⟨p1, p2, -, g2, -, -, g5, g6, -, g8⟩ := C05_embedded_tableaux heun
    (by simp [embShipped, heun])
  obtain rfl : 1 = p2 := Option.some.inj g2
  exact ⟨g6, le_rfl, le_max_right _ _, g5, fun t ht => g8 t ht⟩

theorem abs_faithful {E : Env s 1 m o l} (hE : ∀ e v, E.measure e v = fin |e 0|) :
    MeasureFaithful E := by
  refine simple_faithful (norm := fun e => |e 0|) zero_le_one (fun x => ?_) hE
  rw [one_mul, pi_norm_le_iff_of_nonneg (abs_nonneg _)]
  intro i
  rw [Real.norm_eq_abs, Subsingleton.elim i 0]

theorem sol_pair : ∀ t ∈ Set.Icc (0 : ℝ) (1 / 2),
    pairTerm square (fun _ : Fin 1 => (0 : ℝ)) heun.tab.coeffs heun.tab.bhat 1 t (sol t) ≠ 0 := by
  intro t ht h
  have := congrFun h 0
  rw [square_pair] at this
  have h1 : (1 - t) ≠ 0 := by linarith [ht.2]
  simp [sol, h1] at this

/-- Adaptive runs for `y' = y²` with a number of steps: the error is at most a multiple of the
tolerance (and `1e-20`) as long as the time is at most 1/2. -/
example : ∃ C δ : ℝ, 0 < C ∧ 0 < δ ∧ ∀ (N : ℕ) (τ u : ℝ) (fuel : ℕ) (ch : Choice)
    (w w' : World (EmbRKState ℝ heun.tab.stages 1 1 0 0)
      (ch.Data (EmbRKState ℝ heun.tab.stages 1 1 0 0))) (v : Outputs 1),
    w.ctrl.config.lower = 0 → w.ctrl.config.upper = fin u → w.ctrl.config.tol = fin τ →
    0 ≤ τ → 0 ≤ u → u < δ →
    compute (embBackend envH heun.tab.bhat) ⟨true, .steps N, fin u, 0, 0, 0, 900⟩
      (ch.ck (embBackend envH heun.tab.bhat) ⟨true, .steps N, fin u, 0, 0, 0, 900⟩) fuel w
      ⟨0, fun _ => 1, fun _ => 0⟩ = (w', .ok v) → v.time ≤ 1 / 2 →
    ‖v.values - sol v.time‖ ≤ C * (τ + 1 / 10 ^ 20) := by
  obtain ⟨K, hK, H⟩ := C100_number_of_steps (e := 1) (k := 2) le_rfl one_le_two (smooth 3) sol_solves
    (max (∑ i, |heun.tab.b i|) (∑ i, |heun.tab.bhat i|))
  obtain ⟨r, hr, H⟩ := H _ _ _ 0 0 heun_accurate2 heun_accurate_hat sol_pair
  obtain ⟨C, δ, hC, hδ, H⟩ := H 0 0 envH 0 rfl le_rfl heun_solves (abs_faithful fun _ _ => rfl)
  refine ⟨C, δ, hC, hδ, fun N τ u fuel ch w w' v h1 h2 h3 h4 h5 h6 h7 h8 => ?_⟩
  have e3 : ((fun _ => 1 : Fin 1 → ℝ) - sol 0) = 0 := by
    funext x; simp [sol]
  have := H _ N τ u u fuel ch w w' _ v rfl rfl rfl h1 h2 h3 h4 h6 h5 le_rfl rfl rfl
    (by simpa [e3] using hr.le) h7 h8
  refine this.trans (le_of_eq ?_)
  dsimp only
  rw [e3]
  norm_num

/-! `y' = t²` from time 1 to 2: steps of size `h` are too large by `h³/6`. -/

/-- The right-hand side. -/
def quad : Rhs ℝ 1 1 := fun t _ _ _ => t ^ 2

noncomputable def quadSol (t : ℝ) : Fin 1 → ℝ := fun _ => t ^ 3 / 3

/-- Heun's scheme for it. -/
noncomputable def envQ : Env 2 1 1 0 0 where
  T := heun.tab.coeffs
  ode :=
    { computeUpdate := fun inp _ _ => (⟨fun _ => inp.time ^ 2, 0, 0⟩, 0)
      computeUpdateDerivative := fun _ _ _ _ => ⟨0, 0, 0⟩
      computeUpdateAdjoint := fun _ _ _ _ => ⟨0, 0, 0, 0⟩ }
  fails := fun _ _ => none
  nonfinite := fun _ _ => .error .backend
  measure := fun e _ => fin |e 0|

theorem envQ_coeffs : envQ.T.b 0 = 1 / 2 ∧ envQ.T.b 1 = 1 / 2 ∧ envQ.T.c 0 = 0 ∧ envQ.T.c 1 = 1 ∧
    heun.tab.bhat (0 : Fin 2) = 1 ∧ heun.tab.bhat (1 : Fin 2) = 0 := by
  have e1 : (Rat.castHom ℝ) (0.5 : ℚ) = 1 / 2 := by norm_num
  have e2 : (Rat.castHom ℝ) (0 : ℚ) = 0 := map_zero _
  have e3 : (Rat.castHom ℝ) (1 : ℚ) = 1 := map_one _
  exact ⟨e1, e1, e2, e3, e3, e2⟩

theorem quad_updates {h t : ℝ} {y : Fin 1 → ℝ} {p : Fin 1 → ℝ} {r : RKState ℝ 2 1 1 0 0}
    (R : StepResult envQ.T envQ.ode h t y p r) :
    r.stageUpdates 0 0 = t ^ 2 ∧ r.stageUpdates 1 0 = (t + h) ^ 2 := by
  obtain ⟨-, -, c0, c1, -, -⟩ := envQ_coeffs
  constructor
  · rw [R.update 0]
    change (t + h * envQ.T.c 0) ^ 2 = _
    rw [c0, mul_zero, add_zero]
  · rw [R.update 1]
    change (t + h * envQ.T.c 1) ^ 2 = _
    rw [c1, mul_one]

theorem quad_step {h t : ℝ} {y y₁ : Fin 1 → ℝ} {p : Fin 1 → ℝ} (hst : StepOf envQ p h t y y₁) :
    y₁ 0 = y 0 + h / 2 * (t ^ 2 + (t + h) ^ 2) := by
  obtain ⟨st, rfl, rfl, rfl, rfl⟩ := hst
  have R := computeStep_result envQ.T envQ.ode st h
  obtain ⟨u0, u1⟩ := quad_updates R
  obtain ⟨b0, b1, -⟩ := envQ_coeffs
  rw [R.finalState, accumulateStep_apply, Fin.sum_univ_two, u0, u1, b0, b1]
  ring

/-- The errors of the steps add up and have the same sign. -/
theorem quad_steps {t t' : ℝ} {y y' : Fin 1 → ℝ} {p : Fin 1 → ℝ} {hs : List ℝ}
    (h : IsSteps (StepOf envQ p) t y hs t' y') :
    y' 0 - t' ^ 3 / 3 = y 0 - t ^ 3 / 3 + (hs.map fun h => h ^ 3 / 6).sum := by
  induction h with
  | nil t y => simp
  | @cons t y h y₁ hs t' y' hst hr ih =>
    rw [ih, quad_step hst, List.map_cons, List.sum_cons]
    ring

theorem quad_smooth (q : ℕ) : Smooth quad (fun _ => 0) q := by
  unfold Smooth quad
  fun_prop

theorem quad_solves (a b : ℝ) : IsSolution quad (fun _ => 0) quadSol a b := by
  intro t _
  rw [hasDerivWithinAt_pi]
  intro x
  have := ((hasDerivAt_pow 3 t).div_const 3).hasDerivWithinAt (s := Set.Icc a b)
  refine this.congr_deriv ?_
  simp only [quad]
  ring

theorem quad_pair (t : ℝ) (u : Fin 1 → ℝ) :
    pairTerm quad (fun _ => 0) heun.tab.coeffs heun.tab.bhat 1 t u 0 = t := by
  have hd : HasFDerivAt (fun q : ℝ × (Fin 1 → ℝ) => quad q.1 q.2 (fun _ : Fin 1 => (0 : ℝ)))
      (ContinuousLinearMap.pi fun _ => (2 * t) • ContinuousLinearMap.fst ℝ ℝ (Fin 1 → ℝ)) (t, u) := by
    rw [hasFDerivAt_pi]
    intro x
    have h1 : HasFDerivAt (fun q : ℝ × (Fin 1 → ℝ) => q.1) (ContinuousLinearMap.fst ℝ ℝ (Fin 1 → ℝ))
      (t, u) := hasFDerivAt_fst
    refine (h1.pow 2).congr_fderiv ?_
    ext z <;> simp
  rw [pairTerm_one _ _ _ _ _ _ (quad_smooth 1), hd.fderiv]
  have : ∑ i, (heun.tab.coeffs.b i - heun.tab.bhat i) * ∑ j, heun.tab.coeffs.A i j = 1 / 2 := heun_pair
  rw [this]
  simp

/-- The estimate of a step is `h² (t + h/2)`. -/
theorem quad_estimate {d d' : EmbRKState ℝ 2 1 1 0 0} {h : ℝ}
    (hst : (embBackend envQ heun.tab.bhat).step d (fin h) = .ok d') :
    d'.errorEstimate 0 = (d.finalTime * h + h ^ 2 / 2) * h := by
  obtain ⟨hres, -, -, he⟩ := emb_step_fields hst
  obtain ⟨u0, u1⟩ := quad_updates hres
  obtain ⟨b0, b1, -, -, c0, c1⟩ := envQ_coeffs
  have he0 := congrFun he 0
  rw [Pi.smul_apply, Fin.sum_univ_two, Pi.add_apply, Pi.smul_apply, Pi.smul_apply, u0, u1, b0, b1, c0,
    c1] at he0
  rw [he0]
  simp only [smul_eq_mul]
  ring

theorem quad_tame {u T : ℝ} (hu1 : u ≤ 1) (hT3 : T ≤ 3) (y0 : Fin 1 → ℝ) :
    TameSteps envQ heun.tab.bhat (fun _ => 0) 1 y0 T u 9 := by
  intro d h hp hreach h0 hhu hT
  have ht0 : 1 ≤ d.finalTime := by
    obtain ⟨hl, r1, r2⟩ := hreach
    rw [r2.time]
    have := List.sum_nonneg fun z hz => (r1 z hz).1
    linarith
  have hst : (embBackend envQ heun.tab.bhat).step d (fin h)
      = .ok (computeStepEmb envQ.T heun.tab.bhat envQ.ode d h) := rfl
  refine ⟨_, _, hst, rfl, abs_nonneg _, ?_⟩
  rw [quad_estimate hst]
  have h1 : h ≤ 1 := hhu.trans hu1
  have ht : d.finalTime ≤ 3 := by linarith
  have h2 : 0 ≤ d.finalTime * h + h ^ 2 / 2 := by positivity
  have h3 : d.finalTime * h + h ^ 2 / 2 ≤ 9 := by nlinarith
  rw [abs_of_nonneg (by positivity)]
  gcongr

/-- Heun's scheme solves the stage equations of `y' = t²`. -/
theorem quad_nearby (i : Fin 2) : SolvesNearby envQ.ode quad (fun _ => 0) 0 (envQ.T.A i i) := by
  have : envQ.T.A i i = 0 := heun_explicit i
  rw [this]
  exact explicit_nearby (h1 := 1) (quad_smooth 1) one_pos fun h _ _ inp => rfl

/-- The leading term for `y' = t²` is `t`: the estimates of steps from times between 1 and 2 and values
of at most 3 differ from `h² t` by at most `C h³`. -/
example : ∃ C δ : ℝ, 0 ≤ C ∧ 0 < δ ∧ ∀ (d : EmbRKState ℝ 2 1 1 0 0) (h : ℝ),
    d.independentInputs = (fun _ => 0) → |d.finalTime| ≤ 3 → ‖d.finalState‖ ≤ 3 → 0 ≤ h → h < δ →
    ∃ d', (embBackend envQ heun.tab.bhat).step d (fin h) = .ok d' ∧
      |d'.errorEstimate 0 - h ^ 2 * d.finalTime| ≤ C * h ^ 3 := by
  obtain ⟨K, -, hK⟩ := C71_leading_term (e := 1) (quad_smooth 2) 3
    (max (∑ i, |heun.tab.b i|) (∑ i, |heun.tab.bhat i|))
  obtain ⟨C, δ, hC, hδ, hE⟩ := hK 2 0 0 envQ heun.tab.bhat 0 0 0 (heun_accurate2.mono one_le_two)
    heun_accurate_hat le_rfl quad_nearby
  refine ⟨C, δ, hC, hδ, fun d h h1 h2 h3 h4 h5 => ⟨_, rfl, ?_⟩⟩
  have := (norm_le_pi_norm _ 0).trans (hE d _ h h1 h2 h3 h4 h5 rfl)
  have hp : pairTerm quad (fun _ => 0) envQ.T heun.tab.bhat 1 d.finalTime d.finalState 0
      = d.finalTime := quad_pair _ _
  rw [Pi.sub_apply, Pi.smul_apply, hp, Real.norm_eq_abs, smul_eq_mul] at this
  simpa using this

/-- Runs for `y' = t²` from time 1 to a final time `1 + u` with one step of size `u` that meets the
tolerance `9 u`: the error is at most a multiple of it. -/
example (gs : List (ℝ → Params)) (ch : Choice) : ∃ C δ : ℝ, 0 < C ∧ 0 < δ ∧ ∀ u : ℝ, 1 / 10 ^ 10 ≤ u →
    u ≤ 1 → u < δ → ∃ A N : ℕ,
      ∀ (w : World (EmbRKState ℝ 2 1 1 0 0) (ch.Data (EmbRKState ℝ 2 1 1 0 0))),
        buildChain 1 ⟨fin (9 * u), 0, fin u, fin (95 / 100), 5⟩ (integral :: gs) = some w.ctrl →
        ∃ w' v, compute (embBackend envQ heun.tab.bhat)
            ⟨true, .finalTime (1 + u), fin u, 0, 0, 0, A + 1⟩
            (ch.ck (embBackend envQ heun.tab.bhat)
              ⟨true, .finalTime (1 + u), fin u, 0, 0, 0, A + 1⟩)
            (N + 1) w ⟨1, quadSol 1, fun _ => 0⟩ = (w', .ok v) ∧ v.time = 1 + u ∧
          ‖v.values - quadSol (1 + u)‖ ≤ C * (9 * u + 1 / 10 ^ 20) := by
  obtain ⟨K, hK, H⟩ := C100_final_time_partial (e := 1) (k := 2) le_rfl one_le_two (quad_smooth 3)
    (quad_solves 1 2) (max (∑ i, |heun.tab.b i|) (∑ i, |heun.tab.bhat i|))
  obtain ⟨r, hr, H⟩ := H 2 envQ.T heun.tab.bhat 0 0 heun_accurate2 heun_accurate_hat
    fun t ht h => by
      have h1 : pairTerm quad (fun _ => 0) heun.tab.coeffs heun.tab.bhat 1 t (quadSol t) 0 = 0 :=
        congrFun h 0
      rw [quad_pair] at h1
      linarith [ht.1]
  obtain ⟨C, δ, hC, hδ, H⟩ := H 0 0 envQ 0 rfl le_rfl quad_nearby (abs_faithful fun _ _ => rfl)
  refine ⟨C, δ, hC, hδ, fun u hu hu1 huδ => ?_⟩
  have hu0 : 0 < u := lt_of_lt_of_le (by norm_num) hu
  obtain ⟨A, N, hAN⟩ := C72_finishes (t0 := 1) (T := 1 + u) (u := u) (C := 9) (q := 1)
    (S := 95 / 100) (τ := 9 * u) (h0 := u) zero_le_one (by norm_num) (by norm_num) (by positivity)
    (by norm_num) hu0 le_rfl
  refine ⟨A, N, fun w hw => ?_⟩
  obtain ⟨c, hc1, hc2⟩ := integralFirst_built 1 ⟨fin (9 * u), 0, fin u, fin (95 / 100), 5⟩ gs
  obtain rfl : w.ctrl = c := Option.some.inj (hw.symm.trans hc1)
  have hcfg := hc2.config
  obtain ⟨w', v, h1, -, -⟩ := hAN 2 1 1 0 0 envQ heun.tab.bhat _
    ⟨true, .finalTime (1 + u), fin u, 0, 0, 0, A + 1⟩ ch (N + 1) w ⟨1, quadSol 1, fun _ => 0⟩ rfl rfl
    rfl hc2 rfl rfl rfl (.inl rfl) (by norm_num) rfl le_rfl (quad_tame hu1 (by linarith) _)
    (Nat.lt_succ_self _) (Nat.lt_succ_self _)
  have hlo : w.ctrl.config.lower = fin 0 := by rw [hcfg]; rfl
  have e3 : (quadSol 1 - quadSol 1) = 0 := sub_self _
  have := H ⟨true, .finalTime (1 + u), fin u, 0, 0, 0, A + 1⟩ (1 + u) (9 * u) u u (N + 1) ch w w'
    ⟨1, quadSol 1, fun _ => 0⟩ v rfl rfl rfl hlo (by rw [hcfg]) (by rw [hcfg]) (by positivity) huδ
    hu0.le le_rfl le_rfl (by linarith) rfl rfl (by simpa [e3] using hr.le) (by
      intro tr htr q hq h hh
      cases htr with
      | done h => simp at hq
      | @step _ _ _ c' x' tr hnf hst hrest =>
        obtain ⟨k1, k2⟩ := first_attempt (T := 1 + u) rfl rfl _ hlo rfl (.inr fun d hd => by
          rw [hcfg]
          change le (fin |d.errorEstimate 0|) (fin (9 * u))
          rw [le_fin, quad_estimate hd]
          change |(1 * u + u ^ 2 / 2) * u| ≤ 9 * u
          rw [abs_of_nonneg (by positivity)]
          nlinarith) hst
        have k3 : x'.disc.finalTime = 1 + u := k2
        have hnil : tr = [] := by
          cases hrest with
          | done => rfl
          | step hne =>
            exfalso
            apply hne
            change le (sub (fin (1 + u)) (fin x'.disc.finalTime)) 0
            rw [sub_fin, zero_def, le_fin, k3, sub_self]
        rw [hnil, List.mem_singleton] at hq
        subst hq
        obtain rfl : u = h := by
          rw [k1] at hh
          simpa using hh
        dsimp only
        rw [k3, sub_self, sub_zero, abs_of_pos hu0]
        exact hu) h1
  refine ⟨w', v, h1, this.1, this.2.trans (le_of_eq ?_)⟩
  dsimp only
  rw [e3]
  norm_num

end ToleranceEx

open ToleranceEx EstimateEx in
/-- C100 is violated for a first step of half the interval: for `y' = t²` from the exact value at time
1 to `1 + 2u` with Heun's scheme and the integral controller (and any others behind it) the run ends,
for every `u ≤ 1` and every tolerance, with an error of at least `u³/6`, although the leading term of
the estimates does not vanish. -/
theorem C100_half_time_violated :
    (∀ q, Smooth quad (fun _ => 0) q) ∧ (∀ a b, IsSolution quad (fun _ => 0) quadSol a b) ∧
    Accurate envQ.T (max (∑ i, |heun.tab.b i|) (∑ i, |heun.tab.bhat i|)) 0 2 ∧
    (∀ t u, 1 ≤ t → pairTerm quad (fun _ => 0) envQ.T heun.tab.bhat 1 t u ≠ 0) ∧
    ∀ (u τ : ℝ) (gs : List (ℝ → Params)) (ch : Choice), 0 < u → u ≤ 1 → 0 < τ →
      ∃ A N : ℕ, ∀ (w : World (EmbRKState ℝ 2 1 1 0 0) (ch.Data (EmbRKState ℝ 2 1 1 0 0))),
        buildChain 1 ⟨fin τ, 0, fin u, fin (95 / 100), 5⟩ (integral :: gs) = some w.ctrl →
        ∃ w' v, compute (embBackend envQ heun.tab.bhat)
            ⟨true, .finalTime (1 + 2 * u), fin u, 0, 0, 0, A + 1⟩
            (ch.ck (embBackend envQ heun.tab.bhat)
              ⟨true, .finalTime (1 + 2 * u), fin u, 0, 0, 0, A + 1⟩)
            (N + 1) w ⟨1, quadSol 1, fun _ => 0⟩ = (w', .ok v) ∧ v.time = 1 + 2 * u ∧
          u ^ 3 / 6 ≤ ‖v.values - quadSol (1 + 2 * u)‖ := by
  refine ⟨quad_smooth, quad_solves, heun_accurate2, fun t u ht h => ?_, ?_⟩
  · have h1 : pairTerm quad (fun _ => 0) heun.tab.coeffs heun.tab.bhat 1 t u 0 = 0 := congrFun h 0
    rw [quad_pair] at h1
    linarith
  intro u τ gs ch hu0 hu1 hτ
  obtain ⟨A, N, hAN⟩ := C72_finishes (t0 := 1) (T := 1 + 2 * u) (u := u) (C := 9) (q := 1)
    (S := 95 / 100) (τ := τ) (h0 := u) zero_le_one (by norm_num) (by norm_num) hτ (by norm_num) hu0
    le_rfl
  refine ⟨A, N, fun w hw => ?_⟩
  obtain ⟨c, hc1, hc2⟩ := integralFirst_built 1 ⟨fin τ, 0, fin u, fin (95 / 100), 5⟩ gs
  obtain rfl : w.ctrl = c := Option.some.inj (hw.symm.trans hc1)
  have hcfg := hc2.config
  obtain ⟨w', v, h1, h2, -⟩ := hAN 2 1 1 0 0 envQ heun.tab.bhat _
    ⟨true, .finalTime (1 + 2 * u), fin u, 0, 0, 0, A + 1⟩ ch (N + 1) w ⟨1, quadSol 1, fun _ => 0⟩ rfl rfl
    rfl hc2 rfl rfl rfl (.inl rfl) (by norm_num) rfl (by linarith) (quad_tame hu1 (by linarith) _)
    (Nat.lt_succ_self _) (Nat.lt_succ_self _)
  refine ⟨w', v, h1, h2, ?_⟩
  have hlo : w.ctrl.config.lower = fin 0 := by rw [hcfg]; rfl
  obtain ⟨hs, e1, e2, -, -, tr, e5, e6⟩ := choice_chain (embCore envQ heun.tab.bhat) h1
  obtain ⟨hr, k1, k2⟩ := run_bounded (s := 2) (T := 1 + 2 * u) (lo := 0) (u := u) heun.tab.bhat
    le_rfl hu0.le rfl rfl e5 hlo (by rw [hcfg])
    ⟨by change (1 : ℝ) ≤ _; linarith, u, rfl, hu0.le, le_rfl, by change 1 + u ≤ _; linarith⟩
  have hst := quad_steps (chain_result (embCore envQ heun.tab.bhat) e1 e2 hr (e6.trans k1))
  have hsum : u ^ 3 / 6 ≤ (hr.map fun h => h ^ 3 / 6).sum := by
    have hfirst : ∃ hr', hr = u :: hr' := by
      cases e5 with
      | done h =>
        change le (sub (fin (1 + 2 * u)) (fin 1)) 0 at h
        rw [sub_fin, zero_def, le_fin] at h
        linarith
      | @step _ _ _ c' x' tr h hst hrest =>
        have := (first_attempt (T := 1 + 2 * u) rfl rfl _ hlo rfl (.inl rfl) hst).1
        cases hr with
        | nil => simp at k1
        | cons a hr' =>
          simp only [List.map_cons, List.cons.injEq] at k1
          rw [this] at k1
          obtain rfl : u = a := by simpa using k1.1
          exact ⟨hr', rfl⟩
    obtain ⟨hr', rfl⟩ := hfirst
    rw [List.map_cons, List.sum_cons]
    have : 0 ≤ (hr'.map fun h => h ^ 3 / 6).sum := by
      refine List.sum_nonneg fun z hz => ?_
      obtain ⟨h, hh, rfl⟩ := List.mem_map.mp hz
      have := (k2 h (List.mem_cons_of_mem _ hh)).1
      positivity
    linarith
  rw [h2] at hst
  have hle := norm_le_pi_norm (v.values - quadSol (1 + 2 * u)) 0
  rw [Real.norm_eq_abs] at hle
  refine le_trans (le_trans ?_ (le_abs_self _)) hle
  simp only [Pi.sub_apply, quadSol] at hst ⊢
  linarith

end Verif.Props
