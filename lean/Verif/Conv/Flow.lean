/-
Dependence of the solutions of ordinary differential equations on initial time, initial values and
parameters: solutions for nearby data exist, and the derivative with respect to the data solves the
variational equation. No code is modelled here.
-/
import Mathlib.Analysis.ODE.ExistUnique
import Mathlib.Analysis.ODE.Gronwall
import Mathlib.Analysis.Calculus.BumpFunction.FiniteDimension
import Mathlib.Analysis.Calculus.ContDiff.RCLike
import Mathlib.Analysis.Calculus.MeanValue

namespace Verif.Conv

open Set Metric Filter Topology
open scoped NNReal

section
variable {E : Type*} [NormedAddCommGroup E] [NormedSpace ℝ E] [CompleteSpace E]

/-- Bounded Lipschitz equations have solutions on whole intervals. -/
theorem global_exists {F : ℝ → E → E} {t0 t1 : ℝ} (h : t0 ≤ t1) (K L : ℝ≥0)
    (hK : ∀ t ∈ Icc t0 t1, LipschitzWith K (F t)) (hc : ∀ x, ContinuousOn (F · x) (Icc t0 t1))
    (hL : ∀ t ∈ Icc t0 t1, ∀ x, ‖F t x‖ ≤ L) (x0 : E) :
    ∃ z : ℝ → E, z t0 = x0 ∧
      ∀ t ∈ Icc t0 t1, HasDerivWithinAt z (F t (z t)) (Icc t0 t1) t := by
  have hp : IsPicardLindelof F (⟨t0, left_mem_Icc.mpr h⟩ : Icc t0 t1) x0
      (L * Real.toNNReal (t1 - t0)) 0 L K :=
    { lipschitzOnWith := fun t ht => (hK t ht).lipschitzOnWith
      continuousOn := fun x _ => hc x
      norm_le := fun t ht x _ => hL t ht x
      mul_max_le := by
        simp only [sub_self, NNReal.coe_zero, sub_zero]
        rw [max_eq_left (sub_nonneg.mpr h), NNReal.coe_mul, Real.coe_toNNReal _ (sub_nonneg.mpr h)] }
  exact hp.exists_eq_forall_mem_Icc_hasDerivWithinAt₀

end

/-- Clamping of all components to `[-ρ, ρ]`. -/
def clampTo {n : ℕ} (ρ : ℝ) (u : Fin n → ℝ) : Fin n → ℝ := fun x => max (-ρ) (min ρ (u x))

theorem clampTo_lipschitz {n : ℕ} (ρ : ℝ) : LipschitzWith 1 (clampTo (n := n) ρ) := by
  refine LipschitzWith.of_dist_le_mul fun u v => ?_
  rw [NNReal.coe_one, one_mul]
  refine (dist_pi_le_iff dist_nonneg).mpr fun x => ?_
  have h1 : |u x - v x| ≤ dist u v := by
    rw [← Real.dist_eq]
    exact dist_le_pi_dist u v x
  rw [Real.dist_eq]
  refine le_trans ?_ h1
  unfold clampTo
  refine (abs_max_sub_max_le_max _ _ _ _).trans ?_
  rw [sub_self, abs_zero]
  refine max_le (abs_nonneg _) ((abs_min_sub_min_le_max _ _ _ _).trans ?_)
  rw [sub_self, abs_zero]
  exact max_le (abs_nonneg _) le_rfl

theorem clampTo_norm {n : ℕ} {ρ : ℝ} (hρ : 0 ≤ ρ) (u : Fin n → ℝ) : ‖clampTo ρ u‖ ≤ ρ :=
  (pi_norm_le_iff_of_nonneg hρ).mpr fun x => abs_le.mpr
    ⟨le_max_left _ _, max_le (by linarith) (min_le_left _ _)⟩

theorem clampTo_of_norm {n : ℕ} {ρ : ℝ} {u : Fin n → ℝ} (hu : ‖u‖ ≤ ρ) : clampTo ρ u = u := by
  funext x
  have := abs_le.mp ((norm_le_pi_norm u x).trans hu)
  unfold clampTo
  rw [min_eq_right this.2, max_eq_right this.1]

theorem clampTo_norm_le {n : ℕ} {ρ : ℝ} (hρ : 0 ≤ ρ) (u : Fin n → ℝ) : ‖clampTo ρ u‖ ≤ ‖u‖ := by
  by_cases h : ‖u‖ ≤ ρ
  · rw [clampTo_of_norm h]
  · exact (clampTo_norm hρ u).trans (not_le.mp h).le

theorem within_Ici {E : Type*} [NormedAddCommGroup E] [NormedSpace ℝ E] {z : ℝ → E} {z' : E}
    {t0 t1 t : ℝ} (ht : t ∈ Ico t0 t1) (h : HasDerivWithinAt z z' (Icc t0 t1) t) :
    HasDerivWithinAt z z' (Ici t) t :=
  h.mono_of_mem_nhdsWithin (Icc_mem_nhdsGE_of_mem ht)

/-- Linear equations have solutions on whole intervals. -/
theorem linear_exists {n : ℕ} {G : ℝ → (Fin n → ℝ) →L[ℝ] (Fin n → ℝ)} {g : ℝ → Fin n → ℝ}
    {t0 t1 : ℝ} (h : t0 ≤ t1) (hG : ContinuousOn G (Icc t0 t1)) (hg : ContinuousOn g (Icc t0 t1))
    (v : Fin n → ℝ) : ∃ δ : ℝ → Fin n → ℝ, δ t0 = v ∧
      ∀ t ∈ Icc t0 t1, HasDerivWithinAt δ (G t (δ t) + g t) (Icc t0 t1) t := by
  obtain ⟨K, hK⟩ := isCompact_Icc.exists_bound_of_continuousOn hG
  obtain ⟨c, hc⟩ := isCompact_Icc.exists_bound_of_continuousOn hg
  have hK0 : 0 ≤ K := (norm_nonneg _).trans (hK t0 (left_mem_Icc.mpr h))
  have hc0 : 0 ≤ c := (norm_nonneg _).trans (hc t0 (left_mem_Icc.mpr h))
  set ρ := gronwallBound ‖v‖ K c (t1 - t0) with hρ
  have hmono := gronwallBound_mono (norm_nonneg v) hc0 hK0
  have hρ0 : 0 ≤ ρ := by
    have := hmono (sub_nonneg.mpr h)
    rw [gronwallBound_x0] at this
    exact (norm_nonneg v).trans this
  obtain ⟨z, hz0, hz⟩ := global_exists (F := fun t x => G t (clampTo ρ x) + g t) h
    ⟨K, hK0⟩ (⟨K * ρ + c, by positivity⟩) (fun t ht => LipschitzWith.of_dist_le_mul fun u w => by
      rw [dist_add_right, dist_eq_norm, ← map_sub]
      refine ((G t).le_opNorm _).trans (mul_le_mul (hK t ht) ?_ (norm_nonneg _) hK0)
      rw [← dist_eq_norm]
      simpa using (clampTo_lipschitz ρ).dist_le_mul u w)
    (fun x => (hG.clm_apply continuousOn_const).add hg)
    (fun t ht x => by
      refine (norm_add_le _ _).trans (add_le_add ?_ (hc t ht))
      exact ((G t).le_opNorm _).trans (mul_le_mul (hK t ht) (clampTo_norm hρ0 x) (norm_nonneg _)
        hK0)) v
  have hb : ∀ t ∈ Icc t0 t1, ‖z t‖ ≤ ρ := fun t ht => by
    refine (norm_le_gronwallBound_of_norm_deriv_right_le (K := K) (ε := c)
      (fun t ht => (hz t ht).continuousWithinAt)
      (fun t ht => within_Ici ht (hz t (Ico_subset_Icc_self ht))) (by rw [hz0]) (fun t ht => ?_) t
      ht).trans (hmono (by linarith [ht.2]))
    have ht' := Ico_subset_Icc_self ht
    refine (norm_add_le _ _).trans (add_le_add ?_ (hc t ht'))
    exact ((G t).le_opNorm _).trans (mul_le_mul (hK t ht') (clampTo_norm_le hρ0 _)
      (norm_nonneg _) hK0)
  refine ⟨z, hz0, fun t ht => ?_⟩
  have := hz t ht
  rwa [clampTo_of_norm (hb t ht)] at this

section
variable {E P : Type*} [NormedAddCommGroup E] [NormedSpace ℝ E] [FiniteDimensional ℝ E]
  [NormedAddCommGroup P] [NormedSpace ℝ P] [FiniteDimensional ℝ P]
  {f : ℝ → E → P → E} {y : ℝ → E} {p : P} {t0 t1 : ℝ}

/-- Solutions for nearby data exist on the same interval. -/
theorem nearby_solutions (h : t0 ≤ t1)
    (hf : ContDiff ℝ 1 (fun z : ℝ × E × P => f z.1 z.2.1 z.2.2))
    (hy : ∀ t ∈ Icc t0 t1, HasDerivWithinAt y (f t (y t) p) (Icc t0 t1) t) :
    ∃ ρ R : ℝ, 0 < ρ ∧ ∀ (τ : ℝ) (v : E) (π : P), |τ| ≤ ρ → ‖v‖ ≤ ρ → ‖π‖ ≤ ρ →
      ∃ z : ℝ → E, z t0 = y t0 + v ∧ (∀ t ∈ Icc t0 t1, ‖z t‖ ≤ R) ∧
        ∀ t ∈ Icc t0 t1, HasDerivWithinAt z (f (t + τ) (z t) (p + π)) (Icc t0 t1) t := by
  have hyc : ContinuousOn y (Icc t0 t1) := fun t ht => (hy t ht).continuousWithinAt
  obtain ⟨R₀, hR₀⟩ := isCompact_Icc.exists_bound_of_continuousOn hyc
  have hR0 : 0 ≤ R₀ := (norm_nonneg _).trans (hR₀ t0 (left_mem_Icc.mpr h))
  set R := |t0| + |t1| + R₀ + ‖p‖ + 1 with hR
  have hRpos : 0 < R := by positivity
  let χ : ContDiffBump (0 : ℝ × E × P) := ⟨R, R + 1, hRpos, by linarith⟩
  have h1 : ContDiff ℝ 1 (fun q : ℝ × E × P => χ q • f q.1 q.2.1 q.2.2) := χ.contDiff.smul hf
  have h2 : HasCompactSupport (fun q : ℝ × E × P => χ q • f q.1 q.2.1 q.2.2) :=
    χ.hasCompactSupport.smul_right
  obtain ⟨L, hL⟩ := ContDiff.lipschitzWith_of_hasCompactSupport (𝕂 := ℝ) h2 h1 (by norm_num)
  obtain ⟨B, hB⟩ := h1.continuous.bounded_above_of_compact_support h2
  have hin : ∀ t u w, |t| ≤ R → ‖u‖ ≤ R → ‖w‖ ≤ R → χ (t, u, w) • f t u w = f t u w := by
    intro t u w g1 g2 g3
    have : χ (t, u, w) = 1 := χ.one_of_mem_closedBall (by
      rw [mem_closedBall_zero_iff, Prod.norm_def, Prod.norm_def]
      exact max_le g1 (max_le g2 g3))
    rw [this, one_smul]
  -- the bound of the distance to `y`
  have hcont : Continuous fun ρ : ℝ => gronwallBound ρ L (L * ρ) (t1 - t0) := by
    unfold gronwallBound
    split <;> fun_prop
  have hzero : gronwallBound 0 L (L * 0) (t1 - t0) = 0 := by
    rw [mul_zero, gronwallBound_ε0_δ0]
  have hev : ∀ᶠ ρ in 𝓝 (0 : ℝ), gronwallBound ρ L (L * ρ) (t1 - t0) < 1 :=
    hcont.continuousAt.eventually_lt continuousAt_const (by rw [hzero]; exact one_pos)
  obtain ⟨d, hd, hdb⟩ := Metric.eventually_nhds_iff.mp hev
  set ρ := min (d / 2) 1 with hρ
  have hρpos : 0 < ρ := lt_min (by linarith) one_pos
  have hρ1 : ρ ≤ 1 := min_le_right _ _
  have hgρ : gronwallBound ρ L (L * ρ) (t1 - t0) < 1 := hdb (by
    rw [Real.dist_eq, sub_zero, abs_of_pos hρpos]
    exact (min_le_left _ _).trans_lt (by linarith))
  refine ⟨ρ, R, hρpos, fun τ v π hτ hv hπ => ?_⟩
  obtain ⟨z, hz0, hz⟩ := global_exists
    (F := fun t x => χ (t + τ, x, p + π) • f (t + τ) x (p + π)) h L (Real.toNNReal B)
    (fun t _ => LipschitzWith.of_dist_le_mul fun u w => by
      have := hL.dist_le_mul (t + τ, u, p + π) (t + τ, w, p + π)
      simpa [Prod.dist_eq] using this)
    (fun x => (h1.continuous.comp (by fun_prop : Continuous fun t : ℝ => (t + τ, x, p + π)))
      |>.continuousOn)
    (fun t _ x => (hB (t + τ, x, p + π)).trans (Real.le_coe_toNNReal B)) (y t0 + v)
  have habs : ∀ t ∈ Icc t0 t1, |t| ≤ |t0| + |t1| := fun t ht => by
    rw [abs_le]
    constructor <;>
      linarith [ht.1, ht.2, neg_abs_le t0, le_abs_self t1, abs_nonneg t0, abs_nonneg t1]
  have hdist : ∀ t ∈ Icc t0 t1, dist (z t) (y t) ≤ 1 := fun t ht => by
    refine le_trans (dist_le_of_approx_trajectories_ODE_of_mem
      (v := fun t x => χ (t + τ, x, p + π) • f (t + τ) x (p + π)) (K := L) (s := fun _ => univ)
      (δ := ρ) (εf := 0) (εg := L * ρ)
      (fun t _ => (LipschitzWith.of_dist_le_mul fun u w => by
        have := hL.dist_le_mul (t + τ, u, p + π) (t + τ, w, p + π)
        simpa [Prod.dist_eq] using this).lipschitzOnWith)
      (fun t ht => (hz t ht).continuousWithinAt)
      (fun t ht => within_Ici ht (hz t (Ico_subset_Icc_self ht)))
      (fun t ht => by rw [dist_self]) (fun _ _ => mem_univ _) hyc
      (fun t ht => within_Ici ht (hy t (Ico_subset_Icc_self ht)))
      (fun t ht => ?_) (fun _ _ => mem_univ _) ?_ t ht) ?_
    · have ht' := Ico_subset_Icc_self ht
      rw [← hin t (y t) p (by linarith [habs t ht', norm_nonneg p])
        (by linarith [hR₀ t ht', abs_nonneg t0, abs_nonneg t1, norm_nonneg p])
        (by linarith [abs_nonneg t0, abs_nonneg t1])]
      refine (hL.dist_le_mul (t, y t, p) (t + τ, y t, p + π)).trans ?_
      refine mul_le_mul_of_nonneg_left ?_ L.2
      simp only [Prod.dist_eq, dist_self_add_right, dist_self, Real.norm_eq_abs]
      exact max_le hτ (max_le hρpos.le hπ)
    · rw [hz0, dist_self_add_left]
      exact hv
    · rw [zero_add]
      refine (gronwallBound_mono hρpos.le (by positivity) L.2 ?_).trans hgρ.le
      linarith [ht.2]
  have hnz : ∀ t ∈ Icc t0 t1, ‖z t‖ ≤ R := fun t ht => by
    have h1 := hdist t ht
    rw [dist_eq_norm] at h1
    have h2 := norm_sub_norm_le (z t) (y t)
    linarith [hR₀ t ht, abs_nonneg t0, abs_nonneg t1, norm_nonneg p]
  refine ⟨z, hz0, hnz, fun t ht => ?_⟩
  have := hz t ht
  rwa [hin] at this
  · refine (abs_add_le _ _).trans ?_
    linarith [habs t ht, norm_nonneg p]
  · exact hnz t ht
  · refine (norm_add_le _ _).trans ?_
    linarith [abs_nonneg t0, abs_nonneg t1]

theorem gronwallBound_scale (K ε x : ℝ) : gronwallBound 0 K ε x = ε * gronwallBound 0 K 1 x := by
  unfold gronwallBound
  split <;> ring

/-- Near a compact set of points the linearization error is uniformly small. -/
theorem uniform_linearization {X Y : Type*} [NormedAddCommGroup X] [NormedSpace ℝ X]
    [FiniteDimensional ℝ X] [NormedAddCommGroup Y] [NormedSpace ℝ Y] {Φ : X → Y}
    (hΦ : ContDiff ℝ 1 Φ) (R η : ℝ) (hη : 0 < η) :
    ∃ d : ℝ, 0 < d ∧ ∀ x w : X, ‖x‖ ≤ R → ‖x + w‖ ≤ R → ‖w‖ < d →
      ‖Φ (x + w) - Φ x - fderiv ℝ Φ x w‖ ≤ η * ‖w‖ := by
  have huc := (isCompact_closedBall (0 : X) R).uniformContinuousOn_of_continuous
    (hΦ.continuous_fderiv (by norm_num)).continuousOn
  obtain ⟨d, hd, H⟩ := Metric.uniformContinuousOn_iff.mp huc η hη
  refine ⟨d, hd, fun x w hx hxw hw => ?_⟩
  have hseg : segment ℝ x (x + w) ⊆ closedBall 0 R := (convex_closedBall 0 R).segment_subset
    (by rwa [mem_closedBall_zero_iff]) (by rwa [mem_closedBall_zero_iff])
  have := (convex_segment x (x + w)).norm_image_sub_le_of_norm_hasFDerivWithin_le'
    (f := Φ) (f' := fderiv ℝ Φ) (φ := fderiv ℝ Φ x) (C := η) (x := x) (y := x + w)
    (fun u _ => ((hΦ.differentiable (by norm_num)) u).hasFDerivAt.hasFDerivWithinAt)
    (fun u hu => ?_) (left_mem_segment ℝ _ _) (right_mem_segment ℝ _ _)
  · simpa using this
  · rw [← dist_eq_norm]
    refine (H u (hseg hu) x (hseg (left_mem_segment ℝ _ _)) ?_).le
    refine lt_of_le_of_lt ?_ hw
    rw [dist_eq_norm]
    simpa using norm_sub_le_of_mem_segment hu

/-- The derivative of families of solutions with respect to the data solves the variational
equation. -/
theorem flow_deriv {δ : ℝ → E} {τ : ℝ} {π : P} (h : t0 ≤ t1)
    (hf : ContDiff ℝ 1 (fun z : ℝ × E × P => f z.1 z.2.1 z.2.2))
    (hy : ∀ t ∈ Icc t0 t1, HasDerivWithinAt y (f t (y t) p) (Icc t0 t1) t)
    (hδ : ∀ t ∈ Icc t0 t1, HasDerivWithinAt δ
      (fderiv ℝ (fun z : ℝ × E × P => f z.1 z.2.1 z.2.2) (t, y t, p) (τ, δ t, π)) (Icc t0 t1) t)
    {Y : ℝ → ℝ → E} {R : ℝ}
    (hY : ∀ᶠ ε in 𝓝 (0 : ℝ), Y ε t0 = y t0 + ε • δ t0 ∧ (∀ t ∈ Icc t0 t1, ‖Y ε t‖ ≤ R) ∧
      ∀ t ∈ Icc t0 t1, HasDerivWithinAt (Y ε) (f (t + ε * τ) (Y ε t) (p + ε • π)) (Icc t0 t1) t) :
    ∀ t ∈ Icc t0 t1, Y 0 t = y t ∧ HasDerivAt (fun ε => Y ε t) (δ t) 0 := by
  set Φ : ℝ × E × P → E := fun z => f z.1 z.2.1 z.2.2 with hΦ
  have hyc : ContinuousOn y (Icc t0 t1) := fun t ht => (hy t ht).continuousWithinAt
  have hδc : ContinuousOn δ (Icc t0 t1) := fun t ht => (hδ t ht).continuousWithinAt
  obtain ⟨Ry, hRy⟩ := isCompact_Icc.exists_bound_of_continuousOn hyc
  obtain ⟨Rd, hRd⟩ := isCompact_Icc.exists_bound_of_continuousOn hδc
  have hRy0 : 0 ≤ Ry := (norm_nonneg _).trans (hRy t0 (left_mem_Icc.mpr h))
  have hRd0 : 0 ≤ Rd := (norm_nonneg _).trans (hRd t0 (left_mem_Icc.mpr h))
  set W := |τ| + Rd + ‖π‖ + 1 with hW
  have hWpos : 0 < W := by positivity
  set R1 := |t0| + |t1| + Ry + ‖p‖ + W + |R| with hR1
  have habs : ∀ t ∈ Icc t0 t1, |t| ≤ |t0| + |t1| := fun t ht => by
    rw [abs_le]
    constructor <;>
      linarith [ht.1, ht.2, neg_abs_le t0, le_abs_self t1, abs_nonneg t0, abs_nonneg t1]
  -- a Lipschitz constant on the ball
  obtain ⟨L, hL⟩ := (isCompact_closedBall (0 : ℝ × E × P) R1).exists_bound_of_continuousOn
    (hf.continuous_fderiv (by norm_num)).continuousOn
  have hL0 : 0 ≤ L := (norm_nonneg _).trans (hL 0 (by
    rw [mem_closedBall_zero_iff, norm_zero]
    positivity))
  have hlip : ∀ t w, |t| ≤ R1 → ‖w‖ ≤ R1 →
      LipschitzOnWith (Real.toNNReal L) (fun u => f t u w) (closedBall 0 R1) := by
    intro t w ht hw
    refine LipschitzOnWith.of_dist_le_mul fun u hu u' hu' => ?_
    have hmem : ∀ u ∈ closedBall (0 : E) R1, (t, u, w) ∈ closedBall (0 : ℝ × E × P) R1 := by
      intro u hu
      rw [mem_closedBall_zero_iff] at hu ⊢
      rw [Prod.norm_def, Prod.norm_def]
      exact max_le ht (max_le hu hw)
    have := (convex_closedBall (0 : ℝ × E × P) R1).norm_image_sub_le_of_norm_fderiv_le
      (f := Φ) (C := L) (fun z _ => hf.differentiable (by norm_num) z) hL (hmem u' hu')
      (hmem u hu)
    rw [Real.coe_toNNReal _ hL0]
    simpa [dist_eq_norm, hΦ, Prod.norm_def] using this
  -- the distance of the family to its linearization
  have key : ∀ η : ℝ, 0 < η → ∀ᶠ ε in 𝓝 (0 : ℝ), ∀ t ∈ Icc t0 t1,
      ‖Y ε t - (y t + ε • δ t)‖ ≤ η * |ε| * W * gronwallBound 0 L 1 (t1 - t0) := by
    intro η hη
    obtain ⟨d, hd, H⟩ := uniform_linearization hf R1 η hη
    have hsmall : ∀ᶠ ε in 𝓝 (0 : ℝ), |ε| < min 1 (d / W) := by
      have : ContinuousAt (fun ε : ℝ => |ε|) 0 := by fun_prop
      exact this.eventually_lt continuousAt_const (by simp [hd, hWpos])
    filter_upwards [hY, hsmall] with ε ⟨e1, e2, e3⟩ hε t ht
    have hε1 : |ε| ≤ 1 := (hε.trans_le (min_le_left _ _)).le
    have hεd : |ε| * W < d := by
      rw [← lt_div_iff₀ hWpos]
      exact hε.trans_le (min_le_right _ _)
    have hwn : ∀ t ∈ Icc t0 t1, ‖((τ, δ t, π) : ℝ × E × P)‖ ≤ W := fun t ht => by
      rw [Prod.norm_def, Prod.norm_def, Real.norm_eq_abs]
      have := hRd t ht
      exact max_le (by linarith [norm_nonneg π]) (max_le
        (by linarith [norm_nonneg π, abs_nonneg τ]) (by linarith [abs_nonneg τ]))
    have hxn : ∀ t ∈ Icc t0 t1, ‖((t, y t, p) : ℝ × E × P)‖ ≤ |t0| + |t1| + Ry + ‖p‖ :=
      fun t ht => by
      rw [Prod.norm_def, Prod.norm_def, Real.norm_eq_abs]
      have h1 := hRy t ht
      have h2 := habs t ht
      have h3 := norm_nonneg p
      have h4 := abs_nonneg t
      exact max_le (by linarith) (max_le (by linarith) (by linarith))
    have hew : ∀ t ∈ Icc t0 t1, ‖ε • ((τ, δ t, π) : ℝ × E × P)‖ ≤ |ε| * W := fun t ht => by
      rw [norm_smul, Real.norm_eq_abs]
      exact mul_le_mul_of_nonneg_left (hwn t ht) (abs_nonneg _)
    have heW : |ε| * W ≤ W := mul_le_of_le_one_left hWpos.le hε1
    have hsum : ∀ t ∈ Icc t0 t1, ‖((t, y t, p) : ℝ × E × P) + ε • (τ, δ t, π)‖ ≤ R1 :=
      fun t ht => (norm_add_le _ _).trans (by
        have h1 := hxn t ht
        have h2 := hew t ht
        have h3 := abs_nonneg R
        linarith)
    have hcomp : ∀ t ∈ Icc t0 t1, |t + ε * τ| ≤ R1 ∧ ‖y t + ε • δ t‖ ≤ R1 ∧ ‖p + ε • π‖ ≤ R1 :=
      fun t ht => by
      have := hsum t ht
      simp only [Prod.smul_mk, Prod.mk_add_mk, Prod.norm_def, smul_eq_mul, max_le_iff,
        Real.norm_eq_abs] at this
      exact this
    have hgr := dist_le_of_approx_trajectories_ODE_of_mem
      (v := fun t u => f (t + ε * τ) u (p + ε • π)) (K := Real.toNNReal L)
      (s := fun _ => closedBall 0 R1) (f := Y ε) (g := fun t => y t + ε • δ t)
      (f' := fun t => f (t + ε * τ) (Y ε t) (p + ε • π))
      (g' := fun t => f t (y t) p + ε • fderiv ℝ Φ (t, y t, p) (τ, δ t, π))
      (δ := 0) (εf := 0) (εg := η * |ε| * W) (a := t0) (b := t1)
      (fun t ht => hlip _ _ (hcomp t (Ico_subset_Icc_self ht)).1
        (hcomp t (Ico_subset_Icc_self ht)).2.2)
      (fun t ht => (e3 t ht).continuousWithinAt)
      (fun t ht => within_Ici ht (e3 t (Ico_subset_Icc_self ht)))
      (fun t ht => by rw [dist_self])
      (fun t ht => by
        rw [mem_closedBall_zero_iff]
        refine (e2 t (Ico_subset_Icc_self ht)).trans ((le_abs_self R).trans ?_)
        have h1 := abs_nonneg t0
        have h2 := abs_nonneg t1
        have h3 := norm_nonneg p
        linarith)
      (hyc.add (hδc.const_smul ε))
      (fun t ht => within_Ici ht ((hy t (Ico_subset_Icc_self ht)).add
        ((hδ t (Ico_subset_Icc_self ht)).const_smul ε)))
      (fun t ht => by
        have ht' := Ico_subset_Icc_self ht
        rw [dist_comm, dist_eq_norm]
        have h1 := H (t, y t, p) (ε • (τ, δ t, π)) ((hxn t ht').trans (by
          have h3 := abs_nonneg R
          linarith)) (hsum t ht') ((hew t ht').trans_lt hεd)
        rw [map_smul] at h1
        have e : Φ ((t, y t, p) + ε • (τ, δ t, π)) = f (t + ε * τ) (y t + ε • δ t) (p + ε • π) :=
          rfl
        rw [e, sub_sub] at h1
        refine h1.trans ?_
        rw [mul_assoc]
        exact mul_le_mul_of_nonneg_left (hew t ht') hη.le)
      (fun t ht => by
        rw [mem_closedBall_zero_iff]
        exact (hcomp t (Ico_subset_Icc_self ht)).2.1)
      (by rw [e1, dist_self]) t ht
    rw [dist_eq_norm, zero_add, gronwallBound_scale, Real.coe_toNNReal _ hL0] at hgr
    refine hgr.trans (mul_le_mul_of_nonneg_left ?_ (by positivity))
    exact gronwallBound_mono le_rfl zero_le_one hL0 (by linarith [ht.2])
  set G := gronwallBound 0 L 1 (t1 - t0) with hG
  have hG0 : 0 ≤ G := by
    have := gronwallBound_mono (δ := 0) (K := L) (ε := 1) le_rfl zero_le_one hL0
      (sub_nonneg.mpr h)
    rwa [gronwallBound_x0] at this
  intro t ht
  have h0 : Y 0 t = y t := by
    have := (key 1 one_pos).self_of_nhds t ht
    simp only [zero_smul, add_zero, abs_zero, mul_zero, zero_mul] at this
    exact sub_eq_zero.mp (norm_le_zero_iff.mp this)
  refine ⟨h0, ?_⟩
  rw [hasDerivAt_iff_isLittleO, Asymptotics.isLittleO_iff]
  intro c hc
  have hη : 0 < c / (W * (G + 1)) := by positivity
  filter_upwards [key _ hη] with ε hε
  have := hε t ht
  rw [h0, sub_zero, sub_sub, Real.norm_eq_abs]
  refine this.trans ?_
  have e : c / (W * (G + 1)) * |ε| * W * G = c * |ε| * (G / (G + 1)) := by
    field_simp
  rw [e]
  refine mul_le_of_le_one_right (by positivity) ?_
  rw [div_le_one (by linarith)]
  linarith

end

end Verif.Conv
