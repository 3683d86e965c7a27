/-
Errors of Runge-Kutta schemes whose coefficients satisfy the order conditions up to an accuracy
only. The constant in front of the accuracy depends on the problem and a bound of the weights, not
on the scheme. No code is modelled here.
-/
import Verif.Conv.Global
import Mathlib.Analysis.Calculus.ContDiff.RCLike

namespace Verif.Conv

open Verif.Tableau Finset Filter Topology Asymptotics

theorem mul_le_one {h a : ℝ} (h0 : 0 ≤ h) (ha : 0 ≤ a) (hh : h < 1 / (a + 1)) : h * a ≤ 1 := by
  rw [lt_div_iff₀ (by positivity)] at hh
  nlinarith

section autonomous
variable {X : Type*} [NormedAddCommGroup X] [NormedSpace ℝ X] [ProperSpace X] {F : X → X}

/-- The elementary differentials are bounded along a bounded curve. -/
theorem bound_differentials {p : ℕ} (hF : ContDiff ℝ p F) (R : ℝ) :
    ∃ K, 0 ≤ K ∧ ∀ x, ‖x‖ ≤ R → ∑ t ∈ trees p, |coeff t| * ‖elem F x t‖ ≤ K := by
  cases p with
  | zero => exact ⟨0, le_rfl, fun x _ => by simp [trees_zero]⟩
  | succ k =>
    have : ∀ t : RTree, ∃ C, t ∈ trees (k + 1) → ∀ x, ‖x‖ ≤ R → ‖elem F x t‖ ≤ C := by
      intro t
      by_cases ht : t ∈ trees (k + 1)
      · obtain ⟨C, hC⟩ := bound_elem hF R (k + 2) t ((mem_trees.mp ht).trans (by omega)) le_rfl
        exact ⟨C, fun _ x hx => hC x (by simpa using hx)⟩
      · exact ⟨0, fun h => absurd h ht⟩
    choose C hC using this
    refine ⟨∑ t ∈ trees (k + 1), |coeff t| * |C t|,
      Finset.sum_nonneg fun _ _ => by positivity, fun x hx => ?_⟩
    refine Finset.sum_le_sum fun t ht => ?_
    gcongr
    exact (hC t ht x hx).trans (le_abs_self _)

/-- The local error, autonomous case, with order conditions up to the accuracy `ε`. -/
theorem local_error_autonomous_within {p : ℕ} {z : ℝ → X} {t0 t1 : ℝ} (hF : ContDiff ℝ p F)
    (hz : ∀ t ∈ Set.Icc t0 t1, HasDerivWithinAt z (F (z t)) (Set.Icc t0 t1) t) :
    ∃ K : ℝ, 0 ≤ K ∧ ∀ (s : ℕ) (A : Fin s → Fin s → ℝ) (b : Fin s → ℝ) (ε δ₀ B : ℝ),
      0 ≤ ε → OrderConditionsWithin ε A b p → 0 < δ₀ →
      ∃ C δ : ℝ, 0 ≤ C ∧ 0 < δ ∧ ∀ (t h : ℝ) (k : Fin s → X), t0 ≤ t → 0 ≤ h → t + h ≤ t1 →
        h < δ → (h < δ₀ → ∀ i, ‖k i‖ ≤ B) → (∀ i, k i = F (z t + h • ∑ j, A i j • k j)) →
        ‖z t + h • ∑ i, b i • k i - z (t + h)‖ ≤ K * ε * h + C * h ^ (p + 1) := by
  have hzc : ContinuousOn z (Set.Icc t0 t1) := fun t ht => (hz t ht).continuousWithinAt
  obtain ⟨R, hR⟩ := isCompact_Icc.exists_bound_of_continuousOn hzc
  obtain ⟨C1, δ1, hC1, hδ1, hE⟩ := exact_expansion hF hz p le_rfl
  obtain ⟨K, hK0, hK⟩ := bound_differentials hF R
  refine ⟨K, hK0, fun s A b ε δ₀ B hε ho hδ₀ => ?_⟩
  set S : Set (ℝ × ℝ × (Fin s → X)) := {q | t0 ≤ q.1 ∧ 0 ≤ q.2.1 ∧ q.1 + q.2.1 ≤ t1 ∧
    (q.2.1 < δ₀ → ∀ i, ‖q.2.2 i‖ ≤ B) ∧
      ∀ i, q.2.2 i = F (z q.1 + q.2.1 • ∑ j, A i j • q.2.2 j)} with hS
  set hfun : ℝ × ℝ × (Fin s → X) → ℝ := fun q => q.2.1 with hhf
  have hst := stages_expansion (A := A) (l := small hfun S) (h := hfun) (x := fun q => z q.1)
    (K := fun i q => q.2.2 i) (R := R) hF (small_tendsto hfun S)
    (small_eventually _ _ fun q hq => hR q.1 ⟨hq.1, by linarith [hq.2.1, hq.2.2.1]⟩)
    (fun i => small_eventually _ _ fun q hq => hq.2.2.2.2 i)
    (fun i => IsBigO.of_bound B (eventually_small.mpr ⟨δ₀, hδ₀, fun q hq hl => by
      rw [abs_of_nonneg hq.2.1] at hl
      simpa using hq.2.2.2.1 hl i⟩)) p le_rfl
  have hsum : (fun q : ℝ × ℝ × (Fin s → X) => hfun q • ∑ i, b i •
      (q.2.2 i - series' F (z q.1) (hfun q) (stageCoeff A i) p))
      =O[small hfun S] fun q => hfun q ^ (p + 1) := by
    have := (isBigO_refl hfun (small hfun S)).smul
      (isBigO_fsum (s := Finset.univ) fun i _ => (hst i).const_smul_left (b i))
    simpa [pow_succ'] using this
  obtain ⟨C2, δ2, hC2, hδ2, hN⟩ := bound_of_isBigO hsum
  refine ⟨C2 + C1, min 1 (min δ1 δ2), by positivity, lt_min one_pos (lt_min hδ1 hδ2),
    fun t h k h1 h2 h3 h4 h5 h6 => ?_⟩
  have h41 := (h4.trans_le (min_le_left _ _)).le
  have h42 := h4.trans_le (min_le_right _ _)
  have e1 := hN (t, h, k) ⟨h1, h2, h3, h5, h6⟩
    (by simpa [hhf, abs_of_nonneg h2] using h42.trans_le (min_le_right _ _))
  have e2 := hE t h h1 h2 h3 (h42.trans_le (min_le_left _ _))
  simp only [hhf, abs_of_nonneg h2] at e1
  have hser : ‖h • ∑ i, b i • series' F (z t) h (stageCoeff A i) p
      - series F (z t) h exactCoeff p‖ ≤ K * ε * h := by
    have : h • ∑ i, b i • series' F (z t) h (stageCoeff A i) p
        - series F (z t) h exactCoeff p
        = ∑ τ ∈ trees p, (h ^ τ.order * (coeff τ * (∑ i, b i * τ.weight A i - 1 / τ.density)))
          • elem F (z t) τ := by
      rw [← smul_series']
      simp only [series', Finset.smul_sum, smul_smul]
      rw [Finset.sum_comm, ← Finset.sum_sub_distrib]
      refine Finset.sum_congr rfl fun τ hτ => ?_
      rw [← Finset.sum_smul, ← sub_smul]
      congr 1
      have hp : h ^ τ.order = h * h ^ (τ.order - 1) := by
        rw [← pow_succ', Nat.sub_add_cancel (order_pos τ)]
      rw [exactCoeff, hp, mul_sub, mul_sub, Finset.mul_sum, Finset.mul_sum]
      congr 1
      · refine Finset.sum_congr rfl fun i _ => ?_
        rw [stageCoeff]; ring
      · ring
    rw [this]
    refine (norm_sum_le _ _).trans ?_
    have hz : ‖z t‖ ≤ R := hR t ⟨h1, by linarith⟩
    have hterm : ∀ τ ∈ trees p, ‖(h ^ τ.order * (coeff τ *
        (∑ i, b i * τ.weight A i - 1 / τ.density))) • elem F (z t) τ‖
        ≤ h * ε * (|coeff τ| * ‖elem F (z t) τ‖) := by
      intro τ hτ
      rw [norm_smul, Real.norm_eq_abs, abs_mul, abs_mul, abs_of_nonneg (pow_nonneg h2 _)]
      have g1 : h ^ τ.order ≤ h := by
        calc h ^ τ.order ≤ h ^ 1 := pow_le_pow_of_le_one h2 h41 (order_pos τ)
          _ = h := pow_one h
      have g2 := ho τ (mem_trees.mp hτ)
      calc h ^ τ.order * (|coeff τ| * |∑ i, b i * τ.weight A i - 1 / τ.density|)
            * ‖elem F (z t) τ‖ ≤ h * (|coeff τ| * ε) * ‖elem F (z t) τ‖ := by
            gcongr
        _ = _ := by ring
    refine (Finset.sum_le_sum hterm).trans ?_
    rw [← Finset.mul_sum]
    calc _ ≤ h * ε * K := by gcongr; exact hK _ hz
      _ = _ := by ring
  have hdec : z t + h • ∑ i, b i • k i - z (t + h)
      = (h • ∑ i, b i • series' F (z t) h (stageCoeff A i) p - series F (z t) h exactCoeff p)
        + (h • ∑ i, b i • (k i - series' F (z t) h (stageCoeff A i) p)
        - (z (t + h) - z t - series F (z t) h exactCoeff p)) := by
    simp only [smul_sub, Finset.sum_sub_distrib]
    abel
  rw [hdec, add_mul]
  exact (norm_add_le _ _).trans (add_le_add hser ((norm_sub_le _ _).trans (add_le_add e1 e2)))

end autonomous

variable {E : Type*} [NormedAddCommGroup E] [NormedSpace ℝ E] [ProperSpace E] {f : ℝ → E → E}
  {L : ℝ}

/-- A continuously differentiable right-hand side is Lipschitz in the time on bounded sets. -/
theorem time_lipschitz {p : ℕ} (hp : 1 ≤ p) (hfs : ContDiff ℝ p (fun q : ℝ × E => f q.1 q.2))
    (a b R : ℝ) : ∃ M, 0 ≤ M ∧ ∀ t ∈ Set.Icc a b, ∀ t' ∈ Set.Icc a b, ∀ v : E, ‖v‖ ≤ R →
      ‖f t v - f t' v‖ ≤ M * |t - t'| := by
  have h1 : ContDiff ℝ 1 (fun q : ℝ × E => f q.1 q.2) := hfs.of_le (by exact_mod_cast hp)
  obtain ⟨M, hM⟩ := (isCompact_Icc.prod (isCompact_closedBall (0 : E) R)
    |>.exists_bound_of_continuousOn (s := Set.Icc a b ×ˢ Metric.closedBall (0 : E) R)
      (h1.continuous_fderiv one_ne_zero).continuousOn)
  refine ⟨max M 0, le_max_right _ _, fun t ht t' ht' v hv => ?_⟩
  have := ((convex_Icc a b).prod (convex_closedBall (0 : E) R)).norm_image_sub_le_of_norm_fderiv_le
    (𝕜 := ℝ) (f := fun q : ℝ × E => f q.1 q.2) (C := max M 0)
    (fun q _ => (h1.differentiable one_ne_zero) q) (fun q hq => (hM q hq).trans (le_max_left _ _))
    (x := (t', v)) (y := (t, v)) ⟨ht', by simpa using hv⟩ ⟨ht, by simpa using hv⟩
  simpa [Prod.norm_def] using this

/-- The local error with nodes and order conditions up to the accuracy `ε`. The factor of the
accuracy depends on the problem and the bound `β` of the weights only. -/
theorem local_error_within {p : ℕ} {y : ℝ → E} {t0 t1 : ℝ} (hp : 1 ≤ p)
    (hfs : ContDiff ℝ p (fun q : ℝ × E => f q.1 q.2)) (hL : 0 ≤ L)
    (hf : ∀ t u v, ‖f t u - f t v‖ ≤ L * ‖u - v‖)
    (hy : ∀ t ∈ Set.Icc t0 t1, HasDerivWithinAt y (f t (y t)) (Set.Icc t0 t1) t) (β : ℝ) :
    ∃ K : ℝ, 0 ≤ K ∧ ∀ (s : ℕ) (A : Fin s → Fin s → ℝ) (b c : Fin s → ℝ) (ε : ℝ), 0 ≤ ε →
      ∑ i, |b i| ≤ β → (∀ i, |(∑ j, A i j) - c i| ≤ ε) → OrderConditionsWithin ε A b p →
      ∃ C δ : ℝ, 0 ≤ C ∧ 0 < δ ∧ ∀ (t h : ℝ) (k : Fin s → E), t0 ≤ t → 0 ≤ h → t + h ≤ t1 →
        h < δ → Stages A c f h t (y t) k →
        ‖y t + h • ∑ i, b i • k i - y (t + h)‖ ≤ K * ε * h + C * h ^ (p + 1) := by
  set F : ℝ × E → ℝ × E := fun q => (1, f q.1 q.2) with hFdef
  set z : ℝ → ℝ × E := fun t => (t, y t) with hzdef
  have hF : ContDiff ℝ p F := contDiff_const.prodMk hfs
  have hz : ∀ t ∈ Set.Icc t0 t1, HasDerivWithinAt z (F (z t)) (Set.Icc t0 t1) t := fun t ht =>
    (hasDerivWithinAt_id t _).prodMk (hy t ht)
  have hyc : ContinuousOn y (Set.Icc t0 t1) := fun t ht => (hy t ht).continuousWithinAt
  obtain ⟨R, hR⟩ := isCompact_Icc.exists_bound_of_continuousOn hyc
  -- bound of the right-hand side near the solution
  have hcont : ContinuousOn (fun q : ℝ × ℝ => f q.1 (y q.2))
      (Set.Icc (t0 - 1) (t1 + 1) ×ˢ Set.Icc t0 t1) :=
    hfs.continuous.comp_continuousOn (continuousOn_fst.prodMk
      (hyc.comp continuousOn_snd fun q hq => hq.2))
  obtain ⟨M', hM'⟩ := (isCompact_Icc.prod isCompact_Icc).exists_bound_of_continuousOn hcont
  set M := max M' 0 with hMdef
  have hM0 : 0 ≤ M := le_max_right _ _
  obtain ⟨N, hN0, hN⟩ := time_lipschitz hp hfs (t0 - 1) (t1 + 1) (R + 1)
  obtain ⟨K, hK0, hloc⟩ := local_error_autonomous_within hF hz
  refine ⟨K + |β| * (2 * N), by positivity, fun s A b c ε hε hb hc ho => ?_⟩
  have hT0 := total_nonneg A
  have hLA : 0 ≤ L * total A := mul_nonneg hL hT0
  set r : Fin s → ℝ := fun i => ∑ j, A i j with hr
  set γ : ℝ := ∑ i, (|c i| + |r i|) with hγ
  have hγ0 : 0 ≤ γ := Finset.sum_nonneg fun _ _ => by positivity
  set δ₀ : ℝ := min 1 (min (1 / (2 * (L * total A) + 1))
    (min (1 / (γ + 1)) (1 / (2 * M * total A + 1)))) with hδ₀
  have hδ₀pos : 0 < δ₀ := lt_min one_pos (lt_min (by positivity) (lt_min (by positivity)
    (by positivity)))
  obtain ⟨C, δ, hC, hδ, hE⟩ := hloc s A b ε δ₀ (max 1 (2 * M)) hε ho hδ₀pos
  refine ⟨C, min δ δ₀, hC, lt_min hδ hδ₀pos, fun t h k h1 h2 h3 h4 hk => ?_⟩
  have hlt := h4.trans_le (min_le_right _ _)
  have hle1 : h ≤ 1 := (hlt.trans_le (min_le_left _ _)).le
  have hlt := hlt.trans_le (min_le_right _ _)
  have hh : h * (L * total A) ≤ 1 / 2 := by
    have := mul_le_one h2 (by positivity) (hlt.trans_le (min_le_left _ _))
    linarith
  have hlt := hlt.trans_le (min_le_right _ _)
  have hhγ : h * γ ≤ 1 := mul_le_one h2 hγ0 (hlt.trans_le (min_le_left _ _))
  have hhM : h * (2 * M * total A) ≤ 1 :=
    mul_le_one h2 (by positivity) (hlt.trans_le (min_le_right _ _))
  have htI : t ∈ Set.Icc t0 t1 := ⟨h1, by linarith⟩
  have hnode : ∀ a : ℝ, |a| ≤ γ → t + a * h ∈ Set.Icc (t0 - 1) (t1 + 1) := by
    intro a ha
    have hab : |a * h| ≤ 1 := by
      rw [abs_mul, abs_of_nonneg h2]
      calc |a| * h ≤ γ * h := by gcongr
        _ ≤ 1 := by linarith
    have := abs_le.mp hab
    constructor <;> linarith [htI.1, htI.2]
  have hsingle : ∀ i, |c i| + |r i| ≤ γ := fun i =>
    Finset.single_le_sum (f := fun i => |c i| + |r i|) (fun _ _ => by positivity) (mem_univ i)
  have hcn : ∀ i, t + c i * h ∈ Set.Icc (t0 - 1) (t1 + 1) := fun i =>
    hnode _ (by linarith [hsingle i, abs_nonneg (r i)])
  have hrn : ∀ i, t + r i * h ∈ Set.Icc (t0 - 1) (t1 + 1) := fun i =>
    hnode _ (by linarith [hsingle i, abs_nonneg (c i)])
  -- the stages with the row sums as nodes
  obtain ⟨k', hk'⟩ := exists_stages (A := A) (c := r) (t := t) hL hf h2 hh (y t)
  have hk'b : ‖k'‖ ≤ 2 * M := stages_bound hL hf h2 hh hk' hM0 fun i =>
    (hM' (t + r i * h, t) ⟨hrn i, htI⟩).trans (le_max_left _ _)
  set k'' : Fin s → ℝ × E := fun i => (1, k' i) with hKdef
  have hsum : ∀ a : Fin s → ℝ, ∑ j, a j • k'' j = (∑ j, a j, ∑ j, a j • k' j) := by
    intro a
    ext1
    · simp [hKdef, Prod.fst_sum]
    · simp [hKdef, Prod.snd_sum]
  have hKbound : h < δ₀ → ∀ i, ‖k'' i‖ ≤ max 1 (2 * M) := by
    intro _ i
    rw [hKdef, Prod.norm_def]
    exact max_le (by simp) (((norm_le_pi_norm k' i).trans hk'b).trans (le_max_right _ _))
  have hKst : ∀ i, k'' i = F (z t + h • ∑ j, A i j • k'' j) := by
    intro i
    rw [hsum]
    simp only [hFdef, hzdef, hKdef, Prod.smul_mk, Prod.mk_add_mk, smul_eq_mul]
    have := hk' i
    simp only [hr] at this
    rw [mul_comm h, ← this]
  have e1 : ‖y t + h • ∑ i, b i • k' i - y (t + h)‖ ≤ K * ε * h + C * h ^ (p + 1) := by
    have := hE t h k'' h1 h2 h3 (h4.trans_le (min_le_left _ _)) hKbound hKst
    rw [hsum] at this
    refine le_trans ?_ this
    rw [Prod.norm_def]
    refine le_trans (le_of_eq ?_) (le_max_right _ _)
    simp [hzdef]
  -- the effect of the nodes
  have e2 : ‖k - k'‖ ≤ 2 * (N * (ε * h)) := by
    have : ‖k - k'‖ ≤ N * (ε * h) + 1 / 2 * ‖k - k'‖ := by
      refine (pi_norm_le_iff_of_nonneg (by positivity)).mpr fun i => ?_
      have g0 : (k - k') i = (f (t + c i * h) (y t + h • ∑ j, A i j • k j)
          - f (t + c i * h) (y t + h • ∑ j, A i j • k' j))
          + (f (t + c i * h) (y t + h • ∑ j, A i j • k' j)
          - f (t + r i * h) (y t + h • ∑ j, A i j • k' j)) := by
        rw [← hk i, ← hk' i, Pi.sub_apply]
        abel
      have g1 : ‖f (t + c i * h) (y t + h • ∑ j, A i j • k j)
          - f (t + c i * h) (y t + h • ∑ j, A i j • k' j)‖ ≤ 1 / 2 * ‖k - k'‖ := by
        refine (hf _ _ _).trans ?_
        have e0 : y t + h • ∑ j, A i j • k j - (y t + h • ∑ j, A i j • k' j)
            = h • ∑ j, A i j • (k - k') j := by
          simp only [Pi.sub_apply, smul_sub, Finset.sum_sub_distrib]
          abel
        rw [e0, norm_smul, Real.norm_of_nonneg h2]
        calc L * (h * ‖∑ j, A i j • (k - k') j‖) ≤ L * (h * (total A * ‖k - k'‖)) := by
              gcongr; exact norm_row A (k - k') i
          _ = h * (L * total A) * ‖k - k'‖ := by ring
          _ ≤ 1 / 2 * ‖k - k'‖ := by gcongr
      have g2 : ‖f (t + c i * h) (y t + h • ∑ j, A i j • k' j)
          - f (t + r i * h) (y t + h • ∑ j, A i j • k' j)‖ ≤ N * (ε * h) := by
        refine (hN _ (hcn i) _ (hrn i) _ ?_).trans ?_
        · refine (norm_add_le _ _).trans (add_le_add (hR t htI) ?_)
          rw [norm_smul, Real.norm_of_nonneg h2]
          calc h * ‖∑ j, A i j • k' j‖ ≤ h * (total A * (2 * M)) := by
                gcongr
                exact (norm_row A k' i).trans (by gcongr)
            _ = h * (2 * M * total A) := by ring
            _ ≤ 1 := hhM
        · gcongr
          have : t + c i * h - (t + r i * h) = (c i - r i) * h := by ring
          rw [this, abs_mul, abs_of_nonneg h2, abs_sub_comm]
          gcongr
          exact hc i
      rw [g0]
      linarith [norm_add_le (f (t + c i * h) (y t + h • ∑ j, A i j • k j)
          - f (t + c i * h) (y t + h • ∑ j, A i j • k' j))
          (f (t + c i * h) (y t + h • ∑ j, A i j • k' j)
          - f (t + r i * h) (y t + h • ∑ j, A i j • k' j))]
    linarith
  have e3 : ‖h • ∑ i, b i • (k - k') i‖ ≤ |β| * (2 * N) * ε * h := by
    rw [norm_smul, Real.norm_of_nonneg h2]
    have hbβ : ∑ i, |b i| ≤ |β| := hb.trans (le_abs_self _)
    calc h * ‖∑ i, b i • (k - k') i‖ ≤ h * (|β| * (2 * (N * (ε * h)))) := by
          gcongr
          exact (norm_weights b _).trans (by gcongr)
      _ = |β| * (2 * N) * ε * h * h := by ring
      _ ≤ |β| * (2 * N) * ε * h * 1 := by gcongr
      _ = _ := by ring
  have e4 : y t + h • ∑ i, b i • k i - y (t + h)
      = (y t + h • ∑ i, b i • k' i - y (t + h)) + h • ∑ i, b i • (k - k') i := by
    simp only [Pi.sub_apply, smul_sub, Finset.sum_sub_distrib]
    abel
  rw [e4]
  have := norm_add_le (y t + h • ∑ i, b i • k' i - y (t + h)) (h • ∑ i, b i • (k - k') i)
  linarith

/-- Error propagation for a local error of at most `D h`. -/
theorem steps_error_of {s : ℕ} {A : Fin s → Fin s → ℝ} {b c : Fin s → ℝ} {y : ℝ → E}
    {t0 t1 H D : ℝ} (hL : 0 ≤ L)
    (hf : ∀ t u v, ‖f t u - f t v‖ ≤ L * ‖u - v‖) (hD : 0 ≤ D)
    (hloc : ∀ (t h : ℝ) (k : Fin s → E), t0 ≤ t → 0 ≤ h → t + h ≤ t1 →
      h ≤ H → Stages A c f h t (y t) k → ‖y t + h • ∑ i, b i • k i - y (t + h)‖ ≤ D * h)
    (hH : H * (L * total A) ≤ 1 / 2) {t t' : ℝ} {u u' : E} {hs : List ℝ}
    (hst : Steps A b c f t u hs t' u') (ht : t0 ≤ t) (ht' : t' ≤ t1)
    (hhs : ∀ h ∈ hs, 0 ≤ h ∧ h ≤ H) :
    ‖u' - y t'‖ ≤ Real.exp ((2 * L * ∑ i, |b i|) * hs.sum) * (‖u - y t‖ + D * hs.sum) := by
  induction hst with
  | nil t u => simp
  | @cons t u h k hs t' u' hk hr ih =>
    obtain ⟨h0, hle⟩ := hhs h (by simp)
    have hhs' : ∀ h ∈ hs, 0 ≤ h ∧ h ≤ H := fun h hh => hhs h (by simp [hh])
    have hsum : 0 ≤ hs.sum := List.sum_nonneg fun h hh => (hhs' h hh).1
    have hsmall : h * (L * total A) ≤ 1 / 2 := by
      refine le_trans ?_ hH
      exact mul_le_mul_of_nonneg_right hle (mul_nonneg hL (total_nonneg A))
    have htt := hr.time
    obtain ⟨k', hk'⟩ := exists_stages (A := A) (c := c) (t := t) hL hf h0 hsmall (y t)
    have e1 := step_lipschitz (b := b) hL hf h0 hsmall hk hk'
    have e2 := hloc t h k' ht h0 (by linarith) hle hk'
    have ih := ih (by linarith) ht' hhs'
    set Λ := 2 * L * ∑ i, |b i| with hΛ
    have hΛ0 : 0 ≤ Λ := by
      have : 0 ≤ ∑ i, |b i| := Finset.sum_nonneg fun _ _ => abs_nonneg _
      positivity
    have e3 : ‖u + h • ∑ i, b i • k i - y (t + h)‖ ≤ (1 + h * Λ) * ‖u - y t‖ + D * h := by
      have := norm_sub_le_norm_sub_add_norm_sub (u + h • ∑ i, b i • k i)
        (y t + h • ∑ i, b i • k' i) (y (t + h))
      linarith
    have e5 : 1 + h * Λ ≤ Real.exp (Λ * h) := by
      have := Real.add_one_le_exp (Λ * h)
      linarith
    have e6 : 1 ≤ Real.exp (Λ * h) := Real.one_le_exp (by positivity)
    rw [List.sum_cons, mul_add Λ, Real.exp_add]
    calc ‖u' - y t'‖ ≤ Real.exp (Λ * hs.sum)
          * (‖u + h • ∑ i, b i • k i - y (t + h)‖ + D * hs.sum) := ih
      _ ≤ Real.exp (Λ * hs.sum) * ((Real.exp (Λ * h) * ‖u - y t‖
            + Real.exp (Λ * h) * (D * h)) + Real.exp (Λ * h) * (D * hs.sum)) := by
          have q0 : 0 ≤ D * h := by positivity
          have q1 : 0 ≤ D * hs.sum := by positivity
          have q2 : (1 + h * Λ) * ‖u - y t‖ ≤ Real.exp (Λ * h) * ‖u - y t‖ := by gcongr
          have q3 : D * h ≤ Real.exp (Λ * h) * (D * h) := le_mul_of_one_le_left q0 e6
          have q4 : D * hs.sum ≤ Real.exp (Λ * h) * (D * hs.sum) := le_mul_of_one_le_left q1 e6
          gcongr
          linarith
      _ = _ := by ring

/-- Convergence of schemes satisfying the conditions of order `p` up to `ε`: the error after any
sequence of steps of size at most `H` is at most `K (initial error + ε) + C H^p`, where `K` depends
on the problem, the interval and the bound `β` of the weights only. -/
theorem convergence_within {p : ℕ} {y : ℝ → E} {t0 t1 : ℝ} (hp : 1 ≤ p)
    (hfs : ContDiff ℝ p (fun q : ℝ × E => f q.1 q.2)) (hL : 0 ≤ L)
    (hf : ∀ t u v, ‖f t u - f t v‖ ≤ L * ‖u - v‖)
    (hy : ∀ t ∈ Set.Icc t0 t1, HasDerivWithinAt y (f t (y t)) (Set.Icc t0 t1) t) (β : ℝ) :
    ∃ K : ℝ, 0 < K ∧ ∀ (s : ℕ) (A : Fin s → Fin s → ℝ) (b c : Fin s → ℝ) (ε : ℝ), 0 ≤ ε →
      ∑ i, |b i| ≤ β → (∀ i, |(∑ j, A i j) - c i| ≤ ε) → OrderConditionsWithin ε A b p →
      ∃ C δ : ℝ, 0 < C ∧ 0 < δ ∧ ∀ (H t' : ℝ) (u u' : E) (hs : List ℝ), H < δ →
        (∀ h ∈ hs, 0 ≤ h ∧ h ≤ H) → Steps A b c f t0 u hs t' u' → t' ≤ t1 → 0 ≤ H →
        ‖u' - y t'‖ ≤ K * (‖u - y t0‖ + ε) + C * H ^ p := by
  obtain ⟨K, hK, hloc⟩ := local_error_within hp hfs hL hf hy β
  set Λ := 2 * L * |β| with hΛ
  have hΛ0 : 0 ≤ Λ := by positivity
  set τ := max (t1 - t0) 0 with hτ
  have hτ0 : 0 ≤ τ := le_max_right _ _
  refine ⟨Real.exp (Λ * τ) * (1 + K * τ), by positivity, fun s A b c ε hε hb hc ho => ?_⟩
  obtain ⟨C, δ, hC, hδ, hE⟩ := hloc s A b c ε hε hb hc ho
  have hLA : 0 ≤ L * total A := mul_nonneg hL (total_nonneg A)
  refine ⟨Real.exp (Λ * τ) * (C * τ) + 1, min δ (1 / (2 * (L * total A) + 1)), by positivity,
    lt_min hδ (by positivity), fun H t' u u' hs hH hhs hst ht' hH0 => ?_⟩
  have hsmall : H * (L * total A) ≤ 1 / 2 := by
    have := mul_le_one hH0 (by positivity) (hH.trans_le (min_le_right _ _))
    linarith
  have hsum : 0 ≤ hs.sum := List.sum_nonneg fun h hh => (hhs h hh).1
  have htime := hst.time
  have hsτ : hs.sum ≤ τ := le_trans (by linarith) (le_max_left _ _)
  have hHp := pow_nonneg hH0 p
  have hb0 : 0 ≤ ∑ i, |b i| := Finset.sum_nonneg fun _ _ => abs_nonneg _
  set D := K * ε + C * H ^ p with hD
  have hD0 : 0 ≤ D := by positivity
  have hmain := steps_error_of (D := D) (b := b) hL hf hD0 (fun t h k g1 g2 g3 g4 g5 => by
    refine (hE t h k g1 g2 g3 (g4.trans_lt (hH.trans_le (min_le_left _ _))) g5).trans ?_
    rw [hD, add_mul, pow_succ, ← mul_assoc]
    gcongr) hsmall hst le_rfl ht' hhs
  refine hmain.trans ?_
  have h3 : Real.exp ((2 * L * ∑ i, |b i|) * hs.sum) ≤ Real.exp (Λ * τ) := by
    refine Real.exp_le_exp.mpr ?_
    have : ∑ i, |b i| ≤ |β| := hb.trans (le_abs_self _)
    rw [hΛ]
    gcongr
  have h2 : ‖u - y t0‖ + D * hs.sum ≤ (1 + K * τ) * (‖u - y t0‖ + ε) + C * τ * H ^ p := by
    have : D * hs.sum ≤ D * τ := by gcongr
    have g1 : 0 ≤ K * τ * ‖u - y t0‖ := by positivity
    rw [hD] at this
    rw [hD]
    nlinarith
  have h4 : 0 ≤ ‖u - y t0‖ + D * hs.sum := by positivity
  calc _ ≤ Real.exp (Λ * τ) * ((1 + K * τ) * (‖u - y t0‖ + ε) + C * τ * H ^ p) :=
        mul_le_mul h3 h2 h4 (Real.exp_nonneg _)
    _ = Real.exp (Λ * τ) * (1 + K * τ) * (‖u - y t0‖ + ε)
        + Real.exp (Λ * τ) * (C * τ) * H ^ p := by ring
    _ ≤ _ := by gcongr; linarith

end Verif.Conv
