/-
Differences of two Runge-Kutta steps with the same stages, and the local error of steps from points
of a solution, for stage equations that are solved up to a residual near the starting point only. No
code is modelled here.
-/
import Verif.Conv.Nearby

namespace Verif.Conv

open Verif.Tableau Verif.RK.Spec Finset Filter Topology Asymptotics

section autonomous
variable {X : Type*} [NormedAddCommGroup X] [NormedSpace ℝ X] [ProperSpace X] {F : X → X}

/-- Combinations of the stages with weights `d` that annihilate the elementary weights up to order
`p`, with accuracy `ε`. -/
theorem combination_autonomous {p : ℕ} (hF : ContDiff ℝ p F) (R : ℝ) :
    ∃ K : ℝ, 0 ≤ K ∧ ∀ (s : ℕ) (A : Fin s → Fin s → ℝ) (d : Fin s → ℝ) (ε B : ℝ), 0 ≤ ε →
      (∀ τ : RTree, τ.order ≤ p → |∑ i, d i * τ.weight A i| ≤ ε) →
      ∃ C δ : ℝ, 0 ≤ C ∧ 0 < δ ∧ ∀ (x : X) (h : ℝ) (k : Fin s → X), ‖x‖ ≤ R → 0 ≤ h → h < δ →
        (∀ i, ‖k i‖ ≤ B) → (∀ i, k i = F (x + h • ∑ j, A i j • k j)) →
        ‖h • ∑ i, d i • k i‖ ≤ K * ε * h + C * h ^ (p + 1) := by
  obtain ⟨K, hK0, hK⟩ := bound_differentials hF R
  refine ⟨K, hK0, fun s A d ε B hε ho => ?_⟩
  set S : Set (X × ℝ × (Fin s → X)) := {q | ‖q.1‖ ≤ R ∧ 0 ≤ q.2.1 ∧ (∀ i, ‖q.2.2 i‖ ≤ B) ∧
      ∀ i, q.2.2 i = F (q.1 + q.2.1 • ∑ j, A i j • q.2.2 j)} with hS
  set hfun : X × ℝ × (Fin s → X) → ℝ := fun q => q.2.1 with hhf
  have hst := stages_expansion (A := A) (l := small hfun S) (h := hfun) (x := fun q => q.1)
    (K := fun i q => q.2.2 i) (R := R) hF (small_tendsto hfun S)
    (small_eventually _ _ fun q hq => hq.1)
    (fun i => small_eventually _ _ fun q hq => hq.2.2.2 i)
    (fun i => IsBigO.of_bound B (small_eventually _ _ fun q hq => by
      simpa using hq.2.2.1 i)) p le_rfl
  have hsum : (fun q : X × ℝ × (Fin s → X) => hfun q • ∑ i, d i •
      (q.2.2 i - series' F q.1 (hfun q) (stageCoeff A i) p))
      =O[small hfun S] fun q => hfun q ^ (p + 1) := by
    have := (isBigO_refl hfun (small hfun S)).smul
      (isBigO_fsum (s := Finset.univ) fun i _ => (hst i).const_smul_left (d i))
    simpa [pow_succ'] using this
  obtain ⟨C, δ, hC, hδ, hN⟩ := bound_of_isBigO hsum
  refine ⟨C, min 1 δ, hC, lt_min one_pos hδ, fun x h k h1 h2 h4 h5 h6 => ?_⟩
  have h41 := (h4.trans_le (min_le_left _ _)).le
  have e1 := hN (x, h, k) ⟨h1, h2, h5, h6⟩
    (by simpa [hhf, abs_of_nonneg h2] using h4.trans_le (min_le_right _ _))
  simp only [hhf, abs_of_nonneg h2] at e1
  have hser : ‖h • ∑ i, d i • series' F x h (stageCoeff A i) p‖ ≤ K * ε * h := by
    have : h • ∑ i, d i • series' F x h (stageCoeff A i) p
        = ∑ τ ∈ trees p, (h ^ τ.order * (coeff τ * ∑ i, d i * τ.weight A i)) • elem F x τ := by
      simp only [series', Finset.smul_sum, smul_smul]
      rw [Finset.sum_comm]
      refine Finset.sum_congr rfl fun τ hτ => ?_
      rw [← Finset.sum_smul]
      congr 1
      have hp : h ^ τ.order = h * h ^ (τ.order - 1) := by
        rw [← pow_succ', Nat.sub_add_cancel (order_pos τ)]
      rw [hp, Finset.mul_sum, Finset.mul_sum]
      refine Finset.sum_congr rfl fun i _ => ?_
      rw [stageCoeff]; ring
    rw [this]
    refine (norm_sum_le _ _).trans ?_
    have hterm : ∀ τ ∈ trees p, ‖(h ^ τ.order * (coeff τ * ∑ i, d i * τ.weight A i))
        • elem F x τ‖ ≤ h * ε * (|coeff τ| * ‖elem F x τ‖) := by
      intro τ hτ
      rw [norm_smul, Real.norm_eq_abs, abs_mul, abs_mul, abs_of_nonneg (pow_nonneg h2 _)]
      have g1 : h ^ τ.order ≤ h := by
        calc h ^ τ.order ≤ h ^ 1 := pow_le_pow_of_le_one h2 h41 (order_pos τ)
          _ = h := pow_one h
      have g2 := ho τ (mem_trees.mp hτ)
      calc h ^ τ.order * (|coeff τ| * |∑ i, d i * τ.weight A i|) * ‖elem F x τ‖
          ≤ h * (|coeff τ| * ε) * ‖elem F x τ‖ := by gcongr
        _ = _ := by ring
    refine (Finset.sum_le_sum hterm).trans ?_
    rw [← Finset.mul_sum]
    calc _ ≤ h * ε * K := by gcongr; exact hK _ h1
      _ = _ := by ring
  have hdec : h • ∑ i, d i • k i = h • ∑ i, d i • series' F x h (stageCoeff A i) p
      + h • ∑ i, d i • (k i - series' F x h (stageCoeff A i) p) := by
    simp only [smul_sub, Finset.sum_sub_distrib]
    abel
  rw [hdec]
  exact (norm_add_le _ _).trans (add_le_add hser e1)

end autonomous

variable {E : Type*} [NormedAddCommGroup E] [NormedSpace ℝ E] [FiniteDimensional ℝ E]
  {f : ℝ → E → E}

/-- Bounded inexact stages are close to the exact stages of a Lipschitz right-hand side with the row
sums as nodes. -/
theorem replace_stages {p : ℕ} (hp : 1 ≤ p) (hfs : ContDiff ℝ p (fun q : ℝ × E => f q.1 q.2))
    (R : ℝ) :
    ∃ (F : ℝ → E → E) (N M' L : ℝ), ContDiff ℝ p (fun q : ℝ × E => F q.1 q.2) ∧ 0 ≤ N ∧ 0 ≤ L ∧
      (∀ t u v, ‖F t u - F t v‖ ≤ L * ‖u - v‖) ∧
      (∀ t u, |t| ≤ R → ‖u‖ ≤ R → F t u = f t u) ∧
      ∀ (s : ℕ) (A : Fin s → Fin s → ℝ) (c : Fin s → ℝ) (ε M : ℝ), 0 ≤ ε →
        (∀ i, |(∑ j, A i j) - c i| ≤ ε) →
        ∃ δ : ℝ, 0 < δ ∧ δ ≤ 1 ∧ ∀ (t h η : ℝ) (u : E) (k : Fin s → E), |t| ≤ R → ‖u‖ ≤ R → 0 ≤ h →
          h < δ → 0 ≤ η → ‖k‖ ≤ M → InexactStages η A c f h t u k →
          InexactStages η A c F h t u k ∧
          ∃ k', Stages A (fun i => ∑ j, A i j) F h t u k' ∧ ‖k'‖ ≤ M' ∧
            ‖k - k'‖ ≤ 2 * (η + N * (ε * h)) := by
  set R' := |R| + 1 with hR'
  have hR'pos : 0 < R' := by positivity
  have hRR : R ≤ |R| := le_abs_self R
  obtain ⟨F, hF, ⟨L, hL, hFL⟩, hFf⟩ := exists_cutoff hp hfs hR'pos
  obtain ⟨N, hN0, hN⟩ := time_lipschitz hp hF (-R') R' R'
  obtain ⟨M', hM'⟩ := ((isCompact_Icc (a := -R') (b := R')).prod
    (isCompact_closedBall (0 : E) R')).exists_bound_of_continuousOn
      (s := Set.Icc (-R') R' ×ˢ Metric.closedBall (0 : E) R') hF.continuous.continuousOn
  refine ⟨F, N, 2 * max M' 0, L, hF, hN0, hL, hFL,
    fun t u ht hu => hFf t u (by linarith) (by linarith), fun s A c ε M hε hc => ?_⟩
  have hT0 := total_nonneg A
  have hLA : 0 ≤ L * total A := mul_nonneg hL hT0
  set r : Fin s → ℝ := fun i => ∑ j, A i j with hr
  set γ : ℝ := ∑ i, (|c i| + |r i|) with hγ
  have hγ0 : 0 ≤ γ := Finset.sum_nonneg fun _ _ => by positivity
  refine ⟨min 1 (min (1 / (2 * (L * total A) + 1)) (min (1 / (γ + 1)) (1 / (total A * |M| + 1)))),
    lt_min one_pos (lt_min (by positivity) (lt_min (by positivity) (by positivity))),
    min_le_left _ _, fun t h η u k ht hu h0 hlt hη hkM hk => ?_⟩
  have hle1 : h ≤ 1 := (hlt.trans_le (min_le_left _ _)).le
  have hlt := hlt.trans_le (min_le_right _ _)
  have hh : h * (L * total A) ≤ 1 / 2 := by
    have := mul_le_one h0 (by positivity) (hlt.trans_le (min_le_left _ _))
    linarith
  have hlt := hlt.trans_le (min_le_right _ _)
  have hhγ : h * γ ≤ 1 := mul_le_one h0 hγ0 (hlt.trans_le (min_le_left _ _))
  have hhM : h * (total A * |M|) ≤ 1 :=
    mul_le_one h0 (by positivity) (hlt.trans_le (min_le_right _ _))
  have hnode : ∀ a : ℝ, |a| ≤ γ → |t + a * h| ≤ R' := by
    intro a ha
    have hab : |a * h| ≤ 1 := by
      rw [abs_mul, abs_of_nonneg h0]
      calc |a| * h ≤ γ * h := by gcongr
        _ ≤ 1 := by linarith
    linarith [abs_add_le t (a * h)]
  have hsingle : ∀ i, |c i| + |r i| ≤ γ := fun i =>
    Finset.single_le_sum (f := fun i => |c i| + |r i|) (fun _ _ => by positivity) (mem_univ i)
  have hcn : ∀ i, |t + c i * h| ≤ R' := fun i =>
    hnode _ (by linarith [hsingle i, abs_nonneg (r i)])
  have hrn : ∀ i, |t + r i * h| ≤ R' := fun i =>
    hnode _ (by linarith [hsingle i, abs_nonneg (c i)])
  have harg : ∀ i, ‖u + h • ∑ j, A i j • k j‖ ≤ R' := by
    intro i
    have : ‖h • ∑ j, A i j • k j‖ ≤ 1 := by
      rw [norm_smul, Real.norm_of_nonneg h0]
      calc h * ‖∑ j, A i j • k j‖ ≤ h * (total A * |M|) := by
            gcongr
            refine (norm_row A k i).trans ?_
            gcongr
            exact hkM.trans (le_abs_self _)
        _ ≤ 1 := hhM
    linarith [norm_add_le u (h • ∑ j, A i j • k j)]
  have hkF : InexactStages η A c F h t u k := by
    intro i
    rw [hFf _ _ (hcn i) (harg i)]
    exact hk i
  have hkr : InexactStages (η + N * (ε * h)) A r F h t u k := by
    intro i
    have g1 := hN (t + c i * h) (abs_le.mp (hcn i)) (t + r i * h) (abs_le.mp (hrn i)) _ (harg i)
    have g2 : |t + c i * h - (t + r i * h)| ≤ ε * h := by
      have : t + c i * h - (t + r i * h) = (c i - r i) * h := by ring
      rw [this, abs_mul, abs_of_nonneg h0, abs_sub_comm]
      gcongr
      exact hc i
    have g3 : k i - F (t + r i * h) (u + h • ∑ j, A i j • k j)
        = (k i - F (t + c i * h) (u + h • ∑ j, A i j • k j))
          + (F (t + c i * h) (u + h • ∑ j, A i j • k j)
            - F (t + r i * h) (u + h • ∑ j, A i j • k j)) := by abel
    rw [g3]
    refine (norm_add_le _ _).trans (add_le_add (hkF i) (g1.trans ?_))
    gcongr
  obtain ⟨k', hk'⟩ := exists_stages (A := A) (c := r) (t := t) hL hFL h0 hh u
  refine ⟨hkF, k', hk', ?_, inexact_stages hL hFL h0 (by positivity) hh hkr hk'⟩
  refine stages_bound hL hFL h0 hh hk' (le_max_right _ _) fun i => ?_
  refine (hM' (t + r i * h, u) ⟨abs_le.mp (hrn i), ?_⟩).trans (le_max_left _ _)
  rw [mem_closedBall_zero_iff]
  linarith

/-- Combinations of inexact stages with weights `d` that annihilate the elementary weights up to
order `p`. -/
theorem combination {p : ℕ} (hp : 1 ≤ p) (hfs : ContDiff ℝ p (fun q : ℝ × E => f q.1 q.2))
    (R β : ℝ) :
    ∃ K : ℝ, 0 ≤ K ∧ ∀ (s : ℕ) (A : Fin s → Fin s → ℝ) (d c : Fin s → ℝ) (ε ε' M : ℝ), 0 ≤ ε →
      0 ≤ ε' → ∑ i, |d i| ≤ β → (∀ i, |(∑ j, A i j) - c i| ≤ ε) →
      (∀ τ : RTree, τ.order ≤ p → |∑ i, d i * τ.weight A i| ≤ ε') →
      ∃ C δ : ℝ, 0 ≤ C ∧ 0 < δ ∧ ∀ (t h η : ℝ) (u : E) (k : Fin s → E), |t| ≤ R → ‖u‖ ≤ R → 0 ≤ h →
        h < δ → 0 ≤ η → ‖k‖ ≤ M → InexactStages η A c f h t u k →
        ‖h • ∑ i, d i • k i‖ ≤ K * (ε + ε' + η) * h + C * h ^ (p + 1) := by
  obtain ⟨F, N, M', L, hF, hN0, -, -, -, hrep⟩ := replace_stages hp hfs R
  set G : ℝ × E → ℝ × E := fun q => (1, F q.1 q.2) with hGdef
  have hG : ContDiff ℝ p G := contDiff_const.prodMk hF
  obtain ⟨K, hK0, hK⟩ := combination_autonomous hG R
  refine ⟨K + |β| * 2 + |β| * (2 * N), by positivity, fun s A d c ε ε' M hε hε' hd hc ho => ?_⟩
  obtain ⟨δ, hδ, hδ1, hrep⟩ := hrep s A c ε M hε hc
  obtain ⟨C, δ', hC, hδ', hE⟩ := hK s A d ε' (max 1 M') hε' ho
  refine ⟨C, min δ δ', hC, lt_min hδ hδ', fun t h η u k ht hu h0 hlt hη hkM hk => ?_⟩
  obtain ⟨-, k', hk', hk'M, hkk'⟩ := hrep t h η u k ht hu h0 (hlt.trans_le (min_le_left _ _)) hη hkM
    hk
  have hle1 : h ≤ 1 := (hlt.trans_le ((min_le_left _ _).trans hδ1)).le
  set k'' : Fin s → ℝ × E := fun i => (1, k' i) with hKdef
  have hsum : ∀ a : Fin s → ℝ, ∑ j, a j • k'' j = (∑ j, a j, ∑ j, a j • k' j) := by
    intro a
    ext1
    · simp [hKdef, Prod.fst_sum]
    · simp [hKdef, Prod.snd_sum]
  have e1 : ‖h • ∑ i, d i • k' i‖ ≤ K * ε' * h + C * h ^ (p + 1) := by
    have := hE (t, u) h k'' (by rw [Prod.norm_def]; exact max_le ht hu) h0
      (hlt.trans_le (min_le_right _ _)) (fun i => by
        rw [hKdef, Prod.norm_def]
        exact max_le (by simp) (((norm_le_pi_norm k' i).trans hk'M).trans (le_max_right _ _)))
      (fun i => by
        rw [hsum]
        simp only [hGdef, hKdef, Prod.smul_mk, Prod.mk_add_mk, smul_eq_mul]
        have := hk' i
        rw [mul_comm h, ← this])
    rw [hsum] at this
    refine le_trans ?_ this
    rw [Prod.norm_def]
    exact le_max_right _ _
  have e3 : ‖h • ∑ i, d i • (k - k') i‖ ≤ (|β| * 2 * η + |β| * (2 * N) * ε) * h := by
    rw [norm_smul, Real.norm_of_nonneg h0]
    have hbβ : ∑ i, |d i| ≤ |β| := hd.trans (le_abs_self _)
    calc h * ‖∑ i, d i • (k - k') i‖ ≤ h * (|β| * (2 * (η + N * (ε * h)))) := by
          gcongr
          exact (norm_weights d _).trans (by gcongr)
      _ ≤ h * (|β| * (2 * (η + N * (ε * 1)))) := by gcongr
      _ = _ := by ring
  have e4 : h • ∑ i, d i • k i = h • ∑ i, d i • k' i + h • ∑ i, d i • (k - k') i := by
    simp only [Pi.sub_apply, smul_sub, Finset.sum_sub_distrib]
    abel
  rw [e4]
  refine (norm_add_le _ _).trans ?_
  have x1 : 0 ≤ K * ε * h := by positivity
  have x2 : 0 ≤ K * η * h := by positivity
  have x3 : 0 ≤ |β| * 2 * (ε + ε') * h := by positivity
  have x4 : 0 ≤ |β| * (2 * N) * (ε' + η) * h := by positivity
  nlinarith

/-- The local error of inexact steps from points of a solution. -/
theorem local_error_nearby {p : ℕ} {y : ℝ → E} {t0 t1 : ℝ} (hp : 1 ≤ p)
    (hfs : ContDiff ℝ p (fun q : ℝ × E => f q.1 q.2))
    (hy : ∀ t ∈ Set.Icc t0 t1, HasDerivWithinAt y (f t (y t)) (Set.Icc t0 t1) t) (β : ℝ) :
    ∃ K R : ℝ, 0 ≤ K ∧ (∀ t ∈ Set.Icc t0 t1, |t| ≤ R ∧ ‖y t‖ ≤ R) ∧
      ∀ (s : ℕ) (A : Fin s → Fin s → ℝ) (b c : Fin s → ℝ) (ε M : ℝ), 0 ≤ ε →
      ∑ i, |b i| ≤ β → (∀ i, |(∑ j, A i j) - c i| ≤ ε) → OrderConditionsWithin ε A b p →
      ∃ C δ : ℝ, 0 ≤ C ∧ 0 < δ ∧ ∀ (t h η : ℝ) (k : Fin s → E), t0 ≤ t → 0 ≤ h → t + h ≤ t1 →
        h < δ → 0 ≤ η → ‖k‖ ≤ M → InexactStages η A c f h t (y t) k →
        ‖y t + h • ∑ i, b i • k i - y (t + h)‖ ≤ K * (ε + η) * h + C * h ^ (p + 1) := by
  have hyc : ContinuousOn y (Set.Icc t0 t1) := fun t ht => (hy t ht).continuousWithinAt
  obtain ⟨R₀, hR₀⟩ := isCompact_Icc.exists_bound_of_continuousOn hyc
  set R := max (|t0| + |t1|) R₀ with hR
  have hRt : ∀ t ∈ Set.Icc t0 t1, |t| ≤ R ∧ ‖y t‖ ≤ R := fun t ht => by
    refine ⟨le_trans ?_ (le_max_left _ _), (hR₀ t ht).trans (le_max_right _ _)⟩
    rw [abs_le]
    constructor <;> linarith [neg_abs_le t0, le_abs_self t1, abs_nonneg t0, abs_nonneg t1, ht.1,
      ht.2]
  obtain ⟨F, N, M', L, hF, hN0, hL, hFL, hFf, hrep⟩ := replace_stages hp hfs R
  have hyF : ∀ t ∈ Set.Icc t0 t1, HasDerivWithinAt y (F t (y t)) (Set.Icc t0 t1) t := by
    intro t ht
    rw [hFf t (y t) (hRt t ht).1 (hRt t ht).2]
    exact hy t ht
  obtain ⟨K, hK0, hloc⟩ := local_error_within hp hF hL hFL hyF β
  refine ⟨K + |β| * 2 + |β| * (2 * N), R, by positivity, hRt, fun s A b c ε M hε hb hc ho => ?_⟩
  obtain ⟨δ, hδ, hδ1, hrep⟩ := hrep s A c ε M hε hc
  obtain ⟨C, δ', hC, hδ', hE⟩ := hloc s A b (fun i => ∑ j, A i j) ε hε hb
    (fun i => by simpa using hε) ho
  refine ⟨C, min δ δ', hC, lt_min hδ hδ', fun t h η k ht0 h0 ht1 hlt hη hkM hk => ?_⟩
  have htI : t ∈ Set.Icc t0 t1 := ⟨ht0, by linarith⟩
  obtain ⟨-, k', hk', hk'M, hkk'⟩ := hrep t h η (y t) k (hRt t htI).1 (hRt t htI).2 h0
    (hlt.trans_le (min_le_left _ _)) hη hkM hk
  have hle1 : h ≤ 1 := (hlt.trans_le ((min_le_left _ _).trans hδ1)).le
  have e1 := hE t h k' ht0 h0 ht1 (hlt.trans_le (min_le_right _ _)) hk'
  have e3 : ‖h • ∑ i, b i • (k - k') i‖ ≤ (|β| * 2 * η + |β| * (2 * N) * ε) * h := by
    rw [norm_smul, Real.norm_of_nonneg h0]
    have hbβ : ∑ i, |b i| ≤ |β| := hb.trans (le_abs_self _)
    calc h * ‖∑ i, b i • (k - k') i‖ ≤ h * (|β| * (2 * (η + N * (ε * h)))) := by
          gcongr
          exact (norm_weights b _).trans (by gcongr)
      _ ≤ h * (|β| * (2 * (η + N * (ε * 1)))) := by gcongr
      _ = _ := by ring
  have e4 : y t + h • ∑ i, b i • k i - y (t + h)
      = (y t + h • ∑ i, b i • k' i - y (t + h)) + h • ∑ i, b i • (k - k') i := by
    simp only [Pi.sub_apply, smul_sub, Finset.sum_sub_distrib]
    abel
  rw [e4]
  refine (norm_add_le _ _).trans ?_
  have x2 : 0 ≤ K * η * h := by positivity
  have x3 : 0 ≤ |β| * 2 * ε * h := by positivity
  have x4 : 0 ≤ |β| * (2 * N) * η * h := by positivity
  nlinarith

end Verif.Conv
