/-
Local error of Runge-Kutta steps whose tableau satisfies the order conditions.
No code is modelled here.
-/
import Verif.Conv.Compose
import Mathlib.Analysis.Calculus.MeanValue
import Mathlib.Analysis.Calculus.Deriv.Pow
import Mathlib.Analysis.Calculus.ContDiff.Operations

namespace Verif.Conv

open Verif.Tableau Finset Filter Topology Asymptotics

section expansions
variable {X : Type*} [NormedAddCommGroup X] [NormedSpace ℝ X] [ProperSpace X] {F : X → X}

/-- Coefficients of the `i`-th stage. -/
noncomputable def stageCoeff {s : ℕ} (A : Fin s → Fin s → ℝ) (i : Fin s) (t : RTree) : ℝ :=
  coeff t * t.weight A i

/-- Coefficients of the exact solution. -/
noncomputable def exactCoeff (t : RTree) : ℝ := coeff t / t.density

theorem node_cases (t : RTree) :
    ∃ (m : ℕ) (r : Fin m → RTree), t = .node (List.ofFn r) := by
  cases t with
  | node ts => exact ⟨ts.length, ts.get, by simp⟩

theorem graft_stage {s : ℕ} (A : Fin s → Fin s → ℝ) (i : Fin s) (t : RTree) :
    graft (fun t => ∑ j, A i j * stageCoeff A j t) t = stageCoeff A i t := by
  obtain ⟨m, r, rfl⟩ := node_cases t
  rw [graft_node, stageCoeff, coeff_node, weight_node, mul_assoc, ← Finset.prod_mul_distrib]
  congr 1
  refine Finset.prod_congr rfl fun l _ => ?_
  rw [Finset.mul_sum]
  exact Finset.sum_congr rfl fun j _ => by rw [stageCoeff]; ring

theorem graft_exact (t : RTree) : graft exactCoeff t = t.order * exactCoeff t := by
  obtain ⟨m, r, rfl⟩ := node_cases t
  rw [graft_node, exactCoeff, coeff_node, density_node, order_node]
  have h1 : ((1 + ∑ i, (r i).order : ℕ) : ℝ) ≠ 0 := by positivity
  have h2 : ∏ i, ((r i).density : ℝ) ≠ 0 :=
    Finset.prod_ne_zero_iff.mpr fun i _ => by exact_mod_cast (density_pos _).ne'
  simp only [exactCoeff, Finset.prod_div_distrib]
  rw [Nat.cast_mul, Nat.cast_prod]
  field_simp

/-- Expansion of the stages. -/
theorem stages_expansion {s p : ℕ} {A : Fin s → Fin s → ℝ} {Ω : Type*} {l : Filter Ω}
    {h : Ω → ℝ} {x : Ω → X} {K : Fin s → Ω → X} {R : ℝ} (hF : ContDiff ℝ p F)
    (hh : Tendsto h l (𝓝 0)) (hx : ∀ᶠ ω in l, ‖x ω‖ ≤ R)
    (hK : ∀ i, ∀ᶠ ω in l, K i ω = F (x ω + h ω • ∑ j, A i j • K j ω))
    (hb : ∀ i, K i =O[l] fun _ => (1 : ℝ)) :
    ∀ k ≤ p, ∀ i, (fun ω => K i ω - series' F (x ω) (h ω) (stageCoeff A i) k)
      =O[l] fun ω => h ω ^ k := by
  intro k
  induction k with
  | zero =>
    intro _ i
    simpa [series', trees_zero] using hb i
  | succ k ih =>
    intro hk i
    have hF' : ContDiff ℝ (k + 1 : ℕ) F := hF.of_le (by exact_mod_cast hk)
    have hδ : (fun ω => h ω • (∑ j, A i j • K j ω)
        - series F (x ω) (h ω) (fun t => ∑ j, A i j * stageCoeff A j t) k)
        =O[l] fun ω => h ω ^ (k + 1) := by
      have h1 : (fun ω => h ω • ∑ j, A i j •
          (K j ω - series' F (x ω) (h ω) (stageCoeff A j) k)) =O[l] fun ω => h ω * h ω ^ k :=
        (isBigO_refl h l).smul (isBigO_fsum fun j _ => (ih (by omega) j).const_smul_left (A i j))
      simp only [← pow_succ'] at h1
      refine h1.congr_left fun ω => ?_
      simp only [smul_sub, Finset.sum_sub_distrib]
      congr 1
      have : ∀ j, A i j • series' F (x ω) (h ω) (stageCoeff A j) k
          = series' F (x ω) (h ω) (fun t => A i j * stageCoeff A j t) k := by
        intro j
        rw [series', series', Finset.smul_sum]
        refine Finset.sum_congr rfl fun t _ => ?_
        rw [smul_smul]; congr 1; ring
      simp only [this]
      have h2 : ∑ j, series' F (x ω) (h ω) (fun t => A i j * stageCoeff A j t) k
          = series' F (x ω) (h ω) (fun t => ∑ j, A i j * stageCoeff A j t) k := by
        simp only [series']
        rw [Finset.sum_comm]
        refine Finset.sum_congr rfl fun t _ => ?_
        rw [Finset.mul_sum, Finset.sum_smul]
      rw [h2, smul_series']
    have hc := compose hh hF' hx _ hδ
    refine hc.congr' ?_ EventuallyEq.rfl
    filter_upwards [hK i] with ω hω
    have hg : graft (fun t => ∑ j, A i j * stageCoeff A j t) = stageCoeff A i :=
      funext (graft_stage A i)
    rw [hg, ← hω]

/-- The filter of small step sizes on a set. -/
def small {Ω : Type*} (h : Ω → ℝ) (S : Set Ω) : Filter Ω := comap h (𝓝 0) ⊓ 𝓟 S

theorem small_tendsto {Ω : Type*} (h : Ω → ℝ) (S : Set Ω) : Tendsto h (small h S) (𝓝 0) :=
  tendsto_comap.mono_left inf_le_left

theorem small_eventually {Ω : Type*} (h : Ω → ℝ) (S : Set Ω) {P : Ω → Prop}
    (hP : ∀ ω ∈ S, P ω) : ∀ᶠ ω in small h S, P ω :=
  eventually_inf_principal.mpr (Eventually.of_forall hP)

theorem eventually_small {Ω : Type*} {h : Ω → ℝ} {S : Set Ω} {P : Ω → Prop} :
    (∀ᶠ ω in small h S, P ω) ↔ ∃ δ > 0, ∀ ω ∈ S, |h ω| < δ → P ω := by
  rw [small, eventually_inf_principal, (Metric.nhds_basis_ball.comap h).eventually_iff]
  simp only [Set.mem_preimage, mem_ball_zero_iff, Real.norm_eq_abs]
  exact ⟨fun ⟨δ, h1, h2⟩ => ⟨δ, h1, fun ω hω hl => h2 hl hω⟩,
    fun ⟨δ, h1, h2⟩ => ⟨δ, h1, fun ω hl hω => h2 ω hω hl⟩⟩

theorem bound_of_isBigO {Ω : Type*} {h : Ω → ℝ} {S : Set Ω} {f : Ω → X} {k : ℕ}
    (hf : f =O[small h S] fun ω => h ω ^ k) :
    ∃ C δ : ℝ, 0 ≤ C ∧ 0 < δ ∧ ∀ ω ∈ S, |h ω| < δ → ‖f ω‖ ≤ C * |h ω| ^ k := by
  obtain ⟨C, hC, h1⟩ := hf.exists_nonneg
  obtain ⟨δ, h2, h3⟩ := eventually_small.mp h1.bound
  exact ⟨C, δ, hC, h2, fun ω hω hl => by simpa using h3 ω hω hl⟩

theorem isBigO_of_bound {Ω : Type*} {h : Ω → ℝ} {S : Set Ω} {f : Ω → X} {k : ℕ} {C δ : ℝ}
    (hδ : 0 < δ) (hf : ∀ ω ∈ S, |h ω| < δ → ‖f ω‖ ≤ C * |h ω| ^ k) :
    f =O[small h S] fun ω => h ω ^ k := by
  refine IsBigO.of_bound C (eventually_small.mpr ⟨δ, hδ, fun ω hω hl => ?_⟩)
  simpa using hf ω hω hl

/-- Expansion of the exact solution. -/
theorem exact_expansion {p : ℕ} {z : ℝ → X} {t0 t1 : ℝ} (hF : ContDiff ℝ p F)
    (hz : ∀ t ∈ Set.Icc t0 t1, HasDerivWithinAt z (F (z t)) (Set.Icc t0 t1) t) :
    ∀ k ≤ p, ∃ C δ : ℝ, 0 ≤ C ∧ 0 < δ ∧ ∀ t θ : ℝ, t0 ≤ t → 0 ≤ θ → t + θ ≤ t1 → θ < δ →
      ‖z (t + θ) - z t - series F (z t) θ exactCoeff k‖ ≤ C * θ ^ (k + 1) := by
  have hzc : ContinuousOn z (Set.Icc t0 t1) := fun t ht => (hz t ht).continuousWithinAt
  obtain ⟨R, hR⟩ := isCompact_Icc.exists_bound_of_continuousOn hzc
  intro k
  induction k with
  | zero =>
    intro _
    obtain ⟨C, hC⟩ := isCompact_Icc.exists_bound_of_continuousOn
      (hF.continuous.comp_continuousOn hzc)
    refine ⟨max C 0, 1, le_max_right _ _, one_pos, fun t θ h1 h2 h3 _ => ?_⟩
    have := (convex_Icc t0 t1).norm_image_sub_le_of_norm_hasDerivWithin_le hz
      (fun u hu => (hC u hu).trans (le_max_left C 0))
      (x := t) (y := t + θ) ⟨h1, by linarith⟩ ⟨by linarith, h3⟩
    simpa [series, trees_zero, abs_of_nonneg h2] using this
  | succ k ih =>
    intro hk
    obtain ⟨C, δ, hC0, hδ0, hE⟩ := ih (by omega)
    have hF' : ContDiff ℝ (k + 1 : ℕ) F := hF.of_le (by exact_mod_cast hk)
    set S : Set (ℝ × ℝ) := {q | t0 ≤ q.1 ∧ 0 ≤ q.2 ∧ q.1 + q.2 ≤ t1} with hS
    have hbig : (fun q : ℝ × ℝ => (z (q.1 + q.2) - z q.1) - series F (z q.1) q.2 exactCoeff k)
        =O[small Prod.snd S] fun q => q.2 ^ (k + 1) := by
      refine isBigO_of_bound (C := C) hδ0 fun q hq hl => ?_
      rw [abs_of_nonneg hq.2.1] at hl ⊢
      exact hE q.1 q.2 hq.1 hq.2.1 hq.2.2 hl
    have hx : ∀ᶠ q in small Prod.snd S, ‖z q.1‖ ≤ R :=
      small_eventually _ _ fun q hq => hR q.1 ⟨hq.1, by linarith [hq.2.1, hq.2.2]⟩
    have hcomp := compose (small_tendsto Prod.snd S) hF' hx exactCoeff hbig
    obtain ⟨C', δ', hC'0, hδ'0, hE'⟩ := bound_of_isBigO hcomp
    refine ⟨C', δ', hC'0, hδ'0, fun t θ h1 h2 h3 h4 => ?_⟩
    -- the difference as a function of the time
    set G : ℝ → X := fun u => z (t + u) - z t - series F (z t) u exactCoeff (k + 1) with hG
    have hmaps : Set.MapsTo (fun u => t + u) (Set.Icc 0 θ) (Set.Icc t0 t1) :=
      fun u hu => ⟨by linarith [hu.1], by linarith [hu.2]⟩
    have hder : ∀ u ∈ Set.Icc (0 : ℝ) θ, HasDerivWithinAt G
        (F (z (t + u)) - series' F (z t) u (graft exactCoeff) (k + 1)) (Set.Icc 0 θ) u := by
      intro u hu
      have d1 : HasDerivWithinAt (fun u => z (t + u)) (F (z (t + u))) (Set.Icc 0 θ) u := by
        have := (hz (t + u) (hmaps hu)).scomp u
          ((hasDerivAt_id u).const_add t).hasDerivWithinAt hmaps
        simpa [Function.comp_def] using this
      have d2 : HasDerivWithinAt (fun u => series F (z t) u exactCoeff (k + 1))
          (series' F (z t) u (graft exactCoeff) (k + 1)) (Set.Icc 0 θ) u := by
        unfold series series'
        refine HasDerivWithinAt.fun_sum fun τ _ => ?_
        have := (((hasDerivAt_pow τ.order u).mul_const (exactCoeff τ)).smul_const
          (elem F (z t) τ)).hasDerivWithinAt (s := Set.Icc 0 θ)
        refine this.congr_deriv ?_
        rw [graft_exact]
        congr 1
        ring
      exact (d1.sub_const (z t)).sub d2
    have hbd : ∀ u ∈ Set.Icc (0 : ℝ) θ,
        ‖F (z (t + u)) - series' F (z t) u (graft exactCoeff) (k + 1)‖ ≤ C' * θ ^ (k + 1) := by
      intro u hu
      have := hE' (t, u) ⟨h1, hu.1, by linarith [hu.2]⟩
        (by rw [abs_of_nonneg hu.1]; linarith [hu.2])
      simp only [add_sub_cancel, abs_of_nonneg hu.1] at this
      exact this.trans (mul_le_mul_of_nonneg_left (pow_le_pow_left₀ hu.1 hu.2 _) hC'0)
    have := (convex_Icc (0 : ℝ) θ).norm_image_sub_le_of_norm_hasDerivWithin_le hder hbd
      (x := 0) (y := θ) ⟨le_rfl, h2⟩ ⟨h2, le_rfl⟩
    have hG0 : G 0 = 0 := by
      simp only [hG, add_zero, sub_self, zero_sub, neg_eq_zero, series]
      refine Finset.sum_eq_zero fun τ _ => ?_
      rw [zero_pow (order_pos τ).ne', zero_mul, zero_smul]
    rw [hG0, sub_zero, sub_zero, Real.norm_of_nonneg h2, mul_assoc, ← pow_succ] at this
    exact this

/-- The local error, autonomous case, with bounded stages. -/
theorem local_error_autonomous {s p : ℕ} {A : Fin s → Fin s → ℝ} {b : Fin s → ℝ} {z : ℝ → X}
    {t0 t1 : ℝ} (hF : ContDiff ℝ p F) (ho : OrderConditions A b p)
    (hz : ∀ t ∈ Set.Icc t0 t1, HasDerivWithinAt z (F (z t)) (Set.Icc t0 t1) t) {δ₀ B : ℝ}
    (hδ₀ : 0 < δ₀) :
    ∃ C δ : ℝ, 0 ≤ C ∧ 0 < δ ∧ ∀ (t h : ℝ) (K : Fin s → X), t0 ≤ t → 0 ≤ h → t + h ≤ t1 →
      h < δ → (h < δ₀ → ∀ i, ‖K i‖ ≤ B) → (∀ i, K i = F (z t + h • ∑ j, A i j • K j)) →
      ‖z t + h • ∑ i, b i • K i - z (t + h)‖ ≤ C * h ^ (p + 1) := by
  have hzc : ContinuousOn z (Set.Icc t0 t1) := fun t ht => (hz t ht).continuousWithinAt
  obtain ⟨R, hR⟩ := isCompact_Icc.exists_bound_of_continuousOn hzc
  obtain ⟨C1, δ1, hC1, hδ1, hE⟩ := exact_expansion hF hz p le_rfl
  set S : Set (ℝ × ℝ × (Fin s → X)) := {q | t0 ≤ q.1 ∧ 0 ≤ q.2.1 ∧ q.1 + q.2.1 ≤ t1 ∧
    (q.2.1 < δ₀ → ∀ i, ‖q.2.2 i‖ ≤ B) ∧
      ∀ i, q.2.2 i = F (z q.1 + q.2.1 • ∑ j, A i j • q.2.2 j)} with hS
  set hfun : ℝ × ℝ × (Fin s → X) → ℝ := fun q => q.2.1 with hhf
  have hst := stages_expansion (A := A) (l := small hfun S) (h := hfun) (x := fun q => z q.1)
    (K := fun i q => q.2.2 i) (R := R) hF (small_tendsto hfun S)
    (small_eventually _ _ fun q hq => hR q.1 ⟨hq.1, by linarith [hq.2.1, hq.2.2.1]⟩)
    (fun i => small_eventually _ _ fun q hq => hq.2.2.2.2 i)
    (fun i => IsBigO.of_bound B (eventually_small.mpr ⟨δ₀, hδ₀, fun q hq hl => by
      rw [abs_of_nonneg hq.2.1] at hl
      simpa using hq.2.2.2.1 hl i⟩)) p le_rfl
  have hsum : (fun q : ℝ × ℝ × (Fin s → X) => hfun q • ∑ i, b i •
      (q.2.2 i - series' F (z q.1) (hfun q) (stageCoeff A i) p))
      =O[small hfun S] fun q => hfun q ^ (p + 1) := by
    have := (isBigO_refl hfun (small hfun S)).smul
      (isBigO_fsum (s := Finset.univ) fun i _ => (hst i).const_smul_left (b i))
    simpa [pow_succ'] using this
  obtain ⟨C2, δ2, hC2, hδ2, hN⟩ := bound_of_isBigO hsum
  refine ⟨C2 + C1, min δ1 δ2, by positivity, lt_min hδ1 hδ2,
    fun t h K h1 h2 h3 h4 h5 h6 => ?_⟩
  have e1 := hN (t, h, K) ⟨h1, h2, h3, h5, h6⟩
    (by simpa [hhf, abs_of_nonneg h2] using h4.trans_le (min_le_right _ _))
  have e2 := hE t h h1 h2 h3 (h4.trans_le (min_le_left _ _))
  simp only [hhf, abs_of_nonneg h2] at e1
  have hser : h • ∑ i, b i • series' F (z t) h (stageCoeff A i) p
      = series F (z t) h exactCoeff p := by
    rw [← smul_series']
    congr 1
    simp only [series', Finset.smul_sum, smul_smul]
    rw [Finset.sum_comm]
    refine Finset.sum_congr rfl fun τ hτ => ?_
    rw [← Finset.sum_smul]
    congr 1
    have := ho τ (mem_trees.mp hτ)
    rw [exactCoeff, div_eq_mul_one_div, ← this, Finset.mul_sum, Finset.mul_sum]
    refine Finset.sum_congr rfl fun i _ => ?_
    rw [stageCoeff]; ring
  have hdec : z t + h • ∑ i, b i • K i - z (t + h)
      = h • ∑ i, b i • (K i - series' F (z t) h (stageCoeff A i) p)
        - (z (t + h) - z t - series F (z t) h exactCoeff p) := by
    rw [← hser]
    simp only [smul_sub, Finset.sum_sub_distrib]
    abel
  rw [hdec, add_mul]
  exact (norm_sub_le _ _).trans (add_le_add e1 e2)

end expansions

end Verif.Conv
