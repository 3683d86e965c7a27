/-
Convergence for right-hand sides that are smooth but not Lipschitz on the whole space: the sequence
of steps stays near the solution, where the right-hand side can be replaced by one with compact
support. No code is modelled here.
-/
import Verif.Conv.Inexact
import Mathlib.Analysis.Calculus.BumpFunction.FiniteDimension
import Mathlib.Analysis.Calculus.ContDiff.RCLike

namespace Verif.Conv

open Verif.Tableau Verif.RK.Spec Finset

variable {E : Type*} [NormedAddCommGroup E] [NormedSpace ℝ E] [FiniteDimensional ℝ E]
  {f : ℝ → E → E}

/-- A smooth right-hand side agrees on a ball with one that is Lipschitz. -/
theorem exists_cutoff {p : ℕ} (hp : 1 ≤ p) (hfs : ContDiff ℝ p (fun q : ℝ × E => f q.1 q.2))
    {R : ℝ} (hR : 0 < R) :
    ∃ F : ℝ → E → E, ContDiff ℝ p (fun q : ℝ × E => F q.1 q.2) ∧
      (∃ L, 0 ≤ L ∧ ∀ t u v, ‖F t u - F t v‖ ≤ L * ‖u - v‖) ∧
      ∀ t u, |t| ≤ R → ‖u‖ ≤ R → F t u = f t u := by
  let χ : ContDiffBump (0 : ℝ × E) := ⟨R, R + 1, hR, by linarith⟩
  have h1 : ContDiff ℝ p (fun q : ℝ × E => χ q • f q.1 q.2) := χ.contDiff.smul hfs
  have h2 : HasCompactSupport (fun q : ℝ × E => χ q • f q.1 q.2) := χ.hasCompactSupport.smul_right
  obtain ⟨L, hL⟩ := ContDiff.lipschitzWith_of_hasCompactSupport (𝕂 := ℝ) h2 h1
    (by exact_mod_cast (by omega : p ≠ 0))
  refine ⟨fun t u => χ (t, u) • f t u, h1, ⟨L, L.2, fun t u v => ?_⟩, fun t u ht hu => ?_⟩
  · have := hL.dist_le_mul (t, u) (t, v)
    simpa [dist_eq_norm, Prod.norm_def] using this
  · have : χ (t, u) = 1 := χ.one_of_mem_closedBall (by
      rw [mem_closedBall_zero_iff, Prod.norm_def]
      exact max_le ht hu)
    simp only [this, one_smul]

/-- Convergence near the solution. The steps are those of a relation `S`, which are inexact
Runge-Kutta steps with stages bounded by `M` as long as they start in the ball of radius `R`. -/
theorem convergence_nearby {p : ℕ} {y : ℝ → E} {t0 t1 : ℝ} (hp : 1 ≤ p)
    (hfs : ContDiff ℝ p (fun q : ℝ × E => f q.1 q.2))
    (hy : ∀ t ∈ Set.Icc t0 t1, HasDerivWithinAt y (f t (y t)) (Set.Icc t0 t1) t) (β : ℝ) :
    ∃ K r R : ℝ, 0 < K ∧ 0 < r ∧ ∀ (s : ℕ) (A : Fin s → Fin s → ℝ) (b c : Fin s → ℝ) (ε M : ℝ),
      0 ≤ ε → ∑ i, |b i| ≤ β → (∀ i, |(∑ j, A i j) - c i| ≤ ε) → OrderConditionsWithin ε A b p →
      ∃ C δ : ℝ, 0 < C ∧ 0 < δ ∧ ∀ (S : ℝ → ℝ → E → E → Prop) (H t' η : ℝ) (u u' : E)
        (hs : List ℝ), 0 ≤ H → H < δ → 0 ≤ η →
        (∀ h t u u₁, 0 ≤ h → h ≤ H → t0 ≤ t → t ≤ t1 → ‖u‖ ≤ R → S h t u u₁ →
          ∃ k, InexactStages η A c f h t u k ∧ ‖k‖ ≤ M ∧ u₁ = u + h • ∑ i, b i • k i) →
        (∀ h ∈ hs, 0 ≤ h ∧ h ≤ H) → IsSteps S t0 u hs t' u' → t' ≤ t1 →
        ‖u - y t0‖ + ε + η ≤ r → ‖u' - y t'‖ ≤ K * (‖u - y t0‖ + ε + η) + C * H ^ p := by
  have hyc : ContinuousOn y (Set.Icc t0 t1) := fun t ht => (hy t ht).continuousWithinAt
  obtain ⟨R₀, hR₀⟩ := isCompact_Icc.exists_bound_of_continuousOn hyc
  set R := max R₀ 0 + 1 with hR
  set R' := |t0| + |t1| + R + 1 with hR'
  have hRpos : 0 < R := by positivity
  have hR'pos : 0 < R' := by positivity
  obtain ⟨F, hF, ⟨L, hL, hFL⟩, hFf⟩ := exists_cutoff hp hfs hR'pos
  have habs : ∀ t, t0 ≤ t → t ≤ t1 → |t| ≤ |t0| + |t1| := fun t h1 h2 => by
    rw [abs_le]
    constructor <;> linarith [neg_abs_le t0, le_abs_self t1, abs_nonneg t0, abs_nonneg t1]
  have hyR : ∀ t ∈ Set.Icc t0 t1, ‖y t‖ ≤ max R₀ 0 := fun t ht =>
    (hR₀ t ht).trans (le_max_left _ _)
  have hyF : ∀ t ∈ Set.Icc t0 t1, HasDerivWithinAt y (F t (y t)) (Set.Icc t0 t1) t := by
    intro t ht
    rw [hFf t (y t) (by linarith [habs t ht.1 ht.2])
      (by linarith [hyR t ht, abs_nonneg t0, abs_nonneg t1])]
    exact hy t ht
  obtain ⟨K, hK, hconv⟩ := convergence_inexact hp hF hL hFL hyF β
  refine ⟨K, 1 / (2 * K), R, hK, by positivity, fun s A b c ε M hε hb hc ho => ?_⟩
  obtain ⟨C, δ, hC, hδ, hE⟩ := hconv s A b c ε hε hb hc ho
  set γ : ℝ := ∑ i, |c i| with hγ
  have hγ0 : 0 ≤ γ := Finset.sum_nonneg fun _ _ => abs_nonneg _
  have hT0 := total_nonneg A
  refine ⟨C, min δ (min 1 (min (1 / (2 * C + 1)) (min (1 / (γ + 1)) (1 / (total A * |M| + 1))))),
    hC, lt_min hδ (lt_min one_pos (lt_min (by positivity) (lt_min (by positivity)
      (by positivity)))), ?_⟩
  intro S H t' η u u' hs hH0 hH hη hS hhs hst ht' hr
  have hH1 := hH.trans_le (min_le_left _ _)
  have hH := hH.trans_le (min_le_right _ _)
  have hH2 := (hH.trans_le (min_le_left _ _)).le
  have hH := hH.trans_le (min_le_right _ _)
  have hH3 := mul_le_one hH0 (by positivity) (hH.trans_le (min_le_left _ _))
  have hH := hH.trans_le (min_le_right _ _)
  have hH4 := mul_le_one hH0 hγ0 (hH.trans_le (min_le_left _ _))
  have hH5 := mul_le_one hH0 (by positivity) (hH.trans_le (min_le_right _ _))
  have hclose : ∀ {t : ℝ} {v : E} {l : List ℝ}, (∀ h ∈ l, 0 ≤ h ∧ h ≤ H) →
      IsSteps (InexactStep η A b c F) t0 u l t v → t ≤ t1 → ‖v - y t‖ ≤ 1 := by
    intro t v l hl hsteps ht
    have h1 := hE H t η u v l hH1 hη hl hsteps ht hH0
    have h2 : K * (‖u - y t0‖ + ε + η) ≤ 1 / 2 := by
      calc _ ≤ K * (1 / (2 * K)) := by gcongr
        _ = _ := by field_simp
    have h3 : C * H ^ p ≤ 1 / 2 := by
      have : H ^ p ≤ H := by
        calc H ^ p ≤ H ^ 1 := pow_le_pow_of_le_one hH0 hH2 hp
          _ = H := pow_one H
      nlinarith
    linarith
  have main : ∀ {t : ℝ} {v : E} {l' : List ℝ}, IsSteps S t v l' t' u' →
      ∀ l : List ℝ, (∀ h ∈ l, 0 ≤ h ∧ h ≤ H) → (∀ h ∈ l', 0 ≤ h ∧ h ≤ H) →
      IsSteps (InexactStep η A b c F) t0 u l t v →
      IsSteps (InexactStep η A b c F) t0 u (l ++ l') t' u' := by
    intro t v l' h
    clear hst
    induction h with
    | nil t v => intro l _ _ h; simpa using h
    | @cons t v h v₁ l' t'' u'' hst hr ih =>
      intro l hl hl' hpre
      obtain ⟨h0, hle⟩ := hl' h (by simp)
      have hl'' : ∀ h ∈ l', 0 ≤ h ∧ h ≤ H := fun h hh => hl' h (by simp [hh])
      have hsum : 0 ≤ l'.sum := List.sum_nonneg fun h hh => (hl'' h hh).1
      have hsuml : 0 ≤ l.sum := List.sum_nonneg fun h hh => (hl h hh).1
      have htt := hr.time
      have htt0 := hpre.time
      have ht0 : t0 ≤ t := by linarith
      have ht1 : t ≤ t1 := by linarith
      have hv1 := hclose hl hpre ht1
      have hvR : ‖v‖ ≤ R := by
        have := norm_le_norm_add_norm_sub' v (y t)
        linarith [hyR t ⟨ht0, ht1⟩]
      obtain ⟨k, hk, hkM, rfl⟩ := hS h t v v₁ h0 hle ht0 ht1 hvR hst
      have hkF : InexactStages η A c F h t v k := by
        intro i
        rw [hFf]
        · exact hk i
        · have hci : |c i| ≤ γ := Finset.single_le_sum (f := fun i => |c i|)
            (fun _ _ => abs_nonneg _) (mem_univ i)
          have : |c i * h| ≤ 1 := by
            rw [abs_mul, abs_of_nonneg h0]
            calc |c i| * h ≤ γ * H := by gcongr
              _ ≤ 1 := by linarith
          linarith [abs_add_le t (c i * h), habs t ht0 ht1]
        · have : ‖h • ∑ j, A i j • k j‖ ≤ 1 := by
            rw [norm_smul, Real.norm_of_nonneg h0]
            calc h * ‖∑ j, A i j • k j‖ ≤ H * (total A * |M|) := by
                  gcongr
                  refine (norm_row A k i).trans ?_
                  gcongr
                  exact hkM.trans (le_abs_self _)
              _ ≤ 1 := hH5
          linarith [norm_add_le v (h • ∑ j, A i j • k j), abs_nonneg t0, abs_nonneg t1]
      have := ih ht' (l ++ [h]) (by
        intro h' hh'
        rcases List.mem_append.mp hh' with hh' | hh'
        · exact hl h' hh'
        · rw [List.mem_singleton.mp hh']; exact ⟨h0, hle⟩) hl''
        (hpre.append (.cons ⟨k, hkF, rfl⟩ (.nil _ _)))
      simpa using this
  have h1 := main hst [] (by simp) hhs (.nil _ _)
  exact hE H t' η u u' _ hH1 hη hhs h1 ht' hH0

end Verif.Conv
