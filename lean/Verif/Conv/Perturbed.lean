/-
Errors of sequences of Runge-Kutta steps whose stage equations are solved up to a residual and whose
results are perturbed, for instance by rounding. No code is modelled here.
-/
import Verif.Conv.Nearby

namespace Verif.Conv

open Verif.Tableau Verif.RK.Spec Finset

variable {E : Type*} [NormedAddCommGroup E] [NormedSpace ℝ E] {s : ℕ}

/-- A step with inexact stages and a result that is perturbed by at most `μ`. -/
def PerturbedStep (η μ : ℝ) (A : Fin s → Fin s → ℝ) (b c : Fin s → ℝ) (f : ℝ → E → E) (h t : ℝ)
    (y y₁ : E) : Prop :=
  ∃ k, InexactStages η A c f h t y k ∧ ‖y₁ - (y + h • ∑ i, b i • k i)‖ ≤ μ

variable {A : Fin s → Fin s → ℝ} {b c : Fin s → ℝ} {f : ℝ → E → E} {L h t η μ : ℝ}

/-- Error propagation for a local error of at most `D h`, residuals of at most `η` and perturbations
of at most `μ`: the perturbations of the steps add up. -/
theorem perturbed_error_of [CompleteSpace E] {y : ℝ → E} {t0 t1 H D : ℝ} (hL : 0 ≤ L)
    (hf : ∀ t u v, ‖f t u - f t v‖ ≤ L * ‖u - v‖) (hD : 0 ≤ D) (hη : 0 ≤ η) (hμ : 0 ≤ μ)
    (hloc : ∀ (t h : ℝ) (k : Fin s → E), t0 ≤ t → 0 ≤ h → t + h ≤ t1 →
      h ≤ H → Stages A c f h t (y t) k → ‖y t + h • ∑ i, b i • k i - y (t + h)‖ ≤ D * h)
    (hH : H * (L * total A) ≤ 1 / 2) {t t' : ℝ} {u u' : E} {hs : List ℝ}
    (hst : IsSteps (PerturbedStep η μ A b c f) t u hs t' u') (ht : t0 ≤ t) (ht' : t' ≤ t1)
    (hhs : ∀ h ∈ hs, 0 ≤ h ∧ h ≤ H) :
    ‖u' - y t'‖ ≤ Real.exp ((2 * L * ∑ i, |b i|) * hs.sum)
      * (‖u - y t‖ + (D + (∑ i, |b i|) * (2 * η)) * hs.sum + μ * hs.length) := by
  have hb0 : 0 ≤ ∑ i, |b i| := Finset.sum_nonneg fun _ _ => abs_nonneg _
  set D' := D + (∑ i, |b i|) * (2 * η) with hD'
  have hD0 : 0 ≤ D' := by positivity
  induction hst with
  | nil t u => simp
  | @cons t u h u₁ hs t' u' hst hr ih =>
    obtain ⟨k, hk, hu₁⟩ := hst
    obtain ⟨h0, hle⟩ := hhs h (by simp)
    have hhs' : ∀ h ∈ hs, 0 ≤ h ∧ h ≤ H := fun h hh => hhs h (by simp [hh])
    have hsum : 0 ≤ hs.sum := List.sum_nonneg fun h hh => (hhs' h hh).1
    have hsmall : h * (L * total A) ≤ 1 / 2 := by
      refine le_trans ?_ hH
      exact mul_le_mul_of_nonneg_right hle (mul_nonneg hL (total_nonneg A))
    have htt := hr.time
    obtain ⟨k', hk'⟩ := exists_stages (A := A) (c := c) (t := t) hL hf h0 hsmall (y t)
    obtain ⟨k'', hk''⟩ := exists_stages (A := A) (c := c) (t := t) hL hf h0 hsmall u
    have e1 := step_lipschitz (b := b) hL hf h0 hsmall hk'' hk'
    have e2 := hloc t h k' ht h0 (by linarith) hle hk'
    have ih := ih (by linarith) ht' hhs'
    set Λ := 2 * L * ∑ i, |b i| with hΛ
    have hΛ0 : 0 ≤ Λ := by positivity
    have e7 : ‖u + h • ∑ i, b i • k i - (u + h • ∑ i, b i • k'' i)‖
        ≤ (∑ i, |b i|) * (2 * η) * h := by
      have : u + h • ∑ i, b i • k i - (u + h • ∑ i, b i • k'' i)
          = h • ∑ i, b i • (k - k'') i := by
        simp only [Pi.sub_apply, smul_sub, Finset.sum_sub_distrib]
        abel
      rw [this, norm_smul, Real.norm_of_nonneg h0]
      calc h * ‖∑ i, b i • (k - k'') i‖ ≤ h * ((∑ i, |b i|) * (2 * η)) := by
            gcongr
            refine (norm_weights b (k - k'')).trans ?_
            gcongr
            exact inexact_stages hL hf h0 hη hsmall hk hk''
        _ = _ := by ring
    have e3 : ‖u₁ - y (t + h)‖ ≤ (1 + h * Λ) * ‖u - y t‖ + D' * h + μ := by
      have g1 := norm_sub_le_norm_sub_add_norm_sub (u + h • ∑ i, b i • k'' i)
        (y t + h • ∑ i, b i • k' i) (y (t + h))
      have g2 := norm_sub_le_norm_sub_add_norm_sub (u + h • ∑ i, b i • k i)
        (u + h • ∑ i, b i • k'' i) (y (t + h))
      have g3 := norm_sub_le_norm_sub_add_norm_sub u₁ (u + h • ∑ i, b i • k i) (y (t + h))
      rw [hD', add_mul]
      linarith
    have e5 : 1 + h * Λ ≤ Real.exp (Λ * h) := by
      have := Real.add_one_le_exp (Λ * h)
      linarith
    have e6 : 1 ≤ Real.exp (Λ * h) := Real.one_le_exp (by positivity)
    rw [List.sum_cons, mul_add Λ, Real.exp_add, List.length_cons, Nat.cast_succ]
    calc ‖u' - y t'‖ ≤ Real.exp (Λ * hs.sum)
          * (‖u₁ - y (t + h)‖ + D' * hs.sum + μ * hs.length) := ih
      _ ≤ Real.exp (Λ * hs.sum) * (Real.exp (Λ * h) * (‖u - y t‖ + D' * (h + hs.sum)
            + μ * (hs.length + 1))) := by
          have q0 : 0 ≤ D' * (h + hs.sum) + μ * (hs.length + 1) := by positivity
          have q2 : (1 + h * Λ) * ‖u - y t‖ ≤ Real.exp (Λ * h) * ‖u - y t‖ := by gcongr
          have q3 := le_mul_of_one_le_left q0 e6
          gcongr
          calc ‖u₁ - y (t + h)‖ + D' * hs.sum + μ * hs.length
              ≤ (1 + h * Λ) * ‖u - y t‖ + (D' * (h + hs.sum) + μ * (hs.length + 1)) := by linarith
            _ ≤ Real.exp (Λ * h) * ‖u - y t‖
                + Real.exp (Λ * h) * (D' * (h + hs.sum) + μ * (hs.length + 1)) := by linarith
            _ = _ := by ring
      _ = _ := by ring

/-- Convergence with inexact stages and perturbed results. -/
theorem convergence_perturbed [ProperSpace E] {p : ℕ} {y : ℝ → E} {t0 t1 : ℝ} (hp : 1 ≤ p)
    (hfs : ContDiff ℝ p (fun q : ℝ × E => f q.1 q.2)) (hL : 0 ≤ L)
    (hf : ∀ t u v, ‖f t u - f t v‖ ≤ L * ‖u - v‖)
    (hy : ∀ t ∈ Set.Icc t0 t1, HasDerivWithinAt y (f t (y t)) (Set.Icc t0 t1) t) (β : ℝ) :
    ∃ K : ℝ, 0 < K ∧ ∀ (s : ℕ) (A : Fin s → Fin s → ℝ) (b c : Fin s → ℝ) (ε : ℝ), 0 ≤ ε →
      ∑ i, |b i| ≤ β → (∀ i, |(∑ j, A i j) - c i| ≤ ε) → OrderConditionsWithin ε A b p →
      ∃ C δ : ℝ, 0 < C ∧ 0 < δ ∧ ∀ (H t' η μ : ℝ) (u u' : E) (hs : List ℝ), H < δ → 0 ≤ η → 0 ≤ μ →
        (∀ h ∈ hs, 0 ≤ h ∧ h ≤ H) → IsSteps (PerturbedStep η μ A b c f) t0 u hs t' u' → t' ≤ t1 →
        0 ≤ H → ‖u' - y t'‖ ≤ K * (‖u - y t0‖ + ε + η + μ * hs.length) + C * H ^ p := by
  obtain ⟨K, hK, hloc⟩ := local_error_within hp hfs hL hf hy β
  set Λ := 2 * L * |β| with hΛ
  have hΛ0 : 0 ≤ Λ := by positivity
  set τ := max (t1 - t0) 0 with hτ
  have hτ0 : 0 ≤ τ := le_max_right _ _
  refine ⟨Real.exp (Λ * τ) * (1 + K * τ + 2 * |β| * τ), by positivity,
    fun s A b c ε hε hb hc ho => ?_⟩
  obtain ⟨C, δ, hC, hδ, hE⟩ := hloc s A b c ε hε hb hc ho
  have hLA : 0 ≤ L * total A := mul_nonneg hL (total_nonneg A)
  refine ⟨Real.exp (Λ * τ) * (C * τ) + 1, min δ (1 / (2 * (L * total A) + 1)), by positivity,
    lt_min hδ (by positivity), fun H t' η μ u u' hs hH hη hμ hhs hst ht' hH0 => ?_⟩
  have hsmall : H * (L * total A) ≤ 1 / 2 := by
    have := mul_le_one hH0 (by positivity) (hH.trans_le (min_le_right _ _))
    linarith
  have hsum : 0 ≤ hs.sum := List.sum_nonneg fun h hh => (hhs h hh).1
  have htime := hst.time
  have hsτ : hs.sum ≤ τ := le_trans (by linarith) (le_max_left _ _)
  have hHp := pow_nonneg hH0 p
  have hb0 : 0 ≤ ∑ i, |b i| := Finset.sum_nonneg fun _ _ => abs_nonneg _
  have hbβ : ∑ i, |b i| ≤ |β| := hb.trans (le_abs_self _)
  set D := K * ε + C * H ^ p with hD
  have hD0 : 0 ≤ D := by positivity
  have hmain := perturbed_error_of (D := D) (b := b) hL hf hD0 hη hμ (fun t h k g1 g2 g3 g4 g5 => by
    refine (hE t h k g1 g2 g3 (g4.trans_lt (hH.trans_le (min_le_left _ _))) g5).trans ?_
    rw [hD, add_mul, pow_succ, ← mul_assoc]
    gcongr) hsmall hst le_rfl ht' hhs
  refine hmain.trans ?_
  have h3 : Real.exp ((2 * L * ∑ i, |b i|) * hs.sum) ≤ Real.exp (Λ * τ) := by
    refine Real.exp_le_exp.mpr ?_
    rw [hΛ]
    gcongr
  set P := μ * hs.length with hP
  have hP0 : 0 ≤ P := by positivity
  have h2 : ‖u - y t0‖ + (D + (∑ i, |b i|) * (2 * η)) * hs.sum + P
      ≤ (1 + K * τ + 2 * |β| * τ) * (‖u - y t0‖ + ε + η + P) + C * τ * H ^ p := by
    have g0 : (D + (∑ i, |b i|) * (2 * η)) * hs.sum ≤ (D + |β| * (2 * η)) * τ := by gcongr
    have g1 : 0 ≤ K * τ * (‖u - y t0‖ + P) := by positivity
    have g2 : 0 ≤ K * τ * η := by positivity
    have g3 : 0 ≤ |β| * τ * (‖u - y t0‖ + P) := by positivity
    have g4 : 0 ≤ |β| * τ * ε := by positivity
    rw [hD] at g0
    rw [hD]
    nlinarith
  have h4 : 0 ≤ ‖u - y t0‖ + (D + (∑ i, |b i|) * (2 * η)) * hs.sum + P := by positivity
  calc _ ≤ Real.exp (Λ * τ) * ((1 + K * τ + 2 * |β| * τ) * (‖u - y t0‖ + ε + η + P)
          + C * τ * H ^ p) := mul_le_mul h3 h2 h4 (Real.exp_nonneg _)
    _ = Real.exp (Λ * τ) * (1 + K * τ + 2 * |β| * τ) * (‖u - y t0‖ + ε + η + P)
        + Real.exp (Λ * τ) * (C * τ) * H ^ p := by ring
    _ ≤ _ := by gcongr; linarith

variable [FiniteDimensional ℝ E]

/-- Convergence near the solution. The steps are those of a relation `S`, which are perturbed inexact
Runge-Kutta steps with stages bounded by `M` as long as they start in the ball of radius `R`. -/
theorem convergence_perturbed_nearby {p : ℕ} {y : ℝ → E} {t0 t1 : ℝ} (hp : 1 ≤ p)
    (hfs : ContDiff ℝ p (fun q : ℝ × E => f q.1 q.2))
    (hy : ∀ t ∈ Set.Icc t0 t1, HasDerivWithinAt y (f t (y t)) (Set.Icc t0 t1) t) (β : ℝ) :
    ∃ K r R : ℝ, 0 < K ∧ 0 < r ∧ 0 < R ∧
      ∀ (s : ℕ) (A : Fin s → Fin s → ℝ) (b c : Fin s → ℝ) (ε M : ℝ),
      0 ≤ ε → ∑ i, |b i| ≤ β → (∀ i, |(∑ j, A i j) - c i| ≤ ε) → OrderConditionsWithin ε A b p →
      ∃ C δ : ℝ, 0 < C ∧ 0 < δ ∧ ∀ (S : ℝ → ℝ → E → E → Prop) (H t' η μ : ℝ) (u u' : E)
        (hs : List ℝ), 0 ≤ H → H < δ → 0 ≤ η → 0 ≤ μ →
        (∀ h t u u₁, 0 ≤ h → h ≤ H → t0 ≤ t → t ≤ t1 → ‖u‖ ≤ R → S h t u u₁ →
          ∃ k, InexactStages η A c f h t u k ∧ ‖k‖ ≤ M ∧ ‖u₁ - (u + h • ∑ i, b i • k i)‖ ≤ μ) →
        (∀ h ∈ hs, 0 ≤ h ∧ h ≤ H) → IsSteps S t0 u hs t' u' → t' ≤ t1 →
        ‖u - y t0‖ + ε + η + μ * hs.length ≤ r →
        ‖u' - y t'‖ ≤ K * (‖u - y t0‖ + ε + η + μ * hs.length) + C * H ^ p := by
  have hyc : ContinuousOn y (Set.Icc t0 t1) := fun t ht => (hy t ht).continuousWithinAt
  obtain ⟨R₀, hR₀⟩ := isCompact_Icc.exists_bound_of_continuousOn hyc
  set R := max R₀ 0 + 1 with hR
  set R' := |t0| + |t1| + R + 1 with hR'
  have hRpos : 0 < R := by positivity
  have hR'pos : 0 < R' := by positivity
  obtain ⟨F, hF, ⟨L, hL, hFL⟩, hFf⟩ := exists_cutoff hp hfs hR'pos
  have habs : ∀ t, t0 ≤ t → t ≤ t1 → |t| ≤ |t0| + |t1| := fun t h1 h2 => by
    rw [abs_le]
    constructor <;> linarith [neg_abs_le t0, le_abs_self t1, abs_nonneg t0, abs_nonneg t1]
  have hyR : ∀ t ∈ Set.Icc t0 t1, ‖y t‖ ≤ max R₀ 0 := fun t ht =>
    (hR₀ t ht).trans (le_max_left _ _)
  have hyF : ∀ t ∈ Set.Icc t0 t1, HasDerivWithinAt y (F t (y t)) (Set.Icc t0 t1) t := by
    intro t ht
    rw [hFf t (y t) (by linarith [habs t ht.1 ht.2])
      (by linarith [hyR t ht, abs_nonneg t0, abs_nonneg t1])]
    exact hy t ht
  have : ProperSpace E := FiniteDimensional.proper_real E
  obtain ⟨K, hK, hconv⟩ := convergence_perturbed hp hF hL hFL hyF β
  refine ⟨K, 1 / (2 * K), R, hK, by positivity, hRpos, fun s A b c ε M hε hb hc ho => ?_⟩
  obtain ⟨C, δ, hC, hδ, hE⟩ := hconv s A b c ε hε hb hc ho
  set γ : ℝ := ∑ i, |c i| with hγ
  have hγ0 : 0 ≤ γ := Finset.sum_nonneg fun _ _ => abs_nonneg _
  have hT0 := total_nonneg A
  refine ⟨C, min δ (min 1 (min (1 / (2 * C + 1)) (min (1 / (γ + 1)) (1 / (total A * |M| + 1))))),
    hC, lt_min hδ (lt_min one_pos (lt_min (by positivity) (lt_min (by positivity)
      (by positivity)))), ?_⟩
  intro S H t' η μ u u' hs hH0 hH hη hμ hS hhs hst ht' hr
  have hH1 := hH.trans_le (min_le_left _ _)
  have hH := hH.trans_le (min_le_right _ _)
  have hH2 := (hH.trans_le (min_le_left _ _)).le
  have hH := hH.trans_le (min_le_right _ _)
  have hH3 := mul_le_one hH0 (by positivity) (hH.trans_le (min_le_left _ _))
  have hH := hH.trans_le (min_le_right _ _)
  have hH4 := mul_le_one hH0 hγ0 (hH.trans_le (min_le_left _ _))
  have hH5 := mul_le_one hH0 (by positivity) (hH.trans_le (min_le_right _ _))
  have hclose : ∀ {t : ℝ} {v : E} {l : List ℝ}, (∀ h ∈ l, 0 ≤ h ∧ h ≤ H) → l.length ≤ hs.length →
      IsSteps (PerturbedStep η μ A b c F) t0 u l t v → t ≤ t1 → ‖v - y t‖ ≤ 1 := by
    intro t v l hl hlen hsteps ht
    have h1 := hE H t η μ u v l hH1 hη hμ hl hsteps ht hH0
    have h2 : K * (‖u - y t0‖ + ε + η + μ * l.length) ≤ 1 / 2 := by
      have : μ * (l.length : ℝ) ≤ μ * hs.length := by gcongr
      calc _ ≤ K * (1 / (2 * K)) := by gcongr; linarith
        _ = _ := by field_simp
    have h3 : C * H ^ p ≤ 1 / 2 := by
      have : H ^ p ≤ H := by
        calc H ^ p ≤ H ^ 1 := pow_le_pow_of_le_one hH0 hH2 hp
          _ = H := pow_one H
      nlinarith
    linarith
  have main : ∀ {t : ℝ} {v : E} {l' : List ℝ}, IsSteps S t v l' t' u' →
      ∀ l : List ℝ, l.length + l'.length ≤ hs.length → (∀ h ∈ l, 0 ≤ h ∧ h ≤ H) →
      (∀ h ∈ l', 0 ≤ h ∧ h ≤ H) →
      IsSteps (PerturbedStep η μ A b c F) t0 u l t v →
      IsSteps (PerturbedStep η μ A b c F) t0 u (l ++ l') t' u' := by
    intro t v l' h
    clear hst
    induction h with
    | nil t v => intro l _ _ _ h; simpa using h
    | @cons t v h v₁ l' t'' u'' hst hr ih =>
      intro l hlen hl hl' hpre
      rw [List.length_cons] at hlen
      obtain ⟨h0, hle⟩ := hl' h (by simp)
      have hl'' : ∀ h ∈ l', 0 ≤ h ∧ h ≤ H := fun h hh => hl' h (by simp [hh])
      have hsum : 0 ≤ l'.sum := List.sum_nonneg fun h hh => (hl'' h hh).1
      have hsuml : 0 ≤ l.sum := List.sum_nonneg fun h hh => (hl h hh).1
      have htt := hr.time
      have htt0 := hpre.time
      have ht0 : t0 ≤ t := by linarith
      have ht1 : t ≤ t1 := by linarith
      have hv1 := hclose hl (by omega) hpre ht1
      have hvR : ‖v‖ ≤ R := by
        have := norm_le_norm_add_norm_sub' v (y t)
        linarith [hyR t ⟨ht0, ht1⟩]
      obtain ⟨k, hk, hkM, hv₁⟩ := hS h t v v₁ h0 hle ht0 ht1 hvR hst
      have hkF : InexactStages η A c F h t v k := by
        intro i
        rw [hFf]
        · exact hk i
        · have hci : |c i| ≤ γ := Finset.single_le_sum (f := fun i => |c i|)
            (fun _ _ => abs_nonneg _) (mem_univ i)
          have : |c i * h| ≤ 1 := by
            rw [abs_mul, abs_of_nonneg h0]
            calc |c i| * h ≤ γ * H := by gcongr
              _ ≤ 1 := by linarith
          linarith [abs_add_le t (c i * h), habs t ht0 ht1]
        · have : ‖h • ∑ j, A i j • k j‖ ≤ 1 := by
            rw [norm_smul, Real.norm_of_nonneg h0]
            calc h * ‖∑ j, A i j • k j‖ ≤ H * (total A * |M|) := by
                  gcongr
                  refine (norm_row A k i).trans ?_
                  gcongr
                  exact hkM.trans (le_abs_self _)
              _ ≤ 1 := hH5
          linarith [norm_add_le v (h • ∑ j, A i j • k j), abs_nonneg t0, abs_nonneg t1]
      have := ih ht' (l ++ [h]) (by simp; omega) (by
        intro h' hh'
        rcases List.mem_append.mp hh' with hh' | hh'
        · exact hl h' hh'
        · rw [List.mem_singleton.mp hh']; exact ⟨h0, hle⟩) hl''
        (hpre.append (.cons ⟨k, hkF, hv₁⟩ (.nil _ _)))
      simpa using this
  have h1 := main hst [] (by simp) (by simp) hhs (.nil _ _)
  exact hE H t' η μ u u' _ hH1 hη hμ hhs h1 ht' hH0

/-- A smooth right-hand side is Lipschitz in time and state on balls. -/
theorem lipschitz_on_ball {p : ℕ} (hp : 1 ≤ p) (hfs : ContDiff ℝ p (fun q : ℝ × E => f q.1 q.2))
    {R : ℝ} (hR : 0 < R) : ∃ L : ℝ, 0 ≤ L ∧ ∀ t t' u v, |t| ≤ R → |t'| ≤ R → ‖u‖ ≤ R → ‖v‖ ≤ R →
      ‖f t u - f t' v‖ ≤ L * (|t - t'| + ‖u - v‖) := by
  let χ : ContDiffBump (0 : ℝ × E) := ⟨R, R + 1, hR, by linarith⟩
  have h1 : ContDiff ℝ p (fun q : ℝ × E => χ q • f q.1 q.2) := χ.contDiff.smul hfs
  have h2 : HasCompactSupport (fun q : ℝ × E => χ q • f q.1 q.2) := χ.hasCompactSupport.smul_right
  obtain ⟨L, hL⟩ := ContDiff.lipschitzWith_of_hasCompactSupport (𝕂 := ℝ) h2 h1
    (by exact_mod_cast (by omega : p ≠ 0))
  have hone : ∀ t u, |t| ≤ R → ‖u‖ ≤ R → χ (t, u) = 1 := fun t u ht hu =>
    χ.one_of_mem_closedBall (by
      rw [mem_closedBall_zero_iff, Prod.norm_def]
      exact max_le ht hu)
  refine ⟨L, L.2, fun t t' u v ht ht' hu hv => ?_⟩
  have := hL.dist_le_mul (t, u) (t', v)
  simp only [hone t u ht hu, hone t' v ht' hv, one_smul, dist_eq_norm, Prod.norm_def,
    Prod.fst_sub, Prod.snd_sub, Real.norm_eq_abs] at this
  refine this.trans (mul_le_mul_of_nonneg_left ?_ L.2)
  exact max_le (by linarith [norm_nonneg (u - v)]) (by linarith [abs_nonneg (t - t')])

end Verif.Conv
