/-
Errors of sequences of Runge-Kutta steps whose stage equations are solved up to a residual only. No
code is modelled here.
-/
import Verif.Conv.Rounded
import Verif.Basic.Steps

namespace Verif.Conv

open Verif.Tableau Verif.RK.Spec Finset

variable {E : Type*} [NormedAddCommGroup E] [NormedSpace ℝ E] {s : ℕ}

/-- The stage system of a Runge-Kutta method with residuals of at most `η`. -/
def InexactStages (η : ℝ) (A : Fin s → Fin s → ℝ) (c : Fin s → ℝ) (f : ℝ → E → E) (h t : ℝ) (y : E)
    (k : Fin s → E) : Prop := ∀ i, ‖k i - f (t + c i * h) (y + h • ∑ j, A i j • k j)‖ ≤ η

/-- A step with inexact stages. -/
def InexactStep (η : ℝ) (A : Fin s → Fin s → ℝ) (b c : Fin s → ℝ) (f : ℝ → E → E) (h t : ℝ)
    (y y₁ : E) : Prop := ∃ k, InexactStages η A c f h t y k ∧ y₁ = y + h • ∑ i, b i • k i

variable {A : Fin s → Fin s → ℝ} {b c : Fin s → ℝ} {f : ℝ → E → E} {L h t η : ℝ}

/-- Inexact stages are close to the exact ones. -/
theorem inexact_stages (hL : 0 ≤ L) (hf : ∀ t u v, ‖f t u - f t v‖ ≤ L * ‖u - v‖) (h0 : 0 ≤ h)
    (hη : 0 ≤ η) (hh : h * (L * total A) ≤ 1 / 2) {u : E} {k k' : Fin s → E}
    (hk : InexactStages η A c f h t u k) (hk' : Stages A c f h t u k') : ‖k - k'‖ ≤ 2 * η := by
  have h1 : ‖k - k'‖ ≤ η + 1 / 2 * ‖k - k'‖ := by
    refine (pi_norm_le_iff_of_nonneg (by positivity)).mpr fun i => ?_
    have g0 : (k - k') i = (k i - f (t + c i * h) (u + h • ∑ j, A i j • k j))
        + (f (t + c i * h) (u + h • ∑ j, A i j • k j)
          - f (t + c i * h) (u + h • ∑ j, A i j • k' j)) := by
      rw [← hk' i, Pi.sub_apply]
      abel
    have g1 : ‖f (t + c i * h) (u + h • ∑ j, A i j • k j)
        - f (t + c i * h) (u + h • ∑ j, A i j • k' j)‖ ≤ 1 / 2 * ‖k - k'‖ := by
      refine (hf _ _ _).trans ?_
      have e0 : u + h • ∑ j, A i j • k j - (u + h • ∑ j, A i j • k' j)
          = h • ∑ j, A i j • (k - k') j := by
        simp only [Pi.sub_apply, smul_sub, Finset.sum_sub_distrib]
        abel
      rw [e0, norm_smul, Real.norm_of_nonneg h0]
      calc L * (h * ‖∑ j, A i j • (k - k') j‖) ≤ L * (h * (total A * ‖k - k'‖)) := by
            gcongr; exact norm_row A (k - k') i
        _ = h * (L * total A) * ‖k - k'‖ := by ring
        _ ≤ 1 / 2 * ‖k - k'‖ := by gcongr
    rw [g0]
    exact (norm_add_le _ _).trans (add_le_add (hk i) g1)
  linarith

/-- Error propagation for a local error of at most `D h` and residuals of at most `η`. -/
theorem inexact_error_of [CompleteSpace E] {y : ℝ → E} {t0 t1 H D : ℝ} (hL : 0 ≤ L)
    (hf : ∀ t u v, ‖f t u - f t v‖ ≤ L * ‖u - v‖) (hD : 0 ≤ D) (hη : 0 ≤ η)
    (hloc : ∀ (t h : ℝ) (k : Fin s → E), t0 ≤ t → 0 ≤ h → t + h ≤ t1 →
      h ≤ H → Stages A c f h t (y t) k → ‖y t + h • ∑ i, b i • k i - y (t + h)‖ ≤ D * h)
    (hH : H * (L * total A) ≤ 1 / 2) {t t' : ℝ} {u u' : E} {hs : List ℝ}
    (hst : IsSteps (InexactStep η A b c f) t u hs t' u') (ht : t0 ≤ t) (ht' : t' ≤ t1)
    (hhs : ∀ h ∈ hs, 0 ≤ h ∧ h ≤ H) :
    ‖u' - y t'‖ ≤ Real.exp ((2 * L * ∑ i, |b i|) * hs.sum)
      * (‖u - y t‖ + (D + (∑ i, |b i|) * (2 * η)) * hs.sum) := by
  have hb0 : 0 ≤ ∑ i, |b i| := Finset.sum_nonneg fun _ _ => abs_nonneg _
  set D' := D + (∑ i, |b i|) * (2 * η) with hD'
  have hD0 : 0 ≤ D' := by positivity
  induction hst with
  | nil t u => simp
  | @cons t u h u₁ hs t' u' hst hr ih =>
    obtain ⟨k, hk, rfl⟩ := hst
    obtain ⟨h0, hle⟩ := hhs h (by simp)
    have hhs' : ∀ h ∈ hs, 0 ≤ h ∧ h ≤ H := fun h hh => hhs h (by simp [hh])
    have hsum : 0 ≤ hs.sum := List.sum_nonneg fun h hh => (hhs' h hh).1
    have hsmall : h * (L * total A) ≤ 1 / 2 := by
      refine le_trans ?_ hH
      exact mul_le_mul_of_nonneg_right hle (mul_nonneg hL (total_nonneg A))
    have htt := hr.time
    obtain ⟨k', hk'⟩ := exists_stages (A := A) (c := c) (t := t) hL hf h0 hsmall (y t)
    obtain ⟨k'', hk''⟩ := exists_stages (A := A) (c := c) (t := t) hL hf h0 hsmall u
    have e1 := step_lipschitz (b := b) hL hf h0 hsmall hk'' hk'
    have e2 := hloc t h k' ht h0 (by linarith) hle hk'
    have ih := ih (by linarith) ht' hhs'
    set Λ := 2 * L * ∑ i, |b i| with hΛ
    have hΛ0 : 0 ≤ Λ := by positivity
    have e7 : ‖u + h • ∑ i, b i • k i - (u + h • ∑ i, b i • k'' i)‖
        ≤ (∑ i, |b i|) * (2 * η) * h := by
      have : u + h • ∑ i, b i • k i - (u + h • ∑ i, b i • k'' i)
          = h • ∑ i, b i • (k - k'') i := by
        simp only [Pi.sub_apply, smul_sub, Finset.sum_sub_distrib]
        abel
      rw [this, norm_smul, Real.norm_of_nonneg h0]
      calc h * ‖∑ i, b i • (k - k'') i‖ ≤ h * ((∑ i, |b i|) * (2 * η)) := by
            gcongr
            refine (norm_weights b (k - k'')).trans ?_
            gcongr
            exact inexact_stages hL hf h0 hη hsmall hk hk''
        _ = _ := by ring
    have e3 : ‖u + h • ∑ i, b i • k i - y (t + h)‖ ≤ (1 + h * Λ) * ‖u - y t‖ + D' * h := by
      have g1 := norm_sub_le_norm_sub_add_norm_sub (u + h • ∑ i, b i • k'' i)
        (y t + h • ∑ i, b i • k' i) (y (t + h))
      have g2 := norm_sub_le_norm_sub_add_norm_sub (u + h • ∑ i, b i • k i)
        (u + h • ∑ i, b i • k'' i) (y (t + h))
      rw [hD', add_mul]
      linarith
    have e5 : 1 + h * Λ ≤ Real.exp (Λ * h) := by
      have := Real.add_one_le_exp (Λ * h)
      linarith
    have e6 : 1 ≤ Real.exp (Λ * h) := Real.one_le_exp (by positivity)
    rw [List.sum_cons, mul_add Λ, Real.exp_add]
    calc ‖u' - y t'‖ ≤ Real.exp (Λ * hs.sum)
          * (‖u + h • ∑ i, b i • k i - y (t + h)‖ + D' * hs.sum) := ih
      _ ≤ Real.exp (Λ * hs.sum) * ((Real.exp (Λ * h) * ‖u - y t‖
            + Real.exp (Λ * h) * (D' * h)) + Real.exp (Λ * h) * (D' * hs.sum)) := by
          have q0 : 0 ≤ D' * h := by positivity
          have q1 : 0 ≤ D' * hs.sum := by positivity
          have q2 : (1 + h * Λ) * ‖u - y t‖ ≤ Real.exp (Λ * h) * ‖u - y t‖ := by gcongr
          have q3 : D' * h ≤ Real.exp (Λ * h) * (D' * h) := le_mul_of_one_le_left q0 e6
          have q4 : D' * hs.sum ≤ Real.exp (Λ * h) * (D' * hs.sum) := le_mul_of_one_le_left q1 e6
          gcongr
          linarith
      _ = _ := by ring

/-- Convergence with inexact stages: the error after any sequence of steps of size at most `H` is at
most `K (initial error + ε + η) + C H^p`, where `K` depends on the problem, the interval and the
bound `β` of the weights only, and `C` and `δ` do not depend on the residuals. -/
theorem convergence_inexact [ProperSpace E] {p : ℕ} {y : ℝ → E} {t0 t1 : ℝ} (hp : 1 ≤ p)
    (hfs : ContDiff ℝ p (fun q : ℝ × E => f q.1 q.2)) (hL : 0 ≤ L)
    (hf : ∀ t u v, ‖f t u - f t v‖ ≤ L * ‖u - v‖)
    (hy : ∀ t ∈ Set.Icc t0 t1, HasDerivWithinAt y (f t (y t)) (Set.Icc t0 t1) t) (β : ℝ) :
    ∃ K : ℝ, 0 < K ∧ ∀ (s : ℕ) (A : Fin s → Fin s → ℝ) (b c : Fin s → ℝ) (ε : ℝ), 0 ≤ ε →
      ∑ i, |b i| ≤ β → (∀ i, |(∑ j, A i j) - c i| ≤ ε) → OrderConditionsWithin ε A b p →
      ∃ C δ : ℝ, 0 < C ∧ 0 < δ ∧ ∀ (H t' η : ℝ) (u u' : E) (hs : List ℝ), H < δ → 0 ≤ η →
        (∀ h ∈ hs, 0 ≤ h ∧ h ≤ H) → IsSteps (InexactStep η A b c f) t0 u hs t' u' → t' ≤ t1 → 0 ≤ H →
        ‖u' - y t'‖ ≤ K * (‖u - y t0‖ + ε + η) + C * H ^ p := by
  obtain ⟨K, hK, hloc⟩ := local_error_within hp hfs hL hf hy β
  set Λ := 2 * L * |β| with hΛ
  have hΛ0 : 0 ≤ Λ := by positivity
  set τ := max (t1 - t0) 0 with hτ
  have hτ0 : 0 ≤ τ := le_max_right _ _
  refine ⟨Real.exp (Λ * τ) * (1 + K * τ + 2 * |β| * τ), by positivity,
    fun s A b c ε hε hb hc ho => ?_⟩
  obtain ⟨C, δ, hC, hδ, hE⟩ := hloc s A b c ε hε hb hc ho
  have hLA : 0 ≤ L * total A := mul_nonneg hL (total_nonneg A)
  refine ⟨Real.exp (Λ * τ) * (C * τ) + 1, min δ (1 / (2 * (L * total A) + 1)), by positivity,
    lt_min hδ (by positivity), fun H t' η u u' hs hH hη hhs hst ht' hH0 => ?_⟩
  have hsmall : H * (L * total A) ≤ 1 / 2 := by
    have := mul_le_one hH0 (by positivity) (hH.trans_le (min_le_right _ _))
    linarith
  have hsum : 0 ≤ hs.sum := List.sum_nonneg fun h hh => (hhs h hh).1
  have htime := hst.time
  have hsτ : hs.sum ≤ τ := le_trans (by linarith) (le_max_left _ _)
  have hHp := pow_nonneg hH0 p
  have hb0 : 0 ≤ ∑ i, |b i| := Finset.sum_nonneg fun _ _ => abs_nonneg _
  have hbβ : ∑ i, |b i| ≤ |β| := hb.trans (le_abs_self _)
  set D := K * ε + C * H ^ p with hD
  have hD0 : 0 ≤ D := by positivity
  have hmain := inexact_error_of (D := D) (b := b) hL hf hD0 hη (fun t h k g1 g2 g3 g4 g5 => by
    refine (hE t h k g1 g2 g3 (g4.trans_lt (hH.trans_le (min_le_left _ _))) g5).trans ?_
    rw [hD, add_mul, pow_succ, ← mul_assoc]
    gcongr) hsmall hst le_rfl ht' hhs
  refine hmain.trans ?_
  have h3 : Real.exp ((2 * L * ∑ i, |b i|) * hs.sum) ≤ Real.exp (Λ * τ) := by
    refine Real.exp_le_exp.mpr ?_
    rw [hΛ]
    gcongr
  have h2 : ‖u - y t0‖ + (D + (∑ i, |b i|) * (2 * η)) * hs.sum
      ≤ (1 + K * τ + 2 * |β| * τ) * (‖u - y t0‖ + ε + η) + C * τ * H ^ p := by
    have g0 : (D + (∑ i, |b i|) * (2 * η)) * hs.sum ≤ (D + |β| * (2 * η)) * τ := by gcongr
    have g1 : 0 ≤ K * τ * ‖u - y t0‖ := by positivity
    have g2 : 0 ≤ K * τ * η := by positivity
    have g3 : 0 ≤ |β| * τ * ‖u - y t0‖ := by positivity
    have g4 : 0 ≤ |β| * τ * ε := by positivity
    rw [hD] at g0
    rw [hD]
    nlinarith
  have h4 : 0 ≤ ‖u - y t0‖ + (D + (∑ i, |b i|) * (2 * η)) * hs.sum := by positivity
  calc _ ≤ Real.exp (Λ * τ) * ((1 + K * τ + 2 * |β| * τ) * (‖u - y t0‖ + ε + η)
          + C * τ * H ^ p) := mul_le_mul h3 h2 h4 (Real.exp_nonneg _)
    _ = Real.exp (Λ * τ) * (1 + K * τ + 2 * |β| * τ) * (‖u - y t0‖ + ε + η)
        + Real.exp (Λ * τ) * (C * τ) * H ^ p := by ring
    _ ≤ _ := by gcongr; linarith

end Verif.Conv
