/-
Global error of sequences of Runge-Kutta steps. No code is modelled here.
-/
import Verif.Conv.Local
import Mathlib.Topology.MetricSpace.Contracting
import Mathlib.Analysis.SpecialFunctions.Exp

namespace Verif.Conv

open Verif.Tableau Finset Filter Topology

variable {E : Type*} [NormedAddCommGroup E] [NormedSpace ℝ E] {s : ℕ}

/-- The stage system of a Runge-Kutta method. -/
def Stages (A : Fin s → Fin s → ℝ) (c : Fin s → ℝ) (f : ℝ → E → E) (h t : ℝ) (y : E)
    (k : Fin s → E) : Prop := ∀ i, k i = f (t + c i * h) (y + h • ∑ j, A i j • k j)

/-- Sum of the absolute values of the coefficients. -/
def total (A : Fin s → Fin s → ℝ) : ℝ := ∑ i, ∑ j, |A i j|

theorem total_nonneg (A : Fin s → Fin s → ℝ) : 0 ≤ total A :=
  Finset.sum_nonneg fun _ _ => Finset.sum_nonneg fun _ _ => abs_nonneg _

theorem norm_row (A : Fin s → Fin s → ℝ) (k : Fin s → E) (i : Fin s) :
    ‖∑ j, A i j • k j‖ ≤ total A * ‖k‖ := by
  calc ‖∑ j, A i j • k j‖ ≤ ∑ j, |A i j| * ‖k‖ := by
        refine norm_sum_le_of_le _ fun j _ => ?_
        rw [norm_smul, Real.norm_eq_abs]
        exact mul_le_mul_of_nonneg_left (norm_le_pi_norm k j) (abs_nonneg _)
    _ = (∑ j, |A i j|) * ‖k‖ := by rw [Finset.sum_mul]
    _ ≤ total A * ‖k‖ := by
        refine mul_le_mul_of_nonneg_right ?_ (norm_nonneg _)
        exact Finset.single_le_sum (f := fun i => ∑ j, |A i j|)
          (fun _ _ => Finset.sum_nonneg fun _ _ => abs_nonneg _) (mem_univ i)

theorem norm_weights (b : Fin s → ℝ) (k : Fin s → E) :
    ‖∑ i, b i • k i‖ ≤ (∑ i, |b i|) * ‖k‖ := by
  rw [Finset.sum_mul]
  refine norm_sum_le_of_le _ fun j _ => ?_
  rw [norm_smul, Real.norm_eq_abs]
  exact mul_le_mul_of_nonneg_left (norm_le_pi_norm k j) (abs_nonneg _)

variable {A : Fin s → Fin s → ℝ} {b c : Fin s → ℝ} {f : ℝ → E → E} {L h t : ℝ}

theorem stages_bound (hL : 0 ≤ L) (hf : ∀ t u v, ‖f t u - f t v‖ ≤ L * ‖u - v‖) (h0 : 0 ≤ h)
    (hh : h * (L * total A) ≤ 1 / 2) {y : E} {k : Fin s → E} (hk : Stages A c f h t y k) {M : ℝ}
    (hM0 : 0 ≤ M) (hM : ∀ i, ‖f (t + c i * h) y‖ ≤ M) : ‖k‖ ≤ 2 * M := by
  have h1 : ‖k‖ ≤ M + 1 / 2 * ‖k‖ := by
    refine (pi_norm_le_iff_of_nonneg (by positivity)).mpr fun i => ?_
    rw [hk i]
    have e1 := hf (t + c i * h) (y + h • ∑ j, A i j • k j) y
    rw [add_sub_cancel_left, norm_smul, Real.norm_of_nonneg h0] at e1
    have e2 : L * (h * ‖∑ j, A i j • k j‖) ≤ 1 / 2 * ‖k‖ := by
      calc L * (h * ‖∑ j, A i j • k j‖) ≤ L * (h * (total A * ‖k‖)) := by
            gcongr; exact norm_row A k i
        _ = h * (L * total A) * ‖k‖ := by ring
        _ ≤ _ := by gcongr
    have e3 := norm_le_norm_add_norm_sub' (f (t + c i * h) (y + h • ∑ j, A i j • k j))
      (f (t + c i * h) y)
    linarith [hM i]
  linarith

theorem stages_lipschitz (hL : 0 ≤ L) (hf : ∀ t u v, ‖f t u - f t v‖ ≤ L * ‖u - v‖) (h0 : 0 ≤ h)
    (hh : h * (L * total A) ≤ 1 / 2) {u v : E} {k k' : Fin s → E} (hk : Stages A c f h t u k)
    (hk' : Stages A c f h t v k') : ‖k - k'‖ ≤ 2 * (L * ‖u - v‖) := by
  have h1 : ‖k - k'‖ ≤ L * ‖u - v‖ + 1 / 2 * ‖k - k'‖ := by
    refine (pi_norm_le_iff_of_nonneg (by positivity)).mpr fun i => ?_
    rw [Pi.sub_apply, hk i, hk' i]
    refine (hf _ _ _).trans ?_
    have e0 : u + h • ∑ j, A i j • k j - (v + h • ∑ j, A i j • k' j)
        = (u - v) + h • ∑ j, A i j • (k - k') j := by
      simp only [Pi.sub_apply, smul_sub, Finset.sum_sub_distrib]
      abel
    rw [e0]
    calc L * ‖(u - v) + h • ∑ j, A i j • (k - k') j‖
        ≤ L * (‖u - v‖ + h * (total A * ‖k - k'‖)) := by
          gcongr
          refine (norm_add_le _ _).trans ?_
          rw [norm_smul, Real.norm_of_nonneg h0]
          gcongr
          exact norm_row A (k - k') i
      _ = L * ‖u - v‖ + h * (L * total A) * ‖k - k'‖ := by ring
      _ ≤ _ := by gcongr
  linarith

theorem step_lipschitz (hL : 0 ≤ L) (hf : ∀ t u v, ‖f t u - f t v‖ ≤ L * ‖u - v‖) (h0 : 0 ≤ h)
    (hh : h * (L * total A) ≤ 1 / 2) {u v : E} {k k' : Fin s → E} (hk : Stages A c f h t u k)
    (hk' : Stages A c f h t v k') :
    ‖(u + h • ∑ i, b i • k i) - (v + h • ∑ i, b i • k' i)‖
      ≤ (1 + h * (2 * L * ∑ i, |b i|)) * ‖u - v‖ := by
  have e0 : (u + h • ∑ i, b i • k i) - (v + h • ∑ i, b i • k' i)
      = (u - v) + h • ∑ i, b i • (k - k') i := by
    simp only [Pi.sub_apply, smul_sub, Finset.sum_sub_distrib]
    abel
  rw [e0]
  refine (norm_add_le _ _).trans ?_
  rw [norm_smul, Real.norm_of_nonneg h0]
  have hb0 : 0 ≤ ∑ i, |b i| := Finset.sum_nonneg fun _ _ => abs_nonneg _
  calc ‖u - v‖ + h * ‖∑ i, b i • (k - k') i‖
      ≤ ‖u - v‖ + h * ((∑ i, |b i|) * (2 * (L * ‖u - v‖))) := by
        gcongr
        refine (norm_weights b (k - k')).trans ?_
        gcongr
        exact stages_lipschitz hL hf h0 hh hk hk'
    _ = _ := by ring

/-- For small steps the stage system has a solution. -/
theorem exists_stages [CompleteSpace E] (hL : 0 ≤ L)
    (hf : ∀ t u v, ‖f t u - f t v‖ ≤ L * ‖u - v‖) (h0 : 0 ≤ h)
    (hh : h * (L * total A) ≤ 1 / 2) (y : E) : ∃ k, Stages A c f h t y k := by
  set Φ : (Fin s → E) → Fin s → E := fun k i => f (t + c i * h) (y + h • ∑ j, A i j • k j)
  have hΦ : ContractingWith (1 / 2 : NNReal) Φ := by
    refine ⟨by rw [← NNReal.coe_lt_coe]; norm_num, LipschitzWith.of_dist_le_mul fun k k' => ?_⟩
    rw [dist_eq_norm, dist_eq_norm]
    refine (pi_norm_le_iff_of_nonneg (by positivity)).mpr fun i => ?_
    refine (hf _ _ _).trans ?_
    have e0 : y + h • ∑ j, A i j • k j - (y + h • ∑ j, A i j • k' j)
        = h • ∑ j, A i j • (k - k') j := by
      simp only [Pi.sub_apply, smul_sub, Finset.sum_sub_distrib]
      abel
    rw [e0, norm_smul, Real.norm_of_nonneg h0]
    calc L * (h * ‖∑ j, A i j • (k - k') j‖) ≤ L * (h * (total A * ‖k - k'‖)) := by
          gcongr; exact norm_row A (k - k') i
      _ = h * (L * total A) * ‖k - k'‖ := by ring
      _ ≤ 1 / 2 * ‖k - k'‖ := by gcongr
      _ = _ := by norm_num
  exact ⟨hΦ.fixedPoint, fun i => (congrFun hΦ.fixedPoint_isFixedPt i).symm⟩

/-- The local error of a method of order `p`. -/
theorem local_error [ProperSpace E] {p : ℕ} {y : ℝ → E} {t0 t1 : ℝ}
    (hfs : ContDiff ℝ p (fun q : ℝ × E => f q.1 q.2)) (hL : 0 ≤ L)
    (hf : ∀ t u v, ‖f t u - f t v‖ ≤ L * ‖u - v‖) (hc : ∀ i, ∑ j, A i j = c i)
    (ho : OrderConditions A b p)
    (hy : ∀ t ∈ Set.Icc t0 t1, HasDerivWithinAt y (f t (y t)) (Set.Icc t0 t1) t) :
    ∃ C δ : ℝ, 0 ≤ C ∧ 0 < δ ∧ ∀ (t h : ℝ) (k : Fin s → E), t0 ≤ t → 0 ≤ h → t + h ≤ t1 →
      h < δ → Stages A c f h t (y t) k →
      ‖y t + h • ∑ i, b i • k i - y (t + h)‖ ≤ C * h ^ (p + 1) := by
  set F : ℝ × E → ℝ × E := fun q => (1, f q.1 q.2) with hFdef
  set z : ℝ → ℝ × E := fun t => (t, y t) with hzdef
  have hF : ContDiff ℝ p F := contDiff_const.prodMk hfs
  have hz : ∀ t ∈ Set.Icc t0 t1, HasDerivWithinAt z (F (z t)) (Set.Icc t0 t1) t := fun t ht =>
    (hasDerivWithinAt_id t _).prodMk (hy t ht)
  have hyc : ContinuousOn y (Set.Icc t0 t1) := fun t ht => (hy t ht).continuousWithinAt
  -- bound of the right-hand side near the solution
  set c' : ℝ := ∑ i, |c i| with hc'
  have hcont : ContinuousOn (fun q : ℝ × ℝ => f q.1 (y q.2))
      (Set.Icc (t0 - c') (t1 + c') ×ˢ Set.Icc t0 t1) :=
    hfs.continuous.comp_continuousOn (continuousOn_fst.prodMk
      (hyc.comp continuousOn_snd fun q hq => hq.2))
  obtain ⟨M, hM⟩ := (isCompact_Icc.prod isCompact_Icc).exists_bound_of_continuousOn hcont
  set δ₀ : ℝ := min 1 (1 / (2 * (L * total A) + 1)) with hδ₀
  have hLA : 0 ≤ L * total A := mul_nonneg hL (total_nonneg A)
  have hδ₀pos : 0 < δ₀ := lt_min one_pos (by positivity)
  obtain ⟨C, δ, hC, hδ, hE⟩ := local_error_autonomous (A := A) (b := b) (B := max 1 (2 * max M 0))
    hF ho hz hδ₀pos
  refine ⟨C, δ, hC, hδ, fun t h k h1 h2 h3 h4 hk => ?_⟩
  set K : Fin s → ℝ × E := fun i => (1, k i) with hKdef
  have hsum : ∀ a : Fin s → ℝ, ∑ j, a j • K j = (∑ j, a j, ∑ j, a j • k j) := by
    intro a
    ext1
    · simp [hKdef, Prod.fst_sum]
    · simp [hKdef, Prod.snd_sum]
  have hKbound : h < δ₀ → ∀ i, ‖K i‖ ≤ max 1 (2 * max M 0) := by
    intro hlt i
    have hh : h * (L * total A) ≤ 1 / 2 := by
      have h5 := (hlt.trans_le (min_le_right _ _)).le
      rw [le_div_iff₀ (by positivity)] at h5
      nlinarith
    have hkb := stages_bound hL hf h2 hh hk (M := max M 0) (le_max_right _ _) fun i => by
      refine (hM (t + c i * h, t) ⟨?_, ⟨h1, by linarith⟩⟩).trans (le_max_left _ _)
      have hci : |c i| ≤ c' := Finset.single_le_sum (f := fun i => |c i|)
        (fun _ _ => abs_nonneg _) (mem_univ i)
      have hle1 : h ≤ 1 := (hlt.trans_le (min_le_left _ _)).le
      have hab : |c i * h| ≤ c' := by
        rw [abs_mul, abs_of_nonneg h2]
        calc |c i| * h ≤ |c i| * 1 := by gcongr
          _ ≤ c' := by linarith
      have := abs_le.mp hab
      constructor <;> dsimp only <;> linarith
    rw [hKdef, Prod.norm_def]
    exact max_le (by simp) (((norm_le_pi_norm k i).trans hkb).trans (le_max_right _ _))
  have hKst : ∀ i, K i = F (z t + h • ∑ j, A i j • K j) := by
    intro i
    rw [hsum, hc i]
    simp only [hFdef, hzdef, hKdef, Prod.smul_mk, Prod.mk_add_mk, smul_eq_mul]
    rw [mul_comm h (c i), ← hk i]
  have := hE t h K h1 h2 h3 h4 hKbound hKst
  rw [hsum] at this
  refine le_trans ?_ this
  rw [Prod.norm_def]
  refine le_trans (le_of_eq ?_) (le_max_right _ _)
  simp [hzdef]

/-- A sequence of steps of sizes `hs` from `(t, y)` to `(t', y')`. -/
inductive Steps (A : Fin s → Fin s → ℝ) (b c : Fin s → ℝ) (f : ℝ → E → E) :
    ℝ → E → List ℝ → ℝ → E → Prop
  | nil (t y) : Steps A b c f t y [] t y
  | cons {t y h k hs t' y'} (hk : Stages A c f h t y k)
      (hr : Steps A b c f (t + h) (y + h • ∑ i, b i • k i) hs t' y') :
      Steps A b c f t y (h :: hs) t' y'

theorem Steps.time {t t' : ℝ} {y y' : E} {hs : List ℝ} (h : Steps A b c f t y hs t' y') :
    t' = t + hs.sum := by
  induction h with
  | nil => simp
  | cons _ _ ih => rw [ih, List.sum_cons]; ring

/-- Error propagation. -/
theorem steps_error [CompleteSpace E] {p : ℕ} {y : ℝ → E} {t0 t1 H C δ : ℝ} (hL : 0 ≤ L)
    (hf : ∀ t u v, ‖f t u - f t v‖ ≤ L * ‖u - v‖) (hC : 0 ≤ C)
    (hloc : ∀ (t h : ℝ) (k : Fin s → E), t0 ≤ t → 0 ≤ h → t + h ≤ t1 →
      h < δ → Stages A c f h t (y t) k →
      ‖y t + h • ∑ i, b i • k i - y (t + h)‖ ≤ C * h ^ (p + 1))
    (hHδ : H < δ) (hH : H * (L * total A) ≤ 1 / 2) {t t' : ℝ} {u u' : E} {hs : List ℝ}
    (hst : Steps A b c f t u hs t' u') (ht : t0 ≤ t) (ht' : t' ≤ t1)
    (hhs : ∀ h ∈ hs, 0 ≤ h ∧ h ≤ H) :
    ‖u' - y t'‖ ≤ Real.exp ((2 * L * ∑ i, |b i|) * hs.sum)
      * (‖u - y t‖ + C * H ^ p * hs.sum) := by
  induction hst with
  | nil t u => simp
  | @cons t u h k hs t' u' hk hr ih =>
    obtain ⟨h0, hle⟩ := hhs h (by simp)
    have hhs' : ∀ h ∈ hs, 0 ≤ h ∧ h ≤ H := fun h hh => hhs h (by simp [hh])
    have hsum : 0 ≤ hs.sum := List.sum_nonneg fun h hh => (hhs' h hh).1
    have hsmall : h * (L * total A) ≤ 1 / 2 := by
      refine le_trans ?_ hH
      exact mul_le_mul_of_nonneg_right hle (mul_nonneg hL (total_nonneg A))
    have htt := hr.time
    obtain ⟨k', hk'⟩ := exists_stages (A := A) (c := c) (t := t) hL hf h0 hsmall (y t)
    have e1 := step_lipschitz (b := b) hL hf h0 hsmall hk hk'
    have e2 := hloc t h k' ht h0 (by linarith) (hle.trans_lt hHδ) hk'
    have ih := ih (by linarith) ht' hhs'
    set Λ := 2 * L * ∑ i, |b i| with hΛ
    have hΛ0 : 0 ≤ Λ := by
      have : 0 ≤ ∑ i, |b i| := Finset.sum_nonneg fun _ _ => abs_nonneg _
      positivity
    have e3 : ‖u + h • ∑ i, b i • k i - y (t + h)‖ ≤ (1 + h * Λ) * ‖u - y t‖ + C * h ^ (p + 1) := by
      have := norm_sub_le_norm_sub_add_norm_sub (u + h • ∑ i, b i • k i)
        (y t + h • ∑ i, b i • k' i) (y (t + h))
      linarith
    have e4 : C * h ^ (p + 1) ≤ C * H ^ p * h := by
      rw [pow_succ, ← mul_assoc]
      gcongr
    have e5 : 1 + h * Λ ≤ Real.exp (Λ * h) := by
      have := Real.add_one_le_exp (Λ * h)
      linarith
    have hH0 : 0 ≤ H := h0.trans hle
    have e6 : 1 ≤ Real.exp (Λ * h) := Real.one_le_exp (by positivity)
    rw [List.sum_cons, mul_add Λ, Real.exp_add]
    calc ‖u' - y t'‖ ≤ Real.exp (Λ * hs.sum)
          * (‖u + h • ∑ i, b i • k i - y (t + h)‖ + C * H ^ p * hs.sum) := ih
      _ ≤ Real.exp (Λ * hs.sum) * ((Real.exp (Λ * h) * ‖u - y t‖
            + Real.exp (Λ * h) * (C * H ^ p * h)) + Real.exp (Λ * h) * (C * H ^ p * hs.sum)) := by
          have q0 : 0 ≤ C * H ^ p * h := by positivity
          have q1 : 0 ≤ C * H ^ p * hs.sum := by positivity
          have q2 : (1 + h * Λ) * ‖u - y t‖ ≤ Real.exp (Λ * h) * ‖u - y t‖ := by gcongr
          have q3 : C * H ^ p * h ≤ Real.exp (Λ * h) * (C * H ^ p * h) :=
            le_mul_of_one_le_left q0 e6
          have q4 : C * H ^ p * hs.sum ≤ Real.exp (Λ * h) * (C * H ^ p * hs.sum) :=
            le_mul_of_one_le_left q1 e6
          gcongr
          linarith
      _ = _ := by ring

/-- Convergence of order `p`: there are a constant and a bound of the step sizes, depending on
method, problem and interval only, such that the error after any sequence of steps of size at
most `H` within the interval is at most `C (initial error + H^p)`. -/
theorem convergence [ProperSpace E] {p : ℕ} {y : ℝ → E} {t0 t1 : ℝ}
    (hfs : ContDiff ℝ p (fun q : ℝ × E => f q.1 q.2)) (hL : 0 ≤ L)
    (hf : ∀ t u v, ‖f t u - f t v‖ ≤ L * ‖u - v‖) (hc : ∀ i, ∑ j, A i j = c i)
    (ho : OrderConditions A b p)
    (hy : ∀ t ∈ Set.Icc t0 t1, HasDerivWithinAt y (f t (y t)) (Set.Icc t0 t1) t) :
    ∃ C δ : ℝ, 0 < C ∧ 0 < δ ∧ ∀ (H t' : ℝ) (u u' : E) (hs : List ℝ), H < δ →
      (∀ h ∈ hs, 0 ≤ h ∧ h ≤ H) → Steps A b c f t0 u hs t' u' → t' ≤ t1 → 0 ≤ H →
      ‖u' - y t'‖ ≤ C * (‖u - y t0‖ + H ^ p) := by
  obtain ⟨C, δ, hC, hδ, hE⟩ := local_error hfs hL hf hc ho hy
  have hLA : 0 ≤ L * total A := mul_nonneg hL (total_nonneg A)
  have hb0 : 0 ≤ ∑ i, |b i| := Finset.sum_nonneg fun _ _ => abs_nonneg _
  set Λ := 2 * L * ∑ i, |b i| with hΛ
  have hΛ0 : 0 ≤ Λ := by positivity
  set τ := max (t1 - t0) 0 with hτ
  have hτ0 : 0 ≤ τ := le_max_right _ _
  refine ⟨Real.exp (Λ * τ) * (1 + C * τ), min δ (1 / (2 * (L * total A) + 1)), by positivity,
    lt_min hδ (by positivity), fun H t' u u' hs hH hhs hst ht' hH0 => ?_⟩
  have hsmall : H * (L * total A) ≤ 1 / 2 := by
    have h5 := (hH.trans_le (min_le_right _ _)).le
    rw [le_div_iff₀ (by positivity)] at h5
    nlinarith
  have hsum : 0 ≤ hs.sum := List.sum_nonneg fun h hh => (hhs h hh).1
  have htime := hst.time
  have hsτ : hs.sum ≤ τ := le_trans (by linarith) (le_max_left _ _)
  refine (steps_error hL hf hC hE (hH.trans_le (min_le_left _ _)) hsmall hst le_rfl ht'
    hhs).trans ?_
  have h1 : C * H ^ p * hs.sum ≤ C * τ * H ^ p := by
    calc C * H ^ p * hs.sum ≤ C * H ^ p * τ := by gcongr
      _ = _ := by ring
  have h2 : ‖u - y t0‖ + C * H ^ p * hs.sum ≤ (1 + C * τ) * (‖u - y t0‖ + H ^ p) := by
    nlinarith [norm_nonneg (u - y t0), pow_nonneg hH0 p, mul_nonneg hC hτ0,
      mul_nonneg (mul_nonneg hC hτ0) (norm_nonneg (u - y t0))]
  have h3 : Real.exp (Λ * hs.sum) ≤ Real.exp (Λ * τ) :=
    Real.exp_le_exp.mpr (mul_le_mul_of_nonneg_left hsτ hΛ0)
  have h4 : 0 ≤ ‖u - y t0‖ + C * H ^ p * hs.sum := by positivity
  calc _ ≤ Real.exp (Λ * τ) * ((1 + C * τ) * (‖u - y t0‖ + H ^ p)) :=
        mul_le_mul h3 h2 h4 (Real.exp_nonneg _)
    _ = _ := by ring

end Verif.Conv
