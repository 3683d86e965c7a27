/-
Runs in floating point as sequences of perturbed Runge-Kutta steps. The property theorems are in
`Verif.Props.Values`.
-/
import Verif.Float.Near
import Verif.Props.Inexact

namespace Verif.Fl

open Verif.RK Verif.RK.Spec Verif.Control Verif.XReal Verif.Integrator Verif.Props
open Classical

variable {s n m o l : ℕ} {fl : ℝ → ℝ} {u : ℝ} {dot : List (ℝ × ℝ) → ℝ}

/-! ### Rounding errors of one step -/

theorem Rounds.abs_le (hf : Rounds fl u) (x : ℝ) : |fl x| ≤ 2 * |x| := by
  have h1 := hf.err x
  have h2 := abs_add_le (fl x - x) x
  rw [sub_add_cancel] at h2
  have h3 := mul_le_mul_of_nonneg_right hf.lt_one.le (abs_nonneg x)
  linarith

theorem dot_error (hf : Rounds fl u) (hd : IsDot fl dot) {ι : Type} (L : List ι) (hL : L.length ≤ s)
    (a b : ι → ℝ) : |dot (L.map fun j => (a j, b j)) - (L.map fun j => a j * b j).sum| ≤
      u * 2 ^ (s + 1) * (L.map fun j => |a j * b j|).sum := by
  have h := hd.error hf (L.map fun j => (a j, b j))
  simp only [List.map_map, Function.comp_def, List.length_map] at h
  refine h.trans (mul_le_mul_of_nonneg_right ?_ (List.sum_nonneg fun x hx => ?_))
  · refine (pow_sub_one_le hf _).trans (mul_le_mul_of_nonneg_left ?_ hf.nonneg)
    exact pow_le_pow_right₀ (by norm_num) (by omega)
  · obtain ⟨y, -, rfl⟩ := List.mem_map.mp hx
    exact abs_nonneg _

/-- The error of the accumulated stages. -/
theorem accumulateStagesFl_error (hf : Rounds fl u) (hd : IsDot fl dot) (T : Coeffs ℝ s) (i : Fin s)
    (k : Fin s → Fin n → ℝ) {M : ℝ} (hM : 0 ≤ M) (hk : ∀ j, j < i → ‖k j‖ ≤ M) :
    ‖accumulateStagesFl dot T i k - accumulateStages T i k‖
      ≤ u * (2 ^ (s + 1) * (Conv.total T.A * M)) := by
  have h0 := hf.nonneg
  have ht := Conv.total_nonneg T.A
  refine (pi_norm_le_iff_of_nonneg (by positivity)).mpr fun x => ?_
  rw [Pi.sub_apply, Real.norm_eq_abs]
  unfold accumulateStagesFl accumulateStages
  split_ifs with hi
  · simp only [Pi.zero_apply, sub_self, abs_zero]
    positivity
  · have h1 := dot_error hf hd ((List.finRange s).filter fun j => j < i)
      (by simpa using List.length_filter_le (fun j => decide (j < i)) (List.finRange s))
      (fun j => k j x) (fun j => T.A i j)
    rw [sum_filter, sum_filter] at h1
    refine h1.trans ?_
    rw [mul_assoc]
    refine mul_le_mul_of_nonneg_left (mul_le_mul_of_nonneg_left ?_ (by positivity)) h0
    calc ∑ j ∈ Finset.univ.filter (fun j : Fin s => j < i), |k j x * T.A i j|
        ≤ ∑ j ∈ Finset.univ.filter (fun j : Fin s => j < i), |T.A i j| * M := by
          refine Finset.sum_le_sum fun j hj => ?_
          rw [abs_mul, mul_comm]
          exact mul_le_mul_of_nonneg_left
            ((norm_le_pi_norm (k j) x).trans (hk j (Finset.mem_filter.mp hj).2)) (abs_nonneg _)
      _ = (∑ j ∈ Finset.univ.filter (fun j : Fin s => j < i), |T.A i j|) * M := by
          rw [Finset.sum_mul]
      _ ≤ Conv.total T.A * M := mul_le_mul_of_nonneg_right (sum_row_le _ _ _) hM

/-- The error of the final accumulation. -/
theorem accumulateStepFl_error (hf : Rounds fl u) (hd : IsDot fl dot) (w : Fin s → ℝ)
    (y : Fin n → ℝ) (k : Fin s → Fin n → ℝ) {h R M : ℝ} (h0 : 0 ≤ h) (h1 : h ≤ 1) (hR : 0 ≤ R)
    (hM : 0 ≤ M) (hy : ‖y‖ ≤ R) (hk : ‖k‖ ≤ M) :
    ‖accumulateStepFl fl dot w y k h - (y + h • ∑ i, w i • k i)‖
      ≤ u * (R + 2 ^ (s + 4) * ((∑ i, |w i|) * M)) := by
  have hu := hf.nonneg
  have hu1 := hf.lt_one
  have hw : 0 ≤ ∑ i, |w i| := Finset.sum_nonneg fun _ _ => abs_nonneg _
  have h2 : (1 : ℝ) ≤ 2 ^ s := one_le_pow₀ (by norm_num)
  refine (pi_norm_le_iff_of_nonneg (by positivity)).mpr fun x => ?_
  have hkx : ∀ i, |k i x| ≤ M := fun i =>
    ((norm_le_pi_norm (k i) x).trans (norm_le_pi_norm k i)).trans hk
  have hyx : |y x| ≤ R := (norm_le_pi_norm y x).trans hy
  have hhw : ∀ i, |h * w i| ≤ |w i| := fun i => by
    rw [abs_mul, abs_of_nonneg h0]
    exact mul_le_of_le_one_left (abs_nonneg _) h1
  set W := ∑ i, |w i| with hW
  set d := dot ((List.finRange s).map fun i => (k i x, fl (h * w i))) with hdef
  have e1 : |d - ∑ i, k i x * fl (h * w i)| ≤ u * 2 ^ (s + 1) * (2 * (W * M)) := by
    have := dot_error (s := s) hf hd (List.finRange s) (by simp) (fun i => k i x) (fun i => fl (h * w i))
    rw [← Fin.sum_univ_def, ← Fin.sum_univ_def] at this
    refine this.trans (mul_le_mul_of_nonneg_left ?_ (by positivity))
    rw [hW, Finset.sum_mul, Finset.mul_sum]
    refine Finset.sum_le_sum fun i _ => ?_
    rw [abs_mul]
    have := mul_le_mul (hkx i) ((hf.abs_le (h * w i)).trans
      (mul_le_mul_of_nonneg_left (hhw i) (by norm_num))) (abs_nonneg _) hM
    linarith
  have e2 : |∑ i, k i x * fl (h * w i) - h * ∑ i, w i * k i x| ≤ u * (W * M) := by
    have : ∑ i, k i x * fl (h * w i) - h * ∑ i, w i * k i x
        = ∑ i, k i x * (fl (h * w i) - h * w i) := by
      rw [Finset.mul_sum, ← Finset.sum_sub_distrib]
      exact Finset.sum_congr rfl fun i _ => by ring
    rw [this]
    refine (Finset.abs_sum_le_sum_abs _ _).trans ?_
    rw [hW, Finset.sum_mul, Finset.mul_sum]
    refine Finset.sum_le_sum fun i _ => ?_
    rw [abs_mul]
    have := mul_le_mul (hkx i) ((hf.err (h * w i)).trans
      (mul_le_mul_of_nonneg_left (hhw i) hu)) (abs_nonneg _) hM
    linarith
  have e3 : |h * ∑ i, w i * k i x| ≤ W * M := by
    rw [abs_mul, abs_of_nonneg h0]
    refine (mul_le_of_le_one_left (abs_nonneg _) h1).trans ?_
    refine (Finset.abs_sum_le_sum_abs _ _).trans ?_
    rw [hW, Finset.sum_mul]
    refine Finset.sum_le_sum fun i _ => ?_
    rw [abs_mul]
    exact mul_le_mul_of_nonneg_left (hkx i) (abs_nonneg _)
  have hWM : 0 ≤ W * M := mul_nonneg hw hM
  have e4 : |d - h * ∑ i, w i * k i x| ≤ u * ((2 ^ (s + 2) + 1) * (W * M)) := by
    have : d - h * ∑ i, w i * k i x = (d - ∑ i, k i x * fl (h * w i))
        + (∑ i, k i x * fl (h * w i) - h * ∑ i, w i * k i x) := by ring
    rw [this]
    refine (abs_add_le _ _).trans ?_
    calc _ ≤ u * 2 ^ (s + 1) * (2 * (W * M)) + u * (W * M) := add_le_add e1 e2
      _ = _ := by rw [pow_succ, pow_succ]; ring
  have e5 : |y x + d| ≤ R + (2 ^ (s + 2) + 2) * (W * M) := by
    have : y x + d = y x + ((d - h * ∑ i, w i * k i x) + h * ∑ i, w i * k i x) := by ring
    rw [this]
    refine (abs_add_le _ _).trans (add_le_add hyx ((abs_add_le _ _).trans ?_))
    have : u * ((2 ^ (s + 2) + 1) * (W * M)) ≤ 1 * ((2 ^ (s + 2) + 1) * (W * M)) :=
      mul_le_mul_of_nonneg_right hu1.le (by positivity)
    linarith
  have e6 := (hf.err (y x + d)).trans (mul_le_mul_of_nonneg_left e5 hu)
  have e7 : accumulateStepFl fl dot w y k h x - (y + h • ∑ i, w i • k i) x
      = (fl (y x + d) - (y x + d)) + (d - h * ∑ i, w i * k i x) := by
    simp only [accumulateStepFl, Pi.add_apply, Pi.smul_apply, Finset.sum_apply, smul_eq_mul]
    ring
  rw [Pi.sub_apply, e7]
  refine (abs_add_le _ _).trans ((add_le_add e6 e4).trans ?_)
  rw [← mul_add]
  refine mul_le_mul_of_nonneg_left ?_ hu
  have : (2 : ℝ) ^ (s + 4) = 4 * 2 ^ (s + 2) := by rw [pow_succ, pow_succ]; ring
  have h4 : (4 : ℝ) ≤ 2 ^ (s + 2) := by rw [pow_add]; linarith
  rw [this]
  nlinarith

/-- Steps in floating point from a bounded set, at a time `t'` near the nominal time `t`: bounded
stages, which satisfy the stage system at the nominal time up to the residual of the stage problems
and a multiple of deviation and roundoff, and a result perturbed by a multiple of the roundoff. The
constants do not depend on the arithmetic, which must be accurate for numbers up to `Λ` only. -/
theorem fl_nearby {E : Env s n m o l} {f : Rhs ℝ n m} {p : Fin m → ℝ} {η : ℝ} {q : ℕ} (hq : 1 ≤ q)
    (hf : Smooth f p q) (hT : LowerTriangular E.T.A)
    (hs : ∀ i, SolvesNearby E.ode f p η (E.T.A i i)) {R : ℝ} (hR : 0 ≤ R) :
    ∃ M h1 G Λ : ℝ, 0 < h1 ∧ 0 ≤ G ∧ ∀ (fl : ℝ → ℝ) (u : ℝ) (dot : List (ℝ × ℝ) → ℝ), RoundsTo fl u Λ →
      IsDot fl dot → ∀ (h t t' τ : ℝ) (y : Fin n → ℝ) (r : RKState ℝ s n m o l),
      FlResult fl dot E.T E.ode h t' y p r → 0 ≤ h → h ≤ h1 → |t| ≤ R → |t' - t| ≤ τ → τ ≤ 1 →
      ‖y‖ ≤ R →
      Conv.InexactStages (η + G * (τ + u)) E.T.A E.T.c (fun t y => f t y p) h t y r.stageUpdates ∧
        ‖r.stageUpdates‖ ≤ M ∧
        ‖r.finalState - (y + h • ∑ i, E.T.b i • r.stageUpdates i)‖ ≤ G * u := by
  have key : ∀ q : ℕ, ∃ M h1 G Λ : ℝ, 0 ≤ M ∧ 0 < h1 ∧ h1 ≤ 1 ∧ 0 ≤ G ∧
      ∀ (fl : ℝ → ℝ) (u : ℝ) (dot : List (ℝ × ℝ) → ℝ), RoundsTo fl u Λ →
      IsDot fl dot → ∀ (h t t' τ : ℝ) (y : Fin n → ℝ) (r : RKState ℝ s n m o l),
      FlResult fl dot E.T E.ode h t' y p r → 0 ≤ h → h ≤ h1 → |t| ≤ R → |t' - t| ≤ τ → τ ≤ 1 →
      ‖y‖ ≤ R → ∀ i : Fin s, i.val < q → ‖r.stageUpdates i‖ ≤ M ∧
        ‖r.stageUpdates i - f (t + E.T.c i * h) (y + h • ∑ j, E.T.A i j • r.stageUpdates j) p‖
          ≤ η + G * (τ + u) := by
    intro q'
    induction q' with
    | zero =>
      exact ⟨0, 1, 0, 0, le_rfl, one_pos, le_rfl, le_rfl,
        fun _ _ _ _ _ _ _ _ _ _ _ _ _ _ _ _ _ _ i hi => absurd hi (by omega)⟩
    | succ q' ih =>
      obtain ⟨M, h1, G, Λ, hM, hh1, hh11, hG, H⟩ := ih
      by_cases hq' : q' < s
      · set i₀ : Fin s := ⟨q', hq'⟩ with hi₀
        have ht0 := Conv.total_nonneg E.T.A
        set TA := Conv.total E.T.A * M with hTA
        have hTA0 : 0 ≤ TA := by positivity
        set Acc := dotBound s TA with hAcc
        have hAcc0 : 0 ≤ Acc := dotBound_nonneg hTA0
        set Tm := R + 1 + 3 * |E.T.c i₀| + 3 with hTm
        have hTm0 : 0 ≤ Tm := by positivity
        obtain ⟨M', h1', hh1', H'⟩ := hs i₀ (R + 1 + |E.T.c i₀| + Tm + TA + Acc)
        set B := R + 1 + |E.T.c i₀| + Tm + TA + Acc + |E.T.A i₀ i₀| * max M' 0 + 1 with hB
        have hM'0 : 0 ≤ max M' 0 := le_max_right _ _
        have hB0 : 0 < B := by positivity
        obtain ⟨L, hL, hLip⟩ := Conv.lipschitz_on_ball (f := fun t y => f t y p) hq hf hB0
        refine ⟨max M M', min h1 h1', G + L * (1 + Tm + Acc), max Λ (Tm + Acc),
          hM.trans (le_max_left _ _),
          lt_min hh1 hh1', (min_le_left _ _).trans hh11, by positivity, ?_⟩
        intro fl u dot hfl' hdot h t t' τ y r hr h0 hle ht htt hτ hy i hi
        have hfl := hfl'.mono (le_max_left _ _)
        have hTmΛ : Tm ≤ max Λ (Tm + Acc) := le_max_of_le_right (by linarith)
        have hAccΛ : Acc ≤ max Λ (Tm + Acc) := le_max_of_le_right (by linarith)
        have hu := hfl.nonneg
        have hu1 := hfl.lt_one
        have hle2 : h ≤ h1 := hle.trans (min_le_left _ _)
        have hle3 : h ≤ h1' := hle.trans (min_le_right _ _)
        have hle1 : h ≤ 1 := hle2.trans hh11
        have hτ0 : 0 ≤ τ := (abs_nonneg _).trans htt
        have Hi := H fl u dot hfl hdot h t t' τ y r hr h0 hle2 ht htt hτ hy
        by_cases hiq : i.val < q'
        · refine ⟨(Hi i hiq).1.trans (le_max_left _ _), (Hi i hiq).2.trans ?_⟩
          have : 0 ≤ L * (1 + Tm + Acc) * (τ + u) := by positivity
          rw [add_mul]
          linarith
        · have hi0 : i₀ = i := Fin.ext (by change q' = i.val; omega)
          rw [hi0] at H' hTm hB
          have hprev : ∀ j, j < i → ‖r.stageUpdates j‖ ≤ M := fun j hj => (Hi j (by
            have : j.val < i.val := hj
            omega)).1
          have hacc : ‖accumulateStages E.T i r.stageUpdates‖ ≤ TA :=
            norm_accumulateStages E.T i _ hM hprev
          have herr : ‖accumulateStagesFl dot E.T i r.stageUpdates
              - accumulateStages E.T i r.stageUpdates‖ ≤ u * Acc :=
            accumulateStagesFl_near hfl' hdot E.T i _ hM hprev hAccΛ
          have huAcc : u * Acc ≤ Acc := mul_le_of_le_one_left hAcc0 hu1.le
          have hacc' : ‖accumulateStagesFl dot E.T i r.stageUpdates‖ ≤ TA + Acc := by
            have := norm_le_norm_add_norm_sub' (accumulateStagesFl dot E.T i r.stageUpdates)
              (accumulateStages E.T i r.stageUpdates)
            linarith
          have ht' : |t'| ≤ R + 1 := by
            have := abs_add_le (t' - t) t
            rw [sub_add_cancel] at this
            linarith
          set ti := fl (t' + fl (h * E.T.c i)) with hti
          have hterr : |ti - (t' + h * E.T.c i)| ≤ u * Tm := by
            have h3 := stageTime_near hfl' (c := E.T.c i) h0 hle1 ht' (hTm ▸ hTmΛ)
            rwa [← hTm] at h3
          have huTm : u * Tm ≤ Tm := mul_le_of_le_one_left hTm0 hu1.le
          have hhc : |h * E.T.c i| ≤ |E.T.c i| := by
            rw [abs_mul, abs_of_nonneg h0]
            exact mul_le_of_le_one_left (abs_nonneg _) hle1
          have hti1 : |ti| ≤ R + 1 + |E.T.c i| + Tm := by
            have e1 := abs_add_le (ti - (t' + h * E.T.c i)) (t' + h * E.T.c i)
            have e2 := abs_add_le t' (h * E.T.c i)
            rw [sub_add_cancel] at e1
            linarith
          have hc0 := abs_nonneg (E.T.c i)
          have hin := H' h (stageInFl fl dot E.T h t' y p r.stageUpdates i) h0 hle3 rfl
            (by change ‖y‖ ≤ _; linarith) (by change ‖accumulateStagesFl _ _ _ _‖ ≤ _; linarith)
            (by change |ti| ≤ _; linarith)
          rw [← hr.update i] at hin
          obtain ⟨hk, hres⟩ := hin
          refine ⟨hk.trans (le_max_right _ _), ?_⟩
          have h2 := stageInput_eq E.T.A E.T.b E.T.c hT h y r.stageUpdates i
          set k := r.stageUpdates with hkdef
          set z : Fin n → ℝ := fun x => (stageInFl fl dot E.T h t' y p k i).stepInput x
            + h * (stageInFl fl dot E.T h t' y p k i).stageInput x + h * E.T.A i i * k i x with hz
          have hz1 : z = y + h • accumulateStagesFl dot E.T i k + (h * E.T.A i i) • k i := by
            funext x
            simp [hz, stageInFl]
          have hz2 : y + h • ∑ j, E.T.A i j • k j
              = y + h • accumulateStages E.T i k + (h * E.T.A i i) • k i := by
            funext x
            have := congrFun h2 x
            simp only [Pi.add_apply, Pi.smul_apply, Finset.sum_apply, smul_eq_mul] at this ⊢
            rw [← this]
          have hzz : ‖z - (y + h • ∑ j, E.T.A i j • k j)‖ ≤ u * Acc := by
            rw [hz1, hz2]
            have : y + h • accumulateStagesFl dot E.T i k + (h * E.T.A i i) • k i
                - (y + h • accumulateStages E.T i k + (h * E.T.A i i) • k i)
                = h • (accumulateStagesFl dot E.T i k - accumulateStages E.T i k) := by
              rw [smul_sub]
              abel
            rw [this, norm_smul, Real.norm_of_nonneg h0]
            exact (mul_le_of_le_one_left (norm_nonneg _) hle1).trans herr
          have hki : ‖(h * E.T.A i i) • k i‖ ≤ |E.T.A i i| * max M' 0 := by
            rw [norm_smul, norm_mul, Real.norm_of_nonneg h0, Real.norm_eq_abs]
            refine mul_le_mul (mul_le_of_le_one_left (abs_nonneg _) hle1)
              (hk.trans (le_max_left _ _)) (norm_nonneg _) (abs_nonneg _)
          have hha : ∀ v : Fin n → ℝ, ‖h • v‖ ≤ ‖v‖ := fun v => by
            rw [norm_smul, Real.norm_of_nonneg h0]
            exact mul_le_of_le_one_left (norm_nonneg _) hle1
          have hzB : ‖z‖ ≤ B := by
            rw [hz1]
            have e1 := norm_add_le (y + h • accumulateStagesFl dot E.T i k) ((h * E.T.A i i) • k i)
            have e2 := norm_add_le y (h • accumulateStagesFl dot E.T i k)
            have e3 := hha (accumulateStagesFl dot E.T i k)
            rw [hB]
            linarith
          have hyB : ‖y + h • ∑ j, E.T.A i j • k j‖ ≤ B := by
            rw [hz2]
            have e1 := norm_add_le (y + h • accumulateStages E.T i k) ((h * E.T.A i i) • k i)
            have e2 := norm_add_le y (h • accumulateStages E.T i k)
            have e3 := hha (accumulateStages E.T i k)
            rw [hB]
            linarith
          have hAM : 0 ≤ |E.T.A i i| * max M' 0 := by positivity
          have htB : |t + E.T.c i * h| ≤ B := by
            have := abs_add_le t (E.T.c i * h)
            rw [mul_comm (E.T.c i)] at this ⊢
            rw [hB]
            linarith
          have hdist : |ti - (t + E.T.c i * h)| ≤ τ + u * Tm := by
            have : ti - (t + E.T.c i * h) = (ti - (t' + h * E.T.c i)) + (t' - t) := by ring
            rw [this]
            exact (abs_add_le _ _).trans (by linarith)
          have hl := hLip ti (t + E.T.c i * h) z (y + h • ∑ j, E.T.A i j • k j)
            (by rw [hB]; linarith) htB hzB hyB
          have hl2 : L * (|ti - (t + E.T.c i * h)| + ‖z - (y + h • ∑ j, E.T.A i j • k j)‖)
              ≤ L * (1 + Tm + Acc) * (τ + u) := by
            rw [mul_assoc]
            refine mul_le_mul_of_nonneg_left ?_ hL
            have g1 : 0 ≤ Tm * τ := by positivity
            have g2 : 0 ≤ Acc * τ := by positivity
            linarith
          have hGu : 0 ≤ G * (τ + u) := by positivity
          have htri := norm_sub_le_norm_sub_add_norm_sub (k i) (f ti z p)
            (f (t + E.T.c i * h) (y + h • ∑ j, E.T.A i j • k j) p)
          have hres' : ‖k i - f ti z p‖ ≤ η := hres
          rw [add_mul]
          linarith
      · refine ⟨M, h1, G, Λ, hM, hh1, hh11, hG, ?_⟩
        intro fl u dot hfl hdot h t t' τ y r hr h0 hle ht htt hτ hy i hi
        exact H fl u dot hfl hdot h t t' τ y r hr h0 hle ht htt hτ hy i (by omega)
  obtain ⟨M, h1, G, Λ, hM, hh1, hh11, hG, H⟩ := key s
  have hb : 0 ≤ ∑ i, |E.T.b i| := Finset.sum_nonneg fun _ _ => abs_nonneg _
  set S := stepBound s (∑ i, |E.T.b i|) R M with hS
  have hS0 : 0 ≤ S := stepBound_nonneg hb hR hM
  refine ⟨M, h1, G + S, max Λ S, hh1, by positivity, ?_⟩
  intro fl u dot hfl' hdot h t t' τ y r hr h0 hle ht htt hτ hy
  have hfl := hfl'.mono (le_max_left _ _)
  have hu := hfl.nonneg
  have hτ0 : 0 ≤ τ := (abs_nonneg _).trans htt
  have Hi := H fl u dot hfl hdot h t t' τ y r hr h0 hle ht htt hτ hy
  have hk : ‖r.stageUpdates‖ ≤ M := (pi_norm_le_iff_of_nonneg hM).mpr fun i => (Hi i i.2).1
  refine ⟨fun i => (Hi i i.2).2.trans ?_, hk, ?_⟩
  · rw [add_mul]
    have : 0 ≤ S * (τ + u) := by positivity
    linarith
  · rw [hr.finalState]
    refine (accumulateStepFl_near hfl' hdot E.T.b y _ h0 (hle.trans hh11) hR hM hy hk
      (le_max_right _ _)).trans ?_
    rw [mul_comm, add_mul]
    have : 0 ≤ G * u := by positivity
    linarith

/-! ### Runs -/

section
variable {D : Type} {B : Backend D (StartingValues ℝ n m) (Outputs n)} {E : Env s n m o l}
  {opt : Options}

/-- The part of a state that later steps use. -/
def FlCore.public (C : FlCore fl dot B E) (d : D) : ℝ × (Fin n → ℝ) × (Fin m → ℝ) :=
  ((C.core d).finalTime, (C.core d).finalState, (C.core d).independentInputs)

theorem FlCore.public_set (C : FlCore fl dot B E) (a b : D) :
    C.public (B.set a b) = C.public b := by
  simp [FlCore.public, C.set_core, RKState.set]

theorem FlCore.public_start (C : FlCore fl dot B E) (d : D) (i : StartingValues ℝ n m) :
    C.public (B.clearLin (B.load d i)) = (i.initialTime, i.initialValues, i.independentInputs) := by
  simp [FlCore.public, C.clear_core, C.load_core, rkLoad]

/-- The result of `compute` without or with full checkpointing is that of a chain of steps. -/
theorem fl_choice_chain (C : FlCore fl dot B E) {fuel : ℕ} {ch : Choice}
    {w w' : World D (ch.Data D)} {i : StartingValues ℝ n m} {v : Outputs n}
    (h : compute B opt (ch.ck B opt) fuel w i = (w', .ok v)) :
    ∃ hs : List XReal,
      Chain B C.public (i.initialTime, i.initialValues, i.independentInputs) hs
        (C.public w'.tis.disc) ∧ v = B.read w'.tis.disc ∧
      (opt.adaptive = false → ∀ h ∈ hs, h = opt.initialStep) ∧
      (∀ N, opt.crit = .steps N → hs.length = N) ∧
      ∃ tr, Run B opt 0 w.ctrl (startOf B opt w.ctrl w.tis.disc i) tr ∧
        hs = tr.map fun q => q.2.stepHist.1 := by
  obtain ⟨tr, htr, -, -, ht, -, hv, -⟩ := compute_run h
  obtain ⟨p, hp, h2, h3, h4, -⟩ := htr.path
  have h1 := Chain.path C.public_set hp (Chain.nil (B := B) (pub := C.public) _)
  rw [← ht, List.nil_append] at h1
  simp only [startOf, C.public_start] at h1
  refine ⟨p.map Prod.fst, h1, hv, fun ha b hb => ?_, fun N hN => ?_, tr, htr, h3⟩
  · obtain ⟨q, hq, rfl⟩ := List.mem_map.mp hb
    exact h4 ha q hq
  · have := htr.length_steps hN (Nat.zero_le _)
    rw [List.length_map, h2]
    omega

/-- A step in floating point at a time within `τ` of the nominal one. -/
def FlStepOf (fl : ℝ → ℝ) (dot : List (ℝ × ℝ) → ℝ) (E : Env s n m o l) (p : Fin m → ℝ) (τ : ℝ)
    (h t : ℝ) (y y₁ : Fin n → ℝ) : Prop :=
  ∃ (t' : ℝ) (r : RKState ℝ s n m o l), |t' - t| ≤ τ ∧ FlResult fl dot E.T E.ode h t' y p r ∧
    y₁ = r.finalState

/-- A chain of steps in floating point: the time deviates from the exact one by a rounding error per
step. -/
theorem fl_chain_steps (C : FlCore fl dot B E) {Λ : ℝ} (hf : RoundsTo fl u Λ)
    {p q : ℝ × (Fin n → ℝ) × (Fin m → ℝ)} {hs : List XReal} (h : Chain B C.public p hs q) {X τ : ℝ}
    (hτ : τ ≤ 1) (h0 : |p.1| ≤ X) (hΛ : X + 1 ≤ Λ) (hr : List ℝ) (he : hs = hr.map fin)
    (hp : ∀ h ∈ hr, 0 ≤ h)
    (h1 : |p.1 + hr.sum| ≤ X) (hN : hr.length * (u * (X + 2)) ≤ τ) :
    q.2.2 = p.2.2 ∧ |q.1 - (p.1 + hr.sum)| ≤ hr.length * (u * (X + 2)) ∧
      IsSteps (fun h t y y₁ => 1 ≤ hr.length ∧ FlStepOf fl dot E p.2.2 τ h t y y₁)
        p.1 p.2.1 hr (p.1 + hr.sum) q.2.1 := by
  have hX : 0 ≤ X := (abs_nonneg _).trans h0
  have hu0 : 0 ≤ u * (X + 2) := mul_nonneg hf.nonneg (by linarith)
  induction h generalizing hr with
  | nil =>
    have : hr = [] := by simpa using he.symm
    subst this
    simp only [List.sum_nil, add_zero, sub_self, abs_zero, List.length_nil, Nat.cast_zero, zero_mul,
      true_and]
    exact ⟨le_rfl, .nil _ _⟩
  | @snoc hs d h e hc hst ih =>
    rcases List.eq_nil_or_concat' hr with rfl | ⟨hr, r, rfl⟩
    · simp at he
    · simp only [List.map_append, List.map_cons, List.map_nil] at he
      obtain ⟨e1, e2⟩ := List.append_inj' he rfl
      simp only [List.cons.injEq, and_true] at e2
      rw [e2] at hst
      have hr0 : 0 ≤ r := hp r (by simp)
      have hp' : ∀ h ∈ hr, 0 ≤ h := fun h hh => hp h (by simp [hh])
      have hsum := List.sum_nonneg hp'
      simp only [List.sum_append, List.sum_singleton, List.length_append, List.length_singleton,
        Nat.cast_add, Nat.cast_one] at h1 hN ⊢
      have h1' : |p.1 + hr.sum| ≤ X := by
        rw [abs_le] at h0 h1 ⊢
        constructor <;> linarith [h0.1, h1.2]
      have hN' : hr.length * (u * (X + 2)) ≤ τ := by linarith
      obtain ⟨i1, i2, i3⟩ := ih hr e1 hp' h1' hN'
      have hco := C.step_core d r e hst
      have hres := computeStepFl_result (fl := fl) dot E.T E.ode (C.core d) r
      rw [← hco] at hres
      simp only [FlCore.public] at i1 i2 i3 ⊢
      rw [i1] at hres
      have htime := hres.finalTime
      refine ⟨hres.indep, ?_, ?_⟩
      · have g2 : |(C.core d).finalTime + r| ≤ X + 1 := by
          have : (C.core d).finalTime + r
              = ((C.core d).finalTime - (p.1 + hr.sum)) + (p.1 + (hr.sum + r)) := by ring
          rw [this]
          exact (abs_add_le _ _).trans (by linarith)
        have g1 := hf.err ((C.core d).finalTime + r) (g2.trans hΛ)
        have g3 := mul_le_mul_of_nonneg_left (add_le_add_left g2 1) hf.nonneg
        have : (C.core e).finalTime - (p.1 + (hr.sum + r))
            = (fl ((C.core d).finalTime + r) - ((C.core d).finalTime + r))
              + ((C.core d).finalTime - (p.1 + hr.sum)) := by rw [htime]; ring
        rw [this]
        exact (abs_add_le _ _).trans (by linarith)
      · have i3' := i3.mono (S' := fun h t y y₁ => 1 ≤ hr.length + 1 ∧
          FlStepOf fl dot E p.2.2 τ h t y y₁) fun _ _ _ _ _ g => ⟨by omega, g.2⟩
        refine i3'.append (.cons (y₁ := (C.core e).finalState) ⟨by omega, ?_⟩ ?_)
        · exact ⟨(C.core d).finalTime, C.core e, i2.trans hN', hres, rfl⟩
        · rw [add_assoc]
          exact .nil _ _

end

section
variable {f : Rhs ℝ n m} {p : Fin m → ℝ} {q : ℕ} {y : ℝ → Fin n → ℝ} {t0 t1 : ℝ}

/-- The error of chains of steps in floating point. -/
theorem fl_error (hq : 1 ≤ q) (hf : Smooth f p q) (hy : IsSolution f p y t0 t1) (ht : t0 ≤ t1)
    (β : ℝ) :
    ∃ K r : ℝ, 0 < K ∧ 0 < r ∧ ∀ (s o l : ℕ) (E : Env s n m o l) (ε η : ℝ), Accurate E.T β ε q →
      0 ≤ η → (∀ i, SolvesNearby E.ode f p η (E.T.A i i)) →
      ∃ C δ G Λ : ℝ, 0 < C ∧ 0 < δ ∧ 0 < G ∧ ∀ (fl : ℝ → ℝ) (u : ℝ) (dot : List (ℝ × ℝ) → ℝ),
        RoundsTo fl u Λ → IsDot fl dot → ∀ (D : Type) (B : Backend D (StartingValues ℝ n m) (Outputs n))
        (Co : FlCore fl dot B E) (H : ℝ) (y0 : Fin n → ℝ) (hs : List XReal) (hr : List ℝ)
        (e : ℝ × (Fin n → ℝ) × (Fin m → ℝ)), Chain B Co.public (t0, y0, p) hs e → hs = hr.map fin →
        0 ≤ H → H < δ → (∀ h ∈ hr, 0 ≤ h ∧ h ≤ H) → t0 + hr.sum ≤ t1 →
        ‖y0 - y t0‖ + ε + η + G * (u * hr.length) ≤ r →
        |e.1 - (t0 + hr.sum)| ≤ G * (u * hr.length) ∧
          ‖e.2.1 - y (t0 + hr.sum)‖
            ≤ K * (‖y0 - y t0‖ + ε + η + G * (u * hr.length)) + C * H ^ q := by
  obtain ⟨K, r, R, hK, hr, hR, hE⟩ :=
    Conv.convergence_perturbed_nearby (f := fun t y => f t y p) hq hf hy β
  refine ⟨K, r, hK, hr, fun s o l E ε η hA hη hs => ?_⟩
  set X := |t0| + |t1| with hX
  have hX0 : 0 ≤ X := by positivity
  obtain ⟨M, h1, G₁, Λ, hh1, hG₁, hM⟩ := fl_nearby (E := E) hq hf hA.lower hs (R := R + X)
    (by linarith)
  obtain ⟨C, δ, hC, hδ, hE⟩ := hE s E.T.A E.T.b E.T.c ε M hA.nonneg hA.weights hA.rows hA.order
  set G := G₁ * (X + 4) + (X + 2) * (r + 1) with hG
  have hG0 : 0 < G := by positivity
  refine ⟨C, min δ h1, G, max Λ (X + 1), hC, lt_min hδ hh1, hG0, ?_⟩
  intro fl u dot hfl' hdot D B Co H y0 hs' hr' e hch he h0 hH hb ht' hle
  have hfl := hfl'.mono (le_max_left _ _)
  have hu := hfl.nonneg
  set N : ℝ := (hr'.length : ℝ) with hN
  have hN0 : 0 ≤ N := Nat.cast_nonneg _
  have huN : 0 ≤ u * N := mul_nonneg hu hN0
  have hrem : G * (u * N) ≤ r := by
    have := norm_nonneg (y0 - y t0)
    linarith [hA.nonneg]
  have hXG : (X + 2) * (r + 1) ≤ G := by
    have : 0 ≤ G₁ * (X + 4) := by positivity
    linarith
  have hτ : N * (u * (X + 2)) ≤ 1 := by
    by_contra hlt
    rw [not_le] at hlt
    have : (X + 2) * (r + 1) * (u * N) ≤ G * (u * N) := mul_le_mul_of_nonneg_right hXG huN
    nlinarith
  have hp : ∀ h ∈ hr', 0 ≤ h := fun h hh => (hb h hh).1
  have hsum := List.sum_nonneg hp
  have habs : ∀ t, t0 ≤ t → t ≤ t1 → |t| ≤ X := fun t g1 g2 => by
    rw [abs_le]
    constructor <;> linarith [neg_abs_le t0, le_abs_self t1, abs_nonneg t0, abs_nonneg t1]
  obtain ⟨-, g2, g3⟩ := fl_chain_steps Co hfl' hch hτ (X := X) (by simp [hX]) (le_max_right _ _) hr' he hp
    (habs _ (by simpa using hsum) ht') le_rfl
  refine ⟨g2.trans ?_, ?_⟩
  · have : (X + 2) * (u * N) ≤ G * (u * N) := by
      refine mul_le_mul_of_nonneg_right (le_trans ?_ hXG) huN
      exact le_mul_of_one_le_right (by linarith) (by linarith)
    calc _ = (X + 2) * (u * N) := by ring
      _ ≤ _ := this
  · have hbr : ‖y0 - y t0‖ + ε + (η + G₁ * (X + 3) * (u * N)) + G₁ * u * N
        ≤ ‖y0 - y t0‖ + ε + η + G * (u * N) := by
      have : 0 ≤ (X + 2) * (r + 1) * (u * N) := by positivity
      rw [hG, add_mul]
      linarith
    have := hE (fun h t y y₁ => 1 ≤ hr'.length ∧ FlStepOf fl dot E p (N * (u * (X + 2))) h t y y₁)
      H (t0 + hr'.sum) (η + G₁ * (X + 3) * (u * N)) (G₁ * u) y0 e.2.1 hr' h0
      (hH.trans_le (min_le_left _ _)) (by positivity) (by positivity) ?_ hb g3 ht'
      (hbr.trans hle)
    · refine this.trans ?_
      gcongr
    · rintro h t v v₁ k0 k1 k2 k3 k4 ⟨k5, t', rs, k6, k7, rfl⟩
      obtain ⟨a1, a2, a3⟩ := hM fl u dot hfl hdot h t t' _ v rs k7 k0
        (k1.trans (hH.trans_le (min_le_right _ _)).le) ((habs t k2 k3).trans (by linarith)) k6 hτ
        (k4.trans (by linarith))
      refine ⟨_, fun i => (a1 i).trans ?_, a2, a3⟩
      have hN1 : (1 : ℝ) ≤ N := by rw [hN]; exact_mod_cast k5
      have : u ≤ u * N := le_mul_of_one_le_right hu hN1
      have : G₁ * (N * (u * (X + 2)) + u) ≤ G₁ * (X + 3) * (u * N) := by
        rw [mul_assoc]
        refine mul_le_mul_of_nonneg_left ?_ hG₁
        linarith
      linarith

end

end Verif.Fl
