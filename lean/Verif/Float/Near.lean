/-
Rounding errors of one step in an arithmetic with underflow and overflow.

Source: /repo/src/rkopenmdao/time_discretization/stage_ordered_runge_kutta_discretization.py L181-243

As in `Verif.Float.Runs`, but the error of an operation may have an absolute part, as with subnormal
numbers, and nothing is known about operations with results beyond a bound, where they overflow.
-/
import Verif.Float.Values
import Verif.Conv.Perturbed

namespace Verif.Fl

open Verif.RK Verif.Control Verif.XReal Verif.Integrator
open Classical

variable {s n m o l : ℕ} {fl : ℝ → ℝ} {u Λ : ℝ} {dot : List (ℝ × ℝ) → ℝ}

/-- Roundings of numbers up to `Λ`, with an error of at most `u (|x| + 1)`. -/
structure RoundsTo (fl : ℝ → ℝ) (u Λ : ℝ) : Prop where
  nonneg : 0 ≤ u
  lt_one : u < 1
  err : ∀ x, |x| ≤ Λ → |fl x - x| ≤ u * (|x| + 1)

theorem Rounds.roundsTo (h : Rounds fl u) (Λ : ℝ) : RoundsTo fl u Λ :=
  ⟨h.nonneg, h.lt_one, fun x _ => (h.err x).trans (mul_le_mul_of_nonneg_left (by linarith) h.nonneg)⟩

theorem RoundsTo.mono {Λ' : ℝ} (h : RoundsTo fl u Λ') (hΛ : Λ ≤ Λ') : RoundsTo fl u Λ :=
  ⟨h.nonneg, h.lt_one, fun x hx => h.err x (hx.trans hΛ)⟩

theorem RoundsTo.abs_le (h : RoundsTo fl u Λ) {x : ℝ} (hx : |x| ≤ Λ) : |fl x| ≤ 2 * |x| + 1 := by
  have h1 := h.err x hx
  have h2 := abs_add_le (fl x - x) x
  rw [sub_add_cancel] at h2
  have h3 : u * (|x| + 1) ≤ 1 * (|x| + 1) :=
    mul_le_mul_of_nonneg_right h.lt_one.le (by positivity)
  linarith

theorem sum_abs_nonneg (l : List ℝ) : 0 ≤ (l.map fun x => |x|).sum :=
  List.sum_nonneg fun x hx => by
    obtain ⟨y, -, rfl⟩ := List.mem_map.mp hx
    exact abs_nonneg y

theorem abs_sum_le_sum (l : List ℝ) : |l.sum| ≤ (l.map fun x => |x|).sum := by
  induction l with
  | nil => simp
  | cons x l ih =>
    simp only [List.sum_cons, List.map_cons]
    exact (abs_add_le _ _).trans (by linarith)

/-- The error of a sum with `d` additions one after the other. -/
theorem Summed.roundsTo (hf : RoundsTo fl u Λ) {d : ℕ} {xs : List ℝ} {z : ℝ} (h : Summed fl d xs z)
    (hΛ : 5 ^ d * ((xs.map fun x => |x|).sum + 1) ≤ Λ) :
    |z - xs.sum| ≤ u * (5 ^ d * ((xs.map fun x => |x|).sum + 1)) := by
  have hu := hf.nonneg
  induction h with
  | nil => simpa using hu
  | single x =>
    simp only [List.sum_singleton, sub_self, abs_zero]
    have := sum_abs_nonneg [x]
    positivity
  | @add d xs ys l a b ha hb hp iha ihb =>
    rw [hp.sum_eq, (hp.map _).sum_eq, List.map_append, List.sum_append, List.sum_append] at *
    set X := (xs.map fun x => |x|).sum
    set Y := (ys.map fun x => |x|).sum
    have hX : 0 ≤ X := sum_abs_nonneg xs
    have hY : 0 ≤ Y := sum_abs_nonneg ys
    have hx : |xs.sum| ≤ X := abs_sum_le_sum xs
    have hy : |ys.sum| ≤ Y := abs_sum_le_sum ys
    have h5 : (1 : ℝ) ≤ 5 ^ d := one_le_pow₀ (by norm_num)
    have p1 : 0 ≤ 5 ^ d * X := by positivity
    have p2 : 0 ≤ 5 ^ d * Y := by positivity
    rw [pow_succ] at hΛ ⊢
    have i1 := iha (by linarith)
    have i2 := ihb (by linarith)
    have e1 : |a + b - (xs.sum + ys.sum)| ≤ u * (5 ^ d * (X + Y + 2)) := by
      calc |a + b - (xs.sum + ys.sum)| = |(a - xs.sum) + (b - ys.sum)| := by congr 1; ring
        _ ≤ _ := (abs_add_le _ _).trans (by linarith)
    have e1' : u * (5 ^ d * (X + Y + 2)) ≤ 1 * (5 ^ d * (X + Y + 2)) :=
      mul_le_mul_of_nonneg_right hf.lt_one.le (by positivity)
    have e0 : X + Y ≤ 5 ^ d * (X + Y) := le_mul_of_one_le_left (by linarith) h5
    have e2 : |a + b| ≤ X + Y + 5 ^ d * (X + Y + 2) := by
      have : a + b = (a + b - (xs.sum + ys.sum)) + (xs.sum + ys.sum) := by ring
      rw [this]
      refine (abs_add_le _ _).trans ?_
      have := abs_add_le xs.sum ys.sum
      linarith
    have h1 := hf.err (a + b) (by linarith)
    have e3 := h1.trans (mul_le_mul_of_nonneg_left (add_le_add_left e2 1) hu)
    have : fl (a + b) - (xs.sum + ys.sum)
        = (fl (a + b) - (a + b)) + (a + b - (xs.sum + ys.sum)) := by ring
    rw [this]
    refine (abs_add_le _ _).trans ((add_le_add e3 e1).trans ?_)
    rw [← mul_add]
    exact mul_le_mul_of_nonneg_left (by linarith) hu
  | @more d l a _ ih =>
    have := sum_abs_nonneg l
    have h5 : (5 : ℝ) ^ d ≤ 5 ^ (d + 1) := pow_le_pow_right₀ (by norm_num) (Nat.le_succ d)
    have h6 := mul_le_mul_of_nonneg_right h5 (by linarith : 0 ≤ (l.map fun x => |x|).sum + 1)
    exact (ih (h6.trans hΛ)).trans (mul_le_mul_of_nonneg_left h6 hu)

/-- A bound for the error of a sum of at most `s` products, up to the factor `u`; `P` bounds the sum
of their absolute values. -/
noncomputable def dotBound (s : ℕ) (P : ℝ) : ℝ := 5 ^ s * (3 * P + 2 * s + 1)

theorem dotBound_nonneg {P : ℝ} (hP : 0 ≤ P) : 0 ≤ dotBound s P := by
  unfold dotBound
  positivity

theorem dotBound_mono {s' : ℕ} {P P' : ℝ} (hs : s ≤ s') (hP : 0 ≤ P) (h : P ≤ P') :
    dotBound s P ≤ dotBound s' P' := by
  unfold dotBound
  have h1 : (5 : ℝ) ^ s ≤ 5 ^ s' := pow_le_pow_right₀ (by norm_num) hs
  have h2 : (s : ℝ) ≤ s' := by exact_mod_cast hs
  exact mul_le_mul h1 (by linarith) (by positivity) (by positivity)

/-- The error of a sum of products. -/
theorem IsDot.roundsTo (hf : RoundsTo fl u Λ) (hd : IsDot fl dot) (ps : List (ℝ × ℝ))
    (hΛ : dotBound ps.length (ps.map fun p => |p.1 * p.2|).sum ≤ Λ) :
    |dot ps - (ps.map fun p => p.1 * p.2).sum|
      ≤ u * dotBound ps.length (ps.map fun p => |p.1 * p.2|).sum := by
  have hu := hf.nonneg
  obtain ⟨ts, h1, h2⟩ := hd ps
  have hP0 : ∀ ps : List (ℝ × ℝ), 0 ≤ (ps.map fun p => |p.1 * p.2|).sum := fun ps =>
    List.sum_nonneg fun x hx => by
      obtain ⟨y, -, rfl⟩ := List.mem_map.mp hx
      exact abs_nonneg _
  set P := (ps.map fun p => |p.1 * p.2|).sum with hP
  have h5 : (1 : ℝ) ≤ 5 ^ ps.length := one_le_pow₀ (by norm_num)
  have hP1 : 0 ≤ P := hP0 ps
  have hB : 3 * P + 2 * ps.length + 1 ≤ dotBound ps.length P :=
    le_mul_of_one_le_left (by positivity) h5
  have hPΛ : P ≤ Λ := by
    have : (0 : ℝ) ≤ ps.length := Nat.cast_nonneg _
    linarith
  have h4 : |ts.sum - (ps.map fun p => p.1 * p.2).sum| ≤ u * (P + ps.length) ∧
      (ts.map fun x => |x|).sum ≤ 2 * P + ps.length := by
    clear h2 hΛ h5 hB hP1
    rw [hP] at hPΛ ⊢
    clear_value P
    clear hP
    induction h1 with
    | nil => simp
    | @cons p t ps ts hp _ ih =>
      simp only [List.map_cons, List.sum_cons, List.length_cons, Nat.cast_add, Nat.cast_one] at hPΛ ⊢
      have g1 := hP0 ps
      have g2 := abs_nonneg (p.1 * p.2)
      have ht : |t - p.1 * p.2| ≤ u * (|p.1 * p.2| + 1) := by
        rcases hp with rfl | rfl
        · rw [sub_self, abs_zero]
          positivity
        · exact hf.err _ (by linarith)
      have ht' : |t| ≤ 2 * |p.1 * p.2| + 1 := by
        have h3 := abs_add_le (t - p.1 * p.2) (p.1 * p.2)
        rw [sub_add_cancel] at h3
        have : u * (|p.1 * p.2| + 1) ≤ 1 * (|p.1 * p.2| + 1) :=
          mul_le_mul_of_nonneg_right hf.lt_one.le (by positivity)
        linarith
      obtain ⟨i1, i2⟩ := ih (by linarith)
      constructor
      · have : t + ts.sum - (p.1 * p.2 + (ps.map fun p => p.1 * p.2).sum)
          = (t - p.1 * p.2) + (ts.sum - (ps.map fun p => p.1 * p.2).sum) := by ring
        rw [this]
        refine (abs_add_le _ _).trans ?_
        linarith
      · linarith
  have hl0 : (0 : ℝ) ≤ ps.length := Nat.cast_nonneg _
  have h6 : 5 ^ ps.length * ((ts.map fun x => |x|).sum + 1) ≤ 5 ^ ps.length * (2 * P + ps.length + 1) :=
    mul_le_mul_of_nonneg_left (by linarith [h4.2]) (by positivity)
  have h7 : P + ps.length ≤ 5 ^ ps.length * (P + ps.length) :=
    le_mul_of_one_le_left (by positivity) h5
  have h8 : 0 ≤ 5 ^ ps.length * (P + ps.length) := by positivity
  unfold dotBound at hΛ ⊢
  have h3 := h2.roundsTo hf (by linarith)
  have e : dot ps - (ps.map fun p => p.1 * p.2).sum
      = (dot ps - ts.sum) + (ts.sum - (ps.map fun p => p.1 * p.2).sum) := by ring
  rw [e]
  refine (abs_add_le _ _).trans ((add_le_add h3 h4.1).trans ?_)
  rw [← mul_add]
  exact mul_le_mul_of_nonneg_left (by linarith) hu

theorem dot_near (hf : RoundsTo fl u Λ) (hd : IsDot fl dot) {ι : Type} (L : List ι) (hL : L.length ≤ s)
    (a b : ι → ℝ) {P : ℝ} (hP : (L.map fun j => |a j * b j|).sum ≤ P) (hΛ : dotBound s P ≤ Λ) :
    |dot (L.map fun j => (a j, b j)) - (L.map fun j => a j * b j).sum| ≤ u * dotBound s P := by
  have h0 : 0 ≤ (L.map fun j => |a j * b j|).sum := List.sum_nonneg fun x hx => by
    obtain ⟨y, -, rfl⟩ := List.mem_map.mp hx
    exact abs_nonneg _
  have h1 := dotBound_mono hL h0 hP
  have h := hd.roundsTo hf (L.map fun j => (a j, b j))
  simp only [List.map_map, Function.comp_def, List.length_map] at h
  exact (h (h1.trans hΛ)).trans (mul_le_mul_of_nonneg_left h1 hf.nonneg)

theorem sum_filter (i : Fin s) (g : Fin s → ℝ) :
    (((List.finRange s).filter fun j => j < i).map g).sum
      = ∑ j ∈ Finset.univ.filter (fun j : Fin s => j < i), g j := by
  rw [← List.sum_toFinset g ((List.nodup_finRange s).filter _)]
  refine Finset.sum_congr ?_ fun _ _ => rfl
  ext j
  simp

theorem sum_row_le (A : Fin s → Fin s → ℝ) (i : Fin s) (P : Finset (Fin s)) :
    ∑ j ∈ P, |A i j| ≤ Conv.total A := by
  refine (Finset.sum_le_sum_of_subset_of_nonneg (Finset.subset_univ _)
    fun _ _ _ => abs_nonneg _).trans ?_
  exact Finset.single_le_sum (f := fun i => ∑ j, |A i j|)
    (fun _ _ => Finset.sum_nonneg fun _ _ => abs_nonneg _) (Finset.mem_univ i)

/-- The error of the accumulated stages. -/
theorem accumulateStagesFl_near (hf : RoundsTo fl u Λ) (hd : IsDot fl dot) (T : Coeffs ℝ s) (i : Fin s)
    (k : Fin s → Fin n → ℝ) {M : ℝ} (hM : 0 ≤ M) (hk : ∀ j, j < i → ‖k j‖ ≤ M)
    (hΛ : dotBound s (Conv.total T.A * M) ≤ Λ) :
    ‖accumulateStagesFl dot T i k - accumulateStages T i k‖
      ≤ u * dotBound s (Conv.total T.A * M) := by
  have h0 := hf.nonneg
  have ht := Conv.total_nonneg T.A
  have hB := dotBound_nonneg (s := s) (mul_nonneg ht hM)
  refine (pi_norm_le_iff_of_nonneg (by positivity)).mpr fun x => ?_
  rw [Pi.sub_apply, Real.norm_eq_abs]
  unfold accumulateStagesFl accumulateStages
  split_ifs with hi
  · simp only [Pi.zero_apply, sub_self, abs_zero]
    positivity
  · have h1 := dot_near hf hd ((List.finRange s).filter fun j => j < i)
      (by simpa using List.length_filter_le (fun j => decide (j < i)) (List.finRange s))
      (fun j => k j x) (fun j => T.A i j) (P := Conv.total T.A * M) ?_ hΛ
    · rwa [sum_filter] at h1
    · rw [sum_filter]
      calc ∑ j ∈ Finset.univ.filter (fun j : Fin s => j < i), |k j x * T.A i j|
          ≤ ∑ j ∈ Finset.univ.filter (fun j : Fin s => j < i), |T.A i j| * M := by
            refine Finset.sum_le_sum fun j hj => ?_
            rw [abs_mul, mul_comm]
            exact mul_le_mul_of_nonneg_left
              ((norm_le_pi_norm (k j) x).trans (hk j (Finset.mem_filter.mp hj).2)) (abs_nonneg _)
        _ = (∑ j ∈ Finset.univ.filter (fun j : Fin s => j < i), |T.A i j|) * M := by
            rw [Finset.sum_mul]
        _ ≤ Conv.total T.A * M := mul_le_mul_of_nonneg_right (sum_row_le _ _ _) hM

/-- The error of the stage times. -/
theorem stageTime_near (hf : RoundsTo fl u Λ) {t h c R : ℝ} (h0 : 0 ≤ h) (h1 : h ≤ 1) (ht : |t| ≤ R)
    (hΛ : R + 3 * |c| + 3 ≤ Λ) :
    |fl (t + fl (h * c)) - (t + h * c)| ≤ u * (R + 3 * |c| + 3) := by
  have hu := hf.nonneg
  have hR : 0 ≤ R := (abs_nonneg _).trans ht
  have hc0 := abs_nonneg c
  have hc : |h * c| ≤ |c| := by
    rw [abs_mul, abs_of_nonneg h0]
    exact mul_le_of_le_one_left (abs_nonneg _) h1
  have e1 := hf.err (h * c) (by linarith)
  have e3 := hf.abs_le (x := h * c) (by linarith)
  have e4 : |t + fl (h * c)| ≤ R + (2 * |c| + 1) := (abs_add_le _ _).trans (by linarith)
  have e2 := hf.err (t + fl (h * c)) (by linarith)
  have e5 := mul_le_mul_of_nonneg_left (add_le_add_left e4 1) hu
  have e6 := mul_le_mul_of_nonneg_left (add_le_add_left hc 1) hu
  have : fl (t + fl (h * c)) - (t + h * c)
      = (fl (t + fl (h * c)) - (t + fl (h * c))) + (fl (h * c) - h * c) := by ring
  rw [this]
  refine (abs_add_le _ _).trans ?_
  linarith

/-- A bound for the error of the final accumulation, up to the factor `u`, with weights of the sum
`W`, values up to `R` and stages up to `M`. -/
noncomputable def stepBound (s : ℕ) (W R M : ℝ) : ℝ :=
  R + W + 1 + 2 * dotBound s (M * (2 * W + s)) + 3 * (M * (W + s))

theorem stepBound_nonneg {W R M : ℝ} (hW : 0 ≤ W) (hR : 0 ≤ R) (hM : 0 ≤ M) :
    0 ≤ stepBound s W R M := by
  have := dotBound_nonneg (s := s) (P := M * (2 * W + s)) (by positivity)
  unfold stepBound
  positivity

/-- The error of the final accumulation. -/
theorem accumulateStepFl_near (hf : RoundsTo fl u Λ) (hd : IsDot fl dot) (w : Fin s → ℝ)
    (y : Fin n → ℝ) (k : Fin s → Fin n → ℝ) {h R M : ℝ} (h0 : 0 ≤ h) (h1 : h ≤ 1) (hR : 0 ≤ R)
    (hM : 0 ≤ M) (hy : ‖y‖ ≤ R) (hk : ‖k‖ ≤ M) (hΛ : stepBound s (∑ i, |w i|) R M ≤ Λ) :
    ‖accumulateStepFl fl dot w y k h - (y + h • ∑ i, w i • k i)‖
      ≤ u * stepBound s (∑ i, |w i|) R M := by
  have hu := hf.nonneg
  have hu1 := hf.lt_one
  have hw : 0 ≤ ∑ i, |w i| := Finset.sum_nonneg fun _ _ => abs_nonneg _
  have hB0 := stepBound_nonneg (s := s) hw hR hM
  refine (pi_norm_le_iff_of_nonneg (by positivity)).mpr fun x => ?_
  have hkx : ∀ i, |k i x| ≤ M := fun i =>
    ((norm_le_pi_norm (k i) x).trans (norm_le_pi_norm k i)).trans hk
  have hyx : |y x| ≤ R := (norm_le_pi_norm y x).trans hy
  have hhw : ∀ i, |h * w i| ≤ |w i| := fun i => by
    rw [abs_mul, abs_of_nonneg h0]
    exact mul_le_of_le_one_left (abs_nonneg _) h1
  have hwW : ∀ i, |w i| ≤ ∑ i, |w i| := fun i =>
    Finset.single_le_sum (f := fun i => |w i|) (fun _ _ => abs_nonneg _) (Finset.mem_univ i)
  set W := ∑ i, |w i| with hW
  set d := dot ((List.finRange s).map fun i => (k i x, fl (h * w i))) with hdef
  have hs0 : (0 : ℝ) ≤ s := Nat.cast_nonneg _
  have hMW : 0 ≤ M * (W + s) := by positivity
  set Q := dotBound s (M * (2 * W + s)) with hQ
  have hQ0 : 0 ≤ Q := dotBound_nonneg (by positivity)
  have hst : stepBound s W R M = R + W + 1 + 2 * Q + 3 * (M * (W + s)) := rfl
  rw [hst] at hΛ ⊢
  have hwΛ : ∀ i, |h * w i| ≤ Λ := fun i => by
    have := hhw i
    have := hwW i
    linarith
  have hsumw : ∑ i : Fin s, (|w i| + 1) = W + s := by
    rw [Finset.sum_add_distrib, ← hW]
    simp
  have e1 : |d - ∑ i, k i x * fl (h * w i)| ≤ u * Q := by
    have := dot_near (s := s) hf hd (List.finRange s) (by simp) (fun i => k i x)
      (fun i => fl (h * w i)) (P := M * (2 * W + s)) ?_ (by linarith)
    · rwa [← Fin.sum_univ_def] at this
    · rw [← Fin.sum_univ_def]
      have : M * (2 * W + s) = ∑ i, M * (2 * |w i| + 1) := by
        rw [← Finset.mul_sum, Finset.sum_add_distrib, ← Finset.mul_sum, ← hW]
        simp
      rw [this]
      refine Finset.sum_le_sum fun i _ => ?_
      rw [abs_mul]
      have h2 := hf.abs_le (hwΛ i)
      have h3 := hhw i
      exact mul_le_mul (hkx i) (by linarith) (abs_nonneg _) hM
  have e2 : |∑ i, k i x * fl (h * w i) - h * ∑ i, w i * k i x| ≤ u * (M * (W + s)) := by
    have : ∑ i, k i x * fl (h * w i) - h * ∑ i, w i * k i x
        = ∑ i, k i x * (fl (h * w i) - h * w i) := by
      rw [Finset.mul_sum, ← Finset.sum_sub_distrib]
      exact Finset.sum_congr rfl fun i _ => by ring
    rw [this]
    refine (Finset.abs_sum_le_sum_abs _ _).trans ?_
    rw [← hsumw, Finset.mul_sum, Finset.mul_sum]
    refine Finset.sum_le_sum fun i _ => ?_
    rw [abs_mul]
    have h2 := (hf.err (h * w i) (hwΛ i)).trans
      (mul_le_mul_of_nonneg_left (add_le_add_left (hhw i) 1) hu)
    have := mul_le_mul (hkx i) h2 (abs_nonneg _) hM
    linarith
  have e3 : |h * ∑ i, w i * k i x| ≤ M * (W + s) := by
    rw [abs_mul, abs_of_nonneg h0]
    refine (mul_le_of_le_one_left (abs_nonneg _) h1).trans ?_
    refine (Finset.abs_sum_le_sum_abs _ _).trans ?_
    have : ∑ i, |w i * k i x| ≤ ∑ i, M * |w i| := by
      refine Finset.sum_le_sum fun i _ => ?_
      rw [abs_mul, mul_comm]
      exact mul_le_mul_of_nonneg_right (hkx i) (abs_nonneg _)
    rw [← Finset.mul_sum, ← hW] at this
    have h4 : 0 ≤ M * s := by positivity
    linarith
  have e4 : |d - h * ∑ i, w i * k i x| ≤ u * (Q + M * (W + s)) := by
    have : d - h * ∑ i, w i * k i x = (d - ∑ i, k i x * fl (h * w i))
        + (∑ i, k i x * fl (h * w i) - h * ∑ i, w i * k i x) := by ring
    rw [this]
    refine (abs_add_le _ _).trans ?_
    linarith
  have e5 : |y x + d| ≤ R + Q + 2 * (M * (W + s)) := by
    have : y x + d = y x + ((d - h * ∑ i, w i * k i x) + h * ∑ i, w i * k i x) := by ring
    rw [this]
    refine (abs_add_le _ _).trans ((add_le_add hyx ((abs_add_le _ _).trans
      (add_le_add e4 e3))).trans ?_)
    have : u * (Q + M * (W + s)) ≤ 1 * (Q + M * (W + s)) :=
      mul_le_mul_of_nonneg_right hu1.le (by positivity)
    linarith
  have e6 := (hf.err (y x + d) (by linarith)).trans
    (mul_le_mul_of_nonneg_left (add_le_add_left e5 1) hu)
  have e7 : accumulateStepFl fl dot w y k h x - (y + h • ∑ i, w i • k i) x
      = (fl (y x + d) - (y x + d)) + (d - h * ∑ i, w i * k i x) := by
    simp only [accumulateStepFl, Pi.add_apply, Pi.smul_apply, Finset.sum_apply, smul_eq_mul]
    ring
  rw [Pi.sub_apply, e7]
  refine (abs_add_le _ _).trans ((add_le_add e6 e4).trans ?_)
  rw [← mul_add]
  exact mul_le_mul_of_nonneg_left (by linarith) hu

end Verif.Fl
