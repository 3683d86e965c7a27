/-
Linear recurrences of order three: a criterion for the roots to lie in the open unit disc, and
the decay of the solutions with a perturbation (helper lemmas for `Verif.Props.Settle`). No
function of /repo is modelled here.
-/
import Verif.Control.Lemmas
import Mathlib.Analysis.Complex.Polynomial.Basic
import Mathlib.Analysis.Complex.Norm
import Mathlib.Tactic.LinearCombination

namespace Verif.Control

open Complex

/-- The real quadratic `x^2 + b1 x + b0` against its reversal. -/
theorem normSq_quad (b1 b0 : ℝ) (z : ℂ) :
    normSq (z ^ 2 + b1 * z + b0) - normSq (1 + b1 * z + b0 * z ^ 2)
      = (normSq z - 1) * ((1 - b0 ^ 2) * (1 + normSq z) + 2 * b1 * (1 - b0) * z.re) := by
  simp only [normSq_apply, pow_two, add_re, add_im, mul_re, mul_im, ofReal_re, ofReal_im, one_re,
    one_im]
  ring

theorem abs_re_le_half (z : ℂ) : 2 * |z.re| ≤ 1 + normSq z := by
  rw [normSq_apply]
  have h1 := sq_abs z.re
  nlinarith [sq_nonneg (|z.re| - 1), mul_self_nonneg z.im]

/-- Outside the open unit disc the quadratic does not vanish and dominates its reversal, if
`|b1| < 1 + b0` and `b0 < 1`. -/
theorem quad_outside (b1 b0 : ℝ) (h0 : b0 < 1) (h1 : |b1| < 1 + b0) (z : ℂ) (hz : 1 ≤ normSq z) :
    normSq (1 + b1 * z + b0 * z ^ 2) ≤ normSq (z ^ 2 + b1 * z + b0) ∧ z ^ 2 + b1 * z + b0 ≠ 0 := by
  have key := normSq_quad b1 b0 z
  have hre := abs_re_le_half z
  have hb : 0 < (1 - b0 ^ 2) * (1 + normSq z) + 2 * b1 * (1 - b0) * z.re := by
    have hb1 : -(|b1| * |z.re|) ≤ b1 * z.re := by
      rw [← abs_mul]; exact neg_abs_le _
    have h2 : |b1| * (2 * |z.re|) ≤ |b1| * (1 + normSq z) :=
      mul_le_mul_of_nonneg_left hre (abs_nonneg _)
    have h3 : |b1| * (1 + normSq z) < (1 + b0) * (1 + normSq z) :=
      mul_lt_mul_of_pos_right h1 (by linarith)
    have h4 : 0 < (1 + b0) * (1 + normSq z) + 2 * (b1 * z.re) := by nlinarith
    have h5 := mul_pos (sub_pos.mpr h0) h4
    nlinarith [h5]
  constructor
  · have : 0 ≤ (normSq z - 1) * ((1 - b0 ^ 2) * (1 + normSq z) + 2 * b1 * (1 - b0) * z.re) :=
      mul_nonneg (by linarith) hb.le
    linarith
  · intro hq
    rw [hq] at key
    simp only [map_zero, zero_sub] at key
    have hn := normSq_nonneg (1 + b1 * z + b0 * z ^ 2)
    rcases hz.lt_or_eq with hz | hz
    · have := mul_pos (sub_pos.mpr hz) hb
      linarith
    · -- on the unit circle
      have hc : z * (starRingEnd ℂ) z = 1 := by rw [mul_conj, ← hz]; simp
      have hmul : z + b1 + b0 * (starRingEnd ℂ) z = 0 := by
        have e := congrArg (fun w => w * (starRingEnd ℂ) z) hq
        simp only [zero_mul] at e
        linear_combination e + (-(z : ℂ) - b1) * hc
      have r := congrArg Complex.re hmul
      have i := congrArg Complex.im hmul
      simp at r i
      have him : z.im = 0 := by
        have : (1 - b0) * z.im = 0 := by linarith
        rcases mul_eq_zero.mp this with h | h
        · linarith
        · exact h
      rw [normSq_apply, him] at hz
      have hsq : (z.re - 1) * (z.re + 1) = 0 := by nlinarith
      rcases mul_eq_zero.mp hsq with h | h
      · have : z.re = 1 := by linarith
        rw [this] at r
        have := neg_abs_le b1
        linarith
      · have : z.re = -1 := by linarith
        rw [this] at r
        have := le_abs_self b1
        linarith

/-- The conditions of Jury for `x^3 + a2 x^2 + a1 x + a0`. -/
structure Jury (a2 a1 a0 : ℝ) : Prop where
  const : |a0| < 1
  one : 0 < 1 + a2 + a1 + a0
  neg_one : 0 < 1 - a2 + a1 - a0
  minor : |a1 - a0 * a2| < 1 - a0 ^ 2

/-- Under these conditions all complex roots lie in the open unit disc. -/
theorem Jury.root {a2 a1 a0 : ℝ} (J : Jury a2 a1 a0) (z : ℂ)
    (hz : z ^ 3 + a2 * z ^ 2 + a1 * z + a0 = 0) : ‖z‖ < 1 := by
  by_contra hcon
  have hn : 1 ≤ ‖z‖ := not_lt.mp hcon
  have hns : 1 ≤ normSq z := by rw [normSq_eq_norm_sq]; nlinarith
  have ha := abs_lt.mp J.const
  have hm := abs_lt.mp J.minor
  have hd : 0 < 1 - a0 ^ 2 := by nlinarith
  set b1 : ℝ := (a2 - a0 * a1) / (1 - a0 ^ 2) with hb1
  set b0 : ℝ := (a1 - a0 * a2) / (1 - a0 ^ 2) with hb0
  have hb0' : b0 < 1 := by rw [hb0, div_lt_one hd]; linarith
  have hb1' : |b1| < 1 + b0 := by
    have e : 1 + b0 = (1 - a0 ^ 2 + (a1 - a0 * a2)) / (1 - a0 ^ 2) := by rw [hb0]; field_simp
    rw [e, hb1, abs_div, abs_of_pos hd, div_lt_div_iff_of_pos_right hd, abs_lt]
    have p1 := mul_pos (show 0 < 1 - a0 by linarith) J.one
    have p2 := mul_pos (show 0 < 1 + a0 by linarith) J.neg_one
    constructor <;> nlinarith
  obtain ⟨hle, hne⟩ := quad_outside b1 b0 hb0' hb1' z hns
  have e1 : (1 - (a0 : ℂ) ^ 2) * b1 = a2 - a0 * a1 := by
    have : (1 - a0 ^ 2) * b1 = a2 - a0 * a1 := by rw [hb1]; field_simp
    exact_mod_cast this
  have e0 : (1 - (a0 : ℂ) ^ 2) * b0 = a1 - a0 * a2 := by
    have : (1 - a0 ^ 2) * b0 = a1 - a0 * a2 := by rw [hb0]; field_simp
    exact_mod_cast this
  have hdc : (1 - (a0 : ℂ) ^ 2) ≠ 0 := by
    have : (1 - a0 ^ 2 : ℝ) ≠ 0 := hd.ne'
    exact_mod_cast this
  have hrel : z * (z ^ 2 + b1 * z + b0) = -a0 * (1 + b1 * z + b0 * z ^ 2) := by
    refine mul_left_cancel₀ hdc ?_
    linear_combination (z ^ 2 + a0 * z) * e1 + (z + a0 * z ^ 2) * e0 + (1 - (a0 : ℂ) ^ 2) * hz
  have hnorm := congrArg normSq hrel
  rw [normSq_mul, normSq_mul, normSq_neg, normSq_ofReal] at hnorm
  have hq : 0 < normSq (z ^ 2 + b1 * z + b0) := normSq_pos.mpr hne
  have h1 : normSq (z ^ 2 + b1 * z + b0) ≤ normSq z * normSq (z ^ 2 + b1 * z + b0) :=
    le_mul_of_one_le_left hq.le hns
  have h2 : a0 * a0 * normSq (1 + b1 * z + b0 * z ^ 2)
      ≤ a0 * a0 * normSq (z ^ 2 + b1 * z + b0) :=
    mul_le_mul_of_nonneg_left hle (mul_self_nonneg _)
  have h3 : a0 * a0 * normSq (z ^ 2 + b1 * z + b0) < normSq (z ^ 2 + b1 * z + b0) := by
    have : a0 * a0 < 1 := by nlinarith
    nlinarith
  linarith

theorem exists_quad_root (u v : ℂ) : ∃ z : ℂ, z ^ 2 + u * z + v = 0 := by
  obtain ⟨s, hs⟩ := IsAlgClosed.exists_pow_nat_eq (u ^ 2 - 4 * v) (n := 2) (by norm_num)
  exact ⟨(-u + s) / 2, by linear_combination hs / 4⟩

theorem exists_cubic_root (a2 a1 a0 : ℂ) : ∃ z : ℂ, z ^ 3 + a2 * z ^ 2 + a1 * z + a0 = 0 := by
  open Polynomial in
  obtain ⟨z, hz⟩ := IsAlgClosed.exists_root
    (X ^ 3 + (C a2 * X ^ 2 + C a1 * X + C a0) : ℂ[X]) (by
      have : (X ^ 3 + (C a2 * X ^ 2 + C a1 * X + C a0) : ℂ[X]).degree = 3 := by compute_degree!
      rw [this]; norm_num)
  refine ⟨z, ?_⟩
  simp [Polynomial.IsRoot] at hz
  linear_combination hz

/-- First order recurrence with a decaying and a constant perturbation. -/
theorem first_order (l : ℂ) (r s C D : ℝ) (N : ℕ) (z : ℕ → ℂ) (hl : ‖l‖ ≤ r) (hrs : r < s)
    (hs : s < 1) (hC : 0 ≤ C) (hD : 0 ≤ D)
    (h : ∀ n < N, ‖z (n + 1) - l * z n‖ ≤ C * r ^ n + D) :
    ∀ n ≤ N, ‖z n‖ ≤ (‖z 0‖ + C / (s - r)) * s ^ n + D / (1 - s) := by
  have hr : 0 ≤ r := (norm_nonneg _).trans hl
  have hB : 0 ≤ D / (1 - s) := div_nonneg hD (by linarith)
  have hA : 0 ≤ C / (s - r) := div_nonneg hC (by linarith)
  intro n
  induction n with
  | zero => intro _; simp; linarith
  | succ n ih =>
    intro hn
    have h1 := ih (by omega)
    have h2 := h n (by omega)
    have h3 : ‖z (n + 1)‖ ≤ ‖z (n + 1) - l * z n‖ + ‖l‖ * ‖z n‖ := by
      rw [← norm_mul]
      calc ‖z (n + 1)‖ = ‖(z (n + 1) - l * z n) + l * z n‖ := by ring_nf
        _ ≤ _ := norm_add_le _ _
    have h4 : ‖l‖ * ‖z n‖ ≤ r * ((‖z 0‖ + C / (s - r)) * s ^ n + D / (1 - s)) :=
      mul_le_mul hl h1 (norm_nonneg _) hr
    have h5 : C * r ^ n ≤ C * s ^ n :=
      mul_le_mul_of_nonneg_left (pow_le_pow_left₀ hr hrs.le n) hC
    have hsn : 0 ≤ s ^ n := pow_nonneg (hr.trans hrs.le) n
    have e1 : C = C / (s - r) * (s - r) := by
      rw [div_mul_cancel₀]; linarith
    have e2 : D = D / (1 - s) * (1 - s) := by
      rw [div_mul_cancel₀]; linarith
    have h6 : C * s ^ n ≤ (‖z 0‖ + C / (s - r)) * (s - r) * s ^ n := by
      refine mul_le_mul_of_nonneg_right ?_ hsn
      have : 0 ≤ ‖z 0‖ * (s - r) := mul_nonneg (norm_nonneg _) (by linarith)
      linarith
    have h7 : D ≤ D / (1 - s) * (1 - r) := by
      have : D / (1 - s) * (1 - s) ≤ D / (1 - s) * (1 - r) :=
        mul_le_mul_of_nonneg_left (by linarith) hB
      linarith
    rw [pow_succ]
    nlinarith

/-- Solutions of a third order recurrence whose characteristic polynomial meets the conditions of
Jury: they decay geometrically up to a multiple of the perturbation. -/
theorem Jury.decay {a2 a1 a0 : ℝ} (J : Jury a2 a1 a0) :
    ∃ K s : ℝ, 0 ≤ K ∧ 0 ≤ s ∧ s < 1 ∧ ∀ (x : ℕ → ℝ) (N : ℕ) (M D : ℝ), 0 ≤ D →
      (∀ n < N, |x (n + 3) + a2 * x (n + 2) + a1 * x (n + 1) + a0 * x n| ≤ D) →
      |x 0| ≤ M → |x 1| ≤ M → |x 2| ≤ M → ∀ n ≤ N + 2, |x n| ≤ K * (M * s ^ n + D) := by
  obtain ⟨l1, hl1⟩ := exists_cubic_root a2 a1 a0
  set u : ℂ := a2 + l1 with hu
  set v : ℂ := a1 + u * l1 with hv
  obtain ⟨l2, hl2⟩ := exists_quad_root u v
  set l3 : ℂ := -u - l2 with hl3
  have r1 := J.root l1 hl1
  have r2 : ‖l2‖ < 1 := J.root l2 (by linear_combination (l2 - l1) * hl2 + hl1)
  have r3 : ‖l3‖ < 1 := J.root l3 (by linear_combination (l3 - l1) * hl2 + hl1)
  obtain ⟨r, hr⟩ : ∃ r, r = max ‖l1‖ (max ‖l2‖ ‖l3‖) := ⟨_, rfl⟩
  have hr0 : 0 ≤ r := by rw [hr]; exact le_max_of_le_left (norm_nonneg _)
  have hr1 : r < 1 := by rw [hr]; exact max_lt r1 (max_lt r2 r3)
  have k1 : ‖l1‖ ≤ r := by rw [hr]; exact le_max_left _ _
  have k2 : ‖l2‖ ≤ r := by rw [hr]; exact le_max_of_le_right (le_max_left _ _)
  have k3 : ‖l3‖ ≤ r := by rw [hr]; exact le_max_of_le_right (le_max_right _ _)
  obtain ⟨g, hg⟩ : ∃ g, g = (1 - r) / 4 := ⟨_, rfl⟩
  have hg0 : 0 < g := by rw [hg]; linarith
  have hg1 : r + 3 * g + g = 1 := by rw [hg]; ring
  refine ⟨max (1 + (2 + 4 / g) / g) (1 / (3 * g) / (2 * g) / g), r + 3 * g,
    le_max_of_le_left (by positivity), by linarith, by linarith, ?_⟩
  intro x N M D hD hx h0 h1 h2
  have hM : 0 ≤ M := (abs_nonneg _).trans h0
  obtain ⟨y, hy⟩ : ∃ y : ℕ → ℂ, ∀ n, y n = ((x n : ℝ) : ℂ) := ⟨_, fun _ => rfl⟩
  obtain ⟨p, hp⟩ : ∃ p : ℕ → ℂ, ∀ n, p n = y (n + 1) - l1 * y n := ⟨_, fun _ => rfl⟩
  obtain ⟨q, hq⟩ : ∃ q : ℕ → ℂ, ∀ n, q n = p (n + 1) - l2 * p n := ⟨_, fun _ => rfl⟩
  have ny : ∀ n, ‖y n‖ = |x n| := fun n => by rw [hy, norm_real, Real.norm_eq_abs]
  have np : ∀ n, ‖p n‖ ≤ ‖y (n + 1)‖ + ‖y n‖ := fun n => by
    rw [hp]
    refine (norm_sub_le _ _).trans ?_
    rw [norm_mul]
    have := mul_le_mul_of_nonneg_right r1.le (norm_nonneg (y n))
    linarith
  have nq : ∀ n, ‖q n‖ ≤ ‖p (n + 1)‖ + ‖p n‖ := fun n => by
    rw [hq]
    refine (norm_sub_le _ _).trans ?_
    rw [norm_mul]
    have := mul_le_mul_of_nonneg_right r2.le (norm_nonneg (p n))
    linarith
  have res : ∀ n < N, ‖q (n + 1) - l3 * q n‖ ≤ 0 * r ^ n + D := fun n hn => by
    have e : q (n + 1) - l3 * q n
        = ((x (n + 3) + a2 * x (n + 2) + a1 * x (n + 1) + a0 * x n : ℝ) : ℂ) := by
      rw [hq, hq, hp, hp, hp, hy, hy, hy, hy]
      push_cast
      simp only [hl3, hv, hu] at hl1 hl2 ⊢
      linear_combination -((x (n + 1) : ℂ) - l1 * x n) * hl2 - (x n : ℂ) * hl1
    rw [e, norm_real, Real.norm_eq_abs, zero_mul, zero_add]
    exact hx n hn
  have p0 : ‖p 0‖ ≤ 2 * M := by
    have := np 0; rw [ny, ny] at this; simp only [zero_add] at this; linarith
  have p1 : ‖p 1‖ ≤ 2 * M := by
    have := np 1; rw [ny, ny] at this; simp only [Nat.reduceAdd] at this; linarith
  have q0 : ‖q 0‖ ≤ 4 * M := by have := nq 0; simp only [zero_add] at this; linarith
  have bq := first_order l3 r (r + g) 0 D N q k3 (by linarith) (by linarith) le_rfl hD res
  have bp := first_order l2 (r + g) (r + 2 * g) (4 * M) (D / (3 * g)) (N + 1) p (by linarith)
    (by linarith) (by linarith) (by positivity) (by positivity) (fun n hn => by
      rw [← hq]
      refine (bq n (by omega)).trans ?_
      have e : 1 - (r + g) = 3 * g := by linarith
      rw [e, zero_div, add_zero]
      have := mul_le_mul_of_nonneg_right q0 (show 0 ≤ (r + g) ^ n by positivity)
      linarith)
  have by' := first_order l1 (r + 2 * g) (r + 3 * g) (2 * M + 4 * M / g) (D / (3 * g) / (2 * g))
    (N + 2) y (by linarith) (by linarith) (by linarith) (by positivity) (by positivity)
    (fun n hn => by
      rw [← hp]
      refine (bp n (by omega)).trans ?_
      have e : 1 - (r + 2 * g) = 2 * g := by linarith
      have e' : r + 2 * g - (r + g) = g := by ring
      rw [e, e']
      have := mul_le_mul_of_nonneg_right (add_le_add_left p0 (4 * M / g))
        (show 0 ≤ (r + 2 * g) ^ n by positivity)
      linarith)
  intro n hn
  have b := by' n hn
  have e : 1 - (r + 3 * g) = g := by linarith
  have e' : r + 3 * g - (r + 2 * g) = g := by ring
  rw [e, e', ny, ny] at b
  refine b.trans ?_
  rw [mul_add]
  have c1 : |x 0| + (2 * M + 4 * M / g) / g ≤ (1 + (2 + 4 / g) / g) * M := by
    have : (1 + (2 + 4 / g) / g) * M = M + (2 * M + 4 * M / g) / g := by field_simp
    linarith
  have hsn : 0 ≤ (r + 3 * g) ^ n := by positivity
  refine add_le_add ?_ ?_
  · calc _ ≤ (1 + (2 + 4 / g) / g) * M * (r + 3 * g) ^ n := mul_le_mul_of_nonneg_right c1 hsn
      _ = (1 + (2 + 4 / g) / g) * (M * (r + 3 * g) ^ n) := by ring
      _ ≤ _ := mul_le_mul_of_nonneg_right (le_max_left _ _) (by positivity)
  · calc D / (3 * g) / (2 * g) / g = 1 / (3 * g) / (2 * g) / g * D := by field_simp
      _ ≤ _ := mul_le_mul_of_nonneg_right (le_max_right _ _) hD

end Verif.Control
