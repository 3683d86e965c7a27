/-
Rounding to binary floating point numbers with 53 significant bits, ties to even (IEEE 754 binary64,
the type of the times in NumPy arrays and of Python's `float`). Simplification: the exponent is not
bounded, so there is neither overflow nor underflow.
-/
import Mathlib.Data.Int.Log
import Mathlib.Algebra.Order.Archimedean.Real.Basic
import Mathlib.Algebra.Order.Floor.Ring
import Mathlib.Tactic.Linarith
import Mathlib.Tactic.Positivity
import Mathlib.Tactic.FieldSimp
import Mathlib.Tactic.Ring
import Mathlib.Tactic.NormNum

namespace Verif.Fl

/-- The nearest integer, the even one of two. -/
noncomputable def rne (x : ℝ) : ℤ :=
  if x - ⌊x⌋ < 1 / 2 then ⌊x⌋
  else if 1 / 2 < x - ⌊x⌋ then ⌊x⌋ + 1
  else if Even ⌊x⌋ then ⌊x⌋ else ⌊x⌋ + 1

/-- The exponent of the last of the 53 bits. -/
noncomputable def expo (x : ℝ) : ℤ := Int.log 2 |x| - 52

/-- The nearest number with 53 significant bits. -/
noncomputable def rnd (x : ℝ) : ℝ := rne (x / 2 ^ expo x) * 2 ^ expo x

/-- Numbers with 53 significant bits. -/
def IsFloat (x : ℝ) : Prop := ∃ m e : ℤ, |m| < 2 ^ 53 ∧ x = m * 2 ^ e

theorem rne_int (k : ℤ) : rne k = k := by
  unfold rne
  rw [if_pos (by simp), Int.floor_intCast]

theorem rne_err (x : ℝ) : |(rne x : ℝ) - x| ≤ 1 / 2 := by
  have h0 := Int.floor_le x
  have h1 := Int.lt_floor_add_one x
  unfold rne
  rw [abs_le]
  split_ifs <;> push_cast <;> constructor <;> linarith

theorem rne_mono {x y : ℝ} (h : x ≤ y) : rne x ≤ rne y := by
  have hf : ⌊x⌋ ≤ ⌊y⌋ := Int.floor_le_floor h
  rcases hf.lt_or_eq with hlt | heq
  · have h1 : rne x ≤ ⌊x⌋ + 1 := by unfold rne; split_ifs <;> omega
    have h2 : ⌊y⌋ ≤ rne y := by unfold rne; split_ifs <;> omega
    omega
  · unfold rne
    rw [← heq]
    split_ifs <;> first | omega | (exfalso; linarith)

theorem rne_neg (x : ℝ) : rne (-x) = -rne x := by
  rcases eq_or_ne x ⌊x⌋ with hx | hx
  · rw [hx, ← Int.cast_neg, rne_int, rne_int]
  · have h0 : (⌊x⌋ : ℝ) < x := lt_of_le_of_ne (Int.floor_le x) (Ne.symm hx)
    have h1 := Int.lt_floor_add_one x
    have hfl : ⌊-x⌋ = -⌊x⌋ - 1 := by
      rw [Int.floor_eq_iff]
      push_cast
      constructor <;> linarith
    unfold rne
    rw [hfl]
    push_cast
    have hev : Even (-⌊x⌋ - 1) ↔ ¬ Even ⌊x⌋ := by
      rw [Int.even_sub_one, even_neg]
    split_ifs <;> first | omega | (exfalso; linarith) | (exfalso; tauto)

theorem expo_neg (x : ℝ) : expo (-x) = expo x := by
  unfold expo
  rw [abs_neg]

theorem rnd_neg (x : ℝ) : rnd (-x) = -rnd x := by
  unfold rnd
  rw [expo_neg, neg_div, rne_neg]
  push_cast
  ring

theorem rnd_zero : rnd 0 = 0 := by
  unfold rnd
  rw [zero_div, show (0 : ℝ) = ((0 : ℤ) : ℝ) by simp, rne_int]
  simp

theorem two_zpow_pos (e : ℤ) : (0 : ℝ) < 2 ^ e := zpow_pos (by norm_num) e

theorem split_zpow (a b : ℤ) : (2 : ℝ) ^ (a + b) = 2 ^ a * 2 ^ b := zpow_add₀ (by norm_num) a b

/-- The size of a number in terms of its exponent. -/
theorem expo_spec {x : ℝ} (hx : x ≠ 0) : (2 : ℝ) ^ (52 : ℤ) * 2 ^ expo x ≤ |x| ∧
    |x| < 2 ^ (53 : ℤ) * 2 ^ expo x := by
  have h := abs_pos.mpr hx
  have h1 := Int.zpow_log_le_self (b := 2) (by norm_num) h
  have h2 := Int.lt_zpow_succ_log_self (b := 2) (by norm_num) |x|
  unfold expo
  rw [← split_zpow, ← split_zpow]
  push_cast at h1 h2
  constructor
  · rwa [show (52 : ℤ) + (Int.log 2 |x| - 52) = Int.log 2 |x| by ring]
  · rwa [show (53 : ℤ) + (Int.log 2 |x| - 52) = Int.log 2 |x| + 1 by ring]

/-- The exponent is determined by the size. -/
theorem expo_eq {x : ℝ} {e : ℤ} (h1 : (2 : ℝ) ^ (52 : ℤ) * 2 ^ e ≤ |x|)
    (h2 : |x| < 2 ^ (53 : ℤ) * 2 ^ e) : expo x = e := by
  have hx : x ≠ 0 := by
    rintro rfl
    rw [abs_zero] at h1
    have := two_zpow_pos e
    have := two_zpow_pos 52
    nlinarith
  obtain ⟨g1, g2⟩ := expo_spec hx
  rw [← split_zpow] at h1 h2 g1 g2
  have a1 : (52 : ℤ) + e < 53 + expo x := (zpow_lt_zpow_iff_right₀ (by norm_num)).mp (h1.trans_lt g2)
  have a2 : (52 : ℤ) + expo x < 53 + e := (zpow_lt_zpow_iff_right₀ (by norm_num)).mp (g1.trans_lt h2)
  omega

/-- Rounding with a given exponent. -/
theorem rnd_eq {x : ℝ} {e : ℤ} (h1 : (2 : ℝ) ^ (52 : ℤ) * 2 ^ e ≤ |x|)
    (h2 : |x| < 2 ^ (53 : ℤ) * 2 ^ e) : rnd x = rne (x / 2 ^ e) * 2 ^ e := by
  unfold rnd
  rw [expo_eq h1 h2]

/-- A number that is a multiple of a power of two not above its last bit is not changed. -/
theorem IsFloat.rnd_eq {x : ℝ} (h : IsFloat x) : rnd x = x := by
  obtain ⟨m, e, hm, rfl⟩ := h
  rcases eq_or_ne m 0 with rfl | hm0
  · simp [rnd_zero]
  have hx : (m : ℝ) * 2 ^ e ≠ 0 := mul_ne_zero (by exact_mod_cast hm0) (two_zpow_pos e).ne'
  obtain ⟨g1, -⟩ := expo_spec hx
  have hle : expo ((m : ℝ) * 2 ^ e) ≤ e := by
    have h3 : |(m : ℝ) * 2 ^ e| < 2 ^ (53 : ℤ) * 2 ^ e := by
      rw [abs_mul, abs_of_pos (two_zpow_pos e)]
      refine mul_lt_mul_of_pos_right ?_ (two_zpow_pos e)
      exact_mod_cast hm
    have := g1.trans_lt h3
    rw [← split_zpow, ← split_zpow] at this
    have := (zpow_lt_zpow_iff_right₀ (by norm_num : (1 : ℝ) < 2)).mp this
    omega
  obtain ⟨k, hk⟩ := Int.eq_ofNat_of_zero_le (sub_nonneg.mpr hle)
  unfold rnd
  set c := expo ((m : ℝ) * 2 ^ e)
  have he : e = k + c := by omega
  have : (m : ℝ) * 2 ^ e / 2 ^ c = ((m * 2 ^ k : ℤ) : ℝ) := by
    rw [he, split_zpow, ← mul_assoc, mul_div_cancel_right₀ _ (two_zpow_pos c).ne', zpow_natCast]
    push_cast
    rfl
  rw [this, rne_int, he, split_zpow, zpow_natCast]
  push_cast
  ring

theorem isFloat_zero : IsFloat 0 := ⟨0, 0, by norm_num, by simp⟩

theorem isFloat_zpow (e : ℤ) : IsFloat (2 ^ e) := ⟨1, e, by norm_num, by simp⟩

theorem IsFloat.neg {x : ℝ} (h : IsFloat x) : IsFloat (-x) := by
  obtain ⟨m, e, hm, rfl⟩ := h
  exact ⟨-m, e, by rwa [abs_neg], by push_cast; ring⟩

/-- The results of rounding have 53 significant bits. -/
theorem isFloat_rnd (x : ℝ) : IsFloat (rnd x) := by
  rcases eq_or_ne x 0 with rfl | hx
  · rw [rnd_zero]; exact isFloat_zero
  obtain ⟨-, g2⟩ := expo_spec hx
  unfold rnd
  set e := expo x
  have h1 : |x / 2 ^ e| < 2 ^ (53 : ℤ) := by
    rw [abs_div, abs_of_pos (two_zpow_pos e), div_lt_iff₀ (two_zpow_pos e)]
    exact g2
  obtain ⟨h2, h3⟩ := abs_lt.mp h1
  have hc : ((2 ^ 53 : ℤ) : ℝ) = 2 ^ (53 : ℤ) := by norm_num
  have u1 : rne (x / 2 ^ e) ≤ 2 ^ 53 := by
    rw [← rne_int (2 ^ 53), hc]
    exact rne_mono h3.le
  have u2 : -2 ^ 53 ≤ rne (x / 2 ^ e) := by
    rw [← rne_int (-2 ^ 53), Int.cast_neg, hc]
    exact rne_mono h2.le
  rcases (abs_le.mpr ⟨u2, u1⟩).lt_or_eq with hlt | heq
  · exact ⟨_, e, hlt, rfl⟩
  · rcases (abs_eq (by norm_num)).mp heq with h | h
    · rw [h]
      refine ⟨2 ^ 52, e + 1, by norm_num, ?_⟩
      rw [split_zpow]
      push_cast
      ring
    · rw [h]
      refine ⟨-2 ^ 52, e + 1, by norm_num, ?_⟩
      rw [split_zpow]
      push_cast
      ring

/-- The relative error of rounding. -/
theorem rnd_err (x : ℝ) : |rnd x - x| ≤ (1 / 2 ^ 53) * |x| := by
  rcases eq_or_ne x 0 with rfl | hx
  · simp [rnd_zero]
  obtain ⟨g1, -⟩ := expo_spec hx
  unfold rnd
  set e := expo x
  have hp := two_zpow_pos e
  have : (rne (x / 2 ^ e) : ℝ) * 2 ^ e - x = (rne (x / 2 ^ e) - x / 2 ^ e) * 2 ^ e := by
    field_simp
  rw [this, abs_mul, abs_of_pos hp]
  have h := rne_err (x / 2 ^ e)
  have g1' : (2 : ℝ) ^ 52 * 2 ^ e ≤ |x| := by exact_mod_cast g1
  calc |(rne (x / 2 ^ e) : ℝ) - x / 2 ^ e| * 2 ^ e ≤ 1 / 2 * 2 ^ e := by gcongr
    _ = 1 / 2 ^ 53 * (2 ^ 52 * 2 ^ e) := by ring
    _ ≤ 1 / 2 ^ 53 * |x| := by gcongr

theorem le_float {x f : ℝ} (hf : IsFloat f) (h : x ≤ f) : rnd x ≤ f := by
  rcases eq_or_ne x 0 with rfl | hx
  · rwa [rnd_zero]
  obtain ⟨g1, g2⟩ := expo_spec hx
  have hp := two_zpow_pos (expo x)
  -- numbers with the same exponent
  have same : expo f = expo x → rnd x ≤ f := by
    intro he
    conv_rhs => rw [← hf.rnd_eq]
    unfold rnd
    rw [he]
    have : rne (x / 2 ^ expo x) ≤ rne (f / 2 ^ expo x) := rne_mono (by gcongr)
    have : (rne (x / 2 ^ expo x) : ℝ) ≤ rne (f / 2 ^ expo x) := by exact_mod_cast this
    gcongr
  rcases lt_or_gt_of_ne hx with hneg | hpos
  · rw [abs_of_neg hneg] at g1 g2
    rcases le_or_gt (-(2 ^ (52 : ℤ) * 2 ^ expo x)) f with hle | hlt
    · refine le_trans ?_ hle
      unfold rnd
      have : rne (x / 2 ^ expo x) ≤ rne (((-2 ^ 52 : ℤ) : ℝ)) := by
        refine rne_mono ?_
        rw [div_le_iff₀ hp]
        push_cast
        have : (2 : ℝ) ^ (52 : ℤ) = 2 ^ 52 := by norm_cast
        rw [this] at g1
        linarith
      rw [rne_int] at this
      have h' : (rne (x / 2 ^ expo x) : ℝ) ≤ -2 ^ 52 := by exact_mod_cast this
      have e52 : (2 : ℝ) ^ (52 : ℤ) = 2 ^ 52 := by norm_cast
      rw [e52]
      nlinarith
    · refine same (expo_eq ?_ ?_)
      · rw [abs_of_neg (by nlinarith [two_zpow_pos 52])]
        linarith
      · rw [abs_of_neg (by nlinarith [two_zpow_pos 52])]
        linarith
  · rw [abs_of_pos hpos] at g1 g2
    rcases le_or_gt (2 ^ (53 : ℤ) * 2 ^ expo x) f with hle | hlt
    · refine le_trans ?_ hle
      unfold rnd
      have : rne (x / 2 ^ expo x) ≤ rne (((2 ^ 53 : ℤ) : ℝ)) := by
        refine rne_mono ?_
        rw [div_le_iff₀ hp]
        push_cast
        have : (2 : ℝ) ^ (53 : ℤ) = 2 ^ 53 := by norm_cast
        rw [this] at g2
        linarith
      rw [rne_int] at this
      have h' : (rne (x / 2 ^ expo x) : ℝ) ≤ 2 ^ 53 := by exact_mod_cast this
      have e53 : (2 : ℝ) ^ (53 : ℤ) = 2 ^ 53 := by norm_cast
      rw [e53]
      gcongr
    · have hf0 : 0 < f := hpos.trans_le h
      refine same (expo_eq ?_ ?_)
      · rw [abs_of_pos hf0]; linarith
      · rwa [abs_of_pos hf0]

theorem float_le {x f : ℝ} (hf : IsFloat f) (h : f ≤ x) : f ≤ rnd x := by
  have := le_float hf.neg (neg_le_neg h)
  rw [rnd_neg] at this
  linarith

/-- Rounding is monotone. -/
theorem rnd_mono {x y : ℝ} (h : x ≤ y) : rnd x ≤ rnd y := by
  by_cases hex : ∃ f, IsFloat f ∧ x ≤ f ∧ f ≤ y
  · obtain ⟨f, hf, h1, h2⟩ := hex
    exact (le_float hf h1).trans (float_le hf h2)
  · push Not at hex
    have hno : ∀ f, IsFloat f → ¬ (x ≤ f ∧ f ≤ y) := fun f hf ⟨h1, h2⟩ =>
      absurd h2 (not_le.mpr (hex f hf h1))
    have hx : x ≠ 0 := fun hx => hno 0 isFloat_zero ⟨hx.le, hx ▸ h⟩
    have hy : y ≠ 0 := fun hy => hno 0 isFloat_zero ⟨hy ▸ h, hy.ge⟩
    have he : expo x = expo y := by
      obtain ⟨a1, a2⟩ := expo_spec hx
      obtain ⟨b1, b2⟩ := expo_spec hy
      rw [← split_zpow] at a1 a2 b1 b2
      rcases lt_or_gt_of_ne hx with hxn | hxp
      · have hyn : y < 0 := by
          by_contra h'
          exact hno 0 isFloat_zero ⟨hxn.le, not_lt.mp h'⟩
        rw [abs_of_neg hxn] at a1 a2
        rw [abs_of_neg hyn] at b1 b2
        have c1 := hno _ (isFloat_zpow (52 + expo x)).neg
        have : ¬ (-(2 : ℝ) ^ (52 + expo x) ≤ y) := fun h' => c1 ⟨by linarith, h'⟩
        symm
        refine expo_eq ?_ ?_ <;> rw [← split_zpow, abs_of_neg hyn] <;> linarith
      · have hyp : 0 < y := hxp.trans_le h
        rw [abs_of_pos hxp] at a1 a2
        rw [abs_of_pos hyp] at b1 b2
        have c1 := hno _ (isFloat_zpow (53 + expo x))
        have : ¬ ((2 : ℝ) ^ (53 + expo x) ≤ y) := fun h' => c1 ⟨by linarith, h'⟩
        symm
        refine expo_eq ?_ ?_ <;> rw [← split_zpow, abs_of_pos hyp] <;> linarith
    unfold rnd
    rw [he]
    have hp := two_zpow_pos (expo y)
    have : rne (x / 2 ^ expo y) ≤ rne (y / 2 ^ expo y) := rne_mono (by gcongr)
    have : (rne (x / 2 ^ expo y) : ℝ) ≤ rne (y / 2 ^ expo y) := by exact_mod_cast this
    gcongr

theorem rnd_nonpos {x : ℝ} : rnd x ≤ 0 ↔ x ≤ 0 := by
  constructor
  · intro h
    by_contra hx
    rw [not_le] at hx
    have := rnd_err x
    rw [abs_of_pos hx, abs_le] at this
    have : (1 : ℝ) / 2 ^ 53 * x < x := by nlinarith [show (1 : ℝ) / 2 ^ 53 < 1 by norm_num]
    linarith
  · intro h
    have := rnd_mono h
    rwa [rnd_zero] at this

/-- Sterbenz: differences of numbers of similar size are exact. -/
theorem sterbenz {x y : ℝ} (hx : IsFloat x) (hy : IsFloat y) (hy0 : 0 ≤ y) (h1 : y / 2 ≤ x)
    (h2 : x ≤ 2 * y) : IsFloat (x - y) := by
  obtain ⟨a, e, ha, rfl⟩ := hx
  obtain ⟨b, g, hb, rfl⟩ := hy
  -- the smaller exponent can be used for both
  have key : ∀ (a b : ℤ) (e : ℤ) (k : ℕ), |a| < 2 ^ 53 → |b| < 2 ^ 53 →
      |(a : ℝ) - b * 2 ^ k| ≤ |(a : ℝ)| → IsFloat ((a : ℝ) * 2 ^ e - b * 2 ^ (e + k)) := by
    intro a b e k ha hb h
    refine ⟨a - b * 2 ^ k, e, ?_, ?_⟩
    · have : |((a - b * 2 ^ k : ℤ) : ℝ)| ≤ ((|a| : ℤ) : ℝ) := by
        push_cast
        exact h
      have : |a - b * 2 ^ k| ≤ |a| := by exact_mod_cast this
      omega
    · rw [split_zpow, zpow_natCast]
      push_cast
      ring
  rcases le_total e g with heg | heg
  · obtain ⟨k, hk⟩ := Int.eq_ofNat_of_zero_le (sub_nonneg.mpr heg)
    obtain rfl : g = e + k := by omega
    have hp := two_zpow_pos e
    rw [split_zpow, zpow_natCast] at hy0 h1 h2
    refine key a b e k ha hb ?_
    have c0 : (0 : ℝ) ≤ b * 2 ^ k := by
      by_contra hc
      nlinarith
    have c1 : (b : ℝ) * 2 ^ k / 2 ≤ a := by
      by_contra hc
      nlinarith
    have c2 : (a : ℝ) ≤ 2 * (b * 2 ^ k) := by
      by_contra hc
      nlinarith
    rw [abs_of_nonneg (by linarith : (0 : ℝ) ≤ a), abs_le]
    constructor <;> linarith
  · obtain ⟨k, hk⟩ := Int.eq_ofNat_of_zero_le (sub_nonneg.mpr heg)
    obtain rfl : e = g + k := by omega
    have hp := two_zpow_pos g
    rw [split_zpow, zpow_natCast] at h1 h2
    rw [← neg_sub]
    refine (key b a g k hb ha ?_).neg
    have c0 : (0 : ℝ) ≤ b := by
      by_contra hc
      nlinarith
    have c1 : (b : ℝ) / 2 ≤ a * 2 ^ k := by
      by_contra hc
      nlinarith
    have c2 : (a : ℝ) * 2 ^ k ≤ 2 * b := by
      by_contra hc
      nlinarith
    rw [abs_of_nonneg c0, abs_le]
    constructor <;> linarith

theorem rne_eq {y : ℝ} {k : ℤ} (h : |y - k| < 1 / 2 ∨ (|y - k| = 1 / 2 ∧ Even k)) : rne y = k := by
  have h0 := Int.floor_le y
  have h1 := Int.lt_floor_add_one y
  have hcase : ⌊y⌋ = k ∨ ⌊y⌋ = k - 1 := by
    have h2 : |y - k| ≤ 1 / 2 := by rcases h with h | ⟨h, -⟩ <;> linarith
    rw [abs_le] at h2
    have a : k - 1 ≤ ⌊y⌋ := Int.le_floor.mpr (by push_cast; linarith)
    have b : ⌊y⌋ < k + 1 := Int.floor_lt.mpr (by push_cast; linarith)
    omega
  unfold rne
  rcases hcase with e | e <;> rw [e] at h0 h1 ⊢
  · rw [abs_of_nonneg (by linarith)] at h
    split_ifs with g1 g2 g3
    · rfl
    · rcases h with h | ⟨h, -⟩ <;> linarith
    · rfl
    · rcases h with h | h
      · exact absurd h g1
      · exact absurd h.2 g3
  · push_cast at h0 h1 ⊢
    rw [abs_of_nonpos (by linarith)] at h
    split_ifs with g1 g2 g3
    · rcases h with h | ⟨h, -⟩ <;> linarith
    · ring
    · rcases h with h | h
      · exact absurd (by linarith) g2
      · exact absurd h.2 (Int.even_sub_one.mp g3)
    · ring

/-- Rounding of multiples of a power of two, in integers. -/
theorem rnd_units {A k q : ℤ} {j : ℕ} (h1 : 2 ^ (52 + j) ≤ A) (h2 : A < 2 ^ (53 + j))
    (h3 : 2 * |A - k * 2 ^ j| < 2 ^ j ∨ (2 * |A - k * 2 ^ j| = 2 ^ j ∧ Even k)) :
    rnd ((A : ℝ) * 2 ^ q) = ((k * 2 ^ j : ℤ) : ℝ) * 2 ^ q := by
  have hq := two_zpow_pos q
  have hj : (0 : ℝ) < 2 ^ j := by positivity
  have hA : (0 : ℤ) < A := lt_of_lt_of_le (by positivity) h1
  have hAr : (0 : ℝ) < A := by exact_mod_cast hA
  have e0 : (2 : ℝ) ^ (q + j) = 2 ^ j * 2 ^ q := by
    rw [split_zpow, zpow_natCast]
    ring
  have r1 : (2 : ℝ) ^ (52 + j) ≤ A := by exact_mod_cast h1
  have r2 : (A : ℝ) < 2 ^ (53 + j) := by exact_mod_cast h2
  rw [Verif.Fl.rnd_eq (e := q + j)]
  · rw [rne_eq (k := k), e0]
    · push_cast
      ring
    · have : (A : ℝ) * 2 ^ q / 2 ^ (q + j) - k = ((A - k * 2 ^ j : ℤ) : ℝ) / 2 ^ j := by
        rw [e0]
        push_cast
        field_simp
      rw [this, abs_div, abs_of_pos hj, div_lt_iff₀ hj, div_eq_iff hj.ne']
      rcases h3 with h3 | ⟨h3, h4⟩
      · left
        have : (2 : ℝ) * |((A - k * 2 ^ j : ℤ) : ℝ)| < 2 ^ j := by exact_mod_cast h3
        linarith
      · right
        refine ⟨?_, h4⟩
        have : (2 : ℝ) * |((A - k * 2 ^ j : ℤ) : ℝ)| = 2 ^ j := by exact_mod_cast h3
        linarith
  · rw [e0, abs_of_pos (by positivity)]
    have : (2 : ℝ) ^ (52 : ℤ) * (2 ^ j * 2 ^ q) = 2 ^ (52 + j) * 2 ^ q := by
      rw [pow_add, show (2 : ℝ) ^ (52 : ℤ) = 2 ^ 52 by norm_cast]
      ring
    rw [this]
    gcongr
  · rw [e0, abs_of_pos (by positivity)]
    have : (2 : ℝ) ^ (53 : ℤ) * (2 ^ j * 2 ^ q) = 2 ^ (53 + j) * 2 ^ q := by
      rw [pow_add, show (2 : ℝ) ^ (53 : ℤ) = 2 ^ 53 by norm_cast]
      ring
    rw [this]
    gcongr

theorem rne_nearest (y : ℝ) (k : ℤ) : |(rne y : ℝ) - y| ≤ |(k : ℝ) - y| := by
  rcases lt_or_ge |y - k| (1 / 2) with h | h
  · rw [rne_eq (.inl h)]
  · rw [abs_sub_comm (k : ℝ) y]
    exact (rne_err y).trans h

/-- No number with 53 significant bits is nearer than the rounded one. -/
theorem rnd_nearest {f : ℝ} (x : ℝ) (hf : IsFloat f) : |rnd x - x| ≤ |f - x| := by
  rcases eq_or_ne x 0 with rfl | hx
  · simp [rnd_zero]
  obtain ⟨g1, g2⟩ := expo_spec hx
  have hp := two_zpow_pos (expo x)
  have key : ∀ k : ℤ, |rnd x - x| ≤ |k * 2 ^ expo x - x| := by
    intro k
    have h := rne_nearest (x / 2 ^ expo x) k
    have e : ∀ r : ℝ, |r * 2 ^ expo x - x| = |r - x / 2 ^ expo x| * 2 ^ expo x := by
      intro r
      rw [← abs_of_pos hp, ← abs_mul, abs_of_pos hp, sub_mul, div_mul_cancel₀ _ hp.ne']
    unfold rnd
    rw [e, e]
    exact mul_le_mul_of_nonneg_right h hp.le
  obtain ⟨m, e, hm, rfl⟩ := hf
  rcases le_or_gt (expo x) e with he | he
  · obtain ⟨d, rfl⟩ := Int.le.dest he
    have := key (m * 2 ^ d)
    rw [split_zpow]
    push_cast at this
    rw [zpow_natCast]
    convert this using 2
    ring
  · have hfb : |(m : ℝ) * 2 ^ e| ≤ 2 ^ (52 : ℤ) * 2 ^ expo x := by
      rw [abs_mul, abs_of_pos (two_zpow_pos e)]
      have h1 : |(m : ℝ)| ≤ 2 ^ (53 : ℤ) := by
        have : ((|m| : ℤ) : ℝ) ≤ ((2 ^ 53 : ℤ) : ℝ) := by exact_mod_cast hm.le
        rw [Int.cast_abs] at this
        refine this.trans (le_of_eq ?_)
        norm_cast
      have h2 : (2 : ℝ) ^ e ≤ 2 ^ (expo x - 1) := zpow_le_zpow_right₀ (by norm_num) (by omega)
      calc |(m : ℝ)| * 2 ^ e ≤ 2 ^ (53 : ℤ) * 2 ^ (expo x - 1) :=
            mul_le_mul h1 h2 (two_zpow_pos e).le (two_zpow_pos _).le
        _ = _ := by
          rw [← split_zpow, ← split_zpow]
          congr 1
          ring
    obtain ⟨b1, b2⟩ := abs_le.mp hfb
    rcases le_or_gt 0 x with h0 | h0
    · rw [abs_of_nonneg h0] at g1
      have := key (2 ^ 52)
      refine this.trans ?_
      have e1 : ((2 ^ 52 : ℤ) : ℝ) = 2 ^ (52 : ℤ) := by norm_cast
      rw [e1, abs_of_nonpos (by linarith), abs_of_nonpos (by linarith)]
      linarith
    · rw [abs_of_neg h0] at g1
      have := key (-2 ^ 52)
      refine this.trans ?_
      have e1 : ((-2 ^ 52 : ℤ) : ℝ) = -2 ^ (52 : ℤ) := by norm_cast
      rw [e1, abs_of_nonneg (by linarith), abs_of_nonneg (by linarith)]
      linarith

end Verif.Fl
