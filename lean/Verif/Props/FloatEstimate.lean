/-
C109: the next step size estimated in floating point arithmetic, for every choice of the five
exponents.
-/
import Verif.Props.FloatControl

namespace Verif.Props

open Verif.Control Verif.XReal Verif.Fl

/-- Without rounding and with the exact power, the estimate of the arithmetic is the estimate. -/
theorem C109_estimate_exact (par : Params) (cfg : Config) (i : Input) :
    estimateFl id pow par cfg i = estimate par cfg i := by
  simp only [estimateFl, estimate, rdX_id]

/-- Positive numbers that differ by a factor of at most `c`. -/
def Near (c : ℝ) (X Y : XReal) : Prop :=
  ∃ x y, X = fin x ∧ Y = fin y ∧ 0 < x ∧ 0 < y ∧ y ≤ c * x ∧ x ≤ c * y

/-- A power function that is right up to the factor `1 + v`, for positive bases. -/
def PowerNear (pw : XReal → ℝ → XReal) (v : ℝ) : Prop :=
  ∀ a y, 0 < a → ∃ z, pw (fin a) y = fin z ∧ 0 < z ∧ z ≤ (1 + v) * a ^ y ∧ a ^ y ≤ (1 + v) * z

theorem powerNear_exact : PowerNear pow 0 := fun a y ha =>
  ⟨a ^ y, pow_fin ha y, Real.rpow_pos_of_pos ha y, by simp, by simp⟩

/-- The factor of one rounding, `1 / (1 - 2 ^ (-53))`. -/
noncomputable def oneRd : ℝ := 2 ^ 53 / (2 ^ 53 - 1)

theorem one_le_oneRd : 1 ≤ oneRd := by unfold oneRd; norm_num

theorem Near.rd {c : ℝ} {X Y : XReal} (h : Near c X Y) (hc : 0 < c) :
    Near (c * oneRd) X (rdX rnd Y) := by
  obtain ⟨x, y, rfl, rfl, hx, hy, h1, h2⟩ := h
  have e := abs_le.mp (rnd_err y)
  rw [abs_of_pos hy] at e
  have l : y ≤ oneRd * rnd y := by
    have : y * (1 - 1 / 2 ^ 53) ≤ rnd y := by linarith [e.1]
    calc y = oneRd * (y * (1 - 1 / 2 ^ 53)) := by unfold oneRd; norm_num; ring
      _ ≤ _ := by
        have := one_le_oneRd
        gcongr
  have p : 0 < rnd y := by
    have := one_le_oneRd
    by_contra hn
    nlinarith [mul_nonneg (by linarith : (0 : ℝ) ≤ oneRd) (neg_nonneg.mpr (not_lt.mp hn))]
  have u : rnd y ≤ oneRd * y := by
    have h3 : rnd y ≤ (1 + 1 / 2 ^ 53) * y := by linarith [e.2]
    have h4 : (1 + 1 / 2 ^ 53 : ℝ) ≤ oneRd := by unfold oneRd; norm_num
    exact h3.trans (mul_le_mul_of_nonneg_right h4 hy.le)
  have w0 : 0 < oneRd := lt_of_lt_of_le one_pos one_le_oneRd
  refine ⟨x, rnd y, rfl, rfl, hx, p, ?_, ?_⟩
  · calc rnd y ≤ oneRd * y := u
      _ ≤ oneRd * (c * x) := mul_le_mul_of_nonneg_left h1 w0.le
      _ = _ := by ring
  · calc x ≤ c * y := h2
      _ ≤ c * (oneRd * rnd y) := by gcongr
      _ = _ := by ring

theorem Near.mul {c c' : ℝ} {X Y X' Y' : XReal} (h : Near c X Y) (h' : Near c' X' Y')
    (hc : 0 < c) : Near (c * c') (mul X X') (mul Y Y') := by
  obtain ⟨x, y, rfl, rfl, hx, hy, h1, h2⟩ := h
  obtain ⟨x', y', rfl, rfl, hx', hy', h1', h2'⟩ := h'
  refine ⟨x * x', y * y', rfl, rfl, by positivity, by positivity, ?_, ?_⟩
  · calc y * y' ≤ c * x * (c' * x') := by gcongr
      _ = _ := by ring
  · calc x * x' ≤ c * y * (c' * y') := by gcongr
      _ = _ := by ring

theorem rpow_near {c x y e : ℝ} (hc : 0 < c) (hx : 0 < x) (hy : 0 < y) (h1 : y ≤ c * x)
    (h2 : x ≤ c * y) : y ^ e ≤ c ^ |e| * x ^ e := by
  rcases le_total 0 e with he | he
  · rw [abs_of_nonneg he, ← Real.mul_rpow hc.le hx.le]
    exact Real.rpow_le_rpow hy.le h1 he
  · have h3 : c⁻¹ * x ≤ y := by
      rw [inv_mul_le_iff₀ hc]
      exact h2
    rw [abs_of_nonpos he, Real.rpow_neg hc.le, ← Real.inv_rpow hc.le,
      ← Real.mul_rpow (by positivity) hx.le]
    exact Real.rpow_le_rpow_of_nonpos (by positivity) h3 he

theorem Near.pow {pw : XReal → ℝ → XReal} {v c : ℝ} (hp : PowerNear pw v) (hv : 0 ≤ v)
    {X Y : XReal} (h : Near c X Y) (hc : 0 < c) (e : ℝ) :
    Near (c ^ |e| * (1 + v)) (pow X e) (pw Y e) := by
  obtain ⟨x, y, rfl, rfl, hx, hy, h1, h2⟩ := h
  obtain ⟨z, hz, pz, hz1, hz2⟩ := hp y e hy
  refine ⟨x ^ e, z, pow_fin hx e, hz, Real.rpow_pos_of_pos hx e, pz, ?_, ?_⟩
  · calc z ≤ (1 + v) * y ^ e := hz1
      _ ≤ (1 + v) * (c ^ |e| * x ^ e) := by
        gcongr
        exact rpow_near hc hx hy h1 h2
      _ = _ := by ring
  · calc x ^ e ≤ c ^ |e| * y ^ e := rpow_near hc hy hx h2 h1
      _ ≤ c ^ |e| * ((1 + v) * z) := by gcongr
      _ = _ := by ring

theorem Near.mono {c c' : ℝ} {X Y : XReal} (h : Near c X Y) (hc : c ≤ c') : Near c' X Y := by
  obtain ⟨x, y, rfl, rfl, hx, hy, h1, h2⟩ := h
  exact ⟨x, y, rfl, rfl, hx, hy, h1.trans (by gcongr), h2.trans (by gcongr)⟩

/-- A rounded quotient, its power, the product with the number so far and its rounding. -/
theorem Near.factor {pw : XReal → ℝ → XReal} {v c : ℝ} (hp : PowerNear pw v) (hv : 0 ≤ v)
    {X Y : XReal} (h : Near c X Y) (hc : 0 < c) {p q : ℝ} (pp : 0 < p) (pq : 0 < q) (e : ℝ) :
    Near (c * (oneRd ^ |e| * (1 + v) * oneRd)) (XReal.mul X (XReal.pow (div (fin p) (fin q)) e))
      (rdX rnd (XReal.mul Y (pw (rdX rnd (div (fin p) (fin q))) e))) := by
  have h0 : Near 1 (div (fin p) (fin q)) (div (fin p) (fin q)) := by
    rw [div_fin _ pq.ne']
    exact ⟨p / q, p / q, rfl, rfl, by positivity, by positivity, by simp, by simp⟩
  have w0 : 0 < oneRd := lt_of_lt_of_le one_pos one_le_oneRd
  have h1 := (h0.rd one_pos).pow hp hv (by positivity) e
  have h2 := (h.mul h1 hc).rd (by positivity)
  rw [one_mul] at h2
  exact h2.mono (le_of_eq (by ring))

/-- C109, every controller: for positive data the estimate in binary64 and the exact estimate differ
at most by a factor close to one, that grows with the sum of the magnitudes of the exponents used:
six roundings of products, five errors of the power, and the rounded quotients raised to the
exponents. The previous step sizes may be zero, then their factors are left out by both. -/
theorem C109_estimate_accurate {pw : XReal → ℝ → XReal} {v : ℝ} (hp : PowerNear pw v) (hv : 0 ≤ v)
    (par : Params) (cfg : Config) (i : Input) {κ h t e e₁ e₂ h₁ h₂ : ℝ}
    (hκ : cfg.safety = fin κ) (ht : cfg.tol = fin t) (hi : i.dt = fin h) (he : i.err = fin e)
    (hE : i.errHist = (fin e₁, fin e₂)) (hS : i.stepHist = (fin h₁, fin h₂))
    (pκ : 0 < κ) (pt : 0 < t) (ph : 0 < h) (pe : 0 < e) (pe₁ : 0 < e₁) (pe₂ : 0 < e₂)
    (ph₁ : 0 ≤ h₁) (ph₂ : 0 ≤ h₂) :
    ∃ d d', estimate par cfg i = fin d ∧ estimateFl rnd pw par cfg i = fin d' ∧ 0 < d ∧ 0 < d' ∧
      d' ≤ oneRd ^ (6 + (|par.alpha| + |par.beta| + |par.gamma| + |par.a| + |par.b|))
        * (1 + v) ^ 5 * d ∧
      d ≤ oneRd ^ (6 + (|par.alpha| + |par.beta| + |par.gamma| + |par.a| + |par.b|))
        * (1 + v) ^ 5 * d' := by
  have w1 := one_le_oneRd
  have w0 : 0 < oneRd := lt_of_lt_of_le one_pos w1
  have f1 : ∀ x : ℝ, 1 ≤ oneRd ^ |x| * (1 + v) * oneRd := by
    intro x
    have : 1 ≤ oneRd ^ |x| := Real.one_le_rpow w1 (abs_nonneg x)
    calc (1 : ℝ) = 1 * 1 * 1 := by ring
      _ ≤ _ := by gcongr; linarith
  have k0 : Near oneRd (mul cfg.safety i.dt) (rdX rnd (mul cfg.safety i.dt)) := by
    have : Near 1 (mul cfg.safety i.dt) (mul cfg.safety i.dt) := by
      rw [hκ, hi]
      exact ⟨_, _, rfl, rfl, by positivity, by positivity, by simp, by simp⟩
    simpa using this.rd one_pos
  have k1 := k0.factor hp hv w0 pt pe par.alpha
  have k2 := k1.factor hp hv (by positivity) pe₁ pt par.beta
  have k3 := k2.factor hp hv (by positivity) pt pe₂ par.gamma
  set C3 := oneRd * (oneRd ^ |par.alpha| * (1 + v) * oneRd)
    * (oneRd ^ |par.beta| * (1 + v) * oneRd) * (oneRd ^ |par.gamma| * (1 + v) * oneRd) with hC3
  have p3 : 0 < C3 := by positivity
  have total : C3 * (oneRd ^ |par.a| * (1 + v) * oneRd) * (oneRd ^ |par.b| * (1 + v) * oneRd)
      = oneRd ^ (6 + (|par.alpha| + |par.beta| + |par.gamma| + |par.a| + |par.b|))
        * (1 + v) ^ 5 := by
    rw [hC3, Real.rpow_add w0, Real.rpow_add w0, Real.rpow_add w0, Real.rpow_add w0,
      Real.rpow_add w0]
    have : oneRd ^ (6 : ℝ) = oneRd ^ 6 := by exact_mod_cast Real.rpow_natCast oneRd 6
    rw [this]
    ring
  have key : Near (C3 * (oneRd ^ |par.a| * (1 + v) * oneRd)
      * (oneRd ^ |par.b| * (1 + v) * oneRd)) (estimate par cfg i)
      (estimateFl rnd pw par cfg i) := by
    unfold estimate estimateFl
    simp only [hE, hS, he, ht]
    have z : ∀ x : ℝ, (fin x : XReal) ≠ 0 ↔ x ≠ 0 := by
      intro x
      rw [Ne, Ne, not_iff_not]
      exact ⟨fun hx => by cases hx; rfl, fun hx => by rw [hx]; rfl⟩
    have a1 : i.stepHist.1 = fin h₁ := by rw [hS]
    have a2 : i.stepHist.2 = fin h₂ := by rw [hS]
    by_cases c1 : i.stepHist.1 ≠ 0
    · have p1 : 0 < h₁ := lt_of_le_of_ne ph₁ ((z h₁).mp (a1 ▸ c1)).symm
      have k4 := k3.factor hp hv p3 ph p1 par.a
      rw [← hi] at k4
      by_cases c2 : i.stepHist.2 ≠ 0
      · have p2 : 0 < h₂ := lt_of_le_of_ne ph₂ ((z h₂).mp (a2 ▸ c2)).symm
        have k5 := k4.factor hp hv (by positivity) p1 p2 par.b
        simp only [if_pos c1, if_pos c2]
        exact k5
      · simp only [if_pos c1, if_neg c2]
        exact k4.mono (le_mul_of_one_le_right (by positivity) (f1 _))
    · simp only [if_neg c1]
      exact k3.mono ((le_mul_of_one_le_right p3.le (f1 par.a)).trans
        (le_mul_of_one_le_right (by positivity) (f1 par.b)))
  rw [total] at key
  obtain ⟨d, d', h1, h2, h3, h4, h5, h6⟩ := key
  exact ⟨d, d', h1, h2, h3, h4, h5, h6⟩

/-- The H312-like exponents `1/4, -1/2, 1/4, -3/4, -1/4` after two steps, with the exact power: the
estimate is right up to eight factors of one rounding. -/
example : ∃ d d', estimate ⟨1 / 4, -1 / 2, 1 / 4, -3 / 4, -1 / 4⟩ Config.default
      ⟨fin 2, fin 1, fin 5, (fin 3, fin 4), (fin (1 / 2), fin (1 / 4))⟩ = fin d ∧
    estimateFl rnd pow ⟨1 / 4, -1 / 2, 1 / 4, -3 / 4, -1 / 4⟩ Config.default
      ⟨fin 2, fin 1, fin 5, (fin 3, fin 4), (fin (1 / 2), fin (1 / 4))⟩ = fin d' ∧
    d' ≤ oneRd ^ (8 : ℝ) * d := by
  obtain ⟨d, d', h1, h2, -, -, h5, -⟩ := C109_estimate_accurate powerNear_exact le_rfl
    ⟨1 / 4, -1 / 2, 1 / 4, -3 / 4, -1 / 4⟩ Config.default
    ⟨fin 2, fin 1, fin 5, (fin 3, fin 4), (fin (1 / 2), fin (1 / 4))⟩ rfl rfl rfl rfl rfl rfl
    (by norm_num) (by norm_num) (by norm_num) (by norm_num) (by norm_num) (by norm_num)
    (by norm_num) (by norm_num)
  refine ⟨d, d', h1, h2, h5.trans (le_of_eq ?_)⟩
  norm_num [abs_of_pos, abs_of_neg]

end Verif.Props
