/-
The closed loop of a controller: the specification for property C89 (`Loop`, `Free`, `Target`)
and helper lemmas. No function of /repo is modelled here.

The specification `Loop` feeds the suggestions of a controller back to it, as the integrator does
after accepted steps (runge_kutta_integrator.py L604-619), for an error that is a multiple of the
power `k` of the step size.
-/
import Verif.Control.Loop

namespace Verif.Control

open XReal
open Classical

/-- `N` accepted steps under the controller `c`: the step sizes `h 0, h 1, ...`, the errors
`φ n * h n ^ k`, the remaining times `rem n`; each suggestion is the next step size. -/
structure Loop (c : Ctrl) (k : ℕ) (φ : ℕ → ℝ) (rem : ℕ → XReal) (N : ℕ) (h : ℕ → ℝ) : Prop where
  pos : ∀ n ≤ N + 2, 0 < h n
  step : ∀ n < N, (c.call true ⟨fin (φ (n + 2) * h (n + 2) ^ k), fin (h (n + 2)), rem n,
    (fin (φ (n + 1) * h (n + 1) ^ k), fin (φ n * h n ^ k)), (fin (h (n + 1)), fin (h n))⟩).2
      = .ok ⟨fin (h (n + 3)), true⟩

/-- The bounds on the step size and the final time are not active in these steps. -/
def Free (cfg : Config) (rem : ℕ → XReal) (N : ℕ) (h : ℕ → ℝ) : Prop :=
  ∀ n < N, lt cfg.lower (fin (h (n + 3))) ∧ lt (fin (h (n + 3))) cfg.upper ∧
    lt (fin (h (n + 3))) (rem n)

/-- `hs` is the step size at which the error is the tolerance `t` times the factor that the safety
factor `κ` and the exponents of the controller leave. -/
def Target (par : Params) (k : ℕ) (κ t φ hs : ℝ) : Prop :=
  0 < hs ∧ φ * hs ^ k = t * κ ^ (1 / (par.alpha - par.beta + par.gamma))

/-- The conditions on the exponents under which the loop is stable. -/
def StableLoop (par : Params) (k : ℕ) : Prop :=
  Jury (-(1 + par.a - par.alpha * k)) (-(par.b - par.a + par.beta * k)) (par.b + par.gamma * k) ∧
    0 < par.alpha - par.beta + par.gamma

theorem target_log {par : Params} {k : ℕ} {κ t φ hs : ℝ} (h : Target par k κ t φ hs) (pκ : 0 < κ)
    (pt : 0 < t) (pφ : 0 < φ) (htot : 0 < par.alpha - par.beta + par.gamma) :
    (par.alpha - par.beta + par.gamma) * (Real.log φ + k * Real.log hs - Real.log t)
      = Real.log κ := by
  have e := congrArg Real.log h.2
  rw [Real.log_mul pφ.ne' (pow_ne_zero _ h.1.ne'), Real.log_pow,
    Real.log_mul pt.ne' (Real.rpow_pos_of_pos pκ _).ne', Real.log_rpow pκ] at e
  rw [e]
  field_simp
  ring

/-- The exponent of the estimate relative to the target. -/
theorem estimate_rel {par : Params} {k : ℕ} {cfg : Config} {κ t φ0 hs : ℝ}
    (hκ : cfg.safety = fin κ) (ht : cfg.tol = fin t) (pκ : 0 < κ) (pt : 0 < t) (pφ : 0 < φ0)
    (htot : 0 < par.alpha - par.beta + par.gamma) (hT : Target par k κ t φ0 hs)
    (rem : XReal) (f2 f1 f0 h2 h1 h0 : ℝ) (pf2 : 0 < f2) (pf1 : 0 < f1) (pf0 : 0 < f0)
    (ph2 : 0 < h2) (ph1 : 0 < h1) (ph0 : 0 < h0) :
    estimate par cfg ⟨fin (f2 * h2 ^ k), fin h2, rem, (fin (f1 * h1 ^ k), fin (f0 * h0 ^ k)),
      (fin h1, fin h0)⟩
      = fin (hs * Real.exp ((1 + par.a - par.alpha * k) * Real.log (h2 / hs)
        + (par.b - par.a + par.beta * k) * Real.log (h1 / hs)
        - (par.b + par.gamma * k) * Real.log (h0 / hs)
        - par.alpha * Real.log (f2 / φ0) + par.beta * Real.log (f1 / φ0)
        - par.gamma * Real.log (f0 / φ0))) := by
  rw [estimate_log par cfg κ t hκ ht pκ pt rem _ _ _ h2 h1 h0 (by positivity) (by positivity)
    (by positivity) ph2 ph1 ph0]
  have e := target_log hT pκ pt pφ htot
  have hsp := hT.1
  congr 1
  have ex : ∀ y, hs * Real.exp y = Real.exp (Real.log hs + y) := fun y => by
    rw [Real.exp_add, Real.exp_log hsp]
  rw [ex]
  congr 1
  rw [Real.log_mul pf2.ne' (pow_ne_zero _ ph2.ne'), Real.log_mul pf1.ne' (pow_ne_zero _ ph1.ne'),
    Real.log_mul pf0.ne' (pow_ne_zero _ ph0.ne'), Real.log_pow, Real.log_pow, Real.log_pow,
    Real.log_div ph2.ne' hsp.ne', Real.log_div ph1.ne' hsp.ne',
    Real.log_div ph0.ne' hsp.ne', Real.log_div pf2.ne' pφ.ne',
    Real.log_div pf1.ne' pφ.ne', Real.log_div pf0.ne' pφ.ne', ← e]
  ring

/-- The recurrence of the logarithms in free accepted steps. -/
theorem Loop.logs {par : Params} {cfg : Config} {c : Ctrl} (hc : Fresh par cfg c) {k : ℕ}
    {κ t φ0 hs : ℝ} (hκ : cfg.safety = fin κ) (ht : cfg.tol = fin t) (pκ : 0 < κ) (pt : 0 < t)
    (pφ : 0 < φ0) (htot : 0 < par.alpha - par.beta + par.gamma) (hT : Target par k κ t φ0 hs)
    {φ : ℕ → ℝ} (hφ : ∀ n, 0 < φ n) {rem : ℕ → XReal} {N : ℕ} {h : ℕ → ℝ}
    (L : Loop c k φ rem N h) (F : Free cfg rem N h) (n : ℕ) (hn : n < N) :
    Real.log (h (n + 3) / hs) = (1 + par.a - par.alpha * k) * Real.log (h (n + 2) / hs)
        + (par.b - par.a + par.beta * k) * Real.log (h (n + 1) / hs)
        - (par.b + par.gamma * k) * Real.log (h n / hs)
        - par.alpha * Real.log (φ (n + 2) / φ0) + par.beta * Real.log (φ (n + 1) / φ0)
        - par.gamma * Real.log (φ n / φ0) := by
  obtain ⟨ha, hsug⟩ := hc.of_ok _ _ _ (L.step n hn)
  have p0 := L.pos n (by omega)
  have p1 := L.pos (n + 1) (by omega)
  have p2 := L.pos (n + 2) (by omega)
  have he := estimate_rel hκ ht pκ pt pφ htot hT (rem n) (φ (n + 2)) (φ (n + 1)) (φ n) _ _ _
    (hφ _) (hφ _) (hφ _) p2 p1 p0
  have hne : φ (n + 2) * h (n + 2) ^ k ≠ 0 := (mul_pos (hφ _) (pow_pos p2 k)).ne'
  have e := estimate_of_inside par cfg _ _ _ _ rfl ha he
    (by rw [zero_def]; simpa only [ne_eq, fin_inj] using hne) hsug (F n hn).1 (F n hn).2.1 (F n hn).2.2
  rw [← e, mul_div_cancel_left₀ _ hT.1.ne', Real.log_exp]

/-- C89 for any exponents that meet the conditions: the step sizes follow the target. -/
theorem follows {par : Params} {k : ℕ} (hst : StableLoop par k) :
    ∃ K s : ℝ, 0 ≤ K ∧ 0 ≤ s ∧ s < 1 ∧ ∀ (cfg : Config) (c : Ctrl) (κ t φ0 hs : ℝ),
      Fresh par cfg c → cfg.safety = fin κ → cfg.tol = fin t → 0 < κ → 0 < t → 0 < φ0 →
      Target par k κ t φ0 hs → ∀ (φ : ℕ → ℝ) (rem : ℕ → XReal) (N : ℕ) (h : ℕ → ℝ) (M ε : ℝ),
      (∀ n, 0 < φ n ∧ |Real.log (φ n / φ0)| ≤ ε) → Loop c k φ rem N h → Free cfg rem N h →
      (∀ n < 3, |Real.log (h n / hs)| ≤ M) →
      ∀ n ≤ N + 2, |Real.log (h n / hs)| ≤ K * (M * s ^ n + ε) := by
  obtain ⟨J, htot⟩ := hst
  obtain ⟨K, s, hK, hs0, hs1, H⟩ := J.decay
  obtain ⟨A, hA⟩ : ∃ A, A = |par.alpha| + |par.beta| + |par.gamma| := ⟨_, rfl⟩
  have hA0 : 0 ≤ A := by
    rw [hA]
    have := abs_nonneg par.alpha; have := abs_nonneg par.beta; have := abs_nonneg par.gamma
    linarith
  refine ⟨K * (1 + A), s, by positivity, hs0, hs1, ?_⟩
  intro cfg c κ t φ0 hs hc hκ ht pκ pt pφ hT φ rem N h M ε hφ L F hM n hn
  have hε : 0 ≤ ε := (abs_nonneg _).trans (hφ 0).2
  have hM0 : 0 ≤ M := (abs_nonneg _).trans (hM 0 (by norm_num))
  have hrec := fun n hn => L.logs hc hκ ht pκ pt pφ htot hT (fun n => (hφ n).1) F n hn
  have b := H (fun n => Real.log (h n / hs)) N M (A * ε) (by positivity) (fun n hn => by
      rw [hrec n hn]
      have e : ∀ x2 x1 x0 f2 f1 f0 : ℝ,
          (1 + par.a - par.alpha * k) * x2 + (par.b - par.a + par.beta * k) * x1
            - (par.b + par.gamma * k) * x0 - par.alpha * f2 + par.beta * f1 - par.gamma * f0
          + -(1 + par.a - par.alpha * k) * x2 + -(par.b - par.a + par.beta * k) * x1
            + (par.b + par.gamma * k) * x0 = -par.alpha * f2 + par.beta * f1 + -par.gamma * f0 := by
        intros; ring
      rw [e]
      refine (abs_add_three _ _ _).trans ?_
      rw [abs_mul, abs_mul, abs_mul, abs_neg, abs_neg, hA]
      have g2 := mul_le_mul_of_nonneg_left (hφ (n + 2)).2 (abs_nonneg par.alpha)
      have g1 := mul_le_mul_of_nonneg_left (hφ (n + 1)).2 (abs_nonneg par.beta)
      have g0 := mul_le_mul_of_nonneg_left (hφ n).2 (abs_nonneg par.gamma)
      linarith) (hM 0 (by norm_num)) (hM 1 (by norm_num)) (hM 2 (by norm_num)) n hn
  refine b.trans ?_
  have hsn : 0 ≤ M * s ^ n := by positivity
  have : K * (M * s ^ n + A * ε) ≤ K * ((1 + A) * (M * s ^ n + ε)) := by
    refine mul_le_mul_of_nonneg_left ?_ hK
    nlinarith [mul_nonneg hA0 hsn]
  linarith

/-- Below `fin h` there is a real number above `l` or `l` is not above anything near. -/
theorem exists_low {l : XReal} {h : ℝ} (hl : lt l (fin h)) : ∃ r < h, ∀ y, r < y → lt l (fin y) := by
  cases l with
  | fin a => exact ⟨a, hl, fun y hy => hy⟩
  | pinf => exact absurd hl (not_pinf_lt _)
  | ninf => exact ⟨h - 1, by linarith, fun y _ => trivial⟩
  | nan => exact absurd hl (not_nan_lt _)

theorem exists_high {u : XReal} {h : ℝ} (hu : lt (fin h) u) :
    ∃ r > h, ∀ y, y < r → lt (fin y) u := by
  cases u with
  | fin a => exact ⟨a, hu, fun y hy => hy⟩
  | ninf => exact absurd hu (not_lt_ninf _)
  | pinf => exact ⟨h + 1, by linarith, fun y _ => trivial⟩
  | nan => exact absurd hu (not_lt_nan _)

/-- The sequence that the recurrence of `Loop.logs` prescribes. -/
noncomputable def prescribed (par : Params) (k : ℕ) (f : ℕ → ℝ) (x0 x1 x2 : ℝ) : ℕ → ℝ × ℝ × ℝ
  | 0 => (x0, x1, x2)
  | n + 1 =>
    let x := prescribed par k f x0 x1 x2 n
    (x.2.1, x.2.2, (1 + par.a - par.alpha * k) * x.2.2 + (par.b - par.a + par.beta * k) * x.2.1
      - (par.b + par.gamma * k) * x.1 - par.alpha * f (n + 2) + par.beta * f (n + 1)
      - par.gamma * f n)

/-- C89 for any exponents that meet the conditions: near the target all steps are accepted. -/
theorem stays {par : Params} {k : ℕ} (hst : StableLoop par k) (cfg : Config) (c : Ctrl)
    (κ t φ0 hs : ℝ) (hc : Fresh par cfg c) (hκ : cfg.safety = fin κ) (ht : cfg.tol = fin t)
    (pκ : 0 < κ) (hκ1 : κ < 1) (pt : 0 < t) (pφ : 0 < φ0) (hT : Target par k κ t φ0 hs)
    (hl : lt cfg.lower (fin hs)) (hu : lt (fin hs) cfg.upper) :
    ∃ δ > 0, ∀ (φ : ℕ → ℝ) (h0 h1 h2 : ℝ), 0 < h0 → 0 < h1 → 0 < h2 →
      |Real.log (h0 / hs)| ≤ δ → |Real.log (h1 / hs)| ≤ δ → |Real.log (h2 / hs)| ≤ δ →
      (∀ n, 0 < φ n ∧ |Real.log (φ n / φ0)| ≤ δ) →
      ∃ h, h 0 = h0 ∧ h 1 = h1 ∧ h 2 = h2 ∧ ∀ (rem : ℕ → XReal) (N : ℕ),
        (∀ n < N, lt (fin (2 * hs)) (rem n)) → Loop c k φ rem N h ∧ Free cfg rem N h := by
  obtain ⟨J, htot⟩ := hst
  obtain ⟨K, s, hK, hs0, hs1, H⟩ := J.decay
  obtain ⟨A, hA⟩ : ∃ A, A = |par.alpha| + |par.beta| + |par.gamma| := ⟨_, rfl⟩
  have hA0 : 0 ≤ A := by
    rw [hA]
    have := abs_nonneg par.alpha; have := abs_nonneg par.beta; have := abs_nonneg par.gamma
    linarith
  have hsp := hT.1
  obtain ⟨r1, hr1, low⟩ := exists_low hl
  obtain ⟨r2, hr2, high⟩ := exists_high hu
  -- the size of the deviations that are harmless
  obtain ⟨η, hη, hη1, hη2, hη3, hη4⟩ : ∃ η > 0, r1 < hs * Real.exp (-η) ∧ hs * Real.exp η < r2 ∧
      hs * Real.exp η < 2 * hs ∧
      (1 + k) * η ≤ -Real.log κ / (par.alpha - par.beta + par.gamma) := by
    have hlog : 0 < -Real.log κ / (par.alpha - par.beta + par.gamma) :=
      div_pos (neg_pos.mpr (Real.log_neg pκ hκ1)) htot
    have c1 : Filter.Tendsto (fun η : ℝ => hs * Real.exp (-η)) (nhds 0) (nhds (hs * Real.exp (-0))) := by
      apply Continuous.tendsto; fun_prop
    have c2 : Filter.Tendsto (fun η : ℝ => hs * Real.exp η) (nhds 0) (nhds (hs * Real.exp 0)) := by
      apply Continuous.tendsto; fun_prop
    have c3 : Filter.Tendsto (fun η : ℝ => (1 + k) * η) (nhds 0) (nhds ((1 + k) * 0)) := by
      apply Continuous.tendsto; fun_prop
    simp only [neg_zero, Real.exp_zero, mul_one, mul_zero] at c1 c2 c3
    have ev := ((c1.eventually (lt_mem_nhds hr1)).and ((c2.eventually (gt_mem_nhds hr2)).and
      ((c2.eventually (gt_mem_nhds (show hs < 2 * hs by linarith))).and
        (c3.eventually (gt_mem_nhds hlog)))))
    obtain ⟨e, he, hev⟩ := Metric.eventually_nhds_iff.mp ev
    obtain ⟨q1, q2, q3, q4⟩ := hev (y := e / 2) (by
      rw [Real.dist_eq, sub_zero, abs_of_pos (by linarith)]; linarith)
    exact ⟨e / 2, by linarith, q1, q2, q3, q4.le⟩
  refine ⟨η / (1 + K * (1 + A)), by positivity, ?_⟩
  intro φ h0 h1 h2 ph0 ph1 ph2 d0 d1 d2 hφ
  obtain ⟨δ, hδ⟩ : ∃ δ, δ = η / (1 + K * (1 + A)) := ⟨_, rfl⟩
  rw [← hδ] at d0 d1 d2 hφ
  have hδ0 : 0 ≤ δ := (abs_nonneg _).trans d0
  have hδη : (1 + K * (1 + A)) * δ = η := by rw [hδ]; field_simp
  have hδle : δ ≤ η := by
    have : 0 ≤ K * (1 + A) * δ := by positivity
    linarith
  obtain ⟨X, hX⟩ : ∃ X, X = prescribed par k (fun n => Real.log (φ n / φ0)) (Real.log (h0 / hs))
    (Real.log (h1 / hs)) (Real.log (h2 / hs)) := ⟨_, rfl⟩
  have X0 : X 0 = (Real.log (h0 / hs), Real.log (h1 / hs), Real.log (h2 / hs)) := by rw [hX]; rfl
  have X1 : ∀ n, (X (n + 1)).1 = (X n).2.1 := fun n => by rw [hX]; rfl
  have X2 : ∀ n, (X (n + 1)).2.1 = (X n).2.2 := fun n => by rw [hX]; rfl
  obtain ⟨x, hx⟩ : ∃ x : ℕ → ℝ, ∀ n, x n = (X n).1 := ⟨_, fun _ => rfl⟩
  have x1 : ∀ n, x (n + 1) = (X n).2.1 := fun n => by rw [hx, X1]
  have x2 : ∀ n, x (n + 2) = (X n).2.2 := fun n => by rw [x1, X2]
  have x3 : ∀ n, x (n + 3) = (1 + par.a - par.alpha * k) * x (n + 2)
      + (par.b - par.a + par.beta * k) * x (n + 1) - (par.b + par.gamma * k) * x n
      - par.alpha * Real.log (φ (n + 2) / φ0) + par.beta * Real.log (φ (n + 1) / φ0)
      - par.gamma * Real.log (φ n / φ0) := fun n => by
    rw [x2 (n + 1), x2 n, x1 n, hx n, hX]; rfl
  have z0 : x 0 = Real.log (h0 / hs) := by rw [hx, X0]
  have z1 : x 1 = Real.log (h1 / hs) := by rw [x1 0, X0]
  have z2 : x 2 = Real.log (h2 / hs) := by rw [x2 0, X0]
  have bound : ∀ n, |x n| ≤ η := fun n => by
    have b := H x n δ (A * δ) (by positivity) (fun n _ => by
      rw [x3 n]
      have e : ∀ x2 x1 x0 f2 f1 f0 : ℝ,
          (1 + par.a - par.alpha * k) * x2 + (par.b - par.a + par.beta * k) * x1
            - (par.b + par.gamma * k) * x0 - par.alpha * f2 + par.beta * f1 - par.gamma * f0
          + -(1 + par.a - par.alpha * k) * x2 + -(par.b - par.a + par.beta * k) * x1
            + (par.b + par.gamma * k) * x0 = -par.alpha * f2 + par.beta * f1 + -par.gamma * f0 := by
        intros; ring
      rw [e]
      refine (abs_add_three _ _ _).trans ?_
      rw [abs_mul, abs_mul, abs_mul, abs_neg, abs_neg, hA]
      have g2 := mul_le_mul_of_nonneg_left (hφ (n + 2)).2 (abs_nonneg par.alpha)
      have g1 := mul_le_mul_of_nonneg_left (hφ (n + 1)).2 (abs_nonneg par.beta)
      have g0 := mul_le_mul_of_nonneg_left (hφ n).2 (abs_nonneg par.gamma)
      linarith) (by rw [z0]; exact d0) (by rw [z1]; exact d1) (by rw [z2]; exact d2) n (by omega)
    refine b.trans ?_
    have : δ * s ^ n ≤ δ := mul_le_of_le_one_right hδ0 (pow_le_one₀ hs0 hs1.le)
    have := mul_le_mul_of_nonneg_left (add_le_add_left this (A * δ)) hK
    nlinarith
  have hpos : ∀ n, 0 < hs * Real.exp (x n) := fun n => mul_pos hsp (Real.exp_pos _)
  have hlo : ∀ n, r1 < hs * Real.exp (x n) := fun n =>
    hη1.trans_le (mul_le_mul_of_nonneg_left
      (Real.exp_le_exp.mpr (neg_le_of_abs_le (bound n))) hsp.le)
  have hhi : ∀ n, hs * Real.exp (x n) ≤ hs * Real.exp η := fun n =>
    mul_le_mul_of_nonneg_left (Real.exp_le_exp.mpr (le_of_abs_le (bound n))) hsp.le
  have hlogx : ∀ n, Real.log (hs * Real.exp (x n) / hs) = x n := fun n => by
    rw [mul_div_cancel_left₀ _ hsp.ne', Real.log_exp]
  have hF : ∀ (rem : ℕ → XReal) (N : ℕ), (∀ n < N, lt (fin (2 * hs)) (rem n)) →
      Free cfg rem N (fun n => hs * Real.exp (x n)) := fun rem N hrem n hn =>
    ⟨low _ (hlo _), high _ ((hhi _).trans_lt hη2),
      XReal.lt_of_lt_of_le (y := fin (2 * hs)) (by
        rw [lt_fin]; exact (hhi _).trans_lt hη3) (XReal.le_of_lt (hrem n hn))⟩
  refine ⟨fun n => hs * Real.exp (x n), ?_, ?_, ?_, fun rem N hrem =>
    ⟨⟨fun n _ => hpos n, ?_⟩, hF rem N hrem⟩⟩
  · dsimp only; rw [z0, Real.exp_log (by positivity)]; field_simp
  · dsimp only; rw [z1, Real.exp_log (by positivity)]; field_simp
  · dsimp only; rw [z2, Real.exp_log (by positivity)]; field_simp
  · intro n hn
    have hacc : φ (n + 2) * (hs * Real.exp (x (n + 2))) ^ k ≤ t := by
      have p1 : 0 < φ (n + 2) * (hs * Real.exp (x (n + 2))) ^ k :=
        mul_pos (hφ _).1 (pow_pos (hpos _) k)
      rw [← Real.log_le_log_iff p1 pt, Real.log_mul (hφ _).1.ne' (pow_pos (hpos _) k).ne',
        Real.log_pow, Real.log_mul hsp.ne' (Real.exp_pos _).ne', Real.log_exp]
      have e := target_log hT pκ pt pφ htot
      have e' : Real.log φ0 + k * Real.log hs - Real.log t
          = Real.log κ / (par.alpha - par.beta + par.gamma) := by
        rw [← e]; field_simp
      have f := (hφ (n + 2)).2
      rw [Real.log_div (hφ _).1.ne' pφ.ne'] at f
      have f' := le_of_abs_le f
      have g := mul_le_mul_of_nonneg_left (le_of_abs_le (bound (n + 2))) (Nat.cast_nonneg (α := ℝ) k)
      rw [neg_div] at hη4
      linarith
    have ha : accepts cfg ⟨fin (φ (n + 2) * (hs * Real.exp (x (n + 2))) ^ k),
        fin (hs * Real.exp (x (n + 2))), rem n, (fin (φ (n + 1) * (hs * Real.exp (x (n + 1))) ^ k),
        fin (φ n * (hs * Real.exp (x n)) ^ k)),
        (fin (hs * Real.exp (x (n + 1))), fin (hs * Real.exp (x n)))⟩ := by
      right; right
      rw [ht]
      exact hacc
    have hest := estimate_rel hκ ht pκ pt pφ htot hT (rem n) (φ (n + 2)) (φ (n + 1)) (φ n) _ _ _
      (hφ _).1 (hφ _).1 (hφ _).1 (hpos (n + 2)) (hpos (n + 1)) (hpos n)
    rw [hlogx, hlogx, hlogx, ← x3 n] at hest
    rw [hc.call true _ ha]
    have hsug := run_sugg_inside par cfg _ _ _ rfl ha hest (by
      have hne : φ (n + 2) * (hs * Real.exp (x (n + 2))) ^ k ≠ 0 :=
        (mul_pos (hφ _).1 (pow_pos (hpos _) k)).ne'
      rw [zero_def]; simpa only [ne_eq, fin_inj] using hne) (hF rem N hrem n hn).1
      (hF rem N hrem n hn).2.1 (hF rem N hrem n hn).2.2
    have hac := (run_acc par cfg _).mpr ha
    rw [← hsug, ← hac]

/-- A sequence of geometric deviations, from its first three members. -/
theorem geometric_of_rec {a2 a1 a0 m d : ℝ} (hm : m ^ 3 + a2 * m ^ 2 + a1 * m + a0 = 0) (N : ℕ)
    (x : ℕ → ℝ) (h0 : x 0 = d) (h1 : x 1 = d * m) (h2 : x 2 = d * m ^ 2)
    (hx : ∀ n < N, x (n + 3) = -a2 * x (n + 2) + -a1 * x (n + 1) - a0 * x n) :
    ∀ n ≤ N + 2, x n = d * m ^ n := by
  intro n
  induction n using Nat.strong_induction_on with
  | _ n ih =>
    intro hn
    match n, ih, hn with
    | 0, _, _ => rw [h0]; ring
    | 1, _, _ => rw [h1]; ring
    | 2, _, _ => rw [h2]
    | n + 3, ih, hn =>
      rw [hx n (by omega), ih (n + 2) (by omega) (by omega), ih (n + 1) (by omega) (by omega),
        ih n (by omega) (by omega)]
      linear_combination -(d * m ^ n) * hm

/-- The conditions on the exponents fail: the characteristic polynomial of the loop has the root
`m`. -/
def LoopRoot (par : Params) (k : ℕ) (m : ℝ) : Prop :=
  m ^ 3 + -(1 + par.a - par.alpha * k) * m ^ 2 + -(par.b - par.a + par.beta * k) * m
    + (par.b + par.gamma * k) = 0

/-- With a root below `-1` there are starts arbitrarily close to the target from which a step
fails. -/
theorem rejects {par : Params} {k : ℕ} (hk : k ≠ 0) {m : ℝ} (hm : LoopRoot par k m) (hm1 : m < -1)
    (htot : 0 < par.alpha - par.beta + par.gamma) (cfg : Config) (c : Ctrl)
    (κ t φ0 hs : ℝ) (hc : Fresh par cfg c) (hκ : cfg.safety = fin κ) (ht : cfg.tol = fin t)
    (pκ : 0 < κ) (pt : 0 < t) (pφ : 0 < φ0) (hT : Target par k κ t φ0 hs)
    (hl : cfg.lower = fin 0) (hu : cfg.upper = pinf) (hlarge : 1 / 10 ^ 10 ≤ hs) (δ : ℝ)
    (hδ : 0 < δ) :
    ∃ h0 h1 h2, 0 < h0 ∧ 0 < h1 ∧ 0 < h2 ∧ |Real.log (h0 / hs)| ≤ δ ∧ |Real.log (h1 / hs)| ≤ δ ∧
      |Real.log (h2 / hs)| ≤ δ ∧ ∃ N, ∀ h : ℕ → ℝ, h 0 = h0 → h 1 = h1 → h 2 = h2 →
        ¬ Loop c k (fun _ => φ0) (fun _ => pinf) N h := by
  have hsp := hT.1
  obtain ⟨d, hd⟩ : ∃ d, d = δ / m ^ 2 := ⟨_, rfl⟩
  have hm2 : 1 < m ^ 2 := by nlinarith
  have hd0 : 0 < d := by rw [hd]; exact div_pos hδ (by linarith)
  have hdm : d * m ^ 2 = δ := by rw [hd, div_mul_cancel₀]; linarith
  have hdδ : d ≤ δ := by nlinarith
  have hlog : ∀ y, Real.log (hs * Real.exp y / hs) = y := fun y => by
    rw [mul_div_cancel_left₀ _ hsp.ne', Real.log_exp]
  have hpos : ∀ y, 0 < hs * Real.exp y := fun y => mul_pos hsp (Real.exp_pos _)
  refine ⟨hs * Real.exp d, hs * Real.exp (d * m), hs * Real.exp (d * m ^ 2), hpos _, hpos _,
    hpos _, ?_, ?_, ?_, ?_⟩
  · rw [hlog, abs_of_pos hd0]; exact hdδ
  · rw [hlog, abs_mul, abs_of_pos hd0, abs_of_neg (by linarith), ← hdm]
    exact mul_le_mul_of_nonneg_left (by nlinarith) hd0.le
  · rw [hlog, hdm, abs_of_pos hδ]
  · -- an even member beyond the tolerance
    obtain ⟨j, hj⟩ : ∃ j : ℕ, -Real.log κ / (par.alpha - par.beta + par.gamma) / d < (m ^ 2) ^ j :=
      pow_unbounded_of_one_lt _ hm2
    refine ⟨2 * j + 1, fun h e0 e1 e2 L => ?_⟩
    have F : Free cfg (fun _ => pinf) (2 * j + 1) h := fun n hn => by
      rw [hl, hu]
      exact ⟨L.pos (n + 3) (by omega), trivial, trivial⟩
    have hrec := fun n hn => L.logs hc hκ ht pκ pt pφ htot hT (fun _ => pφ) F n hn
    have geo := geometric_of_rec hm (2 * j + 1) (fun n => Real.log (h n / hs))
      (by rw [e0, hlog]) (by rw [e1, hlog]) (by rw [e2, hlog]) (fun n hn => by
        rw [hrec n hn, div_self pφ.ne', Real.log_one]; ring)
    have hg := geo (2 * j + 2) (by omega)
    have hbig : -Real.log κ / (par.alpha - par.beta + par.gamma) < Real.log (h (2 * j + 2) / hs) := by
      rw [hg, show 2 * j + 2 = 2 * (j + 1) by ring, pow_mul, pow_succ]
      rw [div_lt_iff₀ hd0] at hj
      have : (m ^ 2) ^ j * d ≤ (m ^ 2) ^ j * d * m ^ 2 :=
        le_mul_of_one_le_right (by positivity) hm2.le
      nlinarith
    have hp := L.pos (2 * j + 2) (by omega)
    have hpos' : 0 < Real.log (h (2 * j + 2) / hs) := by
      rw [hg, show 2 * j + 2 = 2 * (j + 1) by ring, pow_mul]
      positivity
    have hgt : hs < h (2 * j + 2) := by
      have := (Real.log_pos_iff (by positivity)).mp hpos'
      rwa [one_lt_div hsp] at this
    obtain ⟨ha, _⟩ := hc.of_ok _ _ _ (L.step (2 * j) (by omega))
    rcases ha with ha | ha | ha
    · dsimp only at ha
      rw [hl, sub_fin, sub_zero, abs_fin, lt_fin, abs_of_pos hp] at ha
      linarith
    · simp [sub, neg, add, XReal.abs] at ha
    · dsimp only at ha
      rw [ht, le_fin, ← Real.log_le_log_iff (by positivity) pt, Real.log_mul pφ.ne' (by positivity),
        Real.log_pow] at ha
      have e := target_log hT pκ pt pφ htot
      rw [Real.log_div hp.ne' hsp.ne'] at hbig hpos'
      have e' : Real.log φ0 + k * Real.log hs - Real.log t
          = Real.log κ / (par.alpha - par.beta + par.gamma) := by
        rw [← e]; field_simp
      have hk1 : (1 : ℝ) ≤ k := by exact_mod_cast Nat.one_le_iff_ne_zero.mpr hk
      have := mul_le_mul_of_nonneg_right hk1 hpos'.le
      rw [neg_div] at hbig
      linarith

/-- With the root `-1` there are accepted steps arbitrarily close to the target which oscillate
for ever. -/
theorem oscillates {par : Params} {k : ℕ} (hm : LoopRoot par k (-1))
    (htot : 0 < par.alpha - par.beta + par.gamma) (cfg : Config) (c : Ctrl)
    (κ t φ0 hs : ℝ) (hc : Fresh par cfg c) (hκ : cfg.safety = fin κ) (ht : cfg.tol = fin t)
    (pκ : 0 < κ) (hκ1 : κ < 1) (pt : 0 < t) (pφ : 0 < φ0) (hT : Target par k κ t φ0 hs)
    (hl : cfg.lower = fin 0) (hu : cfg.upper = pinf) (δ : ℝ) (hδ : 0 < δ) :
    ∃ d > 0, d ≤ δ ∧ ∃ h : ℕ → ℝ, (∀ N, Loop c k (fun _ => φ0) (fun _ => pinf) N h) ∧
      ∀ n, Real.log (h n / hs) = d * (-1) ^ n := by
  have hsp := hT.1
  have hlog : 0 < -Real.log κ / (par.alpha - par.beta + par.gamma) :=
    div_pos (neg_pos.mpr (Real.log_neg pκ hκ1)) htot
  obtain ⟨d, hd⟩ : ∃ d, d = min δ (-Real.log κ / (par.alpha - par.beta + par.gamma) / (1 + k)) :=
    ⟨_, rfl⟩
  have hk0 : (0 : ℝ) ≤ k := Nat.cast_nonneg k
  have hd0 : 0 < d := by rw [hd]; exact lt_min hδ (div_pos hlog (by linarith))
  have hdk : k * d ≤ -Real.log κ / (par.alpha - par.beta + par.gamma) := by
    have : d ≤ -Real.log κ / (par.alpha - par.beta + par.gamma) / (1 + k) := by
      rw [hd]; exact min_le_right _ _
    rw [le_div_iff₀ (by linarith)] at this
    nlinarith
  obtain ⟨x, hx⟩ : ∃ x : ℕ → ℝ, ∀ n, x n = d * (-1) ^ n := ⟨_, fun _ => rfl⟩
  have hxd : ∀ n, x n ≤ d := fun n => by
    rw [hx]; rcases neg_one_pow_eq_or ℝ n with h | h <;> rw [h] <;> linarith
  have hlogx : ∀ n, Real.log (hs * Real.exp (x n) / hs) = x n := fun n => by
    rw [mul_div_cancel_left₀ _ hsp.ne', Real.log_exp]
  have hpos : ∀ n, 0 < hs * Real.exp (x n) := fun n => mul_pos hsp (Real.exp_pos _)
  refine ⟨d, hd0, by rw [hd]; exact min_le_left _ _, fun n => hs * Real.exp (x n),
    fun N => ⟨fun n _ => hpos n, fun n hn => ?_⟩, fun n => by rw [hlogx, hx]⟩
  have hacc : φ0 * (hs * Real.exp (x (n + 2))) ^ k ≤ t := by
    rw [← Real.log_le_log_iff (mul_pos pφ (pow_pos (hpos _) k)) pt,
      Real.log_mul pφ.ne' (pow_pos (hpos _) k).ne', Real.log_pow,
      Real.log_mul hsp.ne' (Real.exp_pos _).ne', Real.log_exp]
    have e := target_log hT pκ pt pφ htot
    have e' : Real.log φ0 + k * Real.log hs - Real.log t
        = Real.log κ / (par.alpha - par.beta + par.gamma) := by
      rw [← e]; field_simp
    have g := mul_le_mul_of_nonneg_left (hxd (n + 2)) hk0
    rw [neg_div] at hdk
    linarith
  have ha : accepts cfg ⟨fin (φ0 * (hs * Real.exp (x (n + 2))) ^ k),
      fin (hs * Real.exp (x (n + 2))), pinf, (fin (φ0 * (hs * Real.exp (x (n + 1))) ^ k),
      fin (φ0 * (hs * Real.exp (x n)) ^ k)),
      (fin (hs * Real.exp (x (n + 1))), fin (hs * Real.exp (x n)))⟩ := by
    right; right
    rw [ht]
    exact hacc
  have hest := estimate_rel hκ ht pκ pt pφ htot hT pinf φ0 φ0 φ0 _ _ _
    pφ pφ pφ (hpos (n + 2)) (hpos (n + 1)) (hpos n)
  have hx3 : (1 + par.a - par.alpha * k) * x (n + 2) + (par.b - par.a + par.beta * k) * x (n + 1)
      - (par.b + par.gamma * k) * x n - par.alpha * 0 + par.beta * 0 - par.gamma * 0
      = x (n + 3) := by
    rw [hx, hx, hx, hx]
    unfold LoopRoot at hm
    linear_combination -(d * (-1) ^ n) * hm
  rw [hlogx, hlogx, hlogx, div_self pφ.ne', Real.log_one, hx3] at hest
  rw [hc.call true _ ha]
  have hsug := run_sugg_inside par cfg _ _ _ rfl ha hest (by
    have hne : φ0 * (hs * Real.exp (x (n + 2))) ^ k ≠ 0 := (mul_pos pφ (pow_pos (hpos _) k)).ne'
    rw [zero_def]; simpa only [ne_eq, fin_inj] using hne) (by rw [hl]; exact hpos _)
    (by rw [hu]; trivial) trivial
  have hac := (run_acc par cfg _).mpr ha
  rw [← hsug, ← hac]

end Verif.Control
