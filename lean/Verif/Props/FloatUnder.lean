/-
Values of runs with underflow and overflow (C116).
-/
import Verif.Props.FloatDouble

namespace Verif.Props

open Verif.RK Verif.RK.Spec Verif.Control Verif.XReal Verif.Integrator Verif.Tableau Verif.Fl
open Classical

/-- The error of binary64: relative for normal numbers, absolute for subnormal ones. -/
theorem rnd64_err (x : ℝ) : |rnd64 x - x| ≤ 1 / 2 ^ 53 * |x| + 2 ^ (-1075 : ℤ) := by
  rcases le_or_gt ((2 : ℝ) ^ (-1022 : ℤ)) |x| with h | h
  · rw [rnd64_normal h]
    have := rnd_err x
    have := two_zpow_pos (-1075)
    linarith
  · have he : max (expo x) (-1074) = -1074 ∨ x = 0 := by
      rcases eq_or_ne x 0 with rfl | hx
      · exact .inr rfl
      · left
        obtain ⟨g1, -⟩ := expo_spec hx
        have := g1.trans_lt h
        rw [← split_zpow] at this
        have := (zpow_lt_zpow_iff_right₀ (by norm_num : (1 : ℝ) < 2)).mp this
        exact max_eq_right (by omega)
    rcases he with he | rfl
    · unfold rnd64
      rw [he]
      have h2 := two_zpow_pos (-1074)
      have h1 := rne_err (x / 2 ^ (-1074 : ℤ))
      have h3 : (rne (x / 2 ^ (-1074 : ℤ)) : ℝ) * 2 ^ (-1074 : ℤ) - x
          = ((rne (x / 2 ^ (-1074 : ℤ)) : ℝ) - x / 2 ^ (-1074 : ℤ)) * 2 ^ (-1074 : ℤ) := by
        field_simp
      rw [h3, abs_mul, abs_of_pos h2]
      have h4 := mul_le_mul_of_nonneg_right h1 h2.le
      have h5 : (2 : ℝ) ^ (-1075 : ℤ) = 1 / 2 * 2 ^ (-1074 : ℤ) := by
        rw [show (-1075 : ℤ) = -1 + -1074 by norm_num, split_zpow]
        norm_num
      rw [h5]
      have : 0 ≤ 1 / 2 ^ 53 * |x| := by positivity
      linarith
    · rw [isDouble_zero.rnd64_eq]
      simp

/-- Arithmetics with the numbers of binary64 are accurate for numbers below `2^1023`. -/
theorem near64 {f : ℝ → ℝ} (hf : Is64 f) {Λ : ℝ} (hΛ : Λ < 2 ^ (1023 : ℤ)) :
    RoundsTo f (1 / 2 ^ 53) Λ where
  nonneg := by norm_num
  lt_one := by norm_num
  err := fun x hx => by
    rw [hf x (hx.trans_lt hΛ)]
    have h1 := rnd64_err x
    have h2 : (2 : ℝ) ^ (-1075 : ℤ) ≤ 2 ^ (-53 : ℤ) :=
      zpow_le_zpow_right₀ (by norm_num) (by norm_num)
    have h3 : (2 : ℝ) ^ (-53 : ℤ) = 1 / 2 ^ 53 := by norm_num
    rw [h3] at h2
    linarith

/-- Without overflow there is no bound. -/
theorem near_rnd64 (Λ : ℝ) : RoundsTo rnd64 (1 / 2 ^ 53) Λ where
  nonneg := by norm_num
  lt_one := by norm_num
  err := fun x _ => by
    have h1 := rnd64_err x
    have h2 : (2 : ℝ) ^ (-1075 : ℤ) ≤ 2 ^ (-53 : ℤ) :=
      zpow_le_zpow_right₀ (by norm_num) (by norm_num)
    have h3 : (2 : ℝ) ^ (-53 : ℤ) = 1 / 2 ^ 53 := by norm_num
    rw [h3] at h2
    linarith

section
variable {n m s o l : ℕ} {f : Rhs ℝ n m} {p : Fin m → ℝ} {q : ℕ} {y : ℝ → Fin n → ℝ} {t0 t1 : ℝ}

/-- Constants of an error bound for `compute` with `N` steps of a fixed size, without checkpoints or
with all checkpoints: the time is right up to `G u N`, the values up to `K (e0 + ε + G u N) + C dt^q`. -/
def StepsNear {D : Type} (B : Backend D (StartingValues ℝ n m) (Outputs n)) (u : ℝ) (p : Fin m → ℝ)
    (y : ℝ → Fin n → ℝ) (t0 t1 ε : ℝ) (q : ℕ) (K r C δ G : ℝ) : Prop :=
  ∀ (opt : Options) (dt : ℝ) (N fuel : ℕ) (ch : Choice) (w w' : World D (ch.Data D))
    (i : StartingValues ℝ n m) (v : Outputs n),
    opt.adaptive = false → opt.crit = .steps N → opt.initialStep = fin dt →
    0 ≤ dt → dt < δ → i.initialTime = t0 → i.independentInputs = p → t0 + N * dt ≤ t1 →
    ‖i.initialValues - y t0‖ + ε + G * (u * N) ≤ r →
    compute B opt (ch.ck B opt) fuel w i = (w', .ok v) →
    |v.time - (t0 + N * dt)| ≤ G * (u * N) ∧
      ‖v.values - y (t0 + N * dt)‖ ≤ K * (‖i.initialValues - y t0‖ + ε + G * (u * N)) + C * dt ^ q

theorem stepsNear_of_chains {D : Type} {B : Backend D (StartingValues ℝ n m) (Outputs n)}
    {E : Env s n m o l} {fl : ℝ → ℝ} {dot : List (ℝ × ℝ) → ℝ} (Co : FlCore fl dot B E)
    {u ε K r C δ G : ℝ}
    (hE : ∀ (H : ℝ) (y0 : Fin n → ℝ) (hs : List XReal) (hr : List ℝ)
        (e : ℝ × (Fin n → ℝ) × (Fin m → ℝ)), Chain B Co.public (t0, y0, p) hs e → hs = hr.map fin →
        0 ≤ H → H < δ → (∀ h ∈ hr, 0 ≤ h ∧ h ≤ H) → t0 + hr.sum ≤ t1 →
        ‖y0 - y t0‖ + ε + G * (u * hr.length) ≤ r →
        |e.1 - (t0 + hr.sum)| ≤ G * (u * hr.length) ∧
          ‖e.2.1 - y (t0 + hr.sum)‖
            ≤ K * (‖y0 - y t0‖ + ε + G * (u * hr.length)) + C * H ^ q) :
    StepsNear B u p y t0 t1 ε q K r C δ G := by
  intro opt dt N fuel ch w w' i v ha hc hi h0 hδ hit hip ht1 hrad hcomp
  obtain ⟨hs, h1, h2, h3, h4, -⟩ := fl_choice_chain Co hcomp
  rw [hit, hip] at h1
  have hhs : hs = (List.replicate N dt).map fin := by
    rw [List.map_replicate, ← hi]
    exact List.eq_replicate_iff.mpr ⟨h4 N hc, h3 ha⟩
  have := hE dt i.initialValues hs (List.replicate N dt) _ h1 hhs h0 hδ
    (fun h hh => by rw [List.eq_of_mem_replicate hh]; exact ⟨h0, le_rfl⟩) (by simpa using ht1)
    (by simpa using hrad)
  rw [h2, Co.read_core]
  simpa [FlCore.public] using this

/-- C116, there are constants and a bound `Λ`, for every smooth problem, every tableau with the order
conditions and every stage solver with error `η`, such that all arithmetics that are accurate for
numbers up to `Λ` have the error bounds: `compute` with fixed steps of both kinds of schemes, and
(`FlBound`) sequences of steps of different sizes. -/
theorem C116_bound (hq : 1 ≤ q) (hf : Smooth f p q) (hy : IsSolution f p y t0 t1)
    (ht : t0 ≤ t1) (β : ℝ) :
    ∃ K r : ℝ, 0 < K ∧ 0 < r ∧ ∀ (s o l : ℕ) (E : Env s n m o l) (bhat : Fin s → ℝ) (ε η : ℝ),
      Accurate E.T β ε q → 0 ≤ η → (∀ i, SolvesNearby E.ode f p η (E.T.A i i)) →
      ∃ C δ G Λ : ℝ, 0 < C ∧ 0 < δ ∧ 0 < G ∧ ∀ (fl : ℝ → ℝ) (u : ℝ) (dot : List (ℝ × ℝ) → ℝ),
        RoundsTo fl u Λ → IsDot fl dot → FlBound fl u dot E bhat p y t0 t1 (ε + η) q K r C δ G ∧
          ∀ T, StepsNear (rkFloat fl dot T E) u p y t0 t1 (ε + η) q K r C δ G ∧
            StepsNear (embFloat fl dot T E bhat) u p y t0 t1 (ε + η) q K r C δ G := by
  obtain ⟨K, r, hK, hr, hE⟩ := fl_error hq hf hy ht β
  refine ⟨K, r, hK, hr, fun s o l E bhat ε η hA hη hs => ?_⟩
  obtain ⟨C, δ, G, Λ, hC, hδ, hG, hE⟩ := hE s o l E ε η hA hη hs
  refine ⟨C, δ, G, Λ, hC, hδ, hG, fun fl u dot hfl hdot => ⟨⟨?_⟩, fun T => ⟨?_, ?_⟩⟩⟩
  · intro T H i d d' pa hl hp hpa hit hip hH hHδ hb hsum hrad
    have hch := Chain.path (embFlCore fl dot T E bhat).public_set hp
      (Chain.nil (pub := (embFlCore fl dot T E bhat).public) _)
    simp only [List.nil_append] at hch
    rw [FlCore.public_start (embFlCore fl dot T E bhat), hit, hip] at hch
    rw [← add_assoc] at hrad ⊢
    exact (hE fl u dot hfl hdot _ _ (embFlCore fl dot T E bhat) H _ _ hl _ hch hpa hH hHδ hb hsum
      hrad).2
  · refine stepsNear_of_chains (rkFlCore fl dot T E) fun H y0 hs hr e h1 h2 h3 h4 h5 h6 h7 => ?_
    rw [← add_assoc] at h7 ⊢
    exact hE fl u dot hfl hdot _ _ _ H y0 hs hr e h1 h2 h3 h4 h5 h6 h7
  · refine stepsNear_of_chains (embFlCore fl dot T E bhat) fun H y0 hs hr e h1 h2 h3 h4 h5 h6 h7 => ?_
    rw [← add_assoc] at h7 ⊢
    exact hE fl u dot hfl hdot _ _ _ H y0 hs hr e h1 h2 h3 h4 h5 h6 h7

/-- C116 for binary64: what overflows beyond `2^1023` does not matter if `Λ` is smaller. -/
theorem C116_binary64 (hq : 1 ≤ q) (hf : Smooth f p q) (hy : IsSolution f p y t0 t1)
    (ht : t0 ≤ t1) (β : ℝ) :
    ∃ K r : ℝ, 0 < K ∧ 0 < r ∧ ∀ (s o l : ℕ) (E : Env s n m o l) (bhat : Fin s → ℝ) (ε η : ℝ),
      Accurate E.T β ε q → 0 ≤ η → (∀ i, SolvesNearby E.ode f p η (E.T.A i i)) →
      ∃ C δ G Λ : ℝ, 0 < C ∧ 0 < δ ∧ 0 < G ∧ ∀ (fl : ℝ → ℝ) (dot : List (ℝ × ℝ) → ℝ),
        Is64 fl → IsDot fl dot → (Λ < 2 ^ (1023 : ℤ) ∨ fl = rnd64) →
        FlBound fl (1 / 2 ^ 53) dot E bhat p y t0 t1 (ε + η) q K r C δ G ∧
          ∀ T, StepsNear (rkFloat fl dot T E) (1 / 2 ^ 53) p y t0 t1 (ε + η) q K r C δ G ∧
            StepsNear (embFloat fl dot T E bhat) (1 / 2 ^ 53) p y t0 t1 (ε + η) q K r C δ G := by
  obtain ⟨K, r, hK, hr, hE⟩ := C116_bound hq hf hy ht β
  refine ⟨K, r, hK, hr, fun s o l E bhat ε η hA hη hs => ?_⟩
  obtain ⟨C, δ, G, Λ, hC, hδ, hG, hE⟩ := hE s o l E bhat ε η hA hη hs
  refine ⟨C, δ, G, Λ, hC, hδ, hG, fun fl dot h64 hdot hΛ => hE fl _ dot ?_ hdot⟩
  rcases hΛ with hΛ | rfl
  · exact near64 h64 hΛ
  · exact near_rnd64 Λ

/-- C116, adaptive runs to a final time with times, values and controllers in binary64: as
`C112_values`. -/
theorem C116_values {K r C δ G L ε : ℝ} {E : Env s n m o l} {bhat : Fin s → ℝ} {rd : ℝ → ℝ}
    {dot : List (ℝ × ℝ) → ℝ} (hE : FlBound rd (1 / 2 ^ 53) dot E bhat p y t0 t1 ε q K r C δ G)
    (hrd : Is64 rd) (hK : 0 ≤ K) (hG : 0 ≤ G) (hL : 0 ≤ L)
    (hlip : ∀ a ∈ Set.Icc t0 t1, ∀ b ∈ Set.Icc t0 t1, ‖y a - y b‖ ≤ L * |a - b|)
    {est : Params → Config → Input → XReal} {opt : Options} {T h0 lo H M : ℝ} {ch : Choice}
    {w w' : World (EmbRKState ℝ s n m o l) (ch.Data (EmbRKState ℝ s n m o l))}
    {i : StartingValues ℝ n m} {v : Outputs n} {fuel : ℕ}
    (hest : ∀ par cfg i z, est par cfg i = fin z → IsDouble z) (hT : IsDouble T) (hf : IsDouble t0)
    (ha : opt.adaptive = true) (hc : opt.crit = .finalTime T) (hi : opt.initialStep = fin h0)
    (hcl : w.ctrl.config.lower = fin lo) (hcu : w.ctrl.config.upper = fin H)
    (dl : IsDouble lo) (du : IsDouble H) (dh : IsDouble h0) (hlo : 0 < lo) (hloH : lo ≤ H)
    (hHδ : H < δ) (hlX : lo ≤ 2 ^ (1015 : ℤ)) (hlT : T = 0 ∨ 2 * lo ≤ |T|)
    (hM : |t0| ≤ M) (hMT : |T| ≤ M) (hMlo : M / 2 ^ 49 ≤ lo) (hMX : M ≤ 2 ^ (1015 : ℤ)) (ht : t0 ≤ T)
    (hstep : h0 ≤ rnd (T - t0)) (hhH : h0 ≤ H) (hh : lo ≤ h0 ∨ (T - t0 < lo ∧ h0 = T - t0))
    (hit : i.initialTime = t0) (hip : i.independentInputs = p)
    (ht1 : T + (2 * (T - t0) + 2 * M) * ((4 * (T - t0) / lo + 1) / 2 ^ 53) ≤ t1)
    (hrad : ‖i.initialValues - y t0‖ + ε + G * ((4 * (T - t0) / lo + 1) / 2 ^ 53) ≤ r)
    (hcomp : compute (embFloat rd dot T E bhat) opt (ckFl ⟨rd, est⟩ (embFloat rd dot T E bhat) opt ch)
      fuel w i = (w', .ok v)) :
    T ≤ v.time ∧ v.time ≤ T + (T - t0) / 2 ^ 52 ∧
    ‖v.values - y T‖
      ≤ K * (‖i.initialValues - y t0‖ + ε + G * ((4 * (T - t0) / lo + 1) / 2 ^ 53)) + C * H ^ q
        + L * ((2 * (T - t0) + 2 * M) * ((4 * (T - t0) / lo + 1) / 2 ^ 53)) := by
  obtain ⟨hv, k1, k2, pa, hl, b1, b2, b3, b4, b5⟩ := C113_steps (est := est)
    ((embFloat_timed dot T E bhat).binary64 hrd) hrd hest hT ha hc hi hcl hcu dl du hlo hloH hlX hlT
    (by rw [hit]; exact hM) hMT hMlo hMX
    (by rw [hit]; exact hf) (by rw [hit]; exact ht) dh (by rw [hit]; exact hstep) hhH
    (by rw [hit]; exact hh) hcomp
  rw [hit] at k2 b4 b5
  exact ⟨k1, k2, hE.values hK hG hL hlip hlo hloH hHδ hM ht hit hip ht1 hrad hv k1 k2 b1 b2 b3 b4 b5⟩

end

/-! ### Concrete cases -/

/-- The rounding of binary64 has no relative error bound, so C78 does not apply to it. -/
theorem rnd64_not_rounds (u : ℝ) : ¬ Rounds rnd64 u := by
  intro h
  have h1 := h.err ((2 : ℝ) ^ (-1200 : ℤ))
  have he : expo ((2 : ℝ) ^ (-1200 : ℤ)) = -1252 := by
    apply expo_eq <;> rw [abs_of_pos (two_zpow_pos _), ← split_zpow]
    · norm_num
    · exact zpow_lt_zpow_right₀ (by norm_num) (by norm_num)
  have h0 : rnd64 ((2 : ℝ) ^ (-1200 : ℤ)) = 0 := by
    unfold rnd64
    rw [he, max_eq_right (by norm_num), ← zpow_sub₀ (by norm_num)]
    have : rne ((2 : ℝ) ^ (-1200 - -1074 : ℤ)) = 0 := by
      refine rne_eq (.inl ?_)
      rw [Int.cast_zero, sub_zero, abs_of_pos (two_zpow_pos _)]
      calc (2 : ℝ) ^ (-1200 - -1074 : ℤ) ≤ 2 ^ (-2 : ℤ) :=
            zpow_le_zpow_right₀ (by norm_num) (by norm_num)
        _ < 1 / 2 := by norm_num
    rw [this]
    simp
  have hp := two_zpow_pos (-1200)
  rw [h0, zero_sub, abs_neg, abs_of_pos hp] at h1
  have := mul_lt_mul_of_pos_right h.lt_one hp
  linarith

/-- `y' = y²` with the classical Runge-Kutta scheme in binary64 with subnormal numbers: for small step
sizes the runs return and have an error of at most `K G N / 2^53 + C dt^4`. -/
example (ch : Choice) : ∃ K C δ G r : ℝ, 0 < r ∧ 0 < δ ∧ 0 < G ∧ ∀ (dt : ℝ) (N : ℕ), 0 ≤ dt →
    dt < δ → G * (1 / 2 ^ 53 * N) ≤ r → N * dt ≤ 1 / 2 → ∀ w, ∃ w' v,
      compute (rkFloat rnd64 (leftDot rnd64) 0 (InexactEx.envS 0))
        { adaptive := false, crit := .steps N, initialStep := fin dt }
        (ch.ck (rkFloat rnd64 (leftDot rnd64) 0 (InexactEx.envS 0))
          { adaptive := false, crit := .steps N, initialStep := fin dt })
        (N + 1) w ⟨0, fun _ => 1, fun _ => 0⟩ = (w', .ok v) ∧
      ‖v.values - InexactEx.sol (N * dt)‖ ≤ K * (G * (1 / 2 ^ 53 * N)) + C * dt ^ 4 := by
  obtain ⟨K, r, -, hr, hE⟩ := C116_binary64 (q := 4) (by norm_num) (InexactEx.smooth 4)
    InexactEx.sol_solves (by norm_num) (∑ i, |(InexactEx.envS 0).T.b i|)
  obtain ⟨C, δ, G, Λ, -, hδ, hG, hE⟩ := hE _ 0 0 (InexactEx.envS 0) (fun _ => 0) 0 0
    (InexactEx.accurate 0) le_rfl fun i => by
      have : (InexactEx.envS 0).T.A i i = 0 := InexactEx.strictly i i le_rfl
      rw [this]
      exact InexactEx.inexact 0 le_rfl
  refine ⟨K, C, δ, G, r, hr, hδ, hG, fun dt N h0 hdt hle hN w => ?_⟩
  obtain ⟨hR, -⟩ := (hE rnd64 (leftDot rnd64) is64_rnd64 (leftDot_isDot _) (.inr rfl)).2 0
  obtain ⟨w', v, hv⟩ := rkFloat_compute (E := InexactEx.envS 0) (fun _ _ => rfl)
    rnd64 (leftDot rnd64) 0
    { adaptive := false, crit := .steps N, initialStep := fin dt } dt N rfl rfl rfl (by simp) ch w
    ⟨0, fun _ => 1, fun _ => 0⟩
  have e3 : ((fun _ => 1 : Fin 1 → ℝ) - InexactEx.sol 0) = 0 := by
    funext x; simp [InexactEx.sol]
  obtain ⟨-, e2⟩ := hR _ dt N (N + 1) ch w w' _ v rfl rfl rfl h0 hdt rfl rfl (by simpa using hN)
    (by simpa [e3] using hle) hv
  refine ⟨w', v, hv, ?_⟩
  simpa only [e3, norm_zero, zero_add, add_zero] using e2

end Verif.Props
