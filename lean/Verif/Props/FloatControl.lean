/-
Error control in floating point arithmetic: C109 (bounds, acceptance, final time, retries), C110
(progress).
-/
import Verif.Props.Float

namespace Verif.Props

open Verif.RK Verif.Control Verif.XReal Verif.Integrator Verif.Fl
open Classical

variable {D I O : Type} {B : Backend D I O} {opt : Options} {s n m o l : ℕ} {T : ℝ} {tm : D → ℝ}
  {t0 : I → ℝ} {out : O → ℝ} {est : Params → Config → Input → XReal}

/-! ### C109 -/

/-- The constant `1e-10` of the acceptance test in binary64. -/
noncomputable def tiny : ℝ := rnd (1 / 10 ^ 10)

theorem tiny_bounds : 99 / 10 ^ 12 * (1 + 1 / 2 ^ 53) < tiny ∧ tiny ≤ 11 / 10 ^ 11 := by
  have h := abs_le.mp (rnd_err (1 / 10 ^ 10))
  rw [abs_of_pos (by norm_num)] at h
  unfold tiny
  constructor
  · have := h.1
    norm_num at this ⊢
    linarith
  · have := h.2
    norm_num at this ⊢
    linarith

theorem abs_rnd (x : ℝ) : |rnd x| = rnd |x| := by
  rcases le_total 0 x with h | h
  · rw [abs_of_nonneg h, abs_of_nonneg]
    simpa [rnd_zero] using rnd_mono h
  · rw [abs_of_nonpos h, abs_of_nonpos, rnd_neg]
    simpa [rnd_zero] using rnd_mono h

theorem rnd_lt_tiny {x : ℝ} (h : |rnd x| < tiny) : |x| < tiny := by
  by_contra hc
  rw [abs_rnd] at h
  exact absurd (float_le (isFloat_rnd _) (not_lt.mp hc)) (not_le.mpr h)

theorem lt_tiny_rnd {x : ℝ} (h : |x| ≤ 99 / 10 ^ 12) : |rnd x| < tiny := by
  refine lt_of_le_of_lt ?_ tiny_bounds.1
  have h1 := rnd_err x
  have h2 : |rnd x| ≤ |rnd x - x| + |x| := by
    have := abs_add_le (rnd x - x) x
    rwa [sub_add_cancel] at this
  calc |rnd x| ≤ (1 + 1 / 2 ^ 53) * |x| := by linarith
    _ ≤ (1 + 1 / 2 ^ 53) * (99 / 10 ^ 12) := by gcongr
    _ = _ := by ring

theorem acceptsFl_fin {cfg : Config} {i : Input} {h lo r : ℝ} (hdt : i.dt = fin h)
    (hl : cfg.lower = fin lo) (hr : i.rem = fin r) : acceptsFl ⟨rnd, est⟩ cfg i ↔
      |rnd (h - lo)| < tiny ∨ |rnd (h - r)| < tiny ∨ le i.err cfg.tol := by
  unfold acceptsFl
  rw [hdt, hl, hr]
  simp only [sub_fin, rdX, abs_fin, lt_fin]
  rfl

/-- C109, the acceptance rule: a status of any chain in binary64 is accepted only if the step is
closer than `rnd 1e-10` to the lower bound or the time left after it, or meets the tolerance; and it
is accepted if it is closer than 0.99e-10 or meets the tolerance. -/
theorem C109_acceptance (c : Ctrl) (top : Bool) (i : Input) (st : Status) (h lo r : ℝ)
    (hdt : i.dt = fin h) (hl : c.config.lower = fin lo) (hr : i.rem = fin r)
    (hc : (callFl ⟨rnd, est⟩ top c i).2 = .ok st) :
    (st.acc = true → |h - lo| < rnd (1 / 10 ^ 10) ∨ |h - r| < rnd (1 / 10 ^ 10) ∨
      le i.err c.config.tol) ∧
    (|h - lo| ≤ 99 / 10 ^ 12 ∨ |h - r| ≤ 99 / 10 ^ 12 ∨ le i.err c.config.tol → st.acc = true) := by
  obtain ⟨par, rfl⟩ := callFl_ok_run hc
  rw [runFl_acc, acceptsFl_fin hdt hl hr]
  exact ⟨Or.imp rnd_lt_tiny (Or.imp rnd_lt_tiny id), Or.imp lt_tiny_rnd (Or.imp lt_tiny_rnd id)⟩

/-- Differences of numbers that are close are exact. -/
theorem close_exact {x y : ℝ} (hx : IsFloat x) (hy : IsFloat y) (h : |x - y| < tiny)
    (h2 : 2 * tiny ≤ x) : rnd (x - y) = x - y := by
  obtain ⟨a, b⟩ := abs_lt.mp h
  exact (sterbenz hx hy (by linarith) (by linarith) (by linarith)).rnd_eq

/-- C109, the acceptance rule for steps that are not tiny: rounding does not change it, except for the
constant `1e-10` itself. -/
theorem C109_acceptance_exact (c : Ctrl) (top : Bool) (i : Input) (st : Status) (h lo r : ℝ)
    (hdt : i.dt = fin h) (hl : c.config.lower = fin lo) (hr : i.rem = fin r)
    (fh : IsFloat h) (fl : IsFloat lo) (fr : IsFloat r) (hh : 2 * rnd (1 / 10 ^ 10) ≤ h)
    (hc : (callFl ⟨rnd, est⟩ top c i).2 = .ok st) :
    st.acc = true ↔ |h - lo| < rnd (1 / 10 ^ 10) ∨ |h - r| < rnd (1 / 10 ^ 10) ∨
      le i.err c.config.tol := by
  refine ⟨(C109_acceptance c top i st h lo r hdt hl hr hc).1, ?_⟩
  obtain ⟨par, rfl⟩ := callFl_ok_run hc
  rw [runFl_acc, acceptsFl_fin hdt hl hr]
  refine Or.imp (fun g => ?_) (Or.imp (fun g => ?_) id)
  · rw [close_exact fh fl g hh]
    exact g
  · rw [close_exact fh fr g hh]
    exact g

/-- C109, the bounds: whatever is computed for the estimate (NaN, infinite, negative), a suggestion of
any chain is a number, at most the (rounded) time left, at least the lower bound or the time left, and
at most the upper bound. -/
theorem C109_bounds (c : Ctrl) (top : Bool) (i : Input) (st : Status) (h lo r : ℝ)
    (hdt : i.dt = fin h) (hl : c.config.lower = fin lo) (hr : i.rem = fin r)
    (hb : le c.config.lower c.config.upper)
    (hc : (callFl ⟨rnd, est⟩ top c i).2 = .ok st) :
    ∃ h', st.sugg = fin h' ∧ h' ≤ rnd (if st.acc then r else r + h) ∧
      (lo ≤ h' ∨ h' = rnd (if st.acc then r else r + h)) ∧ le (fin h') c.config.upper := by
  obtain ⟨h', e1, e2, e3⟩ := suggFl_bounds hdt hr hl hc
  refine ⟨h', e1, e2, e3, ?_⟩
  rw [← e1]
  exact suggFl_upper hdt (by rw [hr]; simp) hb hc

/-- The hypotheses are met: an estimate that overflows to NaN, a step of 1 with error 1 at the upper
bound. The step is rejected, the suggestion is the upper bound. -/
example : ∃ st, (callFl ⟨rnd, fun _ _ _ => nan⟩ true
      (.base (integral 1) ⟨fin (1 / 10 ^ 6), 0, fin 1, fin (95 / 100), 5⟩)
      ⟨fin 1, fin 1, fin 8, (0, 0), (0, 0)⟩).2 = .ok st ∧ st.acc = false ∧
    ∃ h', st.sugg = fin h' ∧ h' ≤ 9 ∧ 0 ≤ h' ∧ h' ≤ 1 := by
  set cfg : Config := ⟨fin (1 / 10 ^ 6), 0, fin 1, fin (95 / 100), 5⟩
  set i : Input := ⟨fin 1, fin 1, fin 8, (0, 0), (0, 0)⟩
  set A : Arith := ⟨rnd, fun _ _ _ => nan⟩
  have h8 : IsFloat 8 := ⟨8, 0, by norm_num, by norm_num⟩
  have h9 : IsFloat 9 := ⟨9, 0, by norm_num, by norm_num⟩
  have h1 : IsFloat 1 := ⟨1, 0, by norm_num, by norm_num⟩
  have hs : le (runFl A (integral 1) cfg i).sugg (fin 1) :=
    suggFl_upper (A := A) (top := false) (c := .base (integral 1) cfg) (i := i) (h := 1) rfl
      (by simp [i]) (by simp [Ctrl.config, cfg, zero_def]) (by simp [callFl])
  have hc : (callFl A true (.base (integral 1) cfg) i).2 = .ok (runFl A (integral 1) cfg i) := by
    unfold callFl
    dsimp only
    rw [if_neg]
    rintro ⟨-, h, -⟩
    exact not_lt_of_le hs h
  have hacc : (runFl A (integral 1) cfg i).acc = false := by
    rw [← Bool.not_eq_true]
    intro h
    have ht := tiny_bounds.2
    rcases (C109_acceptance_exact (.base (integral 1) cfg) true i _ 1 0 8 rfl rfl rfl h1 isFloat_zero
      h8 (by change 2 * tiny ≤ 1; norm_num at ht; linarith) hc).mp h with g | g | g
    · change _ < tiny at g
      norm_num at g ht
      linarith
    · change _ < tiny at g
      norm_num [abs_of_neg] at g ht
      linarith
    · norm_num [i, cfg, Ctrl.config] at g
  refine ⟨_, hc, hacc, ?_⟩
  obtain ⟨h', e1, e2, e3, e4⟩ := C109_bounds (.base (integral 1) cfg) true i _ 1 0 8 rfl rfl rfl
    (by simp [Ctrl.config, cfg, zero_def]) hc
  rw [hacc, if_neg (by simp), show (8 + 1 : ℝ) = 9 by norm_num, h9.rnd_eq] at e2 e3
  refine ⟨h', e1, e2, ?_, e4⟩
  rcases e3 with e3 | e3 <;> linarith

/-- C109, the final time: an adaptive run from `t0` to `T` with times and controllers in binary64, any
computation of the estimates and any chain with lower bound not below 0, goes at most `2^-52 (T - t0)`
past `T`, and a run that ends without error does not end before `T`. -/
theorem C109_final_time {h0 lo : ℝ} (H : Timed rnd T B tm t0 out) (hT : IsFloat T)
    (ha : opt.adaptive = true) (hc : opt.crit = .finalTime T) (hi : opt.initialStep = fin h0)
    {ch : Choice} (fuel : ℕ) (w : World D (ch.Data D)) {i : I} (hlo : w.ctrl.config.lower = fin lo)
    (hlo0 : 0 ≤ lo) (hf : IsFloat (t0 i))
    (ht : t0 i ≤ T) (hh : 0 ≤ h0) (hstep : h0 ≤ rnd (T - t0 i)) :
    let r := compute B opt (ckFl ⟨rnd, est⟩ B opt ch) fuel w i
    tm r.1.tis.disc ≤ T + (T - t0 i) / 2 ^ 52 ∧
    (∃ new, r.1.log = w.log ++ new ∧ ∀ ev ∈ new, tm (evDisc ev) ≤ T + (T - t0 i) / 2 ^ 52) ∧
    ∀ v, r.2 = .ok v → T ≤ out v ∧ out v ≤ T + (T - t0 i) / 2 ^ 52 := by
  obtain ⟨g1, ⟨new, g2, g3⟩, g4⟩ := fl_compute (sound_rnd est) (S := False) H hT ha hc hi fuel w
    ⟨⟨lo, hlo, hlo0⟩, False.elim⟩ hf ht hh hstep False.elim
  refine ⟨g1.2.1, ⟨new, g2, fun ev hev => (g3 ev hev).1⟩, fun v hv => ?_⟩
  obtain ⟨k1, k2⟩ := g4 v hv
  exact ⟨k1, by rw [k2]; exact g1.2.1⟩

/-- C109, the final time with short steps, as in `C75_exact_partial`: the run ends exactly at `T`. -/
theorem C109_final_time_exact {h0 lo : ℝ} (H : Timed rnd T B tm t0 out) (hT : IsFloat T)
    (ha : opt.adaptive = true) (hc : opt.crit = .finalTime T) (hi : opt.initialStep = fin h0)
    {ch : Choice} (fuel : ℕ) (w : World D (ch.Data D)) {i : I} (hlo : w.ctrl.config.lower = fin lo)
    (hlo0 : 0 ≤ lo) (hf : IsFloat (t0 i))
    (ht : t0 i ≤ T) (hh : 0 ≤ h0) (hstep : h0 ≤ rnd (T - t0 i))
    (hS : (T = 0 ∨ min (T / 2) (2 * T) ≤ t0 i) ∨ (h0 ≤ max (-T) (T / 2) ∧
      le w.ctrl.config.lower w.ctrl.config.upper ∧
      le w.ctrl.config.upper (fin (max (-T) (T / 2))))) :
    let r := compute B opt (ckFl ⟨rnd, est⟩ B opt ch) fuel w i
    tm r.1.tis.disc ≤ T ∧
    (∃ new, r.1.log = w.log ++ new ∧ ∀ ev ∈ new, tm (evDisc ev) ≤ T) ∧
    ∀ v, r.2 = .ok v → out v = T := by
  obtain ⟨g1, ⟨new, g2, g3⟩, g4⟩ := fl_compute (sound_rnd est) (S := True) H hT ha hc hi fuel w
    ⟨⟨lo, hlo, hlo0⟩, fun _ => hS.imp id fun h => h.2⟩ hf ht hh hstep
    (fun _ => hS.imp id fun h => h.1)
  obtain ⟨-, -, h, -, -, g5⟩ := g1
  refine ⟨(g5 trivial).1, ⟨new, g2, fun ev hev => (g3 ev hev).2 trivial⟩, fun v hv => ?_⟩
  obtain ⟨k1, k2⟩ := g4 v hv
  exact le_antisymm (by rw [k2]; exact (g5 trivial).1) k1

/-! #### Retries of the integral controller -/

/-- A function `pow` of the C library as far as it is needed: `x ** 0` is 1 for every `x`, and the
power of a number from 0 to 1 with a positive exponent is from 0 to `1 + v`. -/
structure Power (pw : XReal → ℝ → XReal) (v : ℝ) : Prop where
  zero : ∀ x, pw x 0 = fin 1
  unit : ∀ a y, 0 ≤ a → a ≤ 1 → 0 < y → ∃ z, pw (fin a) y = fin z ∧ 0 ≤ z ∧ z ≤ 1 + v

/-- The exact power. -/
theorem power_exact : Power pow 0 where
  zero := XReal.pow_zero
  unit := by
    intro a y h0 h1 hy
    rcases h0.lt_or_eq with h | rfl
    · exact ⟨_, pow_fin h y, by positivity, by
        rw [add_zero]
        exact Real.rpow_le_one h0 h1 hy.le⟩
    · exact ⟨0, by simp [XReal.pow, hy, hy.ne'], le_rfl, by norm_num⟩

theorem estimateFl_integral {pw : XReal → ℝ → XReal} {v : ℝ} (hp : Power pw v) {par : Params}
    (hα : 0 < par.alpha) (hpar : par = { alpha := par.alpha }) (cfg : Config) (i : Input)
    {κ h t : ℝ} (hκ : cfg.safety = fin κ) (ht : cfg.tol = fin t) (hi : i.dt = fin h)
    (he : lt (fin t) i.err) (pt : 0 < t) (ph : 0 < h) (pκ : 0 < κ) :
    ∃ d, estimateFl rnd pw par cfg i = fin d ∧ d ≤ κ * (1 + 1 / 2 ^ 53) ^ 2 * (1 + v) * h := by
  obtain ⟨a, ha, ha0, ha1⟩ : ∃ a, rdX rnd (div cfg.tol i.err) = fin a ∧ 0 ≤ a ∧ a ≤ 1 := by
    rw [ht]
    cases hie : i.err with
    | nan => rw [hie] at he; exact absurd he (not_lt_nan _)
    | ninf => rw [hie] at he; exact absurd he (not_lt_ninf _)
    | pinf => exact ⟨0, by simp [div, rdX, rnd_zero], le_rfl, zero_le_one⟩
    | fin e =>
      rw [hie] at he
      have pe : 0 < e := lt_trans pt he
      refine ⟨rnd (t / e), by rw [div_fin _ pe.ne']; rfl, ?_, ?_⟩
      · simpa [rnd_zero] using rnd_mono (by positivity : 0 ≤ t / e)
      · exact le_float (by simpa using isFloat_zpow 0) ((div_le_one pe).mpr (_root_.le_of_lt he))
  obtain ⟨z, hz, hz0, hz1⟩ := hp.unit a par.alpha ha0 ha1 hα
  have hone : ∀ x, rdX rnd (mul (fin (rnd x)) (fin 1)) = fin (rnd x) := by
    intro x
    simp only [mul_fin, mul_one, rdX, (isFloat_rnd x).rnd_eq]
  refine ⟨rnd (rnd (κ * h) * z), ?_, ?_⟩
  · have hb : par.beta = 0 ∧ par.gamma = 0 ∧ par.a = 0 ∧ par.b = 0 := by
      rw [hpar]
      exact ⟨rfl, rfl, rfl, rfl⟩
    unfold estimateFl
    rw [hκ, hi, ha]
    simp only [hz, hb.1, hb.2.1, hb.2.2.1, hb.2.2.2, hp.zero]
    have : rdX rnd (mul (rdX rnd (mul (fin κ) (fin h))) (fin z)) = fin (rnd (rnd (κ * h) * z)) := rfl
    rw [this]
    simp only [hone]
    split <;> [split; skip] <;> rfl
  · have h1 : 0 ≤ κ * h := by positivity
    have h2 : 0 ≤ rnd (κ * h) := by simpa [rnd_zero] using rnd_mono h1
    have h3 : rnd (κ * h) ≤ (1 + 1 / 2 ^ 53) * (κ * h) := by
      have := (abs_le.mp (rnd_err (κ * h))).2
      rw [abs_of_nonneg h1] at this
      linarith
    have h4 : 0 ≤ rnd (κ * h) * z := by positivity
    have h5 := (abs_le.mp (rnd_err (rnd (κ * h) * z))).2
    rw [abs_of_nonneg h4] at h5
    calc rnd (rnd (κ * h) * z) ≤ (1 + 1 / 2 ^ 53) * (rnd (κ * h) * z) := by linarith
      _ ≤ (1 + 1 / 2 ^ 53) * ((1 + 1 / 2 ^ 53) * (κ * h) * (1 + v)) := by gcongr
      _ = _ := by ring

/-- C109, the integral controller: after a rejection (error above the tolerance, possibly infinite) it
suggests at most `max(lower, q dt)` in binary64, with `q` the safety factor up to rounding, whatever
the histories are. The exponent is any positive number, so its rounding does not matter. -/
theorem C109_integral_shrinks {pw : XReal → ℝ → XReal} {v : ℝ} (hp : Power pw v) (α : ℝ)
    (hα : 0 < α) (cfg : Config) (i : Input) (κ h t lo : ℝ)
    (hκ : cfg.safety = fin κ) (ht : cfg.tol = fin t) (hi : i.dt = fin h) (he : lt (fin t) i.err)
    (hl : cfg.lower = fin lo) (hu : cfg.upper ≠ nan) (hr : i.rem ≠ nan)
    (pt : 0 < t) (ph : 0 < h) (pκ : 0 < κ) :
    le (runFl ⟨rnd, estimateFl rnd pw⟩ { alpha := α } cfg i).sugg
      (fin (max lo (κ * (1 + 1 / 2 ^ 53) ^ 2 * (1 + v) * h))) := by
  obtain ⟨d, hd, hle⟩ := estimateFl_integral hp (par := { alpha := α }) hα rfl cfg i hκ ht hi he pt
    ph pκ
  have hne : i.err ≠ 0 := by
    intro h0
    rw [h0, zero_def] at he
    exact absurd (lt_trans pt he) (_root_.lt_irrefl _)
  rw [runFl_sugg _ cfg i h hi, if_pos hne]
  dsimp only
  rw [hd]
  refine XReal.le_trans (pyMin_le_right (timeLeftFl_ne_nan hi hr)
    (pyMax_ne_nan (by rw [hl]; simp))) ?_
  refine pyMax_le ?_ ?_
  · rw [hl]; exact le_max_left _ _
  · refine XReal.le_trans (pyMin_le_right hu (by simp)) ?_
    simp only [le_fin]
    exact hle.trans (le_max_right _ _)

/-- C109, retries: the steps do not fail, errors are not NaN, times are rounded and the first attempt
does not lead past the final time (or there is none). Then the stand-alone integral controller in
binary64 accepts after at most `N + 1` attempts, where `q ^ N h0 < lower + 0.99e-10`, however large the
errors are. -/
theorem C109_integral_retries {pw : XReal → ℝ → XReal} {v q : ℝ} (hp : Power pw v) (α : ℝ)
    (hα : 0 < α) (cfg : Config) {κ tol lo h0 : ℝ} (x : IState D)
    (hκ : cfg.safety = fin κ) (pκ : 0 < κ) (hq : κ * (1 + 1 / 2 ^ 53) ^ 2 * (1 + v) ≤ q)
    (hq0 : 0 ≤ q) (hq1 : q ≤ 1) (ht : cfg.tol = fin tol) (pt : 0 < tol) (hl : cfg.lower = fin lo)
    (hlo0 : 0 ≤ lo) (fl : IsFloat lo) (hu : cfg.upper ≠ nan) (ha : opt.adaptive = true)
    (hx : x.sugg = fin h0) (hh : lo ≤ h0)
    (hstep : ∀ h, h ≤ h0 → ∃ d err, B.step x.disc (fin h) = .ok d ∧ B.measure d = .ok err ∧
      err ≠ nan ∧ (opt.crit.remaining (B.time d) = pinf ∨
        ∃ L, opt.crit.remaining (B.time d) = fin L ∧ 0 ≤ L))
    (N f : ℕ) (hf : N + 1 ≤ f) (hN : q ^ N * h0 < lo + 99 / 10 ^ 12) :
    (iterateFl ⟨rnd, estimateFl rnd pw⟩ B opt f (.base { alpha := α } cfg) x).2.2 = .ok () := by
  set A : Arith := ⟨rnd, estimateFl rnd pw⟩ with hA
  induction N generalizing f x h0 with
  | zero =>
    obtain ⟨f, rfl⟩ := Nat.exists_eq_add_of_le' hf
    rw [_root_.pow_zero, one_mul] at hN
    obtain ⟨d, err, g1, g2, g3, g4⟩ := hstep h0 le_rfl
    have hacc : ∀ r, (runFl A { alpha := α } cfg ⟨err, fin h0, r, x.errHist, x.stepHist⟩).acc
        = true := by
      intro r
      rw [runFl_acc]
      left
      simp only [hl, sub_fin, rdX, abs_fin, lt_fin]
      refine lt_tiny_rnd ?_
      rw [abs_of_nonneg (by linarith)]
      linarith
    simp only [iterateFl, hx, g1, if_pos ha, g2, callFl]
    rw [if_neg (by simp [hacc])]
    dsimp only
    rw [if_pos (hacc _)]
  | succ N ih =>
    obtain ⟨f, rfl⟩ : ∃ g, f = g + 1 := ⟨f - 1, by omega⟩
    obtain ⟨d, err, g1, g2, g3, g4⟩ := hstep h0 le_rfl
    simp only [iterateFl, hx, g1, if_pos ha, g2, callFl]
    set i : Input := ⟨err, fin h0, opt.crit.remaining (B.time d), x.errHist, x.stepHist⟩ with hi
    have hrn : i.rem ≠ nan := by
      rcases g4 with h | ⟨L, h, -⟩ <;> rw [hi] <;> dsimp only <;> rw [h] <;> simp
    by_cases hacc : (runFl A { alpha := α } cfg i).acc = true
    · rw [if_neg (by simp [hacc])]
      dsimp only
      rw [if_pos hacc]
    · have hnacc : ¬ acceptsFl A cfg i := fun h => hacc ((runFl_acc _ _ _).mpr h)
      have hpos : 0 < h0 := by
        by_contra h0'
        refine hnacc (.inl ?_)
        rw [hi, hl]
        simp only [sub_fin, rdX, abs_fin, lt_fin]
        refine lt_tiny_rnd ?_
        rw [show h0 - lo = 0 by linarith, abs_zero]
        norm_num
      have herr : lt (fin tol) i.err := by
        by_contra hlt
        refine hnacc (.inr (.inr ?_))
        rw [ht]
        exact le_of_not_lt g3 (by simp) hlt
      have hup := C109_integral_shrinks hp α hα cfg i κ h0 tol lo hκ ht rfl herr hl hu hrn pt hpos pκ
      have hup' : le (runFl A { alpha := α } cfg i).sugg (fin (max lo (q * h0))) := by
        refine XReal.le_trans hup ?_
        rw [le_fin]
        exact max_le_max le_rfl (mul_le_mul_of_nonneg_right hq hpos.le)
      have hlow : le (fin lo) (runFl A { alpha := α } cfg i).sugg := by
        rw [runFl_sugg _ cfg i h0 rfl]
        refine le_pyMin ?_ (by rw [hl]; exact left_le_pyMax (by simp))
        unfold timeLeftFl
        rw [if_neg hacc]
        rw [hi]
        dsimp only
        rcases g4 with h | ⟨L, h, hL⟩
        · rw [h]; trivial
        · rw [h, add_fin]
          simp only [rdX, le_fin]
          exact float_le fl (by linarith)
      obtain ⟨h1, e1⟩ : ∃ h1, (runFl A { alpha := α } cfg i).sugg = fin h1 := by
        cases hs : (runFl A { alpha := α } cfg i).sugg with
        | fin h1 => exact ⟨h1, rfl⟩
        | nan => rw [hs] at hup'; exact absurd hup' (not_nan_le _)
        | pinf => rw [hs] at hup'; exact absurd hup' id
        | ninf => rw [hs] at hlow; exact absurd hlow id
      rw [e1, le_fin] at hup' hlow
      have hle : h1 ≤ h0 := hup'.trans (max_le hh (mul_le_of_le_one_left hpos.le hq1))
      rw [if_neg (by
        rw [e1]
        rintro ⟨-, h, -⟩
        exact absurd hle (not_le.mpr h))]
      dsimp only
      rw [if_neg hacc]
      refine ih { x with sugg := (runFl A { alpha := α } cfg i).sugg } e1 hlow
        (fun h hh => hstep h (hh.trans hle)) f (by omega) ?_
      have hpN : 0 ≤ q ^ N := pow_nonneg hq0 N
      rcases le_max_iff.mp hup' with h | h
      · calc q ^ N * h1 ≤ 1 * lo :=
              mul_le_mul (pow_le_one₀ hq0 hq1) h (by linarith) zero_le_one
          _ < lo + 99 / 10 ^ 12 := by rw [one_mul]; norm_num
      · calc q ^ N * h1 ≤ q ^ N * (q * h0) := mul_le_mul_of_nonneg_left h hpN
          _ = q ^ (N + 1) * h0 := by ring
          _ < lo + 99 / 10 ^ 12 := hN

/-- Error 1 in every attempt, default configuration, first step 1, binary64: 477 attempts are enough,
about half of Python's recursion limit. -/
example (x : IState (EmbRKState ℝ 1 1 1 0 0)) (hx : x.sugg = fin 1) :
    (iterateFl ⟨rnd, estimateFl rnd pow⟩ (embTimed rnd 1 (envErr 1) 1)
      { adaptive := true, crit := .steps 1, initialStep := fin 1 } 477
      (.base (integral 1) Config.default) x).2.2 = .ok () :=
  C109_integral_retries power_exact (1 / (1 + 1)) (by norm_num) Config.default (κ := 95 / 100)
    (q := 951 / 1000) (tol := 1 / 10 ^ 6) (lo := 0) (h0 := 1) x rfl (by norm_num) (by norm_num)
    (by norm_num) (by norm_num) rfl (by norm_num) rfl le_rfl isFloat_zero (by simp [Config.default])
    rfl hx zero_le_one
    (fun h _ => ⟨_, fin 1, rfl, rfl, by simp, .inl rfl⟩) 476 477 le_rfl (by
      rw [show 476 = 14 * 34 by norm_num, pow_mul, mul_one]
      have h1 : (951 / 1000 : ℝ) ^ 14 ≤ 1 / 2 := by norm_num
      have h2 : ((951 / 1000 : ℝ) ^ 14) ^ 34 ≤ (1 / 2) ^ 34 := by gcongr
      refine h2.trans_lt ?_
      norm_num)

/-! ### C110 -/

/-- Times and steps of a run that makes progress: the step is not much shorter than the lower bound or
leads exactly to `T`. -/
def Moving (tm : D → ℝ) (T lo : ℝ) (x : IState D) : Prop :=
  ∃ h, x.sugg = fin h ∧ (tm x.disc < T → lo / 2 ≤ h ∨ (T - tm x.disc < lo ∧ h = T - tm x.disc))

theorem close_of_short {t lo : ℝ} (hlT : T = 0 ∨ 2 * lo ≤ |T|) (h : T - t < lo) : Close T t := by
  rcases hlT with h0 | h0
  · exact .inl h0
  · right
    rcases le_total 0 T with hT | hT
    · rw [abs_of_nonneg hT] at h0
      exact (min_le_left _ _).trans (by linarith)
    · rw [abs_of_nonpos hT] at h0
      exact (min_le_right _ _).trans (by linarith)

theorem moving_iterate {t lo M : ℝ} (H : Timed rnd T B tm t0 out) (hT : IsFloat T)
    (ha : opt.adaptive = true) (hc : opt.crit = .finalTime T) (fl : IsFloat lo) (hlo : 0 < lo)
    (hlT : T = 0 ∨ 2 * lo ≤ |T|) (hM : |t| ≤ M) (hMT : |T| ≤ M) (hMlo : M / 2 ^ 49 ≤ lo)
    (r : ℕ) (c : Ctrl) (hcl : c.config.lower = fin lo) (x : IState D)
    (hx : FlWithin tm T t False x) (hxt : t ≤ tm x.disc) (hmov : Moving tm T lo x)
    (hlt : tm x.disc < T) (hok : (iterateFl ⟨rnd, est⟩ B opt r c x).2.2 = .ok ()) :
    Moving tm T lo (iterateFl ⟨rnd, est⟩ B opt r c x).2.1 ∧
    (tm x.disc + lo / 4 ≤ tm (iterateFl ⟨rnd, est⟩ B opt r c x).2.1.disc ∨
      T ≤ tm (iterateFl ⟨rnd, est⟩ B opt r c x).2.1.disc) := by
  induction r generalizing c x with
  | zero => simp [iterateFl] at hok
  | succ r ih =>
    obtain ⟨hfl, hxb, h, hh, hle, -⟩ := id hx
    obtain ⟨hp, hle⟩ := hle hlt
    obtain ⟨h_, hh_, hmv⟩ := id hmov
    rw [hh, fin.injEq] at hh_
    subst hh_
    have hmv := hmv hlt
    simp only [iterateFl] at hok ⊢
    rcases hs : B.step x.disc x.sugg with e | d
    · rw [hs] at hok
      simp at hok
    rw [hs] at hok
    dsimp only at hok ⊢
    rw [if_pos ha] at hok ⊢
    rcases hm : B.measure d with e | err
    · rw [hm] at hok
      simp at hok
    rw [hm] at hok
    dsimp only at hok ⊢
    rw [hh] at hs
    have htime : tm d = rnd (tm x.disc + h) := H.step _ _ _ hs
    have hrem : opt.crit.remaining (B.time d) = fin (rnd (T - tm d)) := by
      rw [hc, H.time]
      simp only [Crit.remaining, sub_fin, sub_sub_cancel]
    have hcf := callFl_config (A := ⟨rnd, est⟩) true c
      ⟨err, x.sugg, opt.crit.remaining (B.time d), x.errHist, x.stepHist⟩
    rcases hcall : callFl ⟨rnd, est⟩ true c
      ⟨err, x.sugg, opt.crit.remaining (B.time d), x.errHist, x.stepHist⟩ with ⟨c', e | st⟩
    · rw [hcall] at hok
      simp at hok
    rw [hcall] at hcf hok
    dsimp only at hcf hok ⊢
    have hcall2 : (callFl ⟨rnd, est⟩ true c ⟨err, x.sugg, opt.crit.remaining (B.time d), x.errHist,
      x.stepHist⟩).2 = .ok st := by rw [hcall]
    obtain ⟨h', e1, e2, hlow⟩ := suggFl_bounds (c := c) (st := st) hh hrem hcl hcall2
    dsimp only at e2 hlow
    obtain ⟨a1, a2⟩ := step_to hT hfl hlt hle
    by_cases hacc : st.acc = true
    · rw [if_pos hacc] at e2 hlow ⊢
      dsimp only
      rw [(isFloat_rnd _).rnd_eq] at hlow
      refine ⟨⟨h', e1, ?_⟩, ?_⟩
      · dsimp only
        rw [H.set]
        intro hlt'
        by_cases hge : lo ≤ h'
        · exact .inl (by linarith)
        · right
          have hr := hlow.resolve_left hge
          have hshort : T - tm d < lo := by
            by_contra hcon
            exact hge (hr ▸ float_le fl (not_lt.mp hcon))
          refine ⟨hshort, ?_⟩
          rw [hr]
          refine (Close.exact hT ?_ hlt' (close_of_short hlT hshort)).rnd_eq
          rw [htime]
          exact isFloat_rnd _
      · rw [H.set]
        rcases hmv with hmv | ⟨-, hmv⟩
        · left
          have e := (abs_le.mp (rnd_err (tm x.disc + h))).1
          have hle2 : h ≤ (1 + 1 / 2 ^ 53) * (T - tm x.disc) := by
            have := (abs_le.mp (rnd_err (T - tm x.disc))).2
            rw [abs_of_pos (by linarith)] at this
            linarith
          have hab : |tm x.disc + h| ≤ 2 * M := by
            have h1 := abs_le.mp hM
            have h2 := abs_le.mp hMT
            rw [abs_le]
            constructor
            · linarith
            · have : (1 / 2 ^ 53 : ℝ) * (T - tm x.disc) ≤ 1 / 2 ^ 53 * (2 * M) := by
                gcongr
                linarith
              have hM0 : 0 ≤ M := (abs_nonneg _).trans hM
              have : (1 / 2 ^ 53 : ℝ) * (2 * M) ≤ M := by
                have : (1 / 2 ^ 53 : ℝ) * 2 ≤ 1 := by norm_num
                nlinarith
              linarith
          have hM' : (1 / 2 ^ 53 : ℝ) * |tm x.disc + h| ≤ lo / 4 := by
            calc (1 / 2 ^ 53 : ℝ) * |tm x.disc + h| ≤ 1 / 2 ^ 53 * (2 * M) := by gcongr
              _ = M / 2 ^ 49 * (1 / 8) := by ring
              _ ≤ lo * (1 / 8) := by gcongr
              _ ≤ lo / 4 := by linarith
          rw [htime]
          linarith
        · right
          rw [htime, hmv, show tm x.disc + (T - tm x.disc) = T by ring, hT.rnd_eq]
    · rw [if_neg hacc] at e2 hlow hok ⊢
      have hrej := callFl_rejected hcall2 (by simpa using hacc)
      dsimp only at hrej
      rw [hh, e1] at hrej
      have hrej' : h' ≤ h := not_lt.mp hrej
      have hp' : 0 ≤ h' := by
        rcases hlow with hlow | hlow
        · linarith
        · rw [hlow, htime]
          have := rnd_mono (left_nonneg hT hfl hlt hp hle)
          rwa [rnd_zero] at this
      refine ih c' (by rw [hcf]; exact hcl) _ ⟨hfl, hxb, h', e1, fun _ => ⟨hp', hrej'.trans hle⟩,
        False.elim⟩ hxt ⟨h', e1, fun _ => ?_⟩ hlt hok
      by_cases hge : lo / 2 ≤ h'
      · exact .inl hge
      right
      have hr := hlow.resolve_left (by linarith)
      rw [htime] at hr
      by_cases hpast : rnd (tm x.disc + h) ≤ T
      · have h1 : 0 ≤ rnd (T - rnd (tm x.disc + h)) := by
          have := rnd_mono (sub_nonneg.mpr hpast)
          rwa [rnd_zero] at this
        rcases hmv with hmv | ⟨hmv1, hmv2⟩
        · exfalso
          refine hge ?_
          rw [hr]
          refine float_le ?_ (by linarith)
          obtain ⟨k, e, hk, rfl⟩ := fl
          refine ⟨k, e - 1, hk, ?_⟩
          rw [zpow_sub_one₀ (by norm_num)]
          ring
        · refine ⟨hmv1, le_antisymm (by rw [← hmv2]; exact hrej') ?_⟩
          rw [hr, hmv2, show tm x.disc + (T - tm x.disc) = T by ring, hT.rnd_eq, sub_self, rnd_zero,
            zero_add]
          refine float_le ?_ le_rfl
          exact Close.exact hT hfl hlt (close_of_short hlT hmv1)
      · exfalso
        -- past `T` by rounding: the time left is nearly all of `T - t`, which is not short
        have hnc : ¬ Close T (tm x.disc) := fun hcl => hpast (a2 (.inl hcl))
        have hlong : lo ≤ T - tm x.disc := by
          by_contra hcon
          exact hnc (close_of_short hlT (not_le.mp hcon))
        have hgt : T < tm x.disc + h := by
          by_contra hcon
          exact hpast (le_float hT (not_lt.mp hcon))
        rw [not_le] at hpast
        have e := (abs_le.mp (rnd_err (T - rnd (tm x.disc + h)))).1
        rw [abs_of_neg (by linarith)] at e
        have hgap : 0 < T - tm x.disc := by linarith
        have hd : rnd (tm x.disc + h) - T ≤ (T - tm x.disc) / 2 ^ 52 := by linarith
        have h3 : (T - tm x.disc) * (3 / 4) ≤ rnd (T - rnd (tm x.disc + h)) + h := by
          have h4 : (1 : ℝ) / 2 ^ 53 * -(T - rnd (tm x.disc + h)) ≤
              1 / 2 ^ 53 * ((T - tm x.disc) / 2 ^ 52) := by
            gcongr
            linarith
          have h5 : (T - tm x.disc) / 2 ^ 52 + 1 / 2 ^ 53 * ((T - tm x.disc) / 2 ^ 52) ≤
              (T - tm x.disc) * (1 / 4) := by
            have : (1 / 2 ^ 52 + 1 / 2 ^ 53 * (1 / 2 ^ 52) : ℝ) ≤ 1 / 4 := by norm_num
            have := mul_le_mul_of_nonneg_left this hgap.le
            calc _ = (T - tm x.disc) * (1 / 2 ^ 52 + 1 / 2 ^ 53 * (1 / 2 ^ 52)) := by ring
              _ ≤ _ := this
          linarith
        refine hge ?_
        rw [hr]
        refine float_le ?_ (by linarith)
        obtain ⟨k, e, hk, rfl⟩ := fl
        refine ⟨k, e - 1, hk, ?_⟩
        rw [zpow_sub_one₀ (by norm_num)]
        ring

theorem moving_forward {t lo M : ℝ} (H : Timed rnd T B tm t0 out) (hT : IsFloat T)
    (ha : opt.adaptive = true) (hc : opt.crit = .finalTime T) (fl : IsFloat lo) (hlo : 0 < lo)
    (hlT : T = 0 ∨ 2 * lo ≤ |T|) (hM : |t| ≤ M) (hMT : |T| ≤ M) (hMlo : M / 2 ^ 49 ≤ lo)
    (hs : ∀ d h, B.step d h ≠ .error .fuel) (hm : ∀ d, B.measure d ≠ .error .fuel)
    (fuel it : ℕ) (c : Ctrl) (hcl : c.config.lower = fin lo) (x : IState D)
    (hx : FlWithin tm T t False x) (hxt : t ≤ tm x.disc) (hmov : Moving tm T lo x)
    (hfuel : T - tm x.disc ≤ fuel * (lo / 4)) :
    (noForwardFl ⟨rnd, est⟩ B opt (fuel + 1) it c x).out ≠ .error .fuel := by
  have hit : ∀ r c x, (iterateFl ⟨rnd, est⟩ B opt r c x).2.2 ≠ .error .fuel := by
    intro r
    induction r with
    | zero => simp [iterateFl]
    | succ r ih =>
      intro c x
      simp only [iterateFl]
      rcases e : B.step x.disc x.sugg with _ | d
      · dsimp only
        intro h
        simp only [Except.error.injEq] at h
        exact hs _ _ (e.trans (by rw [h]))
      · dsimp only
        rw [if_pos ha]
        rcases e' : B.measure d with _ | err
        · dsimp only
          intro h
          simp only [Except.error.injEq] at h
          exact hm _ (e'.trans (by rw [h]))
        · dsimp only
          split
          · simp
          · split
            · simp
            · exact ih _ _
  induction fuel generalizing it c x with
  | zero =>
    have hfin : opt.crit.finished it (B.time x.disc) := by
      rw [timed_finished H rnd_rounds hc]
      simpa using hfuel
    rw [noForwardFl, if_pos hfin]
    simp
  | succ fuel ih =>
    rw [noForwardFl]
    by_cases hfin : opt.crit.finished it (B.time x.disc)
    · rw [if_pos hfin]
      simp
    · rw [if_neg hfin]
      have hlt : tm x.disc < T := by
        rw [timed_finished H rnd_rounds hc] at hfin
        exact not_le.mp hfin
      obtain ⟨g1, g2, g3⟩ := fl_iterate (sound_rnd est) H hT ha hc opt.recursionLimit c
        ⟨⟨lo, hcl, hlo.le⟩, False.elim⟩ x hx hxt hlt
      have hne := hit opt.recursionLimit c x
      have hmv := moving_iterate (est := est) H hT ha hc fl hlo hlT hM hMT hMlo opt.recursionLimit c
        hcl x hx hxt hmov hlt
      have hcf := iterateFl_config (A := ⟨rnd, est⟩) (B := B) (opt := opt) opt.recursionLimit c x
      simp only [runStepFl]
      rcases hi : iterateFl ⟨rnd, est⟩ B opt opt.recursionLimit c x with ⟨c', x', e | u⟩
      · rw [hi] at hne
        exact hne
      · rw [hi] at g1 g2 hmv hcf
        obtain ⟨k1, k2⟩ := hmv rfl
        refine ih (it + 1) c' (by rw [hcf]; exact hcl) x' g1 g2 k1 ?_
        push_cast at hfuel
        rcases k2 with k2 | k2
        · dsimp only at k2
          linarith
        · dsimp only at k2
          have : 0 ≤ (fuel : ℝ) * (lo / 4) := by positivity
          linarith

/-- C110, what holds: an adaptive run in binary64 from `t0` to `T` with any chain of controllers whose
lower bound is positive, at least `2^-49` times the size of the times and at most half of `|T|` (or
`T = 0`), ends after at most `4 (T - t0) / lower + 1` iterations of the loop, with a result or an
exception, if the first step is at least the lower bound or leads to `T`. Missing: smaller lower
bounds, see `C110_no_progress_violated`. -/
theorem C110_progress_partial {h0 lo M : ℝ} (H : Timed rnd T B tm t0 out) (hT : IsFloat T)
    (ha : opt.adaptive = true) (hc : opt.crit = .finalTime T) (hi : opt.initialStep = fin h0)
    (hs : ∀ d h, B.step d h ≠ .error .fuel) (hm : ∀ d, B.measure d ≠ .error .fuel)
    {ch : Choice} (w : World D (ch.Data D)) {i : I} (hcl : w.ctrl.config.lower = fin lo)
    (fl : IsFloat lo) (hlo : 0 < lo) (hlT : T = 0 ∨ 2 * lo ≤ |T|)
    (hM : |t0 i| ≤ M) (hMT : |T| ≤ M) (hMlo : M / 2 ^ 49 ≤ lo)
    (hf : IsFloat (t0 i)) (ht : t0 i ≤ T) (hstep : h0 ≤ rnd (T - t0 i))
    (hh : lo ≤ h0 ∨ (T - t0 i < lo ∧ h0 = T - t0 i))
    (fuel : ℕ) (hfuel : 4 * (T - t0 i) / lo ≤ fuel) :
    (compute B opt (ckFl ⟨rnd, est⟩ B opt ch) (fuel + 1) w i).2 ≠ .error .fuel := by
  have e : tm (startOf B opt w.ctrl w.tis.disc i).disc = t0 i := H.load _ _
  have hx : FlWithin tm T (t0 i) False (startOf B opt w.ctrl w.tis.disc i) := by
    unfold FlWithin
    rw [e]
    refine ⟨hf, ?_, h0, hi, fun _ => ⟨?_, hstep⟩, False.elim⟩
    · have : 0 ≤ (T - t0 i) / 2 ^ 52 := div_nonneg (by linarith) (by norm_num)
      linarith
    · rcases hh with hh | ⟨-, hh⟩ <;> linarith
  have g := moving_forward (est := est) H hT ha hc fl hlo hlT hM hMT hMlo hs hm fuel 0 w.ctrl hcl _ hx
    e.ge ⟨h0, hi, fun _ => by
      rw [e]
      exact hh.imp (fun h => by linarith) id⟩ (by
      rw [e]
      rw [div_le_iff₀ hlo] at hfuel
      linarith)
  have ef := ckFl_forward (A := ⟨rnd, est⟩) (B := B) (opt := opt) ch (fuel + 1)
    ((ckFl ⟨rnd, est⟩ B opt ch).create w.ck) w.ctrl (startOf B opt w.ctrl w.tis.disc i)
  simp only [startOf] at ef g
  simp only [compute, resetErrorControl]
  rw [ef]
  generalize noForwardFl ⟨rnd, est⟩ B opt (fuel + 1) 0 w.ctrl _ = q at g
  rcases q with ⟨c', x', log, err | u⟩
  · intro hcon
    simp only [Except.error.injEq] at hcon g
    exact g (by rw [hcon])
  · simp

/-- The hypotheses are met: error 1 in every step from 0 to 1, lower bound `2^-10`; 4097 iterations are
enough. -/
example (ch : Choice) (w : World (EmbRKState ℝ 1 1 1 0 0) (ch.Data (EmbRKState ℝ 1 1 1 0 0)))
    (hw : w.ctrl = .base (integral 1) ⟨fin (1 / 10 ^ 6), fin (2 ^ (-10 : ℤ)), pinf, fin (95 / 100), 5⟩) :
    (compute (embTimed rnd 1 (envErr 1) 1) (optFl 1 (2 ^ (-10 : ℤ)))
      (ckFl ⟨rnd, estimateFl rnd pow⟩ (embTimed rnd 1 (envErr 1) 1) (optFl 1 (2 ^ (-10 : ℤ))) ch) 4097 w
      ⟨0, fun _ => 1, fun _ => 1⟩).2 ≠ .error .fuel := by
  have h1 : IsFloat 1 := by simpa using isFloat_zpow 0
  refine C110_progress_partial (h0 := 2 ^ (-10 : ℤ)) (lo := 2 ^ (-10 : ℤ)) (M := 1)
    (embTimed_timed rnd 1 (envErr 1) 1) h1 rfl rfl rfl ?_ (fun _ => by simp [embTimed, embBackend]) w
    (by rw [hw]; rfl) (isFloat_zpow _) (two_zpow_pos _) (.inr (by norm_num)) (by norm_num)
    (by norm_num) (by norm_num) isFloat_zero zero_le_one ?_ (.inl le_rfl) 4096 (by norm_num)
  · intro d h
    cases h <;> simp [embTimed, embBackend, envErr, Integrator.Ex.env, Except.map]
  · rw [sub_zero, h1.rnd_eq]
    norm_num

/-- A time to which a step of `2^-34` adds nothing. -/
theorem stuck_step : rnd (2 ^ 21 + 2 ^ (-34 : ℤ)) = 2 ^ 21 := by
  have := rnd_units (A := 2 ^ 55 + 1) (k := 2 ^ 52) (q := -34) (j := 3) (by norm_num) (by norm_num)
    (.inl (by norm_num))
  convert this using 1 <;> norm_num

/-- C110 is violated by smaller lower bounds: at time `2^21`, with lower bound `2^-34` (about 5.8e-11),
first step at the lower bound and errors always above the tolerance, the stand-alone integral
controller in binary64 accepts every step at the lower bound, but the time stays `2^21`: for no number
of iterations the run to a later final time ends, although in exact arithmetic it takes
`(T - 2^21) / 2^-34` steps. -/
theorem C110_no_progress_violated {pw : XReal → ℝ → XReal} {v : ℝ} (hp : Power pw v) {α : ℝ}
    (hα : 0 < α) (cfg : Config) {κ tol : ℝ} (H : Timed rnd T B tm t0 out)
    (hT : (2 : ℝ) ^ 21 + 1 ≤ T)
    (hκ : cfg.safety = fin κ) (pκ : 0 < κ) (hq : κ * (1 + 1 / 2 ^ 53) ^ 2 * (1 + v) ≤ 1)
    (htol : cfg.tol = fin tol) (pt : 0 < tol) (hl : cfg.lower = fin (2 ^ (-34 : ℤ)))
    (hu : cfg.upper ≠ nan)
    (hok : ∀ d h, ∃ e, B.step d (fin h) = .ok e)
    (hm : ∀ d, ∃ e, B.measure d = .ok e ∧ lt cfg.tol e)
    (ha : opt.adaptive = true) (hc : opt.crit = .finalTime T)
    (hi : opt.initialStep = cfg.lower) (hr : opt.recursionLimit ≠ 0) {ch : Choice}
    (w : World D (ch.Data D)) (hw : w.ctrl = .base { alpha := α } cfg) {i : I}
    (h0 : t0 i = 2 ^ 21) (fuel : ℕ) :
    let r := compute B opt (ckFl ⟨rnd, estimateFl rnd pw⟩ B opt ch) fuel w i
    r.2 = .error .fuel ∧ tm r.1.tis.disc = 2 ^ 21 := by
  set A : Arith := ⟨rnd, estimateFl rnd pw⟩ with hA
  set c : Ctrl := .base { alpha := α } cfg with hcd
  set lo : ℝ := 2 ^ (-34 : ℤ) with hlo
  have plo : 0 < lo := two_zpow_pos _
  have hlo1 : lo ≤ 1 := by
    rw [hlo]
    norm_num
  obtain ⟨rl, hrl⟩ := Nat.exists_eq_succ_of_ne_zero hr
  have key : ∀ x : IState D, tm x.disc = 2 ^ 21 → x.sugg = fin lo → ∃ x',
      iterateFl A B opt opt.recursionLimit c x = (c, x', .ok ()) ∧ tm x'.disc = 2 ^ 21 ∧
        x'.sugg = fin lo := by
    intro x hx hxs
    obtain ⟨d, hd⟩ := hok x.disc lo
    obtain ⟨err, hme, hlt⟩ := hm d
    have htd : tm d = 2 ^ 21 := by
      rw [H.step _ _ _ hd, hx, stuck_step]
    have hrem : opt.crit.remaining (B.time d) = fin (rnd (T - 2 ^ 21)) := by
      rw [hc, H.time, htd]
      simp only [Crit.remaining, sub_fin, sub_sub_cancel]
    have hrem1 : 1 ≤ rnd (T - 2 ^ 21) := float_le (by simpa using isFloat_zpow 0) (by linarith)
    set j : Input := ⟨err, fin lo, fin (rnd (T - 2 ^ 21)), x.errHist, x.stepHist⟩ with hj
    have hacc : (runFl A { alpha := α } cfg j).acc = true := by
      rw [runFl_acc]
      left
      rw [hl]
      simp only [hj, sub_fin, sub_self, rdX, abs_fin, lt_fin]
      exact lt_tiny_rnd (by rw [abs_zero]; norm_num)
    have hup := C109_integral_shrinks hp α hα cfg j κ lo tol lo hκ htol rfl (by rw [← htol]; exact hlt)
      hl hu (by simp [hj]) pt plo pκ
    rw [max_eq_left (mul_le_of_le_one_left plo.le hq)] at hup
    have hlow : le (fin lo) (runFl A { alpha := α } cfg j).sugg := by
      rw [runFl_sugg _ cfg j lo rfl, hacc]
      refine le_pyMin ?_ (by rw [hl]; exact left_le_pyMax (by simp))
      simp only [timeLeftFl, if_true, hj, rdX, le_fin, hA, (isFloat_rnd _).rnd_eq]
      linarith
    have hs : (runFl A { alpha := α } cfg j).sugg = fin lo := by
      rw [← hA] at hup
      cases hs : (runFl A { alpha := α } cfg j).sugg with
      | fin y =>
        rw [hs] at hup hlow
        exact congrArg fin (le_antisymm hup hlow)
      | nan => rw [hs] at hup; exact absurd hup (not_nan_le _)
      | pinf => rw [hs] at hup; exact absurd hup id
      | ninf => rw [hs] at hlow; exact absurd hlow id
    refine ⟨⟨B.set x.disc d, fin lo, (x.sugg, x.stepHist.1), (err, x.errHist.1)⟩, ?_, ?_, rfl⟩
    · rw [hrl]
      simp only [iterateFl, hxs, hd, if_pos ha, hme, hrem, hcd, callFl]
      rw [if_neg (by rw [← hj, hacc]; simp)]
      dsimp only
      rw [if_pos hacc, hs]
    · dsimp only
      rw [H.set, htd]
  have loop : ∀ fuel it (x : IState D), tm x.disc = 2 ^ 21 → x.sugg = fin lo →
      (noForwardFl A B opt fuel it c x).out = .error .fuel ∧
        tm (noForwardFl A B opt fuel it c x).st.disc = 2 ^ 21 := by
    intro fuel
    induction fuel with
    | zero => exact fun it x hx _ => ⟨rfl, hx⟩
    | succ fuel ih =>
      intro it x hx hxs
      have hfin : ¬ opt.crit.finished it (B.time x.disc) := by
        rw [timed_finished H rnd_rounds hc, hx]
        linarith
      obtain ⟨x', k1, k2, k3⟩ := key x hx hxs
      rw [noForwardFl, if_neg hfin]
      simp only [runStepFl, k1]
      exact ih (it + 1) x' k2 k3
  have ef := ckFl_forward (A := A) (B := B) (opt := opt) ch fuel
    ((ckFl A B opt ch).create w.ck) w.ctrl (startOf B opt w.ctrl w.tis.disc i)
  have g := loop fuel 0 (startOf B opt w.ctrl w.tis.disc i) ((H.load _ _).trans h0)
    (hi.trans hl)
  rw [← hw] at g
  intro r
  have hrr : r = compute B opt (ckFl A B opt ch) fuel w i := rfl
  simp only [startOf] at ef g
  simp only [compute, resetErrorControl] at hrr
  rw [ef] at hrr
  generalize noForwardFl A B opt fuel 0 w.ctrl _ = q at g hrr
  rcases q with ⟨c', x', log, err | u⟩
  · rw [hrr]
    dsimp only at g ⊢
    exact ⟨by simpa using g.1, g.2⟩
  · simp at g

/-- The hypotheses are met: from `2^21` to `2^22`, error 1 in every step. -/
example (ch : Choice) (w : World (EmbRKState ℝ 1 1 1 0 0) (ch.Data (EmbRKState ℝ 1 1 1 0 0)))
    (hw : w.ctrl = .base (integral 1) ⟨fin (1 / 10 ^ 6), fin (2 ^ (-34 : ℤ)), pinf, fin (95 / 100), 5⟩)
    (fuel : ℕ) :
    (compute (embTimed rnd (2 ^ 22) (envErr 1) 1) (optFl (2 ^ 22) (2 ^ (-34 : ℤ)))
      (ckFl ⟨rnd, estimateFl rnd pow⟩ (embTimed rnd (2 ^ 22) (envErr 1) 1)
        (optFl (2 ^ 22) (2 ^ (-34 : ℤ))) ch) fuel w
      ⟨2 ^ 21, fun _ => 1, fun _ => 1⟩).2 = .error .fuel :=
  (C110_no_progress_violated power_exact (α := 1 / (1 + 1)) (by norm_num)
    ⟨fin (1 / 10 ^ 6), fin (2 ^ (-34 : ℤ)), pinf, fin (95 / 100), 5⟩ (κ := 95 / 100)
    (tol := 1 / 10 ^ 6) (embTimed_timed rnd (2 ^ 22) (envErr 1) 1) (by norm_num) rfl (by norm_num)
    (by norm_num) rfl (by norm_num) rfl (by simp) (embTimed_ok _ _ fun _ _ => rfl)
    (fun _ => ⟨fin 1, rfl, by norm_num⟩) rfl rfl rfl (by simp [optFl]) w hw rfl fuel).1

end Verif.Props
