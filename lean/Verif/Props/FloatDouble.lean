/-
Adaptive runs with binary64 numbers, gradual underflow included (C113).
-/
import Verif.Float.Double
import Verif.Props.FloatAdaptive

namespace Verif.Props

open Verif.RK Verif.RK.Spec Verif.Control Verif.XReal Verif.Integrator Verif.Tableau Verif.Fl
open Classical

/-! ### C113 -/

section
variable {D I O : Type} {B : Backend D I O} {opt : Options} {T : ℝ} {tm : D → ℝ}
  {t0 : I → ℝ} {out : O → ℝ} {rd : ℝ → ℝ} {est : Params → Config → Input → XReal}

theorem rnd_abs (x : ℝ) : |rnd x| ≤ 2 * |x| := by
  have h1 := rnd_err x
  have h2 : (1 / 2 ^ 53 : ℝ) * |x| ≤ |x| := mul_le_of_le_one_left (abs_nonneg _) (by norm_num)
  calc |rnd x| = |(rnd x - x) + x| := by rw [sub_add_cancel]
    _ ≤ |rnd x - x| + |x| := abs_add_le _ _
    _ ≤ 2 * |x| := by linarith

/-- The numbers of an attempt are not large. -/
theorem sizes64 {X t T a h lo : ℝ} (hX : X = 2 ^ (1015 : ℤ)) (ht : |t| ≤ X) (hT : |T| ≤ X)
    (hl0 : 0 ≤ lo) (hl : lo ≤ X) (hta : t ≤ a) (haT : a < T) (h0 : 0 ≤ h) (h1 : h ≤ rnd (T - a)) :
    |a + h| < 2 ^ (1023 : ℤ) ∧ |T - rnd (a + h)| < 2 ^ (1023 : ℤ) ∧ |h - lo| < 2 ^ (1023 : ℤ) ∧
    |h - rnd (T - rnd (a + h))| < 2 ^ (1023 : ℤ) ∧ |rnd (T - rnd (a + h)) + h| < 2 ^ (1023 : ℤ) ∧
    |rnd (T - rnd (a + h))| < 2 ^ (1023 : ℤ) := by
  have hp : 0 < X := by rw [hX]; exact two_zpow_pos _
  have hbig : (2 : ℝ) ^ (1023 : ℤ) = 256 * X := by
    rw [hX, show (1023 : ℤ) = 8 + 1015 by norm_num, split_zpow]
    norm_num
  rw [hbig]
  clear hbig hX
  have t1 := abs_le.mp ht
  have t2 := abs_le.mp hT
  have e1 := rnd_abs (T - a)
  rw [abs_of_pos (sub_pos.mpr haT)] at e1
  have e2 := (le_abs_self _).trans e1
  have ha1 : |a + h| ≤ 5 * X := abs_le.mpr ⟨by linarith, by linarith⟩
  have e3 := abs_le.mp ((rnd_abs (a + h)).trans (mul_le_mul_of_nonneg_left ha1 (by norm_num)))
  have ha2 : |T - rnd (a + h)| ≤ 11 * X := abs_le.mpr ⟨by linarith, by linarith⟩
  have ha3 := (rnd_abs (T - rnd (a + h))).trans (mul_le_mul_of_nonneg_left ha2 (by norm_num))
  have e4 := abs_le.mp ha3
  refine ⟨by linarith, by linarith, ?_, ?_, ?_, by linarith⟩ <;>
    exact abs_lt.mpr ⟨by linarith, by linarith⟩

/-- What is known about the configuration. -/
structure Config64 (X lo : ℝ) (cfg : Config) : Prop where
  lower : cfg.lower = fin lo
  double : IsDouble lo
  nonneg : 0 ≤ lo
  small : lo ≤ X
  upper : DX cfg.upper

/-- A step is the same with both roundings. -/
theorem iterate64 {t X lo : ℝ} (H : Timed64 T B tm t0 out) (hrd : Is64 rd)
    (hest : ∀ par cfg i, DX (est par cfg i)) (hX : X = 2 ^ (1015 : ℤ)) (hT : IsDouble T)
    (htX : |t| ≤ X) (hTX : |T| ≤ X) (ha : opt.adaptive = true) (hc : opt.crit = .finalTime T)
    (r : ℕ) (c : Ctrl) (hcfg : Config64 X lo c.config) (x : IState D) (hx : FlWithin tm T t False x)
    (hxt : t ≤ tm x.disc) (hlt : tm x.disc < T) (dx : IsDouble (tm x.disc)) (ds : DX x.sugg) :
    iterateFl ⟨rd, est⟩ B opt r c x = iterateFl ⟨rnd, est⟩ (unbounded T B tm) opt r c x ∧
    IsDouble (tm (iterateFl ⟨rnd, est⟩ (unbounded T B tm) opt r c x).2.1.disc) ∧
    DX (iterateFl ⟨rnd, est⟩ (unbounded T B tm) opt r c x).2.1.sugg := by
  have Ti := unbounded_timed H
  induction r generalizing c x with
  | zero => exact ⟨rfl, dx, ds⟩
  | succ r ih =>
    obtain ⟨hfl, hxb, h, hh, hle, -⟩ := hx
    obtain ⟨hp, hle⟩ := hle hlt
    have dh : IsDouble h := ds h hh
    obtain ⟨b1, b2, b3, b4, b5, b6⟩ := sizes64 hX htX hTX hcfg.nonneg hcfg.small hxt hlt hp hle
    have hst : (unbounded T B tm).step x.disc x.sugg = B.step x.disc x.sugg := by
      rw [hh]
      simp only [unbounded]
      rw [if_pos ⟨dx, dh, b1⟩]
    have hset : (unbounded T B tm).set = B.set := rfl
    have hmea : (unbounded T B tm).measure = B.measure := rfl
    simp only [iterateFl, hst, hset, hmea]
    rcases hs : B.step x.disc x.sugg with e | d
    · exact ⟨rfl, dx, ds⟩
    dsimp only
    rw [if_pos ha, if_pos ha]
    rcases hm : B.measure d with e | err
    · exact ⟨rfl, dx, ds⟩
    dsimp only
    rw [hh] at hs
    have htime : tm d = rnd (tm x.disc + h) := by
      rw [H.step _ _ _ dx dh b1 hs, rnd64_add dx dh]
    have dd : IsDouble (tm d) := by
      rw [htime]
      exact isDouble_rnd_add dx dh
    rw [← htime] at b2 b4 b5 b6
    have htm : B.time d = (unbounded T B tm).time d := by
      rw [H.time d dd b2, rnd64_sub hT dd]
      rfl
    have hrem : opt.crit.remaining ((unbounded T B tm).time d) = fin (rnd (T - tm d)) := by
      rw [hc]
      simp only [unbounded, Crit.remaining, sub_fin, sub_sub_cancel]
    have dr : IsDouble (rnd (T - tm d)) := isDouble_rnd_sub hT dd
    rw [htm]
    have hcall : ∀ i : Input, i.dt = fin h → i.rem = fin (rnd (T - tm d)) →
        callFl ⟨rd, est⟩ true c i = callFl ⟨rnd, est⟩ true c i := fun i h1 h2 =>
      callFl_64 true c i fun par => runFl_64 hrd par _ h1 h2 hcfg.lower dh dr hcfg.double b3 b4 b5 b6
    rw [hcall _ hh hrem]
    have hcf := callFl_config (A := ⟨rnd, est⟩) true c
      ⟨err, x.sugg, opt.crit.remaining ((unbounded T B tm).time d), x.errHist, x.stepHist⟩
    rcases hres : callFl ⟨rnd, est⟩ true c
      ⟨err, x.sugg, opt.crit.remaining ((unbounded T B tm).time d), x.errHist, x.stepHist⟩
      with ⟨c2, e | st⟩
    · exact ⟨rfl, dx, ds⟩
    rw [hres] at hcf
    dsimp only at hcf ⊢
    have hres2 : (callFl ⟨rnd, est⟩ true c ⟨err, x.sugg,
      opt.crit.remaining ((unbounded T B tm).time d), x.errHist, x.stepHist⟩).2 = .ok st := by
      rw [hres]
    have dst : DX st.sugg := callFl_DX hest (by
      intro z hz
      rw [hcfg.lower, fin.injEq] at hz
      rw [← hz]
      exact hcfg.double) hcfg.upper hh hrem dh dr hres2
    by_cases hacc : st.acc = true
    · rw [if_pos hacc, if_pos hacc]
      refine ⟨rfl, ?_, dst⟩
      dsimp only
      rw [H.set]
      exact dd
    · rw [if_neg hacc, if_neg hacc]
      obtain ⟨h', e1, -, hlow⟩ := suggFl_bounds (c := c) (st := st) hh hrem hcfg.lower hres2
      rw [if_neg hacc] at hlow
      have hrej := callFl_rejected hres2 (by simpa using hacc)
      dsimp only at hrej
      rw [hh, e1] at hrej
      have hrej' : h' ≤ h := not_lt.mp hrej
      have hp' : 0 ≤ h' := by
        rcases hlow with hlow | hlow
        · linarith [hcfg.nonneg]
        · rw [hlow, htime]
          have := rnd_mono (left_nonneg hT.isFloat hfl hlt hp hle)
          rwa [rnd_zero] at this
      have hx2 : FlWithin tm T t False { x with sugg := st.sugg } :=
        ⟨hfl, hxb, h', e1, fun _ => ⟨hp', hrej'.trans hle⟩, False.elim⟩
      exact ih c2 (by rw [hcf]; exact hcfg) { x with sugg := st.sugg } hx2 hxt hlt dx dst

/-- The loops are the same with both roundings. -/
theorem forward64 {t X lo : ℝ} (H : Timed64 T B tm t0 out) (hrd : Is64 rd)
    (hest : ∀ par cfg i, DX (est par cfg i)) (hX : X = 2 ^ (1015 : ℤ)) (hT : IsDouble T)
    (htX : |t| ≤ X) (hTX : |T| ≤ X) (ha : opt.adaptive = true) (hc : opt.crit = .finalTime T)
    (fuel it : ℕ) (stor : List (IState D)) (c : Ctrl) (hcfg : Config64 X lo c.config) (x : IState D)
    (hx : FlWithin tm T t False x) (hxt : t ≤ tm x.disc) (dx : IsDouble (tm x.disc))
    (ds : DX x.sugg) :
    noForwardFl ⟨rd, est⟩ B opt fuel it c x
      = noForwardFl ⟨rnd, est⟩ (unbounded T B tm) opt fuel it c x ∧
    allForwardFl ⟨rd, est⟩ B opt fuel it stor c x
      = allForwardFl ⟨rnd, est⟩ (unbounded T B tm) opt fuel it stor c x := by
  have Ti := unbounded_timed H
  have hbig : (2 : ℝ) ^ (1023 : ℤ) = 256 * X := by
    rw [hX, show (1023 : ℤ) = 8 + 1015 by norm_num, split_zpow]
    norm_num
  have hp : 0 < X := by rw [hX]; exact two_zpow_pos _
  induction fuel generalizing it stor c x with
  | zero => exact ⟨rfl, rfl⟩
  | succ fuel ih =>
    have htm : B.time x.disc = (unbounded T B tm).time x.disc := by
      have hb : |T - tm x.disc| < 2 ^ (1023 : ℤ) := by
        rw [hbig]
        clear hbig hX ih
        have t1 := abs_le.mp htX
        have t2 := abs_le.mp hTX
        have hxb := hx.2.1
        have : (T - t) / 2 ^ 52 ≤ 2 * X := by
          rw [div_le_iff₀ (by positivity)]
          nlinarith
        exact abs_lt.mpr ⟨by linarith, by linarith⟩
      rw [H.time _ dx hb, rnd64_sub hT dx]
      rfl
    rw [noForwardFl, noForwardFl, allForwardFl, allForwardFl, htm]
    by_cases hfin : opt.crit.finished it ((unbounded T B tm).time x.disc)
    · simp only [if_pos hfin, true_and]
    · simp only [if_neg hfin]
      have hlt : tm x.disc < T := by
        rw [timed_finished Ti rnd_rounds hc] at hfin
        exact not_le.mp hfin
      obtain ⟨e1, e2, e3⟩ := iterate64 H hrd hest hX hT htX hTX ha hc opt.recursionLimit c hcfg x hx hxt
        hlt dx ds
      obtain ⟨g1, g2, -⟩ := fl_iterate (sound_rnd est) Ti hT.isFloat ha hc opt.recursionLimit c
        ⟨⟨lo, hcfg.lower, hcfg.nonneg⟩, False.elim⟩ x hx hxt hlt
      have hcf := iterateFl_config (A := ⟨rnd, est⟩) (B := unbounded T B tm) (opt := opt)
        opt.recursionLimit c x
      simp only [runStepFl, e1]
      rcases hi : iterateFl ⟨rnd, est⟩ (unbounded T B tm) opt opt.recursionLimit c x
        with ⟨c', x', e | u⟩
      · exact ⟨rfl, rfl⟩
      · rw [hi] at e2 e3 g1 g2 hcf
        dsimp only at e2 e3 g1 g2 hcf ⊢
        have k := fun stor => ih (it + 1) stor c' (by rw [hcf]; exact hcfg) x' g1 g2 e2 e3
        rw [(k []).1, (k (stor ++ [x'])).2]
        exact ⟨rfl, rfl⟩

/-- C113: an adaptive run to a final time with binary64 numbers, gradual underflow included, is the run
with unbounded exponents, for any backend, any chain of controllers, any rounded estimates, without
and with checkpoints, if times and lower bound are at most `2^1015`. The backend of the second run
differs from the first only where this one gets a step size that is not binary64 or a result that could
overflow. -/
theorem C113_same {h0 lo : ℝ} (H : Timed64 T B tm t0 out) (hrd : Is64 rd)
    (hest : ∀ par cfg i z, est par cfg i = fin z → IsDouble z) (hT : IsDouble T)
    (hTX : |T| ≤ 2 ^ (1015 : ℤ)) (ha : opt.adaptive = true) (hc : opt.crit = .finalTime T)
    (hi : opt.initialStep = fin h0) {ch : Choice} (fuel : ℕ) (w : World D (ch.Data D)) {i : I}
    (hl : w.ctrl.config.lower = fin lo) (dl : IsDouble lo) (hl0 : 0 ≤ lo) (hlX : lo ≤ 2 ^ (1015 : ℤ))
    (hu : ∀ z, w.ctrl.config.upper = fin z → IsDouble z) (df : IsDouble (t0 i))
    (htX : |t0 i| ≤ 2 ^ (1015 : ℤ)) (ht : t0 i ≤ T) (dh : IsDouble h0) (hh : 0 ≤ h0)
    (hstep : h0 ≤ rnd (T - t0 i)) :
    ∃ B' : Backend D I O, Timed rnd T B' tm t0 out ∧
      (∀ d h e, B'.step d h = .ok e → B.step d h = .ok e) ∧
      (∀ d h, B'.step d h = B.step d h ∨ B'.step d h = .error .backend) ∧
      B'.set = B.set ∧ B'.load = B.load ∧ B'.clearLin = B.clearLin ∧ B'.read = B.read ∧
      B'.measure = B.measure ∧
      compute B opt (ckFl ⟨rd, est⟩ B opt ch) fuel w i
        = compute B' opt (ckFl ⟨rnd, est⟩ B' opt ch) fuel w i := by
  have key : ∀ d h, (unbounded T B tm).step d h = B.step d h ∨
      (unbounded T B tm).step d h = .error .backend := by
    intro d h
    cases h with
    | fin h =>
      simp only [unbounded]
      split
      · exact .inl rfl
      · exact .inr rfl
    | _ => exact .inl rfl
  refine ⟨unbounded T B tm, unbounded_timed H, fun d h e he => ?_, key, rfl, rfl, rfl, rfl, rfl, ?_⟩
  · rcases key d h with k | k
    · rw [← k]
      exact he
    · rw [k] at he
      cases he
  · have e : tm (startOf B opt w.ctrl w.tis.disc i).disc = t0 i := H.load _ _
    have hx : FlWithin tm T (t0 i) False (startOf B opt w.ctrl w.tis.disc i) := by
      unfold FlWithin
      rw [e]
      refine ⟨df.isFloat, ?_, h0, hi, fun _ => ⟨hh, hstep⟩, False.elim⟩
      have : 0 ≤ (T - t0 i) / 2 ^ 52 := div_nonneg (by linarith) (by norm_num)
      linarith
    have g := fun stor => forward64 (est := est) H hrd hest rfl hT htX hTX ha hc fuel 0 stor w.ctrl
      ⟨hl, dl, hl0, hlX, hu⟩ _ hx e.ge (by rw [e]; exact df) (by
        intro z hz
        have : fin h0 = fin z := hi.symm.trans hz
        rw [fin.injEq] at this
        rwa [← this])
    have hfw : ∀ st : ch.Data D, (ckFl ⟨rd, est⟩ B opt ch).forward fuel st w.ctrl
        (startOf B opt w.ctrl w.tis.disc i)
        = (ckFl ⟨rnd, est⟩ (unbounded T B tm) opt ch).forward fuel st w.ctrl
          (startOf B opt w.ctrl w.tis.disc i) := by
      intro st
      cases ch with
      | no => exact congrArg (fun r => ((), r)) (g []).1
      | all => exact (g st).2
    have hcr : ∀ st : ch.Data D, (ckFl ⟨rd, est⟩ B opt ch).create st
        = (ckFl ⟨rnd, est⟩ (unbounded T B tm) opt ch).create st := by
      intro st
      cases ch <;> rfl
    simp only [startOf] at hfw
    simp only [compute, resetErrorControl]
    rw [hcr, hfw]
    rfl

/-- C113, the final time, as `C109_final_time`. -/
theorem C113_final_time {h0 lo : ℝ} (H : Timed64 T B tm t0 out) (hrd : Is64 rd)
    (hest : ∀ par cfg i z, est par cfg i = fin z → IsDouble z) (hT : IsDouble T)
    (hTX : |T| ≤ 2 ^ (1015 : ℤ)) (ha : opt.adaptive = true) (hc : opt.crit = .finalTime T)
    (hi : opt.initialStep = fin h0) {ch : Choice} (fuel : ℕ) (w : World D (ch.Data D)) {i : I}
    (hl : w.ctrl.config.lower = fin lo) (dl : IsDouble lo) (hl0 : 0 ≤ lo) (hlX : lo ≤ 2 ^ (1015 : ℤ))
    (hu : ∀ z, w.ctrl.config.upper = fin z → IsDouble z) (df : IsDouble (t0 i))
    (htX : |t0 i| ≤ 2 ^ (1015 : ℤ)) (ht : t0 i ≤ T) (dh : IsDouble h0) (hh : 0 ≤ h0)
    (hstep : h0 ≤ rnd (T - t0 i)) :
    let r := compute B opt (ckFl ⟨rd, est⟩ B opt ch) fuel w i
    tm r.1.tis.disc ≤ T + (T - t0 i) / 2 ^ 52 ∧
    (∃ new, r.1.log = w.log ++ new ∧ ∀ ev ∈ new, tm (evDisc ev) ≤ T + (T - t0 i) / 2 ^ 52) ∧
    (∀ v, r.2 = .ok v → T ≤ out v ∧ out v ≤ T + (T - t0 i) / 2 ^ 52) ∧
    ((T = 0 ∨ min (T / 2) (2 * T) ≤ t0 i) ∨ (h0 ≤ max (-T) (T / 2) ∧
      le w.ctrl.config.lower w.ctrl.config.upper ∧
      le w.ctrl.config.upper (fin (max (-T) (T / 2)))) → ∀ v, r.2 = .ok v → out v = T) := by
  obtain ⟨B', Ti, -, -, -, -, -, -, -, e⟩ := C113_same H hrd hest hT hTX ha hc hi (ch := ch) fuel w hl dl
    hl0 hlX hu df htX ht dh hh hstep
  rw [e]
  obtain ⟨g1, g2, g3⟩ := C109_final_time (est := est) Ti hT.isFloat ha hc hi fuel w hl hl0 df.isFloat ht
    hh hstep
  exact ⟨g1, g2, g3, fun hS => (C109_final_time_exact (est := est) Ti hT.isFloat ha hc hi fuel w hl hl0
    df.isFloat ht hh hstep hS).2.2⟩

/-- C113, the end of runs, as `C110_progress_partial`, not for smaller lower bounds, see
`C110_no_progress_violated`. -/
theorem C113_progress {h0 lo M : ℝ} (H : Timed64 T B tm t0 out) (hrd : Is64 rd)
    (hest : ∀ par cfg i z, est par cfg i = fin z → IsDouble z) (hT : IsDouble T)
    (ha : opt.adaptive = true) (hc : opt.crit = .finalTime T)
    (hi : opt.initialStep = fin h0) (hs : ∀ d h, B.step d h ≠ .error .fuel)
    (hm : ∀ d, B.measure d ≠ .error .fuel) {ch : Choice} (w : World D (ch.Data D)) {i : I}
    (hl : w.ctrl.config.lower = fin lo) (dl : IsDouble lo) (hlo : 0 < lo) (hlX : lo ≤ 2 ^ (1015 : ℤ))
    (hu : ∀ z, w.ctrl.config.upper = fin z → IsDouble z) (hlT : T = 0 ∨ 2 * lo ≤ |T|)
    (hM : |t0 i| ≤ M) (hMT : |T| ≤ M) (hMlo : M / 2 ^ 49 ≤ lo) (hMX : M ≤ 2 ^ (1015 : ℤ))
    (df : IsDouble (t0 i)) (ht : t0 i ≤ T) (dh : IsDouble h0) (hstep : h0 ≤ rnd (T - t0 i))
    (hh : lo ≤ h0 ∨ (T - t0 i < lo ∧ h0 = T - t0 i)) (fuel : ℕ)
    (hfuel : 4 * (T - t0 i) / lo ≤ fuel) :
    (compute B opt (ckFl ⟨rd, est⟩ B opt ch) (fuel + 1) w i).2 ≠ .error .fuel := by
  have h00 : 0 ≤ h0 := by rcases hh with hh | ⟨-, hh⟩ <;> linarith
  obtain ⟨B', Ti, -, hB, -, -, -, -, hBm, e⟩ := C113_same H hrd hest hT (hMT.trans hMX) ha hc hi (ch := ch)
    (fuel + 1) w hl dl hlo.le hlX hu df (hM.trans hMX) ht dh h00 hstep
  rw [e]
  refine C110_progress_partial (est := est) Ti hT.isFloat ha hc hi (fun d h => ?_) (fun d => ?_) w hl
    dl.isFloat hlo hlT hM hMT hMlo df.isFloat ht hstep hh fuel hfuel
  · rcases hB d h with k | k
    · rw [k]
      exact hs d h
    · rw [k]
      simp
  · rw [hBm]
    exact hm d

/-- C113, the steps, as `C112_steps`. -/
theorem C113_steps {h0 lo Hi M : ℝ} (H : Timed64 T B tm t0 out) (hrd : Is64 rd)
    (hest : ∀ par cfg i z, est par cfg i = fin z → IsDouble z) (hT : IsDouble T)
    (ha : opt.adaptive = true) (hc : opt.crit = .finalTime T) (hi : opt.initialStep = fin h0)
    {ch : Choice} {w w' : World D (ch.Data D)} {i : I} {v : O} {fuel : ℕ}
    (hl : w.ctrl.config.lower = fin lo) (hu : w.ctrl.config.upper = fin Hi) (dl : IsDouble lo)
    (du : IsDouble Hi) (hlo : 0 < lo) (hloH : lo ≤ Hi) (hlX : lo ≤ 2 ^ (1015 : ℤ))
    (hlT : T = 0 ∨ 2 * lo ≤ |T|) (hM : |t0 i| ≤ M) (hMT : |T| ≤ M) (hMlo : M / 2 ^ 49 ≤ lo)
    (hMX : M ≤ 2 ^ (1015 : ℤ)) (df : IsDouble (t0 i)) (ht : t0 i ≤ T) (dh : IsDouble h0)
    (hstep : h0 ≤ rnd (T - t0 i)) (hhH : h0 ≤ Hi) (hh : lo ≤ h0 ∨ (T - t0 i < lo ∧ h0 = T - t0 i))
    (hcomp : compute B opt (ckFl ⟨rd, est⟩ B opt ch) fuel w i = (w', .ok v)) :
    v = B.read w'.tis.disc ∧ T ≤ out v ∧ out v ≤ T + (T - t0 i) / 2 ^ 52 ∧
    ∃ (p : List (XReal × D)) (hr : List ℝ),
      Path B (B.clearLin (B.load w.tis.disc i)) p w'.tis.disc ∧ p.map Prod.fst = hr.map fin ∧
      (∀ h ∈ hr, 0 ≤ h ∧ h ≤ Hi) ∧ hr.length ≤ 4 * (T - t0 i) / lo + 1 ∧
      |t0 i + hr.sum - out v| ≤ hr.length * (2 * M / 2 ^ 53) := by
  have h00 : 0 ≤ h0 := by rcases hh with hh | ⟨-, hh⟩ <;> linarith
  obtain ⟨B', Ti, hB, -, e1, e2, e3, e4, -, e⟩ := C113_same H hrd hest hT (hMT.trans hMX) ha hc hi
    (ch := ch) fuel w hl dl hlo.le hlX (fun z hz => by
      rw [hu, fin.injEq] at hz
      rwa [← hz]) df (hM.trans hMX) ht dh h00 hstep
  rw [e] at hcomp
  obtain ⟨g1, g2, g3, p, hr, g4, g5⟩ := C112_steps (est := est) Ti hT.isFloat ha hc hi hl hu dl.isFloat
    hlo hloH hlT hM hMT hMlo df.isFloat ht hstep hhH hh hcomp
  rw [e4] at g1
  rw [e2, e3] at g4
  refine ⟨g1, g2, g3, p, hr, ?_, g5⟩
  have key : ∀ {a p b}, Path B' a p b → Path B a p b := by
    intro a p b hp
    induction hp with
    | nil => exact .nil _
    | cons hst _ ih =>
      rw [e1] at ih
      exact .cons (hB _ _ _ hst) ih
  exact key g4

/-- Steps of fixed size: the loops are the same with both roundings. -/
theorem fixed64 {t dt X : ℝ} (H : Timed64 T B tm t0 out) (hX : X = 2 ^ (1015 : ℤ)) (hT : IsDouble T)
    (htX : |t| ≤ X) (hTX : |T| ≤ X) (ha : opt.adaptive = false) (hc : opt.crit = .finalTime T)
    (dd : IsDouble dt) (h0 : 0 ≤ dt) (hdX : dt ≤ X) (A : Arith)
    (fuel it : ℕ) (stor : List (IState D)) (c : Ctrl) (x : IState D) (hs : x.sugg = fin dt)
    (hxt : t ≤ tm x.disc) (hxT : tm x.disc ≤ 8 * X) (dx : IsDouble (tm x.disc)) :
    noForwardFl A B opt fuel it c x = noForwardFl A (unbounded T B tm) opt fuel it c x ∧
    allForwardFl A B opt fuel it stor c x
      = allForwardFl A (unbounded T B tm) opt fuel it stor c x := by
  have Ti := unbounded_timed H
  have hbig : (2 : ℝ) ^ (1023 : ℤ) = 256 * X := by
    rw [hX, show (1023 : ℤ) = 8 + 1015 by norm_num, split_zpow]
    norm_num
  have hp : 0 < X := by rw [hX]; exact two_zpow_pos _
  have hsm : ∀ z : ℝ, z ≤ 100 * X → z < 2 ^ (1023 : ℤ) := by
    intro z hz
    rw [hbig]
    clear hbig hX
    linarith
  clear hX hbig
  have t1 := abs_le.mp htX
  have t2 := abs_le.mp hTX
  induction fuel generalizing it stor c x with
  | zero => exact ⟨rfl, rfl⟩
  | succ fuel ih =>
    have htm : B.time x.disc = (unbounded T B tm).time x.disc := by
      have hb : |T - tm x.disc| < 2 ^ (1023 : ℤ) := by
        exact hsm _ (abs_le.mpr ⟨by linarith, by linarith⟩)
      rw [H.time _ dx hb, rnd64_sub hT dx]
      rfl
    rw [noForwardFl, noForwardFl, allForwardFl, allForwardFl, htm]
    by_cases hfin : opt.crit.finished it ((unbounded T B tm).time x.disc)
    · simp only [if_pos hfin, true_and]
    · simp only [if_neg hfin]
      have hlt : tm x.disc < T := by
        rw [timed_finished Ti rnd_rounds hc] at hfin
        exact not_le.mp hfin
      have hsum : |tm x.disc + dt| ≤ 3 * X := abs_le.mpr ⟨by linarith, by linarith⟩
      have hb : |tm x.disc + dt| < 2 ^ (1023 : ℤ) := hsm _ (by linarith)
      have hst : (unbounded T B tm).step x.disc x.sugg = B.step x.disc x.sugg := by
        rw [hs]
        simp only [unbounded]
        rw [if_pos ⟨dx, dd, hb⟩]
      have e1 : iterateFl A B opt opt.recursionLimit c x
          = iterateFl A (unbounded T B tm) opt opt.recursionLimit c x := by
        cases opt.recursionLimit with
        | zero => rfl
        | succ r =>
          simp only [iterateFl, hst]
          rcases B.step x.disc x.sugg with e | d
          · rfl
          · simp only [ha, Bool.false_eq_true, if_false]
            rfl
      simp only [runStepFl, e1]
      rcases hi : iterateFl A (unbounded T B tm) opt opt.recursionLimit c x with ⟨c', x', e | u⟩
      · exact ⟨rfl, rfl⟩
      · have hx' : x'.sugg = fin dt ∧ tm x'.disc = rnd (tm x.disc + dt) := by
          revert hi
          cases opt.recursionLimit with
          | zero => simp [iterateFl]
          | succ r =>
            simp only [iterateFl]
            rcases hd : (unbounded T B tm).step x.disc x.sugg with e | d
            · simp
            · simp only [ha, Bool.false_eq_true, if_false, Prod.mk.injEq]
              rintro ⟨-, rfl, -⟩
              rw [hs] at hd
              exact ⟨hs, (H.set _ _).trans (Ti.step _ _ _ hd)⟩
        obtain ⟨k1, k2⟩ := hx'
        have b1 : tm x.disc ≤ tm x'.disc := by
          rw [k2]
          exact float_le dx.isFloat (by linarith)
        have b2 := (abs_le.mp ((rnd_abs (tm x.disc + dt)).trans
          (mul_le_mul_of_nonneg_left hsum (by norm_num)))).2
        rw [← k2] at b2
        have k := fun stor => ih (it + 1) stor c' x' k1 (hxt.trans b1) (by linarith) (by
          rw [k2]
          exact isDouble_rnd_add dx dd)
        dsimp only
        rw [(k []).1, (k (stor ++ [x'])).2]
        exact ⟨rfl, rfl⟩

/-- C113, fixed step sizes: a run to a final time with binary64 numbers, gradual underflow included, is
the run with unbounded exponents, so that C74 holds for it. -/
theorem C113_same_fixed {dt : ℝ} (H : Timed64 T B tm t0 out) (hT : IsDouble T)
    (hTX : |T| ≤ 2 ^ (1015 : ℤ)) (ha : opt.adaptive = false) (hc : opt.crit = .finalTime T)
    (hi : opt.initialStep = fin dt) (dd : IsDouble dt) (h0 : 0 ≤ dt) (hdX : dt ≤ 2 ^ (1015 : ℤ))
    {ch : Choice} (fuel : ℕ) (w : World D (ch.Data D)) {i : I} (df : IsDouble (t0 i))
    (htX : |t0 i| ≤ 2 ^ (1015 : ℤ)) :
    ∃ B' : Backend D I O, Timed rnd T B' tm t0 out ∧
      (∀ d h e, B'.step d h = .ok e → B.step d h = .ok e) ∧
      B'.set = B.set ∧ B'.load = B.load ∧ B'.clearLin = B.clearLin ∧ B'.read = B.read ∧
      compute B opt (ch.ck B opt) fuel w i = compute B' opt (ch.ck B' opt) fuel w i := by
  refine ⟨unbounded T B tm, unbounded_timed H, fun d h e he => ?_, rfl, rfl, rfl, rfl, ?_⟩
  · cases h with
    | fin h =>
      simp only [unbounded] at he
      split at he
      · exact he
      · cases he
    | _ => exact he
  · have e : tm (startOf B opt w.ctrl w.tis.disc i).disc = t0 i := H.load _ _
    have g := fun stor => fixed64 H rfl hT htX hTX ha hc dd h0 hdX .exact fuel 0 stor w.ctrl
      (startOf B opt w.ctrl w.tis.disc i) hi e.ge (by
        rw [e]
        have hp := two_zpow_pos 1015
        have := (le_abs_self _).trans htX
        generalize (2 : ℝ) ^ (1015 : ℤ) = X at *
        linarith) (by rw [e]; exact df)
    rw [← ckFl_exact, ← ckFl_exact]
    have hfw : ∀ st : ch.Data D, (ckFl .exact B opt ch).forward fuel st w.ctrl
        (startOf B opt w.ctrl w.tis.disc i)
        = (ckFl .exact (unbounded T B tm) opt ch).forward fuel st w.ctrl
          (startOf B opt w.ctrl w.tis.disc i) := by
      intro st
      cases ch with
      | no => exact congrArg (fun r => ((), r)) (g []).1
      | all => exact (g st).2
    have hcr : ∀ st : ch.Data D, (ckFl .exact B opt ch).create st
        = (ckFl .exact (unbounded T B tm) opt ch).create st := by
      intro st
      cases ch <;> rfl
    simp only [startOf] at hfw
    simp only [compute, resetErrorControl]
    rw [hcr, hfw]
    rfl

end

/-! ### Concrete cases -/

theorem is64_rnd64 : Is64 rnd64 := fun _ _ => rfl

/-- Rounded times are those of the property. -/
theorem embTimed_timed64 {s n m o l : ℕ} (T : ℝ) (E : Env s n m o l) (bhat : Fin s → ℝ) :
    Timed64 T (embTimed rnd64 T E bhat) (fun d => d.finalTime) (fun i => i.initialTime)
      (fun v => v.time) := (embTimed_timed rnd64 T E bhat).binary64 is64_rnd64

/-- The run of C74 from 0 to 1 with step size 0.1, in binary64: it takes eleven steps. -/
example {ch : Choice} {fuel : ℕ} {w w' : World (EmbRKState ℝ 1 1 1 0 0) (ch.Data (EmbRKState ℝ 1 1 1 0 0))}
    {v : Outputs 1} (h : compute (embTimed rnd64 1 (envErr 1) 1)
      { adaptive := false, crit := .finalTime 1, initialStep := fin (rnd (1 / 10)) }
      (ch.ck (embTimed rnd64 1 (envErr 1) 1)
        { adaptive := false, crit := .finalTime 1, initialStep := fin (rnd (1 / 10)) }) fuel w
      ⟨0, fun _ => 1, fun _ => 1⟩ = (w', .ok v)) : 1.09 < v.time ∧ v.time < 1.1 := by
  have hbig : (1 : ℝ) ≤ 2 ^ (1015 : ℤ) := one_le_zpow₀ (by norm_num) (by norm_num)
  have h10 : rnd64 (1 / 10) = rnd (1 / 10) := by
    apply rnd64_normal
    rw [abs_of_pos (by norm_num)]
    calc (2 : ℝ) ^ (-1022 : ℤ) ≤ 2 ^ (-4 : ℤ) := zpow_le_zpow_right₀ (by norm_num) (by norm_num)
      _ ≤ 1 / 10 := by norm_num
  have h1 : IsFloat 1 := by simpa using isFloat_zpow 0
  have hle : rnd (1 / 10) ≤ 1 := le_float h1 (by norm_num)
  have hge : 0 ≤ rnd (1 / 10) := float_le isFloat_zero (by norm_num)
  obtain ⟨B', Ti, -, -, -, -, -, e⟩ := C113_same_fixed
    (opt := { adaptive := false, crit := .finalTime 1, initialStep := fin (rnd (1 / 10)) })
    (embTimed_timed64 1 (envErr 1) 1)
    (by simpa using isDouble_zpow (e := 0) (by norm_num)) (by rw [abs_one]; exact hbig) rfl rfl rfl
    (by rw [← h10]; exact isDouble_rnd64 _) hge (hle.trans hbig) (ch := ch) fuel w
    (i := ⟨0, fun _ => 1, fun _ => 1⟩) isDouble_zero
    (by dsimp only; rw [abs_zero]; exact (two_zpow_pos _).le)
  rw [e] at h
  exact (C74_tenth_violated Ti rfl rfl rfl rfl h).2.2

/-- A product that underflows: with unbounded exponents it does not. -/
example : rnd64 ((2 : ℝ) ^ (-600 : ℤ) * 2 ^ (-600 : ℤ)) = 0 ∧
    rnd ((2 : ℝ) ^ (-600 : ℤ) * 2 ^ (-600 : ℤ)) ≠ 0 := by
  rw [← split_zpow]
  constructor
  · have he : expo ((2 : ℝ) ^ (-600 + -600 : ℤ)) = -1252 := by
      apply expo_eq <;> rw [abs_of_pos (two_zpow_pos _), ← split_zpow]
      · norm_num
      · exact zpow_lt_zpow_right₀ (by norm_num) (by norm_num)
    unfold rnd64
    rw [he, max_eq_right (by norm_num), ← zpow_sub₀ (by norm_num)]
    have : rne ((2 : ℝ) ^ (-600 + -600 - -1074 : ℤ)) = 0 := by
      refine rne_eq (.inl ?_)
      rw [Int.cast_zero, sub_zero, abs_of_pos (two_zpow_pos _)]
      calc (2 : ℝ) ^ (-600 + -600 - -1074 : ℤ) ≤ 2 ^ (-2 : ℤ) :=
            zpow_le_zpow_right₀ (by norm_num) (by norm_num)
        _ < 1 / 2 := by norm_num
    rw [this]
    simp
  · rw [(isFloat_zpow _).rnd_eq]
    exact (two_zpow_pos _).ne'

/-- A run whose times are subnormal, from 0 to `2^-1060` with first step `2^-1070`: it ends exactly at
the final time if it returns. -/
example (ch : Choice) (fuel : ℕ) (w : World (EmbRKState ℝ 1 1 1 0 0) (ch.Data (EmbRKState ℝ 1 1 1 0 0)))
    (hw : w.ctrl = .base (integral 1) ⟨fin 1, fin (2 ^ (-1074 : ℤ)), fin (2 ^ (-1064 : ℤ)),
      fin (95 / 100), 5⟩) (v : Outputs 1)
    (h : (compute (embTimed rnd64 (2 ^ (-1060 : ℤ)) (envErr 1) 1) (optFl (2 ^ (-1060 : ℤ)) (2 ^ (-1070 : ℤ)))
      (ckFl ⟨rnd64, estimateFl rnd64 pow⟩ (embTimed rnd64 (2 ^ (-1060 : ℤ)) (envErr 1) 1)
        (optFl (2 ^ (-1060 : ℤ)) (2 ^ (-1070 : ℤ))) ch) fuel w ⟨0, fun _ => 1, fun _ => 1⟩).2 = .ok v) :
    v.time = 2 ^ (-1060 : ℤ) := by
  have pos := two_zpow_pos
  have le2 : ∀ {a b : ℤ}, a ≤ b → (2 : ℝ) ^ a ≤ 2 ^ b := fun h => zpow_le_zpow_right₀ (by norm_num) h
  have dbl : ∀ e : ℤ, -1074 ≤ e → IsDouble (2 ^ e) := fun e he => isDouble_zpow he
  have half : (2 : ℝ) ^ (-1060 : ℤ) / 2 = 2 ^ (-1061 : ℤ) := by
    rw [show (-1060 : ℤ) = -1061 + 1 by norm_num, split_zpow]
    norm_num
  refine (C113_final_time (embTimed_timed64 _ _ _) is64_rnd64
    (fun par cfg i => estimateFl_DX isDouble_rnd64 pow par cfg i) (dbl _ (by norm_num)) ?_ rfl rfl rfl
    fuel w (lo := 2 ^ (-1074 : ℤ)) (by rw [hw]; rfl) (dbl _ le_rfl) (pos _).le (le2 (by norm_num)) ?_
    isDouble_zero ?_ (pos _).le (dbl _ (by norm_num)) (pos _).le ?_).2.2.2 (.inr ⟨?_, ?_, ?_⟩) v h
  · rw [abs_of_pos (pos _)]
    exact le2 (by norm_num)
  · rw [hw]
    intro z hz
    have : (2 : ℝ) ^ (-1064 : ℤ) = z := by simpa [Ctrl.config] using hz
    rw [← this]
    exact dbl _ (by norm_num)
  · dsimp only
    rw [abs_zero]
    exact (pos _).le
  · dsimp only
    rw [sub_zero, (isFloat_zpow _).rnd_eq]
    exact le2 (by norm_num)
  · refine le_max_of_le_right ?_
    rw [half]
    exact le2 (by norm_num)
  · rw [hw]
    exact le2 (by norm_num)
  · rw [hw]
    refine le_max_of_le_right ?_
    rw [half]
    exact le2 (by norm_num)

end Verif.Props
