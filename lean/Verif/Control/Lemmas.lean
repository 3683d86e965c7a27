/-
Helper lemmas about the controller model.
-/
import Verif.Control.Model
import Mathlib.Tactic.FieldSimp
import Mathlib.Tactic.Ring

namespace Verif.Control

open XReal
open Classical

/-- A call never changes the shared configuration. -/
theorem call_config (top : Bool) (c : Ctrl) (i : Input) : (c.call top i).1.config = c.config := by
  induction c generalizing top with
  | base par cfg => rfl
  | deco par w ni k ih =>
    have h := ih false
    unfold Ctrl.call
    split
    · generalize w.call false i = r at h ⊢
      rcases r with ⟨w', st | st⟩
      · rcases st <;> simpa [Ctrl.config] using h
      · dsimp only
        split
        · simpa [Ctrl.config] using h
        · split <;> simpa [Ctrl.config] using h
    · rfl

theorem runDeco_ok {top : Bool} {par : Params} {cfg : Config} {i : Input} {st : Status}
    (h : (runDeco top par cfg i).2 = .ok st) : st = run par cfg i := by
  unfold runDeco at h
  dsimp only at h
  split at h
  · cases h
  · injection h with h; exact h.symm

/-- Every status a controller chain returns was computed by one of its controllers with the
shared configuration. -/
theorem call_ok_run {top : Bool} {c : Ctrl} {i : Input} {st : Status}
    (h : (c.call top i).2 = .ok st) : ∃ par, st = run par c.config i := by
  induction c generalizing top with
  | base par cfg =>
    unfold Ctrl.call at h
    dsimp only at h
    split at h
    · cases h
    · injection h with h; exact ⟨par, h.symm⟩
  | deco par w ni k ih =>
    have ih := @ih false
    unfold Ctrl.call at h
    split at h
    · generalize w.call false i = r at h ih
      rcases r with ⟨w', e | st'⟩
      · cases e
        · exact ⟨par, runDeco_ok h⟩
        · cases h
      · dsimp only at h
        split at h
        · exact ih h
        · split at h
          · exact ih h
          · exact ⟨par, runDeco_ok h⟩
    · exact ⟨par, runDeco_ok h⟩

/-- A wrapped controller never raises. -/
theorem call_wrapped_ok (c : Ctrl) (i : Input) : ∃ st, (c.call false i).2 = .ok st := by
  induction c with
  | base par cfg => exact ⟨run par cfg i, by simp [Ctrl.call]⟩
  | deco par w ni k ih =>
    obtain ⟨st, hst⟩ := ih
    unfold Ctrl.call
    split
    · generalize w.call false i = r at hst ⊢
      rcases r with ⟨w', e | st'⟩
      · cases hst
      · dsimp only
        split
        · exact ⟨st', rfl⟩
        · split
          · exact ⟨st', rfl⟩
          · exact ⟨run par w.config i, by simp [runDeco]⟩
    · exact ⟨run par w.config i, by simp [runDeco]⟩

theorem run_acc (par : Params) (cfg : Config) (i : Input) :
    (run par cfg i).acc = true ↔ accepts cfg i := by
  simp [run]

/-- The time left for the next attempt: after an accepted step the remaining time, after a
rejected one the remaining time plus the step that was not taken. -/
noncomputable def timeLeft (i : Input) (acc : Bool) : XReal :=
  if acc then i.rem else add i.rem i.dt

theorem run_sugg (par : Params) (cfg : Config) (i : Input) (h : ℝ) (hdt : i.dt = fin h)
    (hrem : i.rem ≠ nan) :
    (run par cfg i).sugg = pyMin (timeLeft i (run par cfg i).acc)
      (pyMax cfg.lower (pyMin cfg.upper (if i.err ≠ 0 then estimate par cfg i else i.dt))) := by
  unfold run timeLeft
  dsimp only
  congr 1
  rw [hdt]
  by_cases hacc : accepts cfg i
  · simp only [hacc, decide_true, if_true, mul_fin, zero_mul]
    cases hr : i.rem <;> simp_all [add]
  · simp only [hacc, decide_false, Bool.false_eq_true, if_false, mul_fin, one_mul]

theorem timeLeft_ne_nan {i : Input} {acc : Bool} {h : ℝ} (hdt : i.dt = fin h)
    (hrem : i.rem ≠ nan) : timeLeft i acc ≠ nan := by
  unfold timeLeft
  split
  · exact hrem
  · rw [hdt]
    cases hr : i.rem <;> simp_all [add]

/-- Values of `estimate` for finite positive data. -/
theorem estimate_fin (par : Params) (cfg : Config) (i : Input) (κ h t e e0 e1 s0 s1 : ℝ)
    (hκ : cfg.safety = fin κ) (hh : i.dt = fin h) (ht : cfg.tol = fin t) (he : i.err = fin e)
    (h0 : i.errHist.1 = fin e0) (h1 : i.errHist.2 = fin e1) (hs0 : i.stepHist.1 = fin s0)
    (hs1 : i.stepHist.2 = fin s1) (pt : 0 < t) (pe : 0 < e) (pe0 : 0 < e0) (pe1 : 0 < e1)
    (ph : 0 < h) (ps0 : 0 ≤ s0) (ps1 : 0 ≤ s1) :
    estimate par cfg i = fin (κ * h * (t / e) ^ par.alpha * (e0 / t) ^ par.beta
      * (t / e1) ^ par.gamma
      * (if s0 = 0 then 1 else (h / s0) ^ par.a * (if s1 = 0 then 1 else (s0 / s1) ^ par.b))) := by
  unfold estimate
  rw [hκ, hh, ht, he, h0, h1, hs0, hs1]
  simp only [mul_fin, zero_def, ne_eq, fin_inj]
  rw [div_fin _ pe.ne', div_fin _ pt.ne', div_fin _ pe1.ne', pow_fin (by positivity),
    pow_fin (by positivity), pow_fin (by positivity)]
  simp only [mul_fin]
  by_cases hz0 : s0 = 0
  · simp [hz0]
  · have : 0 < s0 := lt_of_le_of_ne ps0 (Ne.symm hz0)
    rw [div_fin _ hz0, pow_fin (by positivity)]
    by_cases hz1 : s1 = 0
    · simp [hz0, hz1]
    · have : 0 < s1 := lt_of_le_of_ne ps1 (Ne.symm hz1)
      rw [div_fin _ hz1, pow_fin (by positivity)]
      simp only [hz0, hz1, not_false_eq_true, if_true, if_false, mul_fin]
      congr 1
      ring

end Verif.Control
