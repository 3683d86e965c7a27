/-
The closed loop of a controller and an error that is a power of the step size (helper lemmas for
`Verif.Props.Settle`). No function of /repo is modelled here.
-/
import Verif.Control.Settle
import Mathlib.Analysis.SpecialFunctions.Pow.Real
import Mathlib.Topology.Algebra.Order.Field
import Mathlib.Topology.Order.IntermediateValue

namespace Verif.Control

open XReal
open Classical

/-- A chain in the state it has after its construction and after accepted steps: `par` are the
exponents of the innermost controller. -/
inductive Fresh (par : Params) (cfg : Config) : Ctrl → Prop
  | base : Fresh par cfg (.base par cfg)
  | deco (q : Params) {w : Ctrl} : Fresh par cfg w → Fresh par cfg (.deco q w true 0)

theorem Fresh.config {par : Params} {cfg : Config} {c : Ctrl} (h : Fresh par cfg c) :
    c.config = cfg := by
  induction h with
  | base => rfl
  | deco q _ ih => exact ih

/-- The innermost controller decides as long as the steps are accepted. -/
theorem Fresh.call {par : Params} {cfg : Config} {c : Ctrl} (h : Fresh par cfg c) (top : Bool)
    (i : Input) (ha : accepts cfg i) : c.call top i = (c, .ok (run par cfg i)) := by
  have hr : (run par cfg i).acc = true := (run_acc par cfg i).mpr ha
  induction h generalizing top with
  | base => simp [Ctrl.call, hr]
  | deco q _ ih => simp [Ctrl.call, ih false, hr]

theorem fresh_foldl (p : ℝ) (cfg : Config) (fs : List (ℝ → Params)) {par : Params} {c d : Ctrl}
    (hc : Fresh par cfg c)
    (h : fs.foldl (fun c f => some (mk (f p) cfg c)) (some c) = some d) : Fresh par cfg d := by
  induction fs generalizing c with
  | nil =>
    simp only [List.foldl_nil, Option.some.injEq] at h
    exact h ▸ hc
  | cons f fs ih => exact ih (Fresh.deco (f p) hc) h

theorem fresh_buildChain (p : ℝ) (cfg : Config) (f : ℝ → Params) (fs : List (ℝ → Params))
    {c : Ctrl} (h : buildChain p cfg (f :: fs) = some c) : Fresh (f p) cfg c :=
  fresh_foldl p cfg fs Fresh.base h

/-- An accepted outcome of a fresh chain is the one of the innermost controller. -/
theorem Fresh.of_ok {par : Params} {cfg : Config} {c : Ctrl} (h : Fresh par cfg c) (top : Bool)
    (i : Input) (s : XReal) (hc : (c.call top i).2 = .ok ⟨s, true⟩) :
    accepts cfg i ∧ (run par cfg i).sugg = s := by
  obtain ⟨q, hq⟩ := call_ok_run hc
  rw [h.config] at hq
  have ha : accepts cfg i := (run_acc q cfg i).mp (by rw [← hq])
  refine ⟨ha, ?_⟩
  rw [h.call top i ha] at hc
  injection hc with hc
  rw [hc]

/-- The estimate in logarithms. -/
theorem estimate_log (par : Params) (cfg : Config) (κ t : ℝ) (hκ : cfg.safety = fin κ)
    (ht : cfg.tol = fin t) (pκ : 0 < κ) (pt : 0 < t) (rem : XReal) (e2 e1 e0 h2 h1 h0 : ℝ)
    (pe2 : 0 < e2) (pe1 : 0 < e1) (pe0 : 0 < e0) (ph2 : 0 < h2) (ph1 : 0 < h1) (ph0 : 0 < h0) :
    estimate par cfg ⟨fin e2, fin h2, rem, (fin e1, fin e0), (fin h1, fin h0)⟩
      = fin (Real.exp (Real.log κ + Real.log h2 + par.alpha * (Real.log t - Real.log e2)
        + par.beta * (Real.log e1 - Real.log t) + par.gamma * (Real.log t - Real.log e0)
        + par.a * (Real.log h2 - Real.log h1) + par.b * (Real.log h1 - Real.log h0))) := by
  rw [estimate_fin par cfg _ κ h2 t e2 e1 e0 h1 h0 hκ rfl ht rfl rfl rfl rfl rfl pt pe2 pe1 pe0 ph2
    ph1.le ph0.le]
  congr 1
  rw [if_neg ph1.ne', if_neg ph0.ne', ← Real.log_div pt.ne' pe2.ne', ← Real.log_div pe1.ne' pt.ne',
    ← Real.log_div pt.ne' pe0.ne', ← Real.log_div ph2.ne' ph1.ne', ← Real.log_div ph1.ne' ph0.ne',
    Real.exp_add, Real.exp_add, Real.exp_add, Real.exp_add, Real.exp_add, Real.exp_add,
    Real.exp_log pκ, Real.exp_log ph2]
  have hp : ∀ x y : ℝ, 0 < x → Real.exp (y * Real.log x) = x ^ y := fun x y hx => by
    rw [Real.rpow_def_of_pos hx, mul_comm]
  rw [hp _ _ (by positivity), hp _ _ (by positivity), hp _ _ (by positivity),
    hp _ _ (by positivity), hp _ _ (by positivity)]
  ring

/-- The suggestion after an accepted step, if the bounds are not active. -/
theorem run_sugg_inside (par : Params) (cfg : Config) (i : Input) (h d : ℝ) (hdt : i.dt = fin h)
    (ha : accepts cfg i) (hest : estimate par cfg i = fin d) (he : i.err ≠ 0)
    (hl : lt cfg.lower (fin d)) (hu : lt (fin d) cfg.upper) (hr : lt (fin d) i.rem) :
    (run par cfg i).sugg = fin d := by
  rw [run_sugg par cfg i h hdt (ne_nan_of_lt_right hr), (run_acc par cfg i).mpr ha, if_pos he, hest]
  have h1 : pyMin cfg.upper (fin d) = fin d := by unfold pyMin; rw [if_pos hu]
  have h2 : pyMax cfg.lower (fin d) = fin d := by unfold pyMax; rw [if_pos hl]
  rw [h1, h2]
  unfold timeLeft pyMin
  rw [if_pos rfl, if_pos hr]

/-- Conversely a suggestion strictly inside the bounds is the estimate. -/
theorem estimate_of_inside (par : Params) (cfg : Config) (i : Input) (h d e : ℝ)
    (hdt : i.dt = fin h) (ha : accepts cfg i) (hest : estimate par cfg i = fin e) (he : i.err ≠ 0)
    (hs : (run par cfg i).sugg = fin d)
    (hl : lt cfg.lower (fin d)) (hu : lt (fin d) cfg.upper) (hr : lt (fin d) i.rem) : e = d := by
  rw [run_sugg par cfg i h hdt (ne_nan_of_lt_right hr), (run_acc par cfg i).mpr ha, if_pos he,
    hest] at hs
  unfold timeLeft at hs
  rw [if_pos rfl] at hs
  rcases pyMin_eq_or i.rem (pyMax cfg.lower (pyMin cfg.upper (fin e))) with h1 | h1
  · rw [h1] at hs; rw [hs] at hr; exact absurd hr (XReal.lt_irrefl _)
  · rw [h1] at hs
    rcases pyMax_eq_or cfg.lower (pyMin cfg.upper (fin e)) with h2 | h2
    · rw [h2] at hs; rw [hs] at hl; exact absurd hl (XReal.lt_irrefl _)
    · rw [h2] at hs
      rcases pyMin_eq_or cfg.upper (fin e) with h3 | h3
      · rw [h3] at hs; rw [hs] at hu; exact absurd hu (XReal.lt_irrefl _)
      · rw [h3] at hs; exact fin_inj.mp hs

/-- A cubic with a positive value at `-1` has a root below `-1`. -/
theorem root_below (a2 a1 a0 : ℝ) (h : 0 < -1 + a2 - a1 + a0) :
    ∃ m < -1, m ^ 3 + a2 * m ^ 2 + a1 * m + a0 = 0 := by
  obtain ⟨L, hL⟩ : ∃ L, L = 1 + |a2| + |a1| + |a0| := ⟨_, rfl⟩
  have hL1 : 1 ≤ L := by
    rw [hL]; have := abs_nonneg a2; have := abs_nonneg a1; have := abs_nonneg a0; linarith
  have hcont : ContinuousOn (fun m : ℝ => m ^ 3 + a2 * m ^ 2 + a1 * m + a0) (Set.Icc (-L) (-1)) := by
    fun_prop
  have hlow : (-L) ^ 3 + a2 * (-L) ^ 2 + a1 * (-L) + a0 ≤ 0 := by
    have h2 : a2 * L ^ 2 ≤ |a2| * L ^ 2 := mul_le_mul_of_nonneg_right (le_abs_self _) (by positivity)
    have h1 : -(a1 * L) ≤ |a1| * L ^ 2 := by
      have : -(a1 * L) ≤ |a1| * L := by
        have := mul_le_mul_of_nonneg_right (neg_le_abs a1) (show 0 ≤ L by linarith)
        linarith
      have h' : |a1| * L ≤ |a1| * L ^ 2 :=
        mul_le_mul_of_nonneg_left (by nlinarith) (abs_nonneg _)
      linarith
    have h0 : a0 ≤ |a0| * L ^ 2 :=
      (le_abs_self _).trans (le_mul_of_one_le_right (abs_nonneg _) (by nlinarith))
    have h3 : L ^ 3 = L ^ 2 + |a2| * L ^ 2 + |a1| * L ^ 2 + |a0| * L ^ 2 := by
      calc L ^ 3 = L ^ 2 * L := by ring
        _ = L ^ 2 * (1 + |a2| + |a1| + |a0|) := by rw [← hL]
        _ = _ := by ring
    nlinarith [sq_nonneg L]
  have hhigh : (0 : ℝ) ≤ (-1) ^ 3 + a2 * (-1) ^ 2 + a1 * (-1) + a0 := by linarith
  obtain ⟨m, ⟨_, hm⟩, hz⟩ := intermediate_value_Icc (by linarith : -L ≤ -1) hcont ⟨hlow, hhigh⟩
  dsimp only at hz
  refine ⟨m, lt_of_le_of_ne hm ?_, hz⟩
  rintro rfl
  linarith

end Verif.Control
