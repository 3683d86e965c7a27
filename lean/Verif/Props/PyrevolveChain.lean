/-
Checkpointing with pyrevolve: chains of error controllers (C33, C14), calls of callbacks (C40).
-/
import Verif.Props.Pyrevolve

namespace Verif.Props

open Verif.RK Verif.RK.Spec Verif.Control Verif.XReal Verif.Integrator
open Classical

namespace PyChain

/-- `y' = p`. -/
noncomputable def ode : ODE ℝ 1 1 0 0 where
  computeUpdate i _ _ := (⟨i.independentInput, 0, 0⟩, 0)
  computeUpdateDerivative _ i _ _ := ⟨i.independentInput, 0, 0⟩
  computeUpdateAdjoint _ r _ _ := ⟨0, 0, r.stageUpdate, 0⟩

/-- The error measure of a step that ends at `y`: not a number from 1 on, too large from 3/4 on. -/
noncomputable def meas (y : ℝ) : XReal :=
  if 1 ≤ y then nan else if 3 / 4 ≤ y then fin 4 else fin (1 / 4)

/-- Explicit Euler for `y' = p`. -/
noncomputable def env : Env 1 1 1 0 0 where
  T := Integrator.Ex.euler
  ode := ode
  fails := fun _ _ => none
  nonfinite := fun _ _ => .error .backend
  measure := fun _ y => meas (y 0)

/-- Tolerance 1, no bounds, safety factor 1/2, one iteration. -/
noncomputable def cfg : Config := ⟨fin 1, 0, pinf, fin (1 / 2), 1⟩

/-- The controller `integral` with the fallback `pseudo`. -/
noncomputable def ctrl (ni : Bool) (k : ℕ) : Ctrl := .deco (pseudo 1) (.base (integral 1) cfg) ni k

/-- Three adaptive steps, the first one of size 1. -/
noncomputable def opt : Options := { adaptive := true, crit := .steps 3, initialStep := fin 1 }

/-- From 0 with slope 1. -/
noncomputable def inp : StartingValues ℝ 1 1 := ⟨0, fun _ => 0, fun _ => 1⟩

noncomputable abbrev B := embBackend env 1

theorem step_state (d : EmbRKState ℝ 1 1 1 0 0) (h : ℝ) :
    (computeStepEmb env.T 1 env.ode d h).finalState 0
      = d.finalState 0 + h * d.independentInputs 0 ∧
    (computeStepEmb env.T 1 env.ode d h).independentInputs = d.independentInputs := by
  simp [computeStepEmb, computeErrorEstimate, computeStep, accumulateStep, env, ode,
    List.finRange, computeStage, shiftState, Integrator.Ex.euler, mul_comm]

theorem step_adj (d p : EmbRKState ℝ 1 1 1 0 0) (h : ℝ) :
    (B.adj d p (fin h)).independentInputs 0 = p.independentInputs 0 + h * p.finalState 0 ∧
    (B.adj d p (fin h)).finalState 0 = p.finalState 0 := by
  simp [embBackend, computeStepAdjoint, computeStageAdjoint, env, ode, toReal,
    List.finRange, shiftStateReverse, Integrator.Ex.euler]

theorem step_deriv (d p : EmbRKState ℝ 1 1 1 0 0) (h : ℝ) :
    (B.deriv d p (fin h)).finalState 0 = p.finalState 0 + h * p.independentInputs 0 ∧
    (B.deriv d p (fin h)).independentInputs 0 = p.independentInputs 0 := by
  simp [embBackend, computeStepDerivative, computeStageDerivative, env, ode, toReal, accumulateStep,
    List.finRange, shiftState, Integrator.Ex.euler, mul_comm]

/-! ### The controllers -/

theorem integral_quarter (h : ℝ) (hh : 0 < h) (sh eh : XReal × XReal) :
    run (integral 1) cfg ⟨fin (1 / 4), fin h, pinf, eh, sh⟩ = ⟨fin h, true⟩ := by
  have hacc : accepts cfg ⟨fin (1 / 4), fin h, pinf, eh, sh⟩ :=
    Or.inr (Or.inr (by simp only [cfg, le_fin]; norm_num))
  have hest : estimate (integral 1) cfg ⟨fin (1 / 4), fin h, pinf, eh, sh⟩ = fin h := by
    have h4 : ((1 : ℝ) / (1 / 4)) ^ ((1 : ℝ) / (1 + 1)) = 2 := by
      rw [show (1 : ℝ) / (1 / 4) = 2 ^ (2 : ℝ) by norm_num, ← Real.rpow_mul (by norm_num)]
      norm_num
    simp only [estimate, integral, cfg, pow_zero]
    rw [div_fin _ (by norm_num), pow_fin (by norm_num), h4]
    simp only [mul_fin, mul_one]
    rw [show (1 : ℝ) / 2 * h * 2 = h by ring]
    split
    · split <;> rfl
    · rfl
  simp only [run, hacc, decide_true, hest, ite_self]
  simp only [cfg, if_true, mul_fin, zero_mul, add_pinf_fin, clip_none hh.le]

theorem not_accepts_four {h : ℝ} (hh : 1 / 8 ≤ h) (sh eh : XReal × XReal) :
    ¬ accepts cfg ⟨fin 4, fin h, pinf, eh, sh⟩ := by
  simp only [accepts, cfg, zero_def, sub_fin, abs_fin, lt_fin, le_fin]
  rw [sub_zero, abs_of_pos (by linarith)]
  simp only [not_or, not_lt]
  refine ⟨by linarith, by simp [sub, neg, add, XReal.abs, lt], by norm_num⟩

theorem integral_four (h : ℝ) (hh : 1 / 8 ≤ h) (sh eh : XReal × XReal) :
    run (integral 1) cfg ⟨fin 4, fin h, pinf, eh, sh⟩ = ⟨fin (h / 4), false⟩ := by
  have hest : estimate (integral 1) cfg ⟨fin 4, fin h, pinf, eh, sh⟩ = fin (h / 4) := by
    have h4 : ((1 : ℝ) / 4) ^ ((1 : ℝ) / (1 + 1)) = 1 / 2 := by
      rw [show (1 : ℝ) / 4 = (1 / 2) ^ (2 : ℝ) by norm_num, ← Real.rpow_mul (by norm_num)]
      norm_num
    simp only [estimate, integral, cfg, pow_zero]
    rw [div_fin _ (by norm_num), pow_fin (by norm_num), h4]
    simp only [mul_fin, mul_one]
    rw [show (1 : ℝ) / 2 * h * (1 / 2) = h / 4 by ring]
    split
    · split <;> rfl
    · rfl
  have hne : fin 4 ≠ 0 := by rw [zero_def, ne_eq, fin_inj]; norm_num
  simp only [run, not_accepts_four hh, decide_false, hest]
  rw [if_pos hne]
  simp only [cfg, mul_fin, add_pinf_fin, clip_none (show 0 ≤ h / 4 by linarith)]

theorem pseudo_half (e : XReal) (he : e ≠ 0) (h : ℝ) (hh : 0 < h) (sh eh : XReal × XReal) :
    run (pseudo 1) cfg ⟨e, fin h, pinf, eh, sh⟩
      = ⟨fin (h / 2), decide (accepts cfg ⟨e, fin h, pinf, eh, sh⟩)⟩ := by
  have hest : estimate (pseudo 1) cfg ⟨e, fin h, pinf, eh, sh⟩ = fin (h / 2) := by
    simp only [estimate, pseudo, cfg, pow_zero, mul_fin, mul_one]
    rw [show (1 : ℝ) / 2 * h = h / 2 by ring]
    split
    · split <;> rfl
    · rfl
  simp only [run, hest]
  rw [if_pos he]
  simp only [cfg, mul_fin, add_pinf_fin, clip_none (show 0 ≤ h / 2 by positivity)]

/-- The wrapped controller accepts. -/
theorem call_accept (k : ℕ) (h : ℝ) (hh : 0 < h) (sh eh : XReal × XReal) :
    (ctrl true k).call true ⟨fin (1 / 4), fin h, pinf, eh, sh⟩ = (ctrl true 0, .ok ⟨fin h, true⟩) := by
  simp [-one_div, ctrl, Ctrl.call, integral_quarter h hh]

/-- After a rejection by the decorator it accepts itself, the counter stays. -/
theorem call_accept_outer (k : ℕ) (h : ℝ) (hh : 0 < h) (sh eh : XReal × XReal) :
    (ctrl false k).call true ⟨fin (1 / 4), fin h, pinf, eh, sh⟩
      = (ctrl true k, .ok ⟨fin (h / 2), true⟩) := by
  have hacc : accepts cfg ⟨fin (1 / 4), fin h, pinf, eh, sh⟩ :=
    Or.inr (Or.inr (by simp only [cfg, le_fin]; norm_num))
  have hne : fin (1 / 4) ≠ 0 := by
    rw [zero_def, ne_eq, fin_inj]
    norm_num
  simp [-one_div, ctrl, Ctrl.call, Ctrl.config, runDeco, pseudo_half _ hne h hh, hacc]

/-- No number as error measure: the decorator takes over. -/
theorem call_nan (k : ℕ) (sh eh : XReal × XReal) :
    (ctrl true k).call true ⟨nan, fin 1, pinf, eh, sh⟩
      = (ctrl false (k + 1), .ok ⟨fin (1 / 2), false⟩) := by
  have hacc : ¬ accepts cfg ⟨nan, fin 1, pinf, eh, sh⟩ := by
    simp only [accepts, cfg, zero_def, sub_fin, abs_fin, lt_fin, not_nan_le, or_false]
    norm_num
    simp [sub, neg, add, XReal.abs, lt]
  have hne : (nan : XReal) ≠ 0 := by simp [zero_def]
  have hest : estimate (integral 1) cfg ⟨nan, fin 1, pinf, eh, sh⟩ = nan := by
    have : ((1 : ℝ) / (1 + 1)) ≠ 0 := by norm_num
    simp only [estimate, integral, cfg, XReal.div, pow_nan this, mul_nan, nan_mul, ite_self]
  have hrun : run (integral 1) cfg ⟨nan, fin 1, pinf, eh, sh⟩ = ⟨pinf, false⟩ := by
    simp only [run, hest, hacc, decide_false]
    rw [if_pos hne]
    simp [cfg, pyMin, pyMax, zero_def, lt]
  simp [-one_div, ctrl, Ctrl.call, Ctrl.config, runDeco, hrun, pseudo_half _ hne 1 one_pos, hacc]

/-- A rejection with counter 0: the size of the wrapped controller is used. -/
theorem call_reject_inner (h : ℝ) (hh : 1 / 8 ≤ h) (sh eh : XReal × XReal) :
    (ctrl true 0).call true ⟨fin 4, fin h, pinf, eh, sh⟩
      = (ctrl true 0, .ok ⟨fin (h / 4), false⟩) := by
  have : h / 4 < h := by linarith
  have hm : cfg.maxIter = 1 := rfl
  simp [-one_div, ctrl, Ctrl.call, Ctrl.config, integral_four h hh, hm, this]

/-- A rejection with counter 1: the decorator takes over. -/
theorem call_reject_outer (h : ℝ) (hh : 1 / 8 ≤ h) (sh eh : XReal × XReal) :
    (ctrl true 1).call true ⟨fin 4, fin h, pinf, eh, sh⟩
      = (ctrl false 2, .ok ⟨fin (h / 2), false⟩) := by
  have hne : fin 4 ≠ 0 := by rw [zero_def, ne_eq, fin_inj]; norm_num
  have h2 : ¬ h < h / 2 := by linarith
  have hm : cfg.maxIter = 1 := rfl
  simp [-one_div, ctrl, Ctrl.call, Ctrl.config, runDeco, integral_four h hh, hm, h2,
    pseudo_half _ hne h (by linarith), not_accepts_four hh]

/-! ### Single steps -/

/-- Value, step sizes and slope of a state. -/
structure At (x : IState (EmbRKState ℝ 1 1 1 0 0)) (y h g : ℝ) : Prop where
  val : x.disc.finalState 0 = y
  slope : x.disc.independentInputs 0 = 1
  sugg : x.sugg = fin g
  last : x.stepHist.1 = fin h

theorem iterate_accept (f : ℕ) {c c' : Ctrl} {x : IState (EmbRKState ℝ 1 1 1 0 0)} {y h g g' : ℝ}
    {e : XReal} (hx : At x y h g) (hm : meas (y + g) = e)
    (hcall : ∀ eh sh, c.call true ⟨e, fin g, pinf, eh, sh⟩ = (c', .ok ⟨fin g', true⟩)) :
    ∃ x', iterateOnStep B opt (f + 1) c x = (c', x', .ok ()) ∧ At x' (y + g) g g' := by
  obtain ⟨s1, s2⟩ := step_state x.disc g
  rw [hx.val, hx.slope, mul_one] at s1
  have hstep : B.step x.disc (fin g) = .ok (computeStepEmb env.T 1 env.ode x.disc g) := rfl
  have hmeas : B.measure (computeStepEmb env.T 1 env.ode x.disc g) = .ok e := by
    change Except.ok (meas _) = _
    rw [s1, hm]
  refine ⟨⟨B.set x.disc (computeStepEmb env.T 1 env.ode x.disc g), fin g', (fin g, x.stepHist.1),
    (e, x.errHist.1)⟩, ?_, s1, ?_, rfl, rfl⟩
  · simp [-one_div, iterateOnStep, hx.sugg, hstep, hmeas, Crit.remaining, opt, hcall]
  · exact (congrFun s2 0).trans hx.slope

theorem iterate_reject (f : ℕ) {c c' : Ctrl} {x : IState (EmbRKState ℝ 1 1 1 0 0)} {y h g g' : ℝ}
    {e : XReal} (hx : At x y h g) (hm : meas (y + g) = e)
    (hcall : ∀ eh sh, c.call true ⟨e, fin g, pinf, eh, sh⟩ = (c', .ok ⟨fin g', false⟩)) :
    ∃ x', iterateOnStep B opt (f + 1) c x = iterateOnStep B opt f c' x' ∧ At x' y h g' := by
  obtain ⟨s1, s2⟩ := step_state x.disc g
  rw [hx.val, hx.slope, mul_one] at s1
  have hstep : B.step x.disc (fin g) = .ok (computeStepEmb env.T 1 env.ode x.disc g) := rfl
  have hmeas : B.measure (computeStepEmb env.T 1 env.ode x.disc g) = .ok e := by
    change Except.ok (meas _) = _
    rw [s1, hm]
  refine ⟨{ x with sugg := fin g' }, ?_, hx.val, hx.slope, rfl, hx.last⟩
  rw [iterateOnStep]
  simp [-one_div, hx.sugg, hstep, hmeas, Crit.remaining, opt, hcall]

theorem step_one {x : IState (EmbRKState ℝ 1 1 1 0 0)} {h : ℝ} (hx : At x 0 h 1) :
    ∃ x', iterateOnStep B opt opt.recursionLimit (ctrl true 0) x = (ctrl true 1, x', .ok ()) ∧
      At x' (1 / 2) (1 / 2) (1 / 4) := by
  obtain ⟨x1, e1, h1⟩ := iterate_reject 899 hx (e := nan) (by norm_num [meas])
    (fun _ _ => call_nan 0 _ _)
  obtain ⟨x2, e2, h2⟩ := iterate_accept 898 h1 (e := fin (1 / 4)) (by norm_num [meas])
    (fun _ _ => call_accept_outer 1 (1 / 2) (by norm_num) _ _)
  refine ⟨x2, e1.trans e2, ?_⟩
  convert h2 using 1 <;> norm_num

theorem step_two {x : IState (EmbRKState ℝ 1 1 1 0 0)} {h : ℝ} (hx : At x (1 / 2) h (1 / 4)) :
    ∃ x', iterateOnStep B opt opt.recursionLimit (ctrl true 1) x = (ctrl true 2, x', .ok ()) ∧
      At x' (5 / 8) (1 / 8) (1 / 16) := by
  obtain ⟨x1, e1, h1⟩ := iterate_reject 899 hx (e := fin 4) (by norm_num [meas])
    (fun _ _ => call_reject_outer (1 / 4) (by norm_num) _ _)
  obtain ⟨x2, e2, h2⟩ := iterate_accept 898 h1 (e := fin (1 / 4)) (by norm_num [meas])
    (fun _ _ => call_accept_outer 2 (1 / 4 / 2) (by norm_num) _ _)
  refine ⟨x2, e1.trans e2, ?_⟩
  convert h2 using 1 <;> norm_num

/-- The same step with the counter at 0. -/
theorem step_two_again {x : IState (EmbRKState ℝ 1 1 1 0 0)} {h : ℝ}
    (hx : At x (1 / 2) h (1 / 4)) :
    ∃ x', iterateOnStep B opt opt.recursionLimit (ctrl true 0) x = (ctrl true 0, x', .ok ()) ∧
      At x' (9 / 16) (1 / 16) (1 / 16) := by
  obtain ⟨x1, e1, h1⟩ := iterate_reject 899 hx (e := fin 4) (by norm_num [meas])
    (fun _ _ => call_reject_inner (1 / 4) (by norm_num) _ _)
  obtain ⟨x2, e2, h2⟩ := iterate_accept 898 h1 (e := fin (1 / 4)) (by norm_num [meas])
    (fun _ _ => call_accept 0 (1 / 4 / 4) (by norm_num) _ _)
  refine ⟨x2, e1.trans e2, ?_⟩
  convert h2 using 1 <;> norm_num

theorem step_three {x : IState (EmbRKState ℝ 1 1 1 0 0)} {h : ℝ} (k : ℕ)
    (hx : At x (5 / 8) h (1 / 16)) :
    ∃ x', iterateOnStep B opt opt.recursionLimit (ctrl true k) x = (ctrl true 0, x', .ok ()) ∧
      At x' (11 / 16) (1 / 16) (1 / 16) := by
  obtain ⟨x2, e2, h2⟩ := iterate_accept 899 hx (e := fin (1 / 4)) (by norm_num [meas])
    (fun _ _ => call_accept k (1 / 16) (by norm_num) _ _)
  refine ⟨x2, e2, ?_⟩
  convert h2 using 1; norm_num

end PyChain

open PyChain in
/-- C33 is violated for chains of error controllers: the counter `_outer_counter` of a decorator is
not part of the checkpoints (error_controller.py L336, time_integration_state.py L56-71), so a step
that is repeated from a checkpoint can get another size than in the forward run. Here `y' = p` is
integrated by three steps, 1/2, 1/8 and 1/16, and the derivative with respect to `p` is 11/16; with
a legal schedule with one checkpoint, the second step is repeated with size 1/16, and the reverse
product is 5/8. -/
theorem C33_chain_state_violated :
    let w : World (EmbRKState ℝ 1 1 1 0 0) (List (IState (EmbRKState ℝ 1 1 1 0 0))) :=
      freshWorld opt (allCk B opt) EmbRKState.empty (ctrl true 0)
    let pck := pyCk B opt embRestore w.tis 2 (single 1)
    let wp : World (EmbRKState ℝ 1 1 1 0 0) (PyData (EmbRKState ℝ 1 1 1 0 0)) :=
      freshWorld opt pck EmbRKState.empty (ctrl true 0)
    buildChain 1 cfg [integral, pseudo] = some w.ctrl ∧ Legal 2 (single 1) ∧
    ∀ dI : StartingValues ℝ 1 1,
      (∃ v, (compute B opt pck 4 wp inp).2 = .ok v ∧ v.values 0 = 11 / 16) ∧
      (∃ g, (rev B opt (allCk B opt) 4 w inp ⟨0, fun _ => 1⟩ dI).2 = .ok g ∧
        g.independentInputs 0 = 11 / 16) ∧
      ∃ g, (rev B opt pck 4 wp inp ⟨0, fun _ => 1⟩ dI).2 = .ok g ∧
        g.independentInputs 0 = 5 / 8 := by
  intro w pck wp
  refine ⟨rfl, single_legal 1, fun dI => ?_⟩
  have hx0 : At (startOf B opt (ctrl true 0) w.tis.disc inp) 0 0 1 := ⟨rfl, rfl, rfl, rfl⟩
  obtain ⟨x1, e1, h1⟩ := step_one hx0
  obtain ⟨x2, e2, h2⟩ := step_two h1
  obtain ⟨x3, e3, h3⟩ := step_three 2 h2
  have hrun : Run B opt 0 (ctrl true 0) (startOf B opt (ctrl true 0) w.tis.disc inp)
      [(ctrl true 1, x1), (ctrl true 2, x2), (ctrl true 0, x3)] :=
    .step (by simp [opt, Crit.finished]) e1 (.step (by simp [opt, Crit.finished]) e2
      (.step (by simp [opt, Crit.finished]) e3 (.done (by simp [opt, Crit.finished]))))
  obtain ⟨x2', e2', h2'⟩ := step_two_again (x := restoreState embRestore x3 x1) (h := 1 / 2)
    ⟨h1.val, h1.slope, h1.sugg, h1.last⟩
  have hc0 : opt.computeCallbacks = 0 := rfl
  have hr0 : opt.revCallbacks = 0 := rfl
  have hfwd : pyForward B opt embRestore 2 (single 1) (pck.create wp.ck) (ctrl true 0)
      (startOf B opt (ctrl true 0) w.tis.disc inp)
      = (⟨wp.ck.first.set B x1, Function.update (fun _ => none) 0 (some x1)⟩,
        ⟨ctrl true 0, x3, [], .ok ()⟩) := by
    simp [pyForward, fwdApply, runStep, e1, e2, e3, applyForward, single, callbacks, hc0, pck, pyCk]
  have hcomp : compute B opt pck 4 wp inp
      = (⟨x3, wp.pert, ctrl true 0, some (B.load wp.tis.disc inp),
          ⟨wp.ck.first.set B x1, Function.update (fun _ => none) 0 (some x1)⟩, wp.log ++ []⟩,
        .ok (B.read x3.disc)) := by
    have hf' : pck.forward 4 (pck.create wp.ck) wp.ctrl
        { resetErrorControl opt wp.ctrl { wp.tis with disc := B.load wp.tis.disc inp } with
          disc := B.clearLin (B.load wp.tis.disc inp) } = _ := hfwd
    simp only [compute]
    erw [hf']
  refine ⟨⟨_, by rw [hcomp], h3.val⟩, ?_, ?_⟩
  · refine ⟨_, rev_of_run (tr := _) rfl hrun (by simp), ?_⟩
    simp only [List.map_cons, List.map_nil, List.reverse_cons, List.reverse_nil, List.nil_append,
      List.cons_append, revAlong, h1.last, h2.last, h3.last]
    change (B.adj x1.disc (B.adj x2.disc (B.adj x3.disc _ _) _) _).independentInputs 0 = _
    rw [(step_adj _ _ _).1, (step_adj _ _ _).1, (step_adj _ _ _).1, (step_adj _ _ _).2,
      (step_adj _ _ _).2, (step_adj _ _ _).2]
    change (0 : ℝ) + 1 / 16 * 1 + 1 / 8 * 1 + 1 / 2 * 1 = 11 / 16
    norm_num
  · have hrp : revPrep B opt pck 4 wp inp = (⟨x3, wp.pert, ctrl true 0,
        some (B.load wp.tis.disc inp),
        ⟨wp.ck.first.set B x1, Function.update (fun _ => none) 0 (some x1)⟩, wp.log ++ []⟩,
        .ok ()) := by
      rw [revPrep, if_neg (by simp [cacheOk, wp, freshWorld]), hcomp]
    simp only [rev, hrp]
    have hrev : pck.reverse ⟨wp.ck.first.set B x1, Function.update (fun _ => none) 0 (some x1)⟩
        (ctrl true 0) x3 (B.seed wp.pert ⟨0, fun _ => 1⟩)
        = (⟨wp.ck.first.set B x1, Function.update (fun _ => none) 0 (some x1)⟩,
          ⟨ctrl true 0, x2'.set B (wp.ck.first.set B x1), [], .ok ()⟩,
          B.adj (x2'.set B (wp.ck.first.set B x1)).disc (B.adj x2'.disc (B.adj x3.disc
            (B.seed wp.pert ⟨0, fun _ => 1⟩) (fin (1 / 16))) (fin (1 / 16))) (fin (1 / 2))) := by
      have hl' : (x2'.set B (wp.ck.first.set B x1)).stepHist.1 = fin (1 / 2) := h1.last
      simp [-one_div, pck, pyCk, pyReverse, single, replay, applyReverse, fwdApply, runStep, e2',
        hc0, hr0, callbacks, runStepRev, h2'.last, h3.last]
      exact congrArg (B.adj _ _) hl'
    rw [hrev]
    refine ⟨_, rfl, ?_⟩
    change (B.adj _ (B.adj x2'.disc (B.adj x3.disc _ _) _) _).independentInputs 0 = _
    rw [(step_adj _ _ _).1, (step_adj _ _ _).1, (step_adj _ _ _).1, (step_adj _ _ _).2,
      (step_adj _ _ _).2, (step_adj _ _ _).2]
    change (0 : ℝ) + 1 / 16 * 1 + 1 / 16 * 1 + 1 / 2 * 1 = 5 / 8
    norm_num

open PyChain in
/-- C14 is violated for the same reason: on fresh components the forward product in the direction of
`p` is 11/16, the reverse product with pyrevolve 5/8. -/
theorem C14_pyrevolve_chain_violated :
    let pck := pyCk B opt embRestore (freshWorld opt (allCk B opt) EmbRKState.empty (ctrl true 0)).tis
      2 (single 1)
    let wp : World (EmbRKState ℝ 1 1 1 0 0) (PyData (EmbRKState ℝ 1 1 1 0 0)) :=
      freshWorld opt pck EmbRKState.empty (ctrl true 0)
    let dO : Outputs 1 := ⟨0, fun _ => 1⟩
    let di : StartingValues ℝ 1 1 := ⟨0, fun _ => 0, fun _ => 1⟩
    ∃ v g, (fwd B opt 4 wp inp di ⟨0, 0⟩).2 = .ok v ∧
      (rev B opt pck 4 wp inp dO ⟨0, 0, 0⟩).2 = .ok g ∧
      dot dO.values v.values = 11 / 16 ∧
      dot g.initialValues di.initialValues + dot g.independentInputs di.independentInputs = 5 / 8 := by
  intro pck wp dO di
  obtain ⟨-, -, h⟩ := C33_chain_state_violated
  obtain ⟨-, -, g, hg, hgv⟩ := h ⟨0, 0, 0⟩
  have hx0 : At (startOfFwd B opt (ctrl true 0) wp.tis.disc inp) 0 0 1 := ⟨rfl, rfl, rfl, rfl⟩
  obtain ⟨x1, e1, h1⟩ := step_one hx0
  obtain ⟨x2, e2, h2⟩ := step_two h1
  obtain ⟨x3, e3, h3⟩ := step_three 2 h2
  have hrun : Run B opt 0 (ctrl true 0) (startOfFwd B opt (ctrl true 0) wp.tis.disc inp)
      [(ctrl true 1, x1), (ctrl true 2, x2), (ctrl true 0, x3)] :=
    .step (by simp [opt, Crit.finished]) e1 (.step (by simp [opt, Crit.finished]) e2
      (.step (by simp [opt, Crit.finished]) e3 (.done (by simp [opt, Crit.finished]))))
  refine ⟨_, g, fwd_of_run (w := wp) hrun (by simp) di ⟨0, 0⟩, hg, ?_, ?_⟩
  · simp only [fwdAlong, h1.last, h2.last, h3.last, dot, Finset.univ_unique, Finset.sum_singleton]
    change 1 * (B.deriv x3.disc (B.deriv x2.disc (B.deriv x1.disc _ _) _) _).finalState 0 = _
    rw [(step_deriv _ _ _).1, (step_deriv _ _ _).1, (step_deriv _ _ _).1, (step_deriv _ _ _).2,
      (step_deriv _ _ _).2]
    change 1 * ((0 : ℝ) + 1 / 2 * 1 + 1 / 8 * 1 + 1 / 16 * 1) = 11 / 16
    norm_num
  · simp [dot, di, hgv]

variable {s n m o l : ℕ} {opt : Options}

/-- C14 for pyrevolve (embedded schemes): forward product and reverse product of components with
pyrevolve are transposes of each other, for every legal schedule, without adaptive stepping or with a
single error controller (see C33 for what is missing). -/
theorem C14_embedded_pyrevolve_transpose_partial (E : Env s n m o l) (bhat : Fin s → ℝ)
    (hz : NoStageState E.ode)
    (hadj : ∀ lin h i, AdjointPair E.ode lin h (E.T.A i i)) {N fuel fuel' : ℕ}
    {sched : Schedule} (hl : Legal N sched) (hN : opt.crit = .steps (N + 1)) (hf : N + 1 < fuel)
    {e : IState (EmbRKState ℝ s n m o l)}
    {w w' : World (EmbRKState ℝ s n m o l) (PyData (EmbRKState ℝ s n m o l))}
    (hp : opt.adaptive = false ∨ ∃ par cfg, w.ctrl = .base par cfg) (hc : w'.ctrl = w.ctrl)
    (hw : w.cached = none) (cw : w.pert.stageStates = 0)
    {i di dI g : StartingValues ℝ n m} {dO dO0 v : Outputs n}
    (hfw : (fwd (embBackend E bhat) opt fuel' w' i di dO0).2 = .ok v)
    (hr : (rev (embBackend E bhat) opt (pyCk (embBackend E bhat) opt embRestore e N sched) fuel w i
      dO dI).2 = .ok g) :
    dot dO.values v.values + dO.time * (v.time - dO0.time)
      = dot g.initialValues di.initialValues + (g.initialTime - dI.initialTime) * di.initialTime
        + dot g.independentInputs di.independentInputs := by
  rw [C33_embedded_pyrevolve_reverse_partial E bhat hz hl hN hf
    (w0 := ⟨w.tis, w.pert, w.ctrl, none, [], []⟩) hp rfl hw rfl cw cw] at hr
  exact C14_embedded_reverse_is_transpose_partial E bhat hz hadj hc (by simp [cacheOk])
    (Prod.ext rfl hfw) (Prod.ext rfl hr)

/-! ### C40 -/

variable {D I O : Type} {B : Backend D I O}

/-- What the callbacks are called for: an accepted step of the forward run, or a step of the reverse
mode. -/
inductive Block (D : Type) where
  | step (it : ℕ) (x x' : IState D)
  | rev (it : ℕ) (x : IState D)

/-- The calls a step has to lead to: first all callbacks of the list before the step, in the order of
the list, then all of them after it. -/
def Block.calls (opt : Options) : Block D → List (Ev D)
  | .step it x x' => (List.range opt.computeCallbacks).map (fun j => .before .compute j it x) ++
      (List.range opt.computeCallbacks).map (fun j => .after .compute j it x')
  | .rev it x => (List.range opt.revCallbacks).map (fun j => .before .rev j it x) ++
      (List.range opt.revCallbacks).map (fun j => .after .rev j it x)

/-- A block stands for an accepted step. -/
def Block.Ok (B : Backend D I O) (opt : Options) : Block D → Prop
  | .step _ x x' => Accepted B opt x x'
  | .rev .. => True

/-- The calls are those of a sequence of steps, one after the other. -/
def Brackets (B : Backend D I O) (opt : Options) (log : List (Ev D)) : Prop :=
  ∃ bs : List (Block D), (∀ b ∈ bs, b.Ok B opt) ∧ log = bs.flatMap (Block.calls opt)

theorem Brackets.nil : Brackets B opt [] := ⟨[], by simp, rfl⟩

theorem Brackets.append {a b : List (Ev D)} (ha : Brackets B opt a) (hb : Brackets B opt b) :
    Brackets B opt (a ++ b) := by
  obtain ⟨as, h1, rfl⟩ := ha
  obtain ⟨bs, h2, rfl⟩ := hb
  refine ⟨as ++ bs, ?_, by rw [List.flatMap_append]⟩
  intro b hb
  rcases List.mem_append.mp hb with h | h
  · exact h1 b h
  · exact h2 b h

theorem brackets_runStep {it : ℕ} {c : Ctrl} {x : IState D}
    (h : (runStep B opt it c x).out = .ok ()) : Brackets B opt (runStep B opt it c x).log := by
  simp only [runStep] at h ⊢
  rcases hs : iterateOnStep B opt opt.recursionLimit c x with ⟨c', x', e | u⟩
  · rw [hs] at h; simp at h
  · refine ⟨[.step it x x'], ?_, ?_⟩
    · simp only [List.mem_singleton, forall_eq]
      exact iterate_accepted hs
    · simp [Block.calls, callbacks]

theorem brackets_fwdApply (it count : ℕ) {c : Ctrl} {x : IState D}
    (h : (fwdApply B opt it count c x).out = .ok ()) :
    Brackets B opt (fwdApply B opt it count c x).log := by
  induction count generalizing it c x with
  | zero => exact .nil
  | succ k ih =>
    simp only [fwdApply] at h ⊢
    rcases hr : runStep B opt it c x with ⟨c', x', log, e | u⟩
    · rw [hr] at h; simp at h
    · rw [hr] at h
      have h1 := brackets_runStep (B := B) (opt := opt) (it := it) (c := c) (x := x) (by rw [hr])
      rw [hr] at h1
      exact h1.append (ih (it + 1) h)

theorem brackets_applyForward {R : Restore D} {n : ℕ} (acts : List Act) {s : PyData D} {c : Ctrl}
    {x : IState D} (h : (applyForward B opt R n acts s c x).2.out = .ok ()) :
    Brackets B opt (applyForward B opt R n acts s c x).2.log := by
  induction acts generalizing s c x with
  | nil => simp [applyForward] at h
  | cons a acts ih =>
    cases a with
    | advance old capo =>
      simp only [applyForward] at h ⊢
      rcases hr : fwdApply B opt (old + 1) (capo - old) c x with ⟨c', x', log, e | u⟩
      · rw [hr] at h; simp at h
      · rw [hr] at h
        have h1 := brackets_fwdApply (B := B) (opt := opt) (old + 1) (capo - old) (c := c) (x := x)
          (by rw [hr])
        rw [hr] at h1
        exact h1.append (ih h)
    | takeshot j => exact ih h
    | restore j =>
      simp only [applyForward] at h ⊢
      cases hj : s.slots j with
      | none => rw [hj] at h; simp at h
      | some y => rw [hj] at h; exact ih h
    | lastfw old => exact brackets_fwdApply _ _ h
    | reverse k => exact ih h

theorem brackets_runStepRev (it : ℕ) (x : IState D) (p : D) :
    Brackets B opt (runStepRev B opt it x p).2 :=
  ⟨[.rev it x], by simp [Block.Ok], by simp [Block.calls, runStepRev, callbacks]⟩

theorem brackets_applyReverse {R : Restore D} (acts : List Act) {s : PyData D} {c : Ctrl}
    {x : IState D} {p : D} (h : (applyReverse B opt R acts s c x p).2.1.out = .ok ()) :
    Brackets B opt (applyReverse B opt R acts s c x p).2.1.log := by
  induction acts generalizing s c x p with
  | nil => exact .nil
  | cons a acts ih =>
    cases a with
    | advance old capo =>
      simp only [applyReverse] at h ⊢
      rcases hr : fwdApply B opt (old + 1) (capo - old) c x with ⟨c', x', log, e | u⟩
      · rw [hr] at h; simp at h
      · rw [hr] at h
        have h1 := brackets_fwdApply (B := B) (opt := opt) (old + 1) (capo - old) (c := c) (x := x)
          (by rw [hr])
        rw [hr] at h1
        exact h1.append (ih h)
    | takeshot j => exact ih h
    | restore j =>
      simp only [applyReverse] at h ⊢
      cases hj : s.slots j with
      | none => rw [hj] at h; simp at h
      | some y => rw [hj] at h; exact ih h
    | lastfw old => exact ih h
    | reverse k =>
      simp only [applyReverse] at h ⊢
      rcases hr : fwdApply B opt (k + 1) 1 c x with ⟨c', x', log, e | u⟩
      · rw [hr] at h; simp at h
      · rw [hr] at h
        have h1 := brackets_fwdApply (B := B) (opt := opt) (k + 1) 1 (c := c) (x := x)
          (by rw [hr])
        rw [hr] at h1
        exact (h1.append (brackets_runStepRev _ _ _)).append (ih h)

theorem bump_injective : Function.Injective (Ev.bump (D := D)) := by
  rintro (⟨k, j, it, x⟩ | ⟨k, j, it, x⟩) (⟨k', j', it', x'⟩ | ⟨k', j', it', x'⟩) h <;>
    simp [Ev.bump] at h ⊢ <;> exact h

/-- C40 for `compute` with pyrevolve and schedules that load no checkpoint in the forward phase: the
calls are those of C40 for the other checkpointers along the chain of accepted states that leads to
the result, with consecutive numbers, which start at 0 instead of 1 (see C16). Missing: zero steps, for
which the claim is violated (`C40_pyrevolve_zero_steps_violated`). -/
theorem C40_pyrevolve_compute_order_partial {R : Restore D} {e : IState D} {N fuel : ℕ}
    {sched : Schedule} {sl : ℕ → Option ℕ} (hl : LegalF N sched.fwd 0 (fun _ => none) sl)
    (hno : NoRestore sched.fwd) (hN : opt.crit = .steps (N + 1)) (hf : N + 1 < fuel)
    {w w' : World D (PyData D)} {i : I} {v : O}
    (h : compute B opt (pyCk B opt R e N sched) fuel w i = (w', .ok v)) :
    ∃ states : List (IState D), states.length = N + 1 ∧
      List.IsChain (Accepted B opt) (startOf B opt w.ctrl w.tis.disc i :: states) ∧
      w'.tis = states.getLastD (startOf B opt w.ctrl w.tis.disc i) ∧
      w'.log = w.log ++ (List.zip (List.range states.length)
          (List.zip (startOf B opt w.ctrl w.tis.disc i :: states) states)).flatMap
        (fun q => Block.calls opt (.step q.1 q.2.1 q.2.2)) := by
  obtain ⟨h1, h2, h3, new, h4, h5⟩ := C31_pyrevolve_forward (B := B) (opt := opt) (R := R) (e := e)
    hl hno hN hf (ch := .no) w ⟨w.tis, w.pert, w.ctrl, w.cached, (), []⟩ rfl rfl i
  rw [h] at h1 h2 h3 h4
  rcases hc : compute B opt (Choice.no.ck B opt) fuel
    ⟨w.tis, w.pert, w.ctrl, w.cached, (), []⟩ i with ⟨w2, r⟩
  rw [hc] at h1 h2 h5
  dsimp only at h1 h2 h4 h5
  subst h1
  obtain ⟨tr, htr, -, -, ht, hlog, -⟩ := compute_run hc
  have hlen := htr.length_steps hN (Nat.zero_le _)
  refine ⟨tr.map Prod.snd, by rw [List.length_map]; omega, run_chain htr, ?_, ?_⟩
  · rw [h2, ht]; exact lastOf_getLastD ..
  · rw [h4]
    congr 1
    rw [h5, runLog_flat] at hlog
    simp only [List.nil_append] at hlog
    refine List.map_injective_iff.mpr bump_injective ?_
    rw [hlog, List.map_flatMap, List.length_map]
    congr 1
    · funext q
      simp [Block.calls, Ev.bump, Function.comp_def]
    · simp

theorem revEvents_applyForward {R : Restore D} {n : ℕ} (acts : List Act) (s : PyData D) (c : Ctrl)
    (x : IState D) : revEvents (applyForward B opt R n acts s c x).2.log = [] := by
  induction acts generalizing s c x with
  | nil => rfl
  | cons a acts ih =>
    cases a with
    | advance old capo =>
      have h := revEvents_fwdApply (B := B) (opt := opt) (old + 1) (capo - old) c x
      simp only [applyForward]
      rcases hr : fwdApply B opt (old + 1) (capo - old) c x with ⟨c', x', log, e | u⟩
      · rw [hr] at h; exact h
      · rw [hr] at h
        dsimp only at h ⊢
        rw [revEvents_append, h, ih]
        rfl
    | takeshot j => exact ih _ _ _
    | restore j =>
      simp only [applyForward]
      cases hj : s.slots j with
      | none => rfl
      | some y => exact ih _ _ _
    | lastfw old => exact revEvents_fwdApply _ _ _ _
    | reverse k => exact ih _ _ _

theorem revEvents_applyReverse {R : Restore D} {n k todo : ℕ} {acts : List Act}
    {sl : ℕ → Option ℕ} (hl : LegalR n acts k sl todo) {s : PyData D} {c : Ctrl} {x : IState D}
    {p : D} (h : (applyReverse B opt R acts s c x p).2.1.out = .ok ()) :
    revEvents (applyReverse B opt R acts s c x p).2.1.log ++ revCalls opt.revCallbacks 1
      = revCalls opt.revCallbacks (todo + 1) := by
  induction hl generalizing s c x p with
  | done => rfl
  | @advance acts a b sl todo hab hbn hl ih =>
    have h1 := revEvents_fwdApply (B := B) (opt := opt) (a + 1) (b - a) c x
    simp only [applyReverse] at h ⊢
    rcases hr : fwdApply B opt (a + 1) (b - a) c x with ⟨c', x', log, e | u⟩
    · rw [hr] at h; simp at h
    · rw [hr] at h h1
      dsimp only at h1 h ⊢
      rw [revEvents_append, h1]
      exact ih h
  | takeshot hl ih => exact ih h
  | @restore acts k k' j sl todo hj hl ih =>
    simp only [applyReverse] at h ⊢
    cases hj : s.slots j with
    | none => rw [hj] at h; simp at h
    | some y => rw [hj] at h; exact ih h
  | @reverse acts k sl hl ih =>
    have h1 := revEvents_fwdApply (B := B) (opt := opt) (k + 1) 1 c x
    simp only [applyReverse] at h ⊢
    rcases hr : fwdApply B opt (k + 1) 1 c x with ⟨c', x', log, e | u⟩
    · rw [hr] at h; simp at h
    · rw [hr] at h h1
      dsimp only at h1 h ⊢
      rw [revEvents_append, revEvents_append, h1, revEvents_runStepRev, List.append_assoc, ih h]
      rfl

theorem revEvents_compute {R : Restore D} {e : IState D} {N fuel : ℕ}
    {sched : Schedule} {w w' : World D (PyData D)} {i : I} {v : O}
    (h : compute B opt (pyCk B opt R e N sched) fuel w i = (w', .ok v)) :
    ∃ new, w'.log = w.log ++ new ∧ Brackets B opt new ∧ revEvents new = [] := by
  simp only [compute, pyCk, pyForward] at h
  generalize resetErrorControl opt w.ctrl _ = x0 at h
  have h0 := revEvents_fwdApply (B := B) (opt := opt) 0 1 w.ctrl
    { x0 with disc := B.clearLin x0.disc }
  rcases hr : fwdApply B opt 0 1 w.ctrl { x0 with disc := B.clearLin x0.disc }
    with ⟨c', x', log, e | u⟩
  · rw [hr] at h
    simp at h
  · rw [hr] at h h0
    have h1 := brackets_fwdApply (B := B) (opt := opt) 0 1 (c := w.ctrl)
      (x := { x0 with disc := B.clearLin x0.disc }) (by rw [hr])
    rw [hr] at h1
    dsimp only at h
    generalize hs : PyData.mk _ _ = s at h
    have h2 := brackets_applyForward (B := B) (opt := opt) (R := R) (n := N) sched.fwd (s := s)
      (c := c') (x := x')
    have h3 := revEvents_applyForward (B := B) (opt := opt) (R := R) (n := N) sched.fwd s c' x'
    rcases hq : (applyForward B opt R N sched.fwd s c' x').2 with ⟨c2, x2, log2, e | u⟩
    · rw [hq] at h; simp at h
    · rw [hq] at h h2 h3
      simp only [Prod.mk.injEq] at h
      rw [← h.1]
      refine ⟨_, rfl, h1.append (h2 rfl), ?_⟩
      dsimp only at h0 h3 ⊢
      rw [revEvents_append, h0, h3]
      rfl

/-- C40 is violated by pyrevolve with zero steps: before the revolver gets the control, which could do
nothing then, the first step is done unconditionally (pyrevolve_checkpointer.py L164). So the callbacks
are called, whatever the revolver does afterwards and whatever the outcome of the step is, while the
other checkpointers call none. The last index of the revolver is `-1`; all that `n` is used for in the
model is that no step up to this index is left, which is what `0` means, too. -/
theorem C40_pyrevolve_zero_steps_violated {R : Restore D} {e : IState D} {fuel : ℕ}
    (hN : opt.crit = .steps 0) (hf : 0 < fuel) (hcb : 0 < opt.computeCallbacks)
    (sched : Schedule) (w : World D (PyData D)) (i : I) :
    (∃ rest, (compute B opt (pyCk B opt R e 0 sched) fuel w i).1.log = w.log ++
      .before .compute 0 0 (startOf B opt w.ctrl w.tis.disc i) :: rest) ∧
    ∀ (ch : Choice) (w0 : World D (ch.Data D)),
      (compute B opt (ch.ck B opt) fuel w0 i).1.log = w0.log := by
  constructor
  · obtain ⟨k, hk⟩ := Nat.exists_eq_succ_of_ne_zero hcb.ne'
    have hstep : ∀ (c : Ctrl) (x : IState D), ∃ rest,
        (fwdApply B opt 0 1 c x).log = .before .compute 0 0 x :: rest := by
      intro c x
      simp only [fwdApply, runStep, callbacks, hk, List.range_succ_eq_map, List.map_cons]
      rcases iterateOnStep B opt opt.recursionLimit c x with ⟨c', x', e | u⟩
      · exact ⟨_, rfl⟩
      · exact ⟨_, rfl⟩
    have hpy : ∀ (s : PyData D) (c : Ctrl) (x : IState D), ∃ rest,
        (pyForward B opt R 0 sched s c x).2.log = .before .compute 0 0 x :: rest := by
      intro s c x
      obtain ⟨rest, h⟩ := hstep c x
      simp only [pyForward]
      rcases hr : fwdApply B opt 0 1 c x with ⟨c', x', log, e | u⟩
      · rw [hr] at h
        exact ⟨rest, h⟩
      · rw [hr] at h
        dsimp only at h ⊢
        rw [h]
        exact ⟨_, rfl⟩
    obtain ⟨rest, h⟩ := hpy ⟨w.ck.first, fun _ => none⟩ w.ctrl
      (startOf B opt w.ctrl w.tis.disc i)
    refine ⟨rest, ?_⟩
    have h2 : (compute B opt (pyCk B opt R e 0 sched) fuel w i).1.log = w.log ++
        (pyForward B opt R 0 sched ⟨w.ck.first, fun _ => none⟩ w.ctrl
          (startOf B opt w.ctrl w.tis.disc i)).2.log := by
      simp only [compute, pyCk, startOf]
      split <;> rfl
    rw [h2, h]
  · intro ch w0
    obtain ⟨f, rfl⟩ := Nat.exists_eq_succ_of_ne_zero hf.ne'
    have hfin : ∀ t, opt.crit.finished 0 t = true := fun t => by rw [hN]; simp [Crit.finished]
    cases ch <;>
      simp [compute, Choice.ck, noCk, allCk, noForward, allForward, hfin]

/-- Zero steps with one callback, for a revolver that does nothing. -/
example (w : World (RKState ℝ 1 1 1 0 0) (PyData (RKState ℝ 1 1 1 0 0))) :
    ∃ rest, (compute (rkBackend Integrator.Ex.env)
        { Integrator.Ex.opt3 with crit := .steps 0, computeCallbacks := 1 }
        (pyCk (rkBackend Integrator.Ex.env)
          { Integrator.Ex.opt3 with crit := .steps 0, computeCallbacks := 1 } rkRestore w.tis 0
          (single 0)) 1 w Integrator.Ex.inp).1.log = w.log ++ rest ∧ rest ≠ [] := by
  obtain ⟨rest, h⟩ := (C40_pyrevolve_zero_steps_violated (B := rkBackend Integrator.Ex.env)
    (opt := { Integrator.Ex.opt3 with crit := .steps 0, computeCallbacks := 1 })
    (R := rkRestore) (e := w.tis) (fuel := 1) rfl (by omega) (by simp) (single 0) w
    Integrator.Ex.inp).1
  exact ⟨_, h, List.cons_ne_nil _ _⟩

/-- C40 for `compute` with pyrevolve, any schedule and any error controllers: the calls of callbacks
are those of a sequence of accepted steps; also if the schedule goes back to a checkpoint, so that
steps are repeated. -/
theorem C40_pyrevolve_compute_callbacks {R : Restore D} {e : IState D} {N fuel : ℕ}
    {sched : Schedule} {w w' : World D (PyData D)} {i : I} {v : O}
    (h : compute B opt (pyCk B opt R e N sched) fuel w i = (w', .ok v)) :
    ∃ new, w'.log = w.log ++ new ∧ Brackets B opt new := by
  obtain ⟨new, h1, h2, -⟩ := revEvents_compute h
  exact ⟨new, h1, h2⟩

/-- C40 for reverse products with pyrevolve, any legal schedule and any error controllers, with or
without an earlier `compute`: the calls of callbacks are those of a sequence of steps, each one either
an accepted (possibly repeated) step of the forward run or a step of the reverse mode, and the latter
have the numbers `N + 1, ..., 1` in this order. -/
theorem C40_pyrevolve_rev_callbacks {R : Restore D} {e : IState D} {N fuel : ℕ}
    {sched : Schedule} (hl : Legal N sched) {w w' : World D (PyData D)} {i dI g : I} {dO : O}
    (h : rev B opt (pyCk B opt R e N sched) fuel w i dO dI = (w', .ok g)) :
    ∃ new, w'.log = w.log ++ new ∧ Brackets B opt new ∧
      revEvents new = revCalls opt.revCallbacks (N + 1) := by
  obtain ⟨hcapo, sl, -, hlr⟩ := hl
  have hprep : ∀ w1, revPrep B opt (pyCk B opt R e N sched) fuel w i = (w1, .ok ()) →
      ∃ new, w1.log = w.log ++ new ∧ Brackets B opt new ∧ revEvents new = [] := by
    intro w1 h1
    rw [revPrep] at h1
    split at h1
    · simp only [Prod.mk.injEq] at h1
      exact ⟨[], by rw [← h1.1, List.append_nil], .nil, rfl⟩
    · rcases hc : compute B opt (pyCk B opt R e N sched) fuel w i with ⟨w2, e' | v⟩
      · rw [hc] at h1; simp at h1
      · rw [hc] at h1
        simp only [Prod.mk.injEq] at h1
        rw [← h1.1]
        exact revEvents_compute hc
  simp only [rev] at h
  rcases hp : revPrep B opt (pyCk B opt R e N sched) fuel w i with ⟨w1, e' | u⟩
  · rw [hp] at h; simp at h
  · rw [hp] at h
    obtain ⟨new, hn, hb, hev⟩ := hprep w1 hp
    simp only [pyCk, pyReverse] at h
    generalize B.seed w1.pert dO = p at h
    have h2 := brackets_applyReverse (B := B) (opt := opt) (R := R) sched.rev (s := w1.ck)
      (c := w1.ctrl) (x := w1.tis) (p := (runStepRev B opt (sched.capo + 2) w1.tis p).1)
    have h3 := revEvents_applyReverse (B := B) (opt := opt) (R := R) hlr (s := w1.ck)
      (c := w1.ctrl) (x := w1.tis) (p := (runStepRev B opt (sched.capo + 2) w1.tis p).1)
    rcases hq : applyReverse B opt R sched.rev w1.ck w1.ctrl w1.tis
      (runStepRev B opt (sched.capo + 2) w1.tis p).1 with ⟨s2, ⟨c2, x2, log2, e | u⟩, p2⟩
    · rw [hq] at h; simp at h
    · rw [hq] at h h2 h3
      simp only [Prod.mk.injEq] at h
      rw [← h.1]
      refine ⟨new ++ _, by dsimp only; rw [hn, List.append_assoc], hb.append ?_, ?_⟩
      · exact ((brackets_runStepRev _ _ _).append (h2 rfl)).append (brackets_runStepRev _ _ _)
      · have h3' := h3 rfl
        dsimp only at h3'
        rw [revEvents_append, hev, revEvents_append, revEvents_append, revEvents_runStepRev,
          revEvents_runStepRev, List.nil_append, List.append_assoc, ← hcapo]
        have h1 : revCalls opt.revCallbacks 1 = (List.range opt.revCallbacks).map (fun j => (true, j, 1))
            ++ (List.range opt.revCallbacks).map (fun j => (false, j, 1)) := by simp [revCalls]
        rw [← h1, h3']
        rfl

/-- C40 for reverse products with full checkpointing, with or without an earlier `compute`: if the
cached inputs are not those asked for there are the calls of a `compute` (see
`C40_compute_callbacks`), then those of the steps of the reverse mode for the stored states, last one
first, with consecutive numbers down to 1. -/
theorem C40_rev_callbacks {fuel : ℕ} {w w' : World D (List (IState D))} {i dI g : I} {dO : O}
    (h : rev B opt (allCk B opt) fuel w i dO dI = (w', .ok g)) :
    ∃ w1 : World D (List (IState D)),
      (w1 = w ∨ ∃ v, compute B opt (allCk B opt) fuel w i = (w1, .ok v)) ∧
      w'.log = w1.log ++ (List.zip (List.range w1.ck.length) w1.ck).reverse.flatMap
        (fun q => Block.calls opt (.rev (q.1 + 1) q.2)) := by
  simp only [rev] at h
  have hprep : ∀ w1, revPrep B opt (allCk B opt) fuel w i = (w1, .ok ()) →
      w1 = w ∨ ∃ v, compute B opt (allCk B opt) fuel w i = (w1, .ok v) := by
    intro w1 h1
    rw [revPrep] at h1
    split at h1
    · simp only [Prod.mk.injEq, and_true] at h1
      exact Or.inl h1.symm
    · rcases hc : compute B opt (allCk B opt) fuel w i with ⟨w2, e' | v⟩
      · rw [hc] at h1; simp at h1
      · rw [hc] at h1
        simp only [Prod.mk.injEq, and_true] at h1
        rw [← h1]
        exact Or.inr ⟨v, rfl⟩
  rcases hp : revPrep B opt (allCk B opt) fuel w i with ⟨w1, e' | u⟩
  · rw [hp] at h; simp at h
  · rw [hp] at h
    simp only [allCk, Prod.mk.injEq, allReverse_snd] at h
    refine ⟨w1, hprep w1 hp, ?_⟩
    rw [← h.1, revLog_flat]
    rfl

/-- Three steps with a callback and one checkpoint: the calls of `compute` are those of three steps;
the reverse product repeats the second step. -/
example (dO : Outputs 1) :
    let B := rkBackend Integrator.Ex.env
    let ck := pyCk B Integrator.Ex.opt3 rkRestore (Integrator.Ex.fresh Integrator.Ex.opt3 .all).tis 2
      (single 1)
    let w := freshWorld Integrator.Ex.opt3 ck RKState.empty Integrator.Ex.ctrl
    0 < Integrator.Ex.opt3.computeCallbacks ∧
    ∃ w' g new, rev B Integrator.Ex.opt3 ck 4 w Integrator.Ex.inp dO ⟨0, 0, 0⟩ = (w', .ok g) ∧
      w'.log = w.log ++ new ∧ Brackets B Integrator.Ex.opt3 new ∧
      revEvents new = [(true, 0, 3), (false, 0, 3), (true, 0, 2), (false, 0, 2), (true, 0, 1),
        (false, 0, 1)] := by
  intro B ck w
  refine ⟨by simp [Integrator.Ex.opt3], ?_⟩
  have h : ∃ g, (rev B Integrator.Ex.opt3 ck 4 w Integrator.Ex.inp dO ⟨0, 0, 0⟩).2 = .ok g := by
    rw [C33_pyrevolve_reverse_partial Integrator.Ex.env Integrator.Ex.env_noStageState
      (single_legal 1) rfl (by omega) (w0 := Integrator.Ex.fresh Integrator.Ex.opt3 .all)
      (Or.inl rfl) rfl rfl rfl rfl rfl]
    obtain ⟨tr, htr⟩ := exists_run_fixed (B := B) (opt := Integrator.Ex.opt3)
      (n := 3) rfl rfl (by simp [Integrator.Ex.opt3]) Integrator.Ex.ctrl
      (startOf B Integrator.Ex.opt3 Integrator.Ex.ctrl
        (Integrator.Ex.fresh Integrator.Ex.opt3 .all).tis.disc Integrator.Ex.inp)
      (fun d => ⟨computeStep Integrator.Ex.env.T Integrator.Ex.env.ode d (1 / 2), rfl⟩) 0
    have hlen := htr.length_steps (opt := Integrator.Ex.opt3) (n := 3) rfl (Nat.zero_le _)
    exact ⟨_, rev_of_run rfl htr (by omega)⟩
  obtain ⟨g, hg⟩ := h
  have hg' := eq_mk_of_snd hg
  obtain ⟨new, h1, h2, h3⟩ := C40_pyrevolve_rev_callbacks (single_legal 1) hg'
  exact ⟨_, g, new, hg', h1, h2, h3⟩

end Verif.Props
