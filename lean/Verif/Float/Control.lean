/-
Error control in floating point arithmetic.

Source: /repo/src/rkopenmdao/error_controller.py L143-252, L347-416
        /repo/src/rkopenmdao/runge_kutta_integrator.py L534-637
        /repo/src/rkopenmdao/checkpoint_interface/{no,all}_checkpointer.py

`Verif.Control.Model` computes with real numbers. Here the sums and differences of the controller are
rounded, and its estimate is any function of what the controller gets, so that any rounding,
overflow or underflow of products, quotients and powers is covered. `min`, `max`, comparisons and
the product with 0 or 1 are exact in floating point arithmetic. The functions of the integrator that
call the controller are repeated with the call as an argument; with exact arithmetic they are those
of `Verif.Integrator.Model` (`noForwardFl_exact`, `ckFl_exact`).
-/
import Verif.Float.Model

namespace Verif.Fl

open Verif.Control Verif.XReal Verif.Integrator
open Classical

/-- The arithmetic of a controller: the rounding of a sum or difference, and the computed value of
`_estimate_next_step_function` (error_controller.py L244-252). -/
structure Arith where
  rd : ℝ → ℝ
  est : Params → Config → Input → XReal

/-- Exact arithmetic. -/
noncomputable def Arith.exact : Arith := ⟨id, estimate⟩

/-- Rounding of a number; NaN and infinities stay. -/
def rdX (f : ℝ → ℝ) : XReal → XReal
  | fin a => fin (f a)
  | x => x

/-- The acceptance condition of `_run`, error_controller.py L190-196; the constant `1e-10` is
rounded, too. -/
def acceptsFl (A : Arith) (cfg : Config) (i : Input) : Prop :=
  lt (abs (rdX A.rd (sub i.dt cfg.lower))) (fin (A.rd (1 / 10 ^ 10)))
    ∨ lt (abs (rdX A.rd (sub i.dt i.rem))) (fin (A.rd (1 / 10 ^ 10)))
    ∨ le i.err cfg.tol

/-- `ErrorController._run`, error_controller.py L158-214. -/
noncomputable def runFl (A : Arith) (par : Params) (cfg : Config) (i : Input) : Status :=
  let success := decide (acceptsFl A cfg i)
  let new := if i.err ≠ 0 then A.est par cfg i else i.dt
  let new := pyMax cfg.lower (pyMin cfg.upper new)
  let new := pyMin (rdX A.rd (add i.rem (mul (fin (if success then 0 else 1)) i.dt))) new
  ⟨new, success⟩

/-- `ErrorControllerDecorator._run`, error_controller.py L392-416. -/
noncomputable def runDecoFl (A : Arith) (top : Bool) (par : Params) (cfg : Config) (i : Input) :
    Bool × Except CErr Status :=
  let st := runFl A par cfg i
  (st.acc, if ¬ st.acc ∧ lt i.dt st.sugg ∧ top then .error .inner else .ok st)

/-- `__call__` of both classes, error_controller.py L143-156 and L347-383. -/
noncomputable def callFl (A : Arith) (top : Bool) : Ctrl → Input → Ctrl × Except CErr Status
  | .base par cfg, i =>
    let st := runFl A par cfg i
    (.base par cfg, if ¬ st.acc ∧ lt i.dt st.sugg ∧ top then .error .outer else .ok st)
  | .deco par w notInner counter, i =>
    if notInner then
      match callFl A false w i with
      | (w', .ok st) =>
        if st.acc then (.deco par w' notInner 0, .ok st)
        else if lt st.sugg i.dt ∧ counter + 1 ≤ w.config.maxIter then
          (.deco par w' notInner 0, .ok st)
        else
          let r := runDecoFl A top par w.config i
          (.deco par w' r.1 (counter + 1), r.2)
      | (w', .error .outer) =>
        let r := runDecoFl A top par w.config i
        (.deco par w' r.1 counter, r.2)
      | (w', .error .inner) => (.deco par w' notInner counter, .error .inner)
    else
      let r := runDecoFl A top par w.config i
      (.deco par w r.1 counter, r.2)

/-- `_estimate_next_step_function`, error_controller.py L244-252, with products and quotients rounded
with `f`, from left to right, and the power `pw`. -/
noncomputable def estimateFl (f : ℝ → ℝ) (pw : XReal → ℝ → XReal) (par : Params) (cfg : Config)
    (i : Input) : XReal :=
  let d := rdX f (mul cfg.safety i.dt)
  let d := rdX f (mul d (pw (rdX f (div cfg.tol i.err)) par.alpha))
  let d := rdX f (mul d (pw (rdX f (div i.errHist.1 cfg.tol)) par.beta))
  let d := rdX f (mul d (pw (rdX f (div cfg.tol i.errHist.2)) par.gamma))
  if i.stepHist.1 ≠ 0 then
    let d := rdX f (mul d (pw (rdX f (div i.dt i.stepHist.1)) par.a))
    if i.stepHist.2 ≠ 0 then rdX f (mul d (pw (rdX f (div i.stepHist.1 i.stepHist.2)) par.b))
    else d
  else d

variable {D I O : Type}

/-- `_iterate_on_step`, runge_kutta_integrator.py L561-637. -/
noncomputable def iterateFl (A : Arith) (B : Backend D I O) (opt : Options) :
    ℕ → Ctrl → IState D → Ctrl × IState D × Except Err Unit
  | 0, c, x => (c, x, .error .recursion)
  | f + 1, c, x =>
    match B.step x.disc x.sugg with
    | .error e => (c, x, .error e)
    | .ok d =>
      if opt.adaptive then
        match B.measure d with
        | .error e => (c, x, .error e)
        | .ok err =>
          match callFl A true c ⟨err, x.sugg, opt.crit.remaining (B.time d), x.errHist,
              x.stepHist⟩ with
          | (c', .error e) => (c', x, .error (.controller e))
          | (c', .ok st) =>
            if st.acc then
              (c', ⟨B.set x.disc d, st.sugg, (x.sugg, x.stepHist.1), (err, x.errHist.1)⟩, .ok ())
            else iterateFl A B opt f c' { x with sugg := st.sugg }
      else
        (c, { x with disc := B.set x.disc d, stepHist := (x.sugg, x.stepHist.2) }, .ok ())

/-- `_run_step`, runge_kutta_integrator.py L534-552. -/
noncomputable def runStepFl (A : Arith) (B : Backend D I O) (opt : Options) (it : ℕ) (c : Ctrl)
    (x : IState D) : Res D :=
  let pre := callbacks (fun j => .before .compute j it x) opt.computeCallbacks
  match iterateFl A B opt opt.recursionLimit c x with
  | (c', x', .error e) => ⟨c', x', pre, .error e⟩
  | (c', x', .ok ()) =>
    ⟨c', x', pre ++ callbacks (fun j => .after .compute j it x') opt.computeCallbacks, .ok ()⟩

/-- The loop of `NoCheckpointer.iterate_forward`, no_checkpointer.py L62-68. -/
noncomputable def noForwardFl (A : Arith) (B : Backend D I O) (opt : Options) :
    ℕ → ℕ → Ctrl → IState D → Res D
  | 0, _, c, x => ⟨c, x, [], .error .fuel⟩
  | f + 1, it, c, x =>
    if opt.crit.finished it (B.time x.disc) then ⟨c, x, [], .ok ()⟩
    else
      match runStepFl A B opt (it + 1) c x with
      | ⟨c', x', log, .error e⟩ => ⟨c', x', log, .error e⟩
      | ⟨c', x', log, .ok ()⟩ =>
        let r := noForwardFl A B opt f (it + 1) c' x'
        { r with log := log ++ r.log }

/-- The loop of `AllCheckpointer.iterate_forward`, all_checkpointer.py L67-75. -/
noncomputable def allForwardFl (A : Arith) (B : Backend D I O) (opt : Options) :
    ℕ → ℕ → List (IState D) → Ctrl → IState D → List (IState D) × Res D
  | 0, _, stor, c, x => (stor, ⟨c, x, [], .error .fuel⟩)
  | f + 1, it, stor, c, x =>
    if opt.crit.finished it (B.time x.disc) then (stor, ⟨c, x, [], .ok ()⟩)
    else
      match runStepFl A B opt (it + 1) c x with
      | ⟨c', x', log, .error e⟩ => (stor, ⟨c', x', log, .error e⟩)
      | ⟨c', x', log, .ok ()⟩ =>
        let r := allForwardFl A B opt f (it + 1) (stor ++ [x']) c' x'
        (r.1, { r.2 with log := log ++ r.2.log })

/-- `NoCheckpointer` and `AllCheckpointer`, no_checkpointer.py L12-89 and all_checkpointer.py
L11-104, of an integrator whose controller has the arithmetic `A`. -/
noncomputable def ckFl (A : Arith) (B : Backend D I O) (opt : Options) :
    (ch : Choice) → Checkpointer D (ch.Data D)
  | .no => { noCk B opt with forward := fun fuel _ c x => ((), noForwardFl A B opt fuel 0 c x) }
  | .all => { allCk B opt with forward := fun fuel stor c x => allForwardFl A B opt fuel 0 stor c x }

/-! ### With exact arithmetic nothing changes -/

theorem rdX_id (x : XReal) : rdX id x = x := by cases x <;> rfl

theorem runFl_exact (par : Params) (cfg : Config) (i : Input) :
    runFl .exact par cfg i = run par cfg i := by
  have h : acceptsFl .exact cfg i = accepts cfg i := by
    simp only [acceptsFl, accepts, Arith.exact, rdX_id, id]
  unfold runFl run
  rw [h]
  simp only [Arith.exact, rdX_id]

theorem callFl_exact (top : Bool) (c : Ctrl) (i : Input) : callFl .exact top c i = c.call top i := by
  induction c generalizing top with
  | base par cfg => simp only [callFl, Ctrl.call, runFl_exact]
  | deco par w ni k ih =>
    simp only [callFl, Ctrl.call, runDecoFl, runDeco, runFl_exact, ih]
    rcases w.call false i with ⟨w', (_ | _) | st⟩ <;> rfl

variable {B : Backend D I O} {opt : Options}

theorem iterateFl_exact (f : ℕ) (c : Ctrl) (x : IState D) :
    iterateFl .exact B opt f c x = iterateOnStep B opt f c x := by
  induction f generalizing c x with
  | zero => rfl
  | succ f ih =>
    simp only [iterateFl, iterateOnStep, callFl_exact, ih]
    rcases B.step x.disc x.sugg with e | d
    · rfl
    · dsimp only
      split
      · rcases B.measure d with e | err
        · rfl
        · dsimp only
          rcases c.call true _ with ⟨c', e | st⟩ <;> rfl
      · rfl

theorem noForwardFl_exact (f it : ℕ) (c : Ctrl) (x : IState D) :
    noForwardFl .exact B opt f it c x = noForward B opt f it c x := by
  induction f generalizing it c x with
  | zero => rfl
  | succ f ih =>
    simp only [noForwardFl, noForward, runStepFl, runStep, iterateFl_exact, ih]
    rcases iterateOnStep B opt opt.recursionLimit c x with ⟨c', x', e | u⟩ <;> rfl

theorem allForwardFl_exact (f it : ℕ) (stor : List (IState D)) (c : Ctrl) (x : IState D) :
    allForwardFl .exact B opt f it stor c x = allForward B opt f it stor c x := by
  induction f generalizing it stor c x with
  | zero => rfl
  | succ f ih =>
    simp only [allForwardFl, allForward, runStepFl, runStep, iterateFl_exact, ih]
    rcases iterateOnStep B opt opt.recursionLimit c x with ⟨c', x', e | u⟩ <;> rfl

theorem ckFl_exact (ch : Choice) : ckFl .exact B opt ch = ch.ck B opt := by
  cases ch with
  | no => simp only [ckFl, Choice.ck, noCk, noForwardFl_exact]
  | all => simp only [ckFl, Choice.ck, allCk, allForwardFl_exact]

/-! ### Calls -/

variable {A : Arith}

/-- A call never changes the shared configuration. -/
theorem callFl_config (top : Bool) (c : Ctrl) (i : Input) :
    (callFl A top c i).1.config = c.config := by
  induction c generalizing top with
  | base par cfg => rfl
  | deco par w ni k ih =>
    have h := ih false
    unfold callFl
    split
    · generalize callFl A false w i = r at h ⊢
      rcases r with ⟨w', st | st⟩
      · rcases st <;> simpa [Ctrl.config] using h
      · dsimp only
        split
        · simpa [Ctrl.config] using h
        · split <;> simpa [Ctrl.config] using h
    · rfl

theorem runDecoFl_ok {top : Bool} {par : Params} {cfg : Config} {i : Input} {st : Status}
    (h : (runDecoFl A top par cfg i).2 = .ok st) : st = runFl A par cfg i := by
  unfold runDecoFl at h
  dsimp only at h
  split at h
  · cases h
  · injection h with h; exact h.symm

/-- Every status a controller chain returns was computed by one of its controllers with the
shared configuration. -/
theorem callFl_ok_run {top : Bool} {c : Ctrl} {i : Input} {st : Status}
    (h : (callFl A top c i).2 = .ok st) : ∃ par, st = runFl A par c.config i := by
  induction c generalizing top with
  | base par cfg =>
    unfold callFl at h
    dsimp only at h
    split at h
    · cases h
    · injection h with h; exact ⟨par, h.symm⟩
  | deco par w ni k ih =>
    have ih := @ih false
    unfold callFl at h
    split at h
    · generalize callFl A false w i = r at h ih
      rcases r with ⟨w', e | st'⟩
      · cases e
        · exact ⟨par, runDecoFl_ok h⟩
        · cases h
      · dsimp only at h
        split at h
        · exact ih h
        · split at h
          · exact ih h
          · exact ⟨par, runDecoFl_ok h⟩
    · exact ⟨par, runDecoFl_ok h⟩

theorem runFl_acc (par : Params) (cfg : Config) (i : Input) :
    (runFl A par cfg i).acc = true ↔ acceptsFl A cfg i := by
  simp [runFl]

/-- The time left for the next attempt. -/
noncomputable def timeLeftFl (A : Arith) (i : Input) (acc : Bool) : XReal :=
  rdX A.rd (if acc then i.rem else add i.rem i.dt)

theorem runFl_sugg (par : Params) (cfg : Config) (i : Input) (h : ℝ) (hdt : i.dt = fin h) :
    (runFl A par cfg i).sugg = pyMin (timeLeftFl A i (runFl A par cfg i).acc)
      (pyMax cfg.lower (pyMin cfg.upper (if i.err ≠ 0 then A.est par cfg i else i.dt))) := by
  unfold runFl timeLeftFl
  dsimp only
  congr 2
  rw [hdt]
  by_cases hacc : acceptsFl A cfg i
  · simp only [hacc, decide_true, if_true, mul_fin, zero_mul]
    cases hr : i.rem <;> simp_all [add]
  · simp only [hacc, decide_false, Bool.false_eq_true, if_false, mul_fin, one_mul]

theorem timeLeftFl_ne_nan {i : Input} {acc : Bool} {h : ℝ} (hdt : i.dt = fin h)
    (hrem : i.rem ≠ nan) : timeLeftFl A i acc ≠ nan := by
  unfold timeLeftFl
  split
  · cases hr : i.rem <;> simp_all [rdX]
  · rw [hdt]
    cases hr : i.rem <;> simp_all [add, rdX]

/-- A rejected step is never followed by a longer one: the outermost controller raises instead. -/
theorem callFl_rejected {c : Ctrl} {i : Input} {st : Status} (hc : (callFl A true c i).2 = .ok st)
    (hr : st.acc = false) : ¬ lt i.dt st.sugg := by
  have hbase : ∀ (par : Params) (cfg : Config) (e : CErr), (if ¬ (runFl A par cfg i).acc = true ∧
      lt i.dt (runFl A par cfg i).sugg ∧ true = true then (.error e : Except CErr Status)
      else .ok (runFl A par cfg i)) = .ok st → ¬ lt i.dt st.sugg := by
    intro par cfg e h
    split at h
    · cases h
    · rename_i hn
      cases h
      exact fun hlt => hn ⟨by simp [hr], hlt, rfl⟩
  cases c with
  | base par cfg => exact hbase par cfg _ hc
  | deco par w ni k =>
    unfold callFl at hc
    split at hc
    · split at hc
      · split at hc
        · rename_i h
          simp only [Except.ok.injEq] at hc
          subst hc
          rw [hr] at h
          cases h
        · split at hc
          · rename_i h
            simp only [Except.ok.injEq] at hc
            subst hc
            exact XReal.lt_asymm h.1
          · exact hbase par _ _ hc
      · exact hbase par _ _ hc
      · cases hc
    · exact hbase par _ _ hc

theorem iterateFl_config (f : ℕ) (c : Ctrl) (x : IState D) :
    (iterateFl A B opt f c x).1.config = c.config := by
  induction f generalizing c x with
  | zero => rfl
  | succ f ih =>
    simp only [iterateFl]
    rcases B.step x.disc x.sugg with e | d
    · rfl
    · dsimp only
      split
      · rcases B.measure d with e | err
        · rfl
        · dsimp only
          have h := callFl_config (A := A) true c
            ⟨err, x.sugg, opt.crit.remaining (B.time d), x.errHist, x.stepHist⟩
          generalize callFl A true c _ = q at h ⊢
          rcases q with ⟨c', e | st⟩
          · exact h
          · dsimp only
            split
            · exact h
            · exact (ih _ _).trans h
      · rfl

theorem ckFl_forward (ch : Choice) (fuel : ℕ) (st : ch.Data D) (c : Ctrl) (x : IState D) :
    ((ckFl A B opt ch).forward fuel st c x).2 = noForwardFl A B opt fuel 0 c x := by
  cases ch with
  | no => rfl
  | all =>
    change (allForwardFl A B opt fuel 0 st c x).2 = _
    generalize 0 = it
    induction fuel generalizing it st c x with
    | zero => rfl
    | succ f ih =>
      simp only [allForwardFl, noForwardFl]
      split
      · rfl
      · rcases runStepFl A B opt (it + 1) c x with ⟨c', x', log, e | u⟩
        · rfl
        · dsimp only
          rw [ih]

end Verif.Fl
