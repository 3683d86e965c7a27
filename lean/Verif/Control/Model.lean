/-
Model of the error controllers and controller chains.

Source: /repo/src/rkopenmdao/error_controller.py
        /repo/src/rkopenmdao/error_controllers.py
        /repo/src/rkopenmdao/runge_kutta_integrator.py (`_setup_error_controller`)

Simplifications: finite numbers are exact reals (see `Verif.Control.XReal`); warnings are not
modelled, for names and printing see `Verif.Control.Names` and `Verif.Control.Text`. The attribute `_inner_most` is true exactly for the controller that is
not wrapped by a decorator (error_controller.py L109, L322), i.e. for the one the integrator
calls; it is passed as argument `top`.
-/
import Verif.Control.XReal

namespace Verif.Control

open XReal
open Classical

/-- `ErrorControllerConfig`, error_controller.py L29-52. -/
structure Config where
  tol : XReal
  lower : XReal
  upper : XReal
  safety : XReal
  maxIter : ℕ

/-- The default configuration, error_controller.py L48-52. -/
noncomputable def Config.default : Config := ⟨fin (1 / 10 ^ 6), 0, pinf, fin (95 / 100), 5⟩

/-- The exponents of a controller, error_controller.py L101-107. -/
structure Params where
  alpha : ℝ
  beta : ℝ := 0
  gamma : ℝ := 0
  a : ℝ := 0
  b : ℝ := 0

/-- The keyword arguments of `__call__`, error_controller.py L113-121. Histories are
(newest, second newest). -/
structure Input where
  err : XReal
  dt : XReal
  rem : XReal
  errHist : XReal × XReal
  stepHist : XReal × XReal

/-- `ErrorControllerStatus`, error_controller.py L11-26. -/
structure Status where
  sugg : XReal
  acc : Bool

/-- The exceptions of the controllers, errors.py L23-32. -/
inductive CErr
  | outer
  | inner
  deriving DecidableEq, Repr

/-- The acceptance condition of `_run`, error_controller.py L190-196. -/
def accepts (cfg : Config) (i : Input) : Prop :=
  lt (abs (sub i.dt cfg.lower)) (fin (1 / 10 ^ 10))
    ∨ lt (abs (sub i.dt i.rem)) (fin (1 / 10 ^ 10))
    ∨ le i.err cfg.tol

/-- `_estimate_next_step_function`, error_controller.py L244-252. -/
noncomputable def estimate (par : Params) (cfg : Config) (i : Input) : XReal :=
  let d := mul cfg.safety i.dt
  let d := mul d (pow (div cfg.tol i.err) par.alpha)
  let d := mul d (pow (div i.errHist.1 cfg.tol) par.beta)
  let d := mul d (pow (div cfg.tol i.errHist.2) par.gamma)
  if i.stepHist.1 ≠ 0 then
    let d := mul d (pow (div i.dt i.stepHist.1) par.a)
    if i.stepHist.2 ≠ 0 then mul d (pow (div i.stepHist.1 i.stepHist.2) par.b)
    else d
  else d

/-- `ErrorController._run`, error_controller.py L158-214. -/
noncomputable def run (par : Params) (cfg : Config) (i : Input) : Status :=
  let success := decide (accepts cfg i)
  let new := if i.err ≠ 0 then estimate par cfg i else i.dt
  let new := pyMax cfg.lower (pyMin cfg.upper new)
  let new := pyMin (add i.rem (mul (fin (if success then 0 else 1)) i.dt)) new
  ⟨new, success⟩

/-- A controller object: `ErrorController` (error_controller.py L55) or
`ErrorControllerDecorator` (L288) with its mutable attributes `_is_not_inner` (L334) and
`_outer_counter` (L336). -/
inductive Ctrl where
  | base (par : Params) (cfg : Config)
  | deco (par : Params) (wrapped : Ctrl) (notInner : Bool) (counter : ℕ)

/-- The attribute `config`: a decorator shares it with the wrapped controller,
error_controller.py L333. -/
def Ctrl.config : Ctrl → Config
  | .base _ cfg => cfg
  | .deco _ w _ _ => w.config

/-- `ErrorControllerDecorator._run`, error_controller.py L392-416: the new value of
`_is_not_inner` and the outcome. -/
noncomputable def runDeco (top : Bool) (par : Params) (cfg : Config) (i : Input) :
    Bool × Except CErr Status :=
  let st := run par cfg i
  (st.acc, if ¬ st.acc ∧ lt i.dt st.sugg ∧ top then .error .inner else .ok st)

/-- `__call__` of both classes, error_controller.py L143-156 and L347-383. The result contains
the controller with its updated attributes, also if an exception is raised. -/
noncomputable def Ctrl.call (top : Bool) : Ctrl → Input → Ctrl × Except CErr Status
  | .base par cfg, i =>
    let st := run par cfg i
    (.base par cfg, if ¬ st.acc ∧ lt i.dt st.sugg ∧ top then .error .outer else .ok st)
  | .deco par w notInner counter, i =>
    if notInner then
      match w.call false i with
      | (w', .ok st) =>
        if st.acc then (.deco par w' notInner 0, .ok st)
        else if lt st.sugg i.dt ∧ counter + 1 ≤ w.config.maxIter then
          (.deco par w' notInner 0, .ok st)
        else
          let r := runDeco top par w.config i
          (.deco par w' r.1 (counter + 1), r.2)
      | (w', .error .outer) =>
        let r := runDeco top par w.config i
        (.deco par w' r.1 counter, r.2)
      | (w', .error .inner) => (.deco par w' notInner counter, .error .inner)
    else
      let r := runDeco top par w.config i
      (.deco par w r.1 counter, r.2)

/-! ### The factories of error_controllers.py -/

/-- What every factory does with its exponents: a decorator around `base` if given, otherwise a
plain controller (e.g. error_controllers.py L37-47). -/
def mk (par : Params) (cfg : Config) : Option Ctrl → Ctrl
  | some w => .deco par w true 0
  | none => .base par cfg

/-- `pseudo`, error_controllers.py L17-29. -/
def pseudo (_p : ℝ) : Params := { alpha := 0 }
/-- The default configuration of `pseudo`, error_controllers.py L19. -/
noncomputable def pseudoConfig : Config := ⟨pinf, 0, pinf, fin 1, 1000⟩
/-- `integral`, error_controllers.py L32-49. -/
noncomputable def integral (p : ℝ) : Params := { alpha := 1 / (1 + p) }
/-- `h0_110`, error_controllers.py L52-63. -/
noncomputable def h0_110 (p : ℝ) : Params := integral p
/-- `h_211`, error_controllers.py L66-89. -/
noncomputable def h_211 (p : ℝ) : Params :=
  { alpha := 1 / (4 * p), beta := -1 / (4 * p), a := -1 / 4 }
/-- `h0_211`, error_controllers.py L92-115. -/
noncomputable def h0_211 (p : ℝ) : Params :=
  { alpha := 1 / (2 * p), beta := -1 / (2 * p), a := -1 / 2 }
/-- `pc`, error_controllers.py L118-141. -/
noncomputable def pc (p : ℝ) : Params := { alpha := 2 / p, beta := 1 / p, a := 1 }
/-- `h0_220`, error_controllers.py L144-155. -/
noncomputable def h0_220 (p : ℝ) : Params := pc p
/-- `pid`, error_controllers.py L158-181. -/
noncomputable def pid (p : ℝ) : Params :=
  { alpha := 1 / (18 * p), beta := -1 / (9 * p), gamma := 1 / (18 * p) }
/-- `h_312`, error_controllers.py L184-213. -/
noncomputable def h_312 (p : ℝ) : Params :=
  { alpha := 1 / (8 * p), beta := -1 / (4 * p), gamma := 1 / (8 * p), a := -3 / 8, b := -1 / 8 }
/-- `h0_312`, error_controllers.py L216-245. -/
noncomputable def h0_312 (p : ℝ) : Params :=
  { alpha := 1 / (4 * p), beta := -1 / (2 * p), gamma := 1 / (4 * p), a := -3 / 4, b := -1 / 4 }
/-- `h_312_general`, error_controllers.py L248-279. -/
noncomputable def h_312_general (p va a b : ℝ) : Params :=
  { alpha := va / p, beta := -2 * va / p, gamma := va / p, a := a, b := b }
/-- `ppid`, error_controllers.py L282-308. -/
noncomputable def ppid (p : ℝ) : Params :=
  { alpha := 6 / (20 * p), beta := -1 / (20 * p), gamma := -5 / (20 * p), a := 1 }
/-- `h_321`, error_controllers.py L311-340. -/
noncomputable def h_321 (p : ℝ) : Params :=
  { alpha := 1 / (3 * p), beta := -1 / (18 * p), gamma := -5 / (18 * p), a := 5 / 6, b := 1 / 6 }
/-- `h0_321`, error_controllers.py L343-372. -/
noncomputable def h0_321 (p : ℝ) : Params :=
  { alpha := 1 / (3 * p), beta := -1 / (2 * p), gamma := -3 / (4 * p), a := 1 / 4, b := 3 / 4 }
/-- `h_321_general`, error_controllers.py L375-407. -/
noncomputable def h_321_general (p va vb a : ℝ) : Params :=
  { alpha := va / p, beta := vb / p, gamma := -(va + vb) / p, a := a, b := 1 - a }
/-- `h0_330`, error_controllers.py L410-439. -/
noncomputable def h0_330 (p : ℝ) : Params :=
  { alpha := 3 / p, beta := 3 / p, gamma := 1 / p, a := 2, b := -1 }
/-- `h_330_general`, error_controllers.py L442-475. -/
noncomputable def h_330_general (p va vb vg : ℝ) : Params :=
  { alpha := va / p, beta := vb / p, gamma := vg / p, a := 2, b := -1 }

/-- `_setup_error_controller`, runge_kutta_integrator.py L393-403: the list of factories is
folded, each one wrapping the previous controller; `none` for an empty list. Simplification: all
factories get the same `config` (from `error_controller_options`). -/
def buildChain (p : ℝ) (cfg : Config) (fs : List (ℝ → Params)) : Option Ctrl :=
  fs.foldl (fun c f => some (mk (f p) cfg c)) none

end Verif.Control
