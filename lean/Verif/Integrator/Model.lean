/-
Model of the integrator component and of the two simple checkpointers.

Source: /repo/src/rkopenmdao/runge_kutta_integrator.py
        /repo/src/rkopenmdao/time_integration_state.py
        /repo/src/rkopenmdao/termination_criterion.py
        /repo/src/rkopenmdao/checkpoint_interface/{no,all}_checkpointer.py

Simplifications (for the whole file):
* methods that mutate objects return the new values; an assignment of an object to itself
  (`x.set(x)`) is left out;
* a raised exception is the value `.error e` next to the values all attributes have then;
* `while` loops get a number of iterations (`fuel`), running out of it is the separate outcome
  `.error .fuel`, which does not exist in the program; the recursion of `_iterate_on_step` is
  limited by Python's recursion limit, running into it is `.error .recursion`;
* callbacks do not modify what they are given; what they are called with is recorded;
* printing and MPI are left out;
* the time discretization and the stage problem enter through `Backend`; the Runge-Kutta
  instance is in `Verif.Integrator.RK`.
-/
import Verif.Control.Model

namespace Verif.Integrator

open Verif.Control Verif.XReal
open Classical

/-- What can be raised while integrating. -/
inductive Err where
  | controller (e : CErr)
  | attribute
  | recursion
  | notImplemented
  | backend
  | fuel
  deriving DecidableEq

/-- What the integrator uses of the discretization and its state type `D`, for inputs of type `I`
and outputs of type `O` of the component. -/
structure Backend (D I O : Type) where
  /-- `compute_step` on a copy of the state, runge_kutta_integrator.py L572-579. -/
  step : D → XReal → Except Err D
  /-- `final_time[0]`. -/
  time : D → XReal
  /-- `_get_error_measure`, L639-648; AttributeError for a state without `error_estimate`. -/
  measure : D → Except Err XReal
  /-- `set` of the discretization state. -/
  set : D → D → D
  /-- Writing the component's inputs into a state, L458-464 and L695-711. -/
  load : D → I → D
  /-- The comparison with the cached input, L822-831. -/
  cacheHit : D → I → Bool
  /-- `linearization_points.fill(0.0)`, L468. -/
  clearLin : D → D
  /-- Reading the component's outputs from a state, L446-451. -/
  read : D → O
  /-- `compute_step_derivative` (state, perturbation, step size), L747-754. -/
  deriv : D → D → XReal → D
  /-- `compute_step_adjoint_derivative` (state, perturbation, step size), L860-867. -/
  adj : D → D → XReal → D
  /-- Writing `d_outputs` into the perturbations, L837-845. -/
  seed : D → O → D
  /-- Writing the perturbations to `d_outputs` (new value from old), L674-682. -/
  writeOut : D → O → O
  /-- Writing the perturbations to `d_inputs` (new value from old), L779-789. -/
  writeIn : D → I → I

/-- `TimeIntegrationState`, time_integration_state.py L14-38. The arrays of length one and two
are scalars and pairs, index 0 first. -/
structure IState (D : Type) where
  disc : D
  sugg : XReal
  stepHist : XReal × XReal
  errHist : XReal × XReal

/-- The termination criteria, termination_criterion.py L43-64 and L67-105. -/
inductive Crit where
  | steps (n : ℕ)
  | finalTime (T : ℝ)

/-- The options of the component: `IntegrationConfig` (integration_config.py L9-26), the numbers
of callbacks, and Python's recursion limit. -/
structure Options where
  adaptive : Bool
  crit : Crit
  initialStep : XReal
  computeCallbacks : ℕ := 0
  fwdCallbacks : ℕ := 0
  revCallbacks : ℕ := 0
  recursionLimit : ℕ := 900

/-- Which list of callbacks, runge_kutta_integrator.py L266-276. -/
inductive Kind where
  | compute
  | fwd
  | rev
  deriving DecidableEq

/-- A call of `before_iteration` or `after_iteration` of callback number `cb` of a list with
iteration number `it` and the current value of the state, e.g. L537-543. -/
inductive Ev (D : Type) where
  | before (k : Kind) (cb : ℕ) (it : ℕ) (x : IState D)
  | after (k : Kind) (cb : ℕ) (it : ℕ) (x : IState D)

/-- `is_iteration_finished`, termination_criterion.py L56-64 and L79-94. -/
noncomputable def Crit.finished (crit : Crit) (it : ℕ) (time : XReal) : Prop :=
  match crit with
  | .steps n => n ≤ it
  | .finalTime T => le (sub (fin T) time) 0

/-- `_remaining_time_func`, runge_kutta_integrator.py L253-258 with
termination_criterion.py L96-105. -/
noncomputable def Crit.remaining (crit : Crit) (time : XReal) : XReal :=
  match crit with
  | .steps _ => pinf
  | .finalTime T => sub (fin T) time

variable {D I O : Type}

/-- `_iterate_on_step`, runge_kutta_integrator.py L561-637. The first argument is the remaining
recursion depth. -/
noncomputable def iterateOnStep (B : Backend D I O) (opt : Options) :
    ℕ → Ctrl → IState D → Ctrl × IState D × Except Err Unit
  | 0, c, x => (c, x, .error .recursion)
  | f + 1, c, x =>
    match B.step x.disc x.sugg with
    | .error e => (c, x, .error e)
    | .ok d =>
      if opt.adaptive then
        match B.measure d with
        | .error e => (c, x, .error e)
        | .ok err =>
          match c.call true ⟨err, x.sugg, opt.crit.remaining (B.time d), x.errHist,
              x.stepHist⟩ with
          | (c', .error e) => (c', x, .error (.controller e))
          | (c', .ok st) =>
            if st.acc then
              (c', ⟨B.set x.disc d, st.sugg, (x.sugg, x.stepHist.1), (err, x.errHist.1)⟩, .ok ())
            else iterateOnStep B opt f c' { x with sugg := st.sugg }
      else
        -- L633: the result of `np.roll` is discarded
        (c, { x with disc := B.set x.disc d, stepHist := (x.sugg, x.stepHist.2) }, .ok ())

/-- The calls of all callbacks of a list before or after a step. -/
def callbacks (ev : ℕ → Ev D) (count : ℕ) : List (Ev D) := (List.range count).map ev

/-- What a function of the integrator leaves behind: controller, state, calls of callbacks and
outcome. -/
structure Res (D : Type) where
  ctrl : Ctrl
  st : IState D
  log : List (Ev D)
  out : Except Err Unit

/-- `_run_step`, runge_kutta_integrator.py L534-552. -/
noncomputable def runStep (B : Backend D I O) (opt : Options) (it : ℕ) (c : Ctrl) (x : IState D) :
    Res D :=
  let pre := callbacks (fun j => .before .compute j it x) opt.computeCallbacks
  match iterateOnStep B opt opt.recursionLimit c x with
  | (c', x', .error e) => ⟨c', x', pre, .error e⟩
  | (c', x', .ok ()) =>
    ⟨c', x', pre ++ callbacks (fun j => .after .compute j it x') opt.computeCallbacks, .ok ()⟩

/-- The loop of `NoCheckpointer.iterate_forward`, no_checkpointer.py L62-68. -/
noncomputable def noForward (B : Backend D I O) (opt : Options) : ℕ → ℕ → Ctrl → IState D → Res D
  | 0, _, c, x => ⟨c, x, [], .error .fuel⟩
  | f + 1, it, c, x =>
    if opt.crit.finished it (B.time x.disc) then ⟨c, x, [], .ok ()⟩
    else
      match runStep B opt (it + 1) c x with
      | ⟨c', x', log, .error e⟩ => ⟨c', x', log, .error e⟩
      | ⟨c', x', log, .ok ()⟩ =>
        let r := noForward B opt f (it + 1) c' x'
        { r with log := log ++ r.log }

/-- The loop of `AllCheckpointer.iterate_forward`, all_checkpointer.py L67-75; the first
component is the storage. -/
noncomputable def allForward (B : Backend D I O) (opt : Options) :
    ℕ → ℕ → List (IState D) → Ctrl → IState D → List (IState D) × Res D
  | 0, _, stor, c, x => (stor, ⟨c, x, [], .error .fuel⟩)
  | f + 1, it, stor, c, x =>
    if opt.crit.finished it (B.time x.disc) then (stor, ⟨c, x, [], .ok ()⟩)
    else
      match runStep B opt (it + 1) c x with
      | ⟨c', x', log, .error e⟩ => (stor, ⟨c', x', log, .error e⟩)
      | ⟨c', x', log, .ok ()⟩ =>
        let r := allForward B opt f (it + 1) (stor ++ [x']) c' x'
        (r.1, { r.2 with log := log ++ r.2.log })

/-- `_run_step_jacvec_rev`, runge_kutta_integrator.py L847-875: new perturbations and calls. -/
def runStepRev (B : Backend D I O) (opt : Options) (it : ℕ) (x : IState D) (p : D) :
    D × List (Ev D) :=
  (B.adj x.disc p x.stepHist.1,
    callbacks (fun j => .before .rev j it x) opt.revCallbacks
      ++ callbacks (fun j => .after .rev j it x) opt.revCallbacks)

/-- The loop of `AllCheckpointer.iterate_reverse`, all_checkpointer.py L96-104: pops the storage
from its end. The argument is the storage in the order it is popped. -/
def allReverse (B : Backend D I O) (opt : Options) : List (IState D) → D → D × List (Ev D)
  | [], p => (p, [])
  | x :: rest, p =>
    let r := runStepRev B opt (rest.length + 1) x p
    let q := allReverse B opt rest r.1
    (q.1, r.2 ++ q.2)

/-- `CheckpointInterface`, checkpoint_interface.py L12-106, with internal data of type `σ`.
`reverse` also gets (and may change) the live integration state and the controller. -/
structure Checkpointer (D σ : Type) where
  /-- `__post_init__` -/
  init : σ
  create : σ → σ
  forward : ℕ → σ → Ctrl → IState D → σ × Res D
  reverse : σ → Ctrl → IState D → D → σ × Res D × D

/-- `NoCheckpointer`, no_checkpointer.py L12-89. -/
noncomputable def noCk (B : Backend D I O) (opt : Options) : Checkpointer D Unit where
  init := ()
  create := id
  forward := fun fuel _ c x => ((), noForward B opt fuel 0 c x)
  reverse := fun _ c x p => ((), ⟨c, x, [], .error .notImplemented⟩, p)

/-- `AllCheckpointer`, all_checkpointer.py L11-104. -/
noncomputable def allCk (B : Backend D I O) (opt : Options) :
    Checkpointer D (List (IState D)) where
  init := []
  create := fun _ => []
  forward := fun fuel stor c x => allForward B opt fuel 0 stor c x
  reverse := fun stor c x p =>
    let r := allReverse B opt stor.reverse p
    ([], ⟨c, x, r.2, .ok ()⟩, r.1)

/-- The attributes of the component that change, runge_kutta_integrator.py L69-87. -/
structure World (D σ : Type) where
  tis : IState D
  pert : D
  ctrl : Ctrl
  cached : Option D
  ck : σ
  log : List (Ev D)

variable {σ : Type}

/-- `_reset_error_control`, runge_kutta_integrator.py L554-559. -/
def resetErrorControl (opt : Options) (c : Ctrl) (x : IState D) : IState D :=
  { x with stepHist := (0, 0), errHist := (c.config.tol, c.config.tol), sugg := opt.initialStep }

/-- `compute`, runge_kutta_integrator.py L438-451 with `_compute_preparation_phase` L455-468. -/
noncomputable def compute (B : Backend D I O) (opt : Options) (ck : Checkpointer D σ) (fuel : ℕ)
    (w : World D σ) (i : I) : World D σ × Except Err O :=
  let d := B.load w.tis.disc i
  let x := resetErrorControl opt w.ctrl { w.tis with disc := d }
  let x := { x with disc := B.clearLin x.disc }
  let r := ck.forward fuel (ck.create w.ck) w.ctrl x
  let w' : World D σ :=
    { w with tis := r.2.st, ctrl := r.2.ctrl, cached := some d, ck := r.1,
             log := w.log ++ r.2.log }
  match r.2.out with
  | .error e => (w', .error e)
  | .ok () => (w', .ok (B.read r.2.st.disc))

/-- `_run_step_jacvec_fwd`, runge_kutta_integrator.py L733-762. -/
noncomputable def runStepFwd (B : Backend D I O) (opt : Options) (it : ℕ) (c : Ctrl)
    (x : IState D) (p : D) : Res D × D :=
  let pre := callbacks (fun j => .before .fwd j it x) opt.fwdCallbacks
  match iterateOnStep B opt opt.recursionLimit c x with
  | (c', x', .error e) => (⟨c', x', pre, .error e⟩, p)
  | (c', x', .ok ()) =>
    (⟨c', x', pre ++ callbacks (fun j => .after .fwd j it x') opt.fwdCallbacks, .ok ()⟩,
      B.deriv x'.disc p x'.stepHist.1)

/-- `_compute_jacvec_fwd_run_steps`, runge_kutta_integrator.py L714-731. -/
noncomputable def fwdLoop (B : Backend D I O) (opt : Options) :
    ℕ → ℕ → Ctrl → IState D → D → Res D × D
  | 0, _, c, x, p => (⟨c, x, [], .error .fuel⟩, p)
  | f + 1, it, c, x, p =>
    if opt.crit.finished it (B.time x.disc) then (⟨c, x, [], .ok ()⟩, p)
    else
      match runStepFwd B opt (it + 1) c x p with
      | (⟨c', x', log, .error e⟩, p') => (⟨c', x', log, .error e⟩, p')
      | (⟨c', x', log, .ok ()⟩, p') =>
        let r := fwdLoop B opt f (it + 1) c' x' p'
        ({ r.1 with log := log ++ r.1.log }, r.2)

/-- `compute_jacvec_product` in mode "fwd", runge_kutta_integrator.py L658-682 and L688-712. `di`
are the `d_inputs`, `dO` the `d_outputs` before the call. -/
noncomputable def fwd (B : Backend D I O) (opt : Options) (fuel : ℕ) (w : World D σ) (i di : I)
    (dO : O) : World D σ × Except Err O :=
  let x := resetErrorControl opt w.ctrl { w.tis with disc := B.load w.tis.disc i }
  let p := B.load w.pert di
  let r := fwdLoop B opt fuel 0 w.ctrl x p
  let w' : World D σ :=
    { w with tis := r.1.st, ctrl := r.1.ctrl, pert := r.2, log := w.log ++ r.1.log }
  match r.1.out with
  | .error e => (w', .error e)
  | .ok () => (w', .ok (B.writeOut r.2 dO))

/-- The cache test of `_compute_jacvec_rev_preparation_phase`, runge_kutta_integrator.py
L822-831. -/
def cacheOk (B : Backend D I O) (w : World D σ) (i : I) : Bool :=
  match w.cached with
  | none => false
  | some d => B.cacheHit d i

/-- The first part of `_compute_jacvec_rev_preparation_phase`, runge_kutta_integrator.py L799-835:
runs `compute` unless the inputs are cached. -/
noncomputable def revPrep (B : Backend D I O) (opt : Options) (ck : Checkpointer D σ) (fuel : ℕ)
    (w : World D σ) (i : I) : World D σ × Except Err Unit :=
  if cacheOk B w i then (w, .ok ())
  else match compute B opt ck fuel w i with
    | (w', .error e) => (w', .error e)
    | (w', .ok _) => (w', .ok ())

/-- `compute_jacvec_product` in mode "rev", runge_kutta_integrator.py L764-792 and L837-845. `dO`
are the `d_outputs`, `dI` the `d_inputs` before the call. -/
noncomputable def rev (B : Backend D I O) (opt : Options) (ck : Checkpointer D σ) (fuel : ℕ)
    (w : World D σ) (i : I) (dO : O) (dI : I) : World D σ × Except Err I :=
  match revPrep B opt ck fuel w i with
  | (w1, .error e) => (w1, .error e)
  | (w1, .ok ()) =>
    let r := ck.reverse w1.ck w1.ctrl w1.tis (B.seed w1.pert dO)
    let w2 : World D σ :=
      { w1 with tis := r.2.1.st, ctrl := r.2.1.ctrl, pert := r.2.2, ck := r.1,
                log := w1.log ++ r.2.1.log }
    match r.2.1.out with
    | .error e => (w2, .error e)
    | .ok () => ({ w2 with cached := none }, .ok (B.writeIn r.2.2 dI))

/-- An operation a user can ask for. -/
inductive Op (I O : Type) where
  | compute (i : I)
  | fwd (i di : I) (dO : O)
  | rev (i : I) (dO : O) (dI : I)

/-- The component after an operation, whether it failed or not. -/
noncomputable def doOp (B : Backend D I O) (opt : Options) (ck : Checkpointer D σ) (fuel : ℕ)
    (w : World D σ) : Op I O → World D σ
  | .compute i => (compute B opt ck fuel w i).1
  | .fwd i di dO => (fwd B opt fuel w i di dO).1
  | .rev i dO dI => (rev B opt ck fuel w i dO dI).1

/-- The component after a sequence of operations. -/
noncomputable def doOps (B : Backend D I O) (opt : Options) (ck : Checkpointer D σ) (fuel : ℕ)
    (w : World D σ) (ops : List (Op I O)) : World D σ :=
  ops.foldl (doOp B opt ck fuel) w

/-- The component after `setup`, runge_kutta_integrator.py L407-436. `empty` is the empty
discretization state. -/
def freshWorld (opt : Options) (ck : Checkpointer D σ) (empty : D) (c : Ctrl) : World D σ where
  tis := ⟨empty, opt.initialStep, (0, 0), (c.config.tol, c.config.tol)⟩
  pert := empty
  ctrl := c
  cached := none
  ck := ck.init
  log := []

end Verif.Integrator
