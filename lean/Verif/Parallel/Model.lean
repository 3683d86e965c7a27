/-
The component on several MPI ranks.

Source: /repo/src/rkopenmdao/runge_kutta_integrator.py L438-875
        /repo/src/rkopenmdao/time_integration_state.py
        /repo/src/rkopenmdao/checkpoint_interface/{no,all}_checkpointer.py
        /repo/src/rkopenmdao/discretized_ode/openmdao_ode.py L390-435 (reduction of the norm)

Every rank runs the program of `Verif.Integrator.Model` on its own data. Four operations are done
together with the other ranks: a step of the discretization, the error measure, and a step of the
two derivatives (they solve the stage problem or reduce over the communicator). Between them a rank
only sees its own data. A rank is modelled by the program between these operations (`Prog`); a run of
all ranks (`Together`) goes on only if all of them ask for the same operation, otherwise they wait
for each other for ever.

Simplifications:
* what the operations do is a function of the data of all ranks (`Collective`);
* the operations that make up one step are one operation, as all ranks have the same number of
  stages and there is no decision between them;
* of the checkpointers, the two without pyrevolve.
-/
import Verif.Integrator.Path

namespace Verif.Parallel

open Verif.Control Verif.XReal Verif.Integrator
open Classical

variable {D I O α β : Type}

/-- What a rank does on its own, see `Backend`. -/
structure Local (D I O : Type) where
  time : D → XReal
  set : D → D → D
  load : D → I → D
  cacheHit : D → I → Bool
  clearLin : D → D
  read : D → O
  seed : D → O → D
  writeOut : D → O → O
  writeIn : D → I → I

/-- The operations of a backend that need no other rank. -/
def Local.of (B : Backend D I O) : Local D I O :=
  ⟨B.time, B.set, B.load, B.cacheHit, B.clearLin, B.read, B.seed, B.writeOut, B.writeIn⟩

/-- A program of one rank: it ends with a result or asks for an operation and goes on with the
answer. -/
inductive Prog (D α : Type) where
  | done (a : α)
  /-- `compute_step`, runge_kutta_integrator.py L575-579 -/
  | step (d : D) (h : XReal) (k : Except Err D → Prog D α)
  /-- `_get_error_measure`, runge_kutta_integrator.py L639-648 -/
  | measure (d : D) (k : Except Err XReal → Prog D α)
  /-- `compute_step_derivative`, runge_kutta_integrator.py L747-754 -/
  | deriv (d p : D) (h : XReal) (k : D → Prog D α)
  /-- `compute_step_adjoint_derivative`, runge_kutta_integrator.py L860-867 -/
  | adj (d p : D) (h : XReal) (k : D → Prog D α)

/-- One program after the other. -/
def Prog.bind : Prog D α → (α → Prog D β) → Prog D β
  | .done a, f => f a
  | .step d h k, f => .step d h fun r => (k r).bind f
  | .measure d k, f => .measure d fun r => (k r).bind f
  | .deriv d p h k, f => .deriv d p h fun r => (k r).bind f
  | .adj d p h k, f => .adj d p h fun r => (k r).bind f

/-- A program on a single rank. -/
def Prog.run (B : Backend D I O) : Prog D α → α
  | .done a => a
  | .step d h k => (k (B.step d h)).run B
  | .measure d k => (k (B.measure d)).run B
  | .deriv d p h k => (k (B.deriv d p h)).run B
  | .adj d p h k => (k (B.adj d p h)).run B

/-! ### The program of the component -/

/-- `_iterate_on_step`, runge_kutta_integrator.py L561-637, see `Integrator.iterateOnStep`. -/
noncomputable def iterateP (L : Local D I O) (opt : Options) :
    ℕ → Ctrl → IState D → Prog D (Ctrl × IState D × Except Err Unit)
  | 0, c, x => .done (c, x, .error .recursion)
  | f + 1, c, x => .step x.disc x.sugg fun
    | .error e => .done (c, x, .error e)
    | .ok d =>
      if opt.adaptive then .measure d fun
        | .error e => .done (c, x, .error e)
        | .ok err =>
          match c.call true ⟨err, x.sugg, opt.crit.remaining (L.time d), x.errHist,
              x.stepHist⟩ with
          | (c', .error e) => .done (c', x, .error (.controller e))
          | (c', .ok st) =>
            if st.acc then
              .done (c', ⟨L.set x.disc d, st.sugg, (x.sugg, x.stepHist.1), (err, x.errHist.1)⟩,
                .ok ())
            else iterateP L opt f c' { x with sugg := st.sugg }
      else .done (c, { x with disc := L.set x.disc d, stepHist := (x.sugg, x.stepHist.2) }, .ok ())

/-- `_run_step`, runge_kutta_integrator.py L534-552. -/
noncomputable def runStepP (L : Local D I O) (opt : Options) (it : ℕ) (c : Ctrl) (x : IState D) :
    Prog D (Res D) :=
  let pre := callbacks (fun j => .before .compute j it x) opt.computeCallbacks
  (iterateP L opt opt.recursionLimit c x).bind fun
    | (c', x', .error e) => .done ⟨c', x', pre, .error e⟩
    | (c', x', .ok ()) =>
      .done ⟨c', x', pre ++ callbacks (fun j => .after .compute j it x') opt.computeCallbacks, .ok ()⟩

/-- `NoCheckpointer.iterate_forward`, no_checkpointer.py L62-68. -/
noncomputable def noForwardP (L : Local D I O) (opt : Options) :
    ℕ → ℕ → Ctrl → IState D → Prog D (Res D)
  | 0, _, c, x => .done ⟨c, x, [], .error .fuel⟩
  | f + 1, it, c, x =>
    if opt.crit.finished it (L.time x.disc) then .done ⟨c, x, [], .ok ()⟩
    else (runStepP L opt (it + 1) c x).bind fun
      | ⟨c', x', log, .error e⟩ => .done ⟨c', x', log, .error e⟩
      | ⟨c', x', log, .ok ()⟩ => (noForwardP L opt f (it + 1) c' x').bind fun r =>
        .done { r with log := log ++ r.log }

/-- `AllCheckpointer.iterate_forward`, all_checkpointer.py L67-75. -/
noncomputable def allForwardP (L : Local D I O) (opt : Options) :
    ℕ → ℕ → List (IState D) → Ctrl → IState D → Prog D (List (IState D) × Res D)
  | 0, _, stor, c, x => .done (stor, ⟨c, x, [], .error .fuel⟩)
  | f + 1, it, stor, c, x =>
    if opt.crit.finished it (L.time x.disc) then .done (stor, ⟨c, x, [], .ok ()⟩)
    else (runStepP L opt (it + 1) c x).bind fun
      | ⟨c', x', log, .error e⟩ => .done (stor, ⟨c', x', log, .error e⟩)
      | ⟨c', x', log, .ok ()⟩ => (allForwardP L opt f (it + 1) (stor ++ [x']) c' x').bind fun r =>
        .done (r.1, { r.2 with log := log ++ r.2.log })

/-- `_run_step_jacvec_rev`, runge_kutta_integrator.py L847-875. -/
def runStepRevP (opt : Options) (it : ℕ) (x : IState D) (p : D) : Prog D (D × List (Ev D)) :=
  .adj x.disc p x.stepHist.1 fun q => .done (q,
    callbacks (fun j => .before .rev j it x) opt.revCallbacks
      ++ callbacks (fun j => .after .rev j it x) opt.revCallbacks)

/-- `AllCheckpointer.iterate_reverse`, all_checkpointer.py L96-104. -/
def allReverseP (opt : Options) : List (IState D) → D → Prog D (D × List (Ev D))
  | [], p => .done (p, [])
  | x :: rest, p => (runStepRevP opt (rest.length + 1) x p).bind fun r =>
    (allReverseP opt rest r.1).bind fun q => .done (q.1, r.2 ++ q.2)

/-- `iterate_forward` of the checkpointers. -/
noncomputable def forwardP (L : Local D I O) (opt : Options) : (ch : Choice) → ℕ → ch.Data D →
    Ctrl → IState D → Prog D (ch.Data D × Res D)
  | .no, fuel, _, c, x => (noForwardP L opt fuel 0 c x).bind fun r => .done ((), r)
  | .all, fuel, stor, c, x => allForwardP L opt fuel 0 stor c x

/-- `iterate_reverse` of the checkpointers; `NoCheckpointer` raises (no_checkpointer.py L70-89). -/
def reverseP (opt : Options) : (ch : Choice) → ch.Data D → Ctrl → IState D → D →
    Prog D (ch.Data D × Res D × D)
  | .no, _, c, x, p => .done ((), ⟨c, x, [], .error .notImplemented⟩, p)
  | .all, stor, c, x, p => (allReverseP opt stor.reverse p).bind fun r =>
    .done ([], ⟨c, x, r.2, .ok ()⟩, r.1)

/-- `create_checkpointer`. -/
def createP : (ch : Choice) → ch.Data D → ch.Data D
  | .no, _ => ()
  | .all, _ => []

/-- `__post_init__` of the checkpointers. -/
def initP : (ch : Choice) → ch.Data D
  | .no => ()
  | .all => []

/-- The component of a rank after `setup`, see `freshWorld`. -/
def freshP (opt : Options) (ch : Choice) (empty : D) (c : Ctrl) : World D (ch.Data D) where
  tis := ⟨empty, opt.initialStep, (0, 0), (c.config.tol, c.config.tol)⟩
  pert := empty
  ctrl := c
  cached := none
  ck := initP ch
  log := []

/-- `compute`, runge_kutta_integrator.py L438-468. -/
noncomputable def computeP (L : Local D I O) (opt : Options) (ch : Choice) (fuel : ℕ)
    (w : World D (ch.Data D)) (i : I) : Prog D (World D (ch.Data D) × Except Err O) :=
  let d := L.load w.tis.disc i
  let x := resetErrorControl opt w.ctrl { w.tis with disc := d }
  let x := { x with disc := L.clearLin x.disc }
  (forwardP L opt ch fuel (createP ch w.ck) w.ctrl x).bind fun r =>
    let w' : World D (ch.Data D) :=
      { w with tis := r.2.st, ctrl := r.2.ctrl, cached := some d, ck := r.1,
               log := w.log ++ r.2.log }
    match r.2.out with
    | .error e => .done (w', .error e)
    | .ok () => .done (w', .ok (L.read r.2.st.disc))

/-- `_run_step_jacvec_fwd`, runge_kutta_integrator.py L733-762. -/
noncomputable def runStepFwdP (L : Local D I O) (opt : Options) (it : ℕ) (c : Ctrl)
    (x : IState D) (p : D) : Prog D (Res D × D) :=
  let pre := callbacks (fun j => .before .fwd j it x) opt.fwdCallbacks
  (iterateP L opt opt.recursionLimit c x).bind fun
    | (c', x', .error e) => .done (⟨c', x', pre, .error e⟩, p)
    | (c', x', .ok ()) => .deriv x'.disc p x'.stepHist.1 fun q =>
      .done (⟨c', x', pre ++ callbacks (fun j => .after .fwd j it x') opt.fwdCallbacks, .ok ()⟩, q)

/-- `_compute_jacvec_fwd_run_steps`, runge_kutta_integrator.py L714-731. -/
noncomputable def fwdLoopP (L : Local D I O) (opt : Options) :
    ℕ → ℕ → Ctrl → IState D → D → Prog D (Res D × D)
  | 0, _, c, x, p => .done (⟨c, x, [], .error .fuel⟩, p)
  | f + 1, it, c, x, p =>
    if opt.crit.finished it (L.time x.disc) then .done (⟨c, x, [], .ok ()⟩, p)
    else (runStepFwdP L opt (it + 1) c x p).bind fun
      | (⟨c', x', log, .error e⟩, p') => .done (⟨c', x', log, .error e⟩, p')
      | (⟨c', x', log, .ok ()⟩, p') => (fwdLoopP L opt f (it + 1) c' x' p').bind fun r =>
        .done ({ r.1 with log := log ++ r.1.log }, r.2)

/-- `compute_jacvec_product` in mode "fwd", runge_kutta_integrator.py L658-712. -/
noncomputable def fwdP {σ : Type} (L : Local D I O) (opt : Options) (fuel : ℕ) (w : World D σ)
    (i di : I) (dO : O) : Prog D (World D σ × Except Err O) :=
  let x := resetErrorControl opt w.ctrl { w.tis with disc := L.load w.tis.disc i }
  let p := L.load w.pert di
  (fwdLoopP L opt fuel 0 w.ctrl x p).bind fun r =>
    let w' : World D σ :=
      { w with tis := r.1.st, ctrl := r.1.ctrl, pert := r.2, log := w.log ++ r.1.log }
    match r.1.out with
    | .error e => .done (w', .error e)
    | .ok () => .done (w', .ok (L.writeOut r.2 dO))

/-- The cache test, runge_kutta_integrator.py L822-831: every rank compares its own arrays. -/
def cacheOkP {σ : Type} (L : Local D I O) (w : World D σ) (i : I) : Bool :=
  match w.cached with
  | none => false
  | some d => L.cacheHit d i

/-- The first part of `_compute_jacvec_rev_preparation_phase`, runge_kutta_integrator.py
L799-835. -/
noncomputable def revPrepP (L : Local D I O) (opt : Options) (ch : Choice) (fuel : ℕ)
    (w : World D (ch.Data D)) (i : I) : Prog D (World D (ch.Data D) × Except Err Unit) :=
  if cacheOkP L w i then .done (w, .ok ())
  else (computeP L opt ch fuel w i).bind fun
    | (w', .error e) => .done (w', .error e)
    | (w', .ok _) => .done (w', .ok ())

/-- `compute_jacvec_product` in mode "rev", runge_kutta_integrator.py L764-792 and L837-845. -/
noncomputable def revP (L : Local D I O) (opt : Options) (ch : Choice) (fuel : ℕ)
    (w : World D (ch.Data D)) (i : I) (dO : O) (dI : I) :
    Prog D (World D (ch.Data D) × Except Err I) :=
  (revPrepP L opt ch fuel w i).bind fun
    | (w1, .error e) => .done (w1, .error e)
    | (w1, .ok ()) => (reverseP opt ch w1.ck w1.ctrl w1.tis (L.seed w1.pert dO)).bind fun r =>
      let w2 : World D (ch.Data D) :=
        { w1 with tis := r.2.1.st, ctrl := r.2.1.ctrl, pert := r.2.2, ck := r.1,
                  log := w1.log ++ r.2.1.log }
      match r.2.1.out with
      | .error e => .done (w2, .error e)
      | .ok () => .done ({ w2 with cached := none }, .ok (L.writeIn r.2.2 dI))

/-- The component after an operation, see `doOp`. -/
noncomputable def opP (L : Local D I O) (opt : Options) (ch : Choice) (fuel : ℕ)
    (w : World D (ch.Data D)) : Op I O → Prog D (World D (ch.Data D))
  | .compute i => (computeP L opt ch fuel w i).bind fun r => .done r.1
  | .fwd i di dO => (fwdP L opt fuel w i di dO).bind fun r => .done r.1
  | .rev i dO dI => (revP L opt ch fuel w i dO dI).bind fun r => .done r.1

/-- The component after a sequence of operations, see `doOps`. -/
noncomputable def opsP (L : Local D I O) (opt : Options) (ch : Choice) (fuel : ℕ) :
    World D (ch.Data D) → List (Op I O) → Prog D (World D (ch.Data D))
  | w, [] => .done w
  | w, op :: ops => (opP L opt ch fuel w op).bind fun w' => opsP L opt ch fuel w' ops

/-! ### All ranks together -/

/-- What the operations do with the data of all ranks. Ranks may have arrays of different sizes, and
nothing is assumed about what happens if their step sizes differ. -/
structure Collective {R : ℕ} (D : Fin R → Type) where
  step : (∀ r, D r) → (Fin R → XReal) → ∀ r, Except Err (D r)
  measure : (∀ r, D r) → Fin R → Except Err XReal
  deriv : (∀ r, D r) → (∀ r, D r) → (Fin R → XReal) → ∀ r, D r
  adj : (∀ r, D r) → (∀ r, D r) → (Fin R → XReal) → ∀ r, D r

/-- An operation with the step sizes of the ranks. -/
inductive Call (R : ℕ) where
  | step (h : Fin R → XReal)
  | measure
  | deriv (h : Fin R → XReal)
  | adj (h : Fin R → XReal)

variable {R : ℕ} {DD : Fin R → Type} {αα : Fin R → Type}

/-- The ranks run the programs `P` to their ends, with results `out`, and do the operations `calls`
on the way. There is no rule for ranks that wait in different operations, or for others that have
ended already. -/
inductive Together (C : Collective DD) :
    (∀ r, Prog (DD r) (αα r)) → List (Call R) → (∀ r, αα r) → Prop
  | done (a : ∀ r, αα r) : Together C (fun r => .done (a r)) [] a
  | step (d : ∀ r, DD r) (h : Fin R → XReal) (k : ∀ r, Except Err (DD r) → Prog (DD r) (αα r))
      {calls out} (t : Together C (fun r => k r (C.step d h r)) calls out) :
      Together C (fun r => .step (d r) (h r) (k r)) (.step h :: calls) out
  | measure (d : ∀ r, DD r) (k : ∀ r, Except Err XReal → Prog (DD r) (αα r)) {calls out}
      (t : Together C (fun r => k r (C.measure d r)) calls out) :
      Together C (fun r => .measure (d r) (k r)) (.measure :: calls) out
  | deriv (d p : ∀ r, DD r) (h : Fin R → XReal) (k : ∀ r, DD r → Prog (DD r) (αα r)) {calls out}
      (t : Together C (fun r => k r (C.deriv d p h r)) calls out) :
      Together C (fun r => .deriv (d r) (p r) (h r) (k r)) (.deriv h :: calls) out
  | adj (d p : ∀ r, DD r) (h : Fin R → XReal) (k : ∀ r, DD r → Prog (DD r) (αα r)) {calls out}
      (t : Together C (fun r => k r (C.adj d p h r)) calls out) :
      Together C (fun r => .adj (d r) (p r) (h r) (k r)) (.adj h :: calls) out

end Verif.Parallel
