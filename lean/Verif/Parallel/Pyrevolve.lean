/-
The component with pyrevolve on several MPI ranks.

Source: /repo/src/rkopenmdao/checkpoint_interface/pyrevolve_checkpointer.py
        /repo/src/rkopenmdao/checkpoint_interface/runge_kutta_integrator_pyrevolve_classes.py
        /repo/src/rkopenmdao/runge_kutta_integrator.py L438-468, L764-845

Every rank has a revolver of its own; it stores and loads the arrays of this rank. All revolvers are
made with the same number of steps and of checkpoints, so that their schedules are the same.
-/
import Verif.Parallel.Serial
import Verif.Parallel.Lockstep
import Verif.Integrator.Pyrevolve

namespace Verif.Parallel

open Verif.Control Verif.XReal Verif.Integrator
open Classical

variable {D I O : Type}

/-! ### The programs of the ranks -/

/-- `RungeKuttaForwardOperator.apply`, ...pyrevolve_classes.py L168-185, see
`Integrator.fwdApply`. -/
noncomputable def fwdApplyP (L : Local D I O) (opt : Options) :
    ℕ → ℕ → Ctrl → IState D → Prog D (Res D)
  | _, 0, c, x => .done ⟨c, x, [], .ok ()⟩
  | it, count + 1, c, x => (runStepP L opt it c x).bind fun
    | ⟨c', x', log, .error e⟩ => .done ⟨c', x', log, .error e⟩
    | ⟨c', x', log, .ok ()⟩ => (fwdApplyP L opt (it + 1) count c' x').bind fun r =>
      .done { r with log := log ++ r.log }

/-- `TimeIntegrationState.set`, time_integration_state.py L40-54. -/
def setP (L : Local D I O) (x y : IState D) : IState D :=
  ⟨L.set x.disc y.disc, y.sugg, y.stepHist, y.errHist⟩

/-- The loop of `apply_forward` of the revolver of a rank, see `Integrator.applyForward`. -/
noncomputable def applyForwardP (L : Local D I O) (opt : Options) (R : Restore D) (n : ℕ) :
    List Act → PyData D → Ctrl → IState D → Prog D (PyData D × Res D)
  | [], s, c, x => .done (s, ⟨c, x, [], .error .fuel⟩)
  | .advance old capo :: acts, s, c, x => (fwdApplyP L opt (old + 1) (capo - old) c x).bind fun
    | ⟨c', x', log, .error e⟩ => .done (s, ⟨c', x', log, .error e⟩)
    | ⟨c', x', log, .ok ()⟩ => (applyForwardP L opt R n acts s c' x').bind fun r =>
      .done (r.1, { r.2 with log := log ++ r.2.log })
  | .takeshot j :: acts, s, c, x =>
    applyForwardP L opt R n acts { s with slots := Function.update s.slots j (some x) } c x
  | .restore j :: acts, s, c, x =>
    match s.slots j with
    | none => .done (s, ⟨c, x, [], .error .backend⟩)
    | some y => applyForwardP L opt R n acts s c (restoreState R x y)
  | .lastfw old :: _, s, c, x => (fwdApplyP L opt (old + 1) (n - old) c x).bind fun r =>
    .done (s, r)
  | .reverse _ :: acts, s, c, x => applyForwardP L opt R n acts s c x

/-- The loop of `apply_reverse`, see `Integrator.applyReverse`. -/
noncomputable def applyReverseP (L : Local D I O) (opt : Options) (R : Restore D) :
    List Act → PyData D → Ctrl → IState D → D → Prog D (PyData D × Res D × D)
  | [], s, c, x, p => .done (s, ⟨c, x, [], .ok ()⟩, p)
  | .advance old capo :: acts, s, c, x, p => (fwdApplyP L opt (old + 1) (capo - old) c x).bind fun
    | ⟨c', x', log, .error e⟩ => .done (s, ⟨c', x', log, .error e⟩, p)
    | ⟨c', x', log, .ok ()⟩ => (applyReverseP L opt R acts s c' x' p).bind fun r =>
      .done (r.1, { r.2.1 with log := log ++ r.2.1.log }, r.2.2)
  | .takeshot j :: acts, s, c, x, p =>
    applyReverseP L opt R acts { s with slots := Function.update s.slots j (some x) } c x p
  | .restore j :: acts, s, c, x, p =>
    match s.slots j with
    | none => .done (s, ⟨c, x, [], .error .backend⟩, p)
    | some y => applyReverseP L opt R acts s c (restoreState R x y) p
  | .lastfw _ :: acts, s, c, x, p => applyReverseP L opt R acts s c x p
  | .reverse capo :: acts, s, c, x, p => (fwdApplyP L opt (capo + 1) 1 c x).bind fun
    | ⟨c', x', log, .error e⟩ => .done (s, ⟨c', x', log, .error e⟩, p)
    | ⟨c', x', log, .ok ()⟩ => (runStepRevP opt (capo + 2) x' p).bind fun q =>
      (applyReverseP L opt R acts s c' x' q.1).bind fun r =>
        .done (r.1, { r.2.1 with log := log ++ q.2 ++ r.2.1.log }, r.2.2)

/-- `iterate_forward`, pyrevolve_checkpointer.py L147-170, see `Integrator.pyForward`. -/
noncomputable def pyForwardP (L : Local D I O) (opt : Options) (R : Restore D) (n : ℕ)
    (sched : Schedule) (s : PyData D) (c : Ctrl) (x : IState D) : Prog D (PyData D × Res D) :=
  (fwdApplyP L opt 0 1 c x).bind fun
    | ⟨c', x', log, .error e⟩ => .done (s, ⟨c', x', log, .error e⟩)
    | ⟨c', x', log, .ok ()⟩ =>
      (applyForwardP L opt R n sched.fwd { s with first := setP L s.first x' } c' x').bind fun r =>
        .done (r.1, { r.2 with log := log ++ r.2.log })

/-- `iterate_reverse`, pyrevolve_checkpointer.py L172-196, see `Integrator.pyReverse`. -/
noncomputable def pyReverseP (L : Local D I O) (opt : Options) (R : Restore D)
    (sched : Schedule) (s : PyData D) (c : Ctrl) (x : IState D) (p : D) :
    Prog D (PyData D × Res D × D) :=
  (runStepRevP opt (sched.capo + 2) x p).bind fun q =>
    (applyReverseP L opt R sched.rev s c x q.1).bind fun
      | (s', ⟨c', x', log, .error e⟩, p') => .done (s', ⟨c', x', q.2 ++ log, .error e⟩, p')
      | (s', ⟨c', x', log, .ok ()⟩, p') =>
        (runStepRevP opt 1 (setP L x' s'.first) p').bind fun q' =>
          .done (s', ⟨c', setP L x' s'.first, q.2 ++ log ++ q'.2, .ok ()⟩, q'.1)

/-- The component of a rank after `setup`, see `freshWorld`. -/
def freshPyP (opt : Options) (empty : D) (c : Ctrl) : World D (PyData D) where
  tis := ⟨empty, opt.initialStep, (0, 0), (c.config.tol, c.config.tol)⟩
  pert := empty
  ctrl := c
  cached := none
  ck := ⟨⟨empty, opt.initialStep, (0, 0), (c.config.tol, c.config.tol)⟩, fun _ => none⟩
  log := []

/-- What is the same for all ranks: the number of steps (without the first one) and the schedule. -/
structure Plan where
  n : ℕ
  sched : Schedule

/-- `compute`, runge_kutta_integrator.py L438-468, with pyrevolve. -/
noncomputable def computePyP (L : Local D I O) (opt : Options) (R : Restore D) (pl : Plan)
    (w : World D (PyData D)) (i : I) : Prog D (World D (PyData D) × Except Err O) :=
  let d := L.load w.tis.disc i
  let x := resetErrorControl opt w.ctrl { w.tis with disc := d }
  let x := { x with disc := L.clearLin x.disc }
  (pyForwardP L opt R pl.n pl.sched ⟨w.ck.first, fun _ => none⟩ w.ctrl x).bind fun r =>
    let w' : World D (PyData D) :=
      { w with tis := r.2.st, ctrl := r.2.ctrl, cached := some d, ck := r.1,
               log := w.log ++ r.2.log }
    match r.2.out with
    | .error e => .done (w', .error e)
    | .ok () => .done (w', .ok (L.read r.2.st.disc))

/-- The first part of `_compute_jacvec_rev_preparation_phase`, runge_kutta_integrator.py
L799-835, with pyrevolve. -/
noncomputable def revPrepPyP (L : Local D I O) (opt : Options) (R : Restore D) (pl : Plan)
    (w : World D (PyData D)) (i : I) : Prog D (World D (PyData D) × Except Err Unit) :=
  if cacheOkP L w i then .done (w, .ok ())
  else (computePyP L opt R pl w i).bind fun
    | (w', .error e) => .done (w', .error e)
    | (w', .ok _) => .done (w', .ok ())

/-- `compute_jacvec_product` in mode "rev", runge_kutta_integrator.py L764-792 and L837-845, with
pyrevolve. -/
noncomputable def revPyP (L : Local D I O) (opt : Options) (R : Restore D) (pl : Plan)
    (w : World D (PyData D)) (i : I) (dO : O) (dI : I) :
    Prog D (World D (PyData D) × Except Err I) :=
  (revPrepPyP L opt R pl w i).bind fun
    | (w1, .error e) => .done (w1, .error e)
    | (w1, .ok ()) =>
      (pyReverseP L opt R pl.sched w1.ck w1.ctrl w1.tis (L.seed w1.pert dO)).bind fun r =>
        let w2 : World D (PyData D) :=
          { w1 with tis := r.2.1.st, ctrl := r.2.1.ctrl, pert := r.2.2, ck := r.1,
                    log := w1.log ++ r.2.1.log }
        match r.2.1.out with
        | .error e => .done (w2, .error e)
        | .ok () => .done ({ w2 with cached := none }, .ok (L.writeIn r.2.2 dI))

/-- The component after an operation, see `doOp`. -/
noncomputable def opPyP (L : Local D I O) (opt : Options) (R : Restore D) (pl : Plan) (fuel : ℕ)
    (w : World D (PyData D)) : Op I O → Prog D (World D (PyData D))
  | .compute i => (computePyP L opt R pl w i).bind fun r => .done r.1
  | .fwd i di dO => (fwdP L opt fuel w i di dO).bind fun r => .done r.1
  | .rev i dO dI => (revPyP L opt R pl w i dO dI).bind fun r => .done r.1

/-- The component after a sequence of operations, see `doOps`. -/
noncomputable def opsPyP (L : Local D I O) (opt : Options) (R : Restore D) (pl : Plan)
    (fuel : ℕ) : World D (PyData D) → List (Op I O) → Prog D (World D (PyData D))
  | w, [] => .done w
  | w, op :: ops => (opPyP L opt R pl fuel w op).bind fun w' => opsPyP L opt R pl fuel w' ops

/-! ### On a single rank -/

section
variable {B : Backend D I O} {opt : Options} {R : Restore D}

theorem fwdApplyP_run (it count : ℕ) (c : Ctrl) (x : IState D) :
    (fwdApplyP (Local.of B) opt it count c x).run B = fwdApply B opt it count c x := by
  induction count generalizing it c x with
  | zero => rfl
  | succ count ih =>
    rw [fwdApplyP, fwdApply, run_bind, runStepP_run]
    rcases runStep B opt it c x with ⟨c', x', log, e | ⟨⟩⟩
    · rfl
    · dsimp only
      rw [run_bind, ih]
      rfl

theorem applyForwardP_run (n : ℕ) (acts : List Act) (s : PyData D) (c : Ctrl) (x : IState D) :
    (applyForwardP (Local.of B) opt R n acts s c x).run B
      = applyForward B opt R n acts s c x := by
  induction acts generalizing s c x with
  | nil => rfl
  | cons a acts ih =>
    cases a with
    | advance old capo =>
      rw [applyForwardP, applyForward, run_bind, fwdApplyP_run]
      rcases fwdApply B opt (old + 1) (capo - old) c x with ⟨c', x', log, e | ⟨⟩⟩
      · rfl
      · dsimp only
        rw [run_bind, ih]
        rfl
    | takeshot j => exact ih ..
    | restore j =>
      rw [applyForwardP, applyForward]
      rcases s.slots j with _ | y
      · rfl
      · exact ih ..
    | lastfw old =>
      rw [applyForwardP, applyForward, run_bind, fwdApplyP_run]
      rfl
    | reverse capo => exact ih ..

theorem applyReverseP_run (acts : List Act) (s : PyData D) (c : Ctrl) (x : IState D) (p : D) :
    (applyReverseP (Local.of B) opt R acts s c x p).run B
      = applyReverse B opt R acts s c x p := by
  induction acts generalizing s c x p with
  | nil => rfl
  | cons a acts ih =>
    cases a with
    | advance old capo =>
      rw [applyReverseP, applyReverse, run_bind, fwdApplyP_run]
      rcases fwdApply B opt (old + 1) (capo - old) c x with ⟨c', x', log, e | ⟨⟩⟩
      · rfl
      · dsimp only
        rw [run_bind, ih]
        rfl
    | takeshot j => exact ih ..
    | restore j =>
      rw [applyReverseP, applyReverse]
      rcases s.slots j with _ | y
      · rfl
      · exact ih ..
    | lastfw old => exact ih ..
    | reverse capo =>
      rw [applyReverseP, applyReverse, run_bind, fwdApplyP_run]
      rcases fwdApply B opt (capo + 1) 1 c x with ⟨c', x', log, e | ⟨⟩⟩
      · rfl
      · dsimp only
        rw [run_bind, run_bind, ih]
        rfl

theorem pyForwardP_run (n : ℕ) (sched : Schedule) (s : PyData D) (c : Ctrl) (x : IState D) :
    (pyForwardP (Local.of B) opt R n sched s c x).run B = pyForward B opt R n sched s c x := by
  rw [pyForwardP, pyForward, run_bind, fwdApplyP_run]
  rcases fwdApply B opt 0 1 c x with ⟨c', x', log, e | ⟨⟩⟩
  · rfl
  · dsimp only
    rw [run_bind, applyForwardP_run]
    rfl

theorem pyReverseP_run (sched : Schedule) (s : PyData D) (c : Ctrl) (x : IState D) (p : D) :
    (pyReverseP (Local.of B) opt R sched s c x p).run B = pyReverse B opt R sched s c x p := by
  rw [pyReverseP, pyReverse, run_bind, run_bind, applyReverseP_run]
  rw [show (runStepRevP opt (sched.capo + 2) x p).run B = runStepRev B opt (sched.capo + 2) x p
    from rfl]
  rcases applyReverse B opt R sched.rev s c x (runStepRev B opt (sched.capo + 2) x p).1
    with ⟨s', ⟨c', x', log, e | ⟨⟩⟩, p'⟩ <;> rfl

variable (em : IState D) (pl : Plan)

theorem computePyP_run (f : ℕ) (w : World D (PyData D)) (i : I) :
    (computePyP (Local.of B) opt R pl w i).run B
      = compute B opt (pyCk B opt R em pl.n pl.sched) f w i := by
  unfold computePyP
  dsimp only
  rw [run_bind, pyForwardP_run, compute]
  dsimp only [Local.of, pyCk]
  split <;> simp only [*] <;> rfl

theorem revPrepPyP_run (f : ℕ) (w : World D (PyData D)) (i : I) :
    (revPrepPyP (Local.of B) opt R pl w i).run B
      = revPrep B opt (pyCk B opt R em pl.n pl.sched) f w i := by
  rw [revPrepPyP, revPrep]
  change Prog.run B (if cacheOk B w i = true then _ else _) = _
  split
  · rfl
  · rw [run_bind, computePyP_run em pl f]
    rcases compute B opt (pyCk B opt R em pl.n pl.sched) f w i with ⟨w', e | v⟩ <;> rfl

theorem revPyP_run (f : ℕ) (w : World D (PyData D)) (i : I) (dO : O) (dI : I) :
    (revPyP (Local.of B) opt R pl w i dO dI).run B
      = rev B opt (pyCk B opt R em pl.n pl.sched) f w i dO dI := by
  rw [revPyP, run_bind, revPrepPyP_run em pl f, rev]
  rcases revPrep B opt (pyCk B opt R em pl.n pl.sched) f w i with ⟨w1, e | ⟨⟩⟩
  · rfl
  · dsimp only
    rw [run_bind, pyReverseP_run]
    dsimp only [Local.of, pyCk]
    split <;> simp only [*] <;> rfl

theorem opPyP_run (f : ℕ) (w : World D (PyData D)) (op : Op I O) :
    (opPyP (Local.of B) opt R pl f w op).run B
      = doOp B opt (pyCk B opt R em pl.n pl.sched) f w op := by
  cases op with
  | compute i => rw [opPyP, run_bind, computePyP_run em pl f]; rfl
  | fwd i di dO => rw [opPyP, run_bind, fwdP_run]; rfl
  | rev i dO dI => rw [opPyP, run_bind, revPyP_run em pl f]; rfl

theorem opsPyP_run (f : ℕ) (w : World D (PyData D)) (ops : List (Op I O)) :
    (opsPyP (Local.of B) opt R pl f w ops).run B
      = doOps B opt (pyCk B opt R em pl.n pl.sched) f w ops := by
  induction ops generalizing w with
  | nil => rfl
  | cons op ops ih => rw [opsPyP, run_bind, opPyP_run em pl, ih, doOps, doOps, List.foldl_cons]

end

/-! ### All ranks together -/

section
variable {R : ℕ} {DD II OO : Fin R → Type}

/-- Data of the revolvers: every rank has its part of the first state, and of what is in every
slot. -/
structure JP (J : D → (∀ r, DD r) → Prop) (s : PyData D) (ss : ∀ r, PyData (DD r)) : Prop where
  first : JX J s.first fun r => (ss r).first
  empty : ∀ j, s.slots j = none → ∀ r, (ss r).slots j = none
  full : ∀ j x, s.slots j = some x →
    ∃ xx : ∀ r, IState (DD r), (∀ r, (ss r).slots j = some (xx r)) ∧ JX J x xx

/-- The component on the ranks. -/
structure JWP (J : D → (∀ r, DD r) → Prop) (w : World D (PyData D))
    (ww : ∀ r, World (DD r) (PyData (DD r))) : Prop where
  tis : JX J w.tis fun r => (ww r).tis
  pert : J w.pert fun r => (ww r).pert
  ctrl : ∀ r, (ww r).ctrl = w.ctrl
  cached : JO? J w.cached fun r => (ww r).cached
  ck : JP J w.ck fun r => (ww r).ck

/-- Without what is stored: the component of a run without checkpoints. -/
def bare {σ : Type} (w : World D σ) : World D (Choice.no.Data D) :=
  ⟨w.tis, w.pert, w.ctrl, w.cached, (), w.log⟩

theorem JWP.bare {J : D → (∀ r, DD r) → Prop} {w : World D (PyData D)}
    {ww : ∀ r, World (DD r) (PyData (DD r))} (h : JWP J w ww) :
    JW J (ch := .no) (Parallel.bare w) fun r => Parallel.bare (ww r) :=
  ⟨h.tis, h.pert, h.ctrl, h.cached, trivial⟩

/-- Loading a checkpoint on all ranks. -/
def PartsRestore (J : D → (∀ r, DD r) → Prop) (T : Restore D) (TT : ∀ r, Restore (DD r)) : Prop :=
  ∀ {a aa b bb}, J a aa → J b bb → J (T a b) fun r => TT r (aa r) (bb r)

/-- Revolver data and outcome. -/
def RelPy (J : D → (∀ r, DD r) → Prop) (a : PyData D × Res D)
    (aa : ∀ r, PyData (DD r) × Res (DD r)) : Prop :=
  (JP J a.1 fun r => (aa r).1) ∧ RelRes J a.2 fun r => (aa r).2

/-- Revolver data, outcome and adjoint. -/
def RelPyRev (J : D → (∀ r, DD r) → Prop) (a : PyData D × Res D × D)
    (aa : ∀ r, PyData (DD r) × Res (DD r) × DD r) : Prop :=
  (JP J a.1 fun r => (aa r).1) ∧ RelFwd J a.2 fun r => (aa r).2

/-- Component and outcome. -/
def RelPyWorld (J : D → (∀ r, DD r) → Prop) {V : Type} {VV : Fin R → Type}
    (rel : V → (∀ r, VV r) → Prop) (a : World D (PyData D) × Except Err V)
    (aa : ∀ r, World (DD r) (PyData (DD r)) × Except Err (VV r)) : Prop :=
  (JWP J a.1 fun r => (aa r).1) ∧ JE rel a.2 fun r => (aa r).2

variable {B : Backend D I O} {L : ∀ r, Local (DD r) (II r) (OO r)} {C : Collective DD}
  {J : D → (∀ r, DD r) → Prop} {JI : I → (∀ r, II r) → Prop} {JV : O → (∀ r, OO r) → Prop}
  {opt : Options} {opts : Fin R → Options} {T : Restore D} {TT : ∀ r, Restore (DD r)}

theorem RelPy.shape {a : PyData D × Res D} {aa : ∀ r, PyData (DD r) × Res (DD r)}
    (h : RelPy J a aa) :
    ∃ (yy : ∀ r, IState (DD r)) (lg : ∀ r, List (Ev (DD r))) (ss : ∀ r, PyData (DD r)),
      aa = (fun r => (ss r, ⟨a.2.ctrl, yy r, lg r, a.2.out⟩)) ∧ JP J a.1 ss ∧
        JX J a.2.st yy := by
  obtain ⟨yy, lg, e, hy⟩ := h.2.shape
  exact ⟨yy, lg, fun r => (aa r).1, funext fun r => Prod.ext rfl (congrFun e r), h.1, hy⟩

theorem RelPyRev.shape {a : PyData D × Res D × D} {aa : ∀ r, PyData (DD r) × Res (DD r) × DD r}
    (h : RelPyRev J a aa) :
    ∃ (yy : ∀ r, IState (DD r)) (lg : ∀ r, List (Ev (DD r))) (qq : ∀ r, DD r)
      (ss : ∀ r, PyData (DD r)),
      aa = (fun r => (ss r, ⟨a.2.1.ctrl, yy r, lg r, a.2.1.out⟩, qq r)) ∧ JP J a.1 ss ∧
        JX J a.2.1.st yy ∧ J a.2.2 qq := by
  obtain ⟨yy, lg, qq, e, hy, hq⟩ := h.2.shape
  exact ⟨yy, lg, qq, fun r => (aa r).1, funext fun r => Prod.ext rfl (congrFun e r), h.1, hy, hq⟩

theorem JP.takeshot {s : PyData D} {ss : ∀ r, PyData (DD r)} (h : JP J s ss) (j : ℕ)
    {x : IState D} {xx : ∀ r, IState (DD r)} (hx : JX J x xx) :
    JP J { s with slots := Function.update s.slots j (some x) } fun r =>
      { ss r with slots := Function.update (ss r).slots j (some (xx r)) } := by
  refine ⟨h.first, fun k hk r => ?_, fun k y hk => ?_⟩
  · by_cases hkj : k = j
    · subst hkj; simp at hk
    · simp only [Function.update_of_ne hkj] at hk ⊢
      exact h.empty k hk r
  · by_cases hkj : k = j
    · subst hkj
      simp only [Function.update_self, Option.some.injEq] at hk ⊢
      exact ⟨xx, fun _ => rfl, hk ▸ hx⟩
    · simp only [Function.update_of_ne hkj] at hk ⊢
      exact h.full k y hk

variable (hP : Parts B L C J JI JV) (ho : ∀ r, SameOptions opt (opts r))

theorem JX.restore (hT : PartsRestore J T TT) {x y : IState D} {xx yy : ∀ r, IState (DD r)}
    (hx : JX J x xx) (hy : JX J y yy) :
    JX J (restoreState T x y) fun r => restoreState (TT r) (xx r) (yy r) :=
  ⟨hT hx.disc hy.disc, hy.sugg, hy.stepHist, hy.errHist⟩

include hP in
theorem JX.set {x y : IState D} {xx yy : ∀ r, IState (DD r)} (hx : JX J x xx) (hy : JX J y yy) :
    JX J (setP (Local.of B) x y) fun r => setP (L r) (xx r) (yy r) :=
  ⟨hP.set hx.disc hy.disc, hy.sugg, hy.stepHist, hy.errHist⟩

include hP in
theorem lock_runStepRev (it : ℕ) {x : IState D} {xx : ∀ r, IState (DD r)} {p : D}
    {pp : ∀ r, DD r} (hx : JX J x xx) (hp : J p pp) :
    Lock B C (fun a aa => J a.1 fun r => (aa r).1) (runStepRevP opt it x p)
      fun r => runStepRevP (opts r) it (xx r) (pp r) := by
  simp only [runStepRevP]
  exact lock_adj hP hx.disc hp (fun r => by rw [hx.stepHist]) fun q qq hq => lock_done hq

include hP ho

theorem lock_fwdApply (it count : ℕ) (c : Ctrl) {x : IState D} {xx : ∀ r, IState (DD r)}
    (hx : JX J x xx) : Lock B C (RelRes J) (fwdApplyP (Local.of B) opt it count c x)
      fun r => fwdApplyP (L r) (opts r) it count c (xx r) := by
  induction count generalizing it c x xx with
  | zero => exact lock_done ⟨fun _ => rfl, hx, fun _ => rfl⟩
  | succ count ih =>
    simp only [fwdApplyP]
    refine (lock_runStep hP ho it c hx).bind fun a aa ha => ?_
    obtain ⟨yy, lg, rfl, hy⟩ := ha.shape
    rcases a with ⟨c', x', log, e | ⟨⟩⟩
    · exact lock_done ⟨fun _ => rfl, hy, fun _ => rfl⟩
    · refine (ih (it + 1) c' hy).bind fun b bb hb => ?_
      exact lock_done ⟨hb.1, hb.2.1, hb.2.2⟩

theorem lock_applyForward (hT : PartsRestore J T TT) (n : ℕ) (acts : List Act) (c : Ctrl)
    {s : PyData D} {ss : ∀ r, PyData (DD r)} {x : IState D} {xx : ∀ r, IState (DD r)}
    (hs : JP J s ss) (hx : JX J x xx) :
    Lock B C (RelPy J) (applyForwardP (Local.of B) opt T n acts s c x)
      fun r => applyForwardP (L r) (opts r) (TT r) n acts (ss r) c (xx r) := by
  induction acts generalizing c s ss x xx with
  | nil => exact lock_done ⟨hs, fun _ => rfl, hx, fun _ => rfl⟩
  | cons act acts ih =>
    cases act with
    | advance old capo =>
      simp only [applyForwardP]
      refine (lock_fwdApply hP ho (old + 1) (capo - old) c hx).bind fun a aa ha => ?_
      obtain ⟨yy, lg, rfl, hy⟩ := ha.shape
      rcases a with ⟨c', x', log, e | ⟨⟩⟩
      · exact lock_done ⟨hs, fun _ => rfl, hy, fun _ => rfl⟩
      · refine (ih c' hs hy).bind fun b bb hb => ?_
        exact lock_done ⟨hb.1, hb.2.1, hb.2.2.1, hb.2.2.2⟩
    | takeshot j =>
      simp only [applyForwardP]
      exact ih c (hs.takeshot j hx) hx
    | restore j =>
      simp only [applyForwardP]
      rcases hj : s.slots j with _ | y
      · simp only [hs.empty j hj]
        exact lock_done ⟨hs, fun _ => rfl, hx, fun _ => rfl⟩
      · obtain ⟨yy, h1, h2⟩ := hs.full j y hj
        simp only [h1]
        exact ih c hs (hx.restore hT h2)
    | lastfw old =>
      simp only [applyForwardP]
      refine (lock_fwdApply hP ho (old + 1) (n - old) c hx).bind fun a aa ha => ?_
      exact lock_done ⟨hs, ha⟩
    | reverse capo =>
      simp only [applyForwardP]
      exact ih c hs hx

theorem lock_applyReverse (hT : PartsRestore J T TT) (acts : List Act) (c : Ctrl)
    {s : PyData D} {ss : ∀ r, PyData (DD r)} {x : IState D} {xx : ∀ r, IState (DD r)} {p : D}
    {pp : ∀ r, DD r} (hs : JP J s ss) (hx : JX J x xx) (hp : J p pp) :
    Lock B C (RelPyRev J) (applyReverseP (Local.of B) opt T acts s c x p)
      fun r => applyReverseP (L r) (opts r) (TT r) acts (ss r) c (xx r) (pp r) := by
  induction acts generalizing c s ss x xx p pp with
  | nil => exact lock_done ⟨hs, ⟨fun _ => rfl, hx, fun _ => rfl⟩, hp⟩
  | cons act acts ih =>
    cases act with
    | advance old capo =>
      simp only [applyReverseP]
      refine (lock_fwdApply hP ho (old + 1) (capo - old) c hx).bind fun a aa ha => ?_
      obtain ⟨yy, lg, rfl, hy⟩ := ha.shape
      rcases a with ⟨c', x', log, e | ⟨⟩⟩
      · exact lock_done ⟨hs, ⟨fun _ => rfl, hy, fun _ => rfl⟩, hp⟩
      · refine (ih c' hs hy hp).bind fun b bb hb => ?_
        exact lock_done ⟨hb.1, ⟨hb.2.1.1, hb.2.1.2.1, hb.2.1.2.2⟩, hb.2.2⟩
    | takeshot j =>
      simp only [applyReverseP]
      exact ih c (hs.takeshot j hx) hx hp
    | restore j =>
      simp only [applyReverseP]
      rcases hj : s.slots j with _ | y
      · simp only [hs.empty j hj]
        exact lock_done ⟨hs, ⟨fun _ => rfl, hx, fun _ => rfl⟩, hp⟩
      · obtain ⟨yy, h1, h2⟩ := hs.full j y hj
        simp only [h1]
        exact ih c hs (hx.restore hT h2) hp
    | lastfw old =>
      simp only [applyReverseP]
      exact ih c hs hx hp
    | reverse capo =>
      simp only [applyReverseP]
      refine (lock_fwdApply hP ho (capo + 1) 1 c hx).bind fun a aa ha => ?_
      obtain ⟨yy, lg, rfl, hy⟩ := ha.shape
      rcases a with ⟨c', x', log, e | ⟨⟩⟩
      · exact lock_done ⟨hs, ⟨fun _ => rfl, hy, fun _ => rfl⟩, hp⟩
      · refine (lock_runStepRev hP (capo + 2) hy hp).bind fun q qq hq => ?_
        refine (ih c' hs hy hq).bind fun b bb hb => ?_
        exact lock_done ⟨hb.1, ⟨hb.2.1.1, hb.2.1.2.1, hb.2.1.2.2⟩, hb.2.2⟩

theorem lock_pyForward (hT : PartsRestore J T TT) (pl : Plan) (c : Ctrl)
    {s : PyData D} {ss : ∀ r, PyData (DD r)} {x : IState D} {xx : ∀ r, IState (DD r)}
    (hs : JP J s ss) (hx : JX J x xx) :
    Lock B C (RelPy J) (pyForwardP (Local.of B) opt T pl.n pl.sched s c x)
      fun r => pyForwardP (L r) (opts r) (TT r) pl.n pl.sched (ss r) c (xx r) := by
  simp only [pyForwardP]
  refine (lock_fwdApply hP ho 0 1 c hx).bind fun a aa ha => ?_
  obtain ⟨yy, lg, rfl, hy⟩ := ha.shape
  rcases a with ⟨c', x', log, e | ⟨⟩⟩
  · exact lock_done ⟨hs, fun _ => rfl, hy, fun _ => rfl⟩
  · have hs' : JP J { s with first := setP (Local.of B) s.first x' } fun r =>
        { ss r with first := setP (L r) (ss r).first (yy r) } :=
      ⟨hs.first.set hP hy, hs.empty, hs.full⟩
    refine (lock_applyForward hP ho hT pl.n pl.sched.fwd c' hs' hy).bind fun b bb hb => ?_
    exact lock_done ⟨hb.1, hb.2.1, hb.2.2.1, hb.2.2.2⟩

theorem lock_pyReverse (hT : PartsRestore J T TT) (pl : Plan) (c : Ctrl)
    {s : PyData D} {ss : ∀ r, PyData (DD r)} {x : IState D} {xx : ∀ r, IState (DD r)} {p : D}
    {pp : ∀ r, DD r} (hs : JP J s ss) (hx : JX J x xx) (hp : J p pp) :
    Lock B C (RelPyRev J) (pyReverseP (Local.of B) opt T pl.sched s c x p)
      fun r => pyReverseP (L r) (opts r) (TT r) pl.sched (ss r) c (xx r) (pp r) := by
  simp only [pyReverseP]
  refine (lock_runStepRev hP _ hx hp).bind fun q qq hq => ?_
  refine (lock_applyReverse hP ho hT pl.sched.rev c hs hx hq).bind fun b bb hb => ?_
  obtain ⟨yy, lg, q', ss', rfl, hs', hy, hq'⟩ := hb.shape
  rcases b with ⟨s', ⟨c', x', log, e | ⟨⟩⟩, p'⟩
  · exact lock_done ⟨hs', ⟨fun _ => rfl, hy, fun _ => rfl⟩, hq'⟩
  · have hf := hy.set hP hs'.first
    refine (lock_runStepRev hP 1 hf hq').bind fun u uu hu => ?_
    exact lock_done ⟨hs', ⟨fun _ => rfl, hf, fun _ => rfl⟩, hu⟩

theorem lock_computePy (hT : PartsRestore J T TT) (pl : Plan) {w : World D (PyData D)}
    {ww : ∀ r, World (DD r) (PyData (DD r))} {i : I} {ii : ∀ r, II r} (hw : JWP J w ww)
    (hi : JI i ii) : Lock B C (RelPyWorld J JV) (computePyP (Local.of B) opt T pl w i)
      fun r => computePyP (L r) (opts r) (TT r) pl (ww r) (ii r) := by
  have hd := hP.load hw.tis.disc hi
  have hx : JX J { resetErrorControl opt w.ctrl { w.tis with disc := B.load w.tis.disc i } with
        disc := B.clearLin (B.load w.tis.disc i) }
      fun r => { resetErrorControl (opts r) w.ctrl
          { (ww r).tis with disc := (L r).load (ww r).tis.disc (ii r) } with
        disc := (L r).clearLin ((L r).load (ww r).tis.disc (ii r)) } :=
    ⟨hP.clearLin hd, fun r => (ho r).initialStep, fun _ => rfl, fun _ => rfl⟩
  have hc : JP J ⟨w.ck.first, fun _ => none⟩ fun r => ⟨(ww r).ck.first, fun _ => none⟩ :=
    ⟨hw.ck.first, fun _ _ _ => rfl, fun _ _ h => by cases h⟩
  simp only [computePyP, hw.ctrl]
  refine (lock_pyForward hP ho hT pl w.ctrl hc hx).bind fun a aa ha => ?_
  obtain ⟨yy, lg, ss, rfl, hs, hy⟩ := ha.shape
  have hw' : JWP J { w with tis := a.2.st, ctrl := a.2.ctrl, cached := some (B.load w.tis.disc i), ck := a.1, log := w.log ++ a.2.log } fun r => { ww r with tis := yy r, ctrl := a.2.ctrl, cached := some ((L r).load (ww r).tis.disc (ii r)), ck := ss r, log := (ww r).log ++ lg r } :=
    ⟨hy, hw.pert, fun _ => rfl, ⟨_, fun _ => rfl, hd⟩, hs⟩
  rcases a with ⟨s, c', x', log, e | ⟨⟩⟩
  · exact lock_done ⟨hw', fun _ => rfl⟩
  · exact lock_done ⟨hw', _, fun _ => rfl, hP.read hy.disc⟩

theorem lock_fwdPy (f : ℕ) {w : World D (PyData D)}
    {ww : ∀ r, World (DD r) (PyData (DD r))} {i di : I} {ii dii : ∀ r, II r} {v : O}
    {vv : ∀ r, OO r} (hw : JWP J w ww) (hi : JI i ii) (hdi : JI di dii) (hv : JV v vv) :
    Lock B C (RelPyWorld J JV) (fwdP (Local.of B) opt f w i di v)
      fun r => fwdP (L r) (opts r) f (ww r) (ii r) (dii r) (vv r) := by
  have hx : JX J (resetErrorControl opt w.ctrl { w.tis with disc := B.load w.tis.disc i })
      fun r => resetErrorControl (opts r) w.ctrl
          { (ww r).tis with disc := (L r).load (ww r).tis.disc (ii r) } :=
    ⟨hP.load hw.tis.disc hi, fun r => (ho r).initialStep, fun _ => rfl, fun _ => rfl⟩
  simp only [fwdP, hw.ctrl]
  refine (lock_fwdLoop hP ho f 0 w.ctrl hx (hP.load hw.pert hdi)).bind fun a aa ha => ?_
  obtain ⟨yy, lg, qq, rfl, hy, hq⟩ := ha.shape
  have hw' : JWP J { w with tis := a.1.st, ctrl := a.1.ctrl, pert := a.2, log := w.log ++ a.1.log }
      fun r => { ww r with tis := yy r, ctrl := a.1.ctrl, pert := qq r, log := (ww r).log ++ lg r } :=
    ⟨hy, hq, fun _ => rfl, hw.cached, hw.ck⟩
  rcases a with ⟨⟨c', x', log, e | ⟨⟩⟩, q⟩
  · exact lock_done ⟨hw', fun _ => rfl⟩
  · exact lock_done ⟨hw', _, fun _ => rfl, hP.writeOut hq hv⟩

theorem lock_revPrepPy (hT : PartsRestore J T TT) (pl : Plan) {w : World D (PyData D)}
    {ww : ∀ r, World (DD r) (PyData (DD r))} {i : I} {ii : ∀ r, II r} (hw : JWP J w ww)
    (hi : JI i ii) (hc : ∀ r, cacheOkP (L r) (ww r) (ii r) = cacheOkP (Local.of B) w i) :
    Lock B C (RelPyWorld J fun _ _ => True) (revPrepPyP (Local.of B) opt T pl w i)
      fun r => revPrepPyP (L r) (opts r) (TT r) pl (ww r) (ii r) := by
  simp only [revPrepPyP, hc]
  split
  · exact lock_done ⟨hw, _, fun _ => rfl, trivial⟩
  · refine (lock_computePy hP ho hT pl hw hi).bind fun a aa ha => ?_
    obtain ⟨h1, h2⟩ := ha
    rcases a with ⟨w', e | v⟩
    · obtain ⟨ww', rfl⟩ : ∃ ww', aa = fun r => (ww' r, .error e) :=
        ⟨fun r => (aa r).1, funext fun r => Prod.ext rfl (h2 r)⟩
      exact lock_done ⟨h1, fun _ => rfl⟩
    · obtain ⟨uu, h2, -⟩ := h2
      obtain ⟨ww', rfl⟩ : ∃ ww', aa = fun r => (ww' r, .ok (uu r)) :=
        ⟨fun r => (aa r).1, funext fun r => Prod.ext rfl (h2 r)⟩
      exact lock_done ⟨h1, _, fun _ => rfl, trivial⟩

theorem lock_revPy (hT : PartsRestore J T TT) (pl : Plan) {w : World D (PyData D)}
    {ww : ∀ r, World (DD r) (PyData (DD r))} {i di : I} {ii dii : ∀ r, II r} {v : O}
    {vv : ∀ r, OO r} (hw : JWP J w ww)
    (hi : JI i ii) (hv : JV v vv) (hdi : JI di dii)
    (hc : ∀ r, cacheOkP (L r) (ww r) (ii r) = cacheOkP (Local.of B) w i) :
    Lock B C (RelPyWorld J JI) (revPyP (Local.of B) opt T pl w i v di)
      fun r => revPyP (L r) (opts r) (TT r) pl (ww r) (ii r) (vv r) (dii r) := by
  simp only [revPyP]
  refine (lock_revPrepPy hP ho hT pl hw hi hc).bind fun a aa ha => ?_
  obtain ⟨h1, h2⟩ := ha
  rcases a with ⟨w', e | v⟩
  · obtain ⟨ww', rfl⟩ : ∃ ww', aa = fun r => (ww' r, .error e) :=
      ⟨fun r => (aa r).1, funext fun r => Prod.ext rfl (h2 r)⟩
    exact lock_done ⟨h1, fun _ => rfl⟩
  · obtain ⟨uu, h2, -⟩ := h2
    obtain ⟨ww', rfl⟩ : ∃ ww', aa = fun r => (ww' r, .ok ()) :=
      ⟨fun r => (aa r).1, funext fun r => Prod.ext rfl (h2 r)⟩
    dsimp only at h1 ⊢
    simp only [h1.ctrl]
    refine (lock_pyReverse hP ho hT pl w'.ctrl h1.ck h1.tis (hP.seed h1.pert hv)).bind
      fun b bb hb => ?_
    obtain ⟨yy, lg, qq, ss, rfl, hb1, hy, hq⟩ := hb.shape
    rcases b with ⟨s, ⟨c', x', log, e | ⟨⟩⟩, q⟩
    · exact lock_done ⟨⟨hy, hq, fun _ => rfl, h1.cached, hb1⟩, fun _ => rfl⟩
    · exact lock_done ⟨⟨hy, hq, fun _ => rfl, fun _ => rfl, hb1⟩, _, fun _ => rfl,
        hP.writeIn hq hdi⟩

omit ho in
/-- Whether all ranks or none have their inputs cached is the same as for a single rank. -/
theorem cache_agrees_py {w : World D (PyData D)} {ww : ∀ r, World (DD r) (PyData (DD r))} {i : I}
    {ii : ∀ r, II r} (hw : JWP J w ww) (hi : JI i ii)
    (hc : ∀ r r', cacheOkP (L r) (ww r) (ii r) = cacheOkP (L r') (ww r') (ii r')) (r : Fin R) :
    cacheOkP (L r) (ww r) (ii r) = cacheOkP (Local.of B) w i :=
  cache_agrees hP hw.bare hi (fun r r' => hc r r') r

theorem lock_opsPy (hT : PartsRestore J T TT) (pl : Plan) (em : IState D) (f : ℕ)
    (hload : ∀ d i, B.cacheHit (B.load d i) i = true)
    {ops : List (Op I O)} {oops : ∀ r, List (Op (II r) (OO r))} {cur : Option I}
    (hops : JOps JI JV ops oops) (hcur : Current cur ops) {w : World D (PyData D)}
    {ww : ∀ r, World (DD r) (PyData (DD r))} (hw : JWP J w ww) (hcw : CachedFrom B cur w) :
    Lock B C (JWP J) (opsPyP (Local.of B) opt T pl f w ops)
      fun r => opsPyP (L r) (opts r) (TT r) pl f (ww r) (oops r) := by
  induction hops generalizing cur w ww with
  | nil => exact lock_done hw
  | @compute i ii l ll hi t ih =>
    cases hcur with
    | compute hcur =>
      simp only [opsPyP]
      refine Lock.bind_run (rel := JWP J) (Lock.bind (lock_computePy hP ho hT pl hw hi)
        fun a aa ha => lock_done ha.1) fun aa ha => ih hcur ha ?_
      rw [opPyP_run em pl]
      exact .inr ⟨_, i, rfl, compute_cached ..⟩
  | @fwd i ii di dii v vv l ll hi hdi hv t ih =>
    cases hcur with
    | fwd hcur =>
      simp only [opsPyP]
      refine Lock.bind_run (rel := JWP J) (Lock.bind (lock_fwdPy hP ho f hw hi hdi hv)
        fun a aa ha => lock_done ha.1) fun aa ha => ih hcur ha ?_
      rw [opPyP_run em pl]
      unfold CachedFrom
      rw [doOp, fwd_cached]
      exact hcw
  | @rev i ii di dii v vv l ll hi hdi hv t ih =>
    cases hcur with
    | rev h hcur =>
      simp only [opsPyP]
      have hc : ∀ r, cacheOkP (L r) (ww r) (ii r) = cacheOkP (Local.of B) w i := by
        have hcd := hw.cached
        unfold cacheOkP
        rcases hcw with hn | ⟨d, j, hj, hn⟩ <;> rw [hn] at hcd ⊢
        · intro r
          have h0 : ∀ r, (ww r).cached = none := hcd
          rw [h0 r]
        · obtain ⟨dd, h0, hd⟩ := hcd
          obtain rfl : j = i := by
            rcases h with rfl | rfl
            · cases hj
            · exact (Option.some.inj hj).symm
          intro r
          dsimp only at h0
          rw [h0 r]
          dsimp only
          rw [(hP.cacheHit hd hi).mp (hload d j) r]
          exact (hload d j).symm
      refine Lock.bind_run (rel := JWP J) (Lock.bind (lock_revPy hP ho hT pl hw hi hv hdi hc)
        fun a aa ha => lock_done ha.1) fun aa ha => ih hcur ha ?_
      rw [opPyP_run em pl]
      exact rev_cached _ f w i di v h hcw

end

end Verif.Parallel
