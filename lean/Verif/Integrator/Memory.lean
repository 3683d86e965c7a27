/-
The component around a stage problem with a memory: the vectors of OpenMDAO keep their values between
calls, solvers start from them. The memory is threaded through all calls of the stage problem; neither
rejected attempts nor checkpoints restore it.

Source: /repo/src/rkopenmdao/runge_kutta_integrator.py
        /repo/src/rkopenmdao/checkpoint_interface/all_checkpointer.py
        /repo/src/rkopenmdao/checkpoint_interface/no_checkpointer.py
        /repo/src/rkopenmdao/discretized_ode/openmdao_ode.py

The checkpointer with pyrevolve is in `Verif.Integrator.MemoryPyrevolve`.

The property theorems are in `Verif.Props.Memory`.
-/
import Verif.Integrator.Model
import Verif.Integrator.Path

namespace Verif.Integrator

open Verif.Control Verif.XReal
open Classical

variable {D I O M σ : Type}

/-- The calls of the discretization that reach the stage problem, with its memory before and after:
`compute_step` (runge_kutta_integrator.py L573-580), `compute_step_derivative` (L747-754) and
`compute_step_adjoint_derivative` (L860-867). -/
structure Mem (D M : Type) where
  step : M → D → XReal → M × Except Err D
  deriv : M → D → D → XReal → M × D
  adj : M → D → D → XReal → M × D

/-- `_iterate_on_step`, runge_kutta_integrator.py L561-637. Of `B` only the parts without stage problem
are used, here and below. -/
noncomputable def iterateM (B : Backend D I O) (S : Mem D M) (opt : Options) :
    ℕ → M → Ctrl → IState D → M × Ctrl × IState D × Except Err Unit
  | 0, m, c, x => (m, c, x, .error .recursion)
  | f + 1, m, c, x =>
    match S.step m x.disc x.sugg with
    | (m', .error e) => (m', c, x, .error e)
    | (m', .ok d) =>
      if opt.adaptive then
        match B.measure d with
        | .error e => (m', c, x, .error e)
        | .ok err =>
          match c.call true ⟨err, x.sugg, opt.crit.remaining (B.time d), x.errHist,
              x.stepHist⟩ with
          | (c', .error e) => (m', c', x, .error (.controller e))
          | (c', .ok st) =>
            if st.acc then
              (m', c', ⟨B.set x.disc d, st.sugg, (x.sugg, x.stepHist.1), (err, x.errHist.1)⟩,
                .ok ())
            else iterateM B S opt f m' c' { x with sugg := st.sugg }
      else
        (m', c, { x with disc := B.set x.disc d, stepHist := (x.sugg, x.stepHist.2) }, .ok ())

/-- `_run_step`, runge_kutta_integrator.py L534-552. -/
noncomputable def runStepM (B : Backend D I O) (S : Mem D M) (opt : Options) (it : ℕ) (m : M)
    (c : Ctrl) (x : IState D) : M × Res D :=
  let pre := callbacks (fun j => .before .compute j it x) opt.computeCallbacks
  match iterateM B S opt opt.recursionLimit m c x with
  | (m', c', x', .error e) => (m', ⟨c', x', pre, .error e⟩)
  | (m', c', x', .ok ()) =>
    (m', ⟨c', x', pre ++ callbacks (fun j => .after .compute j it x') opt.computeCallbacks, .ok ()⟩)

/-- The loop of `AllCheckpointer.iterate_forward`, all_checkpointer.py L67-75. -/
noncomputable def allForwardM (B : Backend D I O) (S : Mem D M) (opt : Options) :
    ℕ → ℕ → List (IState D) → M → Ctrl → IState D → M × List (IState D) × Res D
  | 0, _, stor, m, c, x => (m, stor, ⟨c, x, [], .error .fuel⟩)
  | f + 1, it, stor, m, c, x =>
    if opt.crit.finished it (B.time x.disc) then (m, stor, ⟨c, x, [], .ok ()⟩)
    else
      match runStepM B S opt (it + 1) m c x with
      | (m', ⟨c', x', log, .error e⟩) => (m', stor, ⟨c', x', log, .error e⟩)
      | (m', ⟨c', x', log, .ok ()⟩) =>
        let r := allForwardM B S opt f (it + 1) (stor ++ [x']) m' c' x'
        (r.1, r.2.1, { r.2.2 with log := log ++ r.2.2.log })

/-- The loop of `NoCheckpointer.iterate_forward`, no_checkpointer.py L62-69. -/
noncomputable def noForwardM (B : Backend D I O) (S : Mem D M) (opt : Options) :
    ℕ → ℕ → M → Ctrl → IState D → M × Res D
  | 0, _, m, c, x => (m, ⟨c, x, [], .error .fuel⟩)
  | f + 1, it, m, c, x =>
    if opt.crit.finished it (B.time x.disc) then (m, ⟨c, x, [], .ok ()⟩)
    else
      match runStepM B S opt (it + 1) m c x with
      | (m', ⟨c', x', log, .error e⟩) => (m', ⟨c', x', log, .error e⟩)
      | (m', ⟨c', x', log, .ok ()⟩) =>
        let r := noForwardM B S opt f (it + 1) m' c' x'
        (r.1, { r.2 with log := log ++ r.2.log })

/-- `_run_step_jacvec_rev`, runge_kutta_integrator.py L847-875. -/
def runStepRevM (S : Mem D M) (opt : Options) (it : ℕ) (m : M) (x : IState D) (p : D) :
    M × D × List (Ev D) :=
  let r := S.adj m x.disc p x.stepHist.1
  (r.1, r.2, callbacks (fun j => .before .rev j it x) opt.revCallbacks
    ++ callbacks (fun j => .after .rev j it x) opt.revCallbacks)

/-- The loop of `AllCheckpointer.iterate_reverse`, all_checkpointer.py L96-104. -/
def allReverseM (S : Mem D M) (opt : Options) :
    List (IState D) → M → D → M × D × List (Ev D)
  | [], m, p => (m, p, [])
  | x :: rest, m, p =>
    let r := runStepRevM S opt (rest.length + 1) m x p
    let q := allReverseM S opt rest r.1 r.2.1
    (q.1, q.2.1, r.2.2 ++ q.2.2)

/-- `CheckpointInterface`, checkpoint_interface.py L12-106, see `Checkpointer`. -/
structure MCheckpointer (D σ M : Type) where
  create : σ → σ
  forward : ℕ → σ → M → Ctrl → IState D → M × σ × Res D
  reverse : σ → M → Ctrl → IState D → D → M × σ × Res D × D

/-- `NoCheckpointer`, no_checkpointer.py L12-89. -/
noncomputable def noCkM (B : Backend D I O) (S : Mem D M) (opt : Options) :
    MCheckpointer D Unit M where
  create := id
  forward := fun fuel _ m c x =>
    let r := noForwardM B S opt fuel 0 m c x
    (r.1, (), r.2)
  reverse := fun _ m c x p => (m, (), ⟨c, x, [], .error .notImplemented⟩, p)

/-- `AllCheckpointer`, all_checkpointer.py L11-104. -/
noncomputable def allCkM (B : Backend D I O) (S : Mem D M) (opt : Options) :
    MCheckpointer D (List (IState D)) M where
  create := fun _ => []
  forward := fun fuel stor m c x => allForwardM B S opt fuel 0 stor m c x
  reverse := fun stor m c x p =>
    let r := allReverseM S opt stor.reverse m p
    (r.1, [], ⟨c, x, r.2.2, .ok ()⟩, r.2.1)

/-- A component and the memory of its stage problem. -/
structure MWorld (D σ M : Type) where
  comp : World D σ
  mem : M

/-- `compute`, runge_kutta_integrator.py L438-451 with `_compute_preparation_phase` L455-468. -/
noncomputable def computeM (B : Backend D I O) (opt : Options) (ck : MCheckpointer D σ M) (fuel : ℕ)
    (w : MWorld D σ M) (i : I) : MWorld D σ M × Except Err O :=
  let d := B.load w.comp.tis.disc i
  let x := resetErrorControl opt w.comp.ctrl { w.comp.tis with disc := d }
  let x := { x with disc := B.clearLin x.disc }
  let r := ck.forward fuel (ck.create w.comp.ck) w.mem w.comp.ctrl x
  let w' : MWorld D σ M :=
    ⟨{ w.comp with tis := r.2.2.st, ctrl := r.2.2.ctrl, cached := some d, ck := r.2.1,
                   log := w.comp.log ++ r.2.2.log }, r.1⟩
  match r.2.2.out with
  | .error e => (w', .error e)
  | .ok () => (w', .ok (B.read r.2.2.st.disc))

/-- `_run_step_jacvec_fwd`, runge_kutta_integrator.py L733-762. -/
noncomputable def runStepFwdM (B : Backend D I O) (S : Mem D M) (opt : Options) (it : ℕ) (m : M)
    (c : Ctrl) (x : IState D) (p : D) : M × Res D × D :=
  let pre := callbacks (fun j => .before .fwd j it x) opt.fwdCallbacks
  match iterateM B S opt opt.recursionLimit m c x with
  | (m', c', x', .error e) => (m', ⟨c', x', pre, .error e⟩, p)
  | (m', c', x', .ok ()) =>
    let q := S.deriv m' x'.disc p x'.stepHist.1
    (q.1, ⟨c', x', pre ++ callbacks (fun j => .after .fwd j it x') opt.fwdCallbacks, .ok ()⟩, q.2)

/-- `_compute_jacvec_fwd_run_steps`, runge_kutta_integrator.py L714-731. -/
noncomputable def fwdLoopM (B : Backend D I O) (S : Mem D M) (opt : Options) :
    ℕ → ℕ → M → Ctrl → IState D → D → M × Res D × D
  | 0, _, m, c, x, p => (m, ⟨c, x, [], .error .fuel⟩, p)
  | f + 1, it, m, c, x, p =>
    if opt.crit.finished it (B.time x.disc) then (m, ⟨c, x, [], .ok ()⟩, p)
    else
      match runStepFwdM B S opt (it + 1) m c x p with
      | (m', ⟨c', x', log, .error e⟩, p') => (m', ⟨c', x', log, .error e⟩, p')
      | (m', ⟨c', x', log, .ok ()⟩, p') =>
        let r := fwdLoopM B S opt f (it + 1) m' c' x' p'
        (r.1, { r.2.1 with log := log ++ r.2.1.log }, r.2.2)

/-- `compute_jacvec_product` in mode "fwd", runge_kutta_integrator.py L658-682 and L688-712. -/
noncomputable def fwdM (B : Backend D I O) (S : Mem D M) (opt : Options) (fuel : ℕ)
    (w : MWorld D σ M) (i di : I) (dO : O) : MWorld D σ M × Except Err O :=
  let x := resetErrorControl opt w.comp.ctrl
    { w.comp.tis with disc := B.load w.comp.tis.disc i }
  let p := B.load w.comp.pert di
  let r := fwdLoopM B S opt fuel 0 w.mem w.comp.ctrl x p
  let w' : MWorld D σ M :=
    ⟨{ w.comp with tis := r.2.1.st, ctrl := r.2.1.ctrl, pert := r.2.2,
                   log := w.comp.log ++ r.2.1.log }, r.1⟩
  match r.2.1.out with
  | .error e => (w', .error e)
  | .ok () => (w', .ok (B.writeOut r.2.2 dO))

/-- `compute_jacvec_product` in mode "rev", runge_kutta_integrator.py L764-845. -/
noncomputable def revM (B : Backend D I O) (opt : Options) (ck : MCheckpointer D σ M) (fuel : ℕ)
    (w : MWorld D σ M) (i : I) (dO : O) (dI : I) : MWorld D σ M × Except Err I :=
  let prep : MWorld D σ M × Except Err Unit :=
    if cacheOk B w.comp i then (w, .ok ())
    else match computeM B opt ck fuel w i with
      | (w', .error e) => (w', .error e)
      | (w', .ok _) => (w', .ok ())
  match prep with
  | (w1, .error e) => (w1, .error e)
  | (w1, .ok ()) =>
    let r := ck.reverse w1.comp.ck w1.mem w1.comp.ctrl w1.comp.tis (B.seed w1.comp.pert dO)
    let w2 : World D σ :=
      { w1.comp with tis := r.2.2.1.st, ctrl := r.2.2.1.ctrl, pert := r.2.2.2, ck := r.2.1,
                     log := w1.comp.log ++ r.2.2.1.log }
    match r.2.2.1.out with
    | .error e => (⟨w2, r.1⟩, .error e)
    | .ok () => (⟨{ w2 with cached := none }, r.1⟩, .ok (B.writeIn r.2.2.2 dI))

/-- What happens to the component and its stage problem: operations of the component, and the user
changing the stage problem in between. -/
inductive MOp (I O M : Type) where
  | op (o : Op I O)
  | change (f : M → M)

/-- The component after an operation of the component, whether it failed or not. -/
noncomputable def doOpM (B : Backend D I O) (S : Mem D M) (opt : Options) (ck : MCheckpointer D σ M)
    (fuel : ℕ) (w : MWorld D σ M) : Op I O → MWorld D σ M
  | .compute i => (computeM B opt ck fuel w i).1
  | .fwd i di dO => (fwdM B S opt fuel w i di dO).1
  | .rev i dO dI => (revM B opt ck fuel w i dO dI).1

/-- The component after a sequence of events. -/
noncomputable def doOpsM (B : Backend D I O) (S : Mem D M) (opt : Options) (ck : MCheckpointer D σ M)
    (fuel : ℕ) (w : MWorld D σ M) (ops : List (MOp I O M)) : MWorld D σ M :=
  ops.foldl (fun w q => match q with
    | .op o => doOpM B S opt ck fuel w o
    | .change f => { w with mem := f w.mem }) w

/-! ### The calls of `B` that would reach a stage problem are not used -/

section rest
variable (B : Backend D I O) (S : Mem D M) (opt : Options) (a : D → XReal → Except Err D)
  (b c : D → D → XReal → D)

theorem iterateM_rest (f : ℕ) (m : M) (k : Ctrl) (x : IState D) :
    iterateM { B with step := a, deriv := b, adj := c } S opt f m k x = iterateM B S opt f m k x := by
  induction f generalizing m k x with
  | zero => rfl
  | succ f ih => simp only [iterateM, ih]

theorem allForwardM_rest (fuel it : ℕ) (stor : List (IState D)) (m : M) (k : Ctrl) (x : IState D) :
    allForwardM { B with step := a, deriv := b, adj := c } S opt fuel it stor m k x
      = allForwardM B S opt fuel it stor m k x := by
  induction fuel generalizing it stor m k x with
  | zero => rfl
  | succ f ih => simp only [allForwardM, runStepM, iterateM_rest, ih]

theorem computeM_rest (fuel : ℕ) (w : MWorld D _ M) (i : I) :
    computeM { B with step := a, deriv := b, adj := c } opt
        (allCkM { B with step := a, deriv := b, adj := c } S opt) fuel w i
      = computeM B opt (allCkM B S opt) fuel w i := by
  simp only [computeM, allCkM, allForwardM_rest]

end rest

/-! ### When the memory does not matter -/

/-- As long as the memory satisfies `Inv`, the stage problem behaves as described by `B`, and `Inv`
stays true; derivatives only at states `Good`, which those after steps are. Only step sizes `Ok` are
considered. -/
structure Sim (B : Backend D I O) (S : Mem D M) (Inv : M → Prop) (Good : D → Prop)
    (Ok : XReal → Prop) : Prop where
  step : ∀ m d h, Ok h → Inv m → (S.step m d h).2 = B.step d h
  step_inv : ∀ m d h, Ok h → Inv m → Inv (S.step m d h).1
  good : ∀ d h d', Ok h → B.step d h = .ok d' → Good (B.set d d')
  deriv : ∀ m d p h, Ok h → Inv m → Good d → (S.deriv m d p h).2 = B.deriv d p h
  deriv_inv : ∀ m d p h, Ok h → Inv m → Good d → Inv (S.deriv m d p h).1
  adj : ∀ m d p h, Ok h → Inv m → Good d → (S.adj m d p h).2 = B.adj d p h
  adj_inv : ∀ m d p h, Ok h → Inv m → Good d → Inv (S.adj m d p h).1

/-- The step sizes that may occur: all of them with adaptive stepping, otherwise the initial one. -/
def Sizes (opt : Options) (Ok : XReal → Prop) : Prop :=
  Ok opt.initialStep ∧ (opt.adaptive = true → ∀ h, Ok h)

variable {B : Backend D I O} {S : Mem D M} {opt : Options} {Inv : M → Prop} {Good : D → Prop}
  {Ok : XReal → Prop}

theorem iterateM_sim (hS : Sim B S Inv Good Ok) (hO : Sizes opt Ok) (f : ℕ) {m : M} (hm : Inv m)
    (c : Ctrl) (x : IState D) (hx : Ok x.sugg) :
    (iterateM B S opt f m c x).2 = iterateOnStep B opt f c x ∧ Inv (iterateM B S opt f m c x).1 ∧
    ((iterateOnStep B opt f c x).2.2 = .ok () → Good (iterateOnStep B opt f c x).2.1.disc ∧
      Ok (iterateOnStep B opt f c x).2.1.stepHist.1 ∧
      Ok (iterateOnStep B opt f c x).2.1.sugg) := by
  induction f generalizing m c x with
  | zero => exact ⟨rfl, hm, fun h => by simp [iterateOnStep] at h⟩
  | succ f ih =>
    have h1 := hS.step m x.disc x.sugg hx hm
    have h2 := hS.step_inv m x.disc x.sugg hx hm
    have h3 := fun d' => hS.good x.disc x.sugg d' hx
    simp only [iterateM, iterateOnStep]
    rcases hs : S.step m x.disc x.sugg with ⟨m', e | d⟩
    · rw [hs] at h1 h2
      rw [← h1]
      exact ⟨rfl, h2, fun h => by simp at h⟩
    · rw [hs] at h1 h2
      rw [← h1] at h3 ⊢
      dsimp only
      by_cases ha : opt.adaptive = true
      · simp only [if_pos ha]
        rcases B.measure d with e | err
        · exact ⟨rfl, h2, fun h => by simp at h⟩
        · dsimp only
          rcases c.call true ⟨err, x.sugg, opt.crit.remaining (B.time d), x.errHist, x.stepHist⟩
            with ⟨c', e | st⟩
          · exact ⟨rfl, h2, fun h => by simp at h⟩
          · dsimp only
            by_cases hacc : st.acc = true
            · simp only [if_pos hacc]
              exact ⟨trivial, h2, fun _ => ⟨h3 d rfl, hx, hO.2 ha _⟩⟩
            · simp only [if_neg hacc]
              exact ih h2 c' _ (hO.2 ha _)
      · simp only [if_neg ha]
        exact ⟨trivial, h2, fun _ => ⟨h3 d rfl, hx, hx⟩⟩

theorem runStepM_sim (hS : Sim B S Inv Good Ok) (hO : Sizes opt Ok) (it : ℕ) {m : M} (hm : Inv m)
    (c : Ctrl) (x : IState D) (hx : Ok x.sugg) :
    (runStepM B S opt it m c x).2 = runStep B opt it c x ∧ Inv (runStepM B S opt it m c x).1 ∧
    ((runStep B opt it c x).out = .ok () → Good (runStep B opt it c x).st.disc ∧
      Ok (runStep B opt it c x).st.stepHist.1 ∧ Ok (runStep B opt it c x).st.sugg) := by
  obtain ⟨h1, h2, h3⟩ := iterateM_sim hS hO opt.recursionLimit hm c x hx
  simp only [runStepM, runStep]
  rcases hi : iterateM B S opt opt.recursionLimit m c x with ⟨m', c', x', e | u⟩
  · rw [hi] at h1 h2
    rw [← h1]
    exact ⟨rfl, h2, fun h => by simp at h⟩
  · rw [hi] at h1 h2
    rw [← h1] at h3 ⊢
    exact ⟨rfl, h2, fun _ => h3 rfl⟩

/-- A state at which derivatives may be asked for, and from which steps may be done. -/
def Stored (Good : D → Prop) (Ok : XReal → Prop) (x : IState D) : Prop :=
  Good x.disc ∧ Ok x.stepHist.1 ∧ Ok x.sugg

theorem noForwardM_sim (hS : Sim B S Inv Good Ok) (hO : Sizes opt Ok) (fuel it : ℕ) {m : M}
    (hm : Inv m) (c : Ctrl) (x : IState D) (hx : Ok x.sugg) :
    (noForwardM B S opt fuel it m c x).2 = noForward B opt fuel it c x ∧
    Inv (noForwardM B S opt fuel it m c x).1 := by
  induction fuel generalizing it m c x with
  | zero => exact ⟨rfl, hm⟩
  | succ fuel ih =>
    simp only [noForwardM, noForward]
    by_cases hf : opt.crit.finished it (B.time x.disc)
    · simp only [if_pos hf]
      exact ⟨trivial, hm⟩
    · simp only [if_neg hf]
      obtain ⟨h1, h2, h3⟩ := runStepM_sim hS hO (it + 1) hm c x hx
      rcases hr : runStepM B S opt (it + 1) m c x with ⟨m', c', x', log, e | u⟩
      · rw [hr] at h1 h2
        rw [← h1]
        exact ⟨rfl, h2⟩
      · rw [hr] at h1 h2
        rw [← h1] at h3 ⊢
        dsimp only
        obtain ⟨g1, g2⟩ := ih (it + 1) h2 c' x' (h3 rfl).2.2
        refine ⟨?_, g2⟩
        rw [← g1]

theorem allForwardM_sim (hS : Sim B S Inv Good Ok) (hO : Sizes opt Ok) (fuel it : ℕ)
    {stor : List (IState D)} (hst : ∀ x ∈ stor, Stored Good Ok x) {m : M} (hm : Inv m) (c : Ctrl)
    (x : IState D) (hx : Ok x.sugg) :
    (allForwardM B S opt fuel it stor m c x).2 = allForward B opt fuel it stor c x ∧
    Inv (allForwardM B S opt fuel it stor m c x).1 ∧
    ∀ y ∈ (allForward B opt fuel it stor c x).1, Stored Good Ok y := by
  induction fuel generalizing it stor m c x with
  | zero => exact ⟨rfl, hm, hst⟩
  | succ fuel ih =>
    simp only [allForwardM, allForward]
    by_cases hf : opt.crit.finished it (B.time x.disc)
    · simp only [if_pos hf]
      exact ⟨trivial, hm, hst⟩
    · simp only [if_neg hf]
      obtain ⟨h1, h2, h3⟩ := runStepM_sim hS hO (it + 1) hm c x hx
      rcases hr : runStepM B S opt (it + 1) m c x with ⟨m', c', x', log, e | u⟩
      · rw [hr] at h1 h2
        rw [← h1]
        exact ⟨rfl, h2, hst⟩
      · rw [hr] at h1 h2
        rw [← h1] at h3 ⊢
        have k := h3 rfl
        dsimp only
        obtain ⟨g1, g2, g3⟩ := ih (it + 1) (stor := stor ++ [x']) (by
          intro y hy
          rcases List.mem_append.mp hy with hy | hy
          · exact hst y hy
          · rw [List.mem_singleton.mp hy]; exact k) h2 c' x' k.2.2
        refine ⟨?_, g2, g3⟩
        rw [← g1]

theorem runStepRevM_sim (hS : Sim B S Inv Good Ok) (it : ℕ) {m : M} (hm : Inv m) {x : IState D}
    (hx : Stored Good Ok x) (p : D) :
    (runStepRevM S opt it m x p).2 = runStepRev B opt it x p ∧ Inv (runStepRevM S opt it m x p).1 := by
  simp only [runStepRevM, runStepRev]
  rw [hS.adj m x.disc p x.stepHist.1 hx.2.1 hm hx.1]
  exact ⟨rfl, hS.adj_inv m x.disc p x.stepHist.1 hx.2.1 hm hx.1⟩

theorem allReverseM_sim (hS : Sim B S Inv Good Ok) (xs : List (IState D))
    (hx : ∀ x ∈ xs, Stored Good Ok x) {m : M} (hm : Inv m) (p : D) :
    (allReverseM S opt xs m p).2 = allReverse B opt xs p ∧ Inv (allReverseM S opt xs m p).1 := by
  induction xs generalizing m p with
  | nil => exact ⟨rfl, hm⟩
  | cons x xs ih =>
    obtain ⟨g1, g2⟩ := runStepRevM_sim (opt := opt) hS (xs.length + 1) hm (hx x (by simp)) p
    obtain ⟨h1, h2⟩ := ih (fun y hy => hx y (by simp [hy])) g2 (runStepRevM S opt (xs.length + 1) m x p).2.1
    simp only [allReverseM, allReverse]
    rw [g1] at h1 h2 ⊢
    refine ⟨?_, h2⟩
    rw [← h1]

/-- The checkpointer with memory behaves as the one without. `Use` says that the data of the
checkpointer and the live state can be used for a reverse sweep. This is so after successful runs;
`Total` says that it also is so after operations that failed and for all live states. -/
structure CkSim (ck : Checkpointer D σ) (ckM : MCheckpointer D σ M) (Inv : M → Prop)
    (Good : D → Prop) (Ok : XReal → Prop) (Use : σ → IState D → Prop) (Total : Prop) : Prop where
  create : ∀ s, ckM.create s = ck.create s
  forward : ∀ fuel s m c x, Inv m → Ok x.sugg →
    (ckM.forward fuel (ck.create s) m c x).2 = ck.forward fuel (ck.create s) c x ∧
    Inv (ckM.forward fuel (ck.create s) m c x).1
  forward_use : ∀ fuel s c x, Ok x.sugg →
    Total ∨ (ck.forward fuel (ck.create s) c x).2.out = .ok () →
    Use (ck.forward fuel (ck.create s) c x).1 (ck.forward fuel (ck.create s) c x).2.st
  live : ∀ s x x', Use s x → Total ∨ Stored Good Ok x' → Use s x'
  reverse : ∀ s m c x p, Inv m → Use s x → (ckM.reverse s m c x p).2 = ck.reverse s c x p ∧
    Inv (ckM.reverse s m c x p).1
  reverse_use : ∀ s c x p, Use s x → Total →
    Use (ck.reverse s c x p).1 (ck.reverse s c x p).2.1.st

variable {ck : Checkpointer D σ} {ckM : MCheckpointer D σ M} {Use : σ → IState D → Prop}
  {Total : Prop}

theorem computeM_sim (hK : CkSim ck ckM Inv Good Ok Use Total) (hO : Sizes opt Ok) (fuel : ℕ)
    {w : MWorld D σ M} (hm : Inv w.mem) (i : I) :
    (computeM B opt ckM fuel w i).1.comp = (compute B opt ck fuel w.comp i).1 ∧
    (computeM B opt ckM fuel w i).2 = (compute B opt ck fuel w.comp i).2 ∧
    Inv (computeM B opt ckM fuel w i).1.mem ∧
    (Total ∨ (∃ v, (compute B opt ck fuel w.comp i).2 = .ok v) →
      Use (compute B opt ck fuel w.comp i).1.ck (compute B opt ck fuel w.comp i).1.tis) := by
  obtain ⟨h1, h2⟩ := hK.forward fuel w.comp.ck w.mem
    w.comp.ctrl
    ({ resetErrorControl opt w.comp.ctrl { w.comp.tis with disc := B.load w.comp.tis.disc i } with
        disc := B.clearLin (B.load w.comp.tis.disc i) }) hm hO.1
  have h3 := hK.forward_use fuel w.comp.ck
    w.comp.ctrl
    ({ resetErrorControl opt w.comp.ctrl { w.comp.tis with disc := B.load w.comp.tis.disc i } with
        disc := B.clearLin (B.load w.comp.tis.disc i) }) hO.1
  simp only [computeM, compute, hK.create]
  simp only [resetErrorControl] at h1 h2 h3 ⊢
  rw [h1]
  generalize ck.forward fuel (ck.create w.comp.ck) w.comp.ctrl _ = r at h3 ⊢
  rcases r with ⟨stor, c, x, log, e | u⟩
  · exact ⟨rfl, rfl, h2, fun h => h3 (h.imp id fun ⟨v, hv⟩ => by cases hv)⟩
  · exact ⟨rfl, rfl, h2, fun _ => h3 (.inr rfl)⟩

theorem runStepFwdM_sim (hS : Sim B S Inv Good Ok) (hO : Sizes opt Ok) (it : ℕ) {m : M}
    (hm : Inv m) (c : Ctrl) (x : IState D) (hx : Ok x.sugg) (p : D) :
    (runStepFwdM B S opt it m c x p).2 = runStepFwd B opt it c x p ∧
    Inv (runStepFwdM B S opt it m c x p).1 ∧
    ((runStepFwd B opt it c x p).1.out = .ok () →
      Stored Good Ok (runStepFwd B opt it c x p).1.st) := by
  obtain ⟨h1, h2, h3⟩ := iterateM_sim hS hO opt.recursionLimit hm c x hx
  simp only [runStepFwdM, runStepFwd]
  rcases hi : iterateM B S opt opt.recursionLimit m c x with ⟨m', c', x', e | u⟩
  · rw [hi] at h1 h2
    rw [← h1]
    exact ⟨rfl, h2, fun h => by simp at h⟩
  · rw [hi] at h1 h2
    rw [← h1] at h3 ⊢
    dsimp only at h3 ⊢
    obtain ⟨k1, k2, k3⟩ := h3 rfl
    rw [hS.deriv _ _ _ _ k2 h2 k1]
    exact ⟨rfl, hS.deriv_inv _ _ _ _ k2 h2 k1, fun _ => ⟨k1, k2, k3⟩⟩

theorem fwdLoopM_sim (hS : Sim B S Inv Good Ok) (hO : Sizes opt Ok) (fuel it : ℕ) {m : M}
    (hm : Inv m) (c : Ctrl) (x : IState D) (hx : Ok x.sugg) (p : D) :
    (fwdLoopM B S opt fuel it m c x p).2 = fwdLoop B opt fuel it c x p ∧
    Inv (fwdLoopM B S opt fuel it m c x p).1 ∧
    ((fwdLoop B opt fuel it c x p).1.out = .ok () →
      ¬ opt.crit.finished it (B.time x.disc) ∨ Stored Good Ok x →
      Stored Good Ok (fwdLoop B opt fuel it c x p).1.st) := by
  induction fuel generalizing it m c x p with
  | zero => exact ⟨rfl, hm, fun h => by cases h⟩
  | succ fuel ih =>
    simp only [fwdLoopM, fwdLoop]
    by_cases hf : opt.crit.finished it (B.time x.disc)
    · simp only [if_pos hf]
      exact ⟨trivial, hm, fun _ h => h.elim (absurd hf) id⟩
    · simp only [if_neg hf]
      obtain ⟨h1, h2, h3⟩ := runStepFwdM_sim hS hO (it + 1) hm c x hx p
      rcases hr : runStepFwdM B S opt (it + 1) m c x p with ⟨m', ⟨c', x', log, e | u⟩, p'⟩
      · rw [hr] at h1 h2
        rw [← h1]
        exact ⟨rfl, h2, fun h => by cases h⟩
      · rw [hr] at h1 h2
        rw [← h1] at h3 ⊢
        dsimp only
        have k := h3 rfl
        obtain ⟨g1, g2, g3⟩ := ih (it + 1) h2 c' x' k.2.2 p'
        refine ⟨?_, g2, fun h _ => g3 h (.inr k)⟩
        rw [← g1]

theorem fwdM_sim (hS : Sim B S Inv Good Ok) (hO : Sizes opt Ok) (fuel : ℕ) {w : MWorld D σ M}
    (hm : Inv w.mem) (i di : I) (dO : O) :
    (fwdM B S opt fuel w i di dO).1.comp = (fwd B opt fuel w.comp i di dO).1 ∧
    (fwdM B S opt fuel w i di dO).2 = (fwd B opt fuel w.comp i di dO).2 ∧
    Inv (fwdM B S opt fuel w i di dO).1.mem := by
  obtain ⟨h1, h2, -⟩ := fwdLoopM_sim hS hO fuel 0 hm w.comp.ctrl
    (resetErrorControl opt w.comp.ctrl { w.comp.tis with disc := B.load w.comp.tis.disc i })
    hO.1 (B.load w.comp.pert di)
  simp only [fwdM, fwd]
  rw [h1]
  generalize fwdLoop B opt fuel 0 w.comp.ctrl _ _ = r
  rcases r with ⟨⟨c, x, log, e | u⟩, p⟩ <;> exact ⟨rfl, rfl, h2⟩

/-- After a successful forward product with steps the live state is that after a step. -/
theorem fwd_stored (hS : Sim B S Inv Good Ok) (hO : Sizes opt Ok) (hc : ∀ t, ¬ opt.crit.finished 0 t)
    {m : M} (hm : Inv m) {fuel : ℕ} {w : World D σ} {i di : I} {dO v : O}
    (h : (fwd B opt fuel w i di dO).2 = .ok v) : Stored Good Ok (fwd B opt fuel w i di dO).1.tis := by
  obtain ⟨-, -, h3⟩ := fwdLoopM_sim hS hO fuel 0 hm w.ctrl
    (resetErrorControl opt w.ctrl { w.tis with disc := B.load w.tis.disc i })
    hO.1 (B.load w.pert di)
  simp only [fwd] at h ⊢
  rcases hr : fwdLoop B opt fuel 0 w.ctrl (resetErrorControl opt w.ctrl
    { w.tis with disc := B.load w.tis.disc i }) (B.load w.pert di) with ⟨⟨c', x', log, e | u⟩, p'⟩
  · rw [hr] at h
    cases h
  · rw [hr] at h3
    exact h3 rfl (.inl (hc _))

theorem revM_sim (hK : CkSim ck ckM Inv Good Ok Use Total) (hO : Sizes opt Ok) (fuel : ℕ)
    {w : MWorld D σ M} (hm : Inv w.mem) (hu : w.comp.cached ≠ none → Use w.comp.ck w.comp.tis)
    (i : I) (dO : O) (dI : I) :
    (revM B opt ckM fuel w i dO dI).1.comp = (rev B opt ck fuel w.comp i dO dI).1 ∧
    (revM B opt ckM fuel w i dO dI).2 = (rev B opt ck fuel w.comp i dO dI).2 ∧
    Inv (revM B opt ckM fuel w i dO dI).1.mem ∧
    (Total ∨ (∃ v, (rev B opt ck fuel w.comp i dO dI).2 = .ok v) →
      (rev B opt ck fuel w.comp i dO dI).1.cached ≠ none →
      Use (rev B opt ck fuel w.comp i dO dI).1.ck (rev B opt ck fuel w.comp i dO dI).1.tis) := by
  by_cases hc : cacheOk B w.comp i = true
  · have hn : w.comp.cached ≠ none := by
      intro h0
      simp only [cacheOk, h0] at hc
      cases hc
    obtain ⟨h1, h2⟩ := hK.reverse w.comp.ck w.mem w.comp.ctrl w.comp.tis (B.seed w.comp.pert dO) hm
      (hu hn)
    have h3 := hK.reverse_use w.comp.ck w.comp.ctrl w.comp.tis (B.seed w.comp.pert dO) (hu hn)
    simp only [revM, rev, revPrep, if_pos hc]
    rw [h1]
    rcases hr : ck.reverse w.comp.ck w.comp.ctrl w.comp.tis (B.seed w.comp.pert dO)
      with ⟨s', ⟨c', x', log, e | u⟩, p'⟩
    · rw [hr] at h3
      refine ⟨rfl, rfl, h2, fun h _ => ?_⟩
      rcases h with h | ⟨v, hv⟩
      · exact h3 h
      · cases hv
    · exact ⟨rfl, rfl, h2, fun _ h => absurd rfl h⟩
  · obtain ⟨g1, g2, g3, g4⟩ := computeM_sim (B := B) hK hO fuel hm i
    simp only [revM, rev, revPrep, if_neg hc]
    rcases hcm : computeM B opt ckM fuel w i with ⟨w1, e | v⟩
    · rw [hcm] at g1 g2 g3
      rcases hcp : compute B opt ck fuel w.comp i with ⟨w1', e' | v'⟩
      · rw [hcp] at g1 g2 g4
        dsimp only at g1 g2 g3 g4 ⊢
        refine ⟨g1, by simpa using g2, g3, fun h _ => g4 (h.imp id fun ⟨v, hv⟩ => by cases hv)⟩
      · rw [hcp] at g2
        simp at g2
    · rw [hcm] at g1 g2 g3
      rcases hcp : compute B opt ck fuel w.comp i with ⟨w1', e' | v'⟩
      · rw [hcp] at g2
        simp at g2
      · rw [hcp] at g1 g2 g4
        dsimp only at g1 g2 g3 g4 ⊢
        have hu' := g4 (.inr ⟨v', rfl⟩)
        subst g1
        obtain ⟨h1, h2⟩ := hK.reverse w1.comp.ck w1.mem w1.comp.ctrl w1.comp.tis
          (B.seed w1.comp.pert dO) g3 hu'
        have h3 := hK.reverse_use w1.comp.ck w1.comp.ctrl w1.comp.tis (B.seed w1.comp.pert dO) hu'
        rw [h1]
        rcases hr : ck.reverse w1.comp.ck w1.comp.ctrl w1.comp.tis (B.seed w1.comp.pert dO)
          with ⟨s', ⟨c', x', log, e | u⟩, p'⟩
        · rw [hr] at h3
          refine ⟨rfl, rfl, h2, fun h _ => ?_⟩
          rcases h with h | ⟨v, hv⟩
          · exact h3 h
          · cases hv
        · exact ⟨rfl, rfl, h2, fun _ h => absurd rfl h⟩

/-- The operation does not fail. -/
def Succeeds (B : Backend D I O) (opt : Options) (ck : Checkpointer D σ) (fuel : ℕ) (w : World D σ) :
    Op I O → Prop
  | .compute i => ∃ v, (compute B opt ck fuel w i).2 = .ok v
  | .fwd i di dO => ∃ v, (fwd B opt fuel w i di dO).2 = .ok v
  | .rev i dO dI => ∃ v, (rev B opt ck fuel w i dO dI).2 = .ok v

/-- None of the operations fails. -/
def AllSucceed (B : Backend D I O) (opt : Options) (ck : Checkpointer D σ) (fuel : ℕ) :
    World D σ → List (Op I O) → Prop
  | _, [] => True
  | w, q :: ops => Succeeds B opt ck fuel w q ∧ AllSucceed B opt ck fuel (doOp B opt ck fuel w q) ops

/-- No reverse product before the first run. -/
def RunFirst : List (Op I O) → Prop
  | [] => True
  | .compute _ :: _ => True
  | .fwd .. :: ops => RunFirst ops
  | .rev .. :: _ => False

theorem doOpM_sim (hS : Sim B S Inv Good Ok) (hK : CkSim ck ckM Inv Good Ok Use Total)
    (hO : Sizes opt Ok) (fuel : ℕ) (q : Op I O) {w : MWorld D σ M} (hm : Inv w.mem)
    (ht : Total ∨ ((∀ t, ¬ opt.crit.finished 0 t) ∧ Succeeds B opt ck fuel w.comp q))
    (hu : w.comp.cached ≠ none → Use w.comp.ck w.comp.tis) :
    (doOpM B S opt ckM fuel w q).comp = doOp B opt ck fuel w.comp q ∧
    Inv (doOpM B S opt ckM fuel w q).mem ∧
    ((doOp B opt ck fuel w.comp q).cached ≠ none →
      Use (doOp B opt ck fuel w.comp q).ck (doOp B opt ck fuel w.comp q).tis) := by
  cases q with
  | compute i =>
    obtain ⟨h1, -, h3, h4⟩ := computeM_sim (B := B) hK hO fuel hm i
    exact ⟨h1, h3, fun _ => h4 (ht.imp id fun h => h.2)⟩
  | fwd i di dO =>
    obtain ⟨h1, -, h3⟩ := fwdM_sim hS hO fuel hm i di dO
    refine ⟨h1, h3, ?_⟩
    have e1 : (fwd B opt fuel w.comp i di dO).1.ck = w.comp.ck := by
      simp only [fwd]
      split <;> rfl
    have e2 : (fwd B opt fuel w.comp i di dO).1.cached = w.comp.cached := by
      simp only [fwd]
      split <;> rfl
    simp only [doOp]
    rw [e1, e2]
    exact fun h => hK.live _ _ _ (hu h) (ht.imp id fun ⟨hc, v, hv⟩ =>
      fwd_stored hS hO hc hm hv)
  | rev i dO dI =>
    obtain ⟨h1, -, h3, h4⟩ := revM_sim (B := B) hK hO fuel hm hu i dO dI
    exact ⟨h1, h3, h4 (ht.imp id fun h => h.2)⟩

/-- Operations of the component behave as if there was no memory. -/
theorem doOpsM_sim (hS : Sim B S Inv Good Ok) (hK : CkSim ck ckM Inv Good Ok Use Total)
    (hO : Sizes opt Ok) (fuel : ℕ) (ops : List (Op I O)) {w : MWorld D σ M} (hm : Inv w.mem)
    (ht : Total ∨ ((∀ t, ¬ opt.crit.finished 0 t) ∧ AllSucceed B opt ck fuel w.comp ops))
    (hu : w.comp.cached ≠ none → Use w.comp.ck w.comp.tis) :
    (doOpsM B S opt ckM fuel w (ops.map .op)).comp = doOps B opt ck fuel w.comp ops ∧
    Inv (doOpsM B S opt ckM fuel w (ops.map .op)).mem ∧
    ((doOps B opt ck fuel w.comp ops).cached ≠ none →
      Use (doOps B opt ck fuel w.comp ops).ck (doOps B opt ck fuel w.comp ops).tis) := by
  induction ops generalizing w with
  | nil => exact ⟨rfl, hm, hu⟩
  | cons q ops ih =>
    obtain ⟨h1, h2, h3⟩ := doOpM_sim hS hK hO fuel q hm (ht.imp id fun h => ⟨h.1, h.2.1⟩) hu
    rw [← h1] at h3
    obtain ⟨g1, g2, g3⟩ := ih (w := doOpM B S opt ckM fuel w q) h2
      (ht.imp id fun h => ⟨h.1, by rw [h1]; exact h.2.2⟩) h3
    rw [h1] at g1 g3
    exact ⟨g1, g2, g3⟩

/-- The same, whatever is stored, if no stored run is used. -/
theorem doOpsM_sim_new (hS : Sim B S Inv Good Ok) (hK : CkSim ck ckM Inv Good Ok Use Total)
    (hO : Sizes opt Ok) (fuel : ℕ) (ops : List (Op I O)) {w : MWorld D σ M} (hm : Inv w.mem)
    (ht : Total ∨ ((∀ t, ¬ opt.crit.finished 0 t) ∧ AllSucceed B opt ck fuel w.comp ops))
    (hc : w.comp.cached = none ∨ RunFirst ops) :
    (doOpsM B S opt ckM fuel w (ops.map .op)).comp = doOps B opt ck fuel w.comp ops ∧
    Inv (doOpsM B S opt ckM fuel w (ops.map .op)).mem := by
  rcases hc with hc | hc
  · obtain ⟨h1, h2, -⟩ := doOpsM_sim hS hK hO fuel ops hm ht fun h => absurd hc h
    exact ⟨h1, h2⟩
  induction ops generalizing w with
  | nil => exact ⟨rfl, hm⟩
  | cons q ops ih =>
    cases q with
    | compute i =>
      obtain ⟨h1, -, h3, h4⟩ := computeM_sim (B := B) hK hO fuel hm i
      have h5 := h4 (ht.imp id fun h => h.2.1)
      rw [← h1] at h5
      obtain ⟨g1, g2, -⟩ := doOpsM_sim hS hK hO fuel ops (w := (computeM B opt ckM fuel w i).1) h3
        (ht.imp id fun h => ⟨h.1, by rw [h1]; exact h.2.2⟩) fun _ => h5
      refine ⟨?_, g2⟩
      rw [h1] at g1
      exact g1
    | fwd i di dO =>
      obtain ⟨h1, -, h3⟩ := fwdM_sim hS hO fuel hm i di dO
      obtain ⟨g1, g2⟩ := ih (w := (fwdM B S opt fuel w i di dO).1) h3
        (ht.imp id fun h => ⟨h.1, by rw [h1]; exact h.2.2⟩) hc
      refine ⟨?_, g2⟩
      rw [h1] at g1
      exact g1
    | rev i dO dI => exact hc.elim

/-! ### The checkpointers -/

theorem noCkM_sim (hS : Sim B S Inv Good Ok) (hO : Sizes opt Ok) :
    CkSim (noCk B opt) (noCkM B S opt) Inv Good Ok (fun _ _ => True) True where
  create _ := rfl
  forward fuel s m c x hm hx := by
    obtain ⟨h1, h2⟩ := noForwardM_sim hS hO fuel 0 hm c x hx
    exact ⟨by simp only [noCkM, noCk, h1], h2⟩
  forward_use := fun _ _ _ _ _ _ => trivial
  live := fun _ _ _ _ _ => trivial
  reverse := fun _ _ _ _ _ hm _ => ⟨rfl, hm⟩
  reverse_use := fun _ _ _ _ _ _ => trivial

theorem allCkM_sim (hS : Sim B S Inv Good Ok) (hO : Sizes opt Ok) (m0 : M) (hm0 : Inv m0) :
    CkSim (allCk B opt) (allCkM B S opt) Inv Good Ok (fun s _ => ∀ x ∈ s, Stored Good Ok x) True where
  create _ := rfl
  forward fuel s m c x hm hx := by
    obtain ⟨h1, h2, -⟩ := allForwardM_sim hS hO fuel 0 (stor := []) (by simp) hm c x hx
    exact ⟨h1, h2⟩
  forward_use fuel s c x hx _ :=
    (allForwardM_sim hS hO fuel 0 (stor := []) (by simp) hm0 c x hx).2.2
  live := fun _ _ _ h _ => h
  reverse s m c x p hm hu := by
    obtain ⟨h1, h2⟩ := allReverseM_sim (opt := opt) hS s.reverse
      (fun x hx => hu x (List.mem_reverse.mp hx)) hm p
    exact ⟨by simp only [allCkM, allCk, h1], h2⟩
  reverse_use := fun _ _ _ _ _ _ x hx => by cases hx

/-- The checkpointers that store nothing or everything, see `Choice.ck`. -/
noncomputable def Choice.memCk (B : Backend D I O) (S : Mem D M) (opt : Options) :
    (ch : Choice) → MCheckpointer D (ch.Data D) M
  | .no => noCkM B S opt
  | .all => allCkM B S opt

theorem choice_sim (hS : Sim B S Inv Good Ok) (hO : Sizes opt Ok) {m0 : M} (hm0 : Inv m0)
    (ch : Choice) :
    ∃ Use, CkSim (ch.ck B opt) (ch.memCk B S opt) Inv Good Ok Use True := by
  cases ch with
  | no => exact ⟨_, noCkM_sim hS hO⟩
  | all => exact ⟨_, allCkM_sim hS hO m0 hm0⟩

/-- The outcomes of operations after other operations. -/
theorem outcomesM_sim (hS : Sim B S Inv Good Ok) (hK : CkSim ck ckM Inv Good Ok Use Total)
    (hO : Sizes opt Ok) (fuel : ℕ) (ops : List (Op I O)) {w : World D σ} {mem : M} (hm : Inv mem)
    (ht : Total ∨ ((∀ t, ¬ opt.crit.finished 0 t) ∧ AllSucceed B opt ck fuel w ops))
    (hc : w.cached = none) (i di : I) (dO : O) :
    let wM := doOpsM B S opt ckM fuel ⟨w, mem⟩ (ops.map .op)
    let wP := doOps B opt ck fuel w ops
    (computeM B opt ckM fuel wM i).2 = (compute B opt ck fuel wP i).2 ∧
    (fwdM B S opt fuel wM i di dO).2 = (fwd B opt fuel wP i di dO).2 ∧
    (revM B opt ckM fuel wM i dO di).2 = (rev B opt ck fuel wP i dO di).2 := by
  intro wM wP
  obtain ⟨h1, h2, h3⟩ := doOpsM_sim hS hK hO fuel ops (w := ⟨w, mem⟩) hm ht fun h => absurd hc h
  have e : wM.comp = wP := h1
  have h3' : wM.comp.cached ≠ none → Use wM.comp.ck wM.comp.tis := by rw [e]; exact h3
  rw [← e]
  exact ⟨(computeM_sim hK hO fuel h2 i).2.1, (fwdM_sim hS hO fuel h2 i di dO).2.1,
    (revM_sim hK hO fuel h2 h3' i dO di).2.1⟩

/-! ### A reverse product brings back the memory of its run -/

theorem allReverseM_restores (hr : ∀ m d p h, Good d → Inv (S.adj m d p h).1)
    (xs : List (IState D)) (hx : ∀ x ∈ xs, Good x.disc) (m : M) (p : D)
    (hn : xs ≠ [] ∨ Inv m) : Inv (allReverseM S opt xs m p).1 := by
  induction xs generalizing m p with
  | nil => simpa [allReverseM] using hn
  | cons x xs ih =>
    simp only [allReverseM]
    exact ih (fun y hy => hx y (by simp [hy])) _ _ (.inr (hr _ _ _ _ (hx x (by simp))))

theorem revM_restores (hr : ∀ m d p h, Good d → Inv (S.adj m d p h).1) {w : MWorld D _ M}
    (hn : w.comp.ck ≠ []) (hx : ∀ x ∈ w.comp.ck, Good x.disc) {i : I}
    (hc : cacheOk B w.comp i = true) (fuel : ℕ) (dO : O) (dI : I) :
    Inv (revM B opt (allCkM B S opt) fuel w i dO dI).1.mem := by
  simp only [revM, if_pos hc, allCkM]
  exact allReverseM_restores hr _ (fun x h => hx x (List.mem_reverse.mp h)) _ _
    (.inl (by simpa using hn))

theorem allForward_length (fuel it : ℕ) (stor : List (IState D)) (c : Ctrl) (x : IState D) :
    stor.length ≤ (allForward B opt fuel it stor c x).1.length := by
  induction fuel generalizing it stor c x with
  | zero => exact le_refl _
  | succ fuel ih =>
    simp only [allForward]
    split
    · exact le_refl _
    · rcases runStep B opt (it + 1) c x with ⟨c', x', log, e | u⟩
      · exact le_refl _
      · refine le_trans ?_ (ih (it + 1) (stor ++ [x']) c' x')
        simp

/-- A run that did not end at once stores states. -/
theorem allForward_ne_nil {fuel it : ℕ} {c : Ctrl} {x : IState D}
    (hf : ¬ opt.crit.finished it (B.time x.disc))
    (h : (allForward B opt fuel it [] c x).2.out = .ok ()) :
    (allForward B opt fuel it [] c x).1 ≠ [] := by
  cases fuel with
  | zero => simp [allForward] at h
  | succ fuel =>
    simp only [allForward, if_neg hf] at h ⊢
    rcases hr : runStep B opt (it + 1) c x with ⟨c', x', log, e | u⟩
    · rw [hr] at h; simp at h
    · have := allForward_length (B := B) (opt := opt) fuel (it + 1) ([] ++ [x']) c' x'
      intro h0
      dsimp only at h0
      rw [h0] at this
      simp at this

end Verif.Integrator
