/-
The integrator when code it calls raises in the middle of an operation: stage problems, error
measures and callbacks. Every call of such code is a point at which an operation may be interrupted;
what the component keeps is what was assigned before.

Source: /repo/src/rkopenmdao/runge_kutta_integrator.py
        /repo/src/rkopenmdao/checkpoint_interface/all_checkpointer.py

The property theorems are in `Verif.Props.Faults`.
-/
import Verif.Integrator.Pyrevolve

namespace Verif.Integrator

open Verif.Control Verif.XReal
open Classical

variable {D I O : Type}

/-- The calls of code outside of the integrator during one operation. `it` is the number of the
step. -/
inductive Pt where
  /-- `before_iteration` of callback `cb` -/
  | before (k : Kind) (cb it : ℕ)
  /-- `after_iteration` of callback `cb` -/
  | after (k : Kind) (cb it : ℕ)
  /-- the stage problems in an attempt of a step -/
  | solve (it attempt : ℕ)
  /-- the error measure in an attempt of a step -/
  | measure (it attempt : ℕ)
  /-- the linearized stage problems of a step -/
  | deriv (it : ℕ)
  /-- the adjoint stage problems of a step -/
  | adjoint (it : ℕ)

/-- What goes wrong during one operation. An interrupted derivative or adjoint step leaves `torn` in
the perturbation (it is changed in place, stage by stage). -/
structure Faults (D : Type) where
  raises : Pt → Option Err
  torn : D → D

/-- Nothing goes wrong. -/
def Faults.none : Faults D := ⟨fun _ => .none, id⟩

/-- The calls of the callbacks before or after a step, up to the first that raises. -/
def callsF (F : Faults D) (pt : ℕ → Pt) (ev : ℕ → Ev D) : List ℕ → List (Ev D) × Except Err Unit
  | [] => ([], .ok ())
  | j :: js =>
    match F.raises (pt j) with
    | some e => ([ev j], .error e)
    | .none =>
      let r := callsF F pt ev js
      (ev j :: r.1, r.2)

/-- `_iterate_on_step`, runge_kutta_integrator.py L561-637. `compute_step` works on a copy, L573-580.
The number `a` counts the attempts. -/
noncomputable def iterateF (B : Backend D I O) (opt : Options) (F : Faults D) (it : ℕ) :
    ℕ → ℕ → Ctrl → IState D → Ctrl × IState D × Except Err Unit
  | 0, _, c, x => (c, x, .error .recursion)
  | f + 1, a, c, x =>
    match F.raises (.solve it a) with
    | some e => (c, x, .error e)
    | .none =>
      match B.step x.disc x.sugg with
      | .error e => (c, x, .error e)
      | .ok d =>
        if opt.adaptive then
          match F.raises (.measure it a) with
          | some e => (c, x, .error e)
          | .none =>
            match B.measure d with
            | .error e => (c, x, .error e)
            | .ok err =>
              match c.call true ⟨err, x.sugg, opt.crit.remaining (B.time d), x.errHist,
                  x.stepHist⟩ with
              | (c', .error e) => (c', x, .error (.controller e))
              | (c', .ok st) =>
                if st.acc then
                  (c', ⟨B.set x.disc d, st.sugg, (x.sugg, x.stepHist.1), (err, x.errHist.1)⟩,
                    .ok ())
                else iterateF B opt F it f (a + 1) c' { x with sugg := st.sugg }
        else
          (c, { x with disc := B.set x.disc d, stepHist := (x.sugg, x.stepHist.2) }, .ok ())

/-- `_run_step`, runge_kutta_integrator.py L534-552. -/
noncomputable def runStepF (B : Backend D I O) (opt : Options) (F : Faults D) (it : ℕ) (c : Ctrl)
    (x : IState D) : Res D :=
  let pre := callsF F (fun j => .before .compute j it) (fun j => .before .compute j it x)
    (List.range opt.computeCallbacks)
  match pre.2 with
  | .error e => ⟨c, x, pre.1, .error e⟩
  | .ok () =>
    match iterateF B opt F it opt.recursionLimit 0 c x with
    | (c', x', .error e) => ⟨c', x', pre.1, .error e⟩
    | (c', x', .ok ()) =>
      let post := callsF F (fun j => .after .compute j it) (fun j => .after .compute j it x')
        (List.range opt.computeCallbacks)
      ⟨c', x', pre.1 ++ post.1, post.2⟩

/-- The loop of `AllCheckpointer.iterate_forward`, all_checkpointer.py L67-75: a step is stored after
its last callback returned. -/
noncomputable def allForwardF (B : Backend D I O) (opt : Options) (F : Faults D) :
    ℕ → ℕ → List (IState D) → Ctrl → IState D → List (IState D) × Res D
  | 0, _, stor, c, x => (stor, ⟨c, x, [], .error .fuel⟩)
  | f + 1, it, stor, c, x =>
    if opt.crit.finished it (B.time x.disc) then (stor, ⟨c, x, [], .ok ()⟩)
    else
      match runStepF B opt F (it + 1) c x with
      | ⟨c', x', log, .error e⟩ => (stor, ⟨c', x', log, .error e⟩)
      | ⟨c', x', log, .ok ()⟩ =>
        let r := allForwardF B opt F f (it + 1) (stor ++ [x']) c' x'
        (r.1, { r.2 with log := log ++ r.2.log })

/-- `compute` with all checkpoints, runge_kutta_integrator.py L438-451 with
`_compute_preparation_phase` L455-468: the inputs are remembered (L465) and the checkpoints are
cleared before the first step. -/
noncomputable def computeF (B : Backend D I O) (opt : Options) (F : Faults D) (fuel : ℕ)
    (w : World D (List (IState D))) (i : I) : World D (List (IState D)) × Except Err O :=
  let d := B.load w.tis.disc i
  let x := resetErrorControl opt w.ctrl { w.tis with disc := d }
  let x := { x with disc := B.clearLin x.disc }
  let r := allForwardF B opt F fuel 0 [] w.ctrl x
  let w' : World D (List (IState D)) :=
    { w with tis := r.2.st, ctrl := r.2.ctrl, cached := some d, ck := r.1,
             log := w.log ++ r.2.log }
  match r.2.out with
  | .error e => (w', .error e)
  | .ok () => (w', .ok (B.read r.2.st.disc))

/-- `_run_step_jacvec_fwd`, runge_kutta_integrator.py L733-762. -/
noncomputable def runStepFwdF (B : Backend D I O) (opt : Options) (F : Faults D) (it : ℕ) (c : Ctrl)
    (x : IState D) (p : D) : Res D × D :=
  let pre := callsF F (fun j => .before .fwd j it) (fun j => .before .fwd j it x)
    (List.range opt.fwdCallbacks)
  match pre.2 with
  | .error e => (⟨c, x, pre.1, .error e⟩, p)
  | .ok () =>
    match iterateF B opt F it opt.recursionLimit 0 c x with
    | (c', x', .error e) => (⟨c', x', pre.1, .error e⟩, p)
    | (c', x', .ok ()) =>
      match F.raises (.deriv it) with
      | some e => (⟨c', x', pre.1, .error e⟩, F.torn p)
      | .none =>
        let post := callsF F (fun j => .after .fwd j it) (fun j => .after .fwd j it x')
          (List.range opt.fwdCallbacks)
        (⟨c', x', pre.1 ++ post.1, post.2⟩, B.deriv x'.disc p x'.stepHist.1)

/-- `_compute_jacvec_fwd_run_steps`, runge_kutta_integrator.py L714-731. -/
noncomputable def fwdLoopF (B : Backend D I O) (opt : Options) (F : Faults D) :
    ℕ → ℕ → Ctrl → IState D → D → Res D × D
  | 0, _, c, x, p => (⟨c, x, [], .error .fuel⟩, p)
  | f + 1, it, c, x, p =>
    if opt.crit.finished it (B.time x.disc) then (⟨c, x, [], .ok ()⟩, p)
    else
      match runStepFwdF B opt F (it + 1) c x p with
      | (⟨c', x', log, .error e⟩, p') => (⟨c', x', log, .error e⟩, p')
      | (⟨c', x', log, .ok ()⟩, p') =>
        let r := fwdLoopF B opt F f (it + 1) c' x' p'
        ({ r.1 with log := log ++ r.1.log }, r.2)

/-- `compute_jacvec_product` in mode "fwd", runge_kutta_integrator.py L658-682 and L688-712. -/
noncomputable def fwdF {σ : Type} (B : Backend D I O) (opt : Options) (F : Faults D) (fuel : ℕ)
    (w : World D σ) (i di : I) (dO : O) : World D σ × Except Err O :=
  let x := resetErrorControl opt w.ctrl { w.tis with disc := B.load w.tis.disc i }
  let p := B.load w.pert di
  let r := fwdLoopF B opt F fuel 0 w.ctrl x p
  let w' : World D σ :=
    { w with tis := r.1.st, ctrl := r.1.ctrl, pert := r.2, log := w.log ++ r.1.log }
  match r.1.out with
  | .error e => (w', .error e)
  | .ok () => (w', .ok (B.writeOut r.2 dO))

/-- `_run_step_jacvec_rev`, runge_kutta_integrator.py L847-875: the perturbation left behind, calls
and outcome. -/
def runStepRevF (B : Backend D I O) (opt : Options) (F : Faults D) (it : ℕ) (x : IState D) (p : D) :
    D × List (Ev D) × Except Err Unit :=
  let pre := callsF F (fun j => .before .rev j it) (fun j => .before .rev j it x)
    (List.range opt.revCallbacks)
  match pre.2 with
  | .error e => (p, pre.1, .error e)
  | .ok () =>
    match F.raises (.adjoint it) with
    | some e => (F.torn p, pre.1, .error e)
    | .none =>
      let post := callsF F (fun j => .after .rev j it) (fun j => .after .rev j it x)
        (List.range opt.revCallbacks)
      (B.adj x.disc p x.stepHist.1, pre.1 ++ post.1, post.2)

/-- The loop of `AllCheckpointer.iterate_reverse`, all_checkpointer.py L96-104: a state is removed
from the storage before its step is reverted (L99). The argument is the storage in the order it is
popped, the first result is what remains of it. -/
def allReverseF (B : Backend D I O) (opt : Options) (F : Faults D) :
    List (IState D) → D → List (IState D) × D × List (Ev D) × Except Err Unit
  | [], p => ([], p, [], .ok ())
  | x :: rest, p =>
    match runStepRevF B opt F (rest.length + 1) x p with
    | (p', log, .error e) => (rest, p', log, .error e)
    | (p', log, .ok ()) =>
      let q := allReverseF B opt F rest p'
      (q.1, q.2.1, log ++ q.2.2.1, q.2.2.2)

/-- `compute_jacvec_product` in mode "rev", runge_kutta_integrator.py L764-845: the inputs are
forgotten (L792) only if the product is complete. -/
noncomputable def revF (B : Backend D I O) (opt : Options) (F : Faults D) (fuel : ℕ)
    (w : World D (List (IState D))) (i : I) (dO : O) (dI : I) :
    World D (List (IState D)) × Except Err I :=
  let prep : World D (List (IState D)) × Except Err Unit :=
    if cacheOk B w i then (w, .ok ())
    else match computeF B opt F fuel w i with
      | (w', .error e) => (w', .error e)
      | (w', .ok _) => (w', .ok ())
  match prep with
  | (w1, .error e) => (w1, .error e)
  | (w1, .ok ()) =>
    let r := allReverseF B opt F w1.ck.reverse (B.seed w1.pert dO)
    let w2 : World D (List (IState D)) :=
      { w1 with pert := r.2.1, ck := r.1.reverse, log := w1.log ++ r.2.2.1 }
    match r.2.2.2 with
    | .error e => (w2, .error e)
    | .ok () => ({ w2 with cached := none }, .ok (B.writeIn r.2.1 dI))

/-- The component after an operation during which `F` happened. -/
noncomputable def doOpF (B : Backend D I O) (opt : Options) (fuel : ℕ)
    (w : World D (List (IState D))) (q : Op I O × Faults D) : World D (List (IState D)) :=
  match q.1 with
  | .compute i => (computeF B opt q.2 fuel w i).1
  | .fwd i di dO => (fwdF B opt q.2 fuel w i di dO).1
  | .rev i dO dI => (revF B opt q.2 fuel w i dO dI).1

/-- The component after a sequence of operations, each with what happened during it. -/
noncomputable def doOpsF (B : Backend D I O) (opt : Options) (fuel : ℕ)
    (w : World D (List (IState D))) (ops : List (Op I O × Faults D)) :
    World D (List (IState D)) :=
  ops.foldl (doOpF B opt fuel) w

/-! ### An operation that returns was not disturbed -/

variable {B : Backend D I O} {opt : Options} {F : Faults D}

theorem callsF_ok {pt : ℕ → Pt} {ev : ℕ → Ev D} {js : List ℕ}
    (h : (callsF F pt ev js).2 = .ok ()) : (callsF F pt ev js).1 = js.map ev := by
  induction js with
  | nil => rfl
  | cons j js ih =>
    simp only [callsF] at h ⊢
    rcases hr : F.raises (pt j) with _ | e
    · rw [hr] at h
      simp only [List.map_cons, List.cons.injEq, true_and]
      exact ih h
    · rw [hr] at h; simp at h

theorem iterateF_ok {it f a : ℕ} {c : Ctrl} {x : IState D}
    (h : (iterateF B opt F it f a c x).2.2 = .ok ()) :
    iterateF B opt F it f a c x = iterateOnStep B opt f c x := by
  induction f generalizing a c x with
  | zero => rfl
  | succ f ih =>
    simp only [iterateF, iterateOnStep] at h ⊢
    rcases h1 : F.raises (.solve it a) with _ | e
    · rw [h1] at h
      dsimp only at h ⊢
      rcases h2 : B.step x.disc x.sugg with e | d
      · rfl
      · rw [h2] at h
        dsimp only at h ⊢
        by_cases had : opt.adaptive = true
        · rw [if_pos had] at h ⊢
          rw [if_pos had]
          rcases h3 : F.raises (.measure it a) with _ | e
          · rw [h3] at h
            dsimp only at h ⊢
            rcases h4 : B.measure d with e | err
            · rfl
            · rw [h4] at h
              dsimp only at h ⊢
              rcases hc : c.call true ⟨err, x.sugg, opt.crit.remaining (B.time d), x.errHist,
                x.stepHist⟩ with ⟨c', e | st⟩
              · rfl
              · rw [hc] at h
                dsimp only at h ⊢
                by_cases hacc : st.acc = true
                · rw [if_pos hacc, if_pos hacc]
                · rw [if_neg hacc] at h ⊢
                  rw [if_neg hacc]
                  exact ih h
          · rw [h3] at h; simp at h
        · rw [if_neg had, if_neg had]
    · rw [h1] at h; simp at h

theorem runStepF_ok {it : ℕ} {c : Ctrl} {x : IState D}
    (h : (runStepF B opt F it c x).out = .ok ()) :
    runStepF B opt F it c x = runStep B opt it c x := by
  simp only [runStepF, runStep] at h ⊢
  rcases h1 : callsF F (fun j => .before .compute j it) (fun j => .before .compute j it x)
    (List.range opt.computeCallbacks) with ⟨l1, e | u⟩
  · rw [h1] at h; simp at h
  · have e1 := callsF_ok (congrArg Prod.snd h1)
    rw [h1] at h e1
    dsimp only at h e1 ⊢
    rcases h2 : iterateF B opt F it opt.recursionLimit 0 c x with ⟨c', x', e | u⟩
    · rw [h2] at h; simp at h
    · have e2 := iterateF_ok (congrArg (fun r => r.2.2) h2)
      rw [h2] at h
      rw [← e2, h2]
      dsimp only at h ⊢
      rw [callsF_ok h, h, e1]
      rfl

theorem allForwardF_ok {fuel it : ℕ} {stor : List (IState D)} {c : Ctrl} {x : IState D}
    (h : (allForwardF B opt F fuel it stor c x).2.out = .ok ()) :
    allForwardF B opt F fuel it stor c x = allForward B opt fuel it stor c x := by
  induction fuel generalizing it stor c x with
  | zero => rfl
  | succ f ih =>
    simp only [allForwardF, allForward] at h ⊢
    by_cases hf : opt.crit.finished it (B.time x.disc)
    · rw [if_pos hf, if_pos hf]
    · rw [if_neg hf] at h ⊢
      rw [if_neg hf]
      rcases h1 : runStepF B opt F (it + 1) c x with ⟨c', x', log, e | u⟩
      · rw [h1] at h; simp at h
      · have e1 := runStepF_ok (congrArg Res.out h1)
        rw [h1] at h e1
        rw [← e1]
        dsimp only at h ⊢
        rw [ih h]

/-- A `compute` that returns did what it does without faults. -/
theorem computeF_ok {fuel : ℕ} {w w' : World D (List (IState D))} {i : I} {v : O}
    (h : computeF B opt F fuel w i = (w', .ok v)) :
    compute B opt (allCk B opt) fuel w i = (w', .ok v) := by
  simp only [computeF] at h
  simp only [compute, allCk]
  rcases h1 : (allForwardF B opt F fuel 0 [] w.ctrl
    { (resetErrorControl opt w.ctrl { w.tis with disc := B.load w.tis.disc i }) with
      disc := B.clearLin (resetErrorControl opt w.ctrl
        { w.tis with disc := B.load w.tis.disc i }).disc }).2.out with e | u
  · rw [h1] at h; simp at h
  · rw [← allForwardF_ok h1]
    exact h

theorem runStepFwdF_ok {it : ℕ} {c : Ctrl} {x : IState D} {p : D}
    (h : (runStepFwdF B opt F it c x p).1.out = .ok ()) :
    runStepFwdF B opt F it c x p = runStepFwd B opt it c x p := by
  simp only [runStepFwdF, runStepFwd] at h ⊢
  rcases h1 : callsF F (fun j => .before .fwd j it) (fun j => .before .fwd j it x)
    (List.range opt.fwdCallbacks) with ⟨l1, e | u⟩
  · rw [h1] at h; simp at h
  · have e1 := callsF_ok (congrArg Prod.snd h1)
    rw [h1] at h e1
    dsimp only at h e1 ⊢
    rcases h2 : iterateF B opt F it opt.recursionLimit 0 c x with ⟨c', x', e | u⟩
    · rw [h2] at h; simp at h
    · have e2 := iterateF_ok (congrArg (fun r => r.2.2) h2)
      rw [h2] at h
      rw [← e2, h2]
      dsimp only at h ⊢
      rcases h3 : F.raises (.deriv it) with _ | e
      · rw [h3] at h
        dsimp only at h ⊢
        rw [callsF_ok h, h, e1]
        rfl
      · rw [h3] at h; simp at h

theorem fwdLoopF_ok {fuel it : ℕ} {c : Ctrl} {x : IState D} {p : D}
    (h : (fwdLoopF B opt F fuel it c x p).1.out = .ok ()) :
    fwdLoopF B opt F fuel it c x p = fwdLoop B opt fuel it c x p := by
  induction fuel generalizing it c x p with
  | zero => rfl
  | succ f ih =>
    simp only [fwdLoopF, fwdLoop] at h ⊢
    by_cases hf : opt.crit.finished it (B.time x.disc)
    · rw [if_pos hf, if_pos hf]
    · rw [if_neg hf] at h ⊢
      rw [if_neg hf]
      rcases h1 : runStepFwdF B opt F (it + 1) c x p with ⟨⟨c', x', log, e | u⟩, p'⟩
      · rw [h1] at h; simp at h
      · have e1 := runStepFwdF_ok (congrArg (fun r => r.1.out) h1)
        rw [h1] at h e1
        rw [← e1]
        dsimp only at h ⊢
        rw [ih h]

/-- A forward product that returns did what it does without faults. -/
theorem fwdF_ok {σ : Type} {fuel : ℕ} {w w' : World D σ} {i di : I} {dO v : O}
    (h : fwdF B opt F fuel w i di dO = (w', .ok v)) :
    fwd B opt fuel w i di dO = (w', .ok v) := by
  simp only [fwdF] at h
  simp only [fwd]
  rcases h1 : (fwdLoopF B opt F fuel 0 w.ctrl
    (resetErrorControl opt w.ctrl { w.tis with disc := B.load w.tis.disc i })
    (B.load w.pert di)).1.out with e | u
  · rw [h1] at h; simp at h
  · rw [← fwdLoopF_ok h1]
    exact h

theorem runStepRevF_ok {it : ℕ} {x : IState D} {p : D}
    (h : (runStepRevF B opt F it x p).2.2 = .ok ()) :
    runStepRevF B opt F it x p
      = ((runStepRev B opt it x p).1, (runStepRev B opt it x p).2, .ok ()) := by
  simp only [runStepRevF, runStepRev] at h ⊢
  rcases h1 : callsF F (fun j => .before .rev j it) (fun j => .before .rev j it x)
    (List.range opt.revCallbacks) with ⟨l1, e | u⟩
  · rw [h1] at h; simp at h
  · have e1 := callsF_ok (congrArg Prod.snd h1)
    rw [h1] at h e1
    dsimp only at h e1 ⊢
    rcases h3 : F.raises (.adjoint it) with _ | e
    · rw [h3] at h
      dsimp only at h ⊢
      rw [callsF_ok h, h, e1]
      rfl
    · rw [h3] at h; simp at h

theorem allReverseF_ok {xs : List (IState D)} {p : D}
    (h : (allReverseF B opt F xs p).2.2.2 = .ok ()) :
    allReverseF B opt F xs p
      = ([], (allReverse B opt xs p).1, (allReverse B opt xs p).2, .ok ()) := by
  induction xs generalizing p with
  | nil => rfl
  | cons x rest ih =>
    simp only [allReverseF, allReverse] at h ⊢
    rcases h1 : runStepRevF B opt F (rest.length + 1) x p with ⟨p', log, e | u⟩
    · rw [h1] at h; simp at h
    · have e1 := runStepRevF_ok (congrArg (fun r => r.2.2) h1)
      rw [h1] at h e1
      simp only [Prod.mk.injEq, and_true] at e1
      dsimp only at h ⊢
      rw [ih h, e1.1, e1.2]

/-- A reverse product that returns did what it does without faults. -/
theorem revF_ok {fuel : ℕ} {w w' : World D (List (IState D))} {i dI g : I} {dO : O}
    (h : revF B opt F fuel w i dO dI = (w', .ok g)) :
    rev B opt (allCk B opt) fuel w i dO dI = (w', .ok g) := by
  have fin : ∀ w1 : World D (List (IState D)),
      (match (allReverseF B opt F w1.ck.reverse (B.seed w1.pert dO)).2.2.2 with
        | .error e => (({ w1 with
            pert := (allReverseF B opt F w1.ck.reverse (B.seed w1.pert dO)).2.1,
            ck := (allReverseF B opt F w1.ck.reverse (B.seed w1.pert dO)).1.reverse,
            log := w1.log ++ (allReverseF B opt F w1.ck.reverse (B.seed w1.pert dO)).2.2.1 } :
              World D (List (IState D))), (.error e : Except Err I))
        | .ok () => ({ w1 with
            cached := none
            pert := (allReverseF B opt F w1.ck.reverse (B.seed w1.pert dO)).2.1,
            ck := (allReverseF B opt F w1.ck.reverse (B.seed w1.pert dO)).1.reverse,
            log := w1.log ++ (allReverseF B opt F w1.ck.reverse (B.seed w1.pert dO)).2.2.1 },
          .ok (B.writeIn (allReverseF B opt F w1.ck.reverse (B.seed w1.pert dO)).2.1 dI)))
        = (w', .ok g) →
      (({ w1 with
          cached := none, pert := (allReverse B opt w1.ck.reverse (B.seed w1.pert dO)).1, ck := [],
          log := w1.log ++ (allReverse B opt w1.ck.reverse (B.seed w1.pert dO)).2 } :
            World D (List (IState D))),
        (.ok (B.writeIn (allReverse B opt w1.ck.reverse (B.seed w1.pert dO)).1 dI) : Except Err I))
        = (w', .ok g) := by
    intro w1 h
    rcases h1 : (allReverseF B opt F w1.ck.reverse (B.seed w1.pert dO)).2.2.2 with e | u
    · rw [h1] at h; simp at h
    · rw [h1] at h
      have := allReverseF_ok h1
      rw [this] at h
      exact h
  simp only [revF] at h
  simp only [rev, revPrep]
  by_cases hca : cacheOk B w i = true
  · rw [if_pos hca] at h ⊢
    exact fin w h
  · rw [if_neg hca] at h ⊢
    rcases h1 : computeF B opt F fuel w i with ⟨w1, e | v⟩
    · rw [h1] at h; simp at h
    · rw [computeF_ok h1]
      rw [h1] at h
      exact fin w1 h

/-! ### Without faults -/

theorem callsF_none (pt : ℕ → Pt) (ev : ℕ → Ev D) (js : List ℕ) :
    callsF Faults.none pt ev js = (js.map ev, .ok ()) := by
  induction js with
  | nil => rfl
  | cons j js ih => simp [callsF, Faults.none] at ih ⊢; simp [ih]

theorem iterateF_none (it f a : ℕ) (c : Ctrl) (x : IState D) :
    iterateF B opt Faults.none it f a c x = iterateOnStep B opt f c x := by
  induction f generalizing a c x with
  | zero => rfl
  | succ f ih =>
    simp only [iterateF, iterateOnStep, Faults.none] at ih ⊢
    simp only [ih]
    rfl

theorem allForwardF_none (fuel it : ℕ) (stor : List (IState D)) (c : Ctrl) (x : IState D) :
    allForwardF B opt Faults.none fuel it stor c x = allForward B opt fuel it stor c x := by
  have hs : ∀ it c x, runStepF B opt Faults.none it c x = runStep B opt it c x := by
    intro it c x
    simp only [runStepF, runStep, callsF_none, iterateF_none]
    rfl
  induction fuel generalizing it stor c x with
  | zero => rfl
  | succ f ih =>
    simp only [allForwardF, allForward, hs, ih]
    rfl

/-- Without faults the operations are those of `Verif.Integrator.Model`. -/
theorem computeF_none (fuel : ℕ) (w : World D (List (IState D))) (i : I) :
    computeF B opt Faults.none fuel w i = compute B opt (allCk B opt) fuel w i := by
  simp only [computeF, compute, allCk, allForwardF_none]
  rfl

theorem fwdF_none {σ : Type} (fuel : ℕ) (w : World D σ) (i di : I) (dO : O) :
    fwdF B opt Faults.none fuel w i di dO = fwd B opt fuel w i di dO := by
  have hs : ∀ it c x p, runStepFwdF B opt Faults.none it c x p = runStepFwd B opt it c x p := by
    intro it c x p
    simp only [runStepFwdF, runStepFwd, callsF_none, iterateF_none]
    rfl
  have hl : ∀ fuel it c x p, fwdLoopF B opt Faults.none fuel it c x p
      = fwdLoop B opt fuel it c x p := by
    intro fuel
    induction fuel with
    | zero => intros; rfl
    | succ f ih =>
      intro it c x p
      simp only [fwdLoopF, fwdLoop, hs, ih]
      rfl
  simp only [fwdF, fwd, hl]
  rfl

theorem allReverseF_none (xs : List (IState D)) (p : D) :
    allReverseF B opt Faults.none xs p
      = ([], (allReverse B opt xs p).1, (allReverse B opt xs p).2, .ok ()) := by
  have hs : ∀ it x p, runStepRevF B opt Faults.none it x p
      = ((runStepRev B opt it x p).1, (runStepRev B opt it x p).2, .ok ()) := by
    intro it x p
    simp only [runStepRevF, runStepRev, callsF_none]
    rfl
  induction xs generalizing p with
  | nil => rfl
  | cons x rest ih => simp only [allReverseF, allReverse, hs, ih]

theorem revF_none (fuel : ℕ) (w : World D (List (IState D))) (i dI : I) (dO : O) :
    revF B opt Faults.none fuel w i dO dI = rev B opt (allCk B opt) fuel w i dO dI := by
  simp only [revF, rev, revPrep, computeF_none, allReverseF_none]
  by_cases hca : cacheOk B w i = true
  · simp only [if_pos hca]
    rfl
  · simp only [if_neg hca]
    rcases compute B opt (allCk B opt) fuel w i with ⟨w1, e | v⟩ <;> rfl

/-! ### What interrupted operations keep -/

theorem iterateF_plain {c : Ctrl} (hp : Plain opt c) (it f a : ℕ) (x : IState D) :
    (iterateF B opt F it f a c x).1 = c := by
  induction f generalizing a x with
  | zero => rfl
  | succ f ih =>
    simp only [iterateF]
    rcases F.raises (.solve it a) with _ | e
    swap
    · rfl
    dsimp only
    rcases B.step x.disc x.sugg with e | d
    · rfl
    · dsimp only
      by_cases had : opt.adaptive = true
      · rw [if_pos had]
        rcases F.raises (.measure it a) with _ | e
        swap
        · rfl
        dsimp only
        rcases B.measure d with e | err
        · rfl
        · dsimp only
          obtain ⟨par, cfg, rfl⟩ : ∃ par cfg, c = .base par cfg := by
            rcases hp with h | h
            · rw [h] at had; simp at had
            · exact h
          rcases hc : Ctrl.call true (.base par cfg)
            ⟨err, x.sugg, opt.crit.remaining (B.time d), x.errHist, x.stepHist⟩ with ⟨c', r⟩
          have hcc : c' = .base par cfg := by
            have := congrArg Prod.fst hc
            exact this.symm
          subst hcc
          rcases r with e | st
          · rfl
          · dsimp only
            by_cases hacc : st.acc = true
            · rw [if_pos hacc]
            · rw [if_neg hacc]; exact ih _ _
      · rw [if_neg had]

theorem runStepF_plain {c : Ctrl} (hp : Plain opt c) (it : ℕ) (x : IState D) :
    (runStepF B opt F it c x).ctrl = c := by
  simp only [runStepF]
  split
  · rfl
  · have hi := iterateF_plain (B := B) (F := F) hp it opt.recursionLimit 0 x
    rcases hs : iterateF B opt F it opt.recursionLimit 0 c x with ⟨c', x', e | u⟩ <;>
      rw [hs] at hi <;> exact hi

theorem allForwardF_plain {c : Ctrl} (hp : Plain opt c) (fuel it : ℕ) (stor : List (IState D))
    (x : IState D) : (allForwardF B opt F fuel it stor c x).2.ctrl = c := by
  induction fuel generalizing it stor x with
  | zero => rfl
  | succ f ih =>
    simp only [allForwardF]
    split
    · rfl
    · have hi := runStepF_plain (B := B) (F := F) hp (it + 1) x
      rcases hs : runStepF B opt F (it + 1) c x with ⟨c', x', log, e | u⟩
      · rw [hs] at hi; exact hi
      · rw [hs] at hi
        dsimp only at hi
        subst hi
        exact ih _ _ _

theorem computeF_plain {fuel : ℕ} {w : World D (List (IState D))} (hp : Plain opt w.ctrl) (i : I) :
    (computeF B opt F fuel w i).1.ctrl = w.ctrl := by
  simp only [computeF]
  split <;> exact allForwardF_plain hp _ _ _ _

theorem computeF_pert {fuel : ℕ} {w : World D (List (IState D))} (i : I) :
    (computeF B opt F fuel w i).1.pert = w.pert := by
  simp only [computeF]
  split <;> rfl

theorem runStepFwdF_plain {c : Ctrl} (hp : Plain opt c) (it : ℕ) (x : IState D) (p : D) :
    (runStepFwdF B opt F it c x p).1.ctrl = c := by
  simp only [runStepFwdF]
  split
  · rfl
  · have hi := iterateF_plain (B := B) (F := F) hp it opt.recursionLimit 0 x
    rcases hs : iterateF B opt F it opt.recursionLimit 0 c x with ⟨c', x', e | u⟩
    · rw [hs] at hi; exact hi
    · rw [hs] at hi
      dsimp only
      rcases F.raises (.deriv it) with _ | e <;> exact hi

theorem fwdLoopF_plain {c : Ctrl} (hp : Plain opt c) (fuel it : ℕ) (x : IState D) (p : D) :
    (fwdLoopF B opt F fuel it c x p).1.ctrl = c := by
  induction fuel generalizing it x p with
  | zero => rfl
  | succ f ih =>
    simp only [fwdLoopF]
    split
    · rfl
    · have hi := runStepFwdF_plain (B := B) (F := F) hp (it + 1) x p
      rcases hs : runStepFwdF B opt F (it + 1) c x p with ⟨⟨c', x', log, e | u⟩, p'⟩
      · rw [hs] at hi; exact hi
      · rw [hs] at hi
        dsimp only at hi
        subst hi
        exact ih _ _ _

theorem fwdF_plain {σ : Type} {fuel : ℕ} {w : World D σ} (hp : Plain opt w.ctrl) (i di : I)
    (dO : O) : (fwdF B opt F fuel w i di dO).1.ctrl = w.ctrl := by
  simp only [fwdF]
  split <;> exact fwdLoopF_plain hp _ _ _ _

/-- An interrupted derivative or adjoint step leaves no more than a complete one in the buffers that
adjoint steps read. -/
def TornClean (W : Lawful B) (F : Faults D) : Prop := ∀ p, W.Clean p → W.Clean (F.torn p)

theorem fwdLoopF_clean (W : Lawful B) (ht : TornClean W F) (fuel it : ℕ) (c : Ctrl) (x : IState D)
    {p : D} (hp : W.Clean p) : W.Clean (fwdLoopF B opt F fuel it c x p).2 := by
  induction fuel generalizing it c x p with
  | zero => exact hp
  | succ f ih =>
    have hs : W.Clean (runStepFwdF B opt F (it + 1) c x p).2 := by
      simp only [runStepFwdF]
      split
      · exact hp
      · rcases iterateF B opt F (it + 1) opt.recursionLimit 0 c x with ⟨c', x', e | u⟩
        · exact hp
        · dsimp only
          rcases F.raises (.deriv (it + 1)) with _ | e
          · exact W.deriv_clean _ _ _ hp
          · exact ht _ hp
    simp only [fwdLoopF]
    split
    · exact hp
    · rcases h1 : runStepFwdF B opt F (it + 1) c x p with ⟨⟨c', x', log, e | u⟩, p'⟩
      · rw [h1] at hs; exact hs
      · rw [h1] at hs; exact ih _ _ _ hs

theorem fwdF_clean (W : Lawful B) (ht : TornClean W F) {σ : Type} {fuel : ℕ} {w : World D σ}
    (hc : W.Clean w.pert) (i di : I) (dO : O) :
    W.Clean (fwdF B opt F fuel w i di dO).1.pert := by
  simp only [fwdF]
  split <;> exact fwdLoopF_clean W ht _ _ _ _ (W.load_clean _ _ hc)

/-- A forward product, interrupted or not, keeps the remembered inputs and the checkpoints. -/
theorem fwdF_keeps {σ : Type} {fuel : ℕ} {w : World D σ} (i di : I) (dO : O) :
    (fwdF B opt F fuel w i di dO).1.cached = w.cached ∧
    (fwdF B opt F fuel w i di dO).1.ck = w.ck := by
  simp only [fwdF]
  split <;> exact ⟨rfl, rfl⟩

theorem allReverseF_clean (W : Lawful B) (ht : TornClean W F) (xs : List (IState D)) {p : D}
    (hp : W.Clean p) : W.Clean (allReverseF B opt F xs p).2.1 := by
  induction xs generalizing p with
  | nil => exact hp
  | cons x rest ih =>
    have hs : W.Clean (runStepRevF B opt F (rest.length + 1) x p).1 := by
      simp only [runStepRevF]
      split
      · exact hp
      · rcases F.raises (.adjoint (rest.length + 1)) with _ | e
        · exact W.adj_clean _ _ _ hp
        · exact ht _ hp
    simp only [allReverseF]
    rcases h1 : runStepRevF B opt F (rest.length + 1) x p with ⟨p', log, e | u⟩
    · rw [h1] at hs; exact hs
    · rw [h1] at hs; exact ih hs

theorem revF_plain {fuel : ℕ} {w : World D (List (IState D))} (hp : Plain opt w.ctrl) (i dI : I)
    (dO : O) : (revF B opt F fuel w i dO dI).1.ctrl = w.ctrl := by
  simp only [revF]
  by_cases hca : cacheOk B w i = true
  · rw [if_pos hca]
    dsimp only
    split <;> rfl
  · rw [if_neg hca]
    have hi := computeF_plain (B := B) (F := F) (fuel := fuel) hp i
    rcases h1 : computeF B opt F fuel w i with ⟨w1, e | v⟩
    · rw [h1] at hi; exact hi
    · rw [h1] at hi
      dsimp only at hi ⊢
      split <;> exact hi

theorem revF_clean (W : Lawful B) (ht : TornClean W F) {fuel : ℕ} {w : World D (List (IState D))}
    (hc : W.Clean w.pert) (i dI : I) (dO : O) :
    W.Clean (revF B opt F fuel w i dO dI).1.pert := by
  simp only [revF]
  by_cases hca : cacheOk B w i = true
  · rw [if_pos hca]
    dsimp only
    split <;> exact allReverseF_clean W ht _ (W.seed_clean _ _ hc)
  · rw [if_neg hca]
    have hi := computeF_pert (B := B) (opt := opt) (F := F) (fuel := fuel) (w := w) i
    rcases h1 : computeF B opt F fuel w i with ⟨w1, e | v⟩
    · rw [h1] at hi
      dsimp only at hi ⊢
      rw [hi]
      exact hc
    · rw [h1] at hi
      dsimp only at hi ⊢
      have hc1 : W.Clean w1.pert := by rw [hi]; exact hc
      split <;> exact allReverseF_clean W ht _ (W.seed_clean _ _ hc1)

theorem doOpsF_plain {fuel : ℕ} (ops : List (Op I O × Faults D)) {w : World D (List (IState D))}
    (hp : Plain opt w.ctrl) : (doOpsF B opt fuel w ops).ctrl = w.ctrl := by
  induction ops generalizing w with
  | nil => rfl
  | cons q ops ih =>
    have h : (doOpF B opt fuel w q).ctrl = w.ctrl := by
      rcases q with ⟨op, F⟩
      cases op with
      | compute i => exact computeF_plain hp i
      | fwd i di dO => exact fwdF_plain hp i di dO
      | rev i dO dI => exact revF_plain hp i dI dO
    have := ih (w := doOpF B opt fuel w q) (by rw [h]; exact hp)
    rw [h] at this
    exact this

theorem doOpsF_clean (W : Lawful B) {fuel : ℕ} (ops : List (Op I O × Faults D))
    (ht : ∀ q ∈ ops, TornClean W q.2) {w : World D (List (IState D))} (hc : W.Clean w.pert) :
    W.Clean (doOpsF B opt fuel w ops).pert := by
  induction ops generalizing w with
  | nil => exact hc
  | cons q ops ih =>
    refine ih (fun q' hq' => ht q' (List.mem_cons_of_mem _ hq')) (w := doOpF B opt fuel w q) ?_
    have htq := ht q List.mem_cons_self
    rcases q with ⟨op, F⟩
    cases op with
    | compute i =>
      exact (computeF_pert (B := B) (opt := opt) (F := F) (fuel := fuel) (w := w) i).symm ▸ hc
    | fwd i di dO => exact fwdF_clean W htq hc i di dO
    | rev i dO dI => exact revF_clean W htq hc i dI dO

/-! ### Histories with interruptions -/

/-- The last `compute` or reverse product of a sequence of operations returned (`s` says so for what
happened before). -/
def SettledF (B : Backend D I O) (opt : Options) (fuel : ℕ) :
    Prop → World D (List (IState D)) → List (Op I O × Faults D) → Prop
  | s, _, [] => s
  | s, w, (.fwd i di dO, F) :: ops =>
    SettledF B opt fuel s (doOpF B opt fuel w (.fwd i di dO, F)) ops
  | _, w, (.compute i, F) :: ops =>
    SettledF B opt fuel (returned (computeF B opt F fuel w i).2)
      (doOpF B opt fuel w (.compute i, F)) ops
  | _, w, (.rev i dO dI, F) :: ops =>
    SettledF B opt fuel (returned (revF B opt F fuel w i dO dI).2)
      (doOpF B opt fuel w (.rev i dO dI, F)) ops

theorem settledF_good (W : Lawful B) {fuel : ℕ} (ops : List (Op I O × Faults D)) (js : List I)
    (s : Prop) {w : World D (List (IState D))} (hp : Plain opt w.ctrl)
    (h0 : s → CacheGood W opt fuel w.ctrl w ∧ CachedFrom B js w)
    (hs : SettledF B opt fuel s w ops) :
    CacheGood W opt fuel w.ctrl (doOpsF B opt fuel w ops) ∧
    CachedFrom B (computed (ops.map Prod.fst) ++ js) (doOpsF B opt fuel w ops) := by
  induction ops generalizing s w js with
  | nil => exact h0 hs
  | cons q ops ih =>
    rcases q with ⟨op, F⟩
    cases op with
    | compute i =>
      have hc : (doOpF B opt fuel w (.compute i, F)).ctrl = w.ctrl := computeF_plain hp i
      have := ih (i :: js) (returned (computeF B opt F fuel w i).2)
        (w := doOpF B opt fuel w (.compute i, F)) (by rw [hc]; exact hp) ?_ hs
      · rw [hc] at this
        refine ⟨this.1, fun d hd => ?_⟩
        obtain ⟨j, hj, d', e⟩ := this.2 d hd
        refine ⟨j, ?_, d', e⟩
        simp only [computed, List.mem_append, List.mem_cons, List.cons_append, List.map_cons]
          at hj ⊢
        tauto
      · intro hr
        rw [hc]
        rcases h' : computeF B opt F fuel w i with ⟨w', e | v⟩
        · rw [h'] at hr; exact hr.elim
        · have h := computeF_ok h'
          simp only [doOpF, h']
          refine ⟨compute_good W h, fun d hd => ⟨i, by simp, w.tis.disc, ?_⟩⟩
          obtain ⟨tr, htr, hlt, -, -, -, -, hca, -⟩ := compute_run (ch := .all) h
          rw [hca] at hd
          exact (Option.some.inj hd).symm
    | fwd i di dO =>
      have hc : (doOpF B opt fuel w (.fwd i di dO, F)).ctrl = w.ctrl := fwdF_plain hp i di dO
      obtain ⟨hcw, hck⟩ := fwdF_keeps (B := B) (opt := opt) (F := F) (fuel := fuel) (w := w) i di dO
      have := ih js s (w := doOpF B opt fuel w (.fwd i di dO, F)) (by rw [hc]; exact hp) ?_ hs
      · rw [hc] at this
        exact this
      · intro hr
        obtain ⟨h1, h2⟩ := h0 hr
        refine ⟨fun d hd => ?_, fun d hd => ?_⟩
        · rw [hc]
          simp only [doOpF] at hd ⊢
          rw [hck]
          exact h1 d (by rw [← hcw]; exact hd)
        · simp only [doOpF] at hd
          exact h2 d (by rw [← hcw]; exact hd)
    | rev i dO dI =>
      have hc : (doOpF B opt fuel w (.rev i dO dI, F)).ctrl = w.ctrl := revF_plain hp i dI dO
      have := ih js (returned (revF B opt F fuel w i dO dI).2)
        (w := doOpF B opt fuel w (.rev i dO dI, F)) (by rw [hc]; exact hp) ?_ hs
      · rw [hc] at this
        exact this
      · intro hr
        rcases h' : revF B opt F fuel w i dO dI with ⟨w', e | g⟩
        · rw [h'] at hr; exact hr.elim
        · have := rev_clears (revF_ok h')
          simp only [doOpF, h']
          exact ⟨fun d hd => by simp [this] at hd, fun d hd => by simp [this] at hd⟩

/-- A reverse product after a history with interruptions, of which the last `compute` or reverse
product returned. -/
theorem revF_history (W : Lawful B) {fuel : ℕ} (ops : List (Op I O × Faults D))
    (ht : ∀ q ∈ ops, TornClean W q.2) {w : World D (List (IState D))} (hp : Plain opt w.ctrl)
    (h0 : w.cached = none) (cw : W.Clean w.pert) (hs : SettledF B opt fuel True w ops) (i dI : I)
    (dO : O) (hit : ∀ j ∈ computed (ops.map Prod.fst), ∀ d, B.cacheHit (B.load d j) i = true →
      W.obs (B.load d j) = W.obs (B.load d i)) :
    (rev B opt (allCk B opt) fuel (doOpsF B opt fuel w ops) i dO dI).2
      = (rev B opt (allCk B opt) fuel w i dO dI).2 := by
  have hc := doOpsF_plain (B := B) (fuel := fuel) ops hp
  obtain ⟨h1, h2⟩ := settledF_good W ops [] True hp
    (fun _ => ⟨fun d hd => by simp [h0] at hd, fun d hd => by simp [h0] at hd⟩) hs
  refine rev_spec W hc (by rw [hc]; exact h1) h0 (doOpsF_clean W ops ht cw) cw i dI dO ?_
  intro d hd hh
  obtain ⟨j, hj, d', rfl⟩ := h2 d hd
  rw [hit j (by simpa using hj) d' hh]
  exact W.load_obs _ _ _

/-! ### Any leftovers -/

/-- Whatever state, checkpoints and remembered inputs a component has, after a `compute` that
returned its reverse product at these inputs is that of a component without a history. -/
theorem rev_any_compute (W : Lawful B) {fuel : ℕ} {w w0 w1 : World D (List (IState D))}
    (hp : Plain opt w.ctrl) (hc : w.ctrl = w0.ctrl) (h0 : w0.cached = none) (cw : W.Clean w.pert)
    (cw0 : W.Clean w0.pert) {i : I} {v : O}
    (h : compute B opt (allCk B opt) fuel w i = (w1, .ok v)) (dI : I) (dO : O) :
    (rev B opt (allCk B opt) fuel w1 i dO dI).2 = (rev B opt (allCk B opt) fuel w0 i dO dI).2 := by
  have hc1 : w1.ctrl = w.ctrl := by
    have := compute_plain (B := B) (ch := .all) (fuel := fuel) hp i
    simp only [Choice.ck] at this
    rw [h] at this
    exact this
  have hp1 : w1.pert = w.pert := by
    have := compute_pert (B := B) (opt := opt) (ch := .all) (fuel := fuel) (w := w) i
    simp only [Choice.ck] at this
    rw [h] at this
    exact this
  have hg := compute_good W h
  refine rev_spec W (hc1.trans hc) (by rw [hc1]; exact hg) h0 (by rw [hp1]; exact cw) cw0 i dI dO ?_
  intro d hd _
  obtain ⟨tr, htr, hlt, -, -, -, -, hca, -⟩ := compute_run (ch := .all) h
  rw [hca] at hd
  rw [← Option.some.inj hd]
  exact W.load_obs _ _ _

/-- The same with pyrevolve. -/
theorem py_rev_any_compute {W : Lawful B} {R : Restore D} (L : LawfulRestore W R) {n : ℕ}
    {sched : Schedule} (hl : Legal n sched) (hN : opt.crit = .steps (n + 1)) {fuel : ℕ}
    (hf : n + 1 < fuel) {e : IState D} {w w1 : World D (PyData D)}
    {w0 : World D (List (IState D))} (hp : Plain opt w.ctrl) (hc : w.ctrl = w0.ctrl)
    (h0 : w0.cached = none) (cw : W.Clean w.pert) (cw0 : W.Clean w0.pert) {i : I} {v : O}
    (h : compute B opt (pyCk B opt R e n sched) fuel w i = (w1, .ok v)) (dI : I) (dO : O) :
    (rev B opt (pyCk B opt R e n sched) fuel w1 i dO dI).2
      = (rev B opt (allCk B opt) fuel w0 i dO dI).2 := by
  obtain ⟨hcapo, sl, hlf, hlr⟩ := hl
  obtain ⟨hg, hca, hc1, hp1, -, -⟩ := py_compute_good L hlf hp h
  refine py_rev_spec L hcapo hlf hlr hN hf (by rw [hc1]; exact hp) (hc1.trans hc)
    (by rw [hc1]; exact hg) h0 (by rw [hp1]; exact cw) cw0 i dI dO ?_
  intro d hd _
  rw [hca] at hd
  rw [← Option.some.inj hd]
  exact W.load_obs _ _ _

/-! ### What an interrupted reverse product leads to -/

/-- A reverse sweep interrupted in step `k + 1` leaves the checkpoints of the first `k` steps. -/
theorem allReverseF_interrupted {xs : List (IState D)} {p : D} {e : Err}
    (h : (allReverseF B opt F xs p).2.2.2 = .error e) :
    ∃ k, k < xs.length ∧ (allReverseF B opt F xs p).1 = xs.drop (k + 1) := by
  induction xs generalizing p with
  | nil => simp [allReverseF] at h
  | cons x rest ih =>
    simp only [allReverseF] at h ⊢
    rcases h1 : runStepRevF B opt F (rest.length + 1) x p with ⟨p', log, e' | u⟩
    · exact ⟨0, by simp, by simp⟩
    · rw [h1] at h
      obtain ⟨k, hk, he⟩ := ih h
      exact ⟨k + 1, by simpa using hk, by simpa using he⟩

end Verif.Integrator
