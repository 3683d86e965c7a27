/-
The calls of external code during an operation of the integrator, in their order, and which
exception an operation passes on.

Source: /repo/src/rkopenmdao/runge_kutta_integrator.py
        /repo/src/rkopenmdao/checkpoint_interface/all_checkpointer.py

The property theorems are in `Verif.Props.Faults`.
-/
import Verif.Integrator.Faults

namespace Verif.Integrator

open Verif.Control Verif.XReal
open Classical

variable {D I O : Type}

/-- The calls during `_iterate_on_step`, runge_kutta_integrator.py L561-637: in each attempt the
stage problems and, with adaptive stepping, the error measure. -/
noncomputable def iteratePts (B : Backend D I O) (opt : Options) (it : ℕ) :
    ℕ → ℕ → Ctrl → IState D → List Pt
  | 0, _, _, _ => []
  | f + 1, a, c, x =>
    .solve it a ::
      match B.step x.disc x.sugg with
      | .error _ => []
      | .ok d =>
        if opt.adaptive then
          .measure it a ::
            match B.measure d with
            | .error _ => []
            | .ok err =>
              match c.call true ⟨err, x.sugg, opt.crit.remaining (B.time d), x.errHist,
                  x.stepHist⟩ with
              | (_, .error _) => []
              | (c', .ok st) =>
                if st.acc then [] else iteratePts B opt it f (a + 1) c' { x with sugg := st.sugg }
        else []

/-- The calls during `_run_step`, runge_kutta_integrator.py L534-552. -/
noncomputable def runStepPts (B : Backend D I O) (opt : Options) (it : ℕ) (c : Ctrl)
    (x : IState D) : List Pt :=
  (List.range opt.computeCallbacks).map (fun j => .before .compute j it) ++
  (iteratePts B opt it opt.recursionLimit 0 c x ++
    match iterateOnStep B opt opt.recursionLimit c x with
    | (_, _, .error _) => []
    | (_, _, .ok ()) => (List.range opt.computeCallbacks).map (fun j => .after .compute j it))

/-- The calls during the loop of `AllCheckpointer.iterate_forward`, all_checkpointer.py L67-75. -/
noncomputable def forwardPts (B : Backend D I O) (opt : Options) :
    ℕ → ℕ → Ctrl → IState D → List Pt
  | 0, _, _, _ => []
  | f + 1, it, c, x =>
    if opt.crit.finished it (B.time x.disc) then []
    else
      runStepPts B opt (it + 1) c x ++
        match runStep B opt (it + 1) c x with
        | ⟨_, _, _, .error _⟩ => []
        | ⟨c', x', _, .ok ()⟩ => forwardPts B opt f (it + 1) c' x'

/-- The calls during `compute`, runge_kutta_integrator.py L438-451. -/
noncomputable def computePts {σ : Type} (B : Backend D I O) (opt : Options) (fuel : ℕ)
    (w : World D σ) (i : I) : List Pt :=
  let x := resetErrorControl opt w.ctrl { w.tis with disc := B.load w.tis.disc i }
  forwardPts B opt fuel 0 w.ctrl { x with disc := B.clearLin x.disc }

/-- The calls during `_run_step_jacvec_fwd`, runge_kutta_integrator.py L733-762. -/
noncomputable def runStepFwdPts (B : Backend D I O) (opt : Options) (it : ℕ) (c : Ctrl)
    (x : IState D) : List Pt :=
  (List.range opt.fwdCallbacks).map (fun j => .before .fwd j it) ++
  (iteratePts B opt it opt.recursionLimit 0 c x ++
    match iterateOnStep B opt opt.recursionLimit c x with
    | (_, _, .error _) => []
    | (_, _, .ok ()) =>
      .deriv it :: (List.range opt.fwdCallbacks).map (fun j => .after .fwd j it))

/-- The calls during `_compute_jacvec_fwd_run_steps`, runge_kutta_integrator.py L714-731. -/
noncomputable def fwdLoopPts (B : Backend D I O) (opt : Options) :
    ℕ → ℕ → Ctrl → IState D → D → List Pt
  | 0, _, _, _, _ => []
  | f + 1, it, c, x, p =>
    if opt.crit.finished it (B.time x.disc) then []
    else
      runStepFwdPts B opt (it + 1) c x ++
        match runStepFwd B opt (it + 1) c x p with
        | (⟨_, _, _, .error _⟩, _) => []
        | (⟨c', x', _, .ok ()⟩, p') => fwdLoopPts B opt f (it + 1) c' x' p'

/-- The calls during `compute_jacvec_product` in mode "fwd", runge_kutta_integrator.py L658-682. -/
noncomputable def fwdPts {σ : Type} (B : Backend D I O) (opt : Options) (fuel : ℕ)
    (w : World D σ) (i di : I) : List Pt :=
  fwdLoopPts B opt fuel 0 w.ctrl
    (resetErrorControl opt w.ctrl { w.tis with disc := B.load w.tis.disc i }) (B.load w.pert di)

/-- The calls when `k` steps are reverted, all_checkpointer.py L96-104 and
runge_kutta_integrator.py L847-875: from the last step to the first. -/
def reversePts (opt : Options) : ℕ → List Pt
  | 0 => []
  | k + 1 =>
    ((List.range opt.revCallbacks).map (fun j => .before .rev j (k + 1)) ++
      .adjoint (k + 1) :: (List.range opt.revCallbacks).map (fun j => .after .rev j (k + 1)))
      ++ reversePts opt k

/-- The calls during `compute_jacvec_product` in mode "rev", runge_kutta_integrator.py L764-845:
those of `compute`, unless the remembered inputs match, and those of the reverse sweep. -/
noncomputable def revPts (B : Backend D I O) (opt : Options) (fuel : ℕ)
    (w : World D (List (IState D))) (i : I) : List Pt :=
  if cacheOk B w i then reversePts opt w.ck.length
  else
    computePts B opt fuel w i ++
      match compute B opt (allCk B opt) fuel w i with
      | (_, .error _) => []
      | (w1, .ok _) => reversePts opt w1.ck.length

variable {B : Backend D I O} {opt : Options} {F : Faults D}

theorem callsF_pts (pt : ℕ → Pt) (ev : ℕ → Ev D) (js : List ℕ) :
    ((js.map pt).findSome? F.raises = none → callsF F pt ev js = (js.map ev, .ok ())) ∧
    (∀ e, (js.map pt).findSome? F.raises = some e → (callsF F pt ev js).2 = .error e) := by
  induction js with
  | nil => simp [callsF]
  | cons j js ih =>
    simp only [List.map_cons, List.findSome?_cons, callsF]
    rcases F.raises (pt j) with _ | e
    · refine ⟨fun h => ?_, fun e h => ?_⟩
      · rw [ih.1 h]
      · exact ih.2 e h
    · simp

theorem iterateF_pts (it f a : ℕ) (c : Ctrl) (x : IState D) :
    ((iteratePts B opt it f a c x).findSome? F.raises = none →
      iterateF B opt F it f a c x = iterateOnStep B opt f c x) ∧
    (∀ e, (iteratePts B opt it f a c x).findSome? F.raises = some e →
      (iterateF B opt F it f a c x).2.2 = .error e) := by
  induction f generalizing a c x with
  | zero => simp [iteratePts, iterateF, iterateOnStep]
  | succ f ih =>
    simp only [iteratePts, iterateF, iterateOnStep, List.findSome?_cons]
    rcases F.raises (.solve it a) with _ | e
    swap
    · simp
    dsimp only
    rcases B.step x.disc x.sugg with e | d
    · simp
    dsimp only
    by_cases had : opt.adaptive = true
    swap
    · simp [had]
    simp only [if_pos had, List.findSome?_cons]
    rcases F.raises (.measure it a) with _ | e
    swap
    · simp
    dsimp only
    rcases B.measure d with e | err
    · simp
    dsimp only
    rcases c.call true ⟨err, x.sugg, opt.crit.remaining (B.time d), x.errHist,
      x.stepHist⟩ with ⟨c', e | st⟩
    · simp
    dsimp only
    by_cases hacc : st.acc = true
    · simp [hacc]
    · simp only [if_neg hacc]
      exact ih _ _ _

theorem runStepF_pts (it : ℕ) (c : Ctrl) (x : IState D) :
    ((runStepPts B opt it c x).findSome? F.raises = none →
      runStepF B opt F it c x = runStep B opt it c x) ∧
    (∀ e, (runStepPts B opt it c x).findSome? F.raises = some e →
      (runStepF B opt F it c x).out = .error e) := by
  obtain ⟨a1, a2⟩ := callsF_pts (F := F) (fun j => .before .compute j it)
    (fun j => .before .compute j it x) (List.range opt.computeCallbacks)
  obtain ⟨b1, b2⟩ := iterateF_pts (F := F) (B := B) (opt := opt) it opt.recursionLimit 0 c x
  simp only [runStepPts, runStepF, runStep, List.findSome?_append]
  rcases h1 : ((List.range opt.computeCallbacks).map
    (fun j => Pt.before .compute j it)).findSome? F.raises with _ | e
  swap
  · refine ⟨by simp, fun e' h => ?_⟩
    rw [a2 e h1]
    simpa using h
  rw [a1 h1]
  dsimp only [Option.none_or]
  rcases h2 : (iteratePts B opt it opt.recursionLimit 0 c x).findSome? F.raises with _ | e
  swap
  · refine ⟨by simp, fun e' h => ?_⟩
    have := b2 e h2
    rcases h3 : iterateF B opt F it opt.recursionLimit 0 c x with ⟨c', x', e3 | u⟩
    · rw [h3] at this
      simp only [Except.error.injEq] at this
      simpa [this] using h
    · rw [h3] at this; simp at this
  rw [b1 h2]
  rcases iterateOnStep B opt opt.recursionLimit c x with ⟨c', x', e3 | u⟩
  · simp [callbacks]
  · dsimp only [Option.none_or]
    obtain ⟨d1, d2⟩ := callsF_pts (F := F) (fun j => .after .compute j it)
      (fun j => .after .compute j it x') (List.range opt.computeCallbacks)
    refine ⟨fun h => ?_, fun e h => d2 e h⟩
    rw [d1 h]
    rfl

theorem allForwardF_pts (fuel it : ℕ) (stor : List (IState D)) (c : Ctrl) (x : IState D) :
    ((forwardPts B opt fuel it c x).findSome? F.raises = none →
      allForwardF B opt F fuel it stor c x = allForward B opt fuel it stor c x) ∧
    (∀ e, (forwardPts B opt fuel it c x).findSome? F.raises = some e →
      (allForwardF B opt F fuel it stor c x).2.out = .error e) := by
  induction fuel generalizing it stor c x with
  | zero => simp [forwardPts, allForwardF, allForward]
  | succ f ih =>
    simp only [forwardPts, allForwardF, allForward]
    by_cases hf : opt.crit.finished it (B.time x.disc)
    · simp [if_pos hf]
    simp only [if_neg hf, List.findSome?_append]
    obtain ⟨a1, a2⟩ := runStepF_pts (F := F) (B := B) (opt := opt) (it + 1) c x
    rcases h1 : (runStepPts B opt (it + 1) c x).findSome? F.raises with _ | e
    · rw [a1 h1]
      dsimp only [Option.none_or]
      rcases runStep B opt (it + 1) c x with ⟨c', x', log, e | u⟩
      · simp
      · dsimp only
        refine ⟨fun h => ?_, fun e h => (ih _ _ _ _).2 e h⟩
        rw [(ih _ _ _ _).1 h]
    · refine ⟨by simp, fun e' h => ?_⟩
      have := a2 e h1
      rcases h3 : runStepF B opt F (it + 1) c x with ⟨c', x', log, e3 | u⟩
      · rw [h3] at this
        simp only [Except.error.injEq] at this
        simpa [this] using h
      · rw [h3] at this; simp at this

/-- `compute` passes on the exception of the first of its calls that raises, and does what it does
without faults if none of them does. -/
theorem computeF_pts (fuel : ℕ) (w : World D (List (IState D))) (i : I) :
    ((computePts B opt fuel w i).findSome? F.raises = none →
      computeF B opt F fuel w i = compute B opt (allCk B opt) fuel w i) ∧
    (∀ e, (computePts B opt fuel w i).findSome? F.raises = some e →
      (computeF B opt F fuel w i).2 = .error e) := by
  simp only [computePts, computeF, compute, allCk]
  refine ⟨fun h => ?_, fun e h => ?_⟩
  · rw [(allForwardF_pts _ _ _ _ _).1 h]
    rfl
  · rw [(allForwardF_pts _ _ _ _ _).2 e h]

theorem runStepFwdF_pts (it : ℕ) (c : Ctrl) (x : IState D) (p : D) :
    ((runStepFwdPts B opt it c x).findSome? F.raises = none →
      runStepFwdF B opt F it c x p = runStepFwd B opt it c x p) ∧
    (∀ e, (runStepFwdPts B opt it c x).findSome? F.raises = some e →
      (runStepFwdF B opt F it c x p).1.out = .error e) := by
  obtain ⟨a1, a2⟩ := callsF_pts (F := F) (fun j => .before .fwd j it)
    (fun j => .before .fwd j it x) (List.range opt.fwdCallbacks)
  obtain ⟨b1, b2⟩ := iterateF_pts (F := F) (B := B) (opt := opt) it opt.recursionLimit 0 c x
  simp only [runStepFwdPts, runStepFwdF, runStepFwd, List.findSome?_append]
  rcases h1 : ((List.range opt.fwdCallbacks).map
    (fun j => Pt.before .fwd j it)).findSome? F.raises with _ | e
  swap
  · refine ⟨by simp, fun e' h => ?_⟩
    rw [a2 e h1]
    simpa using h
  rw [a1 h1]
  dsimp only [Option.none_or]
  rcases h2 : (iteratePts B opt it opt.recursionLimit 0 c x).findSome? F.raises with _ | e
  swap
  · refine ⟨by simp, fun e' h => ?_⟩
    have := b2 e h2
    rcases h3 : iterateF B opt F it opt.recursionLimit 0 c x with ⟨c', x', e3 | u⟩
    · rw [h3] at this
      simp only [Except.error.injEq] at this
      simpa [this] using h
    · rw [h3] at this; simp at this
  rw [b1 h2]
  rcases iterateOnStep B opt opt.recursionLimit c x with ⟨c', x', e3 | u⟩
  · simp [callbacks]
  · simp only [Option.none_or, List.findSome?_cons]
    rcases F.raises (.deriv it) with _ | e
    swap
    · simp
    dsimp only
    obtain ⟨d1, d2⟩ := callsF_pts (F := F) (fun j => .after .fwd j it)
      (fun j => .after .fwd j it x') (List.range opt.fwdCallbacks)
    refine ⟨fun h => ?_, fun e h => d2 e h⟩
    rw [d1 h]
    rfl

theorem fwdLoopF_pts (fuel it : ℕ) (c : Ctrl) (x : IState D) (p : D) :
    ((fwdLoopPts B opt fuel it c x p).findSome? F.raises = none →
      fwdLoopF B opt F fuel it c x p = fwdLoop B opt fuel it c x p) ∧
    (∀ e, (fwdLoopPts B opt fuel it c x p).findSome? F.raises = some e →
      (fwdLoopF B opt F fuel it c x p).1.out = .error e) := by
  induction fuel generalizing it c x p with
  | zero => simp [fwdLoopPts, fwdLoopF, fwdLoop]
  | succ f ih =>
    simp only [fwdLoopPts, fwdLoopF, fwdLoop]
    by_cases hf : opt.crit.finished it (B.time x.disc)
    · simp [if_pos hf]
    simp only [if_neg hf, List.findSome?_append]
    obtain ⟨a1, a2⟩ := runStepFwdF_pts (F := F) (B := B) (opt := opt) (it + 1) c x p
    rcases h1 : (runStepFwdPts B opt (it + 1) c x).findSome? F.raises with _ | e
    · rw [a1 h1]
      dsimp only [Option.none_or]
      rcases runStepFwd B opt (it + 1) c x p with ⟨⟨c', x', log, e | u⟩, p'⟩
      · simp
      · dsimp only
        refine ⟨fun h => ?_, fun e h => (ih _ _ _ _).2 e h⟩
        rw [(ih _ _ _ _).1 h]
    · refine ⟨by simp, fun e' h => ?_⟩
      have := a2 e h1
      rcases h3 : runStepFwdF B opt F (it + 1) c x p with ⟨⟨c', x', log, e3 | u⟩, p'⟩
      · rw [h3] at this
        simp only [Except.error.injEq] at this
        simpa [this] using h
      · rw [h3] at this; simp at this

/-- Forward products pass on the exception of the first of their calls that raises. -/
theorem fwdF_pts {σ : Type} (fuel : ℕ) (w : World D σ) (i di : I) (dO : O) :
    ((fwdPts B opt fuel w i di).findSome? F.raises = none →
      fwdF B opt F fuel w i di dO = fwd B opt fuel w i di dO) ∧
    (∀ e, (fwdPts B opt fuel w i di).findSome? F.raises = some e →
      (fwdF B opt F fuel w i di dO).2 = .error e) := by
  simp only [fwdPts, fwdF, fwd]
  refine ⟨fun h => ?_, fun e h => ?_⟩
  · rw [(fwdLoopF_pts _ _ _ _ _).1 h]
    rfl
  · rw [(fwdLoopF_pts _ _ _ _ _).2 e h]

theorem allReverseF_pts (xs : List (IState D)) (p : D) :
    ((reversePts opt xs.length).findSome? F.raises = none →
      allReverseF B opt F xs p
        = ([], (allReverse B opt xs p).1, (allReverse B opt xs p).2, .ok ())) ∧
    (∀ e, (reversePts opt xs.length).findSome? F.raises = some e →
      (allReverseF B opt F xs p).2.2.2 = .error e) := by
  induction xs generalizing p with
  | nil => simp [reversePts, allReverseF, allReverse]
  | cons x rest ih =>
    obtain ⟨a1, a2⟩ := callsF_pts (F := F) (fun j => .before .rev j (rest.length + 1))
      (fun j => .before .rev j (rest.length + 1) x) (List.range opt.revCallbacks)
    obtain ⟨d1, d2⟩ := callsF_pts (F := F) (fun j => .after .rev j (rest.length + 1))
      (fun j => .after .rev j (rest.length + 1) x) (List.range opt.revCallbacks)
    simp only [List.length_cons, reversePts, allReverseF, allReverse, runStepRevF, runStepRev,
      List.findSome?_append, List.findSome?_cons]
    rcases h1 : ((List.range opt.revCallbacks).map
      (fun j => Pt.before .rev j (rest.length + 1))).findSome? F.raises with _ | e
    swap
    · rw [a2 e h1]
      simp
    rw [a1 h1]
    dsimp only [Option.none_or]
    rcases F.raises (.adjoint (rest.length + 1)) with _ | e
    swap
    · simp
    dsimp only
    rcases h2 : ((List.range opt.revCallbacks).map
      (fun j => Pt.after .rev j (rest.length + 1))).findSome? F.raises with _ | e
    swap
    · rw [d2 e h2]
      simp
    rw [d1 h2]
    dsimp only [Option.none_or]
    refine ⟨fun h => ?_, fun e h => (ih _).2 e h⟩
    rw [(ih _).1 h]
    rfl

/-- Reverse products pass on the exception of the first of their calls that raises. -/
theorem revF_pts (fuel : ℕ) (w : World D (List (IState D))) (i dI : I) (dO : O) :
    ((revPts B opt fuel w i).findSome? F.raises = none →
      revF B opt F fuel w i dO dI = rev B opt (allCk B opt) fuel w i dO dI) ∧
    (∀ e, (revPts B opt fuel w i).findSome? F.raises = some e →
      (revF B opt F fuel w i dO dI).2 = .error e) := by
  simp only [revPts, revF, rev, revPrep]
  by_cases hca : cacheOk B w i = true
  · simp only [if_pos hca]
    rw [← List.length_reverse (as := w.ck)]
    refine ⟨fun h => ?_, fun e h => ?_⟩
    · rw [(allReverseF_pts _ _).1 h]
      rfl
    · rw [(allReverseF_pts _ _).2 e h]
  · simp only [if_neg hca, List.findSome?_append]
    obtain ⟨a1, a2⟩ := computeF_pts (F := F) (B := B) (opt := opt) fuel w i
    rcases h1 : (computePts B opt fuel w i).findSome? F.raises with _ | e
    · rw [a1 h1]
      dsimp only [Option.none_or]
      rcases compute B opt (allCk B opt) fuel w i with ⟨w1, e | v⟩
      · simp
      · dsimp only
        rw [← List.length_reverse (as := w1.ck)]
        refine ⟨fun h => ?_, fun e h => ?_⟩
        · rw [(allReverseF_pts _ _).1 h]
          rfl
        · rw [(allReverseF_pts _ _).2 e h]
    · refine ⟨by simp, fun e' h => ?_⟩
      have := a2 e h1
      rcases h3 : computeF B opt F fuel w i with ⟨w1, e3 | v⟩
      · rw [h3] at this
        simp only [Except.error.injEq] at this
        simpa [this] using h
      · rw [h3] at this; simp at this

/-! ### The recorded calls of callbacks -/

/-- The point at which a recorded call of a callback happens. -/
def Ev.pt : Ev D → Pt
  | .before k cb it _ => .before k cb it
  | .after k cb it _ => .after k cb it

/-- Calls of callbacks, not of stage problems or error measures. -/
def Pt.isCallback : Pt → Bool
  | .before .. => true
  | .after .. => true
  | _ => false

theorem iteratePts_filter (it f a : ℕ) (c : Ctrl) (x : IState D) :
    (iteratePts B opt it f a c x).filter Pt.isCallback = [] := by
  induction f generalizing a c x with
  | zero => rfl
  | succ f ih =>
    simp only [iteratePts]
    rw [List.filter_cons_of_neg (by simp [Pt.isCallback])]
    rcases B.step x.disc x.sugg with e | d
    · rfl
    dsimp only
    by_cases had : opt.adaptive = true
    swap
    · simp [had]
    rw [if_pos had, List.filter_cons_of_neg (by simp [Pt.isCallback])]
    rcases B.measure d with e | err
    · rfl
    dsimp only
    rcases c.call true ⟨err, x.sugg, opt.crit.remaining (B.time d), x.errHist,
      x.stepHist⟩ with ⟨c', e | st⟩
    · rfl
    dsimp only
    by_cases hacc : st.acc = true
    · simp [hacc]
    · rw [if_neg hacc]
      exact ih _ _ _

theorem filter_before (k : Kind) (it : ℕ) (js : List ℕ) :
    (js.map (fun j => Pt.before k j it)).filter Pt.isCallback = js.map (fun j => Pt.before k j it) :=
  List.filter_eq_self.2 (by simp [Pt.isCallback])

theorem filter_after (k : Kind) (it : ℕ) (js : List ℕ) :
    (js.map (fun j => Pt.after k j it)).filter Pt.isCallback = js.map (fun j => Pt.after k j it) :=
  List.filter_eq_self.2 (by simp [Pt.isCallback])

theorem runStep_log_pts (it : ℕ) (c : Ctrl) (x : IState D) :
    (runStep B opt it c x).log.map Ev.pt = (runStepPts B opt it c x).filter Pt.isCallback := by
  simp only [runStep, runStepPts, List.filter_append, iteratePts_filter, filter_before]
  rcases iterateOnStep B opt opt.recursionLimit c x with ⟨c', x', e | u⟩ <;>
    simp [callbacks, Ev.pt, Function.comp_def, filter_after]

theorem allForward_log_pts (fuel it : ℕ) (stor : List (IState D)) (c : Ctrl) (x : IState D) :
    (allForward B opt fuel it stor c x).2.log.map Ev.pt
      = (forwardPts B opt fuel it c x).filter Pt.isCallback := by
  induction fuel generalizing it stor c x with
  | zero => rfl
  | succ f ih =>
    simp only [allForward, forwardPts]
    by_cases hf : opt.crit.finished it (B.time x.disc)
    · simp [if_pos hf]
    rw [if_neg hf, if_neg hf, List.filter_append, ← runStep_log_pts]
    rcases runStep B opt (it + 1) c x with ⟨c', x', log, e | u⟩
    · simp
    · simp [ih]

theorem compute_log_pts (fuel : ℕ) (w : World D (List (IState D))) (i : I) :
    ∃ l, (compute B opt (allCk B opt) fuel w i).1.log = w.log ++ l ∧
      l.map Ev.pt = (computePts B opt fuel w i).filter Pt.isCallback := by
  simp only [compute, computePts, allCk]
  refine ⟨_, ?_, allForward_log_pts fuel 0 [] w.ctrl _⟩
  split <;> rfl

theorem runStepFwd_log_pts (it : ℕ) (c : Ctrl) (x : IState D) (p : D) :
    (runStepFwd B opt it c x p).1.log.map Ev.pt
      = (runStepFwdPts B opt it c x).filter Pt.isCallback := by
  simp only [runStepFwd, runStepFwdPts, List.filter_append, iteratePts_filter, filter_before]
  rcases iterateOnStep B opt opt.recursionLimit c x with ⟨c', x', e | u⟩
  · simp [callbacks, Ev.pt, Function.comp_def]
  · rw [List.filter_cons_of_neg (by simp [Pt.isCallback])]
    simp [callbacks, Ev.pt, Function.comp_def, filter_after]

theorem fwd_log_pts {σ : Type} (fuel : ℕ) (w : World D σ) (i di : I) (dO : O) :
    ∃ l, (fwd B opt fuel w i di dO).1.log = w.log ++ l ∧
      l.map Ev.pt = (fwdPts B opt fuel w i di).filter Pt.isCallback := by
  have hl : ∀ fuel it c x p, (fwdLoop B opt fuel it c x p).1.log.map Ev.pt
      = (fwdLoopPts B opt fuel it c x p).filter Pt.isCallback := by
    intro fuel
    induction fuel with
    | zero => intros; rfl
    | succ f ih =>
      intro it c x p
      simp only [fwdLoop, fwdLoopPts]
      by_cases hf : opt.crit.finished it (B.time x.disc)
      · simp [if_pos hf]
      rw [if_neg hf, if_neg hf, List.filter_append, ← runStepFwd_log_pts (p := p)]
      rcases runStepFwd B opt (it + 1) c x p with ⟨⟨c', x', log, e | u⟩, p'⟩
      · simp
      · simp [ih]
  simp only [fwd, fwdPts]
  refine ⟨_, ?_, hl fuel 0 w.ctrl _ _⟩
  split <;> rfl

theorem allReverse_log_pts (xs : List (IState D)) (p : D) :
    (allReverse B opt xs p).2.map Ev.pt
      = (reversePts opt xs.length).filter Pt.isCallback := by
  induction xs generalizing p with
  | nil => rfl
  | cons x rest ih =>
    simp only [allReverse, List.length_cons, reversePts, runStepRev, List.filter_append,
      filter_before, List.map_append, ih]
    rw [List.filter_cons_of_neg (by simp [Pt.isCallback])]
    simp [callbacks, Ev.pt, Function.comp_def, filter_after]

theorem rev_log_pts (fuel : ℕ) (w : World D (List (IState D))) (i dI : I) (dO : O) :
    ∃ l, (rev B opt (allCk B opt) fuel w i dO dI).1.log = w.log ++ l ∧
      l.map Ev.pt = (revPts B opt fuel w i).filter Pt.isCallback := by
  simp only [rev, revPrep, revPts]
  by_cases hca : cacheOk B w i = true
  · simp only [if_pos hca]
    refine ⟨_, rfl, ?_⟩
    rw [← List.length_reverse (as := w.ck)]
    exact allReverse_log_pts _ _
  · simp only [if_neg hca, List.filter_append]
    obtain ⟨l, h1, h2⟩ := compute_log_pts (B := B) (opt := opt) fuel w i
    rcases hc : compute B opt (allCk B opt) fuel w i with ⟨w1, e | v⟩
    · rw [hc] at h1
      exact ⟨l, h1, by simpa using h2⟩
    · rw [hc] at h1
      refine ⟨l ++ (allReverse B opt w1.ck.reverse (B.seed w1.pert dO)).2, ?_, ?_⟩
      · rw [← List.append_assoc, ← h1]
        rfl
      · rw [List.map_append, h2, allReverse_log_pts, List.length_reverse]

end Verif.Integrator
