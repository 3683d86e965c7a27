/-
On a single rank the programs of `Verif.Parallel.Model` are the functions of
`Verif.Integrator.Model`.
-/
import Verif.Parallel.Model

namespace Verif.Parallel

open Verif.Control Verif.XReal Verif.Integrator
open Classical

variable {D I O α β : Type} {B : Backend D I O} {opt : Options}

theorem run_bind (P : Prog D α) (f : α → Prog D β) :
    (P.bind f).run B = (f (P.run B)).run B := by
  induction P with
  | done a => rfl
  | step d h k ih => exact ih _
  | measure d k ih => exact ih _
  | deriv d p h k ih => exact ih _
  | adj d p h k ih => exact ih _

theorem iterateP_run (f : ℕ) (c : Ctrl) (x : IState D) :
    (iterateP (Local.of B) opt f c x).run B = iterateOnStep B opt f c x := by
  induction f generalizing c x with
  | zero => rfl
  | succ f ih =>
    rw [iterateP, iterateOnStep, Prog.run]
    rcases B.step x.disc x.sugg with e | d
    · rfl
    · dsimp only
      split
      · rw [Prog.run]
        rcases B.measure d with e | err
        · rfl
        · simp only [Local.of]
          rcases c.call true ⟨err, x.sugg, opt.crit.remaining (B.time d), x.errHist, x.stepHist⟩
            with ⟨c', e | st⟩
          · rfl
          · dsimp only
            split
            · rfl
            · exact ih _ _
      · rfl

theorem runStepP_run (it : ℕ) (c : Ctrl) (x : IState D) :
    (runStepP (Local.of B) opt it c x).run B = runStep B opt it c x := by
  rw [runStepP, run_bind, iterateP_run, runStep]
  rcases iterateOnStep B opt opt.recursionLimit c x with ⟨c', x', e | ⟨⟩⟩ <;> rfl

theorem noForwardP_run (f it : ℕ) (c : Ctrl) (x : IState D) :
    (noForwardP (Local.of B) opt f it c x).run B = noForward B opt f it c x := by
  induction f generalizing it c x with
  | zero => rfl
  | succ f ih =>
    rw [noForwardP, noForward]
    change Prog.run B (if opt.crit.finished it (B.time x.disc) then _ else _) = _
    split
    · rfl
    · rw [run_bind, runStepP_run]
      rcases runStep B opt (it + 1) c x with ⟨c', x', log, e | ⟨⟩⟩
      · rfl
      · dsimp only
        rw [run_bind, ih]
        rfl

theorem allForwardP_run (f it : ℕ) (stor : List (IState D)) (c : Ctrl) (x : IState D) :
    (allForwardP (Local.of B) opt f it stor c x).run B = allForward B opt f it stor c x := by
  induction f generalizing it stor c x with
  | zero => rfl
  | succ f ih =>
    rw [allForwardP, allForward]
    change Prog.run B (if opt.crit.finished it (B.time x.disc) then _ else _) = _
    split
    · rfl
    · rw [run_bind, runStepP_run]
      rcases runStep B opt (it + 1) c x with ⟨c', x', log, e | ⟨⟩⟩
      · rfl
      · dsimp only
        rw [run_bind, ih]
        rfl

theorem allReverseP_run (l : List (IState D)) (p : D) :
    (allReverseP opt l p).run B = allReverse B opt l p := by
  induction l generalizing p with
  | nil => rfl
  | cons x rest ih =>
    rw [allReverseP, run_bind, run_bind, ih, allReverse]
    rfl

theorem forwardP_run (ch : Choice) (f : ℕ) (s : ch.Data D) (c : Ctrl) (x : IState D) :
    (forwardP (Local.of B) opt ch f s c x).run B = (ch.ck B opt).forward f s c x := by
  cases ch with
  | no => rw [forwardP, run_bind, noForwardP_run]; rfl
  | all => exact allForwardP_run ..

theorem reverseP_run (ch : Choice) (s : ch.Data D) (c : Ctrl) (x : IState D) (p : D) :
    (reverseP opt ch s c x p).run B = (ch.ck B opt).reverse s c x p := by
  cases ch with
  | no => rfl
  | all => rw [reverseP, run_bind, allReverseP_run]; rfl

theorem createP_eq (ch : Choice) (s : ch.Data D) : createP ch s = (ch.ck B opt).create s := by
  cases ch <;> rfl

theorem computeP_run (ch : Choice) (f : ℕ) (w : World D (ch.Data D)) (i : I) :
    (computeP (Local.of B) opt ch f w i).run B = compute B opt (ch.ck B opt) f w i := by
  unfold computeP
  dsimp only
  rw [run_bind, forwardP_run, createP_eq (B := B) (opt := opt), compute]
  dsimp only [Local.of]
  split <;> simp only [*] <;> rfl

theorem runStepFwdP_run (it : ℕ) (c : Ctrl) (x : IState D) (p : D) :
    (runStepFwdP (Local.of B) opt it c x p).run B = runStepFwd B opt it c x p := by
  rw [runStepFwdP, run_bind, iterateP_run, runStepFwd]
  rcases iterateOnStep B opt opt.recursionLimit c x with ⟨c', x', e | ⟨⟩⟩ <;> rfl

theorem fwdLoopP_run (f it : ℕ) (c : Ctrl) (x : IState D) (p : D) :
    (fwdLoopP (Local.of B) opt f it c x p).run B = fwdLoop B opt f it c x p := by
  induction f generalizing it c x p with
  | zero => rfl
  | succ f ih =>
    rw [fwdLoopP, fwdLoop]
    change Prog.run B (if opt.crit.finished it (B.time x.disc) then _ else _) = _
    split
    · rfl
    · rw [run_bind, runStepFwdP_run]
      rcases runStepFwd B opt (it + 1) c x p with ⟨⟨c', x', log, e | ⟨⟩⟩, p'⟩
      · rfl
      · dsimp only
        rw [run_bind, ih]
        rfl

theorem fwdP_run {σ : Type} (f : ℕ) (w : World D σ) (i di : I) (dO : O) :
    (fwdP (Local.of B) opt f w i di dO).run B = fwd B opt f w i di dO := by
  unfold fwdP
  dsimp only
  rw [run_bind, fwdLoopP_run, fwd]
  dsimp only [Local.of]
  split <;> simp only [*] <;> rfl

theorem revPrepP_run (ch : Choice) (f : ℕ) (w : World D (ch.Data D)) (i : I) :
    (revPrepP (Local.of B) opt ch f w i).run B = revPrep B opt (ch.ck B opt) f w i := by
  rw [revPrepP, revPrep]
  change Prog.run B (if cacheOk B w i = true then _ else _) = _
  split
  · rfl
  · rw [run_bind, computeP_run]
    rcases compute B opt (ch.ck B opt) f w i with ⟨w', e | v⟩ <;> rfl

theorem revP_run (ch : Choice) (f : ℕ) (w : World D (ch.Data D)) (i : I) (dO : O) (dI : I) :
    (revP (Local.of B) opt ch f w i dO dI).run B = rev B opt (ch.ck B opt) f w i dO dI := by
  rw [revP, run_bind, revPrepP_run, rev]
  rcases revPrep B opt (ch.ck B opt) f w i with ⟨w1, e | ⟨⟩⟩
  · rfl
  · dsimp only
    rw [run_bind, reverseP_run]
    dsimp only [Local.of]
    split <;> simp only [*] <;> rfl

theorem opP_run (ch : Choice) (f : ℕ) (w : World D (ch.Data D)) (op : Op I O) :
    (opP (Local.of B) opt ch f w op).run B = doOp B opt (ch.ck B opt) f w op := by
  cases op with
  | compute i => rw [opP, run_bind, computeP_run]; rfl
  | fwd i di dO => rw [opP, run_bind, fwdP_run]; rfl
  | rev i dO dI => rw [opP, run_bind, revP_run]; rfl

theorem opsP_run (ch : Choice) (f : ℕ) (w : World D (ch.Data D)) (ops : List (Op I O)) :
    (opsP (Local.of B) opt ch f w ops).run B = doOps B opt (ch.ck B opt) f w ops := by
  induction ops generalizing w with
  | nil => rfl
  | cons op ops ih => rw [opsP, run_bind, opP_run, ih, doOps, doOps, List.foldl_cons]

end Verif.Parallel
