/-
Model of the messages of adaptive steps.

Source: /repo/src/rkopenmdao/runge_kutta_integrator.py L560-637

Simplifications: the messages are those of rank 0, the other ranks print nothing; numbers are printed
exactly; when the recursion limit is reached, nothing is printed for the attempt that is not made.
-/
import Verif.Integrator.Model

namespace Verif.Integrator

open Verif.Control Verif.XReal

variable {D I O : Type}

/-- A message of `_iterate_on_step`. -/
inductive Msg where
  /-- `Start Iteration i: Trying with h`, L568-571 -/
  | start (i : ℕ) (h : XReal)
  /-- `End Iteration i: h succeeded. Estimation for next step is: next` or `End Iteration i: h failed.
  retrying with: next`, L596-601 -/
  | done (i : ℕ) (h : XReal) (succeeded : Bool) (next : XReal)

/-- `_iterate_on_step` with its messages, L560-637; `i` is the number of the attempt. -/
noncomputable def iterateMsg (B : Backend D I O) (opt : Options) :
    ℕ → ℕ → Ctrl → IState D → List Msg × (Ctrl × IState D × Except Err Unit)
  | 0, _, c, x => ([], c, x, .error .recursion)
  | f + 1, i, c, x =>
    -- L566-571
    let ms := if opt.adaptive then [Msg.start i x.sugg] else []
    match B.step x.disc x.sugg with
    | .error e => (ms, c, x, .error e)
    | .ok d =>
      if opt.adaptive then
        match B.measure d with
        | .error e => (ms, c, x, .error e)
        | .ok err =>
          match c.call true ⟨err, x.sugg, opt.crit.remaining (B.time d), x.errHist,
              x.stepHist⟩ with
          | (c', .error e) => (ms, c', x, .error (.controller e))
          | (c', .ok st) =>
            -- L594-601
            let ms := ms ++ [.done i x.sugg st.acc st.sugg]
            if st.acc then
              (ms, c', ⟨B.set x.disc d, st.sugg, (x.sugg, x.stepHist.1), (err, x.errHist.1)⟩, .ok ())
            else
              let r := iterateMsg B opt f (i + 1) c' { x with sugg := st.sugg }
              (ms ++ r.1, r.2)
      else
        (ms, c, { x with disc := B.set x.disc d, stepHist := (x.sugg, x.stepHist.2) }, .ok ())

/-- The messages do not change what is computed. -/
theorem iterateMsg_snd (B : Backend D I O) (opt : Options) (f i : ℕ) (c : Ctrl) (x : IState D) :
    (iterateMsg B opt f i c x).2 = iterateOnStep B opt f c x := by
  induction f generalizing i c x with
  | zero => rfl
  | succ f ih =>
    rw [iterateMsg, iterateOnStep]
    cases B.step x.disc x.sugg with
    | error e => rfl
    | ok d =>
      dsimp only
      by_cases ha : opt.adaptive = true
      · simp only [ha, if_true]
        cases B.measure d with
        | error e => rfl
        | ok err =>
          dsimp only
          rcases c.call true ⟨err, x.sugg, opt.crit.remaining (B.time d), x.errHist, x.stepHist⟩
            with ⟨c', e | st⟩
          · rfl
          · dsimp only
            by_cases hs : st.acc = true
            · simp only [hs, if_true]
            · simp only [hs]
              exact ih _ _ _
      · simp only [ha]
        rfl

end Verif.Integrator
