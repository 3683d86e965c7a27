/-
Runs of the integrator as sequences of accepted steps, and the relation of all loops of the model
to them. `Run` is the specification the properties in `Verif.Props.Integrator` talk about.
-/
import Verif.Integrator.Model

namespace Verif.Integrator

open Verif.Control Verif.XReal
open Classical

variable {D I O : Type}

/-- A complete run: starting with `it` steps done, controller `c` and state `x`, the steps lead
through the listed controllers and states until the criterion is met. -/
inductive Run (B : Backend D I O) (opt : Options) :
    ℕ → Ctrl → IState D → List (Ctrl × IState D) → Prop
  | done {it c x} (h : opt.crit.finished it (B.time x.disc)) : Run B opt it c x []
  | step {it c x c' x' tr} (h : ¬ opt.crit.finished it (B.time x.disc))
      (hs : iterateOnStep B opt opt.recursionLimit c x = (c', x', .ok ()))
      (hr : Run B opt (it + 1) c' x' tr) : Run B opt it c x ((c', x') :: tr)

/-- The last controller and state of a run. -/
def lastOf (c : Ctrl) (x : IState D) : List (Ctrl × IState D) → Ctrl × IState D
  | [] => (c, x)
  | q :: tr => lastOf q.1 q.2 tr

/-- The calls of the callbacks of one list during a run: for every step all `before` with the
state before the step, then all `after` with the state after it. -/
def runLog (k : Kind) (count : ℕ) : ℕ → IState D → List (Ctrl × IState D) → List (Ev D)
  | _, _, [] => []
  | it, x, q :: tr =>
    (List.range count).map (fun j => .before k j (it + 1) x)
      ++ (List.range count).map (fun j => .after k j (it + 1) q.2)
      ++ runLog k count (it + 1) q.2 tr

variable {B : Backend D I O} {opt : Options}

theorem Run.unique {it : ℕ} {c : Ctrl} {x : IState D} {t1 t2 : List (Ctrl × IState D)}
    (h1 : Run B opt it c x t1) (h2 : Run B opt it c x t2) : t1 = t2 := by
  induction h1 generalizing t2 with
  | done h =>
    cases h2 with
    | done => rfl
    | step h' => exact absurd h h'
  | step h hs hr ih =>
    cases h2 with
    | done h' => exact absurd h' h
    | step h' hs' hr' =>
      rw [hs] at hs'
      cases hs'
      rw [ih hr']

theorem noForward_of_run {it : ℕ} {c : Ctrl} {x : IState D} {tr : List (Ctrl × IState D)}
    (h : Run B opt it c x tr) {fuel : ℕ} (hf : tr.length < fuel) :
    noForward B opt fuel it c x = ⟨(lastOf c x tr).1, (lastOf c x tr).2,
      runLog .compute opt.computeCallbacks it x tr, .ok ()⟩ := by
  induction h generalizing fuel with
  | done h =>
    cases fuel with
    | zero => simp at hf
    | succ f => simp [noForward, h, lastOf, runLog]
  | step h hs hr ih =>
    cases fuel with
    | zero => simp at hf
    | succ f =>
      have hf' := Nat.lt_of_succ_lt_succ hf
      simp only [noForward, if_neg h, runStep, hs, ih hf', lastOf, runLog, callbacks]

theorem run_of_noForward {fuel it : ℕ} {c : Ctrl} {x : IState D}
    (h : (noForward B opt fuel it c x).out = .ok ()) :
    ∃ tr, Run B opt it c x tr ∧ tr.length < fuel := by
  induction fuel generalizing it c x with
  | zero => simp [noForward] at h
  | succ f ih =>
    by_cases hfin : opt.crit.finished it (B.time x.disc)
    · exact ⟨[], .done hfin, by simp⟩
    · simp only [noForward, if_neg hfin, runStep] at h
      rcases hs : iterateOnStep B opt opt.recursionLimit c x with ⟨c', x', e | u⟩
      · rw [hs] at h; simp at h
      · rw [hs] at h
        obtain ⟨tr, htr, hl⟩ := ih h
        exact ⟨(c', x') :: tr, .step hfin hs htr, by simpa using hl⟩

theorem allForward_eq (fuel it : ℕ) (stor : List (IState D)) (c : Ctrl) (x : IState D) :
    (allForward B opt fuel it stor c x).2 = noForward B opt fuel it c x := by
  induction fuel generalizing it stor c x with
  | zero => rfl
  | succ f ih =>
    simp only [allForward, noForward]
    split
    · rfl
    · rcases runStep B opt (it + 1) c x with ⟨c', x', log, e | u⟩
      · rfl
      · simp only [ih]

theorem allForward_of_run {it : ℕ} {c : Ctrl} {x : IState D} {tr : List (Ctrl × IState D)}
    (h : Run B opt it c x tr) {fuel : ℕ} (hf : tr.length < fuel) (stor : List (IState D)) :
    (allForward B opt fuel it stor c x).1 = stor ++ tr.map Prod.snd := by
  induction h generalizing fuel stor with
  | done h =>
    cases fuel with
    | zero => simp at hf
    | succ f => simp [allForward, h]
  | step h hs hr ih =>
    cases fuel with
    | zero => simp at hf
    | succ f =>
      have hf' := Nat.lt_of_succ_lt_succ hf
      simp only [allForward, if_neg h, runStep, hs, ih hf', List.append_assoc, List.map_cons,
        List.cons_append, List.nil_append]

/-- The forward derivative along a run. -/
def fwdAlong (B : Backend D I O) : List (Ctrl × IState D) → D → D
  | [], p => p
  | q :: tr, p => fwdAlong B tr (B.deriv q.2.disc p q.2.stepHist.1)

/-- The reverse derivative along a list of stored states, last state first. -/
def revAlong (B : Backend D I O) : List (IState D) → D → D
  | [], p => p
  | x :: xs, p => revAlong B xs (B.adj x.disc p x.stepHist.1)

theorem fwdLoop_of_run {it : ℕ} {c : Ctrl} {x : IState D} {tr : List (Ctrl × IState D)}
    (h : Run B opt it c x tr) {fuel : ℕ} (hf : tr.length < fuel) (p : D) :
    fwdLoop B opt fuel it c x p = (⟨(lastOf c x tr).1, (lastOf c x tr).2,
      runLog .fwd opt.fwdCallbacks it x tr, .ok ()⟩, fwdAlong B tr p) := by
  induction h generalizing fuel p with
  | done h =>
    cases fuel with
    | zero => simp at hf
    | succ f => simp [fwdLoop, h, lastOf, runLog, fwdAlong]
  | step h hs hr ih =>
    cases fuel with
    | zero => simp at hf
    | succ f =>
      have hf' := Nat.lt_of_succ_lt_succ hf
      simp only [fwdLoop, if_neg h, runStepFwd, hs, ih hf', lastOf, runLog, callbacks, fwdAlong]

theorem run_of_fwdLoop {fuel it : ℕ} {c : Ctrl} {x : IState D} {p : D}
    (h : (fwdLoop B opt fuel it c x p).1.out = .ok ()) :
    ∃ tr, Run B opt it c x tr ∧ tr.length < fuel := by
  induction fuel generalizing it c x p with
  | zero => simp [fwdLoop] at h
  | succ f ih =>
    by_cases hfin : opt.crit.finished it (B.time x.disc)
    · exact ⟨[], .done hfin, by simp⟩
    · simp only [fwdLoop, if_neg hfin, runStepFwd] at h
      rcases hs : iterateOnStep B opt opt.recursionLimit c x with ⟨c', x', e | u⟩
      · rw [hs] at h; simp at h
      · rw [hs] at h
        obtain ⟨tr, htr, hl⟩ := ih h
        exact ⟨(c', x') :: tr, .step hfin hs htr, by simpa using hl⟩

theorem allReverse_fst (xs : List (IState D)) (p : D) :
    (allReverse B opt xs p).1 = revAlong B xs p := by
  induction xs generalizing p with
  | nil => rfl
  | cons x xs ih => simp [allReverse, runStepRev, ih, revAlong]

/-- One step, seen from the attempt that was accepted: it is the result of a single attempt from
the state before the step, with some step size `h`. -/
structure Accepted (B : Backend D I O) (opt : Options) (x x' : IState D) : Prop where
  ex : ∃ h d, B.step x.disc h = .ok d ∧ x'.disc = B.set x.disc d ∧ x'.stepHist.1 = h ∧
    (opt.adaptive = false → h = x.sugg ∧ x'.sugg = x.sugg ∧ x'.stepHist.2 = x.stepHist.2 ∧
      x'.errHist = x.errHist) ∧
    (opt.adaptive = true → x'.stepHist.2 = x.stepHist.1 ∧ x'.errHist.2 = x.errHist.1 ∧
      B.measure d = .ok x'.errHist.1 ∧
      ∃ (c c' : Ctrl), c.call true ⟨x'.errHist.1, h, opt.crit.remaining (B.time d), x.errHist,
        x.stepHist⟩ = (c', .ok ⟨x'.sugg, true⟩))

theorem iterate_accepted {f : ℕ} {c c' : Ctrl} {x x' : IState D}
    (h : iterateOnStep B opt f c x = (c', x', .ok ())) : Accepted B opt x x' := by
  induction f generalizing c x with
  | zero => simp [iterateOnStep] at h
  | succ f ih =>
    simp only [iterateOnStep] at h
    rcases hstep : B.step x.disc x.sugg with e | d
    · rw [hstep] at h; simp at h
    · rw [hstep] at h
      dsimp only at h
      by_cases had : opt.adaptive = true
      · rw [if_pos had] at h
        rcases hm : B.measure d with e | err
        · rw [hm] at h; simp at h
        · rw [hm] at h
          dsimp only at h
          rcases hc : c.call true ⟨err, x.sugg, opt.crit.remaining (B.time d), x.errHist,
              x.stepHist⟩ with ⟨c1, e | st⟩
          · rw [hc] at h; simp at h
          · rw [hc] at h
            dsimp only at h
            by_cases hacc : st.acc = true
            · rw [if_pos hacc] at h
              simp only [Prod.mk.injEq, and_true] at h
              obtain ⟨rfl, rfl⟩ := h
              refine ⟨x.sugg, d, hstep, rfl, rfl, by simp [had], fun _ => ⟨rfl, rfl, hm, c, c1, ?_⟩⟩
              rw [hc]
              cases st
              simp_all
            · rw [if_neg hacc] at h
              obtain ⟨h', d', h1, h2, h3, h4, h5⟩ := ih h
              exact ⟨h', d', h1, h2, h3, fun hn => by simp [had] at hn, h5⟩
      · rw [if_neg had] at h
        simp only [Prod.mk.injEq, and_true] at h
        obtain ⟨rfl, rfl⟩ := h
        exact ⟨x.sugg, d, hstep, rfl, rfl, fun _ => ⟨rfl, rfl, rfl, rfl⟩, fun hn => absurd hn had⟩

/-- With a fixed step size, a step makes one attempt and does not touch the controller. -/
theorem iterate_fixed (had : opt.adaptive = false) (f : ℕ) (c : Ctrl) (x : IState D) :
    iterateOnStep B opt (f + 1) c x =
      match B.step x.disc x.sugg with
      | .error e => (c, x, .error e)
      | .ok d => (c, { x with disc := B.set x.disc d, stepHist := (x.sugg, x.stepHist.2) },
          .ok ()) := by
  rcases hs : B.step x.disc x.sugg with e | d <;> simp [iterateOnStep, had, hs]

end Verif.Integrator
