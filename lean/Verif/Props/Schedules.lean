/-
Reverse mode with a given number of checkpoints (C97): which results it has, how many states are
stored and how many steps are computed.
-/
import Verif.Integrator.Revolve
import Verif.Props.PyrevolveChain

namespace Verif.Props

open Verif.RK Verif.RK.Spec Verif.Control Verif.XReal Verif.Integrator
open Classical

variable {s n m o l : ℕ} {opt : Options}
variable {D I O : Type} {B : Backend D I O}

/-! ### Counting the steps of the forward run -/

/-- How many steps of the forward run callback `j` has seen. -/
def stepsSeen (j : ℕ) (log : List (Ev D)) : ℕ := (beforeNumbers .compute j log).length

theorem stepsSeen_append (j : ℕ) (a b : List (Ev D)) :
    stepsSeen j (a ++ b) = stepsSeen j a + stepsSeen j b := by
  simp [stepsSeen, beforeNumbers]

theorem stepsSeen_runStep {j it : ℕ} {c : Ctrl} {x : IState D} (hj : j < opt.computeCallbacks)
    (h : (runStep B opt it c x).out = .ok ()) : stepsSeen j (runStep B opt it c x).log = 1 := by
  simp only [runStep] at h ⊢
  rcases hs : iterateOnStep B opt opt.recursionLimit c x with ⟨c', x', e | u⟩
  · rw [hs] at h; simp at h
  · dsimp only
    rw [stepsSeen_append]
    have h1 : stepsSeen j (callbacks (fun j => Ev.before Kind.compute j it x)
        opt.computeCallbacks) = 1 := by
      rw [stepsSeen, beforeNumbers, callbacks, List.filterMap_map,
        filterMap_range j opt.computeCallbacks it hj _ (by intro j'; simp)]
      rfl
    have h2 : stepsSeen j (callbacks (fun j => Ev.after Kind.compute j it x')
        opt.computeCallbacks) = 0 := by
      simp [stepsSeen, beforeNumbers, callbacks, List.filterMap_map]
    omega

theorem stepsSeen_runStepRev (j it : ℕ) (x : IState D) (p : D) :
    stepsSeen j (runStepRev B opt it x p).2 = 0 := by
  simp [stepsSeen, beforeNumbers, runStepRev, callbacks, List.filterMap_map]

theorem stepsSeen_fwdApply {j : ℕ} (hj : j < opt.computeCallbacks) (it count : ℕ) {c : Ctrl}
    {x : IState D} (h : (fwdApply B opt it count c x).out = .ok ()) :
    stepsSeen j (fwdApply B opt it count c x).log = count := by
  induction count generalizing it c x with
  | zero => rfl
  | succ k ih =>
    simp only [fwdApply] at h ⊢
    rcases hr : runStep B opt it c x with ⟨c', x', log, e | u⟩
    · rw [hr] at h; simp at h
    · rw [hr] at h
      have h1 := stepsSeen_runStep (B := B) (it := it) (c := c) (x := x) hj (by rw [hr])
      rw [hr] at h1
      dsimp only at h h1 ⊢
      rw [stepsSeen_append, ih (it + 1) h, h1]
      omega

theorem stepsSeen_applyForward {R : Restore D} {j n k : ℕ} (hj : j < opt.computeCallbacks)
    {acts : List Act} {sl sl' : ℕ → Option ℕ} (hl : LegalF n acts k sl sl') {d : PyData D}
    {c : Ctrl} {x : IState D} (h : (applyForward B opt R n acts d c x).2.out = .ok ()) :
    stepsSeen j (applyForward B opt R n acts d c x).2.log = workOf n acts := by
  induction hl generalizing d c x with
  | @advance acts a b sl sl' hab hbn hl ih =>
    simp only [applyForward] at h ⊢
    rcases hr : fwdApply B opt (a + 1) (b - a) c x with ⟨c', x', log, e | u⟩
    · rw [hr] at h; simp at h
    · rw [hr] at h
      have h1 := stepsSeen_fwdApply (B := B) hj (a + 1) (b - a) (c := c) (x := x) (by rw [hr])
      rw [hr] at h1
      dsimp only at h h1 ⊢
      rw [stepsSeen_append, ih h, h1, workOf_cons]
      rfl
  | takeshot hl ih =>
    rw [workOf_cons, Act.work, Nat.zero_add]
    exact ih h
  | @restore acts k k' i sl sl' hi hl ih =>
    rw [workOf_cons, Act.work, Nat.zero_add]
    simp only [applyForward] at h ⊢
    cases hi : d.slots i with
    | none => rw [hi] at h; simp at h
    | some y => rw [hi] at h; exact ih h
  | lastfw ha =>
    rw [workOf_cons]
    exact stepsSeen_fwdApply hj _ _ h

theorem stepsSeen_applyReverse {R : Restore D} {j n k todo : ℕ} (hj : j < opt.computeCallbacks)
    {acts : List Act} {sl : ℕ → Option ℕ} (hl : LegalR n acts k sl todo) {d : PyData D}
    {c : Ctrl} {x : IState D} {p : D}
    (h : (applyReverse B opt R acts d c x p).2.1.out = .ok ()) :
    stepsSeen j (applyReverse B opt R acts d c x p).2.1.log = workOf n acts := by
  induction hl generalizing d c x p with
  | done => rfl
  | @advance acts a b sl todo hab hbn hl ih =>
    simp only [applyReverse] at h ⊢
    rcases hr : fwdApply B opt (a + 1) (b - a) c x with ⟨c', x', log, e | u⟩
    · rw [hr] at h; simp at h
    · rw [hr] at h
      have h1 := stepsSeen_fwdApply (B := B) hj (a + 1) (b - a) (c := c) (x := x) (by rw [hr])
      rw [hr] at h1
      dsimp only at h h1 ⊢
      rw [stepsSeen_append, ih h, h1, workOf_cons]
      rfl
  | takeshot hl ih =>
    rw [workOf_cons, Act.work, Nat.zero_add]
    exact ih h
  | @restore acts k k' i sl todo hi hl ih =>
    rw [workOf_cons, Act.work, Nat.zero_add]
    simp only [applyReverse] at h ⊢
    cases hi : d.slots i with
    | none => rw [hi] at h; simp at h
    | some y => rw [hi] at h; exact ih h
  | @reverse acts k sl hl ih =>
    simp only [applyReverse] at h ⊢
    rcases hr : fwdApply B opt (k + 1) 1 c x with ⟨c', x', log, e | u⟩
    · rw [hr] at h; simp at h
    · rw [hr] at h
      have h1 := stepsSeen_fwdApply (B := B) hj (k + 1) 1 (c := c) (x := x) (by rw [hr])
      rw [hr] at h1
      dsimp only at h h1 ⊢
      rw [stepsSeen_append, stepsSeen_append, stepsSeen_runStepRev, ih h, h1, workOf_cons]
      rfl

/-! ### Counting the stored states -/

/-- All stored states are in slots below `b`. -/
def SlotsBelow (b : ℕ) (d : PyData D) : Prop := ∀ j, b ≤ j → d.slots j = none

theorem slotsBelow_applyForward {R : Restore D} {b n : ℕ} (acts : List Act)
    (ha : ∀ act ∈ acts, ∀ j, act.writesTo = some j → j < b) {d : PyData D} (hd : SlotsBelow b d)
    (c : Ctrl) (x : IState D) : SlotsBelow b (applyForward B opt R n acts d c x).1 := by
  induction acts generalizing d c x with
  | nil => exact hd
  | cons act acts ih =>
    have ih' := fun {d : PyData D} (hd : SlotsBelow b d) (c : Ctrl) (x : IState D) =>
      ih (fun a h => ha a (List.mem_cons_of_mem _ h)) hd c x
    cases act with
    | advance old capo =>
      simp only [applyForward]
      rcases hr : fwdApply B opt (old + 1) (capo - old) c x with ⟨c', x', log, e | u⟩
      · exact hd
      · exact ih' hd c' x'
    | takeshot j =>
      refine ih' ?_ c x
      intro j' hj'
      have := ha _ List.mem_cons_self j rfl
      dsimp only
      rw [Function.update_of_ne (by omega)]
      exact hd j' hj'
    | restore j =>
      simp only [applyForward]
      cases hj : d.slots j with
      | none => exact hd
      | some y => exact ih' hd c _
    | lastfw old => exact hd
    | reverse k => exact ih' hd c x

theorem slotsBelow_applyReverse {R : Restore D} {b : ℕ} (acts : List Act)
    (ha : ∀ act ∈ acts, ∀ j, act.writesTo = some j → j < b) {d : PyData D} (hd : SlotsBelow b d)
    (c : Ctrl) (x : IState D) (p : D) :
    SlotsBelow b (applyReverse B opt R acts d c x p).1 := by
  induction acts generalizing d c x p with
  | nil => exact hd
  | cons act acts ih =>
    have ih' := fun {d : PyData D} (hd : SlotsBelow b d) (c : Ctrl) (x : IState D) (p : D) =>
      ih (fun a h => ha a (List.mem_cons_of_mem _ h)) hd c x p
    cases act with
    | advance old capo =>
      simp only [applyReverse]
      rcases hr : fwdApply B opt (old + 1) (capo - old) c x with ⟨c', x', log, e | u⟩
      · exact hd
      · exact ih' hd c' x' p
    | takeshot j =>
      refine ih' ?_ c x p
      intro j' hj'
      have := ha _ List.mem_cons_self j rfl
      dsimp only
      rw [Function.update_of_ne (by omega)]
      exact hd j' hj'
    | restore j =>
      simp only [applyReverse]
      cases hj : d.slots j with
      | none => exact hd
      | some y => exact ih' hd c _ p
    | lastfw old => exact ih' hd c x p
    | reverse k =>
      simp only [applyReverse]
      rcases hr : fwdApply B opt (k + 1) 1 c x with ⟨c', x', log, e | u⟩
      · exact hd
      · exact ih' hd c' x' _

/-! ### `compute` and reverse products -/

theorem compute_counts {R : Restore D} {e : IState D} {N fuel b : ℕ} {sched : Schedule}
    {sl : ℕ → Option ℕ} (hl : LegalF N sched.fwd 0 (fun _ => none) sl)
    (hb : ∀ act ∈ sched.fwd, ∀ j, act.writesTo = some j → j < b)
    {w w' : World D (PyData D)} {i : I} {v : O}
    (h : compute B opt (pyCk B opt R e N sched) fuel w i = (w', .ok v)) :
    SlotsBelow b w'.ck ∧ ∃ new, w'.log = w.log ++ new ∧
      ∀ j < opt.computeCallbacks, stepsSeen j new = workOf N sched.fwd + 1 := by
  simp only [compute, pyCk, pyForward] at h
  generalize resetErrorControl opt w.ctrl _ = x0 at h
  rcases hr : fwdApply B opt 0 1 w.ctrl { x0 with disc := B.clearLin x0.disc }
    with ⟨c', x', log, e | u⟩
  · rw [hr] at h
    simp at h
  · rw [hr] at h
    have h1 := fun {j : ℕ} (hj : j < opt.computeCallbacks) => stepsSeen_fwdApply (B := B) hj 0 1
      (c := w.ctrl) (x := { x0 with disc := B.clearLin x0.disc }) (by rw [hr])
    rw [hr] at h1
    dsimp only at h h1
    generalize hs : PyData.mk _ _ = d at h
    have hd : SlotsBelow b d := by rw [← hs]; exact fun _ _ => rfl
    have h2 := fun {j : ℕ} (hj : j < opt.computeCallbacks) => stepsSeen_applyForward (B := B)
      (R := R) hj hl (d := d) (c := c') (x := x')
    have h3 := slotsBelow_applyForward (B := B) (opt := opt) (R := R) (n := N) sched.fwd hb hd c' x'
    rcases hq : applyForward B opt R N sched.fwd d c' x' with ⟨d', c2, x2, log2, e | u⟩
    · rw [hq] at h; simp at h
    · rw [hq] at h h2 h3
      simp only [Prod.mk.injEq] at h
      obtain ⟨rfl, -⟩ := h
      refine ⟨h3, log ++ log2, rfl, fun j hj => ?_⟩
      rw [stepsSeen_append, h1 hj, h2 hj rfl]
      omega

theorem rev_counts {R : Restore D} {e : IState D} {N fuel b : ℕ} {sched : Schedule}
    {sl : ℕ → Option ℕ} {k todo : ℕ} (hl : LegalR N sched.rev k sl todo)
    (hb : ∀ act ∈ sched.rev, ∀ j, act.writesTo = some j → j < b)
    {w w' : World D (PyData D)} {i dI g : I} {dO : O} (hok : cacheOk B w i = true)
    (hw : SlotsBelow b w.ck)
    (h : rev B opt (pyCk B opt R e N sched) fuel w i dO dI = (w', .ok g)) :
    SlotsBelow b w'.ck ∧ ∃ new, w'.log = w.log ++ new ∧
      ∀ j < opt.computeCallbacks, stepsSeen j new = workOf N sched.rev := by
  simp only [rev, revPrep, hok, if_true, pyCk, pyReverse] at h
  generalize hq : runStepRev B opt (sched.capo + 2) w.tis (B.seed w.pert dO) = q at h
  have h2 := fun {j : ℕ} (hj : j < opt.computeCallbacks) => stepsSeen_applyReverse (B := B)
    (R := R) hj hl (d := w.ck) (c := w.ctrl) (x := w.tis) (p := q.1)
  have h3 := slotsBelow_applyReverse (B := B) (opt := opt) (R := R) sched.rev hb hw w.ctrl w.tis q.1
  rcases hr : applyReverse B opt R sched.rev w.ck w.ctrl w.tis q.1 with ⟨d', ⟨c2, x2, log2, e | u⟩, p2⟩
  · rw [hr] at h; simp at h
  · rw [hr] at h h2 h3
    simp only [Prod.mk.injEq] at h
    obtain ⟨rfl, -⟩ := h
    refine ⟨h3, q.2 ++ log2 ++ (runStepRev B opt 1 (x2.set B d'.first) p2).2, rfl, fun j hj => ?_⟩
    rw [stepsSeen_append, stepsSeen_append, stepsSeen_runStepRev, h2 hj rfl, ← hq,
      stepsSeen_runStepRev]
    omega

theorem recursive_slots (split : ℕ → ℕ → ℕ) (N free : ℕ) :
    (∀ act ∈ (recursiveSchedule split N free).fwd, ∀ j, act.writesTo = some j → j < free + 1) ∧
    ∀ act ∈ (recursiveSchedule split N free).rev, ∀ j, act.writesTo = some j → j < free + 1 := by
  have h := lastSegment_slots split (N + 1) 0 0 free
  refine ⟨fun act hact j hj => ?_, fun act hact j hj => ?_⟩
  · simp only [recursiveSchedule, List.mem_cons] at hact
    rcases hact with rfl | hact
    · simp only [Act.writesTo, Option.some.injEq] at hj
      omega
    · have := h act (List.mem_append.mpr (.inl hact)) j hj
      omega
  · have := h act (List.mem_append.mpr (.inr hact)) j hj
    omega

theorem recursive_work {N free r : ℕ} (hr : N + 1 ≤ (free + 1 + r).choose (free + 1)) :
    workOf (N + 1) (recursiveSchedule binomialSplit N free).fwd
      + workOf (N + 1) (recursiveSchedule binomialSplit N free).rev ≤ (r + 1) * (N + 1) := by
  have h := lastSegment_work (n := N + 1) (N + 1) 0 0 free r (by omega) (by omega) hr
  simpa [recursiveSchedule, workOf_cons, Act.work] using h

/-! ### C97 -/

/-- C97 (plain schemes): two or more steps (`N + 2`), any number of checkpoints (`free + 1`), any rule
for dividing segments: the reverse product has the outcome it has if all states are stored, without
adaptive stepping or with a single error controller. -/
theorem C97_same_result (E : Env s n m o l) (hz : NoStageState E.ode) {N free fuel : ℕ}
    (split : ℕ → ℕ → ℕ) (hN : opt.crit = .steps (N + 2)) (hf : N + 2 < fuel)
    {e : IState (RKState ℝ s n m o l)}
    {w : World (RKState ℝ s n m o l) (PyData (RKState ℝ s n m o l))}
    {w0 : World (RKState ℝ s n m o l) (List (IState (RKState ℝ s n m o l)))}
    (hp : opt.adaptive = false ∨ ∃ par cfg, w.ctrl = .base par cfg) (hc : w.ctrl = w0.ctrl)
    (hw : w.cached = none) (hw0 : w0.cached = none) (cw : w.pert.stageStates = 0)
    (cw0 : w0.pert.stageStates = 0) (i dI : StartingValues ℝ n m) (dO : Outputs n) :
    (rev (rkBackend E) opt (pyCk (rkBackend E) opt rkRestore e (N + 1)
        (recursiveSchedule split N free)) fuel w i dO dI).2
      = (rev (rkBackend E) opt (allCk (rkBackend E) opt) fuel w0 i dO dI).2 :=
  C33_pyrevolve_reverse_partial E hz (recursiveSchedule_legal split N free) hN hf hp hc hw hw0 cw cw0
    i dI dO

/-- C97 (embedded schemes). -/
theorem C97_same_result_embedded (E : Env s n m o l) (bhat : Fin s → ℝ) (hz : NoStageState E.ode)
    {N free fuel : ℕ} (split : ℕ → ℕ → ℕ) (hN : opt.crit = .steps (N + 2)) (hf : N + 2 < fuel)
    {e : IState (EmbRKState ℝ s n m o l)}
    {w : World (EmbRKState ℝ s n m o l) (PyData (EmbRKState ℝ s n m o l))}
    {w0 : World (EmbRKState ℝ s n m o l) (List (IState (EmbRKState ℝ s n m o l)))}
    (hp : opt.adaptive = false ∨ ∃ par cfg, w.ctrl = .base par cfg) (hc : w.ctrl = w0.ctrl)
    (hw : w.cached = none) (hw0 : w0.cached = none) (cw : w.pert.stageStates = 0)
    (cw0 : w0.pert.stageStates = 0) (i dI : StartingValues ℝ n m) (dO : Outputs n) :
    (rev (embBackend E bhat) opt (pyCk (embBackend E bhat) opt embRestore e (N + 1)
        (recursiveSchedule split N free)) fuel w i dO dI).2
      = (rev (embBackend E bhat) opt (allCk (embBackend E bhat) opt) fuel w0 i dO dI).2 :=
  C33_embedded_pyrevolve_reverse_partial E bhat hz (recursiveSchedule_legal split N free) hN hf hp hc
    hw hw0 cw cw0 i dI dO

/-- C97: at no time more states are stored than there are checkpoints (slots are never emptied, so it
is enough to look at the end), after `compute` and after the reverse product. -/
theorem C97_memory (split : ℕ → ℕ → ℕ) {R : Restore D} {e : IState D} {N free fuel : ℕ}
    {w w1 w2 : World D (PyData D)} {i dI g : I} {dO v : O}
    (hcomp : compute B opt (pyCk B opt R e (N + 1) (recursiveSchedule split N free)) fuel w i
      = (w1, .ok v))
    (hhit : cacheOk B w1 i = true)
    (hrev : rev B opt (pyCk B opt R e (N + 1) (recursiveSchedule split N free)) fuel w1 i dO dI
      = (w2, .ok g)) :
    (∀ j, free + 1 ≤ j → w1.ck.slots j = none) ∧ ∀ j, free + 1 ≤ j → w2.ck.slots j = none := by
  obtain ⟨-, sl, hlf, hlr⟩ := recursiveSchedule_legal split N free
  obtain ⟨h1, h2⟩ := recursive_slots split N free
  have hc := compute_counts hlf h1 hcomp
  exact ⟨hc.1, (rev_counts hlr h2 hhit hc.1 hrev).1⟩

/-- C97: with `free + 1` checkpoints and binomial division, `compute` and a reverse product together
compute at most `(r + 1) (N + 1) + 1` steps of the forward run, if there are `N + 2` steps and
`N + 1 ≤ binom(free + 1 + r, free + 1)`. (Counted by any callback of the forward run.) -/
theorem C97_work {R : Restore D} {e : IState D} {N free r fuel : ℕ}
    (hr : N + 1 ≤ (free + 1 + r).choose (free + 1))
    {w w1 w2 : World D (PyData D)} {i dI g : I} {dO v : O}
    (hcomp : compute B opt (pyCk B opt R e (N + 1) (recursiveSchedule binomialSplit N free)) fuel w i
      = (w1, .ok v))
    (hhit : cacheOk B w1 i = true)
    (hrev : rev B opt (pyCk B opt R e (N + 1) (recursiveSchedule binomialSplit N free)) fuel w1 i dO
      dI = (w2, .ok g)) :
    ∃ new, w2.log = w.log ++ new ∧ ∀ j < opt.computeCallbacks,
      (beforeNumbers .compute j new).length ≤ (r + 1) * (N + 1) + 1 := by
  obtain ⟨-, sl, hlf, hlr⟩ := recursiveSchedule_legal binomialSplit N free
  obtain ⟨h1, h2⟩ := recursive_slots binomialSplit N free
  obtain ⟨hs, new1, e1, c1⟩ := compute_counts hlf h1 hcomp
  obtain ⟨-, new2, e2, c2⟩ := rev_counts hlr h2 hhit hs hrev
  refine ⟨new1 ++ new2, by rw [e2, e1, List.append_assoc], fun j hj => ?_⟩
  have := stepsSeen_append j new1 new2
  rw [c1 j hj, c2 j hj] at this
  have hw := recursive_work hr
  show stepsSeen j _ ≤ _
  omega

/-- Runs that meet the hypotheses, for any number of steps from two on and any number of
checkpoints: `compute` and the reverse product after it succeed. -/
example (k free : ℕ) (split : ℕ → ℕ → ℕ) (dO : Outputs 1) :
    let opt : Options := { Integrator.Ex.opt3 with crit := .steps (k + 2) }
    let B := rkBackend Integrator.Ex.env
    let ck := pyCk B opt rkRestore (Integrator.Ex.fresh opt .all).tis (k + 1)
      (recursiveSchedule split k free)
    ∃ w1 v w2 g, compute B opt ck (k + 3) (freshWorld opt ck RKState.empty Integrator.Ex.ctrl)
        Integrator.Ex.inp = (w1, .ok v) ∧ cacheOk B w1 Integrator.Ex.inp = true ∧
      rev B opt ck (k + 3) w1 Integrator.Ex.inp dO ⟨0, 0, 0⟩ = (w2, .ok g) := by
  intro opt B ck
  obtain ⟨tr, htr⟩ := exists_run_fixed (B := rkBackend Integrator.Ex.env) (opt := opt)
    (n := k + 2) rfl rfl (by simp [opt, Integrator.Ex.opt3]) Integrator.Ex.ctrl
    (startOf (rkBackend Integrator.Ex.env) opt Integrator.Ex.ctrl
      (Integrator.Ex.fresh opt .all).tis.disc Integrator.Ex.inp)
    (fun d => ⟨computeStep Integrator.Ex.env.T Integrator.Ex.env.ode d (1 / 2), by
      simp [rkBackend, startOf, opt, Integrator.Ex.opt3, Integrator.Ex.env]⟩) 0
  have hlen := htr.length_steps (opt := opt) (n := k + 2) rfl (Nat.zero_le _)
  have hlegal := recursiveSchedule_legal split k free
  obtain ⟨-, sl, hlf, -⟩ := id hlegal
  have hcomp := compute_of_run (ch := .all) (w := Integrator.Ex.fresh opt .all) (fuel := k + 3) htr
    (by omega)
  have h1 := C31_pyrevolve_loading_schedules (rkLawful Integrator.Ex.env
    Integrator.Ex.env_noStageState) (rkRestore_lawful Integrator.Ex.env
    Integrator.Ex.env_noStageState) (e := (Integrator.Ex.fresh opt .all).tis) hlf
    (opt := opt) rfl (fuel := k + 3) (by omega) (ch := .all)
    (freshWorld opt ck RKState.empty Integrator.Ex.ctrl) (Integrator.Ex.fresh opt .all) (Or.inl rfl)
    rfl Integrator.Ex.inp
  rw [hcomp] at h1
  have h2 := eq_mk_of_snd h1
  have h3 := C33_pyrevolve_cached_partial Integrator.Ex.env Integrator.Ex.env_noStageState
    hlegal (opt := opt) rfl (fuel := k + 3) (by omega) (e := (Integrator.Ex.fresh opt .all).tis)
    (w := freshWorld opt ck RKState.empty Integrator.Ex.ctrl) (w0 := Integrator.Ex.fresh opt .all)
    (Or.inl rfl) rfl rfl rfl rfl Integrator.Ex.inp ⟨0, 0, 0⟩ _ h2 [] dO
  rw [rev_of_run rfl htr (by omega)] at h3
  refine ⟨_, _, _, _, h2, ?_, eq_mk_of_snd h3⟩
  simp only [compute]
  split <;> exact rk_cacheHit Integrator.Ex.env _ _

/-- As many checkpoints as steps: every step is computed at most twice. -/
example (N : ℕ) : N + 1 ≤ (N + 1 + 1).choose (N + 1) := by
  rw [Nat.choose_succ_self_right]
  omega

/-- Five checkpoints are enough for 253 steps with at most six computations of each. -/
example : 251 + 1 ≤ (4 + 1 + 5).choose (4 + 1) := by decide

/-- What the schedule for four steps and two checkpoints looks like. -/
example : recursiveSchedule (fun _ _ => 1) 2 1 =
    ⟨[.takeshot 0, .advance 0 1, .takeshot 1, .advance 1 2, .lastfw 2], 2,
      [.restore 1, .reverse 1, .restore 0, .reverse 0]⟩ := by
  simp [recursiveSchedule, lastSegment, reverseSegment, leftPart]

end Verif.Props
