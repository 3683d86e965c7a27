/-
Properties of the integrator component with the two simple checkpointing choices:
steps, numbering, time, histories, callbacks (C10, C16, C21, C24, C31, C32, C34, C40, C53).
-/
import Verif.Integrator.Examples

namespace Verif.Props

open Verif.RK Verif.Control Verif.XReal Verif.Integrator
open Classical

variable {D I O : Type} {B : Backend D I O} {opt : Options} {s n m o l : ℕ}

/-! ### C16 -/

/-- The step numbers callback `j` of list `k` is given before steps. -/
def beforeNumbers (k : Kind) (j : ℕ) (log : List (Ev D)) : List ℕ :=
  log.filterMap fun
    | .before k' j' it _ => if k' = k ∧ j' = j then some it else none
    | .after .. => none

/-- The step numbers callback `j` of list `k` is given after steps. -/
def afterNumbers (k : Kind) (j : ℕ) (log : List (Ev D)) : List ℕ :=
  log.filterMap fun
    | .after k' j' it _ => if k' = k ∧ j' = j then some it else none
    | .before .. => none

theorem filterMap_range (j c it : ℕ) (hj : j < c) (f : ℕ → Option ℕ)
    (hf : ∀ j', f j' = if j' = j then some it else none) :
    (List.range c).filterMap f = [it] := by
  induction c with
  | zero => omega
  | succ c ih =>
    rw [List.range_succ, List.filterMap_append]
    by_cases h : j = c
    · subst h
      have : (List.range j).filterMap f = [] := by
        rw [List.filterMap_eq_nil_iff]
        intro a ha
        rw [hf, if_neg]
        have := List.mem_range.mp ha
        omega
      rw [this]
      simp [hf]
    · rw [ih (by omega)]
      simp [hf, Ne.symm h]

theorem numbers_runLog (k : Kind) (c j it : ℕ) (hj : j < c) (x : IState D)
    (tr : List (Ctrl × IState D)) :
    beforeNumbers k j (runLog k c it x tr) = (List.range tr.length).map (· + (it + 1)) ∧
    afterNumbers k j (runLog k c it x tr) = (List.range tr.length).map (· + (it + 1)) := by
  induction tr generalizing it x with
  | nil => simp [runLog, beforeNumbers, afterNumbers]
  | cons q tr ih =>
    obtain ⟨i1, i2⟩ := ih (it + 1) q.2
    have e1 : ∀ x : IState D, beforeNumbers k j ((List.range c).map fun j' => Ev.before k j' (it + 1) x)
        = [it + 1] := fun x => by
      unfold beforeNumbers
      rw [List.filterMap_map]
      exact filterMap_range j c (it + 1) hj _ (fun j' => by simp)
    have e2 : ∀ x : IState D, afterNumbers k j ((List.range c).map fun j' => Ev.after k j' (it + 1) x)
        = [it + 1] := fun x => by
      unfold afterNumbers
      rw [List.filterMap_map]
      exact filterMap_range j c (it + 1) hj _ (fun j' => by simp)
    have e3 : ∀ x : IState D, beforeNumbers k j ((List.range c).map fun j' => Ev.after k j' (it + 1) x)
        = [] := fun x => by
      unfold beforeNumbers
      rw [List.filterMap_map, List.filterMap_eq_nil_iff]
      intro a _
      rfl
    have e4 : ∀ x : IState D, afterNumbers k j ((List.range c).map fun j' => Ev.before k j' (it + 1) x)
        = [] := fun x => by
      unfold afterNumbers
      rw [List.filterMap_map, List.filterMap_eq_nil_iff]
      intro a _
      rfl
    have hr : (List.range (tr.length + 1)).map (· + (it + 1))
        = (it + 1) :: (List.range tr.length).map (· + (it + 1 + 1)) := by
      rw [List.range_succ_eq_map, List.map_cons, List.map_map]
      simp only [Nat.zero_add, List.cons.injEq, true_and]
      apply List.map_congr_left
      intro a _
      simp only [Function.comp]
      omega
    simp only [runLog, List.length_cons, hr]
    constructor
    · rw [← i1, ← List.singleton_append, ← e1 x]
      simp only [beforeNumbers, List.filterMap_append, List.append_assoc]
      have := e3 q.2
      simp only [beforeNumbers] at this
      rw [this, List.nil_append]
    · rw [← i2, ← List.singleton_append, ← e2 q.2]
      simp only [afterNumbers, List.filterMap_append, List.append_assoc]
      have := e4 x
      simp only [afterNumbers] at this
      rw [this, List.nil_append]

/-- C16 for `compute` with NoCheckpointer and AllCheckpointer: the result is that of a chain of
exactly `N` steps from the inputs, and every callback sees the step numbers 1..N in this order,
before and after the steps. -/
theorem C16_compute_number_of_steps_partial {N fuel : ℕ} {ch : Choice}
    {w w' : World D (ch.Data D)} {i : I} {v : O} (hc : opt.crit = .steps N)
    (h : compute B opt (ch.ck B opt) fuel w i = (w', .ok v)) :
    (∃ l, l.length = N ∧ Path B (B.clearLin (B.load w.tis.disc i)) l w'.tis.disc ∧
      v = B.read w'.tis.disc) ∧
    ∃ new, w'.log = w.log ++ new ∧ ∀ j, j < opt.computeCallbacks →
      beforeNumbers .compute j new = (List.range N).map (· + 1) ∧
      afterNumbers .compute j new = (List.range N).map (· + 1) := by
  obtain ⟨tr, htr, -, -, ht, hlog, hv, -⟩ := compute_run h
  have hlen := htr.length_steps hc (Nat.zero_le _)
  rw [Nat.zero_add] at hlen
  obtain ⟨l, hl1, hl2, -⟩ := htr.path
  refine ⟨⟨l, by rw [hl2, hlen], by rw [ht]; exact hl1, hv⟩, _, hlog, fun j hj => ?_⟩
  have := numbers_runLog .compute opt.computeCallbacks j 0 hj
    (startOf B opt w.ctrl w.tis.disc i) tr
  rw [hlen] at this
  exact this

/-- C16 for the forward mode product: `N` derivative steps along `N` steps, numbered 1..N. -/
theorem C16_fwd_number_of_steps {σ : Type} {N fuel : ℕ}
    {w w' : World D σ} {i di : I} {dO v : O} (hc : opt.crit = .steps N)
    (h : fwd B opt fuel w i di dO = (w', .ok v)) :
    ∃ new, w'.log = w.log ++ new ∧ ∀ j, j < opt.fwdCallbacks →
      beforeNumbers .fwd j new = (List.range N).map (· + 1) ∧
      afterNumbers .fwd j new = (List.range N).map (· + 1) := by
  obtain ⟨tr, htr, -, -, hlog, -⟩ := fwd_run h
  have hlen := htr.length_steps hc (Nat.zero_le _)
  rw [Nat.zero_add] at hlen
  refine ⟨_, hlog, fun j hj => ?_⟩
  have := numbers_runLog .fwd opt.fwdCallbacks j 0 hj
    (startOfFwd B opt w.ctrl w.tis.disc i) tr
  rw [hlen] at this
  exact this

/-- C16, that the claims above are about something: with fixed steps and a stage problem that
does not fail, `compute` returns a result for every number of steps. -/
theorem C16_compute_succeeds (E : Env s n m o l) (hE : ∀ v h, E.fails v h = none) (dt : ℝ)
    (N : ℕ) (ha : opt.adaptive = false) (hc : opt.crit = .steps N)
    (hi : opt.initialStep = fin dt) (hl : opt.recursionLimit ≠ 0) (ch : Choice)
    (w : World (RKState ℝ s n m o l) (ch.Data (RKState ℝ s n m o l))) (i : StartingValues ℝ n m)
    (fuel : ℕ) (hf : N < fuel) :
    ∃ w' v, compute (rkBackend E) opt (ch.ck (rkBackend E) opt) fuel w i = (w', .ok v) :=
  Integrator.Ex.compute_ok E hE opt dt N ha hc hi hl ch w i fuel hf

example (ch : Choice) : ∃ w' v, compute (rkBackend Integrator.Ex.env) Integrator.Ex.opt3
      (ch.ck (rkBackend Integrator.Ex.env) Integrator.Ex.opt3) 4
      (Integrator.Ex.fresh Integrator.Ex.opt3 ch) Integrator.Ex.inp = (w', .ok v) ∧
    beforeNumbers .compute 0 w'.log = [1, 2, 3] := by
  obtain ⟨w', v, h⟩ := Integrator.Ex.fresh_compute_ok ch 4 (by omega)
    (Integrator.Ex.fresh Integrator.Ex.opt3 ch) Integrator.Ex.inp
  obtain ⟨-, new, hn, hb⟩ := C16_compute_number_of_steps_partial rfl h
  refine ⟨w', v, h, ?_⟩
  rw [hn]
  exact (hb 0 (by simp [Integrator.Ex.opt3])).1

/-! ### C10, whole runs -/

theorem path_time (E : Env s n m o l) {d d' : RKState ℝ s n m o l}
    {p : List (XReal × RKState ℝ s n m o l)} (h : Path (rkBackend E) d p d') (hs : List ℝ)
    (he : p.map Prod.fst = hs.map fin) : d'.finalTime = d.finalTime + hs.sum := by
  induction h generalizing hs with
  | nil => cases hs <;> simp_all
  | @cons d h e p d' hst hp ih =>
    rcases hs with _ | ⟨r, hs⟩
    · simp at he
    · simp only [List.map_cons, List.cons.injEq] at he
      obtain ⟨rfl, he⟩ := he
      rw [ih hs he]
      simp only [rkBackend] at hst
      rcases hf : E.fails (rkObs d) r with _ | err
      · rw [hf] at hst
        simp only [Except.ok.injEq] at hst
        subst hst
        have := (C10_step_times E.T E.ode d r).1
        simp only [rkBackend, RKState.set, this, List.sum_cons]
        ring
      · rw [hf] at hst; simp at hst

theorem path_time_emb (E : Env s n m o l) (bhat : Fin s → ℝ) {d d' : EmbRKState ℝ s n m o l}
    {p : List (XReal × EmbRKState ℝ s n m o l)} (h : Path (embBackend E bhat) d p d')
    (hs : List ℝ) (he : p.map Prod.fst = hs.map fin) :
    d'.finalTime = d.finalTime + hs.sum := by
  induction h generalizing hs with
  | nil => cases hs <;> simp_all
  | @cons d h e p d' hst hp ih =>
    rcases hs with _ | ⟨r, hs⟩
    · simp at he
    · simp only [List.map_cons, List.cons.injEq] at he
      obtain ⟨rfl, he⟩ := he
      rw [ih hs he]
      simp only [embBackend] at hst
      rcases hf : E.fails (rkObs d.toRKState) r with _ | err
      · rw [hf] at hst
        simp only [Except.ok.injEq] at hst
        subst hst
        have := (C10_step_times E.T E.ode d.toRKState r).1
        simp only [embBackend, EmbRKState.set, RKState.set, computeStepEmb, computeErrorEstimate,
          this, List.sum_cons]
        ring
      · rw [hf] at hst; simp at hst

/-- C10 for whole runs (plain schemes): the result is that of a chain of steps, and its time is
the initial time plus the sum of the sizes of these steps. -/
theorem C10_run_time (E : Env s n m o l) {fuel : ℕ} {ch : Choice}
    {w w' : World (RKState ℝ s n m o l) (ch.Data (RKState ℝ s n m o l))}
    {i : StartingValues ℝ n m} {v : Outputs n}
    (h : compute (rkBackend E) opt (ch.ck (rkBackend E) opt) fuel w i = (w', .ok v)) :
    ∃ p, Path (rkBackend E) ((rkBackend E).clearLin ((rkBackend E).load w.tis.disc i)) p
        w'.tis.disc ∧ v.values = w'.tis.disc.finalState ∧
      ∀ hs : List ℝ, p.map Prod.fst = hs.map fin → v.time = i.initialTime + hs.sum := by
  obtain ⟨tr, htr, -, -, ht, -, hv, -⟩ := compute_run h
  obtain ⟨p, hp, -⟩ := htr.path
  rw [← ht] at hp
  refine ⟨p, hp, by rw [hv]; rfl, fun hs he => ?_⟩
  rw [hv]
  exact path_time E hp hs he

/-- C10 for whole runs of embedded schemes, with adaptive steps: only accepted steps count. -/
theorem C10_run_time_embedded (E : Env s n m o l) (bhat : Fin s → ℝ) {fuel : ℕ} {ch : Choice}
    {w w' : World (EmbRKState ℝ s n m o l) (ch.Data (EmbRKState ℝ s n m o l))}
    {i : StartingValues ℝ n m} {v : Outputs n}
    (h : compute (embBackend E bhat) opt (ch.ck (embBackend E bhat) opt) fuel w i = (w', .ok v)) :
    ∃ p, Path (embBackend E bhat)
        ((embBackend E bhat).clearLin ((embBackend E bhat).load w.tis.disc i)) p
        w'.tis.disc ∧ v.values = w'.tis.disc.finalState ∧
      ∀ hs : List ℝ, p.map Prod.fst = hs.map fin → v.time = i.initialTime + hs.sum := by
  obtain ⟨tr, htr, -, -, ht, -, hv, -⟩ := compute_run h
  obtain ⟨p, hp, -⟩ := htr.path
  rw [← ht] at hp
  refine ⟨p, hp, by rw [hv]; rfl, fun hs he => ?_⟩
  rw [hv]
  exact path_time_emb E bhat hp hs he

/-- C10 for a fixed step size and number of steps. -/
theorem C10_fixed_run_time (E : Env s n m o l) {fuel N : ℕ} {ch : Choice} {dt : ℝ}
    (ha : opt.adaptive = false) (hc : opt.crit = .steps N) (hi : opt.initialStep = fin dt)
    {w w' : World (RKState ℝ s n m o l) (ch.Data (RKState ℝ s n m o l))}
    {i : StartingValues ℝ n m} {v : Outputs n}
    (h : compute (rkBackend E) opt (ch.ck (rkBackend E) opt) fuel w i = (w', .ok v)) :
    v.time = i.initialTime + N * dt := by
  obtain ⟨tr, htr, -, -, ht, -, hv, -⟩ := compute_run h
  obtain ⟨p, hp, h2, h3, h4, -⟩ := htr.path
  have hlen := htr.length_steps hc (Nat.zero_le _)
  rw [Nat.zero_add] at hlen
  rw [← ht] at hp
  rw [hv]
  have := path_time E hp (List.replicate N dt) ?_
  · rw [List.sum_replicate, nsmul_eq_mul] at this
    exact this
  · rw [List.map_replicate, List.eq_replicate_iff]
    refine ⟨by rw [List.length_map, h2, hlen], fun b hb => ?_⟩
    obtain ⟨q, hq, rfl⟩ := List.mem_map.mp hb
    rw [h4 ha q hq]
    exact hi

example (ch : Choice) : ∃ w' v, compute (rkBackend Integrator.Ex.env) Integrator.Ex.opt3
      (ch.ck (rkBackend Integrator.Ex.env) Integrator.Ex.opt3) 4
      (Integrator.Ex.fresh Integrator.Ex.opt3 ch) Integrator.Ex.inp = (w', .ok v) ∧
    v.time = 7 / 2 := by
  obtain ⟨w', v, h⟩ := Integrator.Ex.fresh_compute_ok ch 4 (by omega)
    (Integrator.Ex.fresh Integrator.Ex.opt3 ch) Integrator.Ex.inp
  refine ⟨w', v, h, ?_⟩
  rw [C10_fixed_run_time Integrator.Ex.env rfl rfl rfl h]
  norm_num [Integrator.Ex.inp]

/-! ### C21 -/

/-- C21: a step that is accepted after any number of rejected attempts leaves the same state,
times, histories and controller as if only the last attempt had been made, with its step size,
from the state before the step. `c2` is the controller at that attempt. -/
theorem C21_rejected_leave_no_trace {f : ℕ} {c c' : Ctrl} {x x' : IState D}
    (h : iterateOnStep B opt f c x = (c', x', .ok ())) :
    ∃ c2 size, iterateOnStep B opt 1 c2 { x with sugg := size } = (c', x', .ok ()) ∧
      x'.stepHist.1 = size := by
  induction f generalizing c x with
  | zero => simp [iterateOnStep] at h
  | succ f ih =>
    have h0 := h
    simp only [iterateOnStep] at h
    rcases hstep : B.step x.disc x.sugg with e | d
    · rw [hstep] at h; simp at h
    · rw [hstep] at h
      dsimp only at h
      by_cases had : opt.adaptive = true
      · rw [if_pos had] at h
        rcases hm : B.measure d with e | err
        · rw [hm] at h; simp at h
        · rw [hm] at h
          dsimp only at h
          rcases hc : c.call true ⟨err, x.sugg, opt.crit.remaining (B.time d), x.errHist,
              x.stepHist⟩ with ⟨c1, e | st⟩
          · rw [hc] at h; simp at h
          · rw [hc] at h
            dsimp only at h
            by_cases hacc : st.acc = true
            · rw [if_pos hacc] at h
              refine ⟨c, x.sugg, ?_, ?_⟩
              · simp only [iterateOnStep, hstep, if_pos had, hm, hc, if_pos hacc]
                exact h
              · simp only [Prod.mk.injEq, and_true] at h
                rw [← h.2]
            · rw [if_neg hacc] at h
              obtain ⟨c2, size, h1, h2⟩ := ih h
              exact ⟨c2, size, h1, h2⟩
      · rw [if_neg had] at h
        refine ⟨c, x.sugg, ?_, ?_⟩
        · simp only [iterateOnStep, hstep, if_neg had]
          exact h
        · simp only [Prod.mk.injEq, and_true] at h
          rw [← h.2]

/-- C21, failing steps: if a step ends with an error, after any number of attempts, then nothing
but the suggested step size has changed. -/
theorem C21_failed_leave_no_trace {f : ℕ} {c c' : Ctrl} {x x' : IState D} {e : Err}
    (h : iterateOnStep B opt f c x = (c', x', .error e)) :
    x' = { x with sugg := x'.sugg } := by
  induction f generalizing c x with
  | zero => simp [iterateOnStep] at h; rw [← h.2.1]
  | succ f ih =>
    simp only [iterateOnStep] at h
    rcases hstep : B.step x.disc x.sugg with e | d
    · rw [hstep] at h; simp at h; rw [← h.2.1]
    · rw [hstep] at h
      dsimp only at h
      by_cases had : opt.adaptive = true
      · rw [if_pos had] at h
        rcases hm : B.measure d with e | err
        · rw [hm] at h; simp at h; rw [← h.2.1]
        · rw [hm] at h
          dsimp only at h
          rcases hc : c.call true ⟨err, x.sugg, opt.crit.remaining (B.time d), x.errHist,
              x.stepHist⟩ with ⟨c1, e | st⟩
          · rw [hc] at h; simp at h; rw [← h.2.1]
          · rw [hc] at h
            dsimp only at h
            by_cases hacc : st.acc = true
            · rw [if_pos hacc] at h; simp at h
            · rw [if_neg hacc] at h
              have := ih h
              rw [this]
      · rw [if_neg had] at h; simp at h

/-- C21 with the attempts: sizes `hs` and controllers `cs` of the attempts start with those before the
step, each rejected attempt starts from the state before the step and changes size and controller
only, and state, time and histories after the step are those of the last attempt alone. -/
theorem C21_attempts {f : ℕ} {c c' : Ctrl} {x x' : IState D} (ha : opt.adaptive = true)
    (h : iterateOnStep B opt f c x = (c', x', .ok ())) :
    ∃ (k : ℕ) (cs : ℕ → Ctrl) (hs : ℕ → XReal), k < f ∧ cs 0 = c ∧ hs 0 = x.sugg ∧
      (∀ j < k, ∃ d err st, B.step x.disc (hs j) = .ok d ∧ B.measure d = .ok err ∧
        (cs j).call true ⟨err, hs j, opt.crit.remaining (B.time d), x.errHist, x.stepHist⟩
          = (cs (j + 1), .ok st) ∧ st.acc = false ∧ hs (j + 1) = st.sugg) ∧
      ∃ d err st, B.step x.disc (hs k) = .ok d ∧ B.measure d = .ok err ∧
        (cs k).call true ⟨err, hs k, opt.crit.remaining (B.time d), x.errHist, x.stepHist⟩
          = (c', .ok st) ∧ st.acc = true ∧
        x' = ⟨B.set x.disc d, st.sugg, (hs k, x.stepHist.1), (err, x.errHist.1)⟩ := by
  induction f generalizing c x with
  | zero => simp [iterateOnStep] at h
  | succ f ih =>
    simp only [iterateOnStep] at h
    rcases hstep : B.step x.disc x.sugg with e | d
    · rw [hstep] at h; simp at h
    rw [hstep] at h
    dsimp only at h
    rw [if_pos ha] at h
    rcases hm : B.measure d with e | err
    · rw [hm] at h; simp at h
    rw [hm] at h
    dsimp only at h
    rcases hc : c.call true ⟨err, x.sugg, opt.crit.remaining (B.time d), x.errHist,
        x.stepHist⟩ with ⟨c1, e | st⟩
    · rw [hc] at h; simp at h
    rw [hc] at h
    dsimp only at h
    by_cases hacc : st.acc = true
    · rw [if_pos hacc] at h
      simp only [Prod.mk.injEq, and_true] at h
      obtain ⟨rfl, rfl⟩ := h
      exact ⟨0, fun _ => c, fun _ => x.sugg, Nat.succ_pos _, rfl, rfl, fun j hj => by omega,
        d, err, st, hstep, hm, hc, hacc, rfl⟩
    · rw [if_neg hacc] at h
      obtain ⟨k, cs, hs, hk, h0, h1, hrej, d2, err2, st2, g1, g2, g3, g4, g5⟩ := ih h
      dsimp only at h1 hrej g1 g3 g5
      refine ⟨k + 1, fun j => j.casesOn c cs, fun j => j.casesOn x.sugg hs, by omega, rfl, rfl,
        fun j hj => ?_, d2, err2, st2, g1, g2, g3, g4, g5⟩
      rcases j with _ | j
      · exact ⟨d, err, st, hstep, hm, hc.trans (congrArg (·, Except.ok st) h0.symm),
          by simpa using hacc, h1⟩
      · exact hrej j (by omega)

/-- C21 for a controller without a wrapped one: literally the same as if the accepted size had been
tried first, with the same controller. -/
theorem C21_stand_alone {f : ℕ} {par : Params} {cfg : Config} {c' : Ctrl} {x x' : IState D}
    (h : iterateOnStep B opt f (.base par cfg) x = (c', x', .ok ())) :
    iterateOnStep B opt 1 (.base par cfg) { x with sugg := x'.stepHist.1 } = (c', x', .ok ()) := by
  by_cases ha : opt.adaptive = true
  · obtain ⟨k, cs, hs, -, h0, -, hrej, d, err, st, g1, g2, g3, g4, rfl⟩ := C21_attempts ha h
    have hb : ∀ j ≤ k, cs j = .base par cfg := by
      intro j
      induction j with
      | zero => exact fun _ => h0
      | succ j ih =>
        intro hj
        obtain ⟨_, _, _, -, -, e, -⟩ := hrej j (by omega)
        rw [ih (by omega)] at e
        exact (congrArg Prod.fst e).symm
    rw [hb k le_rfl] at g3
    simp only [iterateOnStep, g1, g2, g3, if_pos ha, if_pos g4]
  · rcases f with _ | f
    · simp [iterateOnStep] at h
    · simp only [iterateOnStep, if_neg ha] at h ⊢
      rcases hstep : B.step x.disc x.sugg with e | d
      · rw [hstep] at h; simp at h
      · rw [hstep] at h
        simp only [Prod.mk.injEq, and_true] at h
        obtain ⟨rfl, rfl⟩ := h
        simp only [hstep]

/-! ### C24 -/

/-- C24 for adaptive runs: the histories hold sizes and measured errors of the last two of the
steps the result consists of, newest first, filled up with zero and the tolerance. -/
theorem C24_adaptive_histories {fuel : ℕ} {ch : Choice} {w w' : World D (ch.Data D)} {i : I}
    {v : O} (ha : opt.adaptive = true)
    (h : compute B opt (ch.ck B opt) fuel w i = (w', .ok v)) :
    ∃ l errs, Path B (B.clearLin (B.load w.tis.disc i)) l w'.tis.disc ∧
      l.map (fun q => B.measure q.2) = errs.map .ok ∧
      w'.tis.stepHist = lastTwo 0 (l.map Prod.fst) ∧
      w'.tis.errHist = lastTwo w.ctrl.config.tol errs := by
  obtain ⟨tr, htr, -, -, ht, -, hv, -⟩ := compute_run h
  obtain ⟨l, hp, -, h3, -, h5⟩ := htr.path
  obtain ⟨errs, e1, e2⟩ := h5 ha
  obtain ⟨g1, g2⟩ := htr.histories ha
  refine ⟨l, errs, by rw [ht]; exact hp, e1, ?_, ?_⟩
  · rw [ht, g1, h3, lastTwo]
    generalize (tr.map (fun q => q.2.stepHist.1)).reverse = L
    rcases L with _ | ⟨a, _ | ⟨b, t⟩⟩ <;> rfl
  · rw [ht, g2, e2, lastTwo]
    generalize (tr.map (fun q => q.2.errHist.1)).reverse = L
    rcases L with _ | ⟨a, _ | ⟨b, t⟩⟩ <;> rfl

/-- C24 for the embedded method: the recorded errors are the measures of error estimate and state of
the last two steps. -/
theorem C24_embedded_errors {s n m o l : ℕ} (E : Env s n m o l) (bhat : Fin s → ℝ) {fuel : ℕ}
    {ch : Choice} {w w' : World (EmbRKState ℝ s n m o l) (ch.Data (EmbRKState ℝ s n m o l))}
    {i : StartingValues ℝ n m} {v : Outputs n} (ha : opt.adaptive = true)
    (h : compute (embBackend E bhat) opt (ch.ck (embBackend E bhat) opt) fuel w i = (w', .ok v)) :
    ∃ l, Path (embBackend E bhat) ((embBackend E bhat).clearLin
        ((embBackend E bhat).load w.tis.disc i)) l w'.tis.disc ∧
      w'.tis.stepHist = lastTwo 0 (l.map Prod.fst) ∧
      w'.tis.errHist = lastTwo w.ctrl.config.tol
        (l.map fun q => E.measure q.2.errorEstimate q.2.finalState) := by
  obtain ⟨l, errs, h1, h2, h3, h4⟩ := C24_adaptive_histories ha h
  refine ⟨l, h1, h3, ?_⟩
  have e : errs = l.map fun q => E.measure q.2.errorEstimate q.2.finalState := by
    have h5 : (l.map fun q => E.measure q.2.errorEstimate q.2.finalState).map
        (Except.ok (ε := Err)) = errs.map .ok := by
      rw [← h2, List.map_map]
      rfl
    exact (List.map_injective_iff.mpr (fun a b hab => by cases hab; rfl) h5).symm
  rw [h4, e]

theorem run_fixed_hist {it : ℕ} {c : Ctrl} {x : IState D} {tr : List (Ctrl × IState D)}
    (ha : opt.adaptive = false) (h : Run B opt it c x tr) :
    (lastOf c x tr).2.stepHist = (if tr = [] then x.stepHist.1 else x.sugg, x.stepHist.2) ∧
    (lastOf c x tr).2.errHist = x.errHist := by
  induction h with
  | done => simp [lastOf]
  | @step it c x c' x' tr h hs hr ih =>
    obtain ⟨h', d, g1, g2, g3, g4, g5⟩ := iterate_accepted hs
    obtain ⟨k1, k2, k3, k4⟩ := g4 ha
    simp only [lastOf, ih.1, ih.2, k2, k3, k4, g3, k1, ite_self, reduceCtorEq, if_false, and_self]

/-- C24 for fixed steps, the part that holds: the newest entry is the size of the last step and
the error history is the tolerance. The second newest entry stays at zero, see below. -/
theorem C24_fixed_newest_partial {fuel : ℕ} {ch : Choice} {w w' : World D (ch.Data D)} {i : I}
    {v : O} (ha : opt.adaptive = false)
    (h : compute B opt (ch.ck B opt) fuel w i = (w', .ok v)) :
    ∃ l, Path B (B.clearLin (B.load w.tis.disc i)) l w'.tis.disc ∧
      w'.tis.stepHist = ((lastTwo 0 (l.map Prod.fst)).1, 0) ∧
      w'.tis.errHist = (w.ctrl.config.tol, w.ctrl.config.tol) := by
  obtain ⟨tr, htr, -, -, ht, -, hv, -⟩ := compute_run h
  obtain ⟨l, hp, h2, h3, h4, -⟩ := htr.path
  obtain ⟨g1, g2⟩ := run_fixed_hist ha htr
  refine ⟨l, by rw [ht]; exact hp, ?_, by rw [ht, g2]; rfl⟩
  rw [ht, g1]
  simp only [startOf, lastTwo] at h4 ⊢
  rw [Prod.mk.injEq]
  refine ⟨?_, rfl⟩
  have hall : ∀ a ∈ (l.map Prod.fst).reverse, a = opt.initialStep := by
    intro a hm
    rw [List.mem_reverse, List.mem_map] at hm
    obtain ⟨q, hq, rfl⟩ := hm
    exact h4 ha q hq
  have hnil : (l.map Prod.fst).reverse = [] ↔ tr = [] := by
    rw [← List.length_eq_zero_iff, ← List.length_eq_zero_iff, List.length_reverse,
      List.length_map, h2]
  generalize (l.map Prod.fst).reverse = L at hall hnil ⊢
  rcases L with _ | ⟨a, _ | ⟨b, t⟩⟩
  · simp [hnil.mp rfl]
  · have : tr ≠ [] := fun hh => by simpa using hnil.mpr hh
    simp [this, hall a (by simp)]
  · have : tr ≠ [] := fun hh => by simpa using hnil.mpr hh
    simp [this, hall a (by simp)]

/-- C24 does not hold for fixed steps: three steps of size 1/2 leave the history (1/2, 0), because
the result of `np.roll` is discarded (runge_kutta_integrator.py L633). -/
theorem C24_fixed_histories_violated (ch : Choice) : ∃ w' v,
    compute (rkBackend Integrator.Ex.env) Integrator.Ex.opt3
      (ch.ck (rkBackend Integrator.Ex.env) Integrator.Ex.opt3) 4
      (Integrator.Ex.fresh Integrator.Ex.opt3 ch) Integrator.Ex.inp = (w', .ok v) ∧
    w'.tis.stepHist = (fin (1 / 2), 0) ∧
    ∀ l, Path (rkBackend Integrator.Ex.env) ((rkBackend Integrator.Ex.env).clearLin
        ((rkBackend Integrator.Ex.env).load (RKState.empty) Integrator.Ex.inp)) l w'.tis.disc →
      (∀ q ∈ l, q.1 = fin (1 / 2)) → l.length = 3 →
      w'.tis.stepHist ≠ lastTwo 0 (l.map Prod.fst) := by
  obtain ⟨w', v, h⟩ := Integrator.Ex.fresh_compute_ok ch 4 (by omega)
    (Integrator.Ex.fresh Integrator.Ex.opt3 ch) Integrator.Ex.inp
  obtain ⟨tr, htr, -, -, ht, -, hv, -⟩ := compute_run h
  have hlen := htr.length_steps (n := 3) rfl (Nat.zero_le _)
  have hh : w'.tis.stepHist = (fin (1 / 2), 0) := by
    rw [ht, (run_fixed_hist rfl htr).1, if_neg]
    · rfl
    · rintro rfl; simp at hlen
  refine ⟨w', v, h, hh, fun l _ hq h3 => ?_⟩
  rw [hh]
  obtain ⟨a, b, c, rfl⟩ := List.length_eq_three.mp h3
  simp only [lastTwo, List.map_cons, List.map_nil, List.reverse_cons, List.reverse_nil,
    List.nil_append, List.cons_append]
  rw [hq b (by simp)]
  intro hcon
  have := congrArg Prod.snd hcon
  simp [zero_def] at this

/-! ### C31, NoCheckpointer and AllCheckpointer -/

/-- C31 for NoCheckpointer and AllCheckpointer: with the same component attributes, the result
(values, time, or the error), the state left behind and everything callbacks are given are the
same. -/
theorem C31_no_all_forward {fuel : ℕ} (w1 : World D Unit) (w2 : World D (List (IState D)))
    (i : I) (ht : w1.tis = w2.tis) (hc : w1.ctrl = w2.ctrl) (hl : w1.log = w2.log) :
    (compute B opt (noCk B opt) fuel w1 i).2 = (compute B opt (allCk B opt) fuel w2 i).2 ∧
    (compute B opt (noCk B opt) fuel w1 i).1.tis = (compute B opt (allCk B opt) fuel w2 i).1.tis ∧
    (compute B opt (noCk B opt) fuel w1 i).1.ctrl = (compute B opt (allCk B opt) fuel w2 i).1.ctrl ∧
    (compute B opt (noCk B opt) fuel w1 i).1.log = (compute B opt (allCk B opt) fuel w2 i).1.log := by
  have e := fun stor c x => allForward_eq (B := B) (opt := opt) fuel 0 stor c x
  simp only [compute, noCk, allCk, ht, hc, hl, e, id]
  generalize noForward B opt fuel 0 _ _ = r
  rcases r with ⟨c', x', log, e | u⟩ <;> simp

example : (compute (rkBackend Integrator.Ex.env) Integrator.Ex.opt3
      (noCk (rkBackend Integrator.Ex.env) Integrator.Ex.opt3) 4
      (Integrator.Ex.fresh Integrator.Ex.opt3 .no) Integrator.Ex.inp).2
    = (compute (rkBackend Integrator.Ex.env) Integrator.Ex.opt3
      (allCk (rkBackend Integrator.Ex.env) Integrator.Ex.opt3) 4
      (Integrator.Ex.fresh Integrator.Ex.opt3 .all) Integrator.Ex.inp).2 :=
  (C31_no_all_forward _ _ _ rfl rfl rfl).1

/-! ### C32 -/

/-- The calls of the callbacks in a reverse sweep over recorded states, given last state first:
for every step all `before`, then all `after`, with the state recorded for this step. -/
def revLog (count : ℕ) : List (IState D) → List (Ev D)
  | [] => []
  | x :: xs =>
    (List.range count).map (fun j => .before .rev j (xs.length + 1) x)
      ++ (List.range count).map (fun j => .after .rev j (xs.length + 1) x)
      ++ revLog count xs

theorem allReverse_snd (xs : List (IState D)) (p : D) :
    (allReverse B opt xs p).2 = revLog opt.revCallbacks xs := by
  induction xs generalizing p with
  | nil => rfl
  | cons x xs ih => simp [allReverse, runStepRev, ih, revLog, callbacks]

/-- The step adjoints along states, applied one after the other, first state of the list first,
each at the state's own data and last step size. -/
def adjoints (B : Backend D I O) (xs : List (IState D)) (p : D) : D :=
  xs.foldl (fun p x => B.adj x.disc p x.stepHist.1) p

theorem revAlong_eq (xs : List (IState D)) (p : D) : revAlong B xs p = adjoints B xs p := by
  induction xs generalizing p with
  | nil => rfl
  | cons x xs ih => simp [revAlong, ih, adjoints]

theorem revLog_flat (count : ℕ) (xs : List (IState D)) :
    revLog count xs.reverse = (List.zip (List.range xs.length) xs).reverse.flatMap
      (fun q => (List.range count).map (fun j => .before .rev j (q.1 + 1) q.2) ++
        (List.range count).map (fun j => .after .rev j (q.1 + 1) q.2)) := by
  induction xs using List.reverseRecOn with
  | nil => rfl
  | append_singleton xs x ih =>
    rw [List.reverse_append, List.length_append]
    simp only [List.reverse_cons, List.reverse_nil, List.nil_append, List.singleton_append, revLog,
      List.length_singleton, List.range_succ, List.length_reverse, ih]
    rw [List.zip_append (by simp), List.reverse_append]
    simp

/-- C32: after a successful `compute` with AllCheckpointer, the reverse product at the same inputs
applies exactly one step adjoint for each step of the forward run, last to first, each at the
state the forward run had after exactly this step (what the after-callbacks of the forward run
were given), and numbers them n..1. -/
theorem C32_reverse_sweep {fuel : ℕ} {w w' : World D (List (IState D))} {i : I} {v : O}
    (h : compute B opt (allCk B opt) fuel w i = (w', .ok v))
    (hhit : B.cacheHit (B.load w.tis.disc i) i = true) (dO : O) (dI : I) :
    ∃ tr, Run B opt 0 w.ctrl (startOf B opt w.ctrl w.tis.disc i) tr ∧
      w'.log = w.log ++ runLog .compute opt.computeCallbacks 0
        (startOf B opt w.ctrl w.tis.disc i) tr ∧
      (rev B opt (allCk B opt) fuel w' i dO dI).2
        = .ok (B.writeIn (adjoints B (tr.map Prod.snd).reverse (B.seed w'.pert dO)) dI) ∧
      (rev B opt (allCk B opt) fuel w' i dO dI).1.log
        = w'.log ++ revLog opt.revCallbacks (tr.map Prod.snd).reverse := by
  obtain ⟨tr, htr, hlt, -, ht, hlog, hv, hcache, -⟩ := compute_run (ch := .all) h
  have hst := compute_stores h htr
  refine ⟨tr, htr, hlog, ?_, ?_⟩
  · simp only [rev, revPrep, cacheOk, hcache, hhit, if_true, allCk, hst, allReverse_fst, revAlong_eq]
  · simp only [rev, revPrep, cacheOk, hcache, hhit, if_true, allCk, hst, allReverse_snd]

theorem beforeNumbers_revLog (count j : ℕ) (hj : j < count) (xs : List (IState D)) :
    beforeNumbers .rev j (revLog count xs) = ((List.range xs.length).map (· + 1)).reverse := by
  induction xs with
  | nil => rfl
  | cons x xs ih =>
    have e1 : beforeNumbers .rev j
        ((List.range count).map fun j' => Ev.before .rev j' (xs.length + 1) x)
        = [xs.length + 1] := by
      unfold beforeNumbers
      rw [List.filterMap_map]
      exact filterMap_range j count _ hj _ (fun j' => by simp)
    have e3 : beforeNumbers .rev j
        ((List.range count).map fun j' => Ev.after .rev j' (xs.length + 1) x) = [] := by
      unfold beforeNumbers
      rw [List.filterMap_map, List.filterMap_eq_nil_iff]
      intro a _
      rfl
    simp only [revLog, List.length_cons, List.range_succ, List.map_append, List.reverse_append,
      List.map_cons, List.map_nil, List.reverse_cons, List.reverse_nil, List.nil_append]
    rw [← ih, ← e1]
    simp only [beforeNumbers, List.filterMap_append, List.append_assoc] at e3 ⊢
    rw [e3, List.nil_append]

/-- C32, numbering: the callbacks of the reverse sweep see the numbers N..1. -/
theorem C32_reverse_numbers {fuel N : ℕ} {w w' : World D (List (IState D))} {i : I} {v : O}
    (hc : opt.crit = .steps N) (h : compute B opt (allCk B opt) fuel w i = (w', .ok v))
    (hhit : B.cacheHit (B.load w.tis.disc i) i = true) (dO : O) (dI : I) :
    ∃ new, (rev B opt (allCk B opt) fuel w' i dO dI).1.log = w'.log ++ new ∧
      ∀ j, j < opt.revCallbacks →
        beforeNumbers .rev j new = ((List.range N).map (· + 1)).reverse := by
  obtain ⟨tr, htr, -, -, hlog⟩ := C32_reverse_sweep h hhit dO dI
  have hlen := htr.length_steps hc (Nat.zero_le _)
  rw [Nat.zero_add] at hlen
  refine ⟨_, hlog, fun j hj => ?_⟩
  rw [beforeNumbers_revLog _ _ hj, List.length_reverse, List.length_map, hlen]

/-- The Runge-Kutta backends recognise the inputs they have cached. -/
theorem rk_cacheHit (E : Env s n m o l) (d : RKState ℝ s n m o l) (i : StartingValues ℝ n m) :
    (rkBackend E).cacheHit ((rkBackend E).load d i) i = true := by
  simp [rkBackend, rkCacheHit, rkLoad]

example : ∃ w' v, compute (rkBackend Integrator.Ex.env) Integrator.Ex.opt3
      (allCk (rkBackend Integrator.Ex.env) Integrator.Ex.opt3) 4
      (Integrator.Ex.fresh Integrator.Ex.opt3 .all) Integrator.Ex.inp = (w', .ok v) ∧
    ∃ new, (rev (rkBackend Integrator.Ex.env) Integrator.Ex.opt3
        (allCk (rkBackend Integrator.Ex.env) Integrator.Ex.opt3) 4 w' Integrator.Ex.inp
        ⟨0, fun _ => 1⟩ ⟨0, 0, 0⟩).1.log = w'.log ++ new ∧
      beforeNumbers .rev 0 new = [3, 2, 1] := by
  obtain ⟨w', v, h⟩ := Integrator.Ex.fresh_compute_ok .all 4 (by omega)
    (Integrator.Ex.fresh Integrator.Ex.opt3 .all) Integrator.Ex.inp
  obtain ⟨new, h1, h2⟩ := C32_reverse_numbers (opt := Integrator.Ex.opt3) rfl h
    (rk_cacheHit _ _ _) ⟨0, fun _ => 1⟩ ⟨0, 0, 0⟩
  exact ⟨w', v, h, new, h1, h2 0 (by simp [Integrator.Ex.opt3])⟩

/-! ### C34 -/

/-- C34: with NoCheckpointer, no reverse product ever returns numbers: it ends with
NotImplementedError, or with the error of the forward run it starts with. -/
theorem C34_reverse_refused (fuel : ℕ) (w : World D Unit) (i dI : I) (dO : O) :
    ∃ e, (rev B opt (noCk B opt) fuel w i dO dI).2 = .error e ∧
      (e = .notImplemented ∨ (compute B opt (noCk B opt) fuel w i).2 = .error e) := by
  have hp : ∀ e, (revPrep B opt (noCk B opt) fuel w i).2 = .error e →
      (compute B opt (noCk B opt) fuel w i).2 = .error e := by
    intro e he
    rw [revPrep] at he
    split at he
    · simp at he
    · rcases hc : compute B opt (noCk B opt) fuel w i with ⟨w1, e1 | v⟩
      · rw [hc] at he; simpa using he
      · rw [hc] at he; simp at he
  rw [rev]
  rcases hr : revPrep B opt (noCk B opt) fuel w i with ⟨w1, e | u⟩
  · exact ⟨e, rfl, Or.inr (hp e (by rw [hr]))⟩
  · exact ⟨.notImplemented, rfl, Or.inl rfl⟩

/-- C34: if the forward run at these inputs works, it is NotImplementedError, for every history
of operations. -/
theorem C34_reverse_not_implemented (fuel : ℕ) (empty : D) (c : Ctrl) (ops : List (Op I O))
    (i dI : I) (dO : O) :
    let w := doOps B opt (noCk B opt) fuel (freshWorld opt (noCk B opt) empty c) ops
    (∃ v, (compute B opt (noCk B opt) fuel w i).2 = .ok v) →
    (rev B opt (noCk B opt) fuel w i dO dI).2 = .error .notImplemented := by
  intro w ⟨v, hv⟩
  obtain ⟨e, he, h | h⟩ := C34_reverse_refused (B := B) (opt := opt) fuel w i dI dO
  · rw [he, h]
  · rw [hv] at h; simp at h

example (ops : List (Op (StartingValues ℝ 1 1) (Outputs 1))) (dO : Outputs 1)
    (dI : StartingValues ℝ 1 1) :
    (rev (rkBackend Integrator.Ex.env) Integrator.Ex.opt3
      (noCk (rkBackend Integrator.Ex.env) Integrator.Ex.opt3) 4
      (doOps (rkBackend Integrator.Ex.env) Integrator.Ex.opt3
        (noCk (rkBackend Integrator.Ex.env) Integrator.Ex.opt3) 4
        (Integrator.Ex.fresh Integrator.Ex.opt3 .no) ops) Integrator.Ex.inp dO dI).2
      = .error .notImplemented := by
  refine C34_reverse_not_implemented 4 _ _ ops _ dI dO ?_
  obtain ⟨w', v, h⟩ := Integrator.Ex.fresh_compute_ok .no 4 (by omega)
    (doOps (rkBackend Integrator.Ex.env) Integrator.Ex.opt3
        (noCk (rkBackend Integrator.Ex.env) Integrator.Ex.opt3) 4
        (Integrator.Ex.fresh Integrator.Ex.opt3 .no) ops) Integrator.Ex.inp
  exact ⟨v, congrArg Prod.snd h⟩

/-! ### C40 -/

/-- C40 for `compute`: the calls of callbacks are, step by step, all before-callbacks in list order
with the state before the step, then all after-callbacks in list order with the state after it, with
consecutive numbers, along the chain of states that leads to the result; without steps there are no
calls. For pyrevolve see `C40_pyrevolve_compute_order_partial`. -/
theorem C40_compute_callbacks {fuel : ℕ} {ch : Choice} {w w' : World D (ch.Data D)} {i : I} {v : O}
    (h : compute B opt (ch.ck B opt) fuel w i = (w', .ok v)) :
    ∃ states : List (IState D),
      List.IsChain (Accepted B opt) (startOf B opt w.ctrl w.tis.disc i :: states) ∧
      w'.tis = states.getLastD (startOf B opt w.ctrl w.tis.disc i) ∧
      w'.log = w.log ++ (List.zip (List.range states.length)
          (List.zip (startOf B opt w.ctrl w.tis.disc i :: states) states)).flatMap
        (fun q =>
          (List.range opt.computeCallbacks).map (fun j => .before .compute j (q.1 + 1) q.2.1) ++
          (List.range opt.computeCallbacks).map (fun j => .after .compute j (q.1 + 1) q.2.2)) := by
  obtain ⟨tr, htr, -, -, ht, hlog, -⟩ := compute_run h
  refine ⟨tr.map Prod.snd, run_chain htr, ?_, ?_⟩
  · rw [ht]; exact lastOf_getLastD ..
  · rw [hlog, runLog_flat, List.length_map]
    simp

/-- C40 for the forward mode. -/
theorem C40_fwd_callbacks {σ : Type} {fuel : ℕ} {w w' : World D σ} {i di : I} {dO v : O}
    (h : fwd B opt fuel w i di dO = (w', .ok v)) :
    ∃ states : List (IState D),
      List.IsChain (Accepted B opt) (startOfFwd B opt w.ctrl w.tis.disc i :: states) ∧
      w'.log = w.log ++ (List.zip (List.range states.length)
          (List.zip (startOfFwd B opt w.ctrl w.tis.disc i :: states) states)).flatMap
        (fun q =>
          (List.range opt.fwdCallbacks).map (fun j => .before .fwd j (q.1 + 1) q.2.1) ++
          (List.range opt.fwdCallbacks).map (fun j => .after .fwd j (q.1 + 1) q.2.2)) := by
  obtain ⟨tr, htr, -, -, hlog, -⟩ := fwd_run h
  refine ⟨tr.map Prod.snd, run_chain htr, ?_⟩
  rw [hlog, runLog_flat, List.length_map]
  simp

/-- C40 for the reverse mode: see C32, `revLog` lists for every step the before-callbacks, then the
after-callbacks. Here: one `before` and one `after` call of every callback for each step. For other
histories see `C40_rev_callbacks`, for pyrevolve `C40_pyrevolve_rev_callbacks`. -/
theorem C40_rev_after_compute {fuel : ℕ} {w w' : World D (List (IState D))} {i : I} {v : O}
    (h : compute B opt (allCk B opt) fuel w i = (w', .ok v))
    (hhit : B.cacheHit (B.load w.tis.disc i) i = true) (dO : O) (dI : I) :
    ∃ states : List (IState D),
      List.IsChain (Accepted B opt) (startOf B opt w.ctrl w.tis.disc i :: states) ∧
      (rev B opt (allCk B opt) fuel w' i dO dI).1.log
        = w'.log ++ (List.zip (List.range states.length) states).reverse.flatMap
          (fun q =>
            (List.range opt.revCallbacks).map (fun j => .before .rev j (q.1 + 1) q.2) ++
            (List.range opt.revCallbacks).map (fun j => .after .rev j (q.1 + 1) q.2)) := by
  obtain ⟨tr, htr, -, -, hlog⟩ := C32_reverse_sweep h hhit dO dI
  refine ⟨tr.map Prod.snd, run_chain htr, ?_⟩
  rw [hlog, revLog_flat]

/-! ### C53 -/

/-- C53, the part that holds: the times are added to what the vectors contain. -/
theorem C53_times_accumulate_partial (E : Env s n m o l) {σ : Type} {fuel : ℕ}
    {w : World (RKState ℝ s n m o l) σ} {i di : StartingValues ℝ n m} (t : ℝ) (y : Fin n → ℝ)
    {w' : World (RKState ℝ s n m o l) σ} {v : Outputs n}
    (h : fwd (rkBackend E) opt fuel w i di ⟨t, y⟩ = (w', .ok v)) (t2 : ℝ) (y2 : Fin n → ℝ) :
    (fwd (rkBackend E) opt fuel w i di ⟨t2, y2⟩).2 = .ok ⟨v.time - t + t2, v.values⟩ := by
  obtain ⟨tr, htr, hlt, -, -, hp, hv, -⟩ := fwd_run h
  rw [fwd_of_run htr hlt]
  subst hv
  rw [hp]
  simp only [rkBackend, rkWriteOut, Except.ok.injEq, Outputs.mk.injEq, and_true]
  ring

/-- C53 does not hold for the values: what the vector contained is lost. The forward product with
seed 0 added to a vector containing 1 gives 0 instead of 1, for any number of steps. -/
theorem C53_values_overwritten_violated :
    ∃ (di : StartingValues ℝ 1 1) (dO : Outputs 1) (v : Outputs 1),
      (fwd (rkBackend Integrator.Ex.env) Integrator.Ex.opt3 4
        (Integrator.Ex.fresh Integrator.Ex.opt3 .all) Integrator.Ex.inp di dO).2 = .ok v ∧
      (fwd (rkBackend Integrator.Ex.env) Integrator.Ex.opt3 4
        (Integrator.Ex.fresh Integrator.Ex.opt3 .all) Integrator.Ex.inp di ⟨0, 0⟩).2
          = .ok ⟨0, 0⟩ ∧
      dO.values = (fun _ => 1) ∧ v.values = 0 := by
  obtain ⟨tr, htr⟩ := exists_run_fixed (B := rkBackend Integrator.Ex.env)
    (opt := Integrator.Ex.opt3) (n := 3) rfl rfl
    (by simp [Integrator.Ex.opt3]) (Integrator.Ex.fresh Integrator.Ex.opt3 .all).ctrl
    (startOfFwd (rkBackend Integrator.Ex.env) Integrator.Ex.opt3
      (Integrator.Ex.fresh Integrator.Ex.opt3 .all).ctrl
      (Integrator.Ex.fresh Integrator.Ex.opt3 .all).tis.disc Integrator.Ex.inp)
    (fun d => ⟨computeStep Integrator.Ex.euler RK.Ex.linOde d (1 / 2), rfl⟩) 0
  have hlen := htr.length_steps rfl (Nat.zero_le _)
  have hf := fun dO => fwd_of_run (σ := Choice.Data _ .all)
    (w := Integrator.Ex.fresh Integrator.Ex.opt3 .all) (fuel := 4) htr (by omega)
    ⟨0, 0, 0⟩ dO
  have hz : ∀ (tr : List (Ctrl × IState (RKState ℝ 1 1 1 0 0))) (p : RKState ℝ 1 1 1 0 0),
      published p = 0 →
      published (fwdAlong (rkBackend Integrator.Ex.env) tr p) = 0 := by
    intro tr
    induction tr with
    | nil => exact fun p hp => hp
    | cons q tr ih =>
      intro p hp
      refine ih _ (C12_step_derivative_zero _ _ _ _ _ (fun i => ?_) hp)
      constructor
      · intro u v
        simp only [Integrator.Ex.env, RK.Ex.linOde, Spec.addIn, Spec.addOut, OdeOut.mk.injEq,
          Pi.add_apply]
        exact ⟨by funext x; simp only [Pi.add_apply]; ring, by simp, by simp⟩
      · intro q u
        simp only [Integrator.Ex.env, RK.Ex.linOde, Spec.smulIn, Spec.smulOut, OdeOut.mk.injEq,
          Pi.smul_apply, smul_eq_mul]
        exact ⟨by funext x; simp only [Pi.smul_apply, smul_eq_mul]; ring, by simp, by simp⟩
  have hzz := hz tr ((rkBackend Integrator.Ex.env).load
    (Integrator.Ex.fresh Integrator.Ex.opt3 .all).pert ⟨0, 0, 0⟩) rfl
  have hz1 : (fwdAlong (rkBackend Integrator.Ex.env) tr ((rkBackend Integrator.Ex.env).load
    (Integrator.Ex.fresh Integrator.Ex.opt3 .all).pert ⟨0, 0, 0⟩)).finalState = 0 :=
    congrArg Prod.fst hzz
  have hz2 : (fwdAlong (rkBackend Integrator.Ex.env) tr ((rkBackend Integrator.Ex.env).load
    (Integrator.Ex.fresh Integrator.Ex.opt3 .all).pert ⟨0, 0, 0⟩)).finalTime = 0 :=
    congrArg (fun z => z.2.1) hzz
  refine ⟨⟨0, 0, 0⟩, ⟨0, fun _ => 1⟩, ⟨0, 0⟩, ?_, ?_, rfl, rfl⟩
  · rw [hf]
    change Except.ok (rkWriteOut _ _) = _
    simp only [rkWriteOut, hz1, hz2, add_zero]
  · rw [hf]
    change Except.ok (rkWriteOut _ _) = _
    simp only [rkWriteOut, hz1, hz2, add_zero]

end Verif.Props
