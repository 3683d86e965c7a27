/-
Specification of integrations as chains of steps of the discretization, and the relation of
`compute`, `fwd` and `rev` to runs. The property theorems are in `Verif.Props.Integrator`.
-/
import Verif.Integrator.Lawful

namespace Verif.Integrator

open Verif.Control Verif.XReal
open Classical

variable {D I O : Type}

/-- A chain of steps of the discretization: the list holds for each step its size and the result
of the step. Nothing but the results of these steps enters the state. -/
inductive Path (B : Backend D I O) : D → List (XReal × D) → D → Prop
  | nil (d) : Path B d [] d
  | cons {d h e l d'} (hs : B.step d h = .ok e) (hp : Path B (B.set d e) l d') :
      Path B d ((h, e) :: l) d'

/-- The last two entries of a list, newest first, filled up with `z`. -/
def lastTwo {α : Type} (z : α) (l : List α) : α × α :=
  match l.reverse with
  | [] => (z, z)
  | [a] => (a, z)
  | a :: b :: _ => (a, b)

/-- The checkpointing choices that keep nothing or everything. -/
inductive Choice where
  | no
  | all

/-- The internal data of the checkpointer. -/
abbrev Choice.Data (D : Type) : Choice → Type
  | .no => Unit
  | .all => List (IState D)

/-- The checkpointer. -/
noncomputable def Choice.ck (B : Backend D I O) (opt : Options) :
    (ch : Choice) → Checkpointer D (ch.Data D)
  | .no => noCk B opt
  | .all => allCk B opt

/-- The state the steps of `compute` start from. -/
def startOf (B : Backend D I O) (opt : Options) (c : Ctrl) (d : D) (i : I) : IState D :=
  ⟨B.clearLin (B.load d i), opt.initialStep, (0, 0), (c.config.tol, c.config.tol)⟩

/-- The state the steps of `fwd` start from. -/
def startOfFwd (B : Backend D I O) (opt : Options) (c : Ctrl) (d : D) (i : I) : IState D :=
  ⟨B.load d i, opt.initialStep, (0, 0), (c.config.tol, c.config.tol)⟩

variable {B : Backend D I O} {opt : Options}

theorem choice_forward (ch : Choice) (fuel : ℕ) (st : ch.Data D) (c : Ctrl) (x : IState D) :
    ((ch.ck B opt).forward fuel st c x).2 = noForward B opt fuel 0 c x := by
  cases ch with
  | no => rfl
  | all => exact allForward_eq ..

/-- A successful `compute` is a run. -/
theorem compute_run {ch : Choice} {fuel : ℕ} {w w' : World D (ch.Data D)} {i : I} {v : O}
    (h : compute B opt (ch.ck B opt) fuel w i = (w', .ok v)) :
    ∃ tr, Run B opt 0 w.ctrl (startOf B opt w.ctrl w.tis.disc i) tr ∧ tr.length < fuel ∧
      w'.ctrl = (lastOf w.ctrl (startOf B opt w.ctrl w.tis.disc i) tr).1 ∧
      w'.tis = (lastOf w.ctrl (startOf B opt w.ctrl w.tis.disc i) tr).2 ∧
      w'.log = w.log ++ runLog .compute opt.computeCallbacks 0
        (startOf B opt w.ctrl w.tis.disc i) tr ∧
      v = B.read w'.tis.disc ∧ w'.cached = some (B.load w.tis.disc i) ∧ w'.pert = w.pert := by
  simp only [compute, resetErrorControl] at h
  have e := choice_forward (B := B) (opt := opt) ch fuel ((ch.ck B opt).create w.ck) w.ctrl
    (startOf B opt w.ctrl w.tis.disc i)
  simp only [startOf] at e ⊢
  rw [e] at h
  rcases ho : (noForward B opt fuel 0 w.ctrl
    ⟨B.clearLin (B.load w.tis.disc i), opt.initialStep, (0, 0),
      (w.ctrl.config.tol, w.ctrl.config.tol)⟩).out with e | u
  · rw [ho] at h; simp at h
  · rw [ho] at h
    obtain ⟨tr, htr, hlt⟩ := run_of_noForward ho
    have hr := noForward_of_run htr hlt
    rw [hr] at h
    simp only [Prod.mk.injEq, Except.ok.injEq] at h
    obtain ⟨rfl, rfl⟩ := h
    exact ⟨tr, htr, hlt, rfl, rfl, rfl, rfl, rfl, rfl⟩

/-- A run is a successful `compute`. -/
theorem compute_of_run {ch : Choice} {fuel : ℕ} {w : World D (ch.Data D)} {i : I}
    {tr : List (Ctrl × IState D)}
    (h : Run B opt 0 w.ctrl (startOf B opt w.ctrl w.tis.disc i) tr) (hf : tr.length < fuel) :
    compute B opt (ch.ck B opt) fuel w i =
      ({ w with
          tis := (lastOf w.ctrl (startOf B opt w.ctrl w.tis.disc i) tr).2
          ctrl := (lastOf w.ctrl (startOf B opt w.ctrl w.tis.disc i) tr).1
          cached := some (B.load w.tis.disc i)
          ck := ((ch.ck B opt).forward fuel ((ch.ck B opt).create w.ck) w.ctrl
            (startOf B opt w.ctrl w.tis.disc i)).1
          log := w.log ++ runLog .compute opt.computeCallbacks 0
            (startOf B opt w.ctrl w.tis.disc i) tr },
        .ok (B.read (lastOf w.ctrl (startOf B opt w.ctrl w.tis.disc i) tr).2.disc)) := by
  have e := choice_forward (B := B) (opt := opt) ch fuel ((ch.ck B opt).create w.ck) w.ctrl
    (startOf B opt w.ctrl w.tis.disc i)
  have hr := noForward_of_run h hf
  simp only [compute, resetErrorControl]
  simp only [startOf] at e hr ⊢
  rw [e, hr]

/-- What `AllCheckpointer` has stored after a successful `compute`. -/
theorem compute_stores {fuel : ℕ} {w w' : World D (List (IState D))} {i : I} {v : O}
    (h : compute B opt (allCk B opt) fuel w i = (w', .ok v)) {tr : List (Ctrl × IState D)}
    (hr : Run B opt 0 w.ctrl (startOf B opt w.ctrl w.tis.disc i) tr) :
    w'.ck = tr.map Prod.snd := by
  obtain ⟨tr', htr, hlt, -⟩ := compute_run (ch := .all) h
  have := htr.unique hr
  subst this
  have h2 := compute_of_run (ch := .all) htr hlt
  rw [show Choice.ck B opt .all = allCk B opt from rfl] at h2
  rw [h] at h2
  have h3 := congrArg (fun z => z.1.ck) h2
  simp only at h3
  rw [h3]
  exact (allForward_of_run htr hlt _).trans (List.nil_append _)

/-- A successful `fwd` is a run. -/
theorem fwd_run {σ : Type} {fuel : ℕ} {w w' : World D σ} {i di : I} {dO v : O}
    (h : fwd B opt fuel w i di dO = (w', .ok v)) :
    ∃ tr, Run B opt 0 w.ctrl (startOfFwd B opt w.ctrl w.tis.disc i) tr ∧ tr.length < fuel ∧
      w'.ctrl = (lastOf w.ctrl (startOfFwd B opt w.ctrl w.tis.disc i) tr).1 ∧
      w'.log = w.log ++ runLog .fwd opt.fwdCallbacks 0
        (startOfFwd B opt w.ctrl w.tis.disc i) tr ∧
      w'.pert = fwdAlong B tr (B.load w.pert di) ∧ v = B.writeOut w'.pert dO ∧
      w'.cached = w.cached ∧ w'.ck = w.ck := by
  simp only [fwd, resetErrorControl] at h
  rcases ho : (fwdLoop B opt fuel 0 w.ctrl
    ⟨B.load w.tis.disc i, opt.initialStep, (0, 0), (w.ctrl.config.tol, w.ctrl.config.tol)⟩
    (B.load w.pert di)).1.out with e | u
  · rw [ho] at h; simp at h
  · rw [ho] at h
    obtain ⟨tr, htr, hlt⟩ := run_of_fwdLoop ho
    have hr := fwdLoop_of_run htr hlt (B.load w.pert di)
    simp only [startOfFwd] at hr ⊢
    rw [hr] at h
    simp only [Prod.mk.injEq, Except.ok.injEq] at h
    obtain ⟨rfl, rfl⟩ := h
    exact ⟨tr, htr, hlt, rfl, rfl, rfl, rfl, rfl, rfl⟩

/-- A run is a successful `fwd`. -/
theorem fwd_of_run {σ : Type} {fuel : ℕ} {w : World D σ} {i : I} {tr : List (Ctrl × IState D)}
    (h : Run B opt 0 w.ctrl (startOfFwd B opt w.ctrl w.tis.disc i) tr) (hf : tr.length < fuel)
    (di : I) (dO : O) :
    (fwd B opt fuel w i di dO).2 = .ok (B.writeOut (fwdAlong B tr (B.load w.pert di)) dO) := by
  have hr := fwdLoop_of_run h hf (B.load w.pert di)
  simp only [fwd, resetErrorControl]
  simp only [startOfFwd] at hr
  rw [hr]

/-- The starting states of two calls agree in all that matters. -/
theorem start_same (W : Lawful B) (c : Ctrl) (d d' : D) (i : I) :
    SameObs W (startOf B opt c d i) (startOf B opt c d' i) :=
  ⟨by simp only [startOf, W.clear_obs]; exact W.load_obs _ _ _, rfl, rfl, rfl⟩

theorem start_same_fwd (W : Lawful B) (c : Ctrl) (d d' : D) (i : I) :
    SameObs W (startOf B opt c d i) (startOfFwd B opt c d' i) :=
  ⟨by simp only [startOf, startOfFwd, W.clear_obs]; exact W.load_obs _ _ _, rfl, rfl, rfl⟩

theorem start_same_fwd' (W : Lawful B) (c : Ctrl) (d d' : D) (i : I) :
    SameObs W (startOfFwd B opt c d i) (startOfFwd B opt c d' i) :=
  ⟨W.load_obs _ _ _, rfl, rfl, rfl⟩

/-! ### Runs and paths -/

theorem lastOf_append (c : Ctrl) (x : IState D) (t1 t2 : List (Ctrl × IState D)) :
    lastOf c x (t1 ++ t2) = lastOf (lastOf c x t1).1 (lastOf c x t1).2 t2 := by
  induction t1 generalizing c x with
  | nil => rfl
  | cons q t1 ih => exact ih ..

theorem Run.path {it : ℕ} {c : Ctrl} {x : IState D} {tr : List (Ctrl × IState D)}
    (h : Run B opt it c x tr) :
    ∃ l, Path B x.disc l (lastOf c x tr).2.disc ∧ l.length = tr.length ∧
      l.map Prod.fst = tr.map (fun q => q.2.stepHist.1) ∧
      (opt.adaptive = false → ∀ q ∈ l, q.1 = x.sugg) ∧
      (opt.adaptive = true → ∃ errs : List XReal, l.map (fun q => B.measure q.2) = errs.map .ok ∧
        errs = tr.map (fun q => q.2.errHist.1)) := by
  induction h with
  | done h => exact ⟨[], .nil _, rfl, rfl, fun _ q hq => by simp at hq, fun _ => ⟨[], rfl, rfl⟩⟩
  | @step it c x c' x' tr h hs hr ih =>
    obtain ⟨l, h1, h2, h3, h4, h5⟩ := ih
    obtain ⟨h', d, g1, g2, g3, g4, g5⟩ := iterate_accepted hs
    refine ⟨(h', d) :: l, ?_, by simp [h2], by simp [h3, g3], ?_, ?_⟩
    · refine .cons g1 ?_
      rw [← g2]
      exact h1
    · intro hf q hq
      rcases List.mem_cons.mp hq with rfl | hq
      · exact (g4 hf).1
      · rw [h4 hf q hq]; exact (g4 hf).2.1
    · intro ha
      obtain ⟨errs, e1, e2⟩ := h5 ha
      exact ⟨x'.errHist.1 :: errs, by simp [e1, (g5 ha).2.2.1], by simp [e2]⟩

/-- Histories of an adaptive run hold the last two entries. -/
theorem Run.histories {it : ℕ} {c : Ctrl} {x : IState D} {tr : List (Ctrl × IState D)}
    (h : Run B opt it c x tr) (ha : opt.adaptive = true) :
    (lastOf c x tr).2.stepHist =
      (match (tr.map (fun q => q.2.stepHist.1)).reverse with
        | [] => x.stepHist
        | [a] => (a, x.stepHist.1)
        | a :: b :: _ => (a, b)) ∧
    (lastOf c x tr).2.errHist =
      (match (tr.map (fun q => q.2.errHist.1)).reverse with
        | [] => x.errHist
        | [a] => (a, x.errHist.1)
        | a :: b :: _ => (a, b)) := by
  induction h with
  | done h => simp [lastOf]
  | @step it c x c' x' tr h hs hr ih =>
    obtain ⟨h', d, g1, g2, g3, g4, g5⟩ := iterate_accepted hs
    obtain ⟨k1, k2, k3, -⟩ := g5 ha
    obtain ⟨i1, i2⟩ := ih
    simp only [lastOf, List.map_cons, List.reverse_cons]
    rw [i1, i2]
    constructor
    · generalize (tr.map (fun q => q.2.stepHist.1)).reverse = L
      rcases L with _ | ⟨a, _ | ⟨b, t⟩⟩
      · simp [Prod.ext_iff, k1]
      · rfl
      · rfl
    · generalize (tr.map (fun q => q.2.errHist.1)).reverse = L
      rcases L with _ | ⟨a, _ | ⟨b, t⟩⟩
      · simp [Prod.ext_iff, k2]
      · rfl
      · rfl

theorem Run.length_steps {it n : ℕ} {c : Ctrl} {x : IState D} {tr : List (Ctrl × IState D)}
    (hc : opt.crit = .steps n) (h : Run B opt it c x tr) (hit : it ≤ n) : it + tr.length = n := by
  induction h with
  | done h =>
    simp only [hc, Crit.finished] at h
    simp; omega
  | step h hs hr ih =>
    simp only [hc, Crit.finished, not_le] at h
    have := ih (by omega)
    simp only [List.length_cons]
    omega

/-- With a fixed number of steps and steps that do not fail, there is a run. -/
theorem exists_run_fixed {n : ℕ} (hc : opt.crit = .steps n) (ha : opt.adaptive = false)
    (hl : opt.recursionLimit ≠ 0) (c : Ctrl) (x : IState D)
    (hok : ∀ d, ∃ e, B.step d x.sugg = .ok e) (it : ℕ) : ∃ tr, Run B opt it c x tr := by
  obtain ⟨f, hf⟩ := Nat.exists_eq_succ_of_ne_zero hl
  induction hk : n - it generalizing it x with
  | zero => exact ⟨[], .done (by simp only [hc, Crit.finished]; omega)⟩
  | succ k ih =>
    obtain ⟨e, he⟩ := hok x.disc
    obtain ⟨tr, htr⟩ := ih { x with disc := B.set x.disc e, stepHist := (x.sugg, x.stepHist.2) }
      hok (it + 1) (by omega)
    refine ⟨_, .step (by simp only [hc, Crit.finished]; omega) ?_ htr⟩
    rw [hf, iterate_fixed ha, he]

/-- With a fixed step size the controller is not touched. -/
theorem Run.ctrl_fixed {it : ℕ} {c : Ctrl} {x : IState D} {tr : List (Ctrl × IState D)}
    (ha : opt.adaptive = false) (h : Run B opt it c x tr) : (lastOf c x tr).1 = c := by
  induction h with
  | done => rfl
  | @step it c x c' x' tr h hs hr ih =>
    simp only [lastOf, ih]
    rcases hf : opt.recursionLimit with _ | f
    · rw [hf] at hs; simp [iterateOnStep] at hs
    · rw [hf, iterate_fixed ha] at hs
      rcases hb : B.step x.disc x.sugg with e | d
      · rw [hb] at hs; simp at hs
      · rw [hb] at hs; simp at hs; exact hs.1.symm

/-! ### Other descriptions of runs -/

theorem run_chain {it : ℕ} {c : Ctrl} {x : IState D} {tr : List (Ctrl × IState D)}
    (h : Run B opt it c x tr) : List.IsChain (Accepted B opt) (x :: tr.map Prod.snd) := by
  induction h with
  | done => simp
  | step h hs hr ih =>
    rw [List.map_cons, List.isChain_cons_cons]
    exact ⟨iterate_accepted hs, ih⟩

theorem lastOf_getLastD (c : Ctrl) (x : IState D) (tr : List (Ctrl × IState D)) :
    (lastOf c x tr).2 = (tr.map Prod.snd).getLastD x := by
  induction tr generalizing c x with
  | nil => rfl
  | cons q tr ih =>
    simp only [lastOf, ih, List.map_cons]
    rcases tr.map Prod.snd with _ | ⟨a, t⟩
    · rfl
    · simp only [List.getLastD_cons]

theorem runLog_flat (k : Kind) (count it : ℕ) (x : IState D) (tr : List (Ctrl × IState D)) :
    runLog k count it x tr =
      (List.zip ((List.range tr.length).map (it + ·))
          (List.zip (x :: tr.map Prod.snd) (tr.map Prod.snd))).flatMap
        (fun q => (List.range count).map (fun j => .before k j (q.1 + 1) q.2.1) ++
          (List.range count).map (fun j => .after k j (q.1 + 1) q.2.2)) := by
  induction tr generalizing it x with
  | nil => rfl
  | cons q tr ih =>
    rw [runLog, ih, List.length_cons, List.range_succ_eq_map]
    simp only [List.map_cons, List.map_map, List.zip_cons_cons, List.flatMap_cons, Nat.add_zero]
    congr 3
    apply List.map_congr_left
    intro a _
    simp only [Function.comp]
    omega

end Verif.Integrator
