/-
Properties of configurations that cannot work (C114).
-/
import Verif.Integrator.Misconfig
import Verif.Props.Component
import Verif.Props.Faults

namespace Verif.Props

open Verif.RK Verif.RK.Spec Verif.Control Verif.XReal Verif.Integrator Verif.Options Verif.Component
open Verif.Metadata
open Classical

variable {s n m o l : ℕ} {opt : Options}
variable {D I O σ : Type} {B : Backend D I O}

/-! ### The setup -/

theorem convertAll_ok (id : ℕ) (d : OptionDict) :
    (∃ d', convertAll id .multiLevel d = .ok d') ↔
      ∀ e ∈ d, e.1 = "storage_list" → ∃ l, e.2 = .storages l := by
  induction d with
  | nil => simp [convertAll]
  | cons e d ih =>
    rw [List.forall_mem_cons, ← ih]
    by_cases he : e.1 = "storage_list"
    · cases hv : e.2 <;> simp [convertAll, convert, he, hv]
      cases convertAll id .multiLevel d <;> simp
    · simp only [convertAll, convert, he, and_false, ↓reduceIte, false_imp_iff, true_and]
      cases convertAll id .multiLevel d <;> simp

theorem postInit_ok (id : ℕ) (ty : RevType) (N : ℕ) (d : OptionDict) :
    (∃ d', postInit id ty N d = .ok d') ↔ ∃ d', convertAll id ty d = .ok d' := by
  unfold postInit
  cases convertAll id ty d <;> simp

/-- C114: exactly when the pyrevolve checkpointer can be made: the type of the revolver is one of
five names, the number of steps is given, and the storages of a multi-level revolver are a dictionary.
In every other case an exception is raised. -/
theorem C114_pyrevolve_accepts (id : ℕ) (name : String) (crit : Crit) (d : OptionDict) :
    (∃ r, makePy id name crit d = .ok r) ↔
      name ∈ ["Memory", "Disk", "Base", "SingleLevel", "MultiLevel"] ∧ (∃ N, crit = .steps N) ∧
      (name = "MultiLevel" → ∀ e ∈ d, e.1 = "storage_list" → ∃ l, e.2 = .storages l) := by
  rw [← convertAll_ok id d]
  have key : ∀ (ty : RevType) (N : ℕ), revolverClass name = some ty →
      ((∃ r, makePy id name (.steps N) d = .ok r) ↔ ∃ d', convertAll id ty d = .ok d') := by
    intro ty N h
    rw [← postInit_ok id ty N d, makePy, h]
    cases hp : postInit id ty N d <;> simp [hp]
  cases crit with
  | finalTime T =>
    unfold makePy
    cases revolverClass name <;> simp
  | steps N =>
    by_cases h1 : name = "SingleLevel"
    · subst h1
      rw [key .singleLevel N rfl]
      simp [convertAll_other]
    by_cases h2 : name = "MultiLevel"
    · subst h2
      rw [key .multiLevel N rfl]
      simp
    by_cases h3 : name = "Disk"
    · subst h3
      rw [key .disk N rfl]
      simp [convertAll_other]
    by_cases h4 : name = "Base"
    · subst h4
      rw [key .base N rfl]
      simp [convertAll_other]
    by_cases h5 : name = "Memory"
    · subst h5
      rw [key .memory N rfl]
      simp [convertAll_other]
    simp [makePy, revolverClass, h1, h2, h3, h4, h5]

/-- C114: a checkpointer that is made gets the class of the revolver of its name. -/
theorem C114_pyrevolve_class {id : ℕ} {name : String} {crit : Crit} {d : OptionDict}
    {ty : RevType} {d' : OptionDict} (h : makePy id name crit d = .ok (ty, d')) :
    (name, ty) ∈ [("Memory", RevType.memory), ("Disk", .disk), ("Base", .base),
      ("SingleLevel", .singleLevel), ("MultiLevel", .multiLevel)] ∧
    ∃ N, crit = .steps N ∧ lookup d' "n_timesteps" = some (.number ((N : ℤ) - 1)) := by
  unfold makePy at h
  cases hr : revolverClass name with
  | none => simp [hr] at h
  | some ty' =>
    rw [hr] at h
    cases crit with
    | finalTime T => simp at h
    | steps N =>
      dsimp only at h
      cases hp : postInit id ty' N d with
      | error e => simp [hp] at h
      | ok e =>
        simp only [hp, Except.ok.injEq, Prod.mk.injEq] at h
        obtain ⟨rfl, rfl⟩ := h
        refine ⟨?_, N, rfl, ?_⟩
        · unfold revolverClass at hr
          split_ifs at hr <;> simp_all
        · obtain ⟨c, hc⟩ := (postInit_ok id ty' N d).mp ⟨e, hp⟩
          rw [postInit_lookup id ty' N d c e "n_timesteps" hc hp]
          simp

/-- C114: the documentation of the checkpointer offers `'Disc'` (pyrevolve_checkpointer.py L48),
which is refused. -/
theorem C114_documented_type_violated (id : ℕ) (crit : Crit) (d : OptionDict) :
    makePy id "Disc" crit d = .error .type := rfl

/-- C114 is violated by storages of unknown type: they are left out of the list without a word. -/
theorem C114_unknown_storage_violated :
    ∃ ty d', makePy 0 "MultiLevel" (.steps 5) [("storage_list", .storages [("Disc", 1), ("Numpy", 2)])]
      = .ok (ty, d') ∧ lookup d' "storage_list" = some (.storageObjects 0 [("Numpy", 2)]) :=
  ⟨_, _, rfl, by decide +kernel⟩

/-- C114: setup never succeeds with an empty list of controllers or a tableau that does not know its
orders, whether the steps are adaptive or not; nor with pyrevolve and a final time or an unknown
type of revolver. -/
theorem C114_setup_refuses {α : Type} (info : Meta) (stage : String → List ℝ) (so : SetupOptions α)
    (crit : Crit) (rank : ℕ) (logging clock : Kind → α) (id : ℕ) (ck : CkChoice)
    (h : so.factories = [] ∨ so.order = none ∨ (∃ name d T, ck = .pyrevolve name d ∧ crit = .finalTime T) ∨
      ∃ name d, ck = .pyrevolve name d ∧
        name ∉ ["Memory", "Disk", "Base", "SingleLevel", "MultiLevel"]) :
    ∃ e, setupAll info stage so crit rank logging clock id ck = .error e := by
  unfold setupAll
  cases hs : setupComponent info stage so rank logging clock with
  | error e => exact ⟨_, rfl⟩
  | ok r =>
    obtain ⟨-, -, -, h4, h5⟩ := (C76_accepts_partial info stage so rank logging clock).mp ⟨r, hs⟩
    have hno : ∀ name d, ¬ (∃ r, makePy id name crit d = .ok r) → ∃ e, (match makePy id name crit d with
        | .error e => (.error e : Except MakeErr (Component.Ready α × Option (RevType × OptionDict)))
        | .ok a => .ok (r, some a)) = .error e := by
      intro name d hn
      cases hm : makePy id name crit d with
      | error e => exact ⟨e, rfl⟩
      | ok a => exact absurd ⟨a, hm⟩ hn
    rcases h with h | h | ⟨name, d, T, rfl, rfl⟩ | ⟨name, d, rfl, hn⟩
    · exact absurd h h5
    · exact absurd h h4
    · refine hno name d fun hh => ?_
      obtain ⟨-, ⟨N, hN⟩, -⟩ := (C114_pyrevolve_accepts _ _ _ _).mp hh
      cases hN
    · exact hno name d fun hh => hn ((C114_pyrevolve_accepts _ _ _ _).mp hh).1

/-! ### Adaptive stepping without error estimate -/

theorem iterate_no_estimate (hm : ∀ d, B.measure d = .error .attribute) (ha : opt.adaptive = true)
    (k : ℕ) (c : Ctrl) (x : IState D) :
    iterateOnStep B opt (k + 1) c x = (c, x, match B.step x.disc x.sugg with
      | .error e => .error e
      | .ok _ => .error .attribute) := by
  rw [iterateOnStep]
  cases B.step x.disc x.sugg with
  | error e => rfl
  | ok d => simp [ha, hm]

theorem runStep_no_estimate (hm : ∀ d, B.measure d = .error .attribute) (ha : opt.adaptive = true)
    (it : ℕ) (c : Ctrl) (x : IState D) : ∃ e, (runStep B opt it c x).out = .error e := by
  unfold runStep
  cases hk : opt.recursionLimit with
  | zero => exact ⟨_, rfl⟩
  | succ k =>
    rw [iterate_no_estimate hm ha k]
    cases B.step x.disc x.sugg <;> exact ⟨_, rfl⟩

/-- The exception of the first step: the one of the step, otherwise `AttributeError`. -/
noncomputable def firstError (B : Backend D I O) (opt : Options) (w : World D σ) (i : I) :
    Integrator.Err :=
  match B.step (B.clearLin (B.load w.tis.disc i)) opt.initialStep with
  | .error e => e
  | .ok _ => .attribute

/-- C114: with a tableau without second weights, adaptive stepping raises in the first step: the
exception of the step if there is one, otherwise `AttributeError`. The exceptions are runs that do
not need a step, which return their inputs. -/
theorem C114_not_embedded (E : Env s n m o l) (ha : opt.adaptive = true) (hr : opt.recursionLimit ≠ 0)
    (ch : Choice) (fuel : ℕ) (w : World (RKState ℝ s n m o l) (ch.Data _))
    (i : StartingValues ℝ n m) :
    (opt.crit.finished 0 (fin i.initialTime) →
      (compute (rkBackend E) opt (ch.ck (rkBackend E) opt) (fuel + 1) w i).2
        = .ok ⟨i.initialTime, i.initialValues⟩) ∧
    (¬ opt.crit.finished 0 (fin i.initialTime) →
      (compute (rkBackend E) opt (ch.ck (rkBackend E) opt) (fuel + 1) w i).2
        = .error (firstError (rkBackend E) opt w i)) := by
  obtain ⟨k, hk⟩ := Nat.exists_eq_succ_of_ne_zero hr
  have hit := iterate_no_estimate (B := rkBackend E) (fun _ => rfl) ha k w.ctrl
  rw [Nat.succ_eq_add_one] at hk
  have ht : ∀ d : RKState ℝ s n m o l, (rkBackend E).time ((rkBackend E).clearLin
    ((rkBackend E).load d i)) = fin i.initialTime := fun d => rfl
  constructor
  · intro hf
    cases ch <;>
    · simp only [compute, Choice.ck, noCk, allCk, noForward, allForward, resetErrorControl, ht, hf,
        if_true]
      rfl
  · intro hf
    have hst : ∀ it x, x.disc = (rkBackend E).clearLin ((rkBackend E).load w.tis.disc i) →
        x.sugg = opt.initialStep → (runStep (rkBackend E) opt it w.ctrl x).out
          = .error (firstError (rkBackend E) opt w i) := by
      intro it x h1 h2
      simp only [runStep, hk, hit, h1, h2, firstError]
      cases (rkBackend E).step ((rkBackend E).clearLin ((rkBackend E).load w.tis.disc i))
        opt.initialStep <;> rfl
    cases ch <;>
    · simp only [compute, Choice.ck, noCk, allCk, noForward, allForward, resetErrorControl, ht, hf,
        if_false]
      generalize hrs : runStep (rkBackend E) opt (0 + 1) w.ctrl _ = rs
      have := hst _ _ rfl rfl |>.symm.trans (congrArg Res.out hrs)
      obtain ⟨c', x', log, out⟩ := rs
      dsimp only at this
      subst this
      rfl

/-- C114: the same for forward products, for every checkpointer. -/
theorem C114_not_embedded_forward (E : Env s n m o l) (ha : opt.adaptive = true)
    (fuel : ℕ) (w : World (RKState ℝ s n m o l) σ)
    (i di : StartingValues ℝ n m) (dO : Outputs n) (hf : ¬ opt.crit.finished 0 (fin i.initialTime)) :
    ∃ e, (fwd (rkBackend E) opt fuel w i di dO).2 = .error e := by
  cases fuel with
  | zero => exact ⟨_, rfl⟩
  | succ fuel =>
    have ht : ∀ d : RKState ℝ s n m o l, (rkBackend E).time ((rkBackend E).load d i)
      = fin i.initialTime := fun d => rfl
    have hst : ∀ it x p, ∃ e, (runStepFwd (rkBackend E) opt it w.ctrl x p).1.out = .error e := by
      intro it x p
      unfold runStepFwd
      cases hk : opt.recursionLimit with
      | zero => exact ⟨_, rfl⟩
      | succ k =>
        rw [iterate_no_estimate (B := rkBackend E) (fun _ => rfl) ha k]
        cases (rkBackend E).step x.disc x.sugg <;> exact ⟨_, rfl⟩
    simp only [fwd, fwdLoop, resetErrorControl, ht, hf, if_false]
    generalize hrs : runStepFwd (rkBackend E) opt (0 + 1) w.ctrl _ _ = rs
    obtain ⟨e, he⟩ := hst (0 + 1) _ _
    rw [hrs] at he
    obtain ⟨⟨c', x', log, out⟩, p⟩ := rs
    dsimp only at he
    subst he
    exact ⟨e, rfl⟩

/-- C114 is violated when a reverse product is asked for again: for every scheme without second
weights, adaptive steps and all checkpoints, the first reverse product of a new component raises, the
same product once more returns the seed, as if there were no time steps. -/
theorem C114_second_reverse_violated (E : Env s n m o l) (ha : opt.adaptive = true) (c : Ctrl) (fuel : ℕ) (i dI : StartingValues ℝ n m) (dO : Outputs n)
    (hf : ¬ opt.crit.finished 0 (fin i.initialTime)) :
    (∃ e, (rev (rkBackend E) opt (allCk (rkBackend E) opt) (fuel + 1) (freshAll E opt c) i dO dI).2
      = .error e) ∧
    (rev (rkBackend E) opt (allCk (rkBackend E) opt) (fuel + 1)
      (doOps (rkBackend E) opt (allCk (rkBackend E) opt) (fuel + 1) (freshAll E opt c)
        [.rev i dO dI]) i dO dI).2
      = .ok ⟨dI.initialTime + dO.time, dO.values, 0⟩ := by
  have hc0 : cacheOk (rkBackend E) (freshAll E opt c) i = false := rfl
  obtain ⟨w', e, hc, h1, h2, h3⟩ : ∃ w' e, compute (rkBackend E) opt (allCk (rkBackend E) opt)
      (fuel + 1) (freshAll E opt c) i = (w', .error e) ∧ w'.ck = [] ∧ w'.pert = RKState.empty ∧
      cacheOk (rkBackend E) w' i = true := by
    have ht : ∀ d : RKState ℝ s n m o l, (rkBackend E).time ((rkBackend E).clearLin
      ((rkBackend E).load d i)) = fin i.initialTime := fun d => rfl
    simp only [compute, allCk, allForward, resetErrorControl, ht, hf, if_false]
    generalize hrs : runStep (rkBackend E) opt (0 + 1) (freshAll E opt c).ctrl _ = rs
    obtain ⟨e, he⟩ := runStep_no_estimate (B := rkBackend E) (fun _ => rfl) ha (0 + 1)
      (freshAll E opt c).ctrl _
    rw [hrs] at he
    obtain ⟨c', x', log, out⟩ := rs
    dsimp only at he
    subst he
    refine ⟨_, e, rfl, rfl, rfl, ?_⟩
    simp [cacheOk, rkBackend, rkCacheHit, rkLoad]
  have hr1 : rev (rkBackend E) opt (allCk (rkBackend E) opt) (fuel + 1) (freshAll E opt c) i dO dI
      = (w', .error e) := by
    simp only [rev, revPrep, hc0, hc, Bool.false_eq_true, if_false]
  refine ⟨⟨e, by rw [hr1]⟩, ?_⟩
  simp only [doOps, List.foldl, doOp, hr1]
  rw [rev_of_cached h3, h1, h2]
  rfl

/-! ### Reverse products without a stored run -/

/-- C114: without checkpoints, no reverse product returns. -/
theorem C114_no_checkpoints (fuel : ℕ) (w : World D Unit) (i dI : I) (dO : O) :
    ∃ e, (rev B opt (noCk B opt) fuel w i dO dI).2 = .error e := by
  unfold rev
  generalize revPrep B opt (noCk B opt) fuel w i = q
  obtain ⟨w1, _ | _⟩ := q
  · exact ⟨_, rfl⟩
  · exact ⟨_, rfl⟩

/-- C114, conformance: `compute` creates the revolver, so that its outcome is the one of the
checkpointer without this detail. -/
theorem C114_compute_creates (ck : Checkpointer D σ) (fuel : ℕ) (w : World D (σ × Bool)) (i : I) :
    let w0 : World D σ := ⟨w.tis, w.pert, w.ctrl, w.cached, w.ck.1, w.log⟩
    let r := compute B opt ck fuel w0 i
    compute B opt (needsCreate ck) fuel w i
      = (⟨r.1.tis, r.1.pert, r.1.ctrl, r.1.cached, (r.1.ck, true), r.1.log⟩, r.2) := by
  intro w0 r
  simp only [r, w0, compute, needsCreate, if_true]
  split <;> rfl

/-- C114: with pyrevolve, a reverse product right after a second setup, for which the remembered
inputs match, raises `AttributeError`; with other inputs it has the outcome of a new component. -/
theorem C114_pyrevolve_reverse_after_setup (ck : Checkpointer D σ) {σ' : Type} (fuel : ℕ) (empty : D)
    (c : Ctrl) (w : World D σ') (i dI : I) (dO : O) :
    (cacheOk B w i = true →
      (rev B opt (needsCreate ck) fuel (setupAgain opt (needsCreate ck) empty c w) i dO dI).2
        = .error .attribute) ∧
    (cacheOk B w i = false →
      (rev B opt (needsCreate ck) fuel (setupAgain opt (needsCreate ck) empty c w) i dO dI).2
        = (rev B opt (needsCreate ck) fuel (freshWorld opt (needsCreate ck) empty c) i dO dI).2) := by
  constructor
  · intro h
    have h' : cacheOk B (setupAgain opt (needsCreate ck) empty c w) i = true := h
    simp only [rev, revPrep, h', if_true]
    rfl
  · intro h
    have h1 : cacheOk B (setupAgain opt (needsCreate ck) empty c w) i = false := h
    have h2 : cacheOk B (freshWorld opt (needsCreate ck) empty c) i = false := rfl
    simp only [rev, revPrep, h1, h2, Bool.false_eq_true, if_false]
    simp only [compute, setupAgain]
    generalize (needsCreate ck).forward fuel _ _ _ = r
    obtain ⟨s', c', x', log, _ | _⟩ := r
    · rfl
    · dsimp only
      generalize (needsCreate ck).reverse _ _ _ _ = q
      obtain ⟨s', ⟨c', x', log, _ | _⟩, p⟩ := q <;> rfl

/-! ### Cases -/

/-- A multi-level revolver with storages and a number of steps is accepted. -/
example : ∃ r, makePy 3 "MultiLevel" (.steps 10) [("storage_list", .storages [("Numpy", 2)])] = .ok r :=
  (C114_pyrevolve_accepts _ _ _ _).mpr ⟨by simp, ⟨10, rfl⟩, by simp⟩

/-- `y' = -y + p + t` with the explicit Euler method, which has no second weights, with adaptive steps from 0
to the final time 1: `compute` raises `AttributeError`. -/
example : (compute (rkBackend Integrator.Ex.env) ⟨true, .finalTime 1, fin (1 / 2), 0, 0, 0, 900⟩
    (allCk (rkBackend Integrator.Ex.env) ⟨true, .finalTime 1, fin (1 / 2), 0, 0, 0, 900⟩) 10
    (freshAll Integrator.Ex.env ⟨true, .finalTime 1, fin (1 / 2), 0, 0, 0, 900⟩ Integrator.Ex.ctrl)
    ⟨0, 1, 0⟩).2 = .error .attribute := by
  have h := (C114_not_embedded (opt := ⟨true, .finalTime 1, fin (1 / 2), 0, 0, 0, 900⟩)
    Integrator.Ex.env rfl (by simp) .all 9 (freshAll Integrator.Ex.env
      ⟨true, .finalTime 1, fin (1 / 2), 0, 0, 0, 900⟩ Integrator.Ex.ctrl) ⟨0, 1, 0⟩).2 (by
      change ¬ ((1 : ℝ) - 0 ≤ 0)
      norm_num)
  simp only [Choice.ck] at h
  rw [h]
  rfl

/-- The second reverse product of this component returns the seed, although the derivative with
respect to the initial value is not 1. -/
example : (rev (rkBackend Integrator.Ex.env) ⟨true, .finalTime 1, fin (1 / 2), 0, 0, 0, 900⟩
    (allCk (rkBackend Integrator.Ex.env) ⟨true, .finalTime 1, fin (1 / 2), 0, 0, 0, 900⟩) 10
    (doOps (rkBackend Integrator.Ex.env) ⟨true, .finalTime 1, fin (1 / 2), 0, 0, 0, 900⟩
      (allCk (rkBackend Integrator.Ex.env) ⟨true, .finalTime 1, fin (1 / 2), 0, 0, 0, 900⟩) 10
      (freshAll Integrator.Ex.env ⟨true, .finalTime 1, fin (1 / 2), 0, 0, 0, 900⟩ Integrator.Ex.ctrl)
      [.rev ⟨0, 1, 0⟩ ⟨0, 1⟩ ⟨0, 0, 0⟩]) ⟨0, 1, 0⟩ ⟨0, 1⟩ ⟨0, 0, 0⟩).2 = .ok ⟨0 + 0, 1, 0⟩ :=
  (C114_second_reverse_violated Integrator.Ex.env rfl Integrator.Ex.ctrl 9 ⟨0, 1, 0⟩ ⟨0, 0, 0⟩
    ⟨0, 1⟩ (by change ¬ ((1 : ℝ) - 0 ≤ 0); norm_num)).2

/-- With pyrevolve, any schedule: `compute`, `setup` and a reverse product at the same inputs. -/
example (E : Env s n m o l) (R : Restore (RKState ℝ s n m o l)) (y : IState (RKState ℝ s n m o l))
    (N fuel : ℕ) (sched : Schedule) (w : World (RKState ℝ s n m o l) (PyData (RKState ℝ s n m o l) × Bool))
    (c : Ctrl) (i dI : StartingValues ℝ n m) (dO : Outputs n) :
    let ck := needsCreate (pyCk (rkBackend E) opt R y N sched)
    (rev (rkBackend E) opt ck fuel (setupAgain opt ck RKState.empty c
      (compute (rkBackend E) opt ck fuel w i).1) i dO dI).2 = .error .attribute := by
  intro ck
  refine (C114_pyrevolve_reverse_after_setup _ fuel _ c _ i dI dO).1 ?_
  have : (compute (rkBackend E) opt ck fuel w i).1.cached = some ((rkBackend E).load w.tis.disc i) := by
    simp only [compute]
    split <;> rfl
  simp only [cacheOk, this]
  simp [rkBackend, rkCacheHit, rkLoad]

end Verif.Props
