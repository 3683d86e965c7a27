/-
Properties of components that are set up again (C102) and of components whose operations were
interrupted (C103).
-/
import Verif.Integrator.FaultPoints
import Verif.Integrator.PyrevolveRK
import Verif.Props.History

namespace Verif.Props

open Verif.RK Verif.RK.Spec Verif.Control Verif.XReal Verif.Integrator
open Classical

variable {s n m o l : ℕ} {opt : Options}
variable {D I O : Type} {B : Backend D I O}

/-! ### C102: setting up again -/

/-- `setup` of a component that was in use before, runge_kutta_integrator.py L249-291: states
(L407-426), controllers (L392-405) and the checkpointer (L428-436) are new. The inputs remembered by
the last `compute` (`_cached_input`) are not touched; they are reset in `__init__` (L79) and after
reverse products (L792) only. `log` are the calls of callbacks so far. -/
def setupAgain {σ σ' : Type} (opt : Options) (ck : Checkpointer D σ) (empty : D) (c : Ctrl)
    (w : World D σ') : World D σ :=
  { freshWorld opt ck empty c with cached := w.cached, log := w.log }

/-- C102, values and forward products: whatever the component was and did before (any options,
controllers, checkpointer, failed or interrupted operations), after `setup` and any further
operations, `compute` and forward products have the outcomes of a new component after these
operations. This includes chains of controllers, which are built again. Here for no operation in
between; with operations see C26. -/
theorem C102_setup_again_values (W : Lawful B) {ch ch' : Choice} {σ : Type} (fuel : ℕ) (empty : D)
    (c : Ctrl) (w : World D σ) (i di : I) (dO : O) :
    (compute B opt (ch.ck B opt) fuel (setupAgain opt (ch.ck B opt) empty c w) i).2
      = (compute B opt (ch'.ck B opt) fuel (freshWorld opt (ch'.ck B opt) empty c) i).2 ∧
    (fwd B opt fuel (setupAgain opt (ch.ck B opt) empty c w) i di dO).2
      = (fwd B opt fuel (freshWorld opt (ch'.ck B opt) empty c) i di dO).2 :=
  C26_only_controller_state_matters W fuel (setupAgain opt (ch.ck B opt) empty c w)
    (freshWorld opt (ch'.ck B opt) empty c) rfl i di dO

/-- C102, values and forward products with operations in between, for chains as well: the outcome
after `setup` and some operations is the outcome of a new component after the same operations,
except that these are not allowed to be reverse products. -/
theorem C102_setup_again_values_later (W : Lawful B) {ch : Choice} {σ : Type} (fuel : ℕ) (empty : D)
    (c : Ctrl) (w : World D σ) (ops : List (Op I O))
    (hops : ∀ op ∈ ops, ∀ i dO dI, op ≠ .rev i dO dI) (i di : I) (dO : O) :
    (compute B opt (ch.ck B opt) fuel
        (doOps B opt (ch.ck B opt) fuel (setupAgain opt (ch.ck B opt) empty c w) ops) i).2
      = (compute B opt (ch.ck B opt) fuel
        (doOps B opt (ch.ck B opt) fuel (freshWorld opt (ch.ck B opt) empty c) ops) i).2 ∧
    (fwd B opt fuel
        (doOps B opt (ch.ck B opt) fuel (setupAgain opt (ch.ck B opt) empty c w) ops) i di dO).2
      = (fwd B opt fuel
        (doOps B opt (ch.ck B opt) fuel (freshWorld opt (ch.ck B opt) empty c) ops) i di dO).2 := by
  refine C26_only_controller_state_matters W fuel _ _ ?_ i di dO
  have key : ∀ (ops : List (Op I O)) (w1 w2 : World D (ch.Data D)), w1.ctrl = w2.ctrl →
      (∀ op ∈ ops, ∀ i dO dI, op ≠ .rev i dO dI) →
      (doOps B opt (ch.ck B opt) fuel w1 ops).ctrl = (doOps B opt (ch.ck B opt) fuel w2 ops).ctrl := by
    intro ops
    induction ops with
    | nil => intro w1 w2 h _; exact h
    | cons op ops ih =>
      intro w1 w2 h hn
      refine ih _ _ ?_ (fun op' h' => hn op' (List.mem_cons_of_mem _ h'))
      cases op with
      | compute i => exact (compute_same W fuel w1 w2 h i).2
      | fwd i di dO => exact (fwd_same W fuel w1 w2 h i di dO).2
      | rev i dO dI => exact absurd rfl (hn _ List.mem_cons_self i dO dI)
  exact key ops _ _ rfl hops

/-- C102, reverse products of a component that stores all checkpoints, without adaptive stepping or
with a single controller: after `setup` and operations, of which the last `compute` or reverse
product returned (there must be one since `setup`), a reverse product has the outcome of a new
component. Missing for the full claim: reverse products right after `setup`
(violated: `C102_reverse_after_setup_violated`); equal values at other times (C35). -/
theorem C102_reverse_after_setup_partial (E : Env s n m o l) (hz : NoStageState E.ode) {σ : Type}
    {fuel : ℕ} {c : Ctrl} (hp : opt.adaptive = false ∨ ∃ par cfg, c = .base par cfg)
    (w : World (RKState ℝ s n m o l) σ) (ops : List (Op (StartingValues ℝ n m) (Outputs n)))
    (hs : Settled (rkBackend E) opt (allCk (rkBackend E) opt) fuel False
      (setupAgain opt (allCk (rkBackend E) opt) RKState.empty c w) ops)
    (i dI : StartingValues ℝ n m) (dO : Outputs n) (ht : TimesAgree ops i) :
    (rev (rkBackend E) opt (allCk (rkBackend E) opt) fuel
        (doOps (rkBackend E) opt (allCk (rkBackend E) opt) fuel
          (setupAgain opt (allCk (rkBackend E) opt) RKState.empty c w) ops) i dO dI).2
      = (rev (rkBackend E) opt (allCk (rkBackend E) opt) fuel (freshAll E opt c) i dO dI).2 := by
  set w0 : World (RKState ℝ s n m o l) (List (IState (RKState ℝ s n m o l))) :=
    setupAgain opt (allCk (rkBackend E) opt) RKState.empty c w with hw0
  have hc := doOps_plain (B := rkBackend E) (ch := .all) (fuel := fuel) (w := w0) ops hp
  simp only [Choice.ck] at hc
  obtain ⟨h1, h2⟩ := settled_good (rkLawful E hz) ops [] False (w := w0) hp (fun h => h.elim) hs
  refine rev_spec (rkLawful E hz) (w0 := freshAll E opt c) hc (by rw [hc]; exact h1) rfl
    (doOps_clean (rkLawful E hz) (ch := .all) ops rfl) rfl i dI dO ?_
  intro d hd hh
  obtain ⟨j, hj, d', rfl⟩ := h2 d hd
  rw [show (rkLawful E hz).obs ((rkBackend E).load d' j) = (rkLawful E hz).obs
    ((rkBackend E).load d' i) from hit_obs ht j (by simpa using hj) d' hh]
  exact (rkLawful E hz).load_obs _ _ _

/-- C102 for embedded schemes. -/
theorem C102_embedded_reverse_after_setup_partial (E : Env s n m o l) (bhat : Fin s → ℝ)
    (hz : NoStageState E.ode) {σ : Type} {fuel : ℕ} {c : Ctrl}
    (hp : opt.adaptive = false ∨ ∃ par cfg, c = .base par cfg)
    (w : World (EmbRKState ℝ s n m o l) σ) (ops : List (Op (StartingValues ℝ n m) (Outputs n)))
    (hs : Settled (embBackend E bhat) opt (allCk (embBackend E bhat) opt) fuel False
      (setupAgain opt (allCk (embBackend E bhat) opt) EmbRKState.empty c w) ops)
    (i dI : StartingValues ℝ n m) (dO : Outputs n) (ht : TimesAgree ops i) :
    (rev (embBackend E bhat) opt (allCk (embBackend E bhat) opt) fuel
        (doOps (embBackend E bhat) opt (allCk (embBackend E bhat) opt) fuel
          (setupAgain opt (allCk (embBackend E bhat) opt) EmbRKState.empty c w) ops) i dO dI).2
      = (rev (embBackend E bhat) opt (allCk (embBackend E bhat) opt) fuel
          (freshWorld opt (allCk (embBackend E bhat) opt) EmbRKState.empty c) i dO dI).2 := by
  set w0 : World (EmbRKState ℝ s n m o l) (List (IState (EmbRKState ℝ s n m o l))) :=
    setupAgain opt (allCk (embBackend E bhat) opt) EmbRKState.empty c w with hw0
  have hc := doOps_plain (B := embBackend E bhat) (ch := .all) (fuel := fuel) (w := w0) ops hp
  simp only [Choice.ck] at hc
  obtain ⟨h1, h2⟩ := settled_good (embLawful E bhat hz) ops [] False (w := w0) hp
    (fun h => h.elim) hs
  refine rev_spec (embLawful E bhat hz)
    (w0 := freshWorld opt (allCk (embBackend E bhat) opt) EmbRKState.empty c) hc
    (by rw [hc]; exact h1) rfl (doOps_clean (embLawful E bhat hz) (ch := .all) ops rfl) rfl i dI dO ?_
  intro d hd hh
  obtain ⟨j, hj, d', rfl⟩ := h2 d hd
  rw [show (embLawful E bhat hz).obs ((embBackend E bhat).load d' j) = (embLawful E bhat hz).obs
    ((embBackend E bhat).load d' i) from hit_obs ht j (by simpa using hj) d'.toRKState hh]
  exact (embLawful E bhat hz).load_obs _ _ _

/-- C102, reverse products right after `setup`, in every component that stores all checkpoints: if
the remembered inputs match, the seed is returned as if there were no time steps. -/
theorem C102_reverse_right_after_setup {σ : Type} {fuel : ℕ} {c : Ctrl} {empty : D}
    (w : World D σ) {i dI : I} {dO : O}
    (hca : cacheOk B w i = true) :
    (rev B opt (allCk B opt) fuel (setupAgain opt (allCk B opt) empty c w) i dO dI).2
      = .ok (B.writeIn (B.seed empty dO) dI) := by
  rw [rev_of_cached (by simpa [cacheOk, setupAgain] using hca)]
  rfl

/-- C102 is violated for reverse products right after `setup`: for `y' = t y`, one step of explicit
Euler of size 1 from `y = 1` at time 1, seed 1, the derivative with respect to `y` is 2. After
`compute` and `setup` the component returns 1. -/
theorem C102_reverse_after_setup_violated :
    let B := rkBackend envTime
    let w := freshAll envTime opt1 Integrator.Ex.ctrl
    let dO : Outputs 1 := ⟨0, fun _ => 1⟩
    let z : StartingValues ℝ 1 1 := ⟨0, 0, 0⟩
    (∃ g, (rev B opt1 (allCk B opt1) 5 w (atTime 1) dO z).2 = .ok g ∧ g.initialValues 0 = 2) ∧
    (∃ g, (rev B opt1 (allCk B opt1) 5
      (setupAgain opt1 (allCk B opt1) RKState.empty Integrator.Ex.ctrl
        (doOps B opt1 (allCk B opt1) 5 w [.compute (atTime 1)])) (atTime 1) dO z).2 = .ok g ∧
      g.initialValues 0 = 1) := by
  intro B w dO z
  constructor
  · have hr := time_run w.tis.disc 1
    refine ⟨_, rev_of_run (by rfl) hr (by simp), ?_⟩
    change (computeStepAdjoint envTime.T envTime.ode (timeStep w.tis.disc 1).disc
      (rkSeed w.pert dO) 1).finalState 0 = 2
    rw [time_adj _ _ _ rfl]
    norm_num
  · have hr := time_run w.tis.disc 1
    have hcomp := compute_of_run (ch := .all) (w := w) (fuel := 5) hr (by simp)
    simp only [Choice.ck] at hcomp
    refine ⟨_, C102_reverse_right_after_setup _ ?_, rfl⟩
    simp only [doOps, List.foldl, doOp]
    rw [hcomp]
    simp [cacheOk, rkCacheHit, rkLoad, B, rkBackend]

/-- A case of C102: `compute`, another `setup`, `compute` and a forward product, then a reverse
product. -/
example (i di dI : StartingValues ℝ 1 1) (dO : Outputs 1) (σ : Type)
    (w : World (RKState ℝ 1 1 1 0 0) σ) :
    (rev (rkBackend Integrator.Ex.env) Integrator.Ex.opt3
      (allCk (rkBackend Integrator.Ex.env) Integrator.Ex.opt3) 4
      (doOps (rkBackend Integrator.Ex.env) Integrator.Ex.opt3
        (allCk (rkBackend Integrator.Ex.env) Integrator.Ex.opt3) 4
        (setupAgain Integrator.Ex.opt3 (allCk (rkBackend Integrator.Ex.env) Integrator.Ex.opt3)
          RKState.empty Integrator.Ex.ctrl w) [.compute i, .fwd i di dO]) i dO dI).2
    = (rev (rkBackend Integrator.Ex.env) Integrator.Ex.opt3
      (allCk (rkBackend Integrator.Ex.env) Integrator.Ex.opt3) 4
      (freshAll Integrator.Ex.env Integrator.Ex.opt3 Integrator.Ex.ctrl) i dO dI).2 := by
  refine C102_reverse_after_setup_partial _ Integrator.Ex.env_noStageState (Or.inl rfl) w _ ?_ i dI
    dO ?_
  · obtain ⟨w', v, hc⟩ := Integrator.Ex.fresh_compute_ok .all 4 (by norm_num)
      (setupAgain Integrator.Ex.opt3 (allCk (rkBackend Integrator.Ex.env) Integrator.Ex.opt3)
          RKState.empty Integrator.Ex.ctrl w) i
    change returned (compute _ _ _ _ _ _).2
    simp only [Choice.ck] at hc
    rw [hc]
    trivial
  · intro j hj _ _
    simp only [List.mem_cons, Op.compute.injEq, List.not_mem_nil, or_false, reduceCtorEq] at hj
    rw [hj]

/-! ### C103: interrupted operations

`Faults` says, for one operation, which of the calls of stage problems, error measures and callbacks
raise. -/

/-- C103, conformance: without faults the operations are those used everywhere else. -/
theorem C103_no_faults (fuel : ℕ) (w : World D (List (IState D))) (i di dI : I) (dO : O) :
    computeF B opt Faults.none fuel w i = compute B opt (allCk B opt) fuel w i ∧
    fwdF B opt Faults.none fuel w i di dO = fwd B opt fuel w i di dO ∧
    revF B opt Faults.none fuel w i dO dI = rev B opt (allCk B opt) fuel w i dO dI :=
  ⟨computeF_none _ _ _, fwdF_none _ _ _ _ _, revF_none _ _ _ _ _⟩

/-- C103, no silent damage within an operation: an operation that returns in spite of faults returns
what it returns without them, and leaves the same component behind. So a fault shows, in the
operation in which it happens. -/
theorem C103_faults_show (F : Faults D) (fuel : ℕ) (w w' : World D (List (IState D)))
    (i di dI : I) (dO : O) :
    (∀ v, computeF B opt F fuel w i = (w', .ok v) →
      compute B opt (allCk B opt) fuel w i = (w', .ok v)) ∧
    (∀ v, fwdF B opt F fuel w i di dO = (w', .ok v) → fwd B opt fuel w i di dO = (w', .ok v)) ∧
    (∀ g, revF B opt F fuel w i dO dI = (w', .ok g) →
      rev B opt (allCk B opt) fuel w i dO dI = (w', .ok g)) :=
  ⟨fun _ h => computeF_ok h, fun _ h => fwdF_ok h, fun _ h => revF_ok h⟩

/-- C103, the exception is passed on: an operation ends with the exception of the first of its calls
of external code that raises, and if none of them does, it has the outcome it has without faults. The
calls an operation makes are listed, in their order, in `Verif.Integrator.FaultPoints`; that these
are the calls of callbacks that are recorded is `C103_calls_are_recorded`. -/
theorem C103_first_exception_is_passed_on (F : Faults D) (fuel : ℕ) (w : World D (List (IState D)))
    (i di dI : I) (dO : O) :
    (computeF B opt F fuel w i).2
      = (match (computePts B opt fuel w i).findSome? F.raises with
        | some e => .error e
        | none => (compute B opt (allCk B opt) fuel w i).2) ∧
    (fwdF B opt F fuel w i di dO).2
      = (match (fwdPts B opt fuel w i di).findSome? F.raises with
        | some e => .error e
        | none => (fwd B opt fuel w i di dO).2) ∧
    (revF B opt F fuel w i dO dI).2
      = (match (revPts B opt fuel w i).findSome? F.raises with
        | some e => .error e
        | none => (rev B opt (allCk B opt) fuel w i dO dI).2) := by
  refine ⟨?_, ?_, ?_⟩
  · rcases h : (computePts B opt fuel w i).findSome? F.raises with _ | e
    · rw [(computeF_pts _ _ _).1 h]
    · exact (computeF_pts _ _ _).2 e h
  · rcases h : (fwdPts B opt fuel w i di).findSome? F.raises with _ | e
    · rw [(fwdF_pts _ _ _ _ _).1 h]
    · exact (fwdF_pts _ _ _ _ _).2 e h
  · rcases h : (revPts B opt fuel w i).findSome? F.raises with _ | e
    · rw [(revF_pts _ _ _ _ _).1 h]
    · exact (revF_pts _ _ _ _ _).2 e h

/-- C103: the calls of callbacks among the calls of an operation are those that are recorded when
the operation runs without faults, in this order. -/
theorem C103_calls_are_recorded (fuel : ℕ) (w : World D (List (IState D))) (i di dI : I) (dO : O) :
    (∃ l, (compute B opt (allCk B opt) fuel w i).1.log = w.log ++ l ∧
      l.map Ev.pt = (computePts B opt fuel w i).filter Pt.isCallback) ∧
    (∃ l, (fwd B opt fuel w i di dO).1.log = w.log ++ l ∧
      l.map Ev.pt = (fwdPts B opt fuel w i di).filter Pt.isCallback) ∧
    (∃ l, (rev B opt (allCk B opt) fuel w i dO dI).1.log = w.log ++ l ∧
      l.map Ev.pt = (revPts B opt fuel w i).filter Pt.isCallback) :=
  ⟨compute_log_pts _ _ _, fwd_log_pts _ _ _ _ _, rev_log_pts _ _ _ _ _⟩

/-- C103, values and forward products, without adaptive stepping or with a single controller: after
any operations, each interrupted at any point or not, `compute` and forward products have the
outcomes of the component without this history. Missing for the full claim: chains of controllers
(violated: `C26_chain_state_violated`). -/
theorem C103_values_after_interruptions_partial (W : Lawful B) {fuel : ℕ}
    {w : World D (List (IState D))} (hp : opt.adaptive = false ∨ ∃ par cfg, w.ctrl = .base par cfg)
    (ops : List (Op I O × Faults D)) (i di : I) (dO : O) :
    (compute B opt (allCk B opt) fuel (doOpsF B opt fuel w ops) i).2
      = (compute B opt (allCk B opt) fuel w i).2 ∧
    (fwd B opt fuel (doOpsF B opt fuel w ops) i di dO).2 = (fwd B opt fuel w i di dO).2 :=
  C26_only_controller_state_matters W (ch := .all) (ch' := .all) fuel _ _
    (doOpsF_plain ops hp) i di dO

/-- C103, reverse products (plain schemes): after any operations, each interrupted at any point or
not, of which the last `compute` or reverse product was not (so at most forward products were
interrupted since), a reverse product has the outcome of the component without this history. An
interrupted derivative or adjoint step may leave anything in the perturbations except for the stage
states, which this backend keeps at zero. Missing for the full claim: the last `compute` or reverse
product was interrupted (violated: `C103_interrupted_reverse_violated`,
`C103_interrupted_compute_violated`); equal values at other times (C35). -/
theorem C103_reverse_after_interruptions_partial (E : Env s n m o l) (hz : NoStageState E.ode)
    {fuel : ℕ} {w : World (RKState ℝ s n m o l) (List (IState (RKState ℝ s n m o l)))}
    (hp : opt.adaptive = false ∨ ∃ par cfg, w.ctrl = .base par cfg) (h0 : w.cached = none)
    (cw : w.pert.stageStates = 0)
    (ops : List (Op (StartingValues ℝ n m) (Outputs n) × Faults (RKState ℝ s n m o l)))
    (ht : ∀ q ∈ ops, ∀ p, p.stageStates = 0 → (q.2.torn p).stageStates = 0)
    (hs : SettledF (rkBackend E) opt fuel True w ops) (i dI : StartingValues ℝ n m) (dO : Outputs n)
    (htm : TimesAgree (ops.map Prod.fst) i) :
    (rev (rkBackend E) opt (allCk (rkBackend E) opt) fuel (doOpsF (rkBackend E) opt fuel w ops) i dO
        dI).2
      = (rev (rkBackend E) opt (allCk (rkBackend E) opt) fuel w i dO dI).2 :=
  revF_history (rkLawful E hz) ops ht hp h0 cw hs i dI dO (fun j hj d hh => hit_obs htm j hj d hh)

/-- C103, reverse products (embedded schemes). -/
theorem C103_embedded_reverse_after_interruptions_partial (E : Env s n m o l) (bhat : Fin s → ℝ)
    (hz : NoStageState E.ode)
    {fuel : ℕ} {w : World (EmbRKState ℝ s n m o l) (List (IState (EmbRKState ℝ s n m o l)))}
    (hp : opt.adaptive = false ∨ ∃ par cfg, w.ctrl = .base par cfg) (h0 : w.cached = none)
    (cw : w.pert.stageStates = 0)
    (ops : List (Op (StartingValues ℝ n m) (Outputs n) × Faults (EmbRKState ℝ s n m o l)))
    (ht : ∀ q ∈ ops, ∀ p, p.stageStates = 0 → (q.2.torn p).stageStates = 0)
    (hs : SettledF (embBackend E bhat) opt fuel True w ops) (i dI : StartingValues ℝ n m)
    (dO : Outputs n) (htm : TimesAgree (ops.map Prod.fst) i) :
    (rev (embBackend E bhat) opt (allCk (embBackend E bhat) opt) fuel
        (doOpsF (embBackend E bhat) opt fuel w ops) i dO dI).2
      = (rev (embBackend E bhat) opt (allCk (embBackend E bhat) opt) fuel w i dO dI).2 :=
  revF_history (embLawful E bhat hz) ops ht hp h0 cw hs i dI dO
    (fun j hj d hh => hit_obs htm j hj d.toRKState hh)

/-- The stage problem fails in the first attempt of step 1. -/
def solveFault {D : Type} : Faults D :=
  ⟨fun pt => match pt with | .solve 1 0 => some .backend | _ => none, id⟩

/-- A case of `C103_first_exception_is_passed_on`: a `compute` and a forward product that are
interrupted in their first step. -/
example (i di : StartingValues ℝ 1 1) (dO : Outputs 1)
    (w : World (RKState ℝ 1 1 1 0 0) (List (IState (RKState ℝ 1 1 1 0 0)))) :
    (computeF (rkBackend Integrator.Ex.env) Integrator.Ex.opt3 solveFault 4 w i).2
      = .error .backend ∧
    (fwdF (rkBackend Integrator.Ex.env) Integrator.Ex.opt3 solveFault 4 w i di dO).2
      = .error .backend := by
  obtain ⟨h1, h2, -⟩ := C103_first_exception_is_passed_on (B := rkBackend Integrator.Ex.env)
    (opt := Integrator.Ex.opt3) solveFault 4 w i di i dO
  rw [h1, h2]
  constructor <;>
    simp [computePts, forwardPts, runStepPts, fwdPts, fwdLoopPts, runStepFwdPts, iteratePts,
      Integrator.Ex.opt3, Crit.finished, solveFault, List.range_succ]

/-- A case: a `compute` that is interrupted, one that is not, and an interrupted forward product. -/
example (i j di dI : StartingValues ℝ 1 1) (dO : Outputs 1) (ht : j.initialTime = i.initialTime) :
    (rev (rkBackend Integrator.Ex.env) Integrator.Ex.opt3
      (allCk (rkBackend Integrator.Ex.env) Integrator.Ex.opt3) 4
      (doOpsF (rkBackend Integrator.Ex.env) Integrator.Ex.opt3 4
        (freshAll Integrator.Ex.env Integrator.Ex.opt3 Integrator.Ex.ctrl)
        [(.compute j, solveFault), (.compute i, Faults.none), (.fwd j di dO, solveFault)]) i dO dI).2
    = (rev (rkBackend Integrator.Ex.env) Integrator.Ex.opt3
      (allCk (rkBackend Integrator.Ex.env) Integrator.Ex.opt3) 4
      (freshAll Integrator.Ex.env Integrator.Ex.opt3 Integrator.Ex.ctrl) i dO dI).2 := by
  refine C103_reverse_after_interruptions_partial _ Integrator.Ex.env_noStageState (Or.inl rfl) rfl
    rfl _ ?_ ?_ i dI dO ?_
  · intro q hq p hp
    simp only [List.mem_cons, List.not_mem_nil, or_false] at hq
    rcases hq with rfl | rfl | rfl <;> exact hp
  · change returned (computeF _ _ Faults.none _ _ _).2
    rw [computeF_none]
    obtain ⟨w', v, hc⟩ := Integrator.Ex.fresh_compute_ok .all 4 (by norm_num)
      (doOpF (rkBackend Integrator.Ex.env) Integrator.Ex.opt3 4
        (freshAll Integrator.Ex.env Integrator.Ex.opt3 Integrator.Ex.ctrl)
        (.compute j, solveFault)) i
    simp only [Choice.ck] at hc
    rw [hc]
    trivial
  · intro k hk _ _
    simp only [List.map_cons, List.map_nil, List.mem_cons, Op.compute.injEq, List.not_mem_nil,
      or_false, reduceCtorEq] at hk
    rcases hk with rfl | rfl
    · exact ht
    · rfl

/-- C103, recovery: whatever an interruption at any point, within any statement, left of the live
state, the checkpoints and the remembered inputs, a `compute` has the outcome of a new component, and
if it returns, the reverse product at its inputs is that of a new component. Only the controller must
be as it was (it is, if it is not a chain), and the stage states of the perturbations zero. -/
theorem C103_compute_recovers (W : Lawful B) {fuel : ℕ} {w w0 : World D (List (IState D))}
    (hp : opt.adaptive = false ∨ ∃ par cfg, w.ctrl = .base par cfg) (hc : w.ctrl = w0.ctrl)
    (h0 : w0.cached = none) (cw : W.Clean w.pert) (cw0 : W.Clean w0.pert) (i dI : I) (dO : O) :
    (compute B opt (allCk B opt) fuel w i).2 = (compute B opt (allCk B opt) fuel w0 i).2 ∧
    ∀ w1 v, compute B opt (allCk B opt) fuel w i = (w1, .ok v) →
      (rev B opt (allCk B opt) fuel w1 i dO dI).2 = (rev B opt (allCk B opt) fuel w0 i dO dI).2 :=
  ⟨(compute_same W (ch := .all) (ch' := .all) fuel w w0 hc i).1,
    fun _ _ h => rev_any_compute W hp hc h0 cw cw0 h dI dO⟩

/-- C103, recovery with pyrevolve and any legal schedule. -/
theorem C103_pyrevolve_compute_recovers {W : Lawful B} {R : Restore D} (L : LawfulRestore W R)
    {N : ℕ} {sched : Schedule} (hl : Legal N sched) (hN : opt.crit = .steps (N + 1)) {fuel : ℕ}
    (hf : N + 1 < fuel) {e : IState D} {w : World D (PyData D)} {w0 : World D (List (IState D))}
    (hp : opt.adaptive = false ∨ ∃ par cfg, w.ctrl = .base par cfg) (hc : w.ctrl = w0.ctrl)
    (h0 : w0.cached = none) (cw : W.Clean w.pert) (cw0 : W.Clean w0.pert) (i dI : I) (dO : O) :
    (compute B opt (pyCk B opt R e N sched) fuel w i).2
      = (compute B opt (allCk B opt) fuel w0 i).2 ∧
    ∀ w1 v, compute B opt (pyCk B opt R e N sched) fuel w i = (w1, .ok v) →
      (rev B opt (pyCk B opt R e N sched) fuel w1 i dO dI).2
        = (rev B opt (allCk B opt) fuel w0 i dO dI).2 := by
  refine ⟨?_, fun _ _ h => py_rev_any_compute L hl hN hf hp hc h0 cw cw0 h dI dO⟩
  obtain ⟨-, sl, hlf, -⟩ := hl
  exact (py_compute_same (ch := .all) L hlf hN hf w w0 hp hc i).1

/-- C103, what goes wrong: if a reverse product that uses stored checkpoints is interrupted, at any
point, then the next one at the same inputs returns numbers, from the first `k` of the steps only,
`k` less than their number. -/
theorem C103_interrupted_reverse_drops_steps {F : Faults D} {fuel : ℕ}
    {w w' : World D (List (IState D))} {i dI : I} {dO : O} {e : Err} (hca : cacheOk B w i = true)
    (h : revF B opt F fuel w i dO dI = (w', .error e)) (dO' : O) (dI' : I) :
    ∃ k, k < w.ck.length ∧ (rev B opt (allCk B opt) fuel w' i dO' dI').2
      = .ok (B.writeIn (revAlong B (w.ck.take k).reverse (B.seed w'.pert dO')) dI') := by
  simp only [revF, if_pos hca] at h
  rcases h1 : (allReverseF B opt F w.ck.reverse (B.seed w.pert dO)).2.2.2 with e' | u
  · rw [h1] at h
    simp only [Prod.mk.injEq] at h
    obtain ⟨hw, -⟩ := h
    obtain ⟨k, hk, he⟩ := allReverseF_interrupted h1
    rw [List.length_reverse] at hk
    refine ⟨w.ck.length - (k + 1), by omega, ?_⟩
    have hck : w'.ck = w.ck.take (w.ck.length - (k + 1)) := by
      rw [← hw]
      simp only [he, List.drop_reverse, List.reverse_reverse]
    have hca' : cacheOk B w' i = true := by
      rw [← hw]
      exact hca
    rw [rev_of_cached hca', hck]
  · rw [h1] at h; simp at h

/-- The adjoint stage problem of step 1 fails. -/
def adjointFault {D : Type} : Faults D :=
  ⟨fun pt => match pt with | .adjoint 1 => some .backend | _ => none, id⟩

/-- This fault does not touch `compute`. -/
theorem adjointFault_compute (w : World (RKState ℝ 1 1 1 0 2) (List (IState (RKState ℝ 1 1 1 0 2))))
    (i : StartingValues ℝ 1 1) : computeF (rkBackend envTime) opt1 adjointFault 5 w i
      = compute (rkBackend envTime) opt1 (allCk (rkBackend envTime) opt1) 5 w i := by
  set B := rkBackend envTime
  rw [← computeF_none]
  have hit : ∀ it f a c x, iterateF B opt1 adjointFault it f a c x
      = iterateF B opt1 Faults.none it f a c x := by
    intro it f
    induction f with
    | zero => intros; rfl
    | succ f ih => intro a c x; simp only [iterateF, adjointFault, Faults.none, opt1]; rfl
  have hs : ∀ it c x, runStepF B opt1 adjointFault it c x = runStepF B opt1 Faults.none it c x := by
    intro it c x
    simp only [runStepF, hit]
    rfl
  have hl : ∀ f it st c x, allForwardF B opt1 adjointFault f it st c x
      = allForwardF B opt1 Faults.none f it st c x := by
    intro f
    induction f with
    | zero => intros; rfl
    | succ f ih => intro it st c x; simp only [allForwardF, hs, ih]
  simp only [computeF, hl]

/-- A case of `C103_faults_show`: an operation that returns although there are faults. -/
example : ∃ w' v, computeF (rkBackend envTime) opt1 adjointFault 5
    (freshAll envTime opt1 Integrator.Ex.ctrl) (atTime 1) = (w', .ok v) := by
  rw [adjointFault_compute]
  exact ⟨_, _, compute_of_run (ch := .all) (time_run _ 1) (by simp)⟩

/-- A case of `C103_interrupted_reverse_drops_steps`. -/
example (dO : Outputs 1) (dI : StartingValues ℝ 1 1) : ∃ w w',
    cacheOk (rkBackend envTime) w (atTime 1) = true ∧
    revF (rkBackend envTime) opt1 adjointFault 5 w (atTime 1) dO dI = (w', .error .backend) := by
  have hr := time_run (freshAll envTime opt1 Integrator.Ex.ctrl).tis.disc 1
  have hcomp := compute_of_run (ch := .all) (w := freshAll envTime opt1 Integrator.Ex.ctrl)
    (fuel := 5) hr (by simp)
  simp only [Choice.ck] at hcomp
  have hst := compute_stores hcomp hr
  obtain ⟨w1, hck, hca⟩ : ∃ w1 : World (RKState ℝ 1 1 1 0 2) (List (IState (RKState ℝ 1 1 1 0 2))),
      w1.ck = [timeStep (freshAll envTime opt1 Integrator.Ex.ctrl).tis.disc 1] ∧
      cacheOk (rkBackend envTime) w1 (atTime 1) = true :=
    ⟨_, hst, by simp [cacheOk, rkCacheHit, rkLoad, rkBackend]⟩
  refine ⟨w1, _, hca, Prod.ext rfl ?_⟩
  simp only [revF, if_pos hca, hck]
  rfl

/-- C103 is violated if a reverse product is interrupted: the checkpoint of a step is removed before
the step is reverted (all_checkpointer.py L99), but the inputs are still remembered as those of the
checkpoints (runge_kutta_integrator.py L792 is not reached). For `y' = t y`, one step of explicit
Euler of size 1 from `y = 1` at time 1, seed 1, the derivative is 2; after an attempt in which the
adjoint stage problem raised once, the component returns 1. -/
theorem C103_interrupted_reverse_violated :
    let B := rkBackend envTime
    let w := freshAll envTime opt1 Integrator.Ex.ctrl
    let dO : Outputs 1 := ⟨0, fun _ => 1⟩
    let z : StartingValues ℝ 1 1 := ⟨0, 0, 0⟩
    (∃ g, (rev B opt1 (allCk B opt1) 5 w (atTime 1) dO z).2 = .ok g ∧ g.initialValues 0 = 2) ∧
    (revF B opt1 adjointFault 5 w (atTime 1) dO z).2 = .error .backend ∧
    (∃ g, (rev B opt1 (allCk B opt1) 5
      (doOpsF B opt1 5 w [(.rev (atTime 1) dO z, adjointFault)]) (atTime 1) dO z).2 = .ok g ∧
      g.initialValues 0 = 1) := by
  intro B w dO z
  have hr := time_run w.tis.disc 1
  have hcomp := compute_of_run (ch := .all) (w := w) (fuel := 5) hr (by simp)
  simp only [Choice.ck] at hcomp
  have hst := compute_stores hcomp hr
  obtain ⟨w1, v, hcw, hck, hpe, hca⟩ : ∃ w1 v, compute B opt1 (allCk B opt1) 5 w (atTime 1)
      = (w1, .ok v) ∧ w1.ck = [timeStep w.tis.disc 1] ∧ w1.pert = w.pert ∧
      w1.cached = some (B.load w.tis.disc (atTime 1)) := ⟨_, _, hcomp, hst, rfl, rfl⟩
  have hF := adjointFault_compute w (atTime 1)
  have hrev : revF B opt1 adjointFault 5 w (atTime 1) dO z
      = ({ w1 with pert := B.seed w.pert dO, ck := [], log := w1.log ++ [] }, .error .backend) := by
    have hno : cacheOk B w (atTime 1) = false := rfl
    have hF' : computeF B opt1 adjointFault 5 w (atTime 1) = (w1, .ok v) := hF.trans hcw
    simp only [revF, hF', hno, Bool.false_eq_true, if_false, hck, hpe]
    rfl
  refine ⟨⟨_, rev_of_run (by rfl) hr (by simp), ?_⟩, by rw [hrev], ⟨_, rev_of_cached ?_, ?_⟩⟩
  · change (computeStepAdjoint envTime.T envTime.ode (timeStep w.tis.disc 1).disc
      (rkSeed w.pert dO) 1).finalState 0 = 2
    rw [time_adj _ _ _ rfl]
    norm_num
  · simp only [doOpsF, List.foldl, doOpF, hrev, cacheOk, hca]
    simp [rkCacheHit, rkLoad, B, rkBackend]
  · simp only [doOpsF, List.foldl, doOpF, hrev]
    rfl

/-- C103 is violated if `compute` is interrupted: the inputs are remembered before the first step
(runge_kutta_integrator.py L465). In the same example, after a `compute` in which the stage problem
raised once, the component returns 1 instead of 2. -/
theorem C103_interrupted_compute_violated :
    let B := rkBackend envTime
    let w := freshAll envTime opt1 Integrator.Ex.ctrl
    let dO : Outputs 1 := ⟨0, fun _ => 1⟩
    let z : StartingValues ℝ 1 1 := ⟨0, 0, 0⟩
    (∃ g, (rev B opt1 (allCk B opt1) 5 w (atTime 1) dO z).2 = .ok g ∧ g.initialValues 0 = 2) ∧
    (computeF B opt1 solveFault 5 w (atTime 1)).2 = .error .backend ∧
    (∃ g, (rev B opt1 (allCk B opt1) 5
      (doOpsF B opt1 5 w [(.compute (atTime 1), solveFault)]) (atTime 1) dO z).2 = .ok g ∧
      g.initialValues 0 = 1) := by
  intro B w dO z
  have hr := time_run w.tis.disc 1
  have hfin : ∀ t, ¬ opt1.crit.finished 0 t := fun t => by simp [opt1, Crit.finished]
  have hl : ∀ x, allForwardF B opt1 solveFault 5 0 [] w.ctrl x
      = ([], ⟨w.ctrl, x, [], .error .backend⟩) := by
    intro x
    simp only [allForwardF, if_neg (hfin _)]
    rfl
  have hcomp : computeF B opt1 solveFault 5 w (atTime 1)
      = ({ w with tis := startOf B opt1 w.ctrl w.tis.disc (atTime 1),
                  cached := some (B.load w.tis.disc (atTime 1)), ck := [], log := w.log ++ [] },
        .error .backend) := by
    simp only [computeF, hl]
    rfl
  refine ⟨⟨_, rev_of_run (by rfl) hr (by simp), ?_⟩, by rw [hcomp], ⟨_, rev_of_cached ?_, ?_⟩⟩
  · change (computeStepAdjoint envTime.T envTime.ode (timeStep w.tis.disc 1).disc
      (rkSeed w.pert dO) 1).finalState 0 = 2
    rw [time_adj _ _ _ rfl]
    norm_num
  · simp only [doOpsF, List.foldl, doOpF, hcomp]
    simp [cacheOk, rkCacheHit, rkLoad, B, rkBackend]
  · simp only [doOpsF, List.foldl, doOpF, hcomp]
    rfl

end Verif.Props
