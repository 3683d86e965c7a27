/-
Properties about the dependence of results on what the component computed before (C26, C35, C36,
and C14 for components with a history).
-/
import Verif.Integrator.History
import Verif.Integrator.Core
import Verif.Props.Deriv
import Verif.Props.FinalTime

namespace Verif.Props

open Verif.RK Verif.RK.Spec Verif.Control Verif.XReal Verif.Integrator
open Classical

variable {s n m o l : ℕ} {opt : Options}

/-! ### C26 -/

/-- C26: of everything earlier computations leave behind - states, buffers, perturbations, caches,
checkpoints - only the state of the error controller can influence the result (or the exception) of
`compute` and of a forward product. This also holds between components with different
checkpointers. -/
theorem C26_only_controller_state_matters {D I O : Type} {B : Backend D I O} (W : Lawful B)
    {ch ch' : Choice} (fuel : ℕ) (w : World D (ch.Data D)) (w' : World D (ch'.Data D))
    (hc : w.ctrl = w'.ctrl) (i di : I) (dO : O) :
    (compute B opt (ch.ck B opt) fuel w i).2 = (compute B opt (ch'.ck B opt) fuel w' i).2 ∧
    (fwd B opt fuel w i di dO).2 = (fwd B opt fuel w' i di dO).2 :=
  ⟨(compute_same W fuel w w' hc i).1, (fwd_same W fuel w w' hc i di dO).1⟩

/-- C26, for every component without adaptive stepping and every component with a single error
controller: after any two sequences of operations, failed ones included, `compute` and forward
products have the same outcome. Missing for the full claim: controller chains, for which it is
violated (see `C26_chain_state_violated`), and reverse products (C35). -/
theorem C26_reproducible_partial {D I O : Type} {B : Backend D I O} (W : Lawful B)
    {ch ch' : Choice} (fuel fuel' fuel'' : ℕ) (w : World D (ch.Data D)) (w' : World D (ch'.Data D))
    (hc : w.ctrl = w'.ctrl)
    (hp : opt.adaptive = false ∨ ∃ par cfg, w.ctrl = .base par cfg)
    (ops ops' : List (Op I O)) (i di : I) (dO : O) :
    (compute B opt (ch.ck B opt) fuel'' (doOps B opt (ch.ck B opt) fuel w ops) i).2
      = (compute B opt (ch'.ck B opt) fuel'' (doOps B opt (ch'.ck B opt) fuel' w' ops') i).2 ∧
    (fwd B opt fuel'' (doOps B opt (ch.ck B opt) fuel w ops) i di dO).2
      = (fwd B opt fuel'' (doOps B opt (ch'.ck B opt) fuel' w' ops') i di dO).2 := by
  refine C26_only_controller_state_matters W fuel'' _ _ ?_ i di dO
  rw [doOps_plain ops hp, doOps_plain ops' (by rw [← hc]; exact hp), hc]

/-- C26 for the Runge-Kutta component: two components with equal controllers, any two histories and
any checkpointers. -/
theorem C26_rk_reproducible_partial (E : Env s n m o l) (hz : NoStageState E.ode)
    {ch ch' : Choice} (fuel fuel' fuel'' : ℕ) (w : World (RKState ℝ s n m o l) (ch.Data (RKState ℝ s n m o l)))
    (w' : World (RKState ℝ s n m o l) (ch'.Data (RKState ℝ s n m o l))) (hc : w.ctrl = w'.ctrl)
    (hp : opt.adaptive = false ∨ ∃ par cfg, w.ctrl = .base par cfg)
    (ops ops' : List (Op (StartingValues ℝ n m) (Outputs n))) (i di : StartingValues ℝ n m)
    (dO : Outputs n) :
    let B := rkBackend E
    (compute B opt (ch.ck B opt) fuel'' (doOps B opt (ch.ck B opt) fuel w ops) i).2
      = (compute B opt (ch'.ck B opt) fuel'' (doOps B opt (ch'.ck B opt) fuel' w' ops') i).2 ∧
    (fwd B opt fuel'' (doOps B opt (ch.ck B opt) fuel w ops) i di dO).2
      = (fwd B opt fuel'' (doOps B opt (ch'.ck B opt) fuel' w' ops') i di dO).2 :=
  C26_reproducible_partial (rkLawful E hz) fuel fuel' fuel'' w w' hc hp ops ops' i di dO

/-- C26 for the embedded Runge-Kutta component. -/
theorem C26_embedded_reproducible_partial (E : Env s n m o l) (bhat : Fin s → ℝ) (hz : NoStageState E.ode)
    {ch ch' : Choice} (fuel fuel' fuel'' : ℕ) (w : World (EmbRKState ℝ s n m o l) (ch.Data (EmbRKState ℝ s n m o l)))
    (w' : World (EmbRKState ℝ s n m o l) (ch'.Data (EmbRKState ℝ s n m o l))) (hc : w.ctrl = w'.ctrl)
    (hp : opt.adaptive = false ∨ ∃ par cfg, w.ctrl = .base par cfg)
    (ops ops' : List (Op (StartingValues ℝ n m) (Outputs n))) (i di : StartingValues ℝ n m)
    (dO : Outputs n) :
    let B := embBackend E bhat
    (compute B opt (ch.ck B opt) fuel'' (doOps B opt (ch.ck B opt) fuel w ops) i).2
      = (compute B opt (ch'.ck B opt) fuel'' (doOps B opt (ch'.ck B opt) fuel' w' ops') i).2 ∧
    (fwd B opt fuel'' (doOps B opt (ch.ck B opt) fuel w ops) i di dO).2
      = (fwd B opt fuel'' (doOps B opt (ch'.ck B opt) fuel' w' ops') i di dO).2 :=
  C26_reproducible_partial (embLawful E bhat hz) fuel fuel' fuel'' w w' hc hp ops ops' i di dO

/-- A case: a fresh component and one after a run, a forward and a reverse product at other inputs. -/
example (ch : Choice) (i j di dI : StartingValues ℝ 1 1) (dO : Outputs 1) :
    (compute (rkBackend Integrator.Ex.env) Integrator.Ex.opt3
        (ch.ck (rkBackend Integrator.Ex.env) Integrator.Ex.opt3) 4
        (doOps (rkBackend Integrator.Ex.env) Integrator.Ex.opt3
          (ch.ck (rkBackend Integrator.Ex.env) Integrator.Ex.opt3) 4
          (Integrator.Ex.fresh Integrator.Ex.opt3 ch) [.compute j, .fwd j di dO, .rev j dO dI]) i).2
      = (compute (rkBackend Integrator.Ex.env) Integrator.Ex.opt3
        (ch.ck (rkBackend Integrator.Ex.env) Integrator.Ex.opt3) 4
        (Integrator.Ex.fresh Integrator.Ex.opt3 ch) i).2 :=
  (C26_rk_reproducible_partial Integrator.Ex.env Integrator.Ex.env_noStageState 4 4 4 _ _ rfl (Or.inl rfl) _ [] i di
    dO).1

/-! ### C35 -/

/-- What a reverse product may find cached under its own values and independent inputs: only runs
with the same initial time. -/
def TimesAgree (ops : List (Op (StartingValues ℝ n m) (Outputs n))) (i : StartingValues ℝ n m) :
    Prop :=
  ∀ j, Op.compute j ∈ ops → j.initialValues = i.initialValues →
    j.independentInputs = i.independentInputs → j.initialTime = i.initialTime

theorem mem_computed {I O : Type} {ops : List (Op I O)} {j : I} (h : j ∈ computed ops) :
    Op.compute j ∈ ops := by
  induction ops with
  | nil => simp [computed] at h
  | cons op ops ih =>
    cases op with
    | compute i =>
      simp only [computed, List.mem_cons] at h ⊢
      rcases h with rfl | h
      · exact Or.inl rfl
      · exact Or.inr (ih h)
    | fwd i di dO => exact List.mem_cons_of_mem _ (ih h)
    | rev i dO dI => exact List.mem_cons_of_mem _ (ih h)

theorem hit_obs {ops : List (Op (StartingValues ℝ n m) (Outputs n))} {i : StartingValues ℝ n m}
    (ht : TimesAgree ops i) (j : StartingValues ℝ n m) (hj : j ∈ computed ops)
    (d : RKState ℝ s n m o l) (hh : rkCacheHit (rkLoad d j) i = true) :
    rkObs (rkLoad d j) = rkObs (rkLoad d i) := by
  replace hh := of_decide_eq_true hh
  simp only [rkLoad] at hh
  have := ht j (mem_computed hj) hh.1 hh.2
  simp only [rkObs, rkLoad, hh.1, hh.2, this]

/-- C35 (plain schemes): a component that stores all checkpoints, without adaptive stepping or with
a single error controller. After any sequence of operations of which the last `compute` or reverse
product did not fail, and in which no `compute` had the same values and independent inputs but
another initial time, a reverse product has the outcome it has on the component without this
history. Missing for the full claim: the three excluded cases, of which it is violated in two
(`C35_cache_ignores_time_violated`, `C35_failed_run_violated`); for chains see C26. -/
theorem C35_reverse_uses_own_trajectory_partial (E : Env s n m o l) (hz : NoStageState E.ode)
    {fuel : ℕ} {w : World (RKState ℝ s n m o l) (List (IState (RKState ℝ s n m o l)))}
    (hp : opt.adaptive = false ∨ ∃ par cfg, w.ctrl = .base par cfg) (h0 : w.cached = none)
    (cw : w.pert.stageStates = 0) (ops : List (Op (StartingValues ℝ n m) (Outputs n)))
    (hs : Settled (rkBackend E) opt (allCk (rkBackend E) opt) fuel True w ops)
    (i dI : StartingValues ℝ n m) (dO : Outputs n) (ht : TimesAgree ops i) :
    (rev (rkBackend E) opt (allCk (rkBackend E) opt) fuel
        (doOps (rkBackend E) opt (allCk (rkBackend E) opt) fuel w ops) i dO dI).2
      = (rev (rkBackend E) opt (allCk (rkBackend E) opt) fuel w i dO dI).2 :=
  rev_history (rkLawful E hz) ops hp h0 cw hs i dI dO (fun j hj d hh => hit_obs ht j hj d hh)

/-- C35 (embedded schemes), under the same conditions. -/
theorem C35_embedded_reverse_uses_own_trajectory_partial (E : Env s n m o l) (bhat : Fin s → ℝ)
    (hz : NoStageState E.ode) {fuel : ℕ}
    {w : World (EmbRKState ℝ s n m o l) (List (IState (EmbRKState ℝ s n m o l)))}
    (hp : opt.adaptive = false ∨ ∃ par cfg, w.ctrl = .base par cfg) (h0 : w.cached = none)
    (cw : w.pert.stageStates = 0) (ops : List (Op (StartingValues ℝ n m) (Outputs n)))
    (hs : Settled (embBackend E bhat) opt (allCk (embBackend E bhat) opt) fuel True w ops)
    (i dI : StartingValues ℝ n m) (dO : Outputs n) (ht : TimesAgree ops i) :
    (rev (embBackend E bhat) opt (allCk (embBackend E bhat) opt) fuel
        (doOps (embBackend E bhat) opt (allCk (embBackend E bhat) opt) fuel w ops) i dO dI).2
      = (rev (embBackend E bhat) opt (allCk (embBackend E bhat) opt) fuel w i dO dI).2 :=
  rev_history (embLawful E bhat hz) ops hp h0 cw hs i dI dO
    (fun j hj d hh => hit_obs ht j hj d.toRKState hh)

/-! ### C36 -/

/-- C36 (plain schemes): under the conditions of C35, if a reverse product returns `g`, then each of
any number of repetitions returns `g`. Missing for the full claim: the cases excluded there
(violated: `C36_repetition_differs_violated`). -/
theorem C36_repetitions_agree_partial (E : Env s n m o l) (hz : NoStageState E.ode)
    {fuel : ℕ} {w : World (RKState ℝ s n m o l) (List (IState (RKState ℝ s n m o l)))}
    (hp : opt.adaptive = false ∨ ∃ par cfg, w.ctrl = .base par cfg) (h0 : w.cached = none)
    (cw : w.pert.stageStates = 0) (ops : List (Op (StartingValues ℝ n m) (Outputs n)))
    (hs : Settled (rkBackend E) opt (allCk (rkBackend E) opt) fuel True w ops)
    (i dI g : StartingValues ℝ n m) (dO : Outputs n) (ht : TimesAgree ops i)
    (hg : (rev (rkBackend E) opt (allCk (rkBackend E) opt) fuel
        (doOps (rkBackend E) opt (allCk (rkBackend E) opt) fuel w ops) i dO dI).2 = .ok g) (k : ℕ) :
    (rev (rkBackend E) opt (allCk (rkBackend E) opt) fuel
      (doOps (rkBackend E) opt (allCk (rkBackend E) opt) fuel w
        (ops ++ List.replicate k (.rev i dO dI))) i dO dI).2 = .ok g :=
  (rev_repeat (rkLawful E hz) ops hp h0 cw hs i dI g dO (fun j hj d hh => hit_obs ht j hj d hh)
    hg k).1

/-- C36 (embedded schemes). -/
theorem C36_embedded_repetitions_agree_partial (E : Env s n m o l) (bhat : Fin s → ℝ)
    (hz : NoStageState E.ode) {fuel : ℕ}
    {w : World (EmbRKState ℝ s n m o l) (List (IState (EmbRKState ℝ s n m o l)))}
    (hp : opt.adaptive = false ∨ ∃ par cfg, w.ctrl = .base par cfg) (h0 : w.cached = none)
    (cw : w.pert.stageStates = 0) (ops : List (Op (StartingValues ℝ n m) (Outputs n)))
    (hs : Settled (embBackend E bhat) opt (allCk (embBackend E bhat) opt) fuel True w ops)
    (i dI g : StartingValues ℝ n m) (dO : Outputs n) (ht : TimesAgree ops i)
    (hg : (rev (embBackend E bhat) opt (allCk (embBackend E bhat) opt) fuel
        (doOps (embBackend E bhat) opt (allCk (embBackend E bhat) opt) fuel w ops) i dO dI).2
      = .ok g) (k : ℕ) :
    (rev (embBackend E bhat) opt (allCk (embBackend E bhat) opt) fuel
      (doOps (embBackend E bhat) opt (allCk (embBackend E bhat) opt) fuel w
        (ops ++ List.replicate k (.rev i dO dI))) i dO dI).2 = .ok g :=
  (rev_repeat (embLawful E bhat hz) ops hp h0 cw hs i dI g dO
    (fun j hj d hh => hit_obs ht j hj d.toRKState hh) hg k).1

/-- The example problem: `compute`, a forward product, then reverse products. -/
example (di dI : StartingValues ℝ 1 1) (dO dO0 : Outputs 1) : ∃ g, ∀ k,
    (rev (rkBackend Integrator.Ex.env) Integrator.Ex.opt3
      (allCk (rkBackend Integrator.Ex.env) Integrator.Ex.opt3) 4
      (doOps (rkBackend Integrator.Ex.env) Integrator.Ex.opt3
        (allCk (rkBackend Integrator.Ex.env) Integrator.Ex.opt3) 4
        (Integrator.Ex.fresh Integrator.Ex.opt3 .all)
        ([.compute Integrator.Ex.inp, .fwd Integrator.Ex.inp di dO0]
          ++ List.replicate k (.rev Integrator.Ex.inp dO dI)))
      Integrator.Ex.inp dO dI).2 = .ok g := by
  obtain ⟨w', v, hc⟩ := Integrator.Ex.fresh_compute_ok .all 4 (by norm_num)
    (Integrator.Ex.fresh Integrator.Ex.opt3 .all) Integrator.Ex.inp
  have hs : Settled (rkBackend Integrator.Ex.env) Integrator.Ex.opt3
      (allCk (rkBackend Integrator.Ex.env) Integrator.Ex.opt3) 4 True
      (Integrator.Ex.fresh Integrator.Ex.opt3 .all)
      [.compute Integrator.Ex.inp, .fwd Integrator.Ex.inp di dO0] := by
    change returned (compute _ _ _ _ _ _).2
    simp only [Choice.ck] at hc
    rw [hc]
    trivial
  have ht : TimesAgree [.compute Integrator.Ex.inp, .fwd Integrator.Ex.inp di dO0]
      Integrator.Ex.inp := by
    intro j hj _ _
    simp only [List.mem_cons, Op.compute.injEq, List.not_mem_nil, or_false, reduceCtorEq] at hj
    rw [hj]
  obtain ⟨tr, htr⟩ := exists_run_fixed (B := rkBackend Integrator.Ex.env)
    (opt := Integrator.Ex.opt3) (n := 3) rfl rfl (by simp [Integrator.Ex.opt3])
    (Integrator.Ex.fresh Integrator.Ex.opt3 .all).ctrl
    (startOfFwd (rkBackend Integrator.Ex.env) Integrator.Ex.opt3
      (Integrator.Ex.fresh Integrator.Ex.opt3 .all).ctrl
      (Integrator.Ex.fresh Integrator.Ex.opt3 .all).tis.disc Integrator.Ex.inp)
    (fun d => ⟨_, rfl⟩) 0
  have hlen := htr.length_steps (n := 3) rfl (Nat.zero_le _)
  have hf := fwd_of_run (σ := List (IState (RKState ℝ 1 1 1 0 0))) (fuel := 4) htr (by omega) di dO0
  obtain ⟨wr', g, hr⟩ := C14_reverse_succeeds (rkLawful Integrator.Ex.env
    Integrator.Ex.env_noStageState) (wr := Integrator.Ex.fresh Integrator.Ex.opt3 .all)
    (dI := dI) (dO := dO) rfl (Prod.ext (by rfl) hf)
  refine ⟨g, C36_repetitions_agree_partial _ Integrator.Ex.env_noStageState (Or.inl rfl) rfl rfl _
    hs _ dI g dO ht ?_⟩
  rw [C35_reverse_uses_own_trajectory_partial _ Integrator.Ex.env_noStageState (Or.inl rfl) rfl rfl _
    hs _ dI dO ht, hr]

/-! ### C14 for components with a history -/

/-- C14 (plain schemes) with histories: forward and reverse products of two components (or the same
one) with the same initial set-up, no adaptive stepping or a single controller, after different
histories, of which that of the reverse product meets the conditions of C35. The products are
transposes of each other. -/
theorem C14_histories_transpose_partial (E : Env s n m o l) (hz : NoStageState E.ode)
    (hadj : ∀ lin h i, AdjointPair E.ode lin h (E.T.A i i)) {fuel fuel' : ℕ}
    {w : World (RKState ℝ s n m o l) (List (IState (RKState ℝ s n m o l)))}
    (hp : opt.adaptive = false ∨ ∃ par cfg, w.ctrl = .base par cfg) (h0 : w.cached = none)
    (cw : w.pert.stageStates = 0) (ops ops' : List (Op (StartingValues ℝ n m) (Outputs n)))
    (hs : Settled (rkBackend E) opt (allCk (rkBackend E) opt) fuel True w ops)
    {i di dI g : StartingValues ℝ n m} {dO dO0 v : Outputs n} (ht : TimesAgree ops i)
    (hf : (fwd (rkBackend E) opt fuel'
      (doOps (rkBackend E) opt (allCk (rkBackend E) opt) fuel' w ops') i di dO0).2 = .ok v)
    (hr : (rev (rkBackend E) opt (allCk (rkBackend E) opt) fuel
      (doOps (rkBackend E) opt (allCk (rkBackend E) opt) fuel w ops) i dO dI).2 = .ok g) :
    dot dO.values v.values + dO.time * (v.time - dO0.time)
      = dot g.initialValues di.initialValues + (g.initialTime - dI.initialTime) * di.initialTime
        + dot g.independentInputs di.independentInputs := by
  rw [C35_reverse_uses_own_trajectory_partial E hz hp h0 cw ops hs i dI dO ht] at hr
  exact C14_reverse_is_transpose_partial E hz hadj
    (doOps_plain (B := rkBackend E) (ch := .all) ops' hp) (by simp [cacheOk, h0])
    (Prod.ext rfl hf) (Prod.ext rfl hr)

/-- C14 (embedded schemes) with histories. -/
theorem C14_embedded_histories_transpose_partial (E : Env s n m o l) (bhat : Fin s → ℝ)
    (hz : NoStageState E.ode)
    (hadj : ∀ lin h i, AdjointPair E.ode lin h (E.T.A i i)) {fuel fuel' : ℕ}
    {w : World (EmbRKState ℝ s n m o l) (List (IState (EmbRKState ℝ s n m o l)))}
    (hp : opt.adaptive = false ∨ ∃ par cfg, w.ctrl = .base par cfg) (h0 : w.cached = none)
    (cw : w.pert.stageStates = 0) (ops ops' : List (Op (StartingValues ℝ n m) (Outputs n)))
    (hs : Settled (embBackend E bhat) opt (allCk (embBackend E bhat) opt) fuel True w ops)
    {i di dI g : StartingValues ℝ n m} {dO dO0 v : Outputs n} (ht : TimesAgree ops i)
    (hf : (fwd (embBackend E bhat) opt fuel'
      (doOps (embBackend E bhat) opt (allCk (embBackend E bhat) opt) fuel' w ops') i di dO0).2
      = .ok v)
    (hr : (rev (embBackend E bhat) opt (allCk (embBackend E bhat) opt) fuel
      (doOps (embBackend E bhat) opt (allCk (embBackend E bhat) opt) fuel w ops) i dO dI).2
      = .ok g) :
    dot dO.values v.values + dO.time * (v.time - dO0.time)
      = dot g.initialValues di.initialValues + (g.initialTime - dI.initialTime) * di.initialTime
        + dot g.independentInputs di.independentInputs := by
  rw [C35_embedded_reverse_uses_own_trajectory_partial E bhat hz hp h0 cw ops hs i dI dO ht] at hr
  exact C14_embedded_reverse_is_transpose_partial E bhat hz hadj
    (doOps_plain (B := embBackend E bhat) (ch := .all) ops' hp) (by simp [cacheOk, h0])
    (Prod.ext rfl hf) (Prod.ext rfl hr)

/-! ### Failed runs -/

/-- What a failed run does to the next reverse product, in every component that stores all
checkpoints: it raises when asked first, but after a failed attempt it returns numbers. -/
theorem rev_after_failed {D I O : Type} {B : Backend D I O} {fuel : ℕ}
    {w w' : World D (List (IState D))} {i dI : I} {dO : O} {e : Err}
    (hhit : ∀ d, B.cacheHit (B.load d i) i = true) (hn : cacheOk B w i = false)
    (h : compute B opt (allCk B opt) fuel w i = (w', .error e)) (fuel' : ℕ) :
    rev B opt (allCk B opt) fuel w i dO dI = (w', .error e) ∧
    ∃ g, (rev B opt (allCk B opt) fuel' w' i dO dI).2 = .ok g := by
  have hc : w'.cached = some (B.load w.tis.disc i) := by
    have h1 : (compute B opt (allCk B opt) fuel w i).1.cached = some (B.load w.tis.disc i) := by
      simp only [compute]
      split <;> rfl
    rw [h] at h1
    exact h1
  have hok : cacheOk B w' i = true := by
    simp only [cacheOk, hc]
    exact hhit _
  constructor
  · simp only [rev, revPrep, hn, h, Bool.false_eq_true, if_false]
  · simp only [rev, revPrep, hok, if_true, allCk]
    exact ⟨_, rfl⟩

/-- The example problem, with a stage problem that fails from time 3 on. -/
noncomputable def envFail : Env 1 1 1 0 0 :=
  { Integrator.Ex.env with fails := fun v _ => if 3 ≤ v.initialTime then some .backend else none }

/-- Two steps of size 1. -/
noncomputable def opt2 : Options := { adaptive := false, crit := .steps 2, initialStep := fin 1 }

/-- A fresh component. -/
noncomputable def freshAll (E : Env s n m o l) (opt : Options) (c : Ctrl) :
    World (RKState ℝ s n m o l) (List (IState (RKState ℝ s n m o l))) :=
  freshWorld opt (allCk (rkBackend E) opt) RKState.empty c

theorem envFail_compute : ∃ w', compute (rkBackend envFail) opt2 (allCk (rkBackend envFail) opt2) 5
    (freshAll envFail opt2 Integrator.Ex.ctrl) Integrator.Ex.inp = (w', .error .backend) := by
  set x0 := startOf (rkBackend envFail) opt2 Integrator.Ex.ctrl RKState.empty Integrator.Ex.inp
    with hx0
  have s1 : (rkBackend envFail).step x0.disc x0.sugg
      = .ok (computeStep envFail.T envFail.ode x0.disc 1) := by
    have : envFail.fails (rkObs x0.disc) 1 = none := by
      simp only [envFail, hx0, startOf, rkBackend, rkObs, rkLoad, Integrator.Ex.inp]
      norm_num
    simp only [rkBackend, hx0, startOf, opt2] at this ⊢
    rw [this]
  have s2 : (rkBackend envFail).step
      ((rkBackend envFail).set x0.disc (computeStep envFail.T envFail.ode x0.disc 1)) (fin 1)
      = .error .backend := by
    have : envFail.fails (rkObs ((rkBackend envFail).set x0.disc
        (computeStep envFail.T envFail.ode x0.disc 1))) 1 = some .backend := by
      have ht : (rkObs ((rkBackend envFail).set x0.disc
        (computeStep envFail.T envFail.ode x0.disc 1))).initialTime = 3 := by
        have := (computeStep_result envFail.T envFail.ode x0.disc 1).finalTime
        simp only [rkBackend, rkObs, RKState.set]
        rw [this]
        change (2 : ℝ) + 1 = 3
        norm_num
      generalize rkObs _ = v at ht ⊢
      simp [envFail, ht]
    simp only [rkBackend] at this ⊢
    rw [this]
  have hout : (noForward (rkBackend envFail) opt2 5 0 Integrator.Ex.ctrl x0).out
      = .error .backend := by
    have f0 : ∀ t, ¬ opt2.crit.finished 0 t := fun t => by simp [opt2, Crit.finished]
    have f1 : ∀ t, ¬ opt2.crit.finished (0 + 1) t := fun t => by simp [opt2, Crit.finished]
    have hrl : opt2.recursionLimit = 899 + 1 := rfl
    have hsg : x0.sugg = fin 1 := rfl
    simp only [noForward, if_neg (f0 _), if_neg (f1 _), runStep, hrl, iterate_fixed
      (show opt2.adaptive = false from rfl), s1]
    rw [hsg, s2]
  have hc : (compute (rkBackend envFail) opt2 (allCk (rkBackend envFail) opt2) 5
      (freshAll envFail opt2 Integrator.Ex.ctrl) Integrator.Ex.inp).2 = .error .backend := by
    simp only [compute, resetErrorControl]
    have e := choice_forward (B := rkBackend envFail) (opt := opt2) .all 5 []
      Integrator.Ex.ctrl x0
    simp only [Choice.ck] at e
    have e' : ((allCk (rkBackend envFail) opt2).forward 5 [] Integrator.Ex.ctrl x0).2.out
      = .error .backend := by rw [e]; exact hout
    simp only [hx0, startOf] at e'
    simp only [freshAll, freshWorld, allCk] at e' ⊢
    rw [e']
  exact ⟨_, Prod.ext rfl hc⟩

/-- C35 is violated after failed runs: `_cached_input` is set before the forward run
(runge_kutta_integrator.py L465-467), so after a run that failed halfway the reverse product at
the same inputs uses the checkpoints of the part that worked and returns numbers, whereas it
raises when asked without this history. -/
theorem C35_failed_run_violated (dO : Outputs 1) (dI : StartingValues ℝ 1 1) :
    let B := rkBackend envFail
    let w := freshAll envFail opt2 Integrator.Ex.ctrl
    (rev B opt2 (allCk B opt2) 5 w Integrator.Ex.inp dO dI).2 = .error .backend ∧
    ∃ g, (rev B opt2 (allCk B opt2) 5
      (doOps B opt2 (allCk B opt2) 5 w [.compute Integrator.Ex.inp]) Integrator.Ex.inp dO dI).2
      = .ok g := by
  obtain ⟨w', h⟩ := envFail_compute
  have := rev_after_failed (dO := dO) (dI := dI)
    (fun d => by simp [rkBackend, rkCacheHit, rkLoad]) rfl h 5
  refine ⟨by rw [this.1], ?_⟩
  simp only [doOps, List.foldl, doOp, h]
  exact this.2

/-- C36 is violated in the same situation: the first reverse product raises, the second one
returns numbers. -/
theorem C36_repetition_differs_violated (dO : Outputs 1) (dI : StartingValues ℝ 1 1) :
    let B := rkBackend envFail
    let w := freshAll envFail opt2 Integrator.Ex.ctrl
    (rev B opt2 (allCk B opt2) 5 w Integrator.Ex.inp dO dI).2 = .error .backend ∧
    ∃ g, (rev B opt2 (allCk B opt2) 5
      (doOps B opt2 (allCk B opt2) 5 w [.rev Integrator.Ex.inp dO dI]) Integrator.Ex.inp dO dI).2
      = .ok g := by
  obtain ⟨w', h⟩ := envFail_compute
  have := rev_after_failed (dO := dO) (dI := dI)
    (fun d => by simp [rkBackend, rkCacheHit, rkLoad]) rfl h 5
  refine ⟨by rw [this.1], ?_⟩
  simp only [doOps, List.foldl, doOp, this.1]
  exact this.2

/-! ### The cache and the initial time -/

/-- `y' = t y` as backend for explicit schemes (the stage factor is not used), linearization point
`(t, Y)`. -/
noncomputable def timeOde : ODE ℝ 1 1 0 2 where
  computeUpdate inp h _ :=
    (⟨fun x => inp.time * (inp.stepInput x + h * inp.stageInput x), 0, 0⟩,
      ![inp.time, inp.stepInput 0 + h * inp.stageInput 0])
  computeUpdateDerivative lin d h _ :=
    ⟨fun x => d.time * lin 1 + lin 0 * (d.stepInput x + h * d.stageInput x), 0, 0⟩
  computeUpdateAdjoint lin d h _ :=
    ⟨fun x => lin 0 * d.stageUpdate x, fun x => h * lin 0 * d.stageUpdate x, 0,
      lin 1 * d.stageUpdate 0⟩

theorem timeOde_solves (h : ℝ) : SolvesStage timeOde (fun t y _ x => t * y x) h 0 := by
  intro inp
  funext x
  simp [timeOde]

theorem timeOde_adjoint (lin : Fin 2 → ℝ) (h a : ℝ) : AdjointPair timeOde lin h a := by
  intro din dout
  simp only [timeOde, Spec.dotOut, Spec.dotIn, Spec.dot, Fin.sum_univ_one, Finset.univ_eq_empty,
    Finset.sum_empty, Pi.zero_apply]
  ring

/-- Explicit Euler for `y' = t y`. -/
noncomputable def envTime : Env 1 1 1 0 2 where
  T := Integrator.Ex.euler
  ode := timeOde
  fails := fun _ _ => none
  nonfinite := fun _ _ => .error .backend
  measure := fun e _ => fin |e 0|

/-- One step of size 1. -/
noncomputable def opt1 : Options := { adaptive := false, crit := .steps 1, initialStep := fin 1 }

/-- `y = 1` at time `t`. -/
def atTime (t : ℝ) : StartingValues ℝ 1 1 := ⟨t, fun _ => 1, fun _ => 0⟩

/-- The state after the only step. -/
noncomputable def timeStep (d : RKState ℝ 1 1 1 0 2) (t : ℝ) : IState (RKState ℝ 1 1 1 0 2) :=
  ⟨computeStep envTime.T envTime.ode
    (startOf (rkBackend envTime) opt1 Integrator.Ex.ctrl d (atTime t)).disc 1, fin 1, (fin 1, 0),
    (Integrator.Ex.ctrl.config.tol, Integrator.Ex.ctrl.config.tol)⟩

theorem time_run (d : RKState ℝ 1 1 1 0 2) (t : ℝ) :
    Run (rkBackend envTime) opt1 0 Integrator.Ex.ctrl
      (startOf (rkBackend envTime) opt1 Integrator.Ex.ctrl d (atTime t))
      [(Integrator.Ex.ctrl, timeStep d t)] := by
  refine .step (by simp [opt1, Crit.finished]) ?_ (.done (by simp [opt1, Crit.finished]))
  have hrl : opt1.recursionLimit = 899 + 1 := rfl
  rw [hrl, iterate_fixed rfl]
  rfl

theorem time_adj (d p : RKState ℝ 1 1 1 0 2) (t : ℝ) (hp : p.finalState = fun _ => 1) :
    (computeStepAdjoint envTime.T envTime.ode (timeStep d t).disc p 1).finalState 0 = 1 + t := by
  have hl : (timeStep d t).disc.linearizationPoints 0 = ![t, 1] := by
    simp [timeStep, computeStep, computeStage, shiftState, envTime, timeOde, Integrator.Ex.euler,
      startOf, rkBackend, rkLoad, atTime, List.finRange, accumulateStages]
  simp [computeStepAdjoint, computeStageAdjoint, shiftStateReverse, List.finRange, hl, envTime,
    timeOde, Integrator.Ex.euler, hp]

/-- C35 is violated when only the initial time changes: the cache test compares values and
independent inputs but not the time (runge_kutta_integrator.py L822-831). For `y' = t y`, one step
of explicit Euler of size 1 from `y = 1`, seed 1: the derivative of the result with respect to `y`
is `1 + t0`. At `t0 = 1` a fresh component returns 2; after `compute` at `t0 = 0` the component
returns 1 at first and 2 when asked again, so C36 is violated, too. -/
theorem C35_cache_ignores_time_violated :
    let B := rkBackend envTime
    let w := freshAll envTime opt1 Integrator.Ex.ctrl
    let dO : Outputs 1 := ⟨0, fun _ => 1⟩
    let z : StartingValues ℝ 1 1 := ⟨0, 0, 0⟩
    (∃ g, (rev B opt1 (allCk B opt1) 5 w (atTime 1) dO z).2 = .ok g ∧ g.initialValues 0 = 2) ∧
    (∃ g, (rev B opt1 (allCk B opt1) 5
      (doOps B opt1 (allCk B opt1) 5 w [.compute (atTime 0)]) (atTime 1) dO z).2 = .ok g ∧
      g.initialValues 0 = 1) ∧
    (∃ g, (rev B opt1 (allCk B opt1) 5
      (doOps B opt1 (allCk B opt1) 5 w [.compute (atTime 0), .rev (atTime 1) dO z])
        (atTime 1) dO z).2 = .ok g ∧ g.initialValues 0 = 2) := by
  intro B w dO z
  have key : ∀ w : World (RKState ℝ 1 1 1 0 2) (List (IState (RKState ℝ 1 1 1 0 2))),
      w.ctrl = Integrator.Ex.ctrl → w.cached = none →
      ∃ g, (rev B opt1 (allCk B opt1) 5 w (atTime 1) dO z).2 = .ok g ∧ g.initialValues 0 = 2 := by
    intro w hc hn
    have hr := time_run w.tis.disc 1
    rw [← hc] at hr
    refine ⟨_, rev_of_run (by simp [cacheOk, hn]) hr (by simp), ?_⟩
    change (computeStepAdjoint envTime.T envTime.ode (timeStep w.tis.disc 1).disc
      (rkSeed w.pert dO) 1).finalState 0 = 2
    rw [time_adj _ _ _ rfl]
    norm_num
  have hr0 := time_run w.tis.disc 0
  have hcomp := compute_of_run (ch := .all) (w := w) (fuel := 5) hr0 (by simp)
  simp only [Choice.ck] at hcomp
  have hst := compute_stores hcomp hr0
  have hrev : ∃ g, (rev B opt1 (allCk B opt1) 5
      (doOps B opt1 (allCk B opt1) 5 w [.compute (atTime 0)]) (atTime 1) dO z).2 = .ok g ∧
      g.initialValues 0 = 1 := by
    simp only [doOps, List.foldl, doOp]
    rw [hcomp]
    refine ⟨_, rev_of_cached ?_, ?_⟩
    · simp [cacheOk, rkCacheHit, rkLoad, B, rkBackend, atTime]
    · rw [hst]
      change (computeStepAdjoint envTime.T envTime.ode (timeStep w.tis.disc 0).disc
        (rkSeed w.pert dO) 1).finalState 0 = 1
      rw [time_adj _ _ _ rfl]
      norm_num
  refine ⟨key w rfl rfl, hrev, key _ ?_ ?_⟩
  · exact doOps_plain (B := B) (ch := .all) _ (Or.inl rfl)
  · obtain ⟨g, hg, -⟩ := hrev
    exact rev_clears (Prod.ext rfl hg)

/-! ### Controller chains -/

/-- `y' = 0`. -/
noncomputable def restOde : ODE ℝ 1 1 0 0 where
  computeUpdate _ _ _ := (⟨0, 0, 0⟩, 0)
  computeUpdateDerivative _ _ _ _ := ⟨0, 0, 0⟩
  computeUpdateAdjoint _ _ _ _ := ⟨0, 0, 0, 0⟩

/-- A problem with error measure 1/4 for nonnegative values. For negative values the error estimate
is NaN, and the stage problem fails for steps shorter than 1. -/
noncomputable def envChain : Env 1 1 1 0 0 where
  T := Integrator.Ex.euler
  ode := restOde
  fails := fun v h => if v.initialValues 0 < 0 ∧ h < 1 then some .backend else none
  nonfinite := fun _ _ => .error .backend
  measure := fun _ y => if y 0 < 0 then nan else fin (1 / 4)

/-- Tolerance 1, no bounds, safety factor 1/2. -/
noncomputable def cfgChain : Config := ⟨fin 1, 0, pinf, fin (1 / 2), 5⟩

/-- The chain of the `integral` controller and the fallback `pseudo`, with the attributes of the
decorator. -/
noncomputable def chain (ni : Bool) (k : ℕ) : Ctrl :=
  .deco (pseudo 1) (.base (integral 1) cfgChain) ni k

theorem chain_built : buildChain 1 cfgChain [integral, pseudo] = some (chain true 0) := rfl

/-- Two adaptive steps, starting with size 1. -/
noncomputable def optChain : Options := { adaptive := true, crit := .steps 2, initialStep := fin 1 }

/-- Value `y` at time 0. -/
noncomputable def valueAt (y : ℝ) : StartingValues ℝ 1 1 := ⟨0, fun _ => y, fun _ => 0⟩

theorem chain_state (d : EmbRKState ℝ 1 1 1 0 0) (h : ℝ) :
    (computeStepEmb envChain.T 1 envChain.ode d h).finalState = d.finalState := by
  funext x
  simp [computeStepEmb, computeErrorEstimate, computeStep, accumulateStep, envChain, restOde,
    List.finRange, computeStage, shiftState]

theorem clip_none {h : ℝ} (hh : 0 ≤ h) : pyMin pinf (pyMax 0 (pyMin pinf (fin h))) = fin h := by
  rw [pyMin_pinf_left (fin h) (by simp), zero_def, pyMax_fin, max_eq_right hh,
    pyMin_pinf_left _ (by simp)]

/-- The integral controller keeps the step size at error 1/4. -/
theorem integral_keeps (h : ℝ) (hh : 0 < h) (sh eh : XReal × XReal) :
    run (integral 1) cfgChain ⟨fin (1 / 4), fin h, pinf, eh, sh⟩ = ⟨fin h, true⟩ := by
  have hacc : accepts cfgChain ⟨fin (1 / 4), fin h, pinf, eh, sh⟩ :=
    Or.inr (Or.inr (by simp only [cfgChain, le_fin]; norm_num))
  have hest : estimate (integral 1) cfgChain ⟨fin (1 / 4), fin h, pinf, eh, sh⟩ = fin h := by
    have h4 : ((1 : ℝ) / (1 / 4)) ^ ((1 : ℝ) / (1 + 1)) = 2 := by
      rw [show (1 : ℝ) / (1 / 4) = 2 ^ (2 : ℝ) by norm_num, ← Real.rpow_mul (by norm_num)]
      norm_num
    simp only [estimate, integral, cfgChain, pow_zero]
    rw [div_fin _ (by norm_num), pow_fin (by norm_num), h4]
    simp only [mul_fin, mul_one]
    rw [show (1 : ℝ) / 2 * h * 2 = h by ring]
    split
    · split <;> rfl
    · rfl
  simp only [run, hacc, decide_true, hest, ite_self]
  simp only [cfgChain, if_true, mul_fin, zero_mul, add_pinf_fin, clip_none hh.le]

/-- The pseudo controller multiplies by the safety factor. -/
theorem pseudo_halves (e : XReal) (he : e ≠ 0) (h : ℝ) (hh : 0 < h) (sh eh : XReal × XReal) :
    run (pseudo 1) cfgChain ⟨e, fin h, pinf, eh, sh⟩
      = ⟨fin (h / 2), decide (accepts cfgChain ⟨e, fin h, pinf, eh, sh⟩)⟩ := by
  have hest : estimate (pseudo 1) cfgChain ⟨e, fin h, pinf, eh, sh⟩ = fin (h / 2) := by
    simp only [estimate, pseudo, cfgChain, pow_zero, mul_fin, mul_one]
    rw [show (1 : ℝ) / 2 * h = h / 2 by ring]
    split
    · split <;> rfl
    · rfl
  simp only [run, hest]
  rw [if_pos he]
  simp only [cfgChain, mul_fin, add_pinf_fin, clip_none (show 0 ≤ h / 2 by positivity)]

/-- The decorator asks the wrapped controller, which keeps the size. -/
theorem chain_call_true (k : ℕ) (h : ℝ) (hh : 0 < h) (sh eh : XReal × XReal) :
    (chain true k).call true ⟨fin (1 / 4), fin h, pinf, eh, sh⟩
      = (chain true 0, .ok ⟨fin h, true⟩) := by
  simp [-one_div, chain, Ctrl.call, integral_keeps h hh]

/-- After its own rejection the decorator does not ask the wrapped controller; the size is
halved. -/
theorem chain_call_false (k : ℕ) (h : ℝ) (hh : 0 < h) (sh eh : XReal × XReal) :
    (chain false k).call true ⟨fin (1 / 4), fin h, pinf, eh, sh⟩
      = (chain true k, .ok ⟨fin (h / 2), true⟩) := by
  have hacc : accepts cfgChain ⟨fin (1 / 4), fin h, pinf, eh, sh⟩ :=
    Or.inr (Or.inr (by simp only [cfgChain, le_fin]; norm_num))
  have hne : fin (1 / 4) ≠ 0 := by
    rw [zero_def, ne_eq, fin_inj]
    norm_num
  simp [-one_div, chain, Ctrl.call, Ctrl.config, runDeco, pseudo_halves _ hne h hh, hacc]

/-- NaN as error: the wrapped controller does not shorten the step, the decorator rejects it
itself. -/
theorem chain_call_nan (k : ℕ) (sh eh : XReal × XReal) :
    (chain true k).call true ⟨nan, fin 1, pinf, eh, sh⟩
      = (chain false (k + 1), .ok ⟨fin (1 / 2), false⟩) := by
  have hacc : ¬ accepts cfgChain ⟨nan, fin 1, pinf, eh, sh⟩ := by
    simp only [accepts, cfgChain, zero_def, sub_fin, abs_fin, lt_fin, not_nan_le, or_false]
    norm_num
    simp [sub, neg, add, XReal.abs, lt]
  have hne : (nan : XReal) ≠ 0 := by simp [zero_def]
  have hest : estimate (integral 1) cfgChain ⟨nan, fin 1, pinf, eh, sh⟩ = nan := by
    have : ((1 : ℝ) / (1 + 1)) ≠ 0 := by norm_num
    simp only [estimate, integral, cfgChain, XReal.div, pow_nan this, mul_nan, nan_mul, ite_self]
  have hrun : run (integral 1) cfgChain ⟨nan, fin 1, pinf, eh, sh⟩ = ⟨pinf, false⟩ := by
    simp only [run, hest, hacc, decide_false]
    rw [if_pos hne]
    simp [cfgChain, pyMin, pyMax, zero_def, lt]
  simp [-one_div, chain, Ctrl.call, Ctrl.config, runDeco, hrun, pseudo_halves _ hne 1 one_pos, hacc]

theorem step_ok (d : EmbRKState ℝ 1 1 1 0 0) (h : ℝ) (hf : ¬ (d.finalState 0 < 0 ∧ h < 1)) :
    (embBackend envChain 1).step d (fin h) = .ok (computeStepEmb envChain.T 1 envChain.ode d h) := by
  have : envChain.fails (rkObs d.toRKState) h = none := by
    simp only [envChain, rkObs, if_neg hf]
  simp only [embBackend] at this ⊢
  rw [this]

/-- One accepted step at a nonnegative value. -/
theorem chain_step (f : ℕ) (c c' : Ctrl) (x : IState (EmbRKState ℝ 1 1 1 0 0)) (h h' : ℝ)
    (hcall : ∀ eh sh, c.call true ⟨fin (1 / 4), fin h, pinf, eh, sh⟩ = (c', .ok ⟨fin h', true⟩))
    (hs : x.sugg = fin h) (hy : 0 ≤ x.disc.finalState 0) :
    ∃ x', iterateOnStep (embBackend envChain 1) optChain (f + 1) c x = (c', x', .ok ()) ∧
      x'.sugg = fin h' ∧ x'.disc.finalTime = x.disc.finalTime + h ∧
      x'.disc.finalState = x.disc.finalState := by
  have hstep := step_ok x.disc h (fun hn => absurd hn.1 (not_lt.mpr hy))
  have hm : (embBackend envChain 1).measure (computeStepEmb envChain.T 1 envChain.ode x.disc h)
      = .ok (fin (1 / 4)) := by
    simp only [embBackend]
    rw [chain_state]
    simp only [envChain, if_neg (not_lt.mpr hy)]
  have ht := emb_step_time envChain 1 hstep
  refine ⟨⟨(embBackend envChain 1).set x.disc (computeStepEmb envChain.T 1 envChain.ode x.disc h),
    fin h', (fin h, x.stepHist.1), (fin (1 / 4), x.errHist.1)⟩, ?_, rfl, ht, chain_state _ _⟩
  simp [-one_div, iterateOnStep, hs, hstep, hm, Crit.remaining, optChain, hcall]

/-- The result of two accepted steps. -/
theorem chain_compute (ch : Choice)
    (w : World (EmbRKState ℝ 1 1 1 0 0) (ch.Data (EmbRKState ℝ 1 1 1 0 0))) (c1 c2 : Ctrl)
    (h1 h2 y : ℝ) (hy : 0 ≤ y)
    (k1 : ∀ eh sh, w.ctrl.call true ⟨fin (1 / 4), fin 1, pinf, eh, sh⟩ = (c1, .ok ⟨fin h1, true⟩))
    (k2 : ∀ eh sh, c1.call true ⟨fin (1 / 4), fin h1, pinf, eh, sh⟩ = (c2, .ok ⟨fin h2, true⟩)) :
    ∃ v, (compute (embBackend envChain 1) optChain (ch.ck (embBackend envChain 1) optChain) 3 w
      (valueAt y)).2 = .ok v ∧ v.time = 1 + h1 := by
  obtain ⟨x1, s1, g1, t1, y1⟩ := chain_step 899 w.ctrl c1
    (startOf (embBackend envChain 1) optChain w.ctrl w.tis.disc (valueAt y)) 1 h1 k1 rfl hy
  obtain ⟨x2, s2, g2, t2, y2⟩ := chain_step 899 c1 c2 x1 h1 h2 k2 g1 (by rw [y1]; exact hy)
  have hrun : Run (embBackend envChain 1) optChain 0 w.ctrl
      (startOf (embBackend envChain 1) optChain w.ctrl w.tis.disc (valueAt y))
      [(c1, x1), (c2, x2)] :=
    .step (by simp [optChain, Crit.finished]) s1 (.step (by simp [optChain, Crit.finished]) s2
      (.done (by simp [optChain, Crit.finished])))
  have hcomp := compute_of_run (ch := ch) (fuel := 3) hrun (by simp)
  refine ⟨_, by rw [hcomp], ?_⟩
  change x2.disc.finalTime = _
  rw [t2, t1]
  change (0 : ℝ) + 1 + h1 = _
  ring

/-- A run from a negative value fails and leaves the decorator in another state. -/
theorem chain_failed (w : World (EmbRKState ℝ 1 1 1 0 0) Unit) (hw : w.ctrl = chain true 0) :
    (compute (embBackend envChain 1) optChain (noCk (embBackend envChain 1) optChain) 3 w
      (valueAt (-1))).1.ctrl = chain false 1 ∧
    (compute (embBackend envChain 1) optChain (noCk (embBackend envChain 1) optChain) 3 w
      (valueAt (-1))).2 = .error .backend := by
  set x0 := startOf (embBackend envChain 1) optChain w.ctrl w.tis.disc (valueAt (-1)) with hx0
  have hy : x0.disc.finalState 0 = -1 := rfl
  have hit : iterateOnStep (embBackend envChain 1) optChain 900 w.ctrl x0
      = (chain false 1, { x0 with sugg := fin (1 / 2) }, .error .backend) := by
    have hstep := step_ok x0.disc 1 (fun hn => absurd hn.2 (_root_.lt_irrefl _))
    have hm : (embBackend envChain 1).measure (computeStepEmb envChain.T 1 envChain.ode x0.disc 1)
        = .ok nan := by
      simp only [embBackend]
      rw [chain_state]
      simp only [envChain, hy]
      norm_num
    have hfail : (embBackend envChain 1).step x0.disc (fin (1 / 2)) = .error .backend := by
      have : envChain.fails (rkObs x0.disc.toRKState) (1 / 2) = some .backend := by
        have h1 : (rkObs x0.disc.toRKState).initialValues 0 = -1 := hy
        simp only [envChain]
        rw [if_pos ⟨by rw [h1]; norm_num, by norm_num⟩]
      simp only [embBackend] at this ⊢
      rw [this]
    have hsg : x0.sugg = fin 1 := rfl
    rw [show (900 : ℕ) = 898 + 1 + 1 from rfl, iterateOnStep, hsg, hstep, hw]
    dsimp only
    rw [if_pos (show optChain.adaptive = true from rfl), hm]
    dsimp only
    rw [show optChain.crit.remaining _ = pinf from rfl, chain_call_nan]
    dsimp only
    rw [if_neg (by simp), iterateOnStep]
    dsimp only
    rw [hfail]
  have hno : noForward (embBackend envChain 1) optChain 3 0 w.ctrl x0
      = ⟨chain false 1, { x0 with sugg := fin (1 / 2) }, [], .error .backend⟩ := by
    rw [noForward, if_neg (by simp [optChain, Crit.finished]), runStep]
    rw [show optChain.recursionLimit = 900 from rfl, hit]
    rfl
  simp only [hx0, startOf] at hno
  simp only [compute, resetErrorControl, noCk, hno]
  exact ⟨trivial, trivial⟩

/-- C26 is violated for controller chains: the attributes `_is_not_inner` and `_outer_counter` of
a decorator are not reset at the start of a run (runge_kutta_integrator.py L554-559,
error_controller.py L334-336). Here two steps from the same inputs end at time 2 on a fresh
component, but at time 3/2 after a run with other inputs that failed. -/
theorem C26_chain_state_violated :
    let B := embBackend envChain 1
    let w : World (EmbRKState ℝ 1 1 1 0 0) Unit :=
      freshWorld optChain (noCk B optChain) EmbRKState.empty (chain true 0)
    buildChain 1 cfgChain [integral, pseudo] = some w.ctrl ∧
    (∃ v, (compute B optChain (noCk B optChain) 3 w (valueAt 1)).2 = .ok v ∧ v.time = 2) ∧
    (∃ v, (compute B optChain (noCk B optChain) 3
      (doOps B optChain (noCk B optChain) 3 w [.compute (valueAt (-1))]) (valueAt 1)).2 = .ok v ∧
      v.time = 3 / 2) := by
  intro B w
  refine ⟨rfl, ?_, ?_⟩
  · obtain ⟨v, hv, ht⟩ := chain_compute .no w (chain true 0) (chain true 0) 1 1 1 zero_le_one
      (fun _ _ => chain_call_true 0 1 one_pos _ _) (fun _ _ => chain_call_true 0 1 one_pos _ _)
    exact ⟨v, hv, by rw [ht]; norm_num⟩
  · have hc := (chain_failed w rfl).1
    obtain ⟨v, hv, ht⟩ := chain_compute .no (doOps B optChain (noCk B optChain) 3 w
      [.compute (valueAt (-1))]) (chain true 1) (chain true 0) (1 / 2) (1 / 2) 1 zero_le_one
      (fun eh sh => by
        rw [show (doOps B optChain (noCk B optChain) 3 w [.compute (valueAt (-1))]).ctrl
          = chain false 1 from hc]
        exact chain_call_false 1 1 one_pos _ _)
      (fun eh sh => chain_call_true 1 (1 / 2) (by norm_num) _ _)
    exact ⟨v, hv, by rw [ht]; norm_num⟩

end Verif.Props
