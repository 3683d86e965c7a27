/-
C99: results in floating point do not depend on what the component computed before, nor on the
checkpointer. The statements are equations, so they say that results agree in every bit (up to the
sign of zeros and the payload of NaNs, which the model does not have), for any rounding and any order
of the sums within an operation that is a function of its operands.
-/
import Verif.Props.FloatDeriv
import Verif.Props.History
import Verif.Props.Pyrevolve

namespace Verif.Props

open Verif.RK Verif.RK.Spec Verif.Control Verif.XReal Verif.Integrator Verif.Fl
open Classical

variable {s n m o l : ℕ} {opt : Options}

/-- C99 (plain schemes), `compute` and forward products: after any two histories, with any checkpointers.
Missing for the full claim: controller chains (`C26_chain_state_violated`). -/
theorem C99_reproducible_partial (fl : ℝ → ℝ) (dot : List (ℝ × ℝ) → ℝ) (Tend : ℝ)
    (E : Env s n m o l) (od : ODE ℝ n m o l) (hz : NoStageState od) {ch ch' : Choice}
    (fuel fuel' fuel'' : ℕ) (w : World (RKState ℝ s n m o l) (ch.Data (RKState ℝ s n m o l)))
    (w' : World (RKState ℝ s n m o l) (ch'.Data (RKState ℝ s n m o l))) (hc : w.ctrl = w'.ctrl)
    (hp : opt.adaptive = false ∨ ∃ par cfg, w.ctrl = .base par cfg)
    (ops ops' : List (Op (StartingValues ℝ n m) (Outputs n))) (i di : StartingValues ℝ n m)
    (dO : Outputs n) :
    let B := rkFloatD fl dot Tend E od
    (compute B opt (ch.ck B opt) fuel'' (doOps B opt (ch.ck B opt) fuel w ops) i).2
      = (compute B opt (ch'.ck B opt) fuel'' (doOps B opt (ch'.ck B opt) fuel' w' ops') i).2 ∧
    (fwd B opt fuel'' (doOps B opt (ch.ck B opt) fuel w ops) i di dO).2
      = (fwd B opt fuel'' (doOps B opt (ch'.ck B opt) fuel' w' ops') i di dO).2 :=
  C26_reproducible_partial (rkFloatDLawful fl dot Tend E od hz) fuel fuel' fuel'' w w' hc hp ops
    ops' i di dO

/-- C99 (plain schemes), reverse products: after any history of which the last `compute` or reverse product
did not fail, and in which no `compute` had the same values and independent inputs but another initial
time. Missing for the full claim: the excluded cases (`C35_cache_ignores_time_violated`,
`C35_failed_run_violated`). -/
theorem C99_reverse_partial (fl : ℝ → ℝ) (dot : List (ℝ × ℝ) → ℝ) (Tend : ℝ)
    (E : Env s n m o l) (od : ODE ℝ n m o l) (hz : NoStageState od) {fuel : ℕ}
    {w : World (RKState ℝ s n m o l) (List (IState (RKState ℝ s n m o l)))}
    (hp : opt.adaptive = false ∨ ∃ par cfg, w.ctrl = .base par cfg) (h0 : w.cached = none)
    (cw : w.pert.stageStates = 0) (ops : List (Op (StartingValues ℝ n m) (Outputs n)))
    (hs : Settled (rkFloatD fl dot Tend E od) opt
      (allCk (rkFloatD fl dot Tend E od) opt) fuel True w ops)
    (i dI : StartingValues ℝ n m) (dO : Outputs n) (ht : TimesAgree ops i) :
    let B := rkFloatD fl dot Tend E od
    (rev B opt (allCk B opt) fuel (doOps B opt (allCk B opt) fuel w ops) i dO dI).2
        = (rev B opt (allCk B opt) fuel w i dO dI).2 ∧
      ∀ g, (rev B opt (allCk B opt) fuel (doOps B opt (allCk B opt) fuel w ops) i dO dI).2 = .ok g →
        ∀ k, (rev B opt (allCk B opt) fuel (doOps B opt (allCk B opt) fuel w
          (ops ++ List.replicate k (.rev i dO dI))) i dO dI).2 = .ok g :=
  ⟨rev_history (rkFloatDLawful fl dot Tend E od hz) ops hp h0 cw hs i dI dO
      (fun j hj d hh => hit_obs ht j hj d hh),
    fun g hg k => (rev_repeat (rkFloatDLawful fl dot Tend E od hz) ops hp h0 cw hs i dI g dO
      (fun j hj d hh => hit_obs ht j hj d hh) hg k).1⟩

/-- C99 (plain schemes), pyrevolve: for every legal schedule with two or more steps, `compute` has the
outcome it has with any other checkpointer, and a reverse product that it has if all states are
stored. Missing: as for C33. -/
theorem C99_pyrevolve_partial (fl : ℝ → ℝ) (dot : List (ℝ × ℝ) → ℝ) (Tend : ℝ)
    (E : Env s n m o l) (od : ODE ℝ n m o l) (hz : NoStageState od) {N fuel : ℕ}
    {sched : Schedule} (hl : Legal N sched) (hN : opt.crit = .steps (N + 1)) (hf : N + 1 < fuel)
    {e : IState (RKState ℝ s n m o l)} {ch : Choice}
    {w : World (RKState ℝ s n m o l) (PyData (RKState ℝ s n m o l))}
    {w1 : World (RKState ℝ s n m o l) (ch.Data (RKState ℝ s n m o l))}
    {w0 : World (RKState ℝ s n m o l) (List (IState (RKState ℝ s n m o l)))}
    (hp : opt.adaptive = false ∨ ∃ par cfg, w.ctrl = .base par cfg) (hc1 : w.ctrl = w1.ctrl)
    (hc : w.ctrl = w0.ctrl) (hw : w.cached = none) (hw0 : w0.cached = none)
    (cw : w.pert.stageStates = 0) (cw0 : w0.pert.stageStates = 0) (i dI : StartingValues ℝ n m)
    (dO : Outputs n) :
    let B := rkFloatD fl dot Tend E od
    (compute B opt (pyCk B opt rkRestore e N sched) fuel w i).2
        = (compute B opt (ch.ck B opt) fuel w1 i).2 ∧
      (rev B opt (pyCk B opt rkRestore e N sched) fuel w i dO dI).2
        = (rev B opt (allCk B opt) fuel w0 i dO dI).2 := by
  obtain ⟨hcapo, sl, hlf, hlr⟩ := hl
  have L : LawfulRestore (rkFloatDLawful fl dot Tend E od hz) rkRestore :=
    ⟨fun _ _ => rfl, fun _ _ => rfl⟩
  exact ⟨C31_pyrevolve_loading_schedules _ L hlf hN hf w w1 hp hc1 i,
    py_rev_spec L hcapo hlf hlr hN hf hp hc (pyGood_none hw) hw0 cw cw0 i dI dO
      (fun d hd => by rw [hw] at hd; simp at hd)⟩

/-- C99 (embedded schemes), `compute` and forward products: after any two histories, with any checkpointers.
Missing for the full claim: controller chains (`C26_chain_state_violated`). -/
theorem C99_reproducible_embedded_partial (fl : ℝ → ℝ) (dot : List (ℝ × ℝ) → ℝ) (Tend : ℝ)
    (E : Env s n m o l) (bhat : Fin s → ℝ) (od : ODE ℝ n m o l) (hz : NoStageState od) {ch ch' : Choice}
    (fuel fuel' fuel'' : ℕ) (w : World (EmbRKState ℝ s n m o l) (ch.Data (EmbRKState ℝ s n m o l)))
    (w' : World (EmbRKState ℝ s n m o l) (ch'.Data (EmbRKState ℝ s n m o l))) (hc : w.ctrl = w'.ctrl)
    (hp : opt.adaptive = false ∨ ∃ par cfg, w.ctrl = .base par cfg)
    (ops ops' : List (Op (StartingValues ℝ n m) (Outputs n))) (i di : StartingValues ℝ n m)
    (dO : Outputs n) :
    let B := embFloatD fl dot Tend E bhat od
    (compute B opt (ch.ck B opt) fuel'' (doOps B opt (ch.ck B opt) fuel w ops) i).2
      = (compute B opt (ch'.ck B opt) fuel'' (doOps B opt (ch'.ck B opt) fuel' w' ops') i).2 ∧
    (fwd B opt fuel'' (doOps B opt (ch.ck B opt) fuel w ops) i di dO).2
      = (fwd B opt fuel'' (doOps B opt (ch'.ck B opt) fuel' w' ops') i di dO).2 :=
  C26_reproducible_partial (embFloatDLawful fl dot Tend E bhat od hz) fuel fuel' fuel'' w w' hc hp ops
    ops' i di dO

/-- C99 (embedded schemes), reverse products: after any history of which the last `compute` or reverse product
did not fail, and in which no `compute` had the same values and independent inputs but another initial
time. Missing for the full claim: the excluded cases (`C35_cache_ignores_time_violated`,
`C35_failed_run_violated`). -/
theorem C99_reverse_embedded_partial (fl : ℝ → ℝ) (dot : List (ℝ × ℝ) → ℝ) (Tend : ℝ)
    (E : Env s n m o l) (bhat : Fin s → ℝ) (od : ODE ℝ n m o l) (hz : NoStageState od) {fuel : ℕ}
    {w : World (EmbRKState ℝ s n m o l) (List (IState (EmbRKState ℝ s n m o l)))}
    (hp : opt.adaptive = false ∨ ∃ par cfg, w.ctrl = .base par cfg) (h0 : w.cached = none)
    (cw : w.pert.stageStates = 0) (ops : List (Op (StartingValues ℝ n m) (Outputs n)))
    (hs : Settled (embFloatD fl dot Tend E bhat od) opt
      (allCk (embFloatD fl dot Tend E bhat od) opt) fuel True w ops)
    (i dI : StartingValues ℝ n m) (dO : Outputs n) (ht : TimesAgree ops i) :
    let B := embFloatD fl dot Tend E bhat od
    (rev B opt (allCk B opt) fuel (doOps B opt (allCk B opt) fuel w ops) i dO dI).2
        = (rev B opt (allCk B opt) fuel w i dO dI).2 ∧
      ∀ g, (rev B opt (allCk B opt) fuel (doOps B opt (allCk B opt) fuel w ops) i dO dI).2 = .ok g →
        ∀ k, (rev B opt (allCk B opt) fuel (doOps B opt (allCk B opt) fuel w
          (ops ++ List.replicate k (.rev i dO dI))) i dO dI).2 = .ok g :=
  ⟨rev_history (embFloatDLawful fl dot Tend E bhat od hz) ops hp h0 cw hs i dI dO
      (fun j hj d hh => hit_obs ht j hj d.toRKState hh),
    fun g hg k => (rev_repeat (embFloatDLawful fl dot Tend E bhat od hz) ops hp h0 cw hs i dI g dO
      (fun j hj d hh => hit_obs ht j hj d.toRKState hh) hg k).1⟩

/-- C99 (embedded schemes), pyrevolve: for every legal schedule with two or more steps, `compute` has the
outcome it has with any other checkpointer, and a reverse product that it has if all states are
stored. Missing: as for C33. -/
theorem C99_pyrevolve_embedded_partial (fl : ℝ → ℝ) (dot : List (ℝ × ℝ) → ℝ) (Tend : ℝ)
    (E : Env s n m o l) (bhat : Fin s → ℝ) (od : ODE ℝ n m o l) (hz : NoStageState od) {N fuel : ℕ}
    {sched : Schedule} (hl : Legal N sched) (hN : opt.crit = .steps (N + 1)) (hf : N + 1 < fuel)
    {e : IState (EmbRKState ℝ s n m o l)} {ch : Choice}
    {w : World (EmbRKState ℝ s n m o l) (PyData (EmbRKState ℝ s n m o l))}
    {w1 : World (EmbRKState ℝ s n m o l) (ch.Data (EmbRKState ℝ s n m o l))}
    {w0 : World (EmbRKState ℝ s n m o l) (List (IState (EmbRKState ℝ s n m o l)))}
    (hp : opt.adaptive = false ∨ ∃ par cfg, w.ctrl = .base par cfg) (hc1 : w.ctrl = w1.ctrl)
    (hc : w.ctrl = w0.ctrl) (hw : w.cached = none) (hw0 : w0.cached = none)
    (cw : w.pert.stageStates = 0) (cw0 : w0.pert.stageStates = 0) (i dI : StartingValues ℝ n m)
    (dO : Outputs n) :
    let B := embFloatD fl dot Tend E bhat od
    (compute B opt (pyCk B opt embRestore e N sched) fuel w i).2
        = (compute B opt (ch.ck B opt) fuel w1 i).2 ∧
      (rev B opt (pyCk B opt embRestore e N sched) fuel w i dO dI).2
        = (rev B opt (allCk B opt) fuel w0 i dO dI).2 := by
  obtain ⟨hcapo, sl, hlf, hlr⟩ := hl
  have L : LawfulRestore (embFloatDLawful fl dot Tend E bhat od hz) embRestore :=
    ⟨fun _ _ => rfl, fun _ _ => rfl⟩
  exact ⟨C31_pyrevolve_loading_schedules _ L hlf hN hf w w1 hp hc1 i,
    py_rev_spec L hcapo hlf hlr hN hf hp hc (pyGood_none hw) hw0 cw cw0 i dI dO
      (fun d hd => by rw [hw] at hd; simp at hd)⟩

/-! ### The claim is violated in binary64 -/

open FloatDerivEx in
/-- The first of the two steps of `envFail` succeeds in binary64, the second one does not. -/
theorem floatFail_compute : ∃ w', compute (rkFloatD rnd (leftDot rnd) 0 envFail (rough 0)) opt2
    (allCk (rkFloatD rnd (leftDot rnd) 0 envFail (rough 0)) opt2) 5
    (freshAll envFail opt2 Integrator.Ex.ctrl) Integrator.Ex.inp = (w', .error .backend) := by
  set B := rkFloatD rnd (leftDot rnd) 0 envFail (rough 0) with hB
  set x0 := startOf B opt2 Integrator.Ex.ctrl RKState.empty Integrator.Ex.inp with hx0
  set y := computeStepFl rnd (leftDot rnd) envFail.T envFail.ode x0.disc 1 with hy
  have s1 : B.step x0.disc x0.sugg = .ok y := by
    have : envFail.fails (rkObs x0.disc) 1 = none := by
      simp only [envFail, hx0, hB, startOf, rkFloatD, rkFloat, rkBackend, rkObs, rkLoad,
        Integrator.Ex.inp]
      norm_num
    have hs : x0.sugg = fin 1 := rfl
    simp only [hB, rkFloatD, rkFloat, hs]
    rw [this]
  have ht : y.finalTime = 3 := by
    have h0 : y.finalTime = rnd (2 + 1) := rfl
    rw [h0, IsFloat.rnd_eq ⟨3, 0, by norm_num, by norm_num⟩]
    norm_num
  have s2 : B.step (B.set x0.disc y) (fin 1) = .error .backend := by
    have : envFail.fails (rkObs (B.set x0.disc y)) 1 = some .backend := by
      have h3 : (rkObs (B.set x0.disc y)).initialTime = 3 := ht
      generalize rkObs _ = v at h3 ⊢
      simp [envFail, h3]
    simp only [hB, rkFloatD, rkFloat] at this ⊢
    rw [this]
  have hout : (noForward B opt2 5 0 Integrator.Ex.ctrl x0).out = .error .backend := by
    have f0 : ∀ t, ¬ opt2.crit.finished 0 t := fun t => by simp [opt2, Crit.finished]
    have f1 : ∀ t, ¬ opt2.crit.finished (0 + 1) t := fun t => by simp [opt2, Crit.finished]
    have hrl : opt2.recursionLimit = 899 + 1 := rfl
    have hsg : x0.sugg = fin 1 := rfl
    simp only [noForward, if_neg (f0 _), if_neg (f1 _), runStep, hrl, iterate_fixed
      (show opt2.adaptive = false from rfl), s1]
    rw [hsg, s2]
  have hc : (compute B opt2 (allCk B opt2) 5
      (freshAll envFail opt2 Integrator.Ex.ctrl) Integrator.Ex.inp).2 = .error .backend := by
    simp only [compute, resetErrorControl]
    have e := choice_forward (B := B) (opt := opt2) .all 5 [] Integrator.Ex.ctrl x0
    simp only [Choice.ck] at e
    have e' : ((allCk B opt2).forward 5 [] Integrator.Ex.ctrl x0).2.out = .error .backend := by
      rw [e]; exact hout
    simp only [hx0, startOf] at e'
    simp only [freshAll, freshWorld, allCk] at e' ⊢
    rw [e']
  exact ⟨_, Prod.ext rfl hc⟩

open FloatDerivEx in
/-- C99 is violated after failed runs, in binary64 as in exact arithmetic: a reverse product raises if
asked first, and returns numbers after a run that failed. -/
theorem C99_failed_run_violated (dO : Outputs 1) (dI : StartingValues ℝ 1 1) :
    let B := rkFloatD rnd (leftDot rnd) 0 envFail (rough 0)
    let w := freshAll envFail opt2 Integrator.Ex.ctrl
    (rev B opt2 (allCk B opt2) 5 w Integrator.Ex.inp dO dI).2 = .error .backend ∧
    ∃ g, (rev B opt2 (allCk B opt2) 5
      (doOps B opt2 (allCk B opt2) 5 w [.compute Integrator.Ex.inp]) Integrator.Ex.inp dO dI).2
      = .ok g := by
  obtain ⟨w', h⟩ := floatFail_compute
  have := rev_after_failed (dO := dO) (dI := dI)
    (fun d => by simp [rkFloatD, rkFloat, rkBackend, rkCacheHit, rkLoad]) rfl h 5
  refine ⟨by rw [this.1], ?_⟩
  simp only [doOps, List.foldl, doOp, h]
  exact this.2

/-! ### A concrete case -/

open FloatDerivEx Verif.Integrator.Ex in
/-- The instance of C98 in binary64: after a forward product and a run at other inputs the results are
those of a fresh component. -/
example (i j di : StartingValues ℝ 1 1) (dO : Outputs 1)
    (w : World (RKState ℝ 1 1 1 0 0) (Choice.all.Data (RKState ℝ 1 1 1 0 0))) : ∃ v,
    (compute BD opt3 (Choice.ck BD opt3 .all) 4
      (doOps BD opt3 (Choice.ck BD opt3 .all) 4 w [.fwd j di dO, .compute j]) i).2 = .ok v ∧
    (compute BD opt3 (Choice.ck BD opt3 .all) 4 w i).2 = .ok v := by
  obtain ⟨tr, htr⟩ := runRev w.ctrl w.tis.disc i
  obtain ⟨-, hlen⟩ := accurateRun (ε := 0) le_rfl id htr rfl
  have C := rkFlD rnd (leftDot rnd) 0 env (rough (1 / 2 ^ 50))
  have hok := compute_of_run (B := BD) (ch := .all) (w := w) (fuel := 4) (C.run' htr) (by omega)
  refine ⟨_, ?_, by rw [hok]⟩
  have := (C99_reproducible_partial rnd (leftDot rnd) 0 env (rough (1 / 2 ^ 50))
    (fun _ _ _ _ => rfl) (opt := opt3) (ch := .all) (ch' := .all) 4 4 4 w w rfl (.inl rfl)
    [.fwd j di dO, .compute j] [] i di dO).1
  rw [this]
  exact congrArg Prod.snd hok

open FloatDerivEx Verif.Integrator.Ex in
/-- One checkpoint instead of three stored states. -/
example (i dI : StartingValues ℝ 1 1) (dO : Outputs 1) (c : Ctrl) (x : IState (RKState ℝ 1 1 1 0 0)) :
    let w : World (RKState ℝ 1 1 1 0 0) (PyData (RKState ℝ 1 1 1 0 0)) :=
      ⟨x, RKState.empty, c, none, ⟨x, fun _ => none⟩, []⟩
    let w0 : World (RKState ℝ 1 1 1 0 0) (List (IState (RKState ℝ 1 1 1 0 0))) :=
      ⟨x, RKState.empty, c, none, [], []⟩
    (rev BD opt3 (pyCk BD opt3 rkRestore x 2 (single 1)) 4 w i dO dI).2
      = (rev BD opt3 (allCk BD opt3) 4 w0 i dO dI).2 := by
  intro w w0
  exact (C99_pyrevolve_partial rnd (leftDot rnd) 0 env (rough (1 / 2 ^ 50))
    (fun _ _ _ _ => rfl) (opt := opt3) (ch := .all) (single_legal 1) rfl (by omega) (w := w)
    (w1 := w0) (w0 := w0) (.inl rfl) rfl rfl rfl rfl rfl rfl i dI dO).2

end Verif.Props
