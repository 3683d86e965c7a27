/-
C98: rounding errors of the derivatives.

`rkFloatD` and `embFloatD` (`Verif.Float.Deriv`) are the integrators with every operation of the
derivative functions rounded; `rkFloat` and `embFloat` are the same integrators, with the same
rounded steps, but with exact derivative functions: their products are the exact derivatives of the
steps the integrator takes. `seedIn`, `seedOut` are the sizes of the perturbations, `gradDist` the
distance of two results of the reverse mode, `AccurateRun` says what is expected of the stage problem
along the run.
-/
import Verif.Float.DerivCalls
import Verif.Props.Values

namespace Verif.Props

open Verif.RK Verif.RK.Spec Verif.Control Verif.XReal Verif.Integrator Verif.Fl
open Classical

variable {s n m o l : ℕ} {σ : Type}

/-- C98, forward mode: the result in floating point differs from the exact one by at most `G` times
the number of steps times the rounding error of one operation, relative to the seed; `G` depends on
the tableau, the bounds of the problem and the length of the time interval only. -/
theorem C98_forward (T : Coeffs ℝ s) {L H τ : ℝ} (hL : 0 ≤ L) (hH : 0 ≤ H) :
    ∃ G : ℝ, 0 ≤ G ∧ ∀ {n m o l : ℕ} {σ : Type} {fl : ℝ → ℝ} {u κ Tend : ℝ}
      {dot : List (ℝ × ℝ) → ℝ} {E : Env s n m o l} {od : ODE ℝ n m o l} {opt : Options} {fuel : ℕ}
      {w w' : World (RKState ℝ s n m o l) σ} {i di : StartingValues ℝ n m} {dO v' : Outputs n}
      {tr : List (Ctrl × IState (RKState ℝ s n m o l))},
      E.T = T → Rounds fl u → IsDot fl dot → 0 ≤ κ → κ ≤ 1 →
      Run (rkFloat fl dot Tend E) opt 0 w.ctrl
        (startOfFwd (rkFloat fl dot Tend E) opt w.ctrl w.tis.disc i) tr →
      AccurateRun id L κ H τ E od tr → (u + κ) * tr.length ≤ 1 →
      fwd (rkFloatD fl dot Tend E od) opt fuel w i di dO = (w', .ok v') →
      ∃ w2 v, fwd (rkFloat fl dot Tend E) opt fuel w i di dO = (w2, .ok v) ∧
        |v'.time - v.time| + ‖v'.values - v.values‖
          ≤ G * ((u + κ) * (tr.length + 1)) * (seedIn di + |dO.time|) := by
  obtain ⟨G, hG, h⟩ := fwd_dist T (τ := τ) hL hH
  exact ⟨G, hG, fun hT hf hd h0 h1 htr hacc hN hfwd =>
    h hT hf hd h0 h1 (rkFlD _ _ _ _ _) htr hacc hN hfwd⟩

/-- C98 for embedded schemes. -/
theorem C98_forward_embedded (T : Coeffs ℝ s) {L H τ : ℝ} (hL : 0 ≤ L) (hH : 0 ≤ H) :
    ∃ G : ℝ, 0 ≤ G ∧ ∀ {n m o l : ℕ} {σ : Type} {fl : ℝ → ℝ} {u κ Tend : ℝ}
      {dot : List (ℝ × ℝ) → ℝ} {E : Env s n m o l} {bhat : Fin s → ℝ} {od : ODE ℝ n m o l}
      {opt : Options} {fuel : ℕ}
      {w w' : World (EmbRKState ℝ s n m o l) σ} {i di : StartingValues ℝ n m} {dO v' : Outputs n}
      {tr : List (Ctrl × IState (EmbRKState ℝ s n m o l))},
      E.T = T → Rounds fl u → IsDot fl dot → 0 ≤ κ → κ ≤ 1 →
      Run (embFloat fl dot Tend E bhat) opt 0 w.ctrl
        (startOfFwd (embFloat fl dot Tend E bhat) opt w.ctrl w.tis.disc i) tr →
      AccurateRun EmbRKState.toRKState L κ H τ E od tr → (u + κ) * tr.length ≤ 1 →
      fwd (embFloatD fl dot Tend E bhat od) opt fuel w i di dO = (w', .ok v') →
      ∃ w2 v, fwd (embFloat fl dot Tend E bhat) opt fuel w i di dO = (w2, .ok v) ∧
        |v'.time - v.time| + ‖v'.values - v.values‖
          ≤ G * ((u + κ) * (tr.length + 1)) * (seedIn di + |dO.time|) := by
  obtain ⟨G, hG, h⟩ := fwd_dist T (τ := τ) hL hH
  exact ⟨G, hG, fun hT hf hd h0 h1 htr hacc hN hfwd =>
    h hT hf hd h0 h1 (embFlD _ _ _ _ _ _) htr hacc hN hfwd⟩

/-- C98, reverse mode without cached inputs. -/
theorem C98_reverse (n : ℕ) (T : Coeffs ℝ s) {L H τ : ℝ} (hL : 0 ≤ L) (hH : 0 ≤ H) :
    ∃ G : ℝ, 0 ≤ G ∧ ∀ {m o l : ℕ} {fl : ℝ → ℝ} {u κ Tend : ℝ}
      {dot : List (ℝ × ℝ) → ℝ} {E : Env s n m o l} {od : ODE ℝ n m o l} {opt : Options} {fuel : ℕ}
      {w w' : World (RKState ℝ s n m o l) (List (IState (RKState ℝ s n m o l)))}
      {i dI g' : StartingValues ℝ n m} {dO : Outputs n}
      {tr : List (Ctrl × IState (RKState ℝ s n m o l))},
      E.T = T → Rounds fl u → 0 ≤ κ → κ ≤ 1 →
      Run (rkFloat fl dot Tend E) opt 0 w.ctrl
        (startOf (rkFloat fl dot Tend E) opt w.ctrl w.tis.disc i) tr →
      AccurateRun id L κ H τ E od tr → (u + κ) * tr.length ≤ 1 →
      cacheOk (rkFloat fl dot Tend E) w i = false → w.pert.stageStates = 0 →
      rev (rkFloatD fl dot Tend E od) opt (allCk (rkFloatD fl dot Tend E od) opt) fuel w i dO dI
        = (w', .ok g') →
      ∃ w2 g, rev (rkFloat fl dot Tend E) opt (allCk (rkFloat fl dot Tend E) opt) fuel w i dO dI
          = (w2, .ok g) ∧
        gradDist g' g ≤ G * ((u + κ) * (tr.length + 1)) * (seedOut dO + |dI.initialTime|) := by
  obtain ⟨G, hG, h⟩ := rev_dist_fresh n T (τ := τ) hL hH
  exact ⟨G, hG, fun hT hf h0 h1 htr hacc hN hca hp hrev =>
    h hT hf h0 h1 (rkFlD _ _ _ _ _) htr hacc hN hca hp hrev⟩

/-- C98 for embedded schemes, reverse mode without cached inputs. -/
theorem C98_reverse_embedded (n : ℕ) (T : Coeffs ℝ s) {L H τ : ℝ} (hL : 0 ≤ L) (hH : 0 ≤ H) :
    ∃ G : ℝ, 0 ≤ G ∧ ∀ {m o l : ℕ} {fl : ℝ → ℝ} {u κ Tend : ℝ}
      {dot : List (ℝ × ℝ) → ℝ} {E : Env s n m o l} {bhat : Fin s → ℝ} {od : ODE ℝ n m o l}
      {opt : Options} {fuel : ℕ}
      {w w' : World (EmbRKState ℝ s n m o l) (List (IState (EmbRKState ℝ s n m o l)))}
      {i dI g' : StartingValues ℝ n m} {dO : Outputs n}
      {tr : List (Ctrl × IState (EmbRKState ℝ s n m o l))},
      E.T = T → Rounds fl u → 0 ≤ κ → κ ≤ 1 →
      Run (embFloat fl dot Tend E bhat) opt 0 w.ctrl
        (startOf (embFloat fl dot Tend E bhat) opt w.ctrl w.tis.disc i) tr →
      AccurateRun EmbRKState.toRKState L κ H τ E od tr → (u + κ) * tr.length ≤ 1 →
      cacheOk (embFloat fl dot Tend E bhat) w i = false → w.pert.stageStates = 0 →
      rev (embFloatD fl dot Tend E bhat od) opt (allCk (embFloatD fl dot Tend E bhat od) opt) fuel w
        i dO dI = (w', .ok g') →
      ∃ w2 g, rev (embFloat fl dot Tend E bhat) opt (allCk (embFloat fl dot Tend E bhat) opt) fuel w
          i dO dI = (w2, .ok g) ∧
        gradDist g' g ≤ G * ((u + κ) * (tr.length + 1)) * (seedOut dO + |dI.initialTime|) := by
  obtain ⟨G, hG, h⟩ := rev_dist_fresh n T (τ := τ) hL hH
  exact ⟨G, hG, fun hT hf h0 h1 htr hacc hN hca hp hrev =>
    h hT hf h0 h1 (embFlD _ _ _ _ _ _) htr hacc hN hca hp hrev⟩

theorem rkFloat_cacheHit (fl : ℝ → ℝ) (dot : List (ℝ × ℝ) → ℝ) (Tend : ℝ) (E : Env s n m o l)
    (i : StartingValues ℝ n m) (d : RKState ℝ s n m o l) :
    (rkFloat fl dot Tend E).cacheHit ((rkFloat fl dot Tend E).load d i) i = true :=
  rk_cacheHit E d i

theorem embFloat_cacheHit (fl : ℝ → ℝ) (dot : List (ℝ × ℝ) → ℝ) (Tend : ℝ) (E : Env s n m o l)
    (bhat : Fin s → ℝ) (i : StartingValues ℝ n m) (d : EmbRKState ℝ s n m o l) :
    (embFloat fl dot Tend E bhat).cacheHit ((embFloat fl dot Tend E bhat).load d i) i = true :=
  rk_cacheHit E d.toRKState i

/-- C98, reverse mode after `compute` with the same inputs. -/
theorem C98_reverse_after_compute (n : ℕ) (T : Coeffs ℝ s) {L H τ : ℝ} (hL : 0 ≤ L) (hH : 0 ≤ H) :
    ∃ G : ℝ, 0 ≤ G ∧ ∀ {m o l : ℕ} {fl : ℝ → ℝ} {u κ Tend : ℝ}
      {dot : List (ℝ × ℝ) → ℝ} {E : Env s n m o l} {od : ODE ℝ n m o l} {opt : Options}
      {fuel fuel' : ℕ} {w0 w w' : World (RKState ℝ s n m o l) (List (IState (RKState ℝ s n m o l)))}
      {i dI g' : StartingValues ℝ n m} {dO v' : Outputs n}
      {tr : List (Ctrl × IState (RKState ℝ s n m o l))},
      E.T = T → Rounds fl u → 0 ≤ κ → κ ≤ 1 →
      Run (rkFloat fl dot Tend E) opt 0 w0.ctrl
        (startOf (rkFloat fl dot Tend E) opt w0.ctrl w0.tis.disc i) tr →
      AccurateRun id L κ H τ E od tr → (u + κ) * tr.length ≤ 1 → w0.pert.stageStates = 0 →
      compute (rkFloatD fl dot Tend E od) opt (allCk (rkFloatD fl dot Tend E od) opt) fuel w0 i
        = (w, .ok v') →
      rev (rkFloatD fl dot Tend E od) opt (allCk (rkFloatD fl dot Tend E od) opt) fuel' w i dO dI
        = (w', .ok g') →
      ∃ w1 w2 v g, compute (rkFloat fl dot Tend E) opt (allCk (rkFloat fl dot Tend E) opt) fuel w0 i
          = (w1, .ok v) ∧
        rev (rkFloat fl dot Tend E) opt (allCk (rkFloat fl dot Tend E) opt) fuel' w1 i dO dI
          = (w2, .ok g) ∧
        gradDist g' g ≤ G * ((u + κ) * (tr.length + 1)) * (seedOut dO + |dI.initialTime|) := by
  obtain ⟨G, hG, h⟩ := rev_dist_cached n T (τ := τ) hL hH
  exact ⟨G, hG, fun hT hf h0 h1 htr hacc hN hp hcomp hrev =>
    h hT hf h0 h1 (rkFlD _ _ _ _ _) (rkFloat_cacheHit _ _ _ _ _) htr hacc hN hp hcomp hrev⟩

/-- C98 for embedded schemes, reverse mode after `compute` with the same inputs. -/
theorem C98_reverse_after_compute_embedded (n : ℕ) (T : Coeffs ℝ s) {L H τ : ℝ} (hL : 0 ≤ L)
    (hH : 0 ≤ H) :
    ∃ G : ℝ, 0 ≤ G ∧ ∀ {m o l : ℕ} {fl : ℝ → ℝ} {u κ Tend : ℝ}
      {dot : List (ℝ × ℝ) → ℝ} {E : Env s n m o l} {bhat : Fin s → ℝ} {od : ODE ℝ n m o l}
      {opt : Options} {fuel fuel' : ℕ}
      {w0 w w' : World (EmbRKState ℝ s n m o l) (List (IState (EmbRKState ℝ s n m o l)))}
      {i dI g' : StartingValues ℝ n m} {dO v' : Outputs n}
      {tr : List (Ctrl × IState (EmbRKState ℝ s n m o l))},
      E.T = T → Rounds fl u → 0 ≤ κ → κ ≤ 1 →
      Run (embFloat fl dot Tend E bhat) opt 0 w0.ctrl
        (startOf (embFloat fl dot Tend E bhat) opt w0.ctrl w0.tis.disc i) tr →
      AccurateRun EmbRKState.toRKState L κ H τ E od tr → (u + κ) * tr.length ≤ 1 →
      w0.pert.stageStates = 0 →
      compute (embFloatD fl dot Tend E bhat od) opt (allCk (embFloatD fl dot Tend E bhat od) opt)
        fuel w0 i = (w, .ok v') →
      rev (embFloatD fl dot Tend E bhat od) opt (allCk (embFloatD fl dot Tend E bhat od) opt) fuel' w
        i dO dI = (w', .ok g') →
      ∃ w1 w2 v g, compute (embFloat fl dot Tend E bhat) opt
          (allCk (embFloat fl dot Tend E bhat) opt) fuel w0 i = (w1, .ok v) ∧
        rev (embFloat fl dot Tend E bhat) opt (allCk (embFloat fl dot Tend E bhat) opt) fuel' w1 i dO
          dI = (w2, .ok g) ∧
        gradDist g' g ≤ G * ((u + κ) * (tr.length + 1)) * (seedOut dO + |dI.initialTime|) := by
  obtain ⟨G, hG, h⟩ := rev_dist_cached n T (τ := τ) hL hH
  exact ⟨G, hG, fun hT hf h0 h1 htr hacc hN hp hcomp hrev =>
    h hT hf h0 h1 (embFlD _ _ _ _ _ _) (embFloat_cacheHit _ _ _ _ _ _) htr hacc hN hp hcomp hrev⟩

/-- C98, transposition: the products of forward and reverse mode in floating point, of two instances
with the same controller state, satisfy the dot product test up to rounding. -/
theorem C98_transposed (n m : ℕ) (T : Coeffs ℝ s) {L H τ : ℝ} (hL : 0 ≤ L) (hH : 0 ≤ H) :
    ∃ G : ℝ, 0 ≤ G ∧ ∀ {o l : ℕ} {fl : ℝ → ℝ} {u κ Tend : ℝ}
      {dot : List (ℝ × ℝ) → ℝ} {E : Env s n m o l} {od : ODE ℝ n m o l} {opt : Options}
      {fuel fuel' : ℕ}
      {wf wf' wr wr' : World (RKState ℝ s n m o l) (List (IState (RKState ℝ s n m o l)))}
      {i di dI g' : StartingValues ℝ n m} {dO dO0 v' : Outputs n}
      {tr : List (Ctrl × IState (RKState ℝ s n m o l))},
      E.T = T → Rounds fl u → IsDot fl dot → 0 ≤ κ → κ ≤ 1 → NoStageState E.ode →
      NoStageState od → wf.ctrl = wr.ctrl →
      Run (rkFloat fl dot Tend E) opt 0 wr.ctrl
        (startOf (rkFloat fl dot Tend E) opt wr.ctrl wr.tis.disc i) tr →
      AccurateRun id L κ H τ E od tr → (u + κ) * tr.length ≤ 1 →
      cacheOk (rkFloat fl dot Tend E) wr i = false → wr.pert.stageStates = 0 →
      fwd (rkFloatD fl dot Tend E od) opt fuel wf i di dO0 = (wf', .ok v') →
      rev (rkFloatD fl dot Tend E od) opt (allCk (rkFloatD fl dot Tend E od) opt) fuel' wr i dO dI
        = (wr', .ok g') →
      |(Spec.dot dO.values v'.values + dO.time * (v'.time - dO0.time))
          - (Spec.dot g'.initialValues di.initialValues
            + (g'.initialTime - dI.initialTime) * di.initialTime
            + Spec.dot g'.independentInputs di.independentInputs)|
        ≤ G * ((u + κ) * (tr.length + 1))
          * ((seedIn di + |dO0.time|) * (seedOut dO + |dI.initialTime|)) := by
  obtain ⟨G, hG, h⟩ := transpose_dist n m T (τ := τ) hL hH
  exact ⟨G, hG, fun hT hf hd h0 h1 hz hz' hc htr hacc hN hca hp h1 h2 =>
    h hT hf hd h0 ‹_› hz (rkFlD _ _ _ _ _) (rkFloatDLawful _ _ _ _ _ hz') (fun _ _ h => h) hc htr
      hacc hN hca hp h1 h2⟩

/-- C98 for embedded schemes, transposition. -/
theorem C98_transposed_embedded (n m : ℕ) (T : Coeffs ℝ s) {L H τ : ℝ} (hL : 0 ≤ L) (hH : 0 ≤ H) :
    ∃ G : ℝ, 0 ≤ G ∧ ∀ {o l : ℕ} {fl : ℝ → ℝ} {u κ Tend : ℝ}
      {dot : List (ℝ × ℝ) → ℝ} {E : Env s n m o l} {bhat : Fin s → ℝ} {od : ODE ℝ n m o l}
      {opt : Options} {fuel fuel' : ℕ}
      {wf wf' wr wr' : World (EmbRKState ℝ s n m o l) (List (IState (EmbRKState ℝ s n m o l)))}
      {i di dI g' : StartingValues ℝ n m} {dO dO0 v' : Outputs n}
      {tr : List (Ctrl × IState (EmbRKState ℝ s n m o l))},
      E.T = T → Rounds fl u → IsDot fl dot → 0 ≤ κ → κ ≤ 1 → NoStageState E.ode →
      NoStageState od → wf.ctrl = wr.ctrl →
      Run (embFloat fl dot Tend E bhat) opt 0 wr.ctrl
        (startOf (embFloat fl dot Tend E bhat) opt wr.ctrl wr.tis.disc i) tr →
      AccurateRun EmbRKState.toRKState L κ H τ E od tr → (u + κ) * tr.length ≤ 1 →
      cacheOk (embFloat fl dot Tend E bhat) wr i = false → wr.pert.stageStates = 0 →
      fwd (embFloatD fl dot Tend E bhat od) opt fuel wf i di dO0 = (wf', .ok v') →
      rev (embFloatD fl dot Tend E bhat od) opt (allCk (embFloatD fl dot Tend E bhat od) opt) fuel'
        wr i dO dI = (wr', .ok g') →
      |(Spec.dot dO.values v'.values + dO.time * (v'.time - dO0.time))
          - (Spec.dot g'.initialValues di.initialValues
            + (g'.initialTime - dI.initialTime) * di.initialTime
            + Spec.dot g'.independentInputs di.independentInputs)|
        ≤ G * ((u + κ) * (tr.length + 1))
          * ((seedIn di + |dO0.time|) * (seedOut dO + |dI.initialTime|)) := by
  obtain ⟨G, hG, h⟩ := transpose_dist n m T (τ := τ) hL hH
  exact ⟨G, hG, fun hT hf hd h0 h1 hz hz' hc htr hacc hN hca hp h1 h2 =>
    h hT hf hd h0 ‹_› hz (embFlD _ _ _ _ _ _) (embFloatDLawful _ _ _ _ _ _ hz') (fun _ _ h => h) hc
      htr hacc hN hca hp h1 h2⟩

/-! ### Without rounding -/

theorem computeStepDerivativeFl_exact (T : Coeffs ℝ s) (ode : ODE ℝ n m o l)
    (st p : RKState ℝ s n m o l) (h : ℝ) :
    computeStepDerivativeFl id exactDot T ode st p h = computeStepDerivative T ode st p h := by
  have h1 : ∀ (i : Fin s) (k : Fin s → Fin n → ℝ),
      accumulateStagesFl exactDot T i k = accumulateStages T i k := by
    intro i k
    unfold accumulateStagesFl accumulateStages
    split_ifs
    · rfl
    · funext x
      rw [exactDot, List.map_map]
      exact sum_filter i fun j => k j x * T.A i j
  have h2 : ∀ (w : Fin s → ℝ) (y : Fin n → ℝ) (k : Fin s → Fin n → ℝ),
      accumulateStepFl id exactDot w y k h = accumulateStep w y k h := by
    intro w y k
    funext x
    simp [accumulateStepFl, accumulateStep, exactDot, List.sum_ofFn, ← List.ofFn_eq_map,
      Function.comp_def]
  have h3 : computeStageDerivativeFl exactDot T ode h = computeStageDerivative T ode h := by
    funext lin r i
    simp [computeStageDerivativeFl, computeStageDerivative, h1]
  simp [computeStepDerivativeFl, computeStepDerivative, h2, h3]

theorem computeStepAdjointFl_exact (T : Coeffs ℝ s) (ode : ODE ℝ n m o l)
    (st p : RKState ℝ s n m o l) (h : ℝ) :
    computeStepAdjointFl id T ode st p h = computeStepAdjoint T ode st p h := by
  have h3 : computeStageAdjointFl id T ode h = computeStageAdjoint T ode h := by
    funext lin r i
    simp only [computeStageAdjointFl, computeStageAdjoint, addFl, id_eq]
    congr 1
  simp only [computeStepAdjointFl, computeStepAdjoint, adjointStartFl, h3, id_eq]

/-- C98, without rounding: the integrators are those of the claims in exact arithmetic. -/
theorem C98_without_rounding (Tend : ℝ) (E : Env s n m o l) (bhat : Fin s → ℝ) :
    rkFloatD id exactDot Tend E E.ode = rkBackend E ∧
      embFloatD id exactDot Tend E bhat E.ode = embBackend E bhat := by
  obtain ⟨-, -, h1, h2⟩ := C78_without_rounding Tend E bhat
  constructor
  · simp only [rkFloatD, h1, computeStepDerivativeFl_exact, computeStepAdjointFl_exact]
    rfl
  · simp only [embFloatD, h2, computeStepDerivativeFl_exact, computeStepAdjointFl_exact]
    rfl

/-! ### A concrete case -/

namespace FloatDerivEx

open Verif.Integrator.Ex

/-- The derivative functions of `y' = -y + p + t` with a relative error of `ε` in every component. -/
noncomputable def rough (ε : ℝ) : ODE ℝ 1 1 0 0 where
  computeUpdate := RK.Ex.linOde.computeUpdate
  computeUpdateDerivative := fun lin d h a =>
    let r := RK.Ex.linOde.computeUpdateDerivative lin d h a
    { r with stageUpdate := (1 + ε) • r.stageUpdate }
  computeUpdateAdjoint := fun lin d h a =>
    let r := RK.Ex.linOde.computeUpdateAdjoint lin d h a
    { r with
      stepInput := (1 + ε) • r.stepInput
      stageInput := (1 + ε) • r.stageInput
      independentInput := (1 + ε) • r.independentInput
      time := (1 + ε) * r.time }

theorem norm1 (v : Fin 1 → ℝ) : ‖v‖ = |v 0| := by
  have : v = fun _ => v 0 := funext fun x => by rw [Subsingleton.elim x 0]
  rw [this, pi_norm_const, Real.norm_eq_abs]

theorem linear (lin : Fin 0 → ℝ) (h : ℝ) : LinearDeriv (RK.Ex.linOde (K := ℝ)) lin h 0 := by
  constructor
  · intro x y
    simp only [RK.Ex.linOde, addIn, addOut, OdeOut.mk.injEq, Pi.add_apply]
    exact ⟨funext fun x => by simp only [Pi.add_apply]; ring, by simp, by simp⟩
  · intro c x
    simp only [RK.Ex.linOde, smulIn, smulOut, OdeOut.mk.injEq, Pi.smul_apply, smul_eq_mul]
    exact ⟨funext fun x => by simp only [Pi.smul_apply, smul_eq_mul]; ring, by simp, by simp⟩

theorem size_le (x : OdeInput ℝ 1 1) {h : ℝ} (hh : |h| ≤ 1) :
    |x.independentInput 0 + x.time - x.stepInput 0 - h * x.stageInput 0| ≤ inSize x := by
  simp only [inSize, norm1]
  have h1 : |h * x.stageInput 0| ≤ |x.stageInput 0| := by
    rw [abs_mul]
    exact mul_le_of_le_one_left (abs_nonneg _) hh
  have h2 := abs_sub (x.independentInput 0 + x.time - x.stepInput 0) (h * x.stageInput 0)
  have h3 := abs_sub (x.independentInput 0 + x.time) (x.stepInput 0)
  have h4 := abs_add_le (x.independentInput 0) x.time
  linarith

theorem accurate {ε : ℝ} (hε : 0 ≤ ε) (lin : Fin 0 → ℝ) {h : ℝ} (hh : |h| ≤ 1) :
    Fl.Accurate 1 (4 * ε) env.ode (rough ε) lin h 0 where
  linear := linear lin h
  adjoint := RK.Ex.linOde_adjoint _ _ _
  bound := fun x => by
    rw [norm1]
    simpa [env, RK.Ex.linOde] using size_le x hh
  deriv_err := fun x => by
    rw [norm1]
    have h1 := size_le x hh
    have h2 := inSize_nonneg x
    have h3 : ((rough ε).computeUpdateDerivative lin x h 0).stageUpdate 0
        - (env.ode.computeUpdateDerivative lin x h 0).stageUpdate 0
        = ε * (x.independentInput 0 + x.time - x.stepInput 0 - h * x.stageInput 0) := by
      simp only [rough, env, RK.Ex.linOde, Pi.smul_apply, smul_eq_mul, mul_zero, add_zero, div_one]
      ring
    rw [Pi.sub_apply, h3, abs_mul, abs_of_nonneg hε]
    have := mul_le_mul_of_nonneg_left h1 hε
    have := mul_nonneg hε h2
    linarith
  adj_err := fun μ => by
    have e : ∀ z : ℝ, (1 + ε) * z - z = ε * z := fun z => by ring
    simp only [inDist, norm1, rough, env, RK.Ex.linOde, Pi.sub_apply, Pi.smul_apply, smul_eq_mul, e,
      abs_mul, abs_of_nonneg hε, mul_zero, add_zero, div_one, abs_neg]
    have h1 := mul_le_mul_of_nonneg_right hh (abs_nonneg (μ 0))
    have := mul_le_mul_of_nonneg_left h1 hε
    linarith

theorem steps_fixed {D : Type} {B : Backend D (StartingValues ℝ 1 1) (Outputs 1)} {it : ℕ} {c : Ctrl}
    {x : IState D} {tr : List (Ctrl × IState D)} (h : Run B opt3 it c x tr)
    (hx : x.sugg = fin (1 / 2)) : ∀ q ∈ tr, q.2.stepHist.1 = fin (1 / 2) := by
  induction h with
  | done => simp
  | @step it c x c' x' tr hf hs hr ih =>
    obtain ⟨f, hl⟩ := Nat.exists_eq_succ_of_ne_zero (show opt3.recursionLimit ≠ 0 by simp [opt3])
    rw [hl, iterate_fixed rfl] at hs
    have key : x'.sugg = fin (1 / 2) ∧ x'.stepHist.1 = fin (1 / 2) := by
      split at hs
      · simp at hs
      · obtain ⟨-, rfl, -⟩ := hs
        exact ⟨hx, hx⟩
    intro q hq
    rcases List.mem_cons.mp hq with rfl | hq
    · exact key.2
    · exact ih key.1 q hq

/-- In any run with steps of size 1/2, three of them. -/
theorem accurateRun {ε : ℝ} (hε : 0 ≤ ε) {D : Type} (core : D → RKState ℝ 1 1 1 0 0)
    {B : Backend D (StartingValues ℝ 1 1) (Outputs 1)} {c : Ctrl} {x : IState D}
    {tr : List (Ctrl × IState D)} (h : Run B opt3 0 c x tr) (hx : x.sugg = fin (1 / 2)) :
    AccurateRun core 1 (4 * ε) (1 / 2) (3 / 2) env (rough ε) tr ∧ tr.length = 3 := by
  have hlen : tr.length = 3 := by
    have := h.length_steps (n := 3) rfl (Nat.zero_le _)
    omega
  have hst : ∀ q ∈ tr, hOf q.2 = 1 / 2 := fun q hq => by
    rw [hOf, steps_fixed h hx q hq]
    rfl
  refine ⟨⟨fun q hq => ?_, ?_, fun q hq i => ?_⟩, hlen⟩
  · rw [hst q hq]
    norm_num
  · rw [List.map_congr_left (g := fun _ => (1 / 2 : ℝ)) fun q hq => by rw [hst q hq]; norm_num]
    simp [hlen]
    norm_num
  · refine accurate hε _ ?_
    rw [hst q hq]
    norm_num

/-- The instance with derivatives in binary64. -/
noncomputable abbrev BD : Backend (RKState ℝ 1 1 1 0 0) (StartingValues ℝ 1 1) (Outputs 1) :=
  rkFloatD rnd (leftDot rnd) 0 env (rough (1 / 2 ^ 50))

/-- The instance with exact derivatives of the steps in binary64. -/
noncomputable abbrev BX : Backend (RKState ℝ 1 1 1 0 0) (StartingValues ℝ 1 1) (Outputs 1) :=
  rkFloat rnd (leftDot rnd) 0 env

theorem runFwd (c : Ctrl) (d : RKState ℝ 1 1 1 0 0) (i : StartingValues ℝ 1 1) :
    ∃ tr, Run BX opt3 0 c (startOfFwd BX opt3 c d i) tr :=
  exists_run_fixed (n := 3) rfl rfl (by simp [opt3]) c _ (fun d => ⟨_, rfl⟩) 0

theorem runRev (c : Ctrl) (d : RKState ℝ 1 1 1 0 0) (i : StartingValues ℝ 1 1) :
    ∃ tr, Run BX opt3 0 c (startOf BX opt3 c d i) tr :=
  exists_run_fixed (n := 3) rfl rfl (by simp [opt3]) c _ (fun d => ⟨_, rfl⟩) 0

theorem small : ((1 : ℝ) / 2 ^ 53 + 4 * (1 / 2 ^ 50)) * ((3 : ℕ) : ℝ) ≤ 1 := by norm_num

/-- All products of this instance, forward mode. -/
example : ∃ G : ℝ, ∀ (w : World (RKState ℝ 1 1 1 0 0) (List (IState (RKState ℝ 1 1 1 0 0))))
    (i di : StartingValues ℝ 1 1) (dO : Outputs 1), ∃ w' v' w2 v,
    fwd BD opt3 4 w i di dO = (w', .ok v') ∧ fwd BX opt3 4 w i di dO = (w2, .ok v) ∧
    |v'.time - v.time| + ‖v'.values - v.values‖
      ≤ G * ((1 / 2 ^ 53 + 4 * (1 / 2 ^ 50)) * (3 + 1)) * (seedIn di + |dO.time|) := by
  obtain ⟨G, -, h⟩ := C98_forward euler (L := 1) (H := 1 / 2) (τ := 3 / 2) (by norm_num)
    (by norm_num)
  refine ⟨G, fun w i di dO => ?_⟩
  obtain ⟨tr, htr⟩ := runFwd w.ctrl w.tis.disc i
  obtain ⟨hacc, hlen⟩ := accurateRun (ε := 1 / 2 ^ 50) (by norm_num) id htr rfl
  have hok := fwd_of_run (B := BD) (w := w) (fuel := 4)
    ((rkFlD rnd (leftDot rnd) 0 env (rough (1 / 2 ^ 50))).run' htr) (by omega) di dO
  obtain ⟨w2, v, hv, hle⟩ := h rfl rnd_rounds (leftDot_isDot rnd) (by norm_num) (by norm_num) htr
    hacc (by rw [hlen]; exact small) (Prod.ext rfl hok)
  rw [hlen] at hle
  exact ⟨_, _, w2, v, Prod.ext rfl hok, hv, by simpa using hle⟩

/-- The dot product test of this instance, with fresh components. -/
example : ∃ G : ℝ, ∀ (wf wr : World (RKState ℝ 1 1 1 0 0) (List (IState (RKState ℝ 1 1 1 0 0))))
    (i di dI : StartingValues ℝ 1 1) (dO dO0 : Outputs 1), wf.ctrl = wr.ctrl → wr.cached = none →
    wr.pert = RKState.empty → ∃ wf' v' wr' g',
    fwd BD opt3 4 wf i di dO0 = (wf', .ok v') ∧
    rev BD opt3 (allCk BD opt3) 4 wr i dO dI = (wr', .ok g') ∧
    |(Spec.dot dO.values v'.values + dO.time * (v'.time - dO0.time))
        - (Spec.dot g'.initialValues di.initialValues
          + (g'.initialTime - dI.initialTime) * di.initialTime
          + Spec.dot g'.independentInputs di.independentInputs)|
      ≤ G * ((1 / 2 ^ 53 + 4 * (1 / 2 ^ 50)) * (3 + 1))
        * ((seedIn di + |dO0.time|) * (seedOut dO + |dI.initialTime|)) := by
  obtain ⟨G, -, h⟩ := C98_transposed 1 1 euler (L := 1) (H := 1 / 2) (τ := 3 / 2) (by norm_num)
    (by norm_num)
  refine ⟨G, fun wf wr i di dI dO dO0 hc hca hp => ?_⟩
  obtain ⟨tr, htr⟩ := runRev wr.ctrl wr.tis.disc i
  obtain ⟨trf, htrf⟩ := runFwd wf.ctrl wf.tis.disc i
  obtain ⟨hacc, hlen⟩ := accurateRun (ε := 1 / 2 ^ 50) (by norm_num) id htr rfl
  obtain ⟨-, hlenf⟩ := accurateRun (ε := 0) le_rfl id htrf rfl
  have C := rkFlD rnd (leftDot rnd) 0 env (rough (1 / 2 ^ 50))
  have hok := fwd_of_run (B := BD) (w := wf) (fuel := 4) (C.run' htrf) (by omega) di dO0
  have hno : cacheOk BX wr i = false := by simp [cacheOk, hca]
  have hrev := rev_of_run (B := BD) (w := wr) (fuel := 4) (dI := dI) (dO := dO)
    (by simp [cacheOk, hca]) (C.run' htr) (by omega)
  have := h rfl rnd_rounds (leftDot_isDot rnd) (by norm_num) (by norm_num) (fun _ _ _ _ => rfl)
    (fun _ _ _ _ => rfl) hc htr hacc (by rw [hlen]; exact small) hno (by rw [hp]; rfl)
    (Prod.ext rfl hok) (Prod.ext rfl hrev)
  rw [hlen] at this
  exact ⟨_, _, _, _, Prod.ext rfl hok, Prod.ext rfl hrev, by simpa using this⟩

/-- The embedded instance with derivatives in binary64. -/
noncomputable abbrev ED : Backend (EmbRKState ℝ 1 1 1 0 0) (StartingValues ℝ 1 1) (Outputs 1) :=
  embFloatD rnd (leftDot rnd) 0 env (fun _ => 1 / 2) (rough (1 / 2 ^ 50))

/-- Reverse products of the embedded instance after `compute`. -/
example : ∃ G : ℝ, ∀ (w0 : World (EmbRKState ℝ 1 1 1 0 0) (List (IState (EmbRKState ℝ 1 1 1 0 0))))
    (i dI : StartingValues ℝ 1 1) (dO : Outputs 1), w0.pert.stageStates = 0 →
    ∃ w v' w' g' w1 w2 v g, compute ED opt3 (allCk ED opt3) 4 w0 i = (w, .ok v') ∧
    rev ED opt3 (allCk ED opt3) 4 w i dO dI = (w', .ok g') ∧
    compute (embFloat rnd (leftDot rnd) 0 env fun _ => 1 / 2) opt3
      (allCk (embFloat rnd (leftDot rnd) 0 env fun _ => 1 / 2) opt3) 4 w0 i = (w1, .ok v) ∧
    rev (embFloat rnd (leftDot rnd) 0 env fun _ => 1 / 2) opt3
      (allCk (embFloat rnd (leftDot rnd) 0 env fun _ => 1 / 2) opt3) 4 w1 i dO dI = (w2, .ok g) ∧
    gradDist g' g ≤ G * ((1 / 2 ^ 53 + 4 * (1 / 2 ^ 50)) * (3 + 1))
      * (seedOut dO + |dI.initialTime|) := by
  obtain ⟨G, -, h⟩ := C98_reverse_after_compute_embedded 1 euler (L := 1) (H := 1 / 2) (τ := 3 / 2)
    (by norm_num) (by norm_num)
  refine ⟨G, fun w0 i dI dO hp => ?_⟩
  obtain ⟨tr, htr⟩ := exists_run_fixed (B := embFloat rnd (leftDot rnd) 0 env fun _ => 1 / 2)
    (opt := opt3) (n := 3) rfl rfl (by simp [opt3]) w0.ctrl
    (startOf (embFloat rnd (leftDot rnd) 0 env fun _ => 1 / 2) opt3 w0.ctrl w0.tis.disc i)
    (fun d => ⟨_, rfl⟩) 0
  obtain ⟨hacc, hlen⟩ := accurateRun (ε := 1 / 2 ^ 50) (by norm_num) EmbRKState.toRKState htr rfl
  have C := embFlD rnd (leftDot rnd) 0 env (fun _ => 1 / 2) (rough (1 / 2 ^ 50))
  have hcomp := compute_of_run (B := ED) (ch := .all) (w := w0) (fuel := 4) (C.run' htr) (by omega)
  simp only [Choice.ck] at hcomp
  have hrev := rev_of_cached (B := ED) (opt := opt3) (fuel := 4) (i := i) (dI := dI) (dO := dO)
    (w := (compute ED opt3 (allCk ED opt3) 4 w0 i).1)
    (by rw [hcomp]; exact embFloat_cacheHit rnd (leftDot rnd) 0 env (fun _ => 1 / 2) i _)
  rw [hcomp] at hrev
  obtain ⟨w1, w2, v, g, h1, h2, h3⟩ := h rfl rnd_rounds (by norm_num) (by norm_num) htr hacc
    (by rw [hlen]; exact small) hp hcomp (Prod.ext rfl hrev)
  rw [hlen] at h3
  exact ⟨_, _, _, _, w1, w2, v, g, hcomp, Prod.ext rfl hrev, h1, h2, by simpa using h3⟩

end FloatDerivEx

end Verif.Props
