/-
A concrete problem for the integrator, used to show that hypotheses of the properties are met:
`y' = -y + p + t` with explicit Euler, as plain and as embedded scheme.
-/
import Verif.Integrator.RK
import Verif.Integrator.Path
import Verif.RK.Examples

namespace Verif.Integrator.Ex

open Verif.RK Verif.Control Verif.XReal

/-- Explicit Euler. -/
def euler : Coeffs ℝ 1 := ⟨fun _ _ => 0, fun _ => 1, fun _ => 0⟩

/-- Explicit Euler for `y' = -y + p + t`; the error measure is the absolute error estimate. -/
noncomputable def env : Env 1 1 1 0 0 where
  T := euler
  ode := RK.Ex.linOde
  fails := fun _ _ => none
  nonfinite := fun _ _ => .error .backend
  measure := fun e _ => fin |e 0|

/-- A controller that is never asked. -/
noncomputable def ctrl : Ctrl := .base (integral 1) Config.default

/-- Fixed steps of size 1/2, three of them, one callback in each list. -/
noncomputable def opt3 : Options where
  adaptive := false
  crit := .steps 3
  initialStep := fin (1 / 2)
  computeCallbacks := 1
  fwdCallbacks := 1
  revCallbacks := 1

/-- The freshly set up component. -/
noncomputable def fresh (opt : Options) (ch : Choice) :
    World (RKState ℝ 1 1 1 0 0) (ch.Data (RKState ℝ 1 1 1 0 0)) :=
  freshWorld opt (ch.ck (rkBackend env) opt) RKState.empty ctrl

/-- Some inputs. -/
def inp : StartingValues ℝ 1 1 := ⟨2, fun _ => 1, fun _ => 5⟩

theorem env_noStageState : NoStageState env.ode := fun _ _ _ _ => rfl

/-- With fixed finite steps and a stage problem that does not fail, `compute` succeeds. -/
theorem compute_ok {s n m o l : ℕ} (E : Env s n m o l) (hE : ∀ v h, E.fails v h = none)
    (opt : Options) (dt : ℝ) (N : ℕ) (ha : opt.adaptive = false) (hc : opt.crit = .steps N)
    (hi : opt.initialStep = fin dt) (hl : opt.recursionLimit ≠ 0) (ch : Choice)
    (w : World (RKState ℝ s n m o l) (ch.Data (RKState ℝ s n m o l))) (i : StartingValues ℝ n m)
    (fuel : ℕ) (hf : N < fuel) :
    ∃ w' v, compute (rkBackend E) opt (ch.ck (rkBackend E) opt) fuel w i = (w', .ok v) := by
  obtain ⟨tr, htr⟩ := exists_run_fixed (B := rkBackend E) hc ha hl w.ctrl
    (startOf (rkBackend E) opt w.ctrl w.tis.disc i)
    (fun d => ⟨computeStep E.T E.ode d dt, by simp [rkBackend, startOf, hi, hE]⟩) 0
  have hlen := htr.length_steps hc (Nat.zero_le _)
  exact ⟨_, _, compute_of_run htr (by omega)⟩

theorem fresh_compute_ok (ch : Choice) (fuel : ℕ) (hf : 3 < fuel)
    (w : World (RKState ℝ 1 1 1 0 0) (ch.Data (RKState ℝ 1 1 1 0 0)))
    (i : StartingValues ℝ 1 1) :
    ∃ w' v, compute (rkBackend env) opt3 (ch.ck (rkBackend env) opt3) fuel w i = (w', .ok v) :=
  compute_ok env (fun _ _ => rfl) opt3 (1 / 2) 3 rfl rfl rfl (by simp [opt3]) ch w i fuel hf

end Verif.Integrator.Ex
