/-
Checkpoints of the Runge-Kutta states.

Source: /repo/src/rkopenmdao/time_discretization/runge_kutta_discretization_state.py L112-129,
        L219-223 (`to_dict`, which determines what a checkpoint contains)
-/
import Verif.Integrator.Pyrevolve
import Verif.Integrator.RK

namespace Verif.Integrator

open Verif.RK Verif.RK.Spec

variable {s n m o l : ℕ}

/-- Loading a checkpoint into a plain state: the dictionary contains every array but `step_size`
(runge_kutta_discretization_state.py L112-129). -/
def rkRestore : Restore (RKState ℝ s n m o l) :=
  fun live saved => { saved with stepSize := live.stepSize }

/-- Loading a checkpoint into an embedded state: the dictionary also contains the embedded arrays
(runge_kutta_discretization_state.py L219-223). -/
def embRestore : Restore (EmbRKState ℝ s n m o l) :=
  fun live saved => { saved with stepSize := live.stepSize }

theorem rkRestore_lawful (E : Env s n m o l) (hz : NoStageState E.ode) :
    LawfulRestore (rkLawful E hz) rkRestore :=
  ⟨fun _ _ => rfl, fun _ _ => rfl⟩

theorem embRestore_lawful (E : Env s n m o l) (bhat : Fin s → ℝ) (hz : NoStageState E.ode) :
    LawfulRestore (embLawful E bhat hz) embRestore :=
  ⟨fun _ _ => rfl, fun _ _ => rfl⟩

end Verif.Integrator
