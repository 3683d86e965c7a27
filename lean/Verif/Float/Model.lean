/-
The times of a run in floating point arithmetic.

Source: /repo/src/rkopenmdao/time_discretization/stage_ordered_runge_kutta_discretization.py L65-67
        /repo/src/rkopenmdao/termination_criterion.py L93-105
        /repo/src/rkopenmdao/runge_kutta_integrator.py L253-258, L583-593

The other modules compute with real numbers. Here the two operations on times are rounded: the
addition `start_time + step_size` of a step and the subtraction `termination_time - time` of the
criterion. Nothing is said about the values, so their rounding is arbitrary; the controller
computes with real numbers.
-/
import Verif.Float.Round
import Verif.Integrator.RK
import Verif.Integrator.Path

namespace Verif.Fl

open Verif.RK Verif.Control Verif.XReal Verif.Integrator
open Classical

variable {D I O : Type} {s n m o l : ℕ}

/-- A discretization whose times are rounded with `f`: `tm` is `final_time[0]`, `t0` the input
`time_initial`, `out` the output `time_final`. What the criterion with final time `T` gets as time
is such that its difference to `T` is the rounded difference (termination_criterion.py L105). -/
structure Timed (f : ℝ → ℝ) (T : ℝ) (B : Backend D I O) (tm : D → ℝ) (t0 : I → ℝ) (out : O → ℝ) :
    Prop where
  time : ∀ d, B.time d = fin (T - f (T - tm d))
  set : ∀ d e, tm (B.set d e) = tm e
  step : ∀ d h e, B.step d (fin h) = .ok e → tm e = f (tm d + h)
  load : ∀ d i, tm (B.clearLin (B.load d i)) = t0 i
  read : ∀ d, out (B.read d) = tm d

/-- The non-embedded Runge-Kutta discretization with rounded times,
stage_ordered_runge_kutta_discretization.py L65-67. -/
noncomputable def rkTimed (f : ℝ → ℝ) (T : ℝ) (E : Env s n m o l) :
    Backend (RKState ℝ s n m o l) (StartingValues ℝ n m) (Outputs n) :=
  { rkBackend E with
    step := fun d h => ((rkBackend E).step d h).map
      (fun e => { e with finalTime := f (d.finalTime + toReal h) })
    time := fun d => fin (T - f (T - d.finalTime)) }

/-- The embedded Runge-Kutta discretization with rounded times,
stage_ordered_runge_kutta_discretization.py L65-67 and L546-555. -/
noncomputable def embTimed (f : ℝ → ℝ) (T : ℝ) (E : Env s n m o l) (bhat : Fin s → ℝ) :
    Backend (EmbRKState ℝ s n m o l) (StartingValues ℝ n m) (Outputs n) :=
  { embBackend E bhat with
    step := fun d h => ((embBackend E bhat).step d h).map
      (fun e => { e with finalTime := f (d.finalTime + toReal h) })
    time := fun d => fin (T - f (T - d.finalTime)) }

theorem rkTimed_timed (f : ℝ → ℝ) (T : ℝ) (E : Env s n m o l) :
    Timed f T (rkTimed f T E) (fun d => d.finalTime) (fun i => i.initialTime) (fun v => v.time) where
  time := fun _ => rfl
  set := fun _ _ => rfl
  step := by
    intro d h e he
    simp only [rkTimed] at he
    rcases hs : (rkBackend E).step d (fin h) with e' | e'
    · rw [hs] at he; cases he
    · rw [hs] at he
      cases he
      rfl
  load := fun _ _ => rfl
  read := fun _ => rfl

theorem embTimed_timed (f : ℝ → ℝ) (T : ℝ) (E : Env s n m o l) (bhat : Fin s → ℝ) :
    Timed f T (embTimed f T E bhat) (fun d => d.finalTime) (fun i => i.initialTime)
      (fun v => v.time) where
  time := fun _ => rfl
  set := fun _ _ => rfl
  step := by
    intro d h e he
    simp only [embTimed] at he
    rcases hs : (embBackend E bhat).step d (fin h) with e' | e'
    · rw [hs] at he; cases he
    · rw [hs] at he
      cases he
      rfl
  load := fun _ _ => rfl
  read := fun _ => rfl

/-- A rounding with relative error at most `u`. -/
structure Rounds (f : ℝ → ℝ) (u : ℝ) : Prop where
  nonneg : 0 ≤ u
  lt_one : u < 1
  err : ∀ x, |f x - x| ≤ u * |x|

/-- Rounding to binary64. -/
theorem rnd_rounds : Rounds rnd (1 / 2 ^ 53) := ⟨by norm_num, by norm_num, rnd_err⟩

/-- No rounding. -/
theorem id_rounds : Rounds id 0 := ⟨le_rfl, by norm_num, by simp⟩

theorem Rounds.nonpos {f : ℝ → ℝ} {u : ℝ} (h : Rounds f u) (x : ℝ) : f x ≤ 0 ↔ x ≤ 0 := by
  have he := abs_le.mp (h.err x)
  have := h.lt_one
  have := h.nonneg
  constructor
  · intro hx
    by_contra hx0
    rw [not_le] at hx0
    rw [abs_of_pos hx0] at he
    nlinarith
  · intro hx
    rw [abs_of_nonpos hx] at he
    nlinarith

/-- The times of steps of size `dt`. -/
def times (f : ℝ → ℝ) (dt : ℝ) : ℝ → ℕ → ℝ
  | t, 0 => t
  | t, k + 1 => times f dt (f (t + dt)) k

theorem times_succ (f : ℝ → ℝ) (dt t : ℝ) (k : ℕ) :
    times f dt t (k + 1) = f (times f dt t k + dt) := by
  induction k generalizing t with
  | zero => rfl
  | succ k ih => rw [times, ih, times]

end Verif.Fl
