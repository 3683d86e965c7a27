/-
Properties of whole runs: they are sequences of Runge-Kutta steps (C65) and converge with the order
of the scheme (C66).
-/
import Verif.Integrator.Trajectory
import Verif.Integrator.Steps
import Verif.Integrator.Examples
import Verif.Conv.Global
import Verif.Props.Shipped
import Verif.Props.Pyrevolve
import Mathlib.Analysis.SpecialFunctions.ExpDeriv
import Mathlib.Analysis.Calculus.Deriv.Prod

namespace Verif.Props

open Verif.RK Verif.RK.Spec Verif.Control Verif.XReal Verif.Integrator Verif.Tableau
open Classical

variable {D : Type} {s n m o l : ℕ} {B : Backend D (StartingValues ℝ n m) (Outputs n)}
  {E : Env s n m o l} {opt : Options}

/-! ### C65 -/

theorem replicate_solves {f : Rhs ℝ n m} {dt : ℝ} {N : ℕ}
    (hs : ∀ i, SolvesStage E.ode f dt (E.T.A i i)) :
    ∀ h ∈ List.replicate N dt, ∀ i, SolvesStage E.ode f h (E.T.A i i) := fun h hh => by
  rw [List.eq_of_mem_replicate hh]
  exact hs

theorem fixed_trajectory (C : RKCore B E) (hT : LowerTriangular E.T.A) {f : Rhs ℝ n m} {dt : ℝ}
    {N fuel : ℕ} {ch : Choice} (ha : opt.adaptive = false) (hc : opt.crit = .steps N)
    (hi : opt.initialStep = fin dt) (hs : ∀ i, SolvesStage E.ode f dt (E.T.A i i))
    {w w' : World D (ch.Data D)} {i : StartingValues ℝ n m} {v : Outputs n}
    (h : compute B opt (ch.ck B opt) fuel w i = (w', .ok v)) :
    IsTrajectory E.T.A E.T.b E.T.c f i.independentInputs i.initialTime i.initialValues
      (List.replicate N dt) v.time v.values :=
  steps_trajectory hT (fixed_steps C ha hc hi h) (replicate_solves hs)

/-- C65, plain schemes: `compute` with `N` steps of fixed size `dt` returns what `N` applications of
the Runge-Kutta formula with step size `dt` lead to, started with the initial values at the initial
time. The state the component was in before does not matter. -/
theorem C65_fixed_run (E : Env s n m o l) (hT : LowerTriangular E.T.A) {f : Rhs ℝ n m} {dt : ℝ}
    {N fuel : ℕ} {ch : Choice} (ha : opt.adaptive = false) (hc : opt.crit = .steps N)
    (hi : opt.initialStep = fin dt) (hs : ∀ i, SolvesStage E.ode f dt (E.T.A i i))
    {w w' : World (RKState ℝ s n m o l) (ch.Data (RKState ℝ s n m o l))}
    {i : StartingValues ℝ n m} {v : Outputs n}
    (h : compute (rkBackend E) opt (ch.ck (rkBackend E) opt) fuel w i = (w', .ok v)) :
    IsTrajectory E.T.A E.T.b E.T.c f i.independentInputs i.initialTime i.initialValues
      (List.replicate N dt) v.time v.values :=
  fixed_trajectory (rkCore E) hT ha hc hi hs h

/-- C65, embedded schemes with fixed step size: the embedded weights do not enter. -/
theorem C65_fixed_run_embedded (E : Env s n m o l) (bhat : Fin s → ℝ) (hT : LowerTriangular E.T.A)
    {f : Rhs ℝ n m} {dt : ℝ} {N fuel : ℕ} {ch : Choice} (ha : opt.adaptive = false)
    (hc : opt.crit = .steps N) (hi : opt.initialStep = fin dt)
    (hs : ∀ i, SolvesStage E.ode f dt (E.T.A i i))
    {w w' : World (EmbRKState ℝ s n m o l) (ch.Data (EmbRKState ℝ s n m o l))}
    {i : StartingValues ℝ n m} {v : Outputs n}
    (h : compute (embBackend E bhat) opt (ch.ck (embBackend E bhat) opt) fuel w i = (w', .ok v)) :
    IsTrajectory E.T.A E.T.b E.T.c f i.independentInputs i.initialTime i.initialValues
      (List.replicate N dt) v.time v.values :=
  fixed_trajectory (embCore E bhat) hT ha hc hi hs h

theorem fixed_final_trajectory (C : RKCore B E) (htm : ∀ d, B.time d = fin (C.core d).finalTime)
    (hT : LowerTriangular E.T.A) {f : Rhs ℝ n m} {T dt : ℝ} {fuel : ℕ} {ch : Choice} (hdt : 0 < dt)
    (ha : opt.adaptive = false) (hc : opt.crit = .finalTime T) (hi : opt.initialStep = fin dt)
    (hs : ∀ i, SolvesStage E.ode f dt (E.T.A i i))
    {w w' : World D (ch.Data D)} {i : StartingValues ℝ n m} {v : Outputs n}
    (h : compute B opt (ch.ck B opt) fuel w i = (w', .ok v)) :
    IsTrajectory E.T.A E.T.b E.T.c f i.independentInputs i.initialTime i.initialValues
      (List.replicate ⌈(T - i.initialTime) / dt⌉₊ dt) v.time v.values :=
  steps_trajectory hT (final_steps C htm hdt ha hc hi h) (replicate_solves hs)

/-- C65, plain schemes with fixed step size to a final time `T`: `⌈(T - t0) / dt⌉` applications of
the Runge-Kutta formula. -/
theorem C65_fixed_final_run (E : Env s n m o l) (hT : LowerTriangular E.T.A) {f : Rhs ℝ n m}
    {T dt : ℝ} {fuel : ℕ} {ch : Choice} (hdt : 0 < dt) (ha : opt.adaptive = false)
    (hc : opt.crit = .finalTime T) (hi : opt.initialStep = fin dt)
    (hs : ∀ i, SolvesStage E.ode f dt (E.T.A i i))
    {w w' : World (RKState ℝ s n m o l) (ch.Data (RKState ℝ s n m o l))}
    {i : StartingValues ℝ n m} {v : Outputs n}
    (h : compute (rkBackend E) opt (ch.ck (rkBackend E) opt) fuel w i = (w', .ok v)) :
    IsTrajectory E.T.A E.T.b E.T.c f i.independentInputs i.initialTime i.initialValues
      (List.replicate ⌈(T - i.initialTime) / dt⌉₊ dt) v.time v.values :=
  fixed_final_trajectory (rkCore E) (fun _ => rfl) hT hdt ha hc hi hs h

/-- C65, embedded schemes with fixed step size to a final time. -/
theorem C65_fixed_final_run_embedded (E : Env s n m o l) (bhat : Fin s → ℝ)
    (hT : LowerTriangular E.T.A) {f : Rhs ℝ n m}
    {T dt : ℝ} {fuel : ℕ} {ch : Choice} (hdt : 0 < dt) (ha : opt.adaptive = false)
    (hc : opt.crit = .finalTime T) (hi : opt.initialStep = fin dt)
    (hs : ∀ i, SolvesStage E.ode f dt (E.T.A i i))
    {w w' : World (EmbRKState ℝ s n m o l) (ch.Data (EmbRKState ℝ s n m o l))}
    {i : StartingValues ℝ n m} {v : Outputs n}
    (h : compute (embBackend E bhat) opt (ch.ck (embBackend E bhat) opt) fuel w i = (w', .ok v)) :
    IsTrajectory E.T.A E.T.b E.T.c f i.independentInputs i.initialTime i.initialValues
      (List.replicate ⌈(T - i.initialTime) / dt⌉₊ dt) v.time v.values :=
  fixed_final_trajectory (embCore E bhat) (fun _ => rfl) hT hdt ha hc hi hs h

theorem py_trajectory (C : RKCore B E) (hT : LowerTriangular E.T.A) {f : Rhs ℝ n m}
    {R : Restore D} (hR : ∀ a b, C.public (R a b) = C.public b) {dt : ℝ} {N fuel : ℕ}
    {sched : Schedule} {sl : ℕ → Option ℕ} {e : IState D}
    (hl : LegalF N sched.fwd 0 (fun _ => none) sl) (ha : opt.adaptive = false)
    (hi : opt.initialStep = fin dt) (hs : ∀ i, SolvesStage E.ode f dt (E.T.A i i))
    {w w' : World D (PyData D)} {i : StartingValues ℝ n m} {v : Outputs n}
    (h : compute B opt (pyCk B opt R e N sched) fuel w i = (w', .ok v)) :
    IsTrajectory E.T.A E.T.b E.T.c f i.independentInputs i.initialTime i.initialValues
      (List.replicate (N + 1) dt) v.time v.values :=
  steps_trajectory hT (py_steps C hR hl ha hi h) (replicate_solves hs)

/-- C65 with pyrevolve checkpointing (which only supports a number of steps, at least one), plain
schemes, for every legal schedule. -/
theorem C65_fixed_run_pyrevolve (E : Env s n m o l) (hT : LowerTriangular E.T.A) {f : Rhs ℝ n m}
    {dt : ℝ} {N fuel : ℕ} {sched : Schedule} {sl : ℕ → Option ℕ} {e : IState (RKState ℝ s n m o l)}
    (hl : LegalF N sched.fwd 0 (fun _ => none) sl) (ha : opt.adaptive = false)
    (hi : opt.initialStep = fin dt) (hs : ∀ i, SolvesStage E.ode f dt (E.T.A i i))
    {w w' : World (RKState ℝ s n m o l) (PyData (RKState ℝ s n m o l))}
    {i : StartingValues ℝ n m} {v : Outputs n}
    (h : compute (rkBackend E) opt (pyCk (rkBackend E) opt rkRestore e N sched) fuel w i
      = (w', .ok v)) :
    IsTrajectory E.T.A E.T.b E.T.c f i.independentInputs i.initialTime i.initialValues
      (List.replicate (N + 1) dt) v.time v.values :=
  py_trajectory (rkCore E) hT (R := rkRestore) (fun _ _ => rfl) hl ha hi hs h

/-- C65 with pyrevolve checkpointing, embedded schemes. -/
theorem C65_fixed_run_embedded_pyrevolve (E : Env s n m o l) (bhat : Fin s → ℝ)
    (hT : LowerTriangular E.T.A) {f : Rhs ℝ n m} {dt : ℝ} {N fuel : ℕ} {sched : Schedule}
    {sl : ℕ → Option ℕ} {e : IState (EmbRKState ℝ s n m o l)}
    (hl : LegalF N sched.fwd 0 (fun _ => none) sl) (ha : opt.adaptive = false)
    (hi : opt.initialStep = fin dt) (hs : ∀ i, SolvesStage E.ode f dt (E.T.A i i))
    {w w' : World (EmbRKState ℝ s n m o l) (PyData (EmbRKState ℝ s n m o l))}
    {i : StartingValues ℝ n m} {v : Outputs n}
    (h : compute (embBackend E bhat) opt (pyCk (embBackend E bhat) opt embRestore e N sched) fuel w i
      = (w', .ok v)) :
    IsTrajectory E.T.A E.T.b E.T.c f i.independentInputs i.initialTime i.initialValues
      (List.replicate (N + 1) dt) v.time v.values :=
  py_trajectory (embCore E bhat) hT (R := embRestore) (fun _ _ => rfl) hl ha hi hs h

theorem adaptive_trajectory (bhat : Fin s → ℝ) (hT : LowerTriangular E.T.A) {f : Rhs ℝ n m}
    {T lo u h0 : ℝ} {fuel : ℕ} {ch : Choice} (hlo0 : 0 ≤ lo) (hlu : lo ≤ u)
    (ha : opt.adaptive = true) (hc : opt.crit = .finalTime T) (hi : opt.initialStep = fin h0)
    (hh0 : 0 ≤ h0) (hh0u : h0 ≤ u)
    (hs : ∀ h, 0 ≤ h → h ≤ u → ∀ i, SolvesStage E.ode f h (E.T.A i i))
    {w w' : World (EmbRKState ℝ s n m o l) (ch.Data (EmbRKState ℝ s n m o l))}
    (hlo : w.ctrl.config.lower = fin lo) (hup : w.ctrl.config.upper = fin u)
    {i : StartingValues ℝ n m} (hstep : i.initialTime + h0 ≤ T) {v : Outputs n}
    (h : compute (embBackend E bhat) opt (ch.ck (embBackend E bhat) opt) fuel w i = (w', .ok v)) :
    v.time = T ∧ ∃ hs : List ℝ, (∀ h ∈ hs, 0 ≤ h ∧ h ≤ u) ∧
      IsTrajectory E.T.A E.T.b E.T.c f i.independentInputs i.initialTime i.initialValues
        hs v.time v.values := by
  have hT18 := (C18_never_past_final_time E bhat ha hc hi (ch := ch) fuel w hlo i
    (by linarith) hstep).2.2 v (by rw [h])
  obtain ⟨hr, k1, k2⟩ := adaptive_steps bhat hlo0 hlu ha hc hi hh0 hh0u hlo hup hstep h
  exact ⟨hT18, hr, k1, steps_trajectory hT k2 fun h hh => hs h (k1 h hh).1 (k1 h hh).2⟩

/-- C65, adaptive runs to a final time `T`: the result is that of Runge-Kutta steps (with the main
weights) from the initial time exactly to `T`, whose sizes are not negative and at most the upper
bound of the controller. The first step must not exceed the upper bound nor go past `T`. -/
theorem C65_adaptive_run (E : Env s n m o l) (bhat : Fin s → ℝ) (hT : LowerTriangular E.T.A)
    {f : Rhs ℝ n m} {T lo u h0 : ℝ} {fuel : ℕ} {ch : Choice} (hlo0 : 0 ≤ lo) (hlu : lo ≤ u)
    (ha : opt.adaptive = true) (hc : opt.crit = .finalTime T) (hi : opt.initialStep = fin h0)
    (hh0 : 0 ≤ h0) (hh0u : h0 ≤ u)
    (hs : ∀ h, 0 ≤ h → h ≤ u → ∀ i, SolvesStage E.ode f h (E.T.A i i))
    {w w' : World (EmbRKState ℝ s n m o l) (ch.Data (EmbRKState ℝ s n m o l))}
    (hlo : w.ctrl.config.lower = fin lo) (hup : w.ctrl.config.upper = fin u)
    {i : StartingValues ℝ n m} (hstep : i.initialTime + h0 ≤ T) {v : Outputs n}
    (h : compute (embBackend E bhat) opt (ch.ck (embBackend E bhat) opt) fuel w i = (w', .ok v)) :
    v.time = T ∧ ∃ hs : List ℝ, (∀ h ∈ hs, 0 ≤ h ∧ h ≤ u) ∧
      IsTrajectory E.T.A E.T.b E.T.c f i.independentInputs i.initialTime i.initialValues
        hs v.time v.values :=
  adaptive_trajectory bhat hT hlo0 hlu ha hc hi hh0 hh0u hs hlo hup hstep h

/-! ### C66 -/

/-- `y` solves `y' = f(t, y, p)` on `[t0, t1]`. -/
def IsSolution (f : Rhs ℝ n m) (p : Fin m → ℝ) (y : ℝ → Fin n → ℝ) (t0 t1 : ℝ) : Prop :=
  ∀ t ∈ Set.Icc t0 t1, HasDerivWithinAt y (f t (y t) p) (Set.Icc t0 t1) t

/-- `f` is `q` times continuously differentiable in time and state, and Lipschitz in the state. -/
def Regular (f : Rhs ℝ n m) (p : Fin m → ℝ) (q : ℕ) : Prop :=
  ContDiff ℝ q (fun z : ℝ × (Fin n → ℝ) => f z.1 z.2 p) ∧
    ∃ L, 0 ≤ L ∧ ∀ t u v, ‖f t u p - f t v p‖ ≤ L * ‖u - v‖

theorem steps_of_trajectory {A : Fin s → Fin s → ℝ} {b c : Fin s → ℝ} {f : Rhs ℝ n m}
    {p : Fin m → ℝ} {t t' : ℝ} {y y' : Fin n → ℝ} {hs : List ℝ}
    (h : IsTrajectory A b c f p t y hs t' y') :
    Conv.Steps A b c (fun t y => f t y p) t y hs t' y' := by
  induction h with
  | nil t y => exact .nil t y
  | @cons t y h y₁ hs t' y' hst hr ih =>
    obtain ⟨k, hk, hy⟩ := hst
    have e : y₁ = y + h • ∑ i, b i • k i := by
      funext x
      simp [hy x, Finset.sum_apply]
    rw [e] at ih
    refine .cons (k := k) (fun i => ?_) ih
    rw [hk i]
    congr 1
    funext x
    simp [Finset.sum_apply]

/-- The error of sequences of Runge-Kutta steps. -/
theorem trajectory_error {A : Fin s → Fin s → ℝ} {b c : Fin s → ℝ} {f : Rhs ℝ n m}
    {p : Fin m → ℝ} {q : ℕ} {y : ℝ → Fin n → ℝ} {t0 t1 : ℝ} (hf : Regular f p q)
    (hc : ∀ i, ∑ j, A i j = c i) (ho : OrderConditions A b q) (hy : IsSolution f p y t0 t1) :
    ∃ C δ : ℝ, 0 < C ∧ 0 < δ ∧ ∀ (H t' : ℝ) (u u' : Fin n → ℝ) (hs : List ℝ), 0 ≤ H → H < δ →
      (∀ h ∈ hs, 0 ≤ h ∧ h ≤ H) → IsTrajectory A b c f p t0 u hs t' u' → t' ≤ t1 →
      ‖u' - y t'‖ ≤ C * (‖u - y t0‖ + H ^ q) := by
  obtain ⟨h1, L, hL, h2⟩ := hf
  obtain ⟨C, δ, hC, hδ, hE⟩ := Conv.convergence (A := A) (b := b) (c := c)
    (f := fun t y => f t y p) h1 hL h2 hc ho hy
  exact ⟨C, δ, hC, hδ, fun H t' u u' hs h3 h4 h5 h6 h7 =>
    hE H t' u u' hs h4 h5 (steps_of_trajectory h6) h7 h3⟩

/-- C66, fixed steps: the scheme is of order `q` (order conditions of all rooted trees), its nodes
are the row sums, the right-hand side is regular and the stage problems are solved for step sizes up
to `h1`. Then there are a constant `C` and a bound `δ`, such that any successful run over `N` steps
of size `dt < δ` that stays in the interval of the exact solution `y` returns
values with an error of at most `C (error of the initial values + dt^q)`. -/
theorem C66_fixed_steps (E : Env s n m o l) (hT : LowerTriangular E.T.A) {f : Rhs ℝ n m}
    {p : Fin m → ℝ} {q : ℕ} {y : ℝ → Fin n → ℝ} {t0 t1 h1 : ℝ} (hf : Regular f p q)
    (hc : ∀ i, ∑ j, E.T.A i j = E.T.c i) (ho : OrderConditions E.T.A E.T.b q)
    (hy : IsSolution f p y t0 t1) (hh1 : 0 < h1)
    (hs : ∀ h, 0 ≤ h → h ≤ h1 → ∀ i, SolvesStage E.ode f h (E.T.A i i)) :
    ∃ C δ : ℝ, 0 < C ∧ 0 < δ ∧
      ∀ (opt : Options) (dt : ℝ) (N fuel : ℕ) (ch : Choice)
        (w w' : World (RKState ℝ s n m o l) (ch.Data (RKState ℝ s n m o l)))
        (i : StartingValues ℝ n m) (v : Outputs n),
        opt.adaptive = false → opt.crit = .steps N → opt.initialStep = fin dt →
        0 ≤ dt → dt < δ → i.initialTime = t0 → i.independentInputs = p → t0 + N * dt ≤ t1 →
        compute (rkBackend E) opt (ch.ck (rkBackend E) opt) fuel w i = (w', .ok v) →
        v.time = t0 + N * dt ∧ ‖v.values - y v.time‖ ≤ C * (‖i.initialValues - y t0‖ + dt ^ q) := by
  obtain ⟨C, δ, hC, hδ, hE⟩ := trajectory_error hf hc ho hy
  refine ⟨C, min δ h1, hC, lt_min hδ hh1, ?_⟩
  intro opt dt N fuel ch w w' i v ha hcr hi hdt hlt hti hpi ht1 h
  have htr := C65_fixed_run E hT (f := f) ha hcr hi
    (hs dt hdt (hlt.trans_le (min_le_right _ _)).le) h
  rw [hti, hpi] at htr
  have htime := htr.time
  rw [List.sum_replicate, nsmul_eq_mul] at htime
  refine ⟨htime, hE dt v.time _ _ _ hdt (hlt.trans_le (min_le_left _ _)) (fun h hh => ?_) htr
    (by rw [htime]; exact ht1)⟩
  rw [List.eq_of_mem_replicate hh]
  exact ⟨hdt, le_rfl⟩

/-- C66, fixed steps to a final time `T`: the run ends less than one step after `T`, with an error of
order `q` at the time it returns. The exact solution has to exist up to there. -/
theorem C66_fixed_final_time (E : Env s n m o l) (hT : LowerTriangular E.T.A) {f : Rhs ℝ n m}
    {p : Fin m → ℝ} {q : ℕ} {y : ℝ → Fin n → ℝ} {t0 t1 h1 : ℝ} (hf : Regular f p q)
    (hc : ∀ i, ∑ j, E.T.A i j = E.T.c i) (ho : OrderConditions E.T.A E.T.b q)
    (hy : IsSolution f p y t0 t1) (hh1 : 0 < h1)
    (hs : ∀ h, 0 ≤ h → h ≤ h1 → ∀ i, SolvesStage E.ode f h (E.T.A i i)) :
    ∃ C δ : ℝ, 0 < C ∧ 0 < δ ∧
      ∀ (opt : Options) (T dt : ℝ) (fuel : ℕ) (ch : Choice)
        (w w' : World (RKState ℝ s n m o l) (ch.Data (RKState ℝ s n m o l)))
        (i : StartingValues ℝ n m) (v : Outputs n),
        opt.adaptive = false → opt.crit = .finalTime T → opt.initialStep = fin dt →
        0 < dt → dt < δ → i.initialTime = t0 → i.independentInputs = p → t0 < T → T + dt ≤ t1 →
        compute (rkBackend E) opt (ch.ck (rkBackend E) opt) fuel w i = (w', .ok v) →
        T ≤ v.time ∧ v.time < T + dt ∧
          ‖v.values - y v.time‖ ≤ C * (‖i.initialValues - y t0‖ + dt ^ q) := by
  obtain ⟨C, δ, hC, hδ, hE⟩ := trajectory_error hf hc ho hy
  refine ⟨C, min δ h1, hC, lt_min hδ hh1, ?_⟩
  intro opt T dt fuel ch w w' i v ha hcr hi hdt hlt hti hpi h0 ht1 h
  have htr := C65_fixed_final_run E hT (f := f) hdt ha hcr hi
    (hs dt hdt.le (hlt.trans_le (min_le_right _ _)).le) h
  obtain ⟨-, -, k1, k2, -⟩ := C17_fixed_steps_final_time E hdt ha hcr hi h
  have k2 := k2 (by rw [hti]; exact h0)
  rw [hti, hpi] at htr
  refine ⟨k1, k2, hE dt v.time _ _ _ hdt.le (hlt.trans_le (min_le_left _ _)) (fun h hh => ?_) htr
    (by linarith)⟩
  rw [List.eq_of_mem_replicate hh]
  exact ⟨hdt.le, le_rfl⟩

/-- C66 for adaptive runs of embedded schemes to a final time `T`: whatever is measured and whatever
the chain of controllers does, a successful run ends at `T` with an error of at most
`C (error of the initial values + u^q)`, where `u` is the upper bound of the step sizes. The main
weights are of order `q`. -/
theorem C66_adaptive (E : Env s n m o l) (bhat : Fin s → ℝ) (hT : LowerTriangular E.T.A)
    {f : Rhs ℝ n m} {p : Fin m → ℝ} {q : ℕ} {y : ℝ → Fin n → ℝ} {t0 t1 h1 : ℝ}
    (hf : Regular f p q) (hc : ∀ i, ∑ j, E.T.A i j = E.T.c i) (ho : OrderConditions E.T.A E.T.b q)
    (hy : IsSolution f p y t0 t1) (hh1 : 0 < h1)
    (hs : ∀ h, 0 ≤ h → h ≤ h1 → ∀ i, SolvesStage E.ode f h (E.T.A i i)) :
    ∃ C δ : ℝ, 0 < C ∧ 0 < δ ∧
      ∀ (opt : Options) (T lo u h0 : ℝ) (fuel : ℕ) (ch : Choice)
        (w w' : World (EmbRKState ℝ s n m o l) (ch.Data (EmbRKState ℝ s n m o l)))
        (i : StartingValues ℝ n m) (v : Outputs n),
        opt.adaptive = true → opt.crit = .finalTime T → opt.initialStep = fin h0 →
        w.ctrl.config.lower = fin lo → w.ctrl.config.upper = fin u → 0 ≤ lo → lo ≤ u → u < δ →
        0 ≤ h0 → h0 ≤ u → t0 + h0 ≤ T → T ≤ t1 →
        i.initialTime = t0 → i.independentInputs = p →
        compute (embBackend E bhat) opt (ch.ck (embBackend E bhat) opt) fuel w i = (w', .ok v) →
        v.time = T ∧ ‖v.values - y T‖ ≤ C * (‖i.initialValues - y t0‖ + u ^ q) := by
  obtain ⟨C, δ, hC, hδ, hE⟩ := trajectory_error hf hc ho hy
  refine ⟨C, min δ h1, hC, lt_min hδ hh1, ?_⟩
  intro opt T lo u h0 fuel ch w w' i v ha hcr hi hlo hup hlo0 hlu hlt hh0 hh0u hst hT1 hti hpi h
  obtain ⟨e1, hr, e2, e3⟩ := C65_adaptive_run E bhat hT (f := f) hlo0 hlu ha hcr hi hh0 hh0u
    (fun h g1 g2 => hs h g1 (g2.trans (hlt.trans_le (min_le_right _ _)).le)) hlo hup
    (by rw [hti]; exact hst) h
  rw [hti, hpi] at e3
  have := hE u v.time _ _ _ (hh0.trans hh0u) (hlt.trans_le (min_le_left _ _)) e2 e3
    (by rw [e1]; exact hT1)
  rw [e1] at this
  exact ⟨e1, this⟩

/-! ### Concrete cases -/

namespace ConvEx

/-- The classical Runge-Kutta scheme for `y' = -y + p + t`. -/
noncomputable def env4 : Env (rungeKuttaFour.map (Rat.castHom ℝ)).stages 1 1 0 0 where
  T := (rungeKuttaFour.map (Rat.castHom ℝ)).coeffs
  ode := RK.Ex.linOde
  fails := fun _ _ => none
  nonfinite := fun _ _ => .error .backend
  measure := fun e _ => fin |e 0|

/-- The exact solution for `p = 5` with the value 10 at time 2. -/
noncomputable def sol (t : ℝ) : Fin 1 → ℝ := fun _ => 4 + t + 4 * Real.exp (2 - t)

theorem regular (q : ℕ) : Regular (RK.Ex.linRhs (K := ℝ)) (fun _ => 5) q := by
  refine ⟨?_, 1, zero_le_one, fun t u v => ?_⟩
  · unfold RK.Ex.linRhs
    fun_prop
  · rw [one_mul, ← norm_neg]
    refine le_of_eq (congrArg _ ?_)
    funext x
    simp [RK.Ex.linRhs]

theorem sol_solves : IsSolution (RK.Ex.linRhs (K := ℝ)) (fun _ => 5) sol 2 20 := by
  intro t _
  rw [hasDerivWithinAt_pi]
  intro x
  have h1 : HasDerivAt (fun t : ℝ => 4 + t + 4 * Real.exp (2 - t))
      (1 + 4 * (Real.exp (2 - t) * (-1))) t :=
    ((hasDerivAt_id t).const_add 4).add
      (((hasDerivAt_id t).const_sub 2).exp.const_mul 4)
  refine (h1.congr_deriv ?_).hasDerivWithinAt
  simp only [RK.Ex.linRhs, sol]
  ring

theorem solves (h a : ℝ) (h0 : 0 ≤ h) (ha : 0 ≤ a) :
    SolvesStage (RK.Ex.linOde (K := ℝ)) RK.Ex.linRhs h a :=
  RK.Ex.linOde_solves h a (by have := mul_nonneg h0 ha; linarith)

theorem env4_diag (i) : env4.T.A i i = 0 := by
  change ((rungeKuttaFour.A i i : ℚ) : ℝ) = 0
  have h : ∀ i, rungeKuttaFour.A i i = 0 := by decide +kernel
  exact (congrArg (Rat.cast (K := ℝ)) (h i)).trans Rat.cast_zero

/-- The trajectory of three steps of explicit Euler. -/
example (ch : Choice) : ∃ w' v, compute (rkBackend Integrator.Ex.env) Integrator.Ex.opt3
      (ch.ck (rkBackend Integrator.Ex.env) Integrator.Ex.opt3) 4
      (Integrator.Ex.fresh Integrator.Ex.opt3 ch) Integrator.Ex.inp = (w', .ok v) ∧
      IsTrajectory Integrator.Ex.euler.A Integrator.Ex.euler.b Integrator.Ex.euler.c
        RK.Ex.linRhs (fun _ => 5) 2 (fun _ => 1) [1 / 2, 1 / 2, 1 / 2] v.time v.values := by
  obtain ⟨w', v, h⟩ := Integrator.Ex.fresh_compute_ok ch 4 (by norm_num)
    (Integrator.Ex.fresh Integrator.Ex.opt3 ch) Integrator.Ex.inp
  exact ⟨w', v, h, C65_fixed_run Integrator.Ex.env (fun i j _ => rfl) (N := 3) (dt := 1 / 2)
    rfl rfl rfl (fun i => solves _ _ (by norm_num) le_rfl) h⟩

end ConvEx

end Verif.Props
