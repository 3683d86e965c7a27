/-
C66 for all shipped tableaux: those in closed form converge with the order they report, those with
rounded coefficients up to their accuracy.
-/
import Verif.Conv.Rounded
import Verif.Props.Convergence
import Verif.Props.Runs

namespace Verif.Props

open Verif.RK Verif.RK.Spec Verif.Control Verif.XReal Verif.Integrator Verif.Tableau
open Classical

variable {D : Type} {s n m o l : ℕ} {B : Backend D (StartingValues ℝ n m) (Outputs n)}
  {E : Env s n m o l} {opt : Options}

/-! ### The runs of the claim

`err e0 h` is the bound of the error for initial values with error `e0 ≤ r` and steps of size `h`. -/

/-- Runs over `N` fixed steps of size `dt < δ`, started at `t0` with parameters `p`, that stay in the
interval of the solution `y`. -/
def StepsWithin (B : Backend D (StartingValues ℝ n m) (Outputs n)) (p : Fin m → ℝ)
    (y : ℝ → Fin n → ℝ) (t0 t1 δ r : ℝ) (err : ℝ → ℝ → ℝ) : Prop :=
  ∀ (opt : Options) (dt : ℝ) (N fuel : ℕ) (ch : Choice) (w w' : World D (ch.Data D))
    (i : StartingValues ℝ n m) (v : Outputs n),
    opt.adaptive = false → opt.crit = .steps N → opt.initialStep = fin dt →
    0 ≤ dt → dt < δ → i.initialTime = t0 → i.independentInputs = p →
    ‖i.initialValues - y t0‖ ≤ r → t0 + N * dt ≤ t1 →
    compute B opt (ch.ck B opt) fuel w i = (w', .ok v) →
    v.time = t0 + N * dt ∧ ‖v.values - y v.time‖ ≤ err ‖i.initialValues - y t0‖ dt

/-- Runs with fixed steps to a final time `T`. -/
def FinalTimeWithin (B : Backend D (StartingValues ℝ n m) (Outputs n)) (p : Fin m → ℝ)
    (y : ℝ → Fin n → ℝ) (t0 t1 δ r : ℝ) (err : ℝ → ℝ → ℝ) : Prop :=
  ∀ (opt : Options) (T dt : ℝ) (fuel : ℕ) (ch : Choice) (w w' : World D (ch.Data D))
    (i : StartingValues ℝ n m) (v : Outputs n),
    opt.adaptive = false → opt.crit = .finalTime T → opt.initialStep = fin dt →
    0 < dt → dt < δ → i.initialTime = t0 → i.independentInputs = p →
    ‖i.initialValues - y t0‖ ≤ r → t0 < T → T + dt ≤ t1 →
    compute B opt (ch.ck B opt) fuel w i = (w', .ok v) →
    T ≤ v.time ∧ v.time < T + dt ∧
      ‖v.values - y v.time‖ ≤ err ‖i.initialValues - y t0‖ dt

/-- Runs over `N + 1` fixed steps with pyrevolve, for every legal schedule. -/
def PyrevolveWithin (B : Backend D (StartingValues ℝ n m) (Outputs n)) (R : Restore D)
    (p : Fin m → ℝ) (y : ℝ → Fin n → ℝ) (t0 t1 δ r : ℝ) (err : ℝ → ℝ → ℝ) : Prop :=
  ∀ (opt : Options) (dt : ℝ) (N fuel : ℕ) (sched : Schedule) (sl : ℕ → Option ℕ) (e : IState D)
    (w w' : World D (PyData D)) (i : StartingValues ℝ n m) (v : Outputs n),
    LegalF N sched.fwd 0 (fun _ => none) sl →
    opt.adaptive = false → opt.initialStep = fin dt →
    0 ≤ dt → dt < δ → i.initialTime = t0 → i.independentInputs = p →
    ‖i.initialValues - y t0‖ ≤ r →
    t0 + (N + 1 : ℕ) * dt ≤ t1 →
    compute B opt (pyCk B opt R e N sched) fuel w i = (w', .ok v) →
    v.time = t0 + (N + 1 : ℕ) * dt ∧ ‖v.values - y v.time‖ ≤ err ‖i.initialValues - y t0‖ dt

/-- Adaptive runs of embedded schemes to a final time `T`, with any controllers; `u` is the upper
bound of the step sizes. -/
def AdaptiveWithin (E : Env s n m o l) (bhat : Fin s → ℝ) (p : Fin m → ℝ)
    (y : ℝ → Fin n → ℝ) (t0 t1 δ r : ℝ) (err : ℝ → ℝ → ℝ) : Prop :=
  ∀ (opt : Options) (T lo u h0 : ℝ) (fuel : ℕ) (ch : Choice)
    (w w' : World (EmbRKState ℝ s n m o l) (ch.Data (EmbRKState ℝ s n m o l)))
    (i : StartingValues ℝ n m) (v : Outputs n),
    opt.adaptive = true → opt.crit = .finalTime T → opt.initialStep = fin h0 →
    w.ctrl.config.lower = fin lo → w.ctrl.config.upper = fin u → 0 ≤ lo → lo ≤ u → u < δ →
    0 ≤ h0 → h0 ≤ u → t0 + h0 ≤ T → T ≤ t1 →
    i.initialTime = t0 → i.independentInputs = p → ‖i.initialValues - y t0‖ ≤ r →
    compute (embBackend E bhat) opt (ch.ck (embBackend E bhat) opt) fuel w i = (w', .ok v) →
    v.time = T ∧ ‖v.values - y T‖ ≤ err ‖i.initialValues - y t0‖ u

/-- The weights are bounded by `β`; nodes and order conditions up to `q` hold with accuracy `ε`. -/
structure Accurate (T : Coeffs ℝ s) (β ε : ℝ) (q : ℕ) : Prop where
  lower : LowerTriangular T.A
  nonneg : 0 ≤ ε
  weights : ∑ i, |T.b i| ≤ β
  rows : ∀ i, |(∑ j, T.A i j) - T.c i| ≤ ε
  order : OrderConditionsWithin ε T.A T.b q

/-- The error of sequences of Runge-Kutta steps, with coefficients of accuracy `ε`. -/
theorem trajectory_error_within {f : Rhs ℝ n m} {p : Fin m → ℝ} {q : ℕ} {y : ℝ → Fin n → ℝ}
    {t0 t1 : ℝ} (hq : 1 ≤ q) (hf : Regular f p q) (hy : IsSolution f p y t0 t1) (β : ℝ) :
    ∃ K : ℝ, 0 < K ∧ ∀ (s : ℕ) (T : Coeffs ℝ s) (ε : ℝ), Accurate T β ε q →
      ∃ C δ : ℝ, 0 < C ∧ 0 < δ ∧ ∀ (H t' : ℝ) (u u' : Fin n → ℝ) (hs : List ℝ), 0 ≤ H → H < δ →
        (∀ h ∈ hs, 0 ≤ h ∧ h ≤ H) → IsTrajectory T.A T.b T.c f p t0 u hs t' u' → t' ≤ t1 →
        ‖u' - y t'‖ ≤ K * (‖u - y t0‖ + ε) + C * H ^ q := by
  obtain ⟨h1, L, hL, h2⟩ := hf
  obtain ⟨K, hK, hE⟩ := Conv.convergence_within (f := fun t y => f t y p) hq h1 hL h2 hy β
  refine ⟨K, hK, fun s T ε hA => ?_⟩
  obtain ⟨C, δ, hC, hδ, hE⟩ := hE s T.A T.b T.c ε hA.nonneg hA.weights hA.rows hA.order
  exact ⟨C, δ, hC, hδ, fun H t' u u' hs h3 h4 h5 h6 h7 =>
    hE H t' u u' hs h4 h5 (steps_of_trajectory h6) h7 h3⟩

section
variable {f : Rhs ℝ n m} {p : Fin m → ℝ} {y : ℝ → Fin n → ℝ} {t0 t1 δ h1 r : ℝ} {err : ℝ → ℝ → ℝ}

theorem replicate_bounds {N : ℕ} {dt : ℝ} (h0 : 0 ≤ dt) :
    ∀ h ∈ List.replicate N dt, 0 ≤ h ∧ h ≤ dt := fun h hh => by
  rw [List.eq_of_mem_replicate hh]
  exact ⟨h0, le_rfl⟩

/-- Bounds of the error of sequences of steps are bounds for the runs. -/
theorem runs_of_steps (C : RKCore B E) (htm : ∀ d, B.time d = fin (C.core d).finalTime)
    {R : Restore D} (hR : ∀ a b, C.public (R a b) = C.public b)
    (hE : ∀ (H t' : ℝ) (u u' : Fin n → ℝ) (hs : List ℝ), 0 ≤ H → H < δ →
        (∀ h ∈ hs, 0 ≤ h ∧ h ≤ H) → IsSteps (StepOf E p) t0 u hs t' u' → t' ≤ t1 →
        ‖u - y t0‖ ≤ r → ‖u' - y t'‖ ≤ err ‖u - y t0‖ H) :
    StepsWithin B p y t0 t1 δ r err ∧ FinalTimeWithin B p y t0 t1 δ r err ∧
      PyrevolveWithin B R p y t0 t1 δ r err := by
  refine ⟨?_, ?_, ?_⟩
  · intro opt dt N fuel ch w w' i v ha hcr hi hdt hlt hti hpi hr ht1 h
    have htr := fixed_steps C ha hcr hi h
    rw [hti, hpi] at htr
    have htime := htr.time
    rw [List.sum_replicate, nsmul_eq_mul] at htime
    exact ⟨htime, hE dt v.time _ _ _ hdt hlt (replicate_bounds hdt)
      htr (by rw [htime]; exact ht1) hr⟩
  · intro opt T dt fuel ch w w' i v ha hcr hi hdt hlt hti hpi hr h0 ht1 h
    have htr := final_steps C htm hdt ha hcr hi h
    obtain ⟨-, -, k1, k2, -⟩ := final_fixed C htm hdt ha hcr hi h
    have k2 := k2 (by rw [hti]; exact h0)
    rw [hti, hpi] at htr
    exact ⟨k1, k2, hE dt v.time _ _ _ hdt.le hlt
      (replicate_bounds hdt.le) htr (by linarith) hr⟩
  · intro opt dt N fuel sched sl e w w' i v hl ha hi hdt hlt hti hpi hr ht1 h
    have htr := py_steps C (R := R) hR hl ha hi h
    rw [hti, hpi] at htr
    have htime := htr.time
    rw [List.sum_replicate, nsmul_eq_mul] at htime
    exact ⟨htime, hE dt v.time _ _ _ hdt hlt (replicate_bounds hdt)
      htr (by rw [htime]; exact ht1) hr⟩

theorem adaptive_of_steps (bhat : Fin s → ℝ)
    (hE : ∀ (H t' : ℝ) (u u' : Fin n → ℝ) (hs : List ℝ), 0 ≤ H → H < δ →
        (∀ h ∈ hs, 0 ≤ h ∧ h ≤ H) → IsSteps (StepOf E p) t0 u hs t' u' → t' ≤ t1 →
        ‖u - y t0‖ ≤ r → ‖u' - y t'‖ ≤ err ‖u - y t0‖ H) :
    AdaptiveWithin E bhat p y t0 t1 δ r err := by
  intro opt T lo u h0 fuel ch w w' i v ha hcr hi hlo hup hlo0 hlu hlt hh0 hh0u hst hT1 hti hpi hr h
  have e1 := (C18_never_past_final_time E bhat ha hcr hi (ch := ch) fuel w hlo i
    (by linarith) (by rw [hti]; exact hst)).2.2 v (by rw [h])
  obtain ⟨hs, e2, e3⟩ := adaptive_steps bhat hlo0 hlu ha hcr hi hh0 hh0u hlo hup
    (by rw [hti]; exact hst) h
  rw [hti, hpi] at e3
  have := hE u v.time _ _ _ (hh0.trans hh0u) hlt e2 e3 (by rw [e1]; exact hT1) hr
  rw [e1] at this
  exact ⟨e1, this⟩

/-- Bounds of the error of trajectories are bounds for sequences of steps that solve the stage
equations. -/
theorem steps_within (hT : LowerTriangular E.T.A)
    (hs : ∀ h, 0 ≤ h → h ≤ h1 → ∀ i, SolvesStage E.ode f h (E.T.A i i))
    (hE : ∀ (H t' : ℝ) (u u' : Fin n → ℝ) (hs : List ℝ), 0 ≤ H → H < δ →
        (∀ h ∈ hs, 0 ≤ h ∧ h ≤ H) → IsTrajectory E.T.A E.T.b E.T.c f p t0 u hs t' u' → t' ≤ t1 →
        ‖u' - y t'‖ ≤ err ‖u - y t0‖ H) :
    ∀ (H t' : ℝ) (u u' : Fin n → ℝ) (hs : List ℝ), 0 ≤ H → H < min δ h1 →
        (∀ h ∈ hs, 0 ≤ h ∧ h ≤ H) → IsSteps (StepOf E p) t0 u hs t' u' → t' ≤ t1 →
        ‖u - y t0‖ ≤ r → ‖u' - y t'‖ ≤ err ‖u - y t0‖ H := fun H t' u u' hl h0 hH hb hst ht' _ =>
  hE H t' u u' hl h0 (hH.trans_le (min_le_left _ _)) hb (steps_trajectory hT hst fun h hh =>
    hs h (hb h hh).1 ((hb h hh).2.trans (hH.trans_le (min_le_right _ _)).le)) ht'

end

section
variable {f : Rhs ℝ n m} {p : Fin m → ℝ} {q : ℕ} {y : ℝ → Fin n → ℝ} {t0 t1 : ℝ}

/-- C66, plain schemes with fixed steps, any tableau that is not fully implicit: for a regular
problem there is a constant `K`, depending on the problem and a bound `β` of the weights only, and
for each tableau with nodes and order conditions of accuracy `ε` there are constants `C` and `δ`,
such that runs with steps smaller than `δ` have an error of at most
`K (error of the initial values + ε) + C dt^q`. -/
theorem C66_fixed (hq : 1 ≤ q) (hf : Regular f p q) (hy : IsSolution f p y t0 t1) (β : ℝ) :
    ∃ K : ℝ, 0 < K ∧ ∀ (s o l : ℕ) (E : Env s n m o l) (ε h1 : ℝ), Accurate E.T β ε q → 0 < h1 →
      (∀ h, 0 ≤ h → h ≤ h1 → ∀ i, SolvesStage E.ode f h (E.T.A i i)) →
      ∃ C δ : ℝ, 0 < C ∧ 0 < δ ∧ ∀ r : ℝ,
        StepsWithin (rkBackend E) p y t0 t1 δ r (fun e0 h => K * (e0 + ε) + C * h ^ q) ∧
        FinalTimeWithin (rkBackend E) p y t0 t1 δ r (fun e0 h => K * (e0 + ε) + C * h ^ q) ∧
        PyrevolveWithin (rkBackend E) rkRestore p y t0 t1 δ r
          (fun e0 h => K * (e0 + ε) + C * h ^ q) := by
  obtain ⟨K, hK, hE⟩ := trajectory_error_within hq hf hy β
  refine ⟨K, hK, fun s o l E ε h1 hA hh1 hs => ?_⟩
  obtain ⟨C, δ, hC, hδ, hE⟩ := hE s E.T ε hA
  exact ⟨C, min δ h1, hC, lt_min hδ hh1, fun r => runs_of_steps (rkCore E) (fun _ => rfl)
    (R := rkRestore) (err := fun e0 h => K * (e0 + ε) + C * h ^ q) (fun _ _ => rfl)
    (steps_within (err := fun e0 h => K * (e0 + ε) + C * h ^ q) hA.lower hs hE)⟩

/-- C66, embedded schemes with fixed or adaptive steps. -/
theorem C66_embedded (hq : 1 ≤ q) (hf : Regular f p q) (hy : IsSolution f p y t0 t1) (β : ℝ) :
    ∃ K : ℝ, 0 < K ∧ ∀ (s o l : ℕ) (E : Env s n m o l) (bhat : Fin s → ℝ) (ε h1 : ℝ),
      Accurate E.T β ε q → 0 < h1 →
      (∀ h, 0 ≤ h → h ≤ h1 → ∀ i, SolvesStage E.ode f h (E.T.A i i)) →
      ∃ C δ : ℝ, 0 < C ∧ 0 < δ ∧ ∀ r : ℝ,
        StepsWithin (embBackend E bhat) p y t0 t1 δ r (fun e0 h => K * (e0 + ε) + C * h ^ q) ∧
        FinalTimeWithin (embBackend E bhat) p y t0 t1 δ r (fun e0 h => K * (e0 + ε) + C * h ^ q) ∧
        PyrevolveWithin (embBackend E bhat) embRestore p y t0 t1 δ r
          (fun e0 h => K * (e0 + ε) + C * h ^ q) ∧
        AdaptiveWithin E bhat p y t0 t1 δ r (fun e0 h => K * (e0 + ε) + C * h ^ q) := by
  obtain ⟨K, hK, hE⟩ := trajectory_error_within hq hf hy β
  refine ⟨K, hK, fun s o l E bhat ε h1 hA hh1 hs => ?_⟩
  obtain ⟨C, δ, hC, hδ, hE⟩ := hE s E.T ε hA
  refine ⟨C, min δ h1, hC, lt_min hδ hh1, fun r => ?_⟩
  have hst := steps_within (r := r) (y := y) (err := fun e0 h => K * (e0 + ε) + C * h ^ q) hA.lower
    hs hE
  obtain ⟨g1, g2, g3⟩ := runs_of_steps (embCore E bhat) (fun _ => rfl) (R := embRestore)
    (err := fun e0 h => K * (e0 + ε) + C * h ^ q) (fun _ _ => rfl) hst
  exact ⟨g1, g2, g3, adaptive_of_steps bhat hst⟩

/-- C66 for the plain shipped tableaux, with the order they report: the error is at most
`K (error of the initial values + accuracy) + C dt^q`. The accuracy is zero for the tableaux in
closed form and at most `2e-11` for the others (C05). `K` is the same for all tableaux. -/
theorem C66_shipped (hq : 1 ≤ q) (hf : Regular f p q) (hy : IsSolution f p y t0 t1) (β : ℝ) :
    ∃ K : ℝ, 0 < K ∧ ∀ e ∈ plainShipped, e.tab.p = some q → ∑ i, |e.tab.b i| ≤ β →
      ∀ (o l : ℕ) (E : Env e.tab.stages n m o l) (h1 : ℝ), E.T = e.tab.coeffs → 0 < h1 →
      (∀ h, 0 ≤ h → h ≤ h1 → ∀ i, SolvesStage E.ode f h (E.T.A i i)) →
      ∃ C δ : ℝ, 0 < C ∧ 0 < δ ∧ ∀ r : ℝ,
        StepsWithin (rkBackend E) p y t0 t1 δ r (fun e0 h => K * (e0 + e.tol) + C * h ^ q) ∧
        FinalTimeWithin (rkBackend E) p y t0 t1 δ r (fun e0 h => K * (e0 + e.tol) + C * h ^ q) ∧
        PyrevolveWithin (rkBackend E) rkRestore p y t0 t1 δ r
          (fun e0 h => K * (e0 + e.tol) + C * h ^ q) := by
  obtain ⟨K, hK, hE⟩ := C66_fixed hq hf hy β
  refine ⟨K, hK, fun e he hp hb o l E h1 hT hh1 hs => hE _ o l E e.tol h1 ?_ hh1 hs⟩
  obtain ⟨q', g1, g2, g3, g4, g5⟩ := C05_plain_tableaux e he
  obtain rfl : q = q' := Option.some.inj (hp.symm.trans g1)
  rw [hT]
  exact ⟨g4, (abs_nonneg _).trans g2, hb, g3, g5⟩

/-- C66 for the shipped embedded tableaux, fixed and adaptive steps. -/
theorem C66_shipped_embedded (hq : 1 ≤ q) (hf : Regular f p q) (hy : IsSolution f p y t0 t1)
    (β : ℝ) :
    ∃ K : ℝ, 0 < K ∧ ∀ e ∈ embShipped, e.tab.p = some q → ∑ i, |e.tab.b i| ≤ β →
      ∀ (o l : ℕ) (E : Env e.tab.stages n m o l) (h1 : ℝ), E.T = e.tab.coeffs → 0 < h1 →
      (∀ h, 0 ≤ h → h ≤ h1 → ∀ i, SolvesStage E.ode f h (E.T.A i i)) →
      ∃ C δ : ℝ, 0 < C ∧ 0 < δ ∧ ∀ r : ℝ,
        StepsWithin (embBackend E e.tab.bhat) p y t0 t1 δ r
          (fun e0 h => K * (e0 + e.tol) + C * h ^ q) ∧
        FinalTimeWithin (embBackend E e.tab.bhat) p y t0 t1 δ r
          (fun e0 h => K * (e0 + e.tol) + C * h ^ q) ∧
        PyrevolveWithin (embBackend E e.tab.bhat) embRestore p y t0 t1 δ r
          (fun e0 h => K * (e0 + e.tol) + C * h ^ q) ∧
        AdaptiveWithin E e.tab.bhat p y t0 t1 δ r (fun e0 h => K * (e0 + e.tol) + C * h ^ q) := by
  obtain ⟨K, hK, hE⟩ := C66_embedded hq hf hy β
  refine ⟨K, hK, fun e he hp hb o l E h1 hT hh1 hs => hE _ o l E e.tab.bhat e.tol h1 ?_ hh1 hs⟩
  obtain ⟨q', r, g1, -, g2, -, g3, g4, g5, -⟩ := C05_embedded_tableaux e he
  obtain rfl : q = q' := Option.some.inj (hp.symm.trans g1)
  rw [hT]
  exact ⟨g4, (abs_nonneg _).trans g2, hb, g3, g5⟩

end

/-! ### The accuracy cannot be dropped -/

namespace RoundedEx

/-- The right-hand side 1 with the fifth order scheme, whose coefficients are rounded. -/
noncomputable def env1 : Env (fifthOrderFiveStageSdirk.map (Rat.castHom ℝ)).stages 1 1 0 0 where
  T := (fifthOrderFiveStageSdirk.map (Rat.castHom ℝ)).coeffs
  ode :=
    { computeUpdate := fun _ _ _ => (⟨fun _ => 1, 0, 0⟩, 0)
      computeUpdateDerivative := fun _ _ _ _ => ⟨0, 0, 0⟩
      computeUpdateAdjoint := fun _ _ _ _ => ⟨0, 0, 0, 0⟩ }
  fails := fun _ _ => none
  nonfinite := fun _ _ => .error .backend
  measure := fun e _ => fin |e 0|

def one : Rhs ℝ 1 1 := fun _ _ _ _ => 1

theorem one_trajectory {s : ℕ} {A : Fin s → Fin s → ℝ} {b c : Fin s → ℝ} {p : Fin 1 → ℝ}
    {t t' : ℝ} {y y' : Fin 1 → ℝ} {hs : List ℝ} (h : IsTrajectory A b c one p t y hs t' y') :
    y' 0 = y 0 + hs.sum * ∑ i, b i := by
  induction h with
  | nil t y => simp
  | @cons t y h y₁ hs t' y' hst hr ih =>
    obtain ⟨k, hk, hy⟩ := hst
    rw [ih, hy 0]
    have : ∀ i, k i 0 = 1 := fun i => congrFun (hk i) 0
    simp only [this, mul_one, List.sum_cons]
    ring

theorem weights_ne_one : ∑ i, env1.T.b i ≠ 1 := by
  have h : ∑ i, fifthOrderFiveStageSdirk.b i ≠ 1 := by decide +kernel
  intro h1
  refine h ?_
  have h2 : ((∑ i, fifthOrderFiveStageSdirk.b i : ℚ) : ℝ) = 1 := by
    rw [Rat.cast_sum]
    exact h1
  exact_mod_cast h2

end RoundedEx

open RoundedEx in
/-- The accuracy cannot be dropped from C66: for `y' = 1`, `y(0) = 0` the shipped fifth order scheme
has runs from time 0 to time 1 with arbitrarily small steps and exact initial values, whose errors
exceed `C dt^5` whatever the constant. The weights of that tableau do not sum up to one. -/
theorem C66_rounded_violated (ch : Choice)
    (w : World (RKState ℝ _ 1 1 0 0) (ch.Data (RKState ℝ _ 1 1 0 0))) (C δ : ℝ) (hδ : 0 < δ) :
    (∃ e ∈ plainShipped, e.tab = fifthOrderFiveStageSdirk.map (Rat.castHom ℝ) ∧
      e.tab.p = some 5) ∧
    Regular one (fun _ => 0) 5 ∧ IsSolution one (fun _ => 0) (fun t _ => t) 0 1 ∧
    (∀ h i, SolvesStage env1.ode one h (env1.T.A i i)) ∧
    ∃ (dt : ℝ) (N : ℕ), 0 < dt ∧ dt < δ ∧ ∃ w' v, compute (rkBackend env1)
      { adaptive := false, crit := .steps N, initialStep := fin dt }
      (ch.ck (rkBackend env1) { adaptive := false, crit := .steps N, initialStep := fin dt }) (N + 1)
      w ⟨0, fun _ => 0, fun _ => 0⟩ = (w', .ok v) ∧ v.time = 1 ∧ C * dt ^ 5 < |v.values 0 - 1| := by
  have hsol : ∀ h i, SolvesStage env1.ode one h (env1.T.A i i) := fun h i inp => rfl
  refine ⟨⟨⟨fifthOrderFiveStageSdirk.map (Rat.castHom ℝ), 1 / 10 ^ 25⟩, by simp [plainShipped], rfl,
    rfl⟩, ⟨contDiff_const, 0, le_rfl, fun t u v => ?_⟩,
    fun t _ => ?_, hsol, ?_⟩
  · change ‖(1 : Fin 1 → ℝ) - 1‖ ≤ _
    simp
  · rw [hasDerivWithinAt_pi]
    exact fun _ => hasDerivWithinAt_id t _
  · set η := |∑ i, env1.T.b i - 1| with hη
    have hη0 : 0 < η := abs_pos.mpr (sub_ne_zero.mpr weights_ne_one)
    obtain ⟨N, hN⟩ := exists_nat_gt (max (1 / δ) (max C 0 / η))
    have hN1 : 1 / δ < N := (le_max_left _ _).trans_lt hN
    have hN2 : max C 0 / η < N := (le_max_right _ _).trans_lt hN
    have hN0 : (0 : ℝ) < N := lt_trans (by positivity) hN1
    have hN1' : (1 : ℝ) ≤ N := by
      have : 0 < N := by exact_mod_cast hN0
      exact_mod_cast this
    have hdt : (1 / N : ℝ) < δ := by
      rw [div_lt_iff₀ hδ] at hN1
      rw [div_lt_iff₀ hN0]
      linarith
    refine ⟨1 / N, N, by positivity, hdt, ?_⟩
    obtain ⟨w', v, hv⟩ := Integrator.Ex.compute_ok env1 (fun _ _ => rfl)
      { adaptive := false, crit := .steps N, initialStep := fin (1 / N) } (1 / N) N rfl rfl rfl
      (by simp) ch w ⟨0, fun _ => 0, fun _ => 0⟩ (N + 1) (Nat.lt_succ_self N)
    have hT : LowerTriangular env1.T.A := by
      obtain ⟨_, _, _, _, h, _⟩ := C05_plain_tableaux
        ⟨fifthOrderFiveStageSdirk.map (Rat.castHom ℝ), 1 / 10 ^ 25⟩ (by simp [plainShipped])
      exact h
    have htr := C65_fixed_run env1 hT (f := one) (N := N) (dt := 1 / N) rfl rfl rfl (hsol _) hv
    have h1 := htr.time
    have h2 := one_trajectory htr
    rw [List.sum_replicate, nsmul_eq_mul, mul_one_div_cancel hN0.ne'] at h1 h2
    refine ⟨w', v, hv, by simpa using h1, ?_⟩
    rw [h2, zero_add, one_mul]
    have h3 : max C 0 < η * N := by
      rw [div_lt_iff₀ hη0] at hN2
      linarith
    calc C * (1 / N : ℝ) ^ 5 ≤ max C 0 * (1 / N) ^ 1 := by
          refine mul_le_mul (le_max_left _ _) ?_ (by positivity) (le_max_right _ _)
          exact pow_le_pow_of_le_one (by positivity)
            ((div_le_one hN0).mpr hN1') (by norm_num)
      _ = max C 0 / N := by ring
      _ < η := by rw [div_lt_iff₀ hN0]; exact h3

/-! ### Concrete cases -/

namespace ConvEx

/-- `env4` from the exact value 10 at time 2: a constant such that all runs with small steps that
stay below time 20 succeed and have an error of at most `C dt^4`. -/
example (ch : Choice) : ∃ C δ : ℝ, 0 < C ∧ 0 < δ ∧ ∀ (dt : ℝ) (N : ℕ), 0 ≤ dt → dt < δ →
    2 + N * dt ≤ 20 → ∀ w, ∃ w' v, compute (rkBackend env4)
      { adaptive := false, crit := .steps N, initialStep := fin dt }
      (ch.ck (rkBackend env4) { adaptive := false, crit := .steps N, initialStep := fin dt }) (N + 1)
      w ⟨2, fun _ => 10, fun _ => 5⟩ = (w', .ok v) ∧ v.time = 2 + N * dt ∧
      |v.values 0 - (4 + v.time + 4 * Real.exp (2 - v.time))| ≤ C * dt ^ 4 := by
  obtain ⟨K, -, hE⟩ := C66_shipped (q := 4) (by norm_num) (regular 4) sol_solves
    (∑ i, |env4.T.b i|)
  obtain ⟨C, δ, hC, hδ, hR⟩ := hE ⟨rungeKuttaFour.map (Rat.castHom ℝ), 0⟩
    (by simp [plainShipped]) rfl le_rfl 0 0 env4 1 rfl one_pos
    (fun h h0 _ i => solves h _ h0 (env4_diag i).ge)
  refine ⟨C, δ, hC, hδ, fun dt N h0 hdt hN w => ?_⟩
  obtain ⟨w', v, hv⟩ := Integrator.Ex.compute_ok env4 (fun _ _ => rfl)
    { adaptive := false, crit := .steps N, initialStep := fin dt } dt N rfl rfl rfl (by simp) ch w
    ⟨2, fun _ => 10, fun _ => 5⟩ (N + 1) (Nat.lt_succ_self N)
  obtain ⟨e1, e2⟩ := (hR _).1 _ dt N (N + 1) ch w w' _ v rfl rfl rfl h0 hdt rfl rfl le_rfl hN hv
  refine ⟨w', v, hv, e1, ?_⟩
  have e3 : ((fun _ => 10 : Fin 1 → ℝ) - sol 2) = 0 := by
    funext x; simp [sol]; norm_num
  simp only [e3, norm_zero, zero_add, mul_zero] at e2
  exact (norm_le_pi_norm (v.values - sol v.time) 0).trans e2

/-- The fifth order scheme, whose coefficients are rounded, for the same problem. -/
noncomputable def env5 : Env (fifthOrderFiveStageSdirk.map (Rat.castHom ℝ)).stages 1 1 0 0 where
  T := (fifthOrderFiveStageSdirk.map (Rat.castHom ℝ)).coeffs
  ode := RK.Ex.linOde
  fails := fun _ _ => none
  nonfinite := fun _ _ => .error .backend
  measure := fun e _ => fin |e 0|

theorem env5_diag (i) : 0 ≤ env5.T.A i i := by
  change 0 ≤ ((fifthOrderFiveStageSdirk.A i i : ℚ) : ℝ)
  have h : ∀ i, 0 ≤ fifthOrderFiveStageSdirk.A i i := by decide +kernel
  exact_mod_cast h i

theorem env5_weights : ∑ i, |env5.T.b i| ≤ 4 := by
  have h : ∑ i, |fifthOrderFiveStageSdirk.b i| ≤ 4 := by decide +kernel
  have h2 : ((∑ i, |fifthOrderFiveStageSdirk.b i| : ℚ) : ℝ) ≤ 4 := by exact_mod_cast h
  rw [Rat.cast_sum] at h2
  simp only [Rat.cast_abs] at h2
  exact h2

/-- `env5` has an error of at most `K / 10^25 + C dt^5`, where `K` is a constant for all schemes
with weights of absolute sum at most 4. -/
example (ch : Choice) : ∃ K C δ : ℝ, 0 < C ∧ 0 < δ ∧ ∀ (dt : ℝ) (N : ℕ), 0 ≤ dt → dt < δ →
    2 + N * dt ≤ 20 → ∀ w, ∃ w' v, compute (rkBackend env5)
      { adaptive := false, crit := .steps N, initialStep := fin dt }
      (ch.ck (rkBackend env5) { adaptive := false, crit := .steps N, initialStep := fin dt }) (N + 1)
      w ⟨2, fun _ => 10, fun _ => 5⟩ = (w', .ok v) ∧
      ‖v.values - sol v.time‖ ≤ K / 10 ^ 25 + C * dt ^ 5 := by
  obtain ⟨K, -, hE⟩ := C66_shipped (q := 5) (by norm_num) (regular 5) sol_solves 4
  obtain ⟨C, δ, hC, hδ, hR⟩ := hE
    ⟨fifthOrderFiveStageSdirk.map (Rat.castHom ℝ), 1 / 10 ^ 25⟩
    (by simp [plainShipped]) rfl env5_weights 0 0 env5 1 rfl one_pos
    (fun h h0 _ i => solves h _ h0 (env5_diag i))
  refine ⟨K, C, δ, hC, hδ, fun dt N h0 hdt hN w => ?_⟩
  obtain ⟨w', v, hv⟩ := Integrator.Ex.compute_ok env5 (fun _ _ => rfl)
    { adaptive := false, crit := .steps N, initialStep := fin dt } dt N rfl rfl rfl (by simp) ch w
    ⟨2, fun _ => 10, fun _ => 5⟩ (N + 1) (Nat.lt_succ_self N)
  obtain ⟨-, e2⟩ := (hR _).1 _ dt N (N + 1) ch w w' _ v rfl rfl rfl h0 hdt rfl rfl le_rfl hN hv
  refine ⟨w', v, hv, ?_⟩
  have e3 : ((fun _ => 10 : Fin 1 → ℝ) - sol 2) = 0 := by
    funext x; simp [sol]; norm_num
  simp only [e3, norm_zero, zero_add, mul_one_div] at e2
  exact e2

end ConvEx

end Verif.Props
