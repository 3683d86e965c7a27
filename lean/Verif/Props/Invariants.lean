/-
What runs preserve: linear invariants of the problem (C68), results when a run is split (C69), and
changes of variables and units (C70).
-/
import Verif.Integrator.Simulate
import Verif.Integrator.Steps
import Verif.Props.Runs

namespace Verif.Props

open Verif.RK Verif.RK.Spec Verif.Control Verif.XReal Verif.Integrator
open Classical

variable {D : Type} {s n m o l : ℕ} {B : Backend D (StartingValues ℝ n m) (Outputs n)}
  {E : Env s n m o l}

/-- A run of `compute` over `N` fixed steps of size `dt` from the inputs `i` returned `v`: with a
given number of steps and no or full checkpointing, with a final time, or with pyrevolve and a legal
schedule; whatever the component was used for before. -/
inductive FixedRun (B : Backend D (StartingValues ℝ n m) (Outputs n)) (R : Restore D) (dt : ℝ)
    (i : StartingValues ℝ n m) (v : Outputs n) : ℕ → Prop
  | steps {opt : Options} {N fuel : ℕ} {ch : Choice} {w w' : World D (ch.Data D)}
      (ha : opt.adaptive = false) (hc : opt.crit = .steps N) (hi : opt.initialStep = fin dt)
      (h : compute B opt (ch.ck B opt) fuel w i = (w', .ok v)) : FixedRun B R dt i v N
  | final {opt : Options} {T : ℝ} {fuel : ℕ} {ch : Choice} {w w' : World D (ch.Data D)}
      (ha : opt.adaptive = false) (hc : opt.crit = .finalTime T) (hi : opt.initialStep = fin dt)
      (hdt : 0 < dt) (h : compute B opt (ch.ck B opt) fuel w i = (w', .ok v)) :
      FixedRun B R dt i v ⌈(T - i.initialTime) / dt⌉₊
  | pyrevolve {opt : Options} {N fuel : ℕ} {sched : Schedule} {sl : ℕ → Option ℕ} {e : IState D}
      {w w' : World D (PyData D)} (ha : opt.adaptive = false) (hi : opt.initialStep = fin dt)
      (hl : LegalF N sched.fwd 0 (fun _ => none) sl)
      (h : compute B opt (pyCk B opt R e N sched) fuel w i = (w', .ok v)) :
      FixedRun B R dt i v (N + 1)

/-- An adaptive run to a final time `T` with steps between 0 and `u` returned `v`: any controllers
with finite bounds, a first step within the bounds and the time interval. -/
inductive AdaptiveRun (E : Env s n m o l) (bhat : Fin s → ℝ) (T u : ℝ)
    (i : StartingValues ℝ n m) (v : Outputs n) : Prop
  | mk {opt : Options} {lo h0 : ℝ} {fuel : ℕ} {ch : Choice}
      {w w' : World (EmbRKState ℝ s n m o l) (ch.Data (EmbRKState ℝ s n m o l))}
      (ha : opt.adaptive = true) (hc : opt.crit = .finalTime T) (hi : opt.initialStep = fin h0)
      (hlo : w.ctrl.config.lower = fin lo) (hup : w.ctrl.config.upper = fin u) (hlo0 : 0 ≤ lo)
      (hlu : lo ≤ u) (hh0 : 0 ≤ h0) (hh0u : h0 ≤ u) (hstep : i.initialTime + h0 ≤ T)
      (h : compute (embBackend E bhat) opt (ch.ck (embBackend E bhat) opt) fuel w i = (w', .ok v))

theorem FixedRun.isSteps (C : RKCore B E) (htm : ∀ d, B.time d = fin (C.core d).finalTime)
    {R : Restore D} (hR : ∀ a b, C.public (R a b) = C.public b) {dt : ℝ} {N : ℕ}
    {i : StartingValues ℝ n m} {v : Outputs n} (h : FixedRun B R dt i v N) :
    IsSteps (StepOf E i.independentInputs) i.initialTime i.initialValues (List.replicate N dt)
      v.time v.values := by
  cases h with
  | steps ha hc hi h => exact fixed_steps C ha hc hi h
  | final ha hc hi hdt h => exact final_steps C htm hdt ha hc hi h
  | pyrevolve ha hi hl h => exact py_steps C hR hl ha hi h

theorem FixedRun.plain {dt : ℝ} {N : ℕ} {i : StartingValues ℝ n m} {v : Outputs n}
    (h : FixedRun (rkBackend E) rkRestore dt i v N) :
    IsSteps (StepOf E i.independentInputs) i.initialTime i.initialValues (List.replicate N dt)
      v.time v.values :=
  h.isSteps (rkCore E) (fun _ => rfl) (R := rkRestore) fun _ _ => rfl

theorem FixedRun.embedded {bhat : Fin s → ℝ} {dt : ℝ} {N : ℕ} {i : StartingValues ℝ n m}
    {v : Outputs n} (h : FixedRun (embBackend E bhat) embRestore dt i v N) :
    IsSteps (StepOf E i.independentInputs) i.initialTime i.initialValues (List.replicate N dt)
      v.time v.values :=
  h.isSteps (embCore E bhat) (fun _ => rfl) (R := embRestore) fun _ _ => rfl

theorem AdaptiveRun.isSteps {bhat : Fin s → ℝ} {T u : ℝ} {i : StartingValues ℝ n m} {v : Outputs n}
    (h : AdaptiveRun E bhat T u i v) :
    ∃ hs : List ℝ, (∀ h ∈ hs, 0 ≤ h ∧ h ≤ u) ∧
      IsSteps (StepOf E i.independentInputs) i.initialTime i.initialValues hs v.time v.values := by
  obtain ⟨ha, hc, hi, hlo, hup, hlo0, hlu, hh0, hh0u, hstep, h⟩ := h
  exact adaptive_steps bhat hlo0 hlu ha hc hi hh0 hh0u hlo hup hstep h

/-! ### C68 -/

/-- The updates the backend returns all have the product `g` with the vector `w`. -/
def SlopeAlong (ode : ODE ℝ n m o l) (w : Fin n → ℝ) (g : ℝ) : Prop :=
  ∀ inp h a, ∑ x, w x * (ode.computeUpdate inp h a).1.stageUpdate x = g

theorem step_along {w : Fin n → ℝ} {g : ℝ} (hw : SlopeAlong E.ode w g) {p : Fin m → ℝ} {h t : ℝ}
    {y y₁ : Fin n → ℝ} (hs : StepOf E p h t y y₁) :
    ∑ x, w x * y₁ x = ∑ x, w x * y x + h * ((∑ i, E.T.b i) * g) := by
  obtain ⟨st, rfl, rfl, rfl, rfl⟩ := hs
  have hr := computeStep_result E.T E.ode st h
  have h1 := dot_accumulateStep E.T.b w st.finalState (computeStep E.T E.ode st h).stageUpdates h
  have h2 : ∀ i, dot w ((computeStep E.T E.ode st h).stageUpdates i) = g := fun i => by
    rw [hr.update i]
    exact hw _ _ _
  rw [← hr.finalState] at h1
  simp only [h2] at h1
  unfold dot at h1
  rw [h1]
  congr 1
  rw [Finset.sum_mul, Finset.mul_sum]
  exact Finset.sum_congr rfl fun i _ => by ring

theorem steps_along {w : Fin n → ℝ} {g : ℝ} (hw : SlopeAlong E.ode w g) {p : Fin m → ℝ} {t t' : ℝ}
    {y y' : Fin n → ℝ} {hs : List ℝ} (h : IsSteps (StepOf E p) t y hs t' y') :
    ∑ x, w x * y' x = ∑ x, w x * y x + (t' - t) * ((∑ i, E.T.b i) * g) := by
  induction h with
  | nil => simp
  | cons hst _ ih =>
    rw [ih, step_along hw hst]
    ring

/-- C68: if all updates the backend returns are orthogonal to a vector `w`, as for problems with a
conserved linear quantity, then the quantity has the same value before and after a run, with any
scheme, step size, number of steps and checkpointer. -/
theorem C68_conserved {w : Fin n → ℝ} (hw : SlopeAlong E.ode w 0) {dt : ℝ} {N : ℕ}
    {i : StartingValues ℝ n m} {v : Outputs n} (h : FixedRun (rkBackend E) rkRestore dt i v N) :
    ∑ x, w x * v.values x = ∑ x, w x * i.initialValues x := by
  simpa using steps_along hw h.plain

/-- C68 for embedded schemes with fixed steps. -/
theorem C68_conserved_embedded {bhat w} (hw : SlopeAlong E.ode w 0) {dt : ℝ} {N : ℕ}
    {i : StartingValues ℝ n m} {v : Outputs n}
    (h : FixedRun (embBackend E bhat) embRestore dt i v N) :
    ∑ x, w x * v.values x = ∑ x, w x * i.initialValues x := by
  simpa using steps_along hw h.embedded

/-- C68 for adaptive runs. -/
theorem C68_conserved_adaptive {bhat w} (hw : SlopeAlong E.ode w 0) {T u : ℝ}
    {i : StartingValues ℝ n m} {v : Outputs n} (h : AdaptiveRun E bhat T u i v) :
    ∑ x, w x * v.values x = ∑ x, w x * i.initialValues x := by
  obtain ⟨hs, -, h⟩ := h.isSteps
  simpa using steps_along hw h

/-- C68: a linear quantity with constant slope `g`, like the time added as an unknown, changes by `g`
times the time covered, if the weights sum up to one. -/
theorem C68_constant_slope {w : Fin n → ℝ} {g : ℝ} (hw : SlopeAlong E.ode w g)
    (hb : ∑ i, E.T.b i = 1) {dt : ℝ} {N : ℕ} {i : StartingValues ℝ n m} {v : Outputs n}
    (h : FixedRun (rkBackend E) rkRestore dt i v N) :
    ∑ x, w x * v.values x = ∑ x, w x * i.initialValues x + g * (v.time - i.initialTime) := by
  rw [steps_along hw h.plain, hb]
  ring

theorem C68_constant_slope_embedded {bhat w} {g : ℝ} (hw : SlopeAlong E.ode w g)
    (hb : ∑ i, E.T.b i = 1) {dt : ℝ} {N : ℕ} {i : StartingValues ℝ n m} {v : Outputs n}
    (h : FixedRun (embBackend E bhat) embRestore dt i v N) :
    ∑ x, w x * v.values x = ∑ x, w x * i.initialValues x + g * (v.time - i.initialTime) := by
  rw [steps_along hw h.embedded, hb]
  ring

theorem C68_constant_slope_adaptive {bhat w} {g : ℝ} (hw : SlopeAlong E.ode w g)
    (hb : ∑ i, E.T.b i = 1) {T u : ℝ} {i : StartingValues ℝ n m} {v : Outputs n}
    (h : AdaptiveRun E bhat T u i v) :
    ∑ x, w x * v.values x = ∑ x, w x * i.initialValues x + g * (v.time - i.initialTime) := by
  obtain ⟨hs, -, h⟩ := h.isSteps
  rw [steps_along hw h, hb]
  ring

/-! ### C69 -/

theorem steps_eq {p : Fin m → ℝ} {t : ℝ} {y : Fin n → ℝ} {hs : List ℝ} {v v' : Outputs n}
    (h : IsSteps (StepOf E p) t y hs v.time v.values)
    (h' : IsSteps (StepOf E p) t y hs v'.time v'.values) : v = v' := by
  obtain ⟨h1, h2⟩ := h.unique (fun _ _ _ _ _ a b => a.unique b) h'
  cases v
  cases v'
  simp_all

/-- C69: a run over `N + M` fixed steps returns the same as a run over `N` steps followed by a run
over `M` steps that starts with the returned values and time; each of the three runs may use a
different checkpointer, way to prescribe the number of steps and history of the component. -/
theorem C69_split {dt : ℝ} {N M : ℕ} {i : StartingValues ℝ n m} {v v₁ v₂ : Outputs n}
    (h1 : FixedRun (rkBackend E) rkRestore dt i v₁ N)
    (h2 : FixedRun (rkBackend E) rkRestore dt ⟨v₁.time, v₁.values, i.independentInputs⟩ v₂ M)
    (h : FixedRun (rkBackend E) rkRestore dt i v (N + M)) : v = v₂ := by
  have h3 := h1.plain.append h2.plain
  rw [List.replicate_append_replicate] at h3
  exact steps_eq h.plain h3

/-- C69 for embedded schemes. -/
theorem C69_split_embedded {bhat : Fin s → ℝ} {dt : ℝ} {N M : ℕ} {i : StartingValues ℝ n m}
    {v v₁ v₂ : Outputs n} (h1 : FixedRun (embBackend E bhat) embRestore dt i v₁ N)
    (h2 : FixedRun (embBackend E bhat) embRestore dt ⟨v₁.time, v₁.values, i.independentInputs⟩ v₂ M)
    (h : FixedRun (embBackend E bhat) embRestore dt i v (N + M)) : v = v₂ := by
  have h3 := h1.embedded.append h2.embedded
  rw [List.replicate_append_replicate] at h3
  exact steps_eq h.embedded h3

/-- C69, fixed steps with an embedded tableau: the embedded weights do not influence the result, it
is that of the plain scheme with the same coefficients. -/
theorem C69_embedded_weights_unused {bhat : Fin s → ℝ} {dt : ℝ} {N : ℕ} {i : StartingValues ℝ n m}
    {v v' : Outputs n} (h : FixedRun (rkBackend E) rkRestore dt i v N)
    (h' : FixedRun (embBackend E bhat) embRestore dt i v' N) : v = v' :=
  steps_eq h.plain h'.embedded

/-! ### C70 -/

variable {n' m' o' l' : ℕ} {E' : Env s n' m' o' l'}

/-- In the variables `L y + y0`, time `σ t + τ` and with parameters `p'` the backend `ode'` returns
what `ode` does. Slopes are per time and change by `L / σ`. -/
def SameProblem (ode : ODE ℝ n m o l) (ode' : ODE ℝ n' m' o' l')
    (L : (Fin n → ℝ) →ₗ[ℝ] (Fin n' → ℝ)) (y0 : Fin n' → ℝ) (σ τ : ℝ) (p : Fin m → ℝ)
    (p' : Fin m' → ℝ) : Prop :=
  ∀ (inp : OdeInput ℝ n m) (h a : ℝ), inp.independentInput = p →
    (ode'.computeUpdate ⟨L inp.stepInput + y0, σ⁻¹ • L inp.stageInput, p', σ * inp.time + τ⟩
      (σ * h) a).1.stageUpdate = σ⁻¹ • L (ode.computeUpdate inp h a).1.stageUpdate

section
variable {L : (Fin n → ℝ) →ₗ[ℝ] (Fin n' → ℝ)} {y0 : Fin n' → ℝ} {σ τ : ℝ} {p : Fin m → ℝ}
  {p' : Fin m' → ℝ}

theorem map_accumulateStages (T : Coeffs ℝ s) (i : Fin s) (k : Fin s → Fin n → ℝ)
    (k' : Fin s → Fin n' → ℝ) (hk : ∀ j, j < i → k' j = σ⁻¹ • L (k j)) :
    accumulateStages T i k' = σ⁻¹ • L (accumulateStages T i k) := by
  have h1 : accumulateStages T i k
      = ∑ j ∈ Finset.univ.filter (fun j : Fin s => j < i), T.A i j • k j := by
    funext x
    rw [accumulateStages_apply]
    simp [Finset.sum_apply]
  rw [h1, map_sum, Finset.smul_sum]
  funext x
  rw [accumulateStages_apply, Finset.sum_apply]
  refine Finset.sum_congr rfl fun j hj => ?_
  rw [hk j (Finset.mem_filter.mp hj).2, map_smul]
  simp only [Pi.smul_apply, smul_eq_mul]
  ring

theorem map_updates (hT : E'.T = E.T) (hP : SameProblem E.ode E'.ode L y0 σ τ p p') {h t : ℝ}
    {y : Fin n → ℝ} {r : RKState ℝ s n m o l} {r' : RKState ℝ s n' m' o' l'}
    (hr : StepResult E.T E.ode h t y p r)
    (hr' : StepResult E'.T E'.ode (σ * h) (σ * t + τ) (L y + y0) p' r') :
    ∀ i, r'.stageUpdates i = σ⁻¹ • L (r.stageUpdates i) := by
  intro i
  induction hi : i.val using Nat.strong_induction_on generalizing i with
  | _ q ih =>
    have hacc := map_accumulateStages (σ := σ) (L := L) E.T i r.stageUpdates r'.stageUpdates
      fun j hj => ih j.val (hi ▸ hj) j rfl
    have h1 := hP (stageIn E.T h t y p r.stageUpdates i) h (E.T.A i i) rfl
    rw [hr.update i, ← h1, hr'.update i, hT]
    simp only [stageIn, hacc]
    have h2 : σ * t + τ + σ * h * E.T.c i = σ * (t + h * E.T.c i) + τ := by ring
    rw [h2]

theorem map_final (hσ : σ ≠ 0) (b : Fin s → ℝ) {h : ℝ} {y : Fin n → ℝ} {k : Fin s → Fin n → ℝ}
    {k' : Fin s → Fin n' → ℝ} (hk : ∀ j, k' j = σ⁻¹ • L (k j)) :
    accumulateStep b (L y + y0) k' (σ * h) = L (accumulateStep b y k h) + y0 := by
  have h1 : accumulateStep b y k h = y + h • ∑ j, b j • k j := by
    funext x
    rw [accumulateStep_apply]
    simp [Finset.sum_apply]
  rw [h1, map_add, map_smul, map_sum]
  funext x
  rw [accumulateStep_apply]
  simp only [hk, map_smul, Pi.add_apply, Pi.smul_apply, smul_eq_mul, Finset.sum_apply]
  have h2 : ∀ j, b j * (σ⁻¹ * L (k j) x) = σ⁻¹ * (b j * L (k j) x) := fun j => by ring
  simp only [h2, ← Finset.mul_sum]
  field_simp
  ring

theorem step_map (hσ : σ ≠ 0) (hT : E'.T = E.T) (hP : SameProblem E.ode E'.ode L y0 σ τ p p')
    {h t : ℝ} {y y₁ : Fin n → ℝ} (hs : StepOf E p h t y y₁) :
    StepOf E' p' (σ * h) (σ * t + τ) (L y + y0) (L y₁ + y0) := by
  obtain ⟨st, rfl, rfl, rfl, rfl⟩ := hs
  refine ⟨rkLoad RKState.empty ⟨σ * st.finalTime + τ, L st.finalState + y0, p'⟩, rfl, rfl, rfl, ?_⟩
  have hr := computeStep_result E.T E.ode st h
  have hr' := computeStep_result E'.T E'.ode
    (rkLoad RKState.empty ⟨σ * st.finalTime + τ, L st.finalState + y0, p'⟩) (σ * h)
  rw [hr.finalState, hr'.finalState, show E'.T.b = E.T.b by rw [hT]]
  exact (map_final hσ E.T.b (map_updates hT hP hr hr')).symm

theorem steps_map (hσ : σ ≠ 0) (hT : E'.T = E.T) (hP : SameProblem E.ode E'.ode L y0 σ τ p p')
    {t t' : ℝ} {y y' : Fin n → ℝ} {hs : List ℝ} (h : IsSteps (StepOf E p) t y hs t' y') :
    IsSteps (StepOf E' p') (σ * t + τ) (L y + y0) (hs.map (σ * ·)) (σ * t' + τ) (L y' + y0) := by
  induction h with
  | nil => exact .nil _ _
  | @cons t y h y₁ hs t' y' hst _ ih =>
    refine .cons (step_map hσ hT hP hst) ?_
    have : σ * (t + h) + τ = σ * t + τ + σ * h := by ring
    rwa [this] at ih

/-- C70: if a problem is written in other variables `L y + y0` (`L` linear, not necessarily
invertible), with time measured as `σ t + τ`, then runs with correspondingly changed inputs and step
size return the changed results. -/
theorem C70_change_of_variables (hσ : σ ≠ 0) (hT : E'.T = E.T) {dt : ℝ} {N : ℕ}
    {i : StartingValues ℝ n m} {v : Outputs n} {v' : Outputs n'}
    (hP : SameProblem E.ode E'.ode L y0 σ τ i.independentInputs p')
    (h : FixedRun (rkBackend E) rkRestore dt i v N)
    (h' : FixedRun (rkBackend E') rkRestore (σ * dt)
      ⟨σ * i.initialTime + τ, L i.initialValues + y0, p'⟩ v' N) :
    v'.time = σ * v.time + τ ∧ v'.values = L v.values + y0 := by
  have h1 := steps_map hσ hT hP h.plain
  rw [List.map_replicate] at h1
  exact h'.plain.unique (fun _ _ _ _ _ a b => a.unique b) h1

/-- C70 for embedded schemes with fixed steps. -/
theorem C70_change_of_variables_embedded {bhat bhat' : Fin s → ℝ} (hσ : σ ≠ 0) (hT : E'.T = E.T)
    {dt : ℝ} {N : ℕ} {i : StartingValues ℝ n m} {v : Outputs n} {v' : Outputs n'}
    (hP : SameProblem E.ode E'.ode L y0 σ τ i.independentInputs p')
    (h : FixedRun (embBackend E bhat) embRestore dt i v N)
    (h' : FixedRun (embBackend E' bhat') embRestore (σ * dt)
      ⟨σ * i.initialTime + τ, L i.initialValues + y0, p'⟩ v' N) :
    v'.time = σ * v.time + τ ∧ v'.values = L v.values + y0 := by
  have h1 := steps_map hσ hT hP h.embedded
  rw [List.map_replicate] at h1
  exact h'.embedded.unique (fun _ _ _ _ _ a b => a.unique b) h1

/-- Published parts of states that correspond to each other. -/
def Corresponds (L : (Fin n → ℝ) →ₗ[ℝ] (Fin n' → ℝ)) (y0 : Fin n' → ℝ) (τ : ℝ) (p : Fin m → ℝ)
    (p' : Fin m' → ℝ) (d : EmbRKState ℝ s n m o l) (d' : EmbRKState ℝ s n' m' o' l') : Prop :=
  d'.finalTime = d.finalTime + τ ∧ d'.finalState = L d.finalState + y0 ∧
    d.independentInputs = p ∧ d'.independentInputs = p'

/-- The criteria say the same about times that differ by `τ`. -/
inductive ShiftedCrit (τ : ℝ) : Crit → Crit → Prop
  | steps (N : ℕ) : ShiftedCrit τ (.steps N) (.steps N)
  | finalTime (T : ℝ) : ShiftedCrit τ (.finalTime T) (.finalTime (T + τ))

theorem ShiftedCrit.remaining {c c' : Crit} (h : ShiftedCrit τ c c') (t : ℝ) :
    c.remaining (fin t) = c'.remaining (fin (t + τ)) := by
  cases h with
  | steps N => rfl
  | finalTime T => simp [Crit.remaining]

theorem ShiftedCrit.finished {c c' : Crit} (h : ShiftedCrit τ c c') (it : ℕ) (t : ℝ) :
    c.finished it (fin t) ↔ c'.finished it (fin (t + τ)) := by
  cases h with
  | steps N => rfl
  | finalTime T => simp [Crit.finished]

theorem embedded_simulation {bhat : Fin s → ℝ} {opt opt' : Options} (hT : E'.T = E.T)
    (hP : SameProblem E.ode E'.ode L y0 1 τ p p')
    (hF : ∀ t y h, E'.fails ⟨t + τ, L y + y0, p'⟩ h = E.fails ⟨t, y, p⟩ h)
    (hN : ∀ d d' h, ∃ e, E.nonfinite d h = .error e ∧ E'.nonfinite d' h = .error e)
    (hM : ∀ e y, E'.measure (L e) (L y + y0) = E.measure e y)
    (hc : ShiftedCrit τ opt.crit opt'.crit) (ha : opt'.adaptive = opt.adaptive)
    (hl : opt'.recursionLimit = opt.recursionLimit) :
    Simulation (embBackend E bhat) (embBackend E' bhat) opt opt' (Corresponds L y0 τ p p')
      fun e e' => Corresponds L y0 τ p p' e e' ∧ e'.errorEstimate = L e.errorEstimate where
  adaptive := ha
  limit := hl
  set := fun d d' e e' _ he => he.1
  measure := fun e e' he => by
    simp only [embBackend, he.2, he.1.2.1, hM]
  remaining := fun e e' he => by
    simp only [embBackend, he.1.1]
    exact hc.remaining _
  finished := fun d d' it hd => by
    simp only [embBackend, hd.1]
    exact hc.finished _ _
  step := fun d d' h hd => by
    obtain ⟨h1, h2, h3, h4⟩ := hd
    cases h with
    | fin r =>
      have hf := hF d.finalTime d.finalState r
      have e1 : rkObs d.toRKState = ⟨d.finalTime, d.finalState, p⟩ := by simp [rkObs, h3]
      have e2 : rkObs d'.toRKState = ⟨d.finalTime + τ, L d.finalState + y0, p'⟩ := by
        simp [rkObs, h1, h2, h4]
      simp only [embBackend, e1, e2, hf]
      rcases E.fails ⟨d.finalTime, d.finalState, p⟩ r with _ | e
      · refine .ok ?_
        have hr := computeStep_result E.T E.ode d.toRKState r
        have hr' := computeStep_result E'.T E'.ode d'.toRKState r
        rw [h3] at hr
        have hr'' := hr'
        rw [h1, h2, h4] at hr''
        have hk := map_updates (σ := 1) (τ := τ) hT hP hr (r' := computeStep E'.T E'.ode d'.toRKState r)
          (by rw [one_mul, one_mul]; exact hr'')
        have hfin := fun b => map_final (σ := 1) one_ne_zero (y0 := y0) b (h := r)
          (y := d.finalState) hk
        simp only [one_mul] at hfin
        have hfs : (computeStep E'.T E'.ode d'.toRKState r).finalState
            = L (computeStep E.T E.ode d.toRKState r).finalState + y0 := by
          rw [hr.finalState, hr'.finalState, ← hfin, show E'.T.b = E.T.b by rw [hT], h2]
        refine ⟨⟨?_, hfs, hr.indep, hr''.indep⟩, ?_⟩
        · change (computeStep E'.T E'.ode d'.toRKState r).finalTime
            = (computeStep E.T E.ode d.toRKState r).finalTime + τ
          rw [hr.finalTime, hr''.finalTime]
          ring
        · simp only [computeStepEmb, computeErrorEstimate]
          rw [hfs, hr''.startState, hr.startState, hfin, map_sub]
          abel
      · exact .error e
    | nan => obtain ⟨e, g1, g2⟩ := hN (rkObs d.toRKState) (rkObs d'.toRKState) .nan
             simp only [embBackend, g1, g2]; exact .error e
    | ninf => obtain ⟨e, g1, g2⟩ := hN (rkObs d.toRKState) (rkObs d'.toRKState) .ninf
              simp only [embBackend, g1, g2]; exact .error e
    | pinf => obtain ⟨e, g1, g2⟩ := hN (rkObs d.toRKState) (rkObs d'.toRKState) .pinf
              simp only [embBackend, g1, g2]; exact .error e

/-- C70 for adaptive runs, with any controllers, in variables `L y + y0` and times shifted by `τ`: if
also the error measure and the exceptions correspond, the runs take the same decisions, so they
return corresponding results or raise the same exception. The unit of time is kept, because the
acceptance test compares step sizes with an absolute constant. -/
theorem C70_change_of_variables_adaptive {bhat : Fin s → ℝ} {opt opt' : Options} (hT : E'.T = E.T)
    {i : StartingValues ℝ n m} (hP : SameProblem E.ode E'.ode L y0 1 τ i.independentInputs p')
    (hF : ∀ t y h, E'.fails ⟨t + τ, L y + y0, p'⟩ h = E.fails ⟨t, y, i.independentInputs⟩ h)
    (hN : ∀ d d' h, ∃ e, E.nonfinite d h = .error e ∧ E'.nonfinite d' h = .error e)
    (hM : ∀ e y, E'.measure (L e) (L y + y0) = E.measure e y)
    (hc : ShiftedCrit τ opt.crit opt'.crit) (ha : opt'.adaptive = opt.adaptive)
    (hl : opt'.recursionLimit = opt.recursionLimit) (hi : opt'.initialStep = opt.initialStep)
    {ch ch' : Choice} {fuel : ℕ}
    (w : World (EmbRKState ℝ s n m o l) (ch.Data (EmbRKState ℝ s n m o l)))
    (w' : World (EmbRKState ℝ s n' m' o' l') (ch'.Data (EmbRKState ℝ s n' m' o' l')))
    (hw : w'.ctrl = w.ctrl) :
    Both (fun v v' => v'.time = v.time + τ ∧ v'.values = L v.values + y0)
      (compute (embBackend E bhat) opt (ch.ck (embBackend E bhat) opt) fuel w i).2
      (compute (embBackend E' bhat) opt' (ch'.ck (embBackend E' bhat) opt') fuel w'
        ⟨i.initialTime + τ, L i.initialValues + y0, p'⟩).2 := by
  have h := (embedded_simulation (bhat := bhat) hT hP hF hN hM hc ha hl).compute (ch := ch) (ch' := ch')
    (fuel := fuel) (w := w) (w' := w') (i := i)
    (i' := ⟨i.initialTime + τ, L i.initialValues + y0, p'⟩) hi hw ⟨rfl, rfl, rfl, rfl⟩
  revert h
  generalize (compute (embBackend E bhat) opt (ch.ck (embBackend E bhat) opt) fuel w i).2 = a
  generalize (compute (embBackend E' bhat) opt' (ch'.ck (embBackend E' bhat) opt') fuel w'
    ⟨i.initialTime + τ, L i.initialValues + y0, p'⟩).2 = a'
  intro h
  cases h with
  | error e => exact .error e
  | ok h =>
    obtain ⟨d, d', ⟨g1, g2, -, -⟩, rfl, rfl⟩ := h
    exact .ok ⟨g1, g2⟩

end

/-! ### Concrete cases -/

namespace InvariantEx

/-- A substance turns into another one: `a' = -a`, `b' = a`, with explicit schemes. -/
noncomputable def reaction : Env 2 2 1 0 0 where
  T := ⟨fun i j => if j < i then 1 else 0, fun _ => 1 / 2, fun i => i⟩
  ode :=
    { computeUpdate := fun inp h _ => (⟨![-(inp.stepInput 0 + h * inp.stageInput 0),
        inp.stepInput 0 + h * inp.stageInput 0], 0, 0⟩, 0)
      computeUpdateDerivative := fun _ _ _ _ => ⟨0, 0, 0⟩
      computeUpdateAdjoint := fun _ _ _ _ => ⟨0, 0, 0, 0⟩ }
  fails := fun _ _ => none
  nonfinite := fun _ _ => .error .backend
  measure := fun e _ => fin |e 0|

theorem fixed_ok (E : Env s n m o l) (hE : ∀ v h, E.fails v h = none) (dt : ℝ) (N : ℕ)
    (i : StartingValues ℝ n m) : ∃ v, FixedRun (rkBackend E) rkRestore dt i v N := by
  obtain ⟨w', v, hv⟩ := Integrator.Ex.compute_ok E hE
    { adaptive := false, crit := .steps N, initialStep := fin dt } dt N rfl rfl rfl (by simp) .all
    (freshWorld { adaptive := false, crit := .steps N, initialStep := fin dt }
      (Choice.ck (rkBackend E) { adaptive := false, crit := .steps N, initialStep := fin dt } .all)
      RKState.empty Integrator.Ex.ctrl) i (N + 1) (Nat.lt_succ_self N)
  exact ⟨v, .steps rfl rfl rfl hv⟩

/-- The total amount is the same after any number of steps of any size. -/
example (dt : ℝ) (N : ℕ) : ∃ v, FixedRun (rkBackend reaction) rkRestore dt
    ⟨0, ![3, 4], fun _ => 0⟩ v N ∧ v.values 0 + v.values 1 = 7 := by
  obtain ⟨v, hv⟩ := fixed_ok reaction (fun _ _ => rfl) dt N ⟨0, ![3, 4], fun _ => 0⟩
  refine ⟨v, hv, ?_⟩
  have := C68_conserved (w := fun _ => 1) (fun inp h a => by
    simp [reaction, Fin.sum_univ_two]) hv
  simp only [one_mul, Fin.sum_univ_two] at this
  rw [this]
  norm_num

/-- Five steps are two and three steps. -/
example (dt : ℝ) (i : StartingValues ℝ 2 1) : ∃ v₁ v₂,
    FixedRun (rkBackend reaction) rkRestore dt i v₁ 2 ∧
    FixedRun (rkBackend reaction) rkRestore dt ⟨v₁.time, v₁.values, i.independentInputs⟩ v₂ 3 ∧
    FixedRun (rkBackend reaction) rkRestore dt i v₂ 5 := by
  obtain ⟨v₁, h1⟩ := fixed_ok reaction (fun _ _ => rfl) dt 2 i
  obtain ⟨v₂, h2⟩ := fixed_ok reaction (fun _ _ => rfl) dt 3 ⟨v₁.time, v₁.values, i.independentInputs⟩
  obtain ⟨v, h⟩ := fixed_ok reaction (fun _ _ => rfl) dt (2 + 3) i
  exact ⟨v₁, v₂, h1, h2, C69_split h1 h2 h ▸ h⟩

/-- `y' = a y` with exact solutions of the implicit stage equations. -/
noncomputable def growth (a : ℝ) : Env 1 1 1 0 0 where
  T := ⟨fun _ _ => 1, fun _ => 1, fun _ => 1⟩
  ode :=
    { computeUpdate := fun inp h g => (⟨fun x => a * (inp.stepInput x + h * inp.stageInput x)
        / (1 - a * h * g), 0, 0⟩, 0)
      computeUpdateDerivative := fun _ _ _ _ => ⟨0, 0, 0⟩
      computeUpdateAdjoint := fun _ _ _ _ => ⟨0, 0, 0, 0⟩ }
  fails := fun _ _ => none
  nonfinite := fun _ _ => .error .backend
  measure := fun e _ => fin |e 0|

/-- Grams instead of kilograms and seconds instead of minutes: the rate is divided by 60, the results
are the same amounts at the same times. -/
example (a dt : ℝ) (N : ℕ) : ∃ v v', FixedRun (rkBackend (growth a)) rkRestore dt
      ⟨2, fun _ => 1, fun _ => 0⟩ v N ∧
    FixedRun (rkBackend (growth (a / 60))) rkRestore (60 * dt) ⟨120, fun _ => 1000, fun _ => 0⟩ v' N ∧
    v'.time = 60 * v.time ∧ v'.values = (1000 : ℝ) • v.values := by
  obtain ⟨v, hv⟩ := fixed_ok (growth a) (fun _ _ => rfl) dt N ⟨2, fun _ => 1, fun _ => 0⟩
  obtain ⟨v', hv'⟩ := fixed_ok (growth (a / 60)) (fun _ _ => rfl) (60 * dt) N
    ⟨120, fun _ => 1000, fun _ => 0⟩
  have h := C70_change_of_variables (L := (1000 : ℝ) • LinearMap.id) (y0 := 0) (σ := 60) (τ := 0)
    (p' := fun _ => 0) (E := growth a) (E' := growth (a / 60)) (by norm_num) rfl
    (fun inp h g _ => ?_) hv (v' := v') (by
      have : ((1000 : ℝ) • (LinearMap.id : (Fin 1 → ℝ) →ₗ[ℝ] _)) (fun _ => (1 : ℝ)) + 0 = (fun _ => 1000 : Fin 1 → ℝ) := by
        funext x
        simp
      rw [this]
      norm_num
      exact hv')
  · exact ⟨v, v', hv, hv', by simpa using h.1, by simpa using h.2⟩
  · funext x
    have e1 : a / 60 * (60 * h) * g = a * h * g := by ring
    simp only [growth, e1, LinearMap.smul_apply, LinearMap.id_apply, Pi.smul_apply, smul_eq_mul,
      add_zero]
    ring

/-- The adaptive run from 2 to 11/4 of `y' = -y + p + t` with values shifted by 3 and times by 5. -/
example : ∃ v', (compute (embBackend (envErr 0) 1)
      { adaptive := true, crit := .finalTime (11 / 4 + 5), initialStep := fin (1 / 2) }
      (Choice.ck (embBackend (envErr 0) 1)
        { adaptive := true, crit := .finalTime (11 / 4 + 5), initialStep := fin (1 / 2) } .all) 3
      (freshE { adaptive := true, crit := .finalTime (11 / 4 + 5), initialStep := fin (1 / 2) } 0 1
        (.base (integral 1) Config.default) .all) ⟨2 + 5, fun _ => 1 + 3, fun _ => 5 - 2⟩).2 = .ok v' ∧
      v'.time = 11 / 4 + 5 := by
  obtain ⟨w, v, h1, h2⟩ := adaptive_ok .no
  have h := C70_change_of_variables_adaptive (L := LinearMap.id) (y0 := fun _ => 3) (τ := 5)
    (p' := fun _ => 5 - 2) (E := envErr 0) (E' := envErr 0) (bhat := 1) (opt := optA)
    (opt' := { adaptive := true, crit := .finalTime (11 / 4 + 5), initialStep := fin (1 / 2) })
    rfl (i := Integrator.Ex.inp) (fun inp h a hp => by
      funext x
      have hp' : inp.independentInput x = 5 := congrFun hp x
      simp only [envErr, Integrator.Ex.env, RK.Ex.linOde, LinearMap.id_apply, inv_one, one_smul,
        one_mul, Pi.add_apply, hp']
      ring)
    (fun _ _ _ => rfl) (fun _ _ _ => ⟨_, rfl, rfl⟩) (fun _ _ => rfl) (.finalTime _) rfl rfl rfl
    (ch := .no) (ch' := .all) (fuel := 3)
    (freshE optA 0 1 (.base (integral 1) Config.default) .no)
    (freshE { adaptive := true, crit := .finalTime (11 / 4 + 5), initialStep := fin (1 / 2) } 0 1
        (.base (integral 1) Config.default) .all) rfl
  rw [h1] at h
  have hi : (⟨Integrator.Ex.inp.initialTime + 5, LinearMap.id (R := ℝ) Integrator.Ex.inp.initialValues
      + fun _ => 3, fun _ => 5 - 2⟩ : StartingValues ℝ 1 1) = ⟨2 + 5, fun _ => 1 + 3, fun _ => 5 - 2⟩ := rfl
  rw [hi] at h
  revert h
  generalize (compute (embBackend (envErr 0) 1) _ _ 3 _ (⟨2 + 5, fun _ => 1 + 3, fun _ => 5 - 2⟩ :
    StartingValues ℝ 1 1)).2 = r
  intro h
  cases h with
  | ok h => exact ⟨_, rfl, by rw [h.1, h2]⟩

end InvariantEx

end Verif.Props
