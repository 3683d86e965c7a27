/-
The backends in floating point obey the laws of `Verif.Integrator.Lawful`, and what the backends
with rounded and with exact derivatives have in common.
-/
import Verif.Float.Deriv
import Verif.Integrator.History

namespace Verif.Fl

open Verif.RK Verif.RK.Spec Verif.Control Verif.XReal Verif.Integrator Verif.Props
open Classical

variable {D : Type} {s n m o l : ℕ}

/-! ### What the steps depend on -/

theorem foldl_pair {σ τ ι : Type} (f : σ → ι → σ) (g : τ → ι → τ) (L : List ι) (a : σ) (b : τ) :
    L.foldl (fun y i => (f y.1 i, g y.2 i)) (a, b) = (L.foldl f a, L.foldl g b) := by
  induction L generalizing a b with
  | nil => rfl
  | cons x L ih => exact ih _ _

theorem accumulateStagesFl_congr (dot : List (ℝ × ℝ) → ℝ) (T : Coeffs ℝ s) (i : Fin s)
    (k k' : Fin s → Fin n → ℝ) (hk : ∀ j, j < i → k j = k' j) :
    accumulateStagesFl dot T i k = accumulateStagesFl dot T i k' := by
  unfold accumulateStagesFl
  split_ifs
  · rfl
  · funext x
    congr 1
    refine List.map_congr_left fun j hj => ?_
    rw [hk j (by simpa using (List.mem_filter.mp hj).2)]

/-- The states of two steps after `q` stages. -/
structure StepSame (q : ℕ) (a b : RKState ℝ s n m o l) : Prop where
  startTime : a.startTime = b.startTime
  startState : a.startState = b.startState
  indep : a.independentInputs = b.independentInputs
  stepSize : a.stepSize = b.stepSize
  times : ∀ j : Fin s, j.val < q → a.stageTimes j = b.stageTimes j
  updates : ∀ j : Fin s, j.val < q → a.stageUpdates j = b.stageUpdates j
  states : ∀ j : Fin s, j.val < q → a.stageStates j = b.stageStates j
  outs : ∀ j : Fin s, j.val < q → a.stageIndependentOutputs j = b.stageIndependentOutputs j
  lin : ∀ j : Fin s, j.val < q → a.linearizationPoints j = b.linearizationPoints j

theorem update_same {α : Type} {i j : Fin s} {f g : Fin s → α} {x y : α} (hxy : x = y)
    (h : ∀ j : Fin s, j.val < i.val → f j = g j) (hj : j.val < i.val + 1) :
    Function.update f i x j = Function.update g i y j := by
  by_cases e : j = i
  · subst e; simp [hxy]
  · rw [Function.update_of_ne e, Function.update_of_ne e]
    exact h j (by
      have : j.val ≠ i.val := fun hh => e (Fin.ext hh)
      omega)

/-- A step in floating point depends on the published part of the state only. -/
theorem computeStepFl_congr (fl : ℝ → ℝ) (dot : List (ℝ × ℝ) → ℝ) (T : Coeffs ℝ s)
    (ode : ODE ℝ n m o l) {a b : RKState ℝ s n m o l} (hab : rkObs a = rkObs b) (h : ℝ) :
    computeStepFl fl dot T ode a h = computeStepFl fl dot T ode b h := by
  obtain ⟨h1, h2, h3⟩ := rkObs_eq hab
  have key := Loop.foldl_finRange
    (fun (y : RKState ℝ s n m o l × RKState ℝ s n m o l) i =>
      (computeStageFl fl dot T ode h y.1 i, computeStageFl fl dot T ode h y.2 i))
    (fun q y => StepSame q y.1 y.2)
    ({ shiftState a with stepSize := h }, { shiftState b with stepSize := h })
    ⟨h1, h2, h3, rfl, by simp, by simp, by simp, by simp, by simp⟩
    (fun i y hy => ?_)
  · rw [foldl_pair] at key
    obtain ⟨e1, e2, e3, e4, e5, e6, e7, e8, e9⟩ := key
    dsimp only at e1 e2 e3 e4 e5 e6 e7 e8 e9
    have f5 := funext fun j => e5 j j.2
    have f6 := funext fun j => e6 j j.2
    have f7 := funext fun j => e7 j j.2
    have f8 := funext fun j => e8 j j.2
    have f9 := funext fun j => e9 j j.2
    unfold computeStepFl
    simp only [e1, e2, e3, e4, f5, f6, f7, f8, f9]
  · obtain ⟨a, b⟩ := y
    obtain ⟨e1, e2, e3, e4, e5, e6, e7, e8, e9⟩ := hy
    dsimp only at e1 e2 e3 e4 e5 e6 e7 e8 e9
    have hacc := accumulateStagesFl_congr dot T i a.stageUpdates b.stageUpdates
      fun j hj => e6 j hj
    unfold computeStageFl
    simp only [e1, e2, e3, hacc]
    refine ⟨rfl, rfl, rfl, e4, ?_, ?_, ?_, ?_, ?_⟩
    · exact fun j hj => update_same rfl e5 hj
    · exact fun j hj => update_same rfl e6 hj
    · exact fun j hj => update_same rfl e7 hj
    · exact fun j hj => update_same rfl e8 hj
    · exact fun j hj => update_same rfl e9 hj

theorem computeStepEmbFl_congr (fl : ℝ → ℝ) (dot : List (ℝ × ℝ) → ℝ) (T : Coeffs ℝ s)
    (bhat : Fin s → ℝ) (ode : ODE ℝ n m o l) {a b : EmbRKState ℝ s n m o l}
    (hab : rkObs a.toRKState = rkObs b.toRKState) (h : ℝ) :
    computeStepEmbFl fl dot T bhat ode a h = computeStepEmbFl fl dot T bhat ode b h := by
  unfold computeStepEmbFl
  rw [computeStepFl_congr fl dot T ode hab h]

theorem derivFl_rkObs (fl : ℝ → ℝ) (dot : List (ℝ × ℝ) → ℝ) (T : Coeffs ℝ s) (od : ODE ℝ n m o l)
    (a b p q : RKState ℝ s n m o l) (h : ℝ)
    (hl : a.linearizationPoints = b.linearizationPoints) (hp : rkObs p = rkObs q) :
    rkObs (computeStepDerivativeFl fl dot T od a p h)
      = rkObs (computeStepDerivativeFl fl dot T od b q h) := by
  obtain ⟨h1, h2, h3⟩ := rkObs_eq hp
  have r1 := computeStepDerivativeFl_result fl dot T od a p h
  have r2 := computeStepDerivativeFl_result fl dot T od b q h
  rw [h1, h2, h3, hl] at r1
  have hu : (computeStepDerivativeFl fl dot T od a p h).stageUpdates
      = (computeStepDerivativeFl fl dot T od b q h).stageUpdates :=
    sweep_unique
      (fun i k => (od.computeUpdateDerivative (b.linearizationPoints i)
        (stageInDFl dot T q.finalTime q.finalState q.independentInputs k i) h
        (T.A i i)).stageUpdate)
      (fun i k k' hkk => by simp only [stageInDFl_congr T _ _ _ k k' i hkk])
      _ _ r1.update r2.update
  simp only [rkObs, r1.finalTime, r2.finalTime, r1.finalState, r2.finalState, r1.indep, r2.indep, hu]

theorem adj_foldl_sameFl (fl : ℝ → ℝ) (T : Coeffs ℝ s) (od : ODE ℝ n m o l) (h : ℝ)
    (lin : Fin s → Fin l → ℝ) (is : List (Fin s)) {r q : RKState ℝ s n m o l} (hrq : AdjSame r q) :
    AdjSame (is.foldl (computeStageAdjointFl fl T od h lin) r)
      (is.foldl (computeStageAdjointFl fl T od h lin) q) := by
  induction is generalizing r q with
  | nil => exact hrq
  | cons i is ih =>
    refine ih ?_
    obtain ⟨h1, h2, h3, h4, h5, h6, h7⟩ := hrq
    constructor <;> simp only [computeStageAdjointFl, h1, h2, h3, h4, h5, h6, h7]

theorem adjFl_rkObs (fl : ℝ → ℝ) (T : Coeffs ℝ s) (od : ODE ℝ n m o l)
    (a b p q : RKState ℝ s n m o l) (h : ℝ)
    (hl : a.linearizationPoints = b.linearizationPoints) (hp : rkObs p = rkObs q)
    (hs : p.stageStates = q.stageStates) :
    rkObs (computeStepAdjointFl fl T od a p h) = rkObs (computeStepAdjointFl fl T od b q h) := by
  obtain ⟨h1, h2, h3⟩ := rkObs_eq hp
  unfold computeStepAdjointFl
  rw [hl]
  have key := adj_foldl_sameFl fl T od h b.linearizationPoints (List.finRange s).reverse
    (r := adjointStartFl fl T p h) (q := adjointStartFl fl T q h)
    ⟨h3, rfl, h2, by simp only [adjointStartFl, h2], by simp only [adjointStartFl, h1], hs, rfl⟩
  simp only [rkObs, shiftStateReverse, key.indep, key.start, key.time]

theorem adjFl_stageStates (fl : ℝ → ℝ) (T : Coeffs ℝ s) (od : ODE ℝ n m o l)
    (a p : RKState ℝ s n m o l) (h : ℝ) :
    (computeStepAdjointFl fl T od a p h).stageStates = p.stageStates := by
  have key : ∀ (is : List (Fin s)) (r : RKState ℝ s n m o l),
      (is.foldl (computeStageAdjointFl fl T od h a.linearizationPoints) r).stageStates
        = r.stageStates := by
    intro is
    induction is with
    | nil => intro r; rfl
    | cons i is ih => intro r; rw [List.foldl_cons, ih]; rfl
  exact key _ _

theorem derivFl_stageStates (fl : ℝ → ℝ) (dot : List (ℝ × ℝ) → ℝ) (T : Coeffs ℝ s)
    (od : ODE ℝ n m o l) (hz : NoStageState od) (a p : RKState ℝ s n m o l) (h : ℝ) :
    (computeStepDerivativeFl fl dot T od a p h).stageStates = 0 := by
  have key := Loop.foldl_finRange (computeStageDerivativeFl dot T od h a.linearizationPoints)
    (fun q r => ∀ i : Fin s, i.val < q → r.stageStates i = 0)
    (shiftState p) (by simp) (fun i r hr j hj => by
      simp only [computeStageDerivativeFl]
      by_cases e : j = i
      · subst e
        rw [Function.update_self, hz]
      · rw [Function.update_of_ne e]
        exact hr j (by
          have : j.val ≠ i.val := fun hh => e (Fin.ext hh)
          omega))
  exact funext fun i => key i i.2

/-! ### Laws -/

/-- The plain backend with rounded derivatives obeys the laws. -/
noncomputable def rkFloatDLawful (fl : ℝ → ℝ) (dot : List (ℝ × ℝ) → ℝ) (T : ℝ) (E : Env s n m o l)
    (od : ODE ℝ n m o l) (hz : NoStageState od) : Lawful (rkFloatD fl dot T E od) where
  Q := StartingValues ℝ n m
  L := Fin s → Fin l → ℝ
  obs := rkObs
  lin := fun d => d.linearizationPoints
  Clean := fun d => d.stageStates = 0
  step_obs := by
    intro a b h hab
    cases h <;> simp only [rkFloatD, rkFloat, hab]
    rw [computeStepFl_congr fl dot E.T E.ode hab]
  time_obs := by
    intro a b hab
    simp only [rkFloatD, rkFloat, (rkObs_eq hab).1]
  read_obs := by
    intro a b hab
    obtain ⟨h1, h2, h3⟩ := rkObs_eq hab
    simp only [rkFloatD, rkFloat, rkBackend, h1, h2]
  writeOut_obs := by
    intro a b v hab
    obtain ⟨h1, h2, h3⟩ := rkObs_eq hab
    simp only [rkFloatD, rkWriteOutFl, h1, h2]
  writeIn_obs := by
    intro a b v hab
    obtain ⟨h1, h2, h3⟩ := rkObs_eq hab
    simp only [rkFloatD, rkWriteInFl, h1, h2, h3]
  set_obs := fun a b => rfl
  set_lin := fun a b => rfl
  load_obs := fun a b i => rfl
  load_clean := fun a i h => h
  clear_obs := fun a => rfl
  seed_obs := fun a b v => rfl
  seed_clean := fun a v h => h
  deriv_obs := fun a b p q h hl hp => derivFl_rkObs fl dot E.T od a b p q _ hl hp
  deriv_clean := fun a p h _ => derivFl_stageStates fl dot E.T od hz a p _
  adj_obs := fun a b p q h hl hp cp cq =>
    adjFl_rkObs fl E.T od a b p q _ hl hp (by rw [cp, cq])
  adj_clean := fun a p h cp => by
    change (computeStepAdjointFl fl E.T od a p _).stageStates = 0
    rw [adjFl_stageStates, cp]

/-- The embedded backend with rounded derivatives obeys the laws. -/
noncomputable def embFloatDLawful (fl : ℝ → ℝ) (dot : List (ℝ × ℝ) → ℝ) (T : ℝ) (E : Env s n m o l)
    (bhat : Fin s → ℝ) (od : ODE ℝ n m o l) (hz : NoStageState od) :
    Lawful (embFloatD fl dot T E bhat od) where
  Q := StartingValues ℝ n m
  L := Fin s → Fin l → ℝ
  obs := fun d => rkObs d.toRKState
  lin := fun d => d.linearizationPoints
  Clean := fun d => d.stageStates = 0
  step_obs := by
    intro a b h hab
    cases h <;> simp only [embFloatD, embFloat, hab]
    rw [computeStepEmbFl_congr fl dot E.T bhat E.ode hab]
  time_obs := by
    intro a b hab
    simp only [embFloatD, embFloat, (rkObs_eq hab).1]
  read_obs := by
    intro a b hab
    obtain ⟨h1, h2, h3⟩ := rkObs_eq hab
    simp only [embFloatD, embFloat, embBackend, h1, h2]
  writeOut_obs := by
    intro a b v hab
    obtain ⟨h1, h2, h3⟩ := rkObs_eq hab
    simp only [embFloatD, rkWriteOutFl, h1, h2]
  writeIn_obs := by
    intro a b v hab
    obtain ⟨h1, h2, h3⟩ := rkObs_eq hab
    simp only [embFloatD, rkWriteInFl, h1, h2, h3]
  set_obs := fun a b => rfl
  set_lin := fun a b => rfl
  load_obs := fun a b i => rfl
  load_clean := fun a i h => h
  clear_obs := fun a => rfl
  seed_obs := fun a b v => rfl
  seed_clean := fun a v h => h
  deriv_obs := fun a b p q h hl hp => derivFl_rkObs fl dot E.T od _ _ _ _ _ hl hp
  deriv_clean := fun a p h _ => derivFl_stageStates fl dot E.T od hz _ _ _
  adj_obs := fun a b p q h hl hp cp cq =>
    adjFl_rkObs fl E.T od _ _ _ _ _ hl hp (by rw [cp, cq])
  adj_clean := fun a p h cp => by
    change (computeStepAdjointFl fl E.T od a.toRKState p.toRKState _).stageStates = 0
    rw [adjFl_stageStates, cp]

/-! ### Two backends with the same steps -/

/-- `B'` works as `B`, apart from the derivatives: `B` has exact, `B'` rounded ones. -/
structure FlDCore (fl : ℝ → ℝ) (dot : List (ℝ × ℝ) → ℝ)
    (B' B : Backend D (StartingValues ℝ n m) (Outputs n)) (E : Env s n m o l) (od : ODE ℝ n m o l)
    where
  core : D → RKState ℝ s n m o l
  step : B'.step = B.step
  time : B'.time = B.time
  measure : B'.measure = B.measure
  set : B'.set = B.set
  load : B'.load = B.load
  cacheHit : B'.cacheHit = B.cacheHit
  clearLin : B'.clearLin = B.clearLin
  seed : B'.seed = B.seed
  load_core : ∀ d i, core (B.load d i) = rkLoad (core d) i
  seed_core : ∀ d v, core (B.seed d v) = rkSeed (core d) v
  deriv_core : ∀ d p h,
    core (B.deriv d p h) = computeStepDerivative E.T E.ode (core d) (core p) (toReal h)
  adj_core : ∀ d p h,
    core (B.adj d p h) = computeStepAdjoint E.T E.ode (core d) (core p) (toReal h)
  deriv_core' : ∀ d p h,
    core (B'.deriv d p h) = computeStepDerivativeFl fl dot E.T od (core d) (core p) (toReal h)
  adj_core' : ∀ d p h,
    core (B'.adj d p h) = computeStepAdjointFl fl E.T od (core d) (core p) (toReal h)
  writeOut_core : ∀ d v, B.writeOut d v = rkWriteOut (core d) v
  writeIn_core : ∀ d i, B.writeIn d i = rkWriteIn (core d) i
  writeOut_core' : ∀ d v, B'.writeOut d v = rkWriteOutFl fl (core d) v
  writeIn_core' : ∀ d i, B'.writeIn d i = rkWriteInFl fl (core d) i

/-- The plain backends. -/
def rkFlD (fl : ℝ → ℝ) (dot : List (ℝ × ℝ) → ℝ) (T : ℝ) (E : Env s n m o l) (od : ODE ℝ n m o l) :
    FlDCore fl dot (rkFloatD fl dot T E od) (rkFloat fl dot T E) E od where
  core := id
  step := rfl
  time := rfl
  measure := rfl
  set := rfl
  load := rfl
  cacheHit := rfl
  clearLin := rfl
  seed := rfl
  load_core := fun _ _ => rfl
  seed_core := fun _ _ => rfl
  deriv_core := fun _ _ _ => rfl
  adj_core := fun _ _ _ => rfl
  deriv_core' := fun _ _ _ => rfl
  adj_core' := fun _ _ _ => rfl
  writeOut_core := fun _ _ => rfl
  writeIn_core := fun _ _ => rfl
  writeOut_core' := fun _ _ => rfl
  writeIn_core' := fun _ _ => rfl

/-- The embedded backends. -/
def embFlD (fl : ℝ → ℝ) (dot : List (ℝ × ℝ) → ℝ) (T : ℝ) (E : Env s n m o l) (bhat : Fin s → ℝ)
    (od : ODE ℝ n m o l) :
    FlDCore fl dot (embFloatD fl dot T E bhat od) (embFloat fl dot T E bhat) E od where
  core := EmbRKState.toRKState
  step := rfl
  time := rfl
  measure := rfl
  set := rfl
  load := rfl
  cacheHit := rfl
  clearLin := rfl
  seed := rfl
  load_core := fun _ _ => rfl
  seed_core := fun _ _ => rfl
  deriv_core := fun _ _ _ => rfl
  adj_core := fun _ _ _ => rfl
  deriv_core' := fun _ _ _ => rfl
  adj_core' := fun _ _ _ => rfl
  writeOut_core := fun _ _ => rfl
  writeIn_core := fun _ _ => rfl
  writeOut_core' := fun _ _ => rfl
  writeIn_core' := fun _ _ => rfl

section
variable {fl : ℝ → ℝ} {dot : List (ℝ × ℝ) → ℝ}
  {B' B : Backend D (StartingValues ℝ n m) (Outputs n)} {E : Env s n m o l} {od : ODE ℝ n m o l}
  {opt : Options}

theorem FlDCore.iterate (C : FlDCore fl dot B' B E od) (f : ℕ) (c : Ctrl) (x : IState D) :
    iterateOnStep B' opt f c x = iterateOnStep B opt f c x := by
  induction f generalizing c x with
  | zero => rfl
  | succ f ih => simp only [iterateOnStep, C.step, C.measure, C.time, C.set, ih]

/-- Both backends have the same runs. -/
theorem FlDCore.run (C : FlDCore fl dot B' B E od) {it : ℕ} {c : Ctrl} {x : IState D}
    {tr : List (Ctrl × IState D)} (h : Run B' opt it c x tr) : Run B opt it c x tr := by
  induction h with
  | done h => exact .done (by rwa [← C.time])
  | step h hs _ ih => exact .step (by rwa [← C.time]) (by rw [← C.iterate]; exact hs) ih

theorem FlDCore.run' (C : FlDCore fl dot B' B E od) {it : ℕ} {c : Ctrl} {x : IState D}
    {tr : List (Ctrl × IState D)} (h : Run B opt it c x tr) : Run B' opt it c x tr := by
  induction h with
  | done h => exact .done (by rwa [C.time])
  | step h hs _ ih => exact .step (by rwa [C.time]) (by rw [C.iterate]; exact hs) ih

theorem FlDCore.start (C : FlDCore fl dot B' B E od) (c : Ctrl) (d : D) (i : StartingValues ℝ n m) :
    startOf B' opt c d i = startOf B opt c d i := by
  simp only [startOf, C.load, C.clearLin]

theorem FlDCore.startFwd (C : FlDCore fl dot B' B E od) (c : Ctrl) (d : D)
    (i : StartingValues ℝ n m) : startOfFwd B' opt c d i = startOfFwd B opt c d i := by
  simp only [startOfFwd, C.load]

end

end Verif.Fl
