/-
Runge-Kutta steps with a stage problem that has a memory.

Source: /repo/src/rkopenmdao/time_discretization/stage_ordered_runge_kutta_discretization.py
        /repo/src/rkopenmdao/discretized_ode/discretized_ode.py
-/
import Verif.RK.Model

namespace Verif.RK

variable {K ε M : Type} {s n m o l : ℕ}

/-- `DiscretizedODE`, discretized_ode.py L71-221, with its memory before and after each call. An
evaluation may raise an exception. -/
structure MOde (ε M K : Type) (n m o l : ℕ) where
  computeUpdate : M → OdeInput K n m → K → K → M × Except ε (OdeOut K n o × (Fin l → K))
  computeUpdateDerivative : M → (Fin l → K) → OdeInput K n m → K → K → M × OdeOut K n o
  computeUpdateAdjoint : M → (Fin l → K) → OdeOut K n o → K → K → M × OdeInput K n m

section Ring
variable [CommRing K]

/-- `_compute_stage`, stage_ordered...py L210-243. -/
def computeStageM (T : Coeffs K s) (S : MOde ε M K n m o l) (h : K) (w : M)
    (st : RKState K s n m o l) (i : Fin s) : M × Except ε (RKState K s n m o l) :=
  let ti := st.startTime + h * T.c i
  match S.computeUpdate w
    { stepInput := st.startState
      stageInput := accumulateStages T i st.stageUpdates
      independentInput := st.independentInputs
      time := ti } h (T.A i i) with
  | (w', .error e) => (w', .error e)
  | (w', .ok r) => (w', .ok
    { st with
      stageTimes := Function.update st.stageTimes i ti
      stageUpdates := Function.update st.stageUpdates i r.1.stageUpdate
      stageStates := Function.update st.stageStates i r.1.stageState
      stageIndependentOutputs :=
        Function.update st.stageIndependentOutputs i r.1.independentOutput
      linearizationPoints := Function.update st.linearizationPoints i r.2 })

/-- The loop over the stages of `compute_step`, stage_ordered...py L61-64. -/
def stagesM (T : Coeffs K s) (S : MOde ε M K n m o l) (h : K) :
    List (Fin s) → M → RKState K s n m o l → M × Except ε (RKState K s n m o l)
  | [], w, st => (w, .ok st)
  | i :: is, w, st =>
    match computeStageM T S h w st i with
    | (w', .error e) => (w', .error e)
    | (w', .ok st') => stagesM T S h is w' st'

/-- `compute_step`, stage_ordered...py L53-80. -/
def computeStepM (T : Coeffs K s) (S : MOde ε M K n m o l) (w : M) (st : RKState K s n m o l)
    (h : K) : M × Except ε (RKState K s n m o l) :=
  match stagesM T S h (List.finRange s) w { shiftState st with stepSize := h } with
  | (w', .error e) => (w', .error e)
  | (w', .ok st2) => (w', .ok
    { st2 with
      finalTime := st2.startTime + h
      finalState := accumulateStep T.b st2.startState st2.stageUpdates h
      finalIndependentOutputs := 0 })

/-- Embedded `compute_step`, stage_ordered...py L546-555. -/
def computeStepEmbM (T : Coeffs K s) (bhat : Fin s → K) (S : MOde ε M K n m o l) (w : M)
    (st : EmbRKState K s n m o l) (h : K) : M × Except ε (EmbRKState K s n m o l) :=
  match computeStepM T S w st.toRKState h with
  | (w', .error e) => (w', .error e)
  | (w', .ok r) => (w', .ok (computeErrorEstimate bhat { st with toRKState := r } h))

/-- `_compute_stage_derivative`, stage_ordered...py L245-281. -/
def computeStageDerivativeM (T : Coeffs K s) (S : MOde ε M K n m o l) (h : K)
    (lin : Fin s → Fin l → K) (x : M × RKState K s n m o l) (i : Fin s) :
    M × RKState K s n m o l :=
  let pert := x.2
  let ti := pert.startTime
  let r := S.computeUpdateDerivative x.1 (lin i)
    { stepInput := pert.startState
      stageInput := accumulateStages T i pert.stageUpdates
      independentInput := pert.independentInputs
      time := ti } h (T.A i i)
  (r.1, { pert with
    stageTimes := Function.update pert.stageTimes i ti
    stageUpdates := Function.update pert.stageUpdates i r.2.stageUpdate
    stageStates := Function.update pert.stageStates i r.2.stageState
    stageIndependentOutputs :=
      Function.update pert.stageIndependentOutputs i r.2.independentOutput })

/-- `compute_step_derivative`, stage_ordered...py L82-127. -/
def computeStepDerivativeM (T : Coeffs K s) (S : MOde ε M K n m o l) (w : M)
    (st pert : RKState K s n m o l) (h : K) : M × RKState K s n m o l :=
  let p2 := (List.finRange s).foldl
    (computeStageDerivativeM T S h st.linearizationPoints) (w, shiftState pert)
  (p2.1, { p2.2 with
    finalTime := p2.2.startTime
    finalState := accumulateStep T.b p2.2.startState p2.2.stageUpdates h
    finalIndependentOutputs := 0 })

/-- `_compute_stage_adjoint_derivative`, stage_ordered...py L283-323. -/
def computeStageAdjointM (T : Coeffs K s) (S : MOde ε M K n m o l) (h : K)
    (lin : Fin s → Fin l → K) (x : M × RKState K s n m o l) (i : Fin s) :
    M × RKState K s n m o l :=
  let pert := x.2
  let q := S.computeUpdateAdjoint x.1 (lin i)
    { stageUpdate := pert.stageUpdates i
      stageState := pert.stageStates i
      independentOutput := pert.stageIndependentOutputs i } h (T.A i i)
  let r := q.2
  let ti := pert.stageTimes i + r.time
  (q.1, { pert with
    independentInputs := pert.independentInputs + r.independentInput
    stageTimes := Function.update pert.stageTimes i ti
    startState := pert.startState + r.stepInput
    stageUpdates := fun j =>
      if j < i then pert.stageUpdates j + fun x => T.A i j * r.stageInput x
      else pert.stageUpdates j
    startTime := pert.startTime + ti })

/-- `compute_step_adjoint_derivative`, stage_ordered...py L129-178. -/
def computeStepAdjointM (T : Coeffs K s) (S : MOde ε M K n m o l) (w : M)
    (st pert : RKState K s n m o l) (h : K) : M × RKState K s n m o l :=
  let p1 : RKState K s n m o l :=
    { pert with
      stageTimes := 0
      stageIndependentOutputs := 0
      finalTime := pert.finalTime + 0
      startState := pert.finalState
      stageUpdates := fun i x => h * T.b i * pert.finalState x
      startTime := pert.finalTime + 0 }
  let p2 := (List.finRange s).reverse.foldl
    (computeStageAdjointM T S h st.linearizationPoints) (w, p1)
  (p2.1, shiftStateReverse p2.2)

/-! ### When the memory does not matter -/

/-- As long as the memory satisfies `Inv`, the stage problem behaves as the function `ode`, and `Inv`
stays true; derivatives only at points `Good`, which those of evaluations are. Only step sizes and
stage factors `Ok` are considered. -/
structure OdeSim (ode : ODE K n m o l) (S : MOde ε M K n m o l) (Inv : M → Prop)
    (Good : (Fin l → K) → Prop) (Ok : K → K → Prop) : Prop where
  update : ∀ w z h a, Ok h a → Inv w →
    (S.computeUpdate w z h a).2 = .ok (ode.computeUpdate z h a)
  update_inv : ∀ w z h a, Ok h a → Inv w → Inv (S.computeUpdate w z h a).1
  good : ∀ z h a, Ok h a → Good (ode.computeUpdate z h a).2
  deriv : ∀ w p z h a, Ok h a → Inv w → Good p →
    (S.computeUpdateDerivative w p z h a).2 = ode.computeUpdateDerivative p z h a
  deriv_inv : ∀ w p z h a, Ok h a → Inv w → Good p →
    Inv (S.computeUpdateDerivative w p z h a).1
  adj : ∀ w p z h a, Ok h a → Inv w → Good p →
    (S.computeUpdateAdjoint w p z h a).2 = ode.computeUpdateAdjoint p z h a
  adj_inv : ∀ w p z h a, Ok h a → Inv w → Good p → Inv (S.computeUpdateAdjoint w p z h a).1

variable {ode : ODE K n m o l} {S : MOde ε M K n m o l} {Inv : M → Prop}
  {Good : (Fin l → K) → Prop} {Ok : K → K → Prop}

theorem computeStageM_sim (hS : OdeSim ode S Inv Good Ok) (T : Coeffs K s) (h : K)
    (ho : ∀ i, Ok h (T.A i i)) {w : M} (hw : Inv w) (st : RKState K s n m o l) (i : Fin s) :
    (computeStageM T S h w st i).2 = .ok (computeStage T ode h st i) ∧
    Inv (computeStageM T S h w st i).1 := by
  have h1 := hS.update w
    ⟨st.startState, accumulateStages T i st.stageUpdates, st.independentInputs,
      st.startTime + h * T.c i⟩ h (T.A i i) (ho i) hw
  have h2 := hS.update_inv w
    ⟨st.startState, accumulateStages T i st.stageUpdates, st.independentInputs,
      st.startTime + h * T.c i⟩ h (T.A i i) (ho i) hw
  simp only [computeStageM, computeStage]
  rcases hc : S.computeUpdate w
    ⟨st.startState, accumulateStages T i st.stageUpdates, st.independentInputs,
      st.startTime + h * T.c i⟩ h (T.A i i) with ⟨w', e | r⟩
  · rw [hc] at h1; cases h1
  · rw [hc] at h1 h2
    cases h1
    exact ⟨rfl, h2⟩

theorem stagesM_sim (hS : OdeSim ode S Inv Good Ok) (T : Coeffs K s) (h : K)
    (ho : ∀ i, Ok h (T.A i i)) (is : List (Fin s)) {w : M} (hw : Inv w) (st : RKState K s n m o l) :
    (stagesM T S h is w st).2 = .ok (is.foldl (computeStage T ode h) st) ∧
    Inv (stagesM T S h is w st).1 := by
  induction is generalizing w st with
  | nil => exact ⟨rfl, hw⟩
  | cons i is ih =>
    obtain ⟨h1, h2⟩ := computeStageM_sim hS T h ho hw st i
    simp only [stagesM, List.foldl_cons]
    rcases hc : computeStageM T S h w st i with ⟨w', e | r⟩
    · rw [hc] at h1; cases h1
    · rw [hc] at h1 h2
      cases h1
      exact ih h2 _

theorem computeStepM_sim (hS : OdeSim ode S Inv Good Ok) (T : Coeffs K s) (h : K)
    (ho : ∀ i, Ok h (T.A i i)) {w : M} (hw : Inv w) (st : RKState K s n m o l) :
    (computeStepM T S w st h).2 = .ok (computeStep T ode st h) ∧
    Inv (computeStepM T S w st h).1 := by
  obtain ⟨h1, h2⟩ := stagesM_sim hS T h ho (List.finRange s) hw { shiftState st with stepSize := h }
  simp only [computeStepM, computeStep]
  rcases hc : stagesM T S h (List.finRange s) w { shiftState st with stepSize := h }
    with ⟨w', e | r⟩
  · rw [hc] at h1; cases h1
  · rw [hc] at h1 h2
    cases h1
    exact ⟨rfl, h2⟩

theorem computeStepEmbM_sim (hS : OdeSim ode S Inv Good Ok) (T : Coeffs K s) (bhat : Fin s → K) (h : K)
    (ho : ∀ i, Ok h (T.A i i)) {w : M} (hw : Inv w) (st : EmbRKState K s n m o l) :
    (computeStepEmbM T bhat S w st h).2 = .ok (computeStepEmb T bhat ode st h) ∧
    Inv (computeStepEmbM T bhat S w st h).1 := by
  obtain ⟨h1, h2⟩ := computeStepM_sim hS T h ho hw st.toRKState
  simp only [computeStepEmbM, computeStepEmb]
  rcases hc : computeStepM T S w st.toRKState h with ⟨w', e | r⟩
  · rw [hc] at h1; cases h1
  · rw [hc] at h1 h2
    cases h1
    exact ⟨rfl, h2⟩

theorem stages_good (hS : OdeSim ode S Inv Good Ok) (T : Coeffs K s) (h : K)
    (ho : ∀ i, Ok h (T.A i i)) (is : List (Fin s))
    (st : RKState K s n m o l) (i : Fin s)
    (hi : i ∈ is ∨ Good (st.linearizationPoints i)) :
    Good ((is.foldl (computeStage T ode h) st).linearizationPoints i) := by
  induction is generalizing st with
  | nil => simpa using hi
  | cons j is ih =>
    simp only [List.foldl_cons]
    apply ih
    by_cases hj : i = j
    · right
      subst hj
      simp only [computeStage, Function.update_self]
      exact hS.good _ _ _ (ho i)
    · rcases hi with hi | hi
      · left
        rcases List.mem_cons.mp hi with hi | hi
        · exact absurd hi hj
        · exact hi
      · right
        simp only [computeStage]
        rw [Function.update_of_ne hj]
        exact hi

theorem computeStep_good (hS : OdeSim ode S Inv Good Ok) (T : Coeffs K s) (h : K)
    (ho : ∀ i, Ok h (T.A i i)) (st : RKState K s n m o l) (i : Fin s) :
    Good ((computeStep T ode st h).linearizationPoints i) :=
  stages_good hS T h ho (List.finRange s) _ i (.inl (List.mem_finRange i))

theorem stagesDerivM_sim (hS : OdeSim ode S Inv Good Ok) (T : Coeffs K s) (h : K)
    (ho : ∀ i, Ok h (T.A i i))
    (lin : Fin s → Fin l → K) (hl : ∀ i, Good (lin i)) (is : List (Fin s)) {w : M} (hw : Inv w)
    (p : RKState K s n m o l) :
    (is.foldl (computeStageDerivativeM T S h lin) (w, p)).2
      = is.foldl (computeStageDerivative T ode h lin) p ∧
    Inv (is.foldl (computeStageDerivativeM T S h lin) (w, p)).1 := by
  induction is generalizing w p with
  | nil => exact ⟨rfl, hw⟩
  | cons i is ih =>
    simp only [List.foldl_cons]
    have h1 := hS.deriv w (lin i) ⟨p.startState, accumulateStages T i p.stageUpdates,
      p.independentInputs, p.startTime⟩ h (T.A i i) (ho i) hw (hl i)
    have h2 := hS.deriv_inv w (lin i) ⟨p.startState, accumulateStages T i p.stageUpdates,
      p.independentInputs, p.startTime⟩ h (T.A i i) (ho i) hw (hl i)
    have h3 : computeStageDerivativeM T S h lin (w, p) i =
        ((S.computeUpdateDerivative w (lin i) ⟨p.startState, accumulateStages T i p.stageUpdates,
          p.independentInputs, p.startTime⟩ h (T.A i i)).1,
          computeStageDerivative T ode h lin p i) := by
      simp only [computeStageDerivativeM, computeStageDerivative]
      rw [h1]
    rw [h3]
    exact ih h2 _

theorem computeStepDerivativeM_sim (hS : OdeSim ode S Inv Good Ok) (T : Coeffs K s)
    (h : K) (ho : ∀ i, Ok h (T.A i i)) {w : M} (hw : Inv w) (st p : RKState K s n m o l)
    (hl : ∀ i, Good (st.linearizationPoints i)) :
    (computeStepDerivativeM T S w st p h).2 = computeStepDerivative T ode st p h ∧
    Inv (computeStepDerivativeM T S w st p h).1 := by
  obtain ⟨h1, h2⟩ := stagesDerivM_sim hS T h ho st.linearizationPoints hl (List.finRange s) hw
    (shiftState p)
  simp only [computeStepDerivativeM, computeStepDerivative]
  rw [h1]
  exact ⟨rfl, h2⟩

theorem stagesAdjM_sim (hS : OdeSim ode S Inv Good Ok) (T : Coeffs K s) (h : K)
    (ho : ∀ i, Ok h (T.A i i))
    (lin : Fin s → Fin l → K) (hl : ∀ i, Good (lin i)) (is : List (Fin s)) {w : M} (hw : Inv w)
    (p : RKState K s n m o l) :
    (is.foldl (computeStageAdjointM T S h lin) (w, p)).2
      = is.foldl (computeStageAdjoint T ode h lin) p ∧
    Inv (is.foldl (computeStageAdjointM T S h lin) (w, p)).1 := by
  induction is generalizing w p with
  | nil => exact ⟨rfl, hw⟩
  | cons i is ih =>
    simp only [List.foldl_cons]
    have h1 := hS.adj w (lin i) ⟨p.stageUpdates i, p.stageStates i, p.stageIndependentOutputs i⟩
      h (T.A i i) (ho i) hw (hl i)
    have h2 := hS.adj_inv w (lin i) ⟨p.stageUpdates i, p.stageStates i,
      p.stageIndependentOutputs i⟩ h (T.A i i) (ho i) hw (hl i)
    have h3 : computeStageAdjointM T S h lin (w, p) i =
        ((S.computeUpdateAdjoint w (lin i) ⟨p.stageUpdates i, p.stageStates i,
          p.stageIndependentOutputs i⟩ h (T.A i i)).1, computeStageAdjoint T ode h lin p i) := by
      simp only [computeStageAdjointM, computeStageAdjoint]
      rw [h1]
    rw [h3]
    exact ih h2 _

theorem computeStepAdjointM_sim (hS : OdeSim ode S Inv Good Ok) (T : Coeffs K s)
    (h : K) (ho : ∀ i, Ok h (T.A i i)) {w : M} (hw : Inv w) (st p : RKState K s n m o l)
    (hl : ∀ i, Good (st.linearizationPoints i)) :
    (computeStepAdjointM T S w st p h).2 = computeStepAdjoint T ode st p h ∧
    Inv (computeStepAdjointM T S w st p h).1 := by
  obtain ⟨h1, h2⟩ := stagesAdjM_sim hS T h ho st.linearizationPoints hl (List.finRange s).reverse hw
    { p with
      stageTimes := 0
      stageIndependentOutputs := 0
      finalTime := p.finalTime + 0
      startState := p.finalState
      stageUpdates := fun i x => h * T.b i * p.finalState x
      startTime := p.finalTime + 0 }
  simp only [computeStepAdjointM, computeStepAdjoint]
  rw [h1]
  exact ⟨rfl, h2⟩

/-- If every call of the adjoint brings the memory to `Inv`, a step does as well. -/
theorem computeStepAdjointM_restores
    (hr : ∀ w p z h a, Good p → Inv (S.computeUpdateAdjoint w p z h a).1) (hs : 0 < s)
    (T : Coeffs K s) (h : K) (w : M) (st p : RKState K s n m o l)
    (hl : ∀ i, Good (st.linearizationPoints i)) : Inv (computeStepAdjointM T S w st p h).1 := by
  have key : ∀ (is : List (Fin s)) (x : M × RKState K s n m o l), (is ≠ [] ∨ Inv x.1) →
      Inv (is.foldl (computeStageAdjointM T S h st.linearizationPoints) x).1 := by
    intro is
    induction is with
    | nil => intro x hx; simpa using hx
    | cons i is ih =>
      intro x _
      rw [List.foldl_cons]
      exact ih _ (.inr (hr _ _ _ _ _ (hl i)))
  refine key (List.finRange s).reverse _ (.inl ?_)
  rw [Ne, List.reverse_eq_nil_iff, List.finRange_eq_nil_iff]
  omega

end Ring

end Verif.RK
