/-
The Runge-Kutta discretizations on several MPI ranks.

Source: /repo/src/rkopenmdao/time_discretization/stage_ordered_runge_kutta_discretization.py L53-323
        /repo/src/rkopenmdao/runge_kutta_integrator.py L438-515, L639-712, L779-845

Every rank has arrays of its own sizes. An entry of an array of a rank is an entry of the global
array; entries of replicated quantities are on all ranks. Each rank does the arithmetic of a step on
its arrays, the stage problem is solved by all ranks together (`JointODE`).
-/
import Verif.Parallel.Lockstep
import Verif.Integrator.RK

namespace Verif.Parallel

open Verif.RK Verif.Control Verif.XReal Verif.Integrator
open Classical

variable {R s n m o l : ℕ}

/-- Which entries of the global arrays a rank has: values, independent inputs, independent outputs,
linearization points. -/
structure Layout (R n m o l : ℕ) where
  nr : Fin R → ℕ
  mr : Fin R → ℕ
  qr : Fin R → ℕ
  lr : Fin R → ℕ
  val : ∀ r, Fin (nr r) → Fin n
  ind : ∀ r, Fin (mr r) → Fin m
  out : ∀ r, Fin (qr r) → Fin o
  lin : ∀ r, Fin (lr r) → Fin l
  /-- every entry is on some rank -/
  cover : ∀ x, ∃ r y, val r y = x
  coverInd : ∀ x, ∃ r y, ind r y = x
  coverOut : ∀ x, ∃ r y, out r y = x
  coverLin : ∀ x, ∃ r y, lin r y = x

variable (Y : Layout R n m o l)

/-- The state of a rank. -/
abbrev Layout.State (s : ℕ) (r : Fin R) : Type := RKState ℝ s (Y.nr r) (Y.mr r) (Y.qr r) (Y.lr r)

/-- The state of a rank with embedded scheme. -/
abbrev Layout.EmbState (s : ℕ) (r : Fin R) : Type :=
  EmbRKState ℝ s (Y.nr r) (Y.mr r) (Y.qr r) (Y.lr r)

/-- The part of a state on a rank; times and step size are on all of them. -/
def Layout.part (d : RKState ℝ s n m o l) (r : Fin R) : Y.State s r where
  startState := fun x => d.startState (Y.val r x)
  stageStates := fun i x => d.stageStates i (Y.val r x)
  stageUpdates := fun i x => d.stageUpdates i (Y.val r x)
  finalState := fun x => d.finalState (Y.val r x)
  independentInputs := fun x => d.independentInputs (Y.ind r x)
  stageIndependentOutputs := fun i x => d.stageIndependentOutputs i (Y.out r x)
  finalIndependentOutputs := fun x => d.finalIndependentOutputs (Y.out r x)
  startTime := d.startTime
  stageTimes := d.stageTimes
  finalTime := d.finalTime
  stepSize := d.stepSize
  linearizationPoints := fun i x => d.linearizationPoints i (Y.lin r x)

/-- The part of an embedded state on a rank. -/
def Layout.embPart (d : EmbRKState ℝ s n m o l) (r : Fin R) : Y.EmbState s r where
  toRKState := Y.part d.toRKState r
  embeddedState := fun x => d.embeddedState (Y.val r x)
  errorEstimate := fun x => d.errorEstimate (Y.val r x)

/-- The part of the inputs of the component on a rank. -/
def Layout.inputs (i : StartingValues ℝ n m) (r : Fin R) : StartingValues ℝ (Y.nr r) (Y.mr r) :=
  ⟨i.initialTime, fun x => i.initialValues (Y.val r x), fun x => i.independentInputs (Y.ind r x)⟩

/-- The part of the outputs of the component on a rank. -/
def Layout.outputs (v : Outputs n) (r : Fin R) : Outputs (Y.nr r) :=
  ⟨v.time, fun x => v.values (Y.val r x)⟩

/-- The part of the input of a stage on a rank. -/
def Layout.odeInput (i : OdeInput ℝ n m) (r : Fin R) : OdeInput ℝ (Y.nr r) (Y.mr r) :=
  ⟨fun x => i.stepInput (Y.val r x), fun x => i.stageInput (Y.val r x),
    fun x => i.independentInput (Y.ind r x), i.time⟩

/-- The part of the result of a stage on a rank. -/
def Layout.odeOut (v : OdeOut ℝ n o) (r : Fin R) : OdeOut ℝ (Y.nr r) (Y.qr r) :=
  ⟨fun x => v.stageUpdate (Y.val r x), fun x => v.stageState (Y.val r x),
    fun x => v.independentOutput (Y.out r x)⟩

/-- The part of a linearization point on a rank. -/
def Layout.linPoint (v : Fin l → ℝ) (r : Fin R) : Fin (Y.lr r) → ℝ := fun x => v (Y.lin r x)

/-- The stage problem on all ranks: every rank gives its input, step size and factor, and gets its
result. discretized_ode.py L78-165 -/
structure JointODE where
  update : (∀ r, OdeInput ℝ (Y.nr r) (Y.mr r)) → (Fin R → ℝ) → (Fin R → ℝ) →
    ∀ r, OdeOut ℝ (Y.nr r) (Y.qr r) × (Fin (Y.lr r) → ℝ)
  derivative : (∀ r, Fin (Y.lr r) → ℝ) → (∀ r, OdeInput ℝ (Y.nr r) (Y.mr r)) → (Fin R → ℝ) →
    (Fin R → ℝ) → ∀ r, OdeOut ℝ (Y.nr r) (Y.qr r)
  adjoint : (∀ r, Fin (Y.lr r) → ℝ) → (∀ r, OdeOut ℝ (Y.nr r) (Y.qr r)) → (Fin R → ℝ) →
    (Fin R → ℝ) → ∀ r, OdeInput ℝ (Y.nr r) (Y.mr r)

/-- The ranks together solve the stage problem of a single rank: if they agree in step size and
factor, each gets its part of the solution. -/
structure JointODE.Solves {Y : Layout R n m o l} (jo : JointODE Y) (ode : ODE ℝ n m o l) : Prop where
  update : ∀ x h a, jo.update (Y.odeInput x) (fun _ => h) (fun _ => a)
    = fun r => (Y.odeOut (ode.computeUpdate x h a).1 r, Y.linPoint (ode.computeUpdate x h a).2 r)
  derivative : ∀ lin x h a, jo.derivative (Y.linPoint lin) (Y.odeInput x) (fun _ => h)
    (fun _ => a) = Y.odeOut (ode.computeUpdateDerivative lin x h a)
  adjoint : ∀ lin v h a, jo.adjoint (Y.linPoint lin) (Y.odeOut v) (fun _ => h) (fun _ => a)
    = Y.odeInput (ode.computeUpdateAdjoint lin v h a)

variable {Y}

/-- The stage problem as a rank sees it: it gets the results of the joint solution. -/
def given {n m o l : ℕ} (u : OdeOut ℝ n o × (Fin l → ℝ)) (w : OdeInput ℝ n m) : ODE ℝ n m o l :=
  ⟨fun _ _ _ => u, fun _ _ _ _ => u.1, fun _ _ _ _ => w⟩

/-- `_compute_stage` on all ranks, stage_ordered...py L210-243. -/
noncomputable def stageAll (T : Coeffs ℝ s) (jo : JointODE Y) (h : Fin R → ℝ)
    (st : ∀ r, Y.State s r) (i : Fin s) : ∀ r, Y.State s r :=
  let res := jo.update (fun r =>
    { stepInput := (st r).startState
      stageInput := accumulateStages T i (st r).stageUpdates
      independentInput := (st r).independentInputs
      time := (st r).startTime + h r * T.c i }) h (fun _ => T.A i i)
  fun r => computeStage T (given (res r) ⟨0, 0, 0, 0⟩) (h r) (st r) i

/-- The end of `compute_step`, stage_ordered...py L65-80. -/
noncomputable def endStep {n m o l : ℕ} (T : Coeffs ℝ s) (h : ℝ) (st : RKState ℝ s n m o l) :
    RKState ℝ s n m o l :=
  { st with
    finalTime := st.startTime + h
    finalState := accumulateStep T.b st.startState st.stageUpdates h
    finalIndependentOutputs := 0 }

/-- `compute_step` on all ranks, stage_ordered...py L53-80. -/
noncomputable def stepAll (T : Coeffs ℝ s) (jo : JointODE Y) (st : ∀ r, Y.State s r)
    (h : Fin R → ℝ) : ∀ r, Y.State s r :=
  let st2 := (List.finRange s).foldl (stageAll T jo h) fun r =>
    { shiftState (st r) with stepSize := h r }
  fun r => endStep T (h r) (st2 r)

/-- `_compute_stage_derivative` on all ranks, stage_ordered...py L245-281. -/
noncomputable def stageDerivAll (T : Coeffs ℝ s) (jo : JointODE Y) (h : Fin R → ℝ)
    (lin : ∀ r, Fin s → Fin (Y.lr r) → ℝ) (pert : ∀ r, Y.State s r) (i : Fin s) :
    ∀ r, Y.State s r :=
  let res := jo.derivative (fun r => lin r i) (fun r =>
    { stepInput := (pert r).startState
      stageInput := accumulateStages T i (pert r).stageUpdates
      independentInput := (pert r).independentInputs
      time := (pert r).startTime }) h (fun _ => T.A i i)
  fun r => computeStageDerivative T (given (res r, 0) ⟨0, 0, 0, 0⟩) (h r) (lin r) (pert r) i

/-- The end of `compute_step_derivative`, stage_ordered...py L101-127. -/
noncomputable def endStepDeriv {n m o l : ℕ} (T : Coeffs ℝ s) (h : ℝ) (p : RKState ℝ s n m o l) :
    RKState ℝ s n m o l :=
  { p with
    finalTime := p.startTime
    finalState := accumulateStep T.b p.startState p.stageUpdates h
    finalIndependentOutputs := 0 }

/-- `compute_step_derivative` on all ranks, stage_ordered...py L82-127. -/
noncomputable def stepDerivAll (T : Coeffs ℝ s) (jo : JointODE Y) (st pert : ∀ r, Y.State s r)
    (h : Fin R → ℝ) : ∀ r, Y.State s r :=
  let p2 := (List.finRange s).foldl
    (stageDerivAll T jo h fun r => (st r).linearizationPoints) fun r => shiftState (pert r)
  fun r => endStepDeriv T (h r) (p2 r)

/-- `_compute_stage_adjoint_derivative` on all ranks, stage_ordered...py L283-323. -/
noncomputable def stageAdjAll (T : Coeffs ℝ s) (jo : JointODE Y) (h : Fin R → ℝ)
    (lin : ∀ r, Fin s → Fin (Y.lr r) → ℝ) (pert : ∀ r, Y.State s r) (i : Fin s) :
    ∀ r, Y.State s r :=
  let res := jo.adjoint (fun r => lin r i) (fun r =>
    { stageUpdate := (pert r).stageUpdates i
      stageState := (pert r).stageStates i
      independentOutput := (pert r).stageIndependentOutputs i }) h (fun _ => T.A i i)
  fun r => computeStageAdjoint T (given (⟨0, 0, 0⟩, 0) (res r)) (h r) (lin r) (pert r) i

/-- `compute_step_adjoint_derivative` on all ranks, stage_ordered...py L129-178. -/
noncomputable def stepAdjAll (T : Coeffs ℝ s) (jo : JointODE Y) (st pert : ∀ r, Y.State s r)
    (h : Fin R → ℝ) : ∀ r, Y.State s r :=
  let p2 := (List.finRange s).reverse.foldl
    (stageAdjAll T jo h fun r => (st r).linearizationPoints) fun r =>
      { pert r with
        stageTimes := 0
        stageIndependentOutputs := 0
        finalTime := (pert r).finalTime + 0
        startState := (pert r).finalState
        stageUpdates := fun i x => h r * T.b i * (pert r).finalState x
        startTime := (pert r).finalTime + 0 }
  fun r => shiftStateReverse (p2 r)

/-! ### The joint steps are the parts of the step of a single rank -/

theorem update_part {s k N : ℕ} (g : Fin k → Fin N) (f : Fin s → Fin N → ℝ) (i : Fin s)
    (v : Fin N → ℝ) : (fun j x => Function.update f i v j (g x))
      = Function.update (fun j x => f j (g x)) i fun x => v (g x) := by
  funext j x
  by_cases h : j = i
  · subst h; simp
  · simp [h]

theorem accumulateStages_part {k N : ℕ} (T : Coeffs ℝ s) (g : Fin k → Fin N)
    (f : Fin s → Fin N → ℝ) (i : Fin s) :
    accumulateStages T i (fun j x => f j (g x)) = fun x => accumulateStages T i f (g x) := by
  unfold accumulateStages
  split <;> rfl

theorem stageAll_part {jo : JointODE Y} {ode : ODE ℝ n m o l} (hs : jo.Solves ode)
    (T : Coeffs ℝ s) (h : ℝ) (st : RKState ℝ s n m o l) (i : Fin s) :
    stageAll T jo (fun _ => h) (Y.part st) i = Y.part (computeStage T ode h st i) := by
  have key : jo.update (fun r =>
      { stepInput := (Y.part st r).startState
        stageInput := accumulateStages T i (Y.part st r).stageUpdates
        independentInput := (Y.part st r).independentInputs
        time := (Y.part st r).startTime + h * T.c i }) (fun _ => h) (fun _ => T.A i i) = _ :=
    Eq.trans (by
      congr 1
      funext r
      simp only [Layout.part, accumulateStages_part]
      rfl) (hs.update
    { stepInput := st.startState
      stageInput := accumulateStages T i st.stageUpdates
      independentInput := st.independentInputs
      time := st.startTime + h * T.c i } h (T.A i i))
  funext r
  simp only [stageAll, key]
  simp only [Layout.part, computeStage, given, Layout.odeOut, update_part]
  rfl

theorem foldl_part {σ τ ι : Type} (F : σ → ι → σ) (G : τ → ι → τ) (part : σ → τ)
    (h : ∀ x i, G (part x) i = part (F x i)) (is : List ι) (x : σ) :
    is.foldl G (part x) = part (is.foldl F x) := by
  induction is generalizing x with
  | nil => rfl
  | cons i is ih => rw [List.foldl_cons, List.foldl_cons, h, ih]

/-- A step of all ranks is the step of a single rank. -/
theorem stepAll_part {jo : JointODE Y} {ode : ODE ℝ n m o l} (hs : jo.Solves ode)
    (T : Coeffs ℝ s) (h : ℝ) (st : RKState ℝ s n m o l) :
    stepAll T jo (Y.part st) (fun _ => h) = Y.part (computeStep T ode st h) := by
  have key := foldl_part (computeStage T ode h) (stageAll T jo fun _ => h) Y.part
    (stageAll_part hs T h) (List.finRange s) { shiftState st with stepSize := h }
  funext r
  exact congrArg (endStep T h) (congrFun key r)

theorem stageDerivAll_part {jo : JointODE Y} {ode : ODE ℝ n m o l} (hs : jo.Solves ode)
    (T : Coeffs ℝ s) (h : ℝ) (st pert : RKState ℝ s n m o l) (i : Fin s) :
    stageDerivAll T jo (fun _ => h) (fun r => (Y.part st r).linearizationPoints) (Y.part pert) i
      = Y.part (computeStageDerivative T ode h st.linearizationPoints pert i) := by
  have key : jo.derivative (fun r => (Y.part st r).linearizationPoints i) (fun r =>
      { stepInput := (Y.part pert r).startState
        stageInput := accumulateStages T i (Y.part pert r).stageUpdates
        independentInput := (Y.part pert r).independentInputs
        time := (Y.part pert r).startTime }) (fun _ => h) (fun _ => T.A i i) = _ :=
    Eq.trans (by
      congr 1
      funext r
      simp only [Layout.part, accumulateStages_part]
      rfl) (hs.derivative (st.linearizationPoints i)
    { stepInput := pert.startState
      stageInput := accumulateStages T i pert.stageUpdates
      independentInput := pert.independentInputs
      time := pert.startTime } h (T.A i i))
  funext r
  simp only [stageDerivAll, key]
  simp only [Layout.part, computeStageDerivative, given, Layout.odeOut, update_part]

/-- A derivative step of all ranks is that of a single rank. -/
theorem stepDerivAll_part {jo : JointODE Y} {ode : ODE ℝ n m o l} (hs : jo.Solves ode)
    (T : Coeffs ℝ s) (h : ℝ) (st pert : RKState ℝ s n m o l) :
    stepDerivAll T jo (Y.part st) (Y.part pert) (fun _ => h)
      = Y.part (computeStepDerivative T ode st pert h) := by
  have key := foldl_part (computeStageDerivative T ode h st.linearizationPoints)
    (stageDerivAll T jo (fun _ => h) fun r => (Y.part st r).linearizationPoints) Y.part
    (stageDerivAll_part hs T h st) (List.finRange s) (shiftState pert)
  funext r
  exact congrArg (endStepDeriv T h) (congrFun key r)

theorem stageAdjAll_part {jo : JointODE Y} {ode : ODE ℝ n m o l} (hs : jo.Solves ode)
    (T : Coeffs ℝ s) (h : ℝ) (st pert : RKState ℝ s n m o l) (i : Fin s) :
    stageAdjAll T jo (fun _ => h) (fun r => (Y.part st r).linearizationPoints) (Y.part pert) i
      = Y.part (computeStageAdjoint T ode h st.linearizationPoints pert i) := by
  have key := hs.adjoint (st.linearizationPoints i)
    { stageUpdate := pert.stageUpdates i
      stageState := pert.stageStates i
      independentOutput := pert.stageIndependentOutputs i } h (T.A i i)
  funext r
  unfold Layout.odeOut Layout.linPoint at key
  dsimp only at key
  simp only [stageAdjAll, Layout.part, key, computeStageAdjoint, given, Layout.odeInput]
  congr 1
  funext j x
  split <;> rfl

/-- An adjoint step of all ranks is that of a single rank. -/
theorem stepAdjAll_part {jo : JointODE Y} {ode : ODE ℝ n m o l} (hs : jo.Solves ode)
    (T : Coeffs ℝ s) (h : ℝ) (st pert : RKState ℝ s n m o l) :
    stepAdjAll T jo (Y.part st) (Y.part pert) (fun _ => h)
      = Y.part (computeStepAdjoint T ode st pert h) := by
  have key := foldl_part (computeStageAdjoint T ode h st.linearizationPoints)
    (stageAdjAll T jo (fun _ => h) fun r => (Y.part st r).linearizationPoints) Y.part
    (stageAdjAll_part hs T h st) (List.finRange s).reverse
    { pert with
      stageTimes := 0
      stageIndependentOutputs := 0
      finalTime := pert.finalTime + 0
      startState := pert.finalState
      stageUpdates := fun i x => h * T.b i * pert.finalState x
      startTime := pert.finalTime + 0 }
  unfold stepAdjAll computeStepAdjoint
  dsimp only
  funext r
  exact congrArg shiftStateReverse (congrFun key r)

/-! ### The discretizations -/

/-- What the ranks need besides the step: exceptions of the stage problem on each rank, non-finite
step sizes, and the error measure each rank gets. -/
structure JointEnv (Y : Layout R n m o l) (s : ℕ) where
  T : Coeffs ℝ s
  ode : JointODE Y
  fails : (∀ r, StartingValues ℝ (Y.nr r) (Y.mr r)) → (Fin R → ℝ) → Fin R → Option Err
  nonfinite : (∀ r, StartingValues ℝ (Y.nr r) (Y.mr r)) → (Fin R → XReal) →
    ∀ r, Except Err (Y.EmbState s r)
  measure : (∀ r, Fin (Y.nr r) → ℝ) → (∀ r, Fin (Y.nr r) → ℝ) → Fin R → XReal

/-- The ranks together have the environment of a single rank. Exceptions are raised on all ranks,
and the error measure is the same on all of them. -/
structure JointEnv.Solves {Y : Layout R n m o l} (je : JointEnv Y s) (E : Env s n m o l) : Prop where
  T : je.T = E.T
  ode : je.ode.Solves E.ode
  fails : ∀ v h r, je.fails (Y.inputs v) (fun _ => h) r = E.fails v h
  nonfinite : ∀ v h r, je.nonfinite (Y.inputs v) (fun _ => h) r
    = (E.nonfinite v h).map fun d => Y.embPart d r
  measure : ∀ e x r, je.measure (fun r y => e (Y.val r y)) (fun r y => x (Y.val r y)) r
    = E.measure e x

/-- The operations of the non-embedded discretization on all ranks. -/
noncomputable def rkCollective (je : JointEnv Y s) : Collective (Y.State s) where
  step := fun d h r =>
    if ∀ r, ∃ x, h r = fin x then
      match je.fails (fun r => rkObs (d r)) (fun r => toReal (h r)) r with
      | some e => .error e
      | none => .ok (stepAll je.T je.ode d (fun r => toReal (h r)) r)
    else (je.nonfinite (fun r => rkObs (d r)) h r).map EmbRKState.toRKState
  measure := fun _ _ => .error .attribute
  deriv := fun d p h => stepDerivAll je.T je.ode d p fun r => toReal (h r)
  adj := fun d p h => stepAdjAll je.T je.ode d p fun r => toReal (h r)

/-- The operations of the embedded discretization on all ranks. -/
noncomputable def embCollective (je : JointEnv Y s) (bhat : Fin s → ℝ) :
    Collective (Y.EmbState s) where
  step := fun d h r =>
    if ∀ r, ∃ x, h r = fin x then
      match je.fails (fun r => rkObs (d r).toRKState) (fun r => toReal (h r)) r with
      | some e => .error e
      | none =>
        let e := stepAll je.T je.ode (fun r => (d r).toRKState) (fun r => toReal (h r)) r
        .ok (computeErrorEstimate bhat { d r with toRKState := e } (toReal (h r)))
    else je.nonfinite (fun r => rkObs (d r).toRKState) h r
  measure := fun d r =>
    .ok (je.measure (fun r => (d r).errorEstimate) (fun r => (d r).finalState) r)
  deriv := fun d p h r =>
    let q := stepDerivAll je.T je.ode (fun r => (d r).toRKState) (fun r => (p r).toRKState)
      (fun r => toReal (h r)) r
    { p r with toRKState := q }
  adj := fun d p h r =>
    let q := stepAdjAll je.T je.ode (fun r => (d r).toRKState) (fun r => (p r).toRKState)
      (fun r => toReal (h r)) r
    { p r with toRKState := q }

/-- What a rank does on its own, for the non-embedded discretization, see `rkBackend`. -/
noncomputable def rkLocal {s n m o l : ℕ} :
    Local (RKState ℝ s n m o l) (StartingValues ℝ n m) (Outputs n) where
  time := fun d => fin d.finalTime
  set := RKState.set
  load := rkLoad
  cacheHit := rkCacheHit
  clearLin := fun d => { d with linearizationPoints := 0 }
  read := fun d => ⟨d.finalTime, d.finalState⟩
  seed := rkSeed
  writeOut := rkWriteOut
  writeIn := rkWriteIn

/-- The same for the embedded discretization, see `embBackend`. -/
noncomputable def embLocal {s n m o l : ℕ} :
    Local (EmbRKState ℝ s n m o l) (StartingValues ℝ n m) (Outputs n) where
  time := fun d => fin d.finalTime
  set := EmbRKState.set
  load := fun d i => { d with toRKState := rkLoad d.toRKState i }
  cacheHit := fun d i => rkCacheHit d.toRKState i
  clearLin := fun d => { d with linearizationPoints := 0 }
  read := fun d => ⟨d.finalTime, d.finalState⟩
  seed := fun d v => { d with toRKState := rkSeed d.toRKState v }
  writeOut := fun d v => rkWriteOut d.toRKState v
  writeIn := fun d i => rkWriteIn d.toRKState i

theorem rkCacheHit_part (d : RKState ℝ s n m o l) (i : StartingValues ℝ n m) :
    rkCacheHit d i = true ↔ ∀ r, rkCacheHit (Y.part d r) (Y.inputs i r) = true := by
  unfold rkCacheHit
  constructor
  · intro h r
    obtain ⟨h1, h2⟩ := of_decide_eq_true h
    exact decide_eq_true ⟨funext fun x => congrFun h1 _, funext fun x => congrFun h2 _⟩
  · intro h
    refine decide_eq_true ⟨funext fun x => ?_, funext fun x => ?_⟩
    · obtain ⟨r, y, rfl⟩ := Y.cover x
      exact congrFun (of_decide_eq_true (h r)).1 y
    · obtain ⟨r, y, rfl⟩ := Y.coverInd x
      exact congrFun (of_decide_eq_true (h r)).2 y

theorem fin_all (x : ℝ) : ∀ _ : Fin R, ∃ y, fin x = fin y := fun _ => ⟨x, rfl⟩

theorem not_fin_all {h : XReal} (r : Fin R) (hh : ∀ x, h ≠ fin x) :
    ¬ ∀ _ : Fin R, ∃ y, h = fin y := fun H => (H r).elim fun x hx => hh x hx

/-- What a step of all ranks of the non-embedded discretization does. -/
theorem rkCollective_step {je : JointEnv Y s} {E : Env s n m o l} (H : je.Solves E)
    (d : RKState ℝ s n m o l) (h : XReal) (r : Fin R) :
    (rkCollective je).step (Y.part d) (fun _ => h) r
      = ((rkBackend E).step d h).map fun e => Y.part e r := by
  have hobs : (fun r => rkObs (Y.part d r)) = Y.inputs (rkObs d) := rfl
  have hnf : ∀ g : XReal, (je.nonfinite (Y.inputs (rkObs d)) (fun _ => g) r).map
      EmbRKState.toRKState
      = ((E.nonfinite (rkObs d) g).map EmbRKState.toRKState).map fun e => Y.part e r := by
    intro g
    rw [H.nonfinite]
    cases E.nonfinite (rkObs d) g <;> rfl
  cases h with
  | fin x =>
    simp only [rkCollective, rkBackend]
    rw [if_pos (fin_all x), hobs]
    simp only [toReal, H.fails, H.T, stepAll_part H.ode]
    cases E.fails (rkObs d) x <;> rfl
  | _ =>
    simp only [rkCollective, rkBackend]
    rw [if_neg (not_fin_all r (by simp)), hobs]
    exact hnf _

/-- The ranks of the non-embedded discretization. -/
theorem rkParts {je : JointEnv Y s} {E : Env s n m o l} (H : je.Solves E) :
    Parts (rkBackend E) (fun _ => rkLocal) (rkCollective je) (fun d dd => dd = Y.part d)
      (fun i ii => ii = Y.inputs i) (fun v vv => vv = Y.outputs v) where
  step_ok := by
    rintro d _ g d' rfl hs
    exact ⟨_, fun r => by rw [rkCollective_step H, hs]; rfl, rfl⟩
  step_error := by
    rintro d _ g e rfl hs r
    rw [rkCollective_step H, hs]; rfl
  measure := fun _ _ => rfl
  time := by rintro d _ rfl r; rfl
  set := by rintro a _ b _ rfl rfl; rfl
  load := by rintro d _ i _ rfl rfl; rfl
  clearLin := by rintro d _ rfl; rfl
  read := by rintro d _ rfl; rfl
  deriv := by
    rintro d _ p _ g rfl rfl
    simp only [rkCollective, H.T, rkBackend, stepDerivAll_part H.ode]
  adj := by
    rintro d _ p _ g rfl rfl
    simp only [rkCollective, H.T, rkBackend, stepAdjAll_part H.ode]
  seed := by rintro d _ v _ rfl rfl; rfl
  writeOut := by rintro d _ v _ rfl rfl; rfl
  writeIn := by rintro d _ v _ rfl rfl; rfl
  cacheHit := by rintro d _ i _ rfl rfl; exact rkCacheHit_part d i

/-- What a step of all ranks of the embedded discretization does. -/
theorem embCollective_step {je : JointEnv Y s} {E : Env s n m o l} (H : je.Solves E)
    (bhat : Fin s → ℝ) (d : EmbRKState ℝ s n m o l) (h : XReal) (r : Fin R) :
    (embCollective je bhat).step (Y.embPart d) (fun _ => h) r
      = ((embBackend E bhat).step d h).map fun e => Y.embPart e r := by
  have hobs : (fun r => rkObs (Y.embPart d r).toRKState) = Y.inputs (rkObs d.toRKState) := rfl
  have hpart : (fun r => (Y.embPart d r).toRKState) = Y.part d.toRKState := rfl
  cases h with
  | fin x =>
    simp only [embCollective, embBackend]
    rw [if_pos (fin_all x), hobs, hpart]
    simp only [toReal, H.fails, H.T, stepAll_part H.ode]
    cases E.fails (rkObs d.toRKState) x <;> rfl
  | _ =>
    simp only [embCollective, embBackend]
    rw [if_neg (not_fin_all r (by simp)), hobs]
    exact H.nonfinite _ _ _

/-- The ranks of the embedded discretization. -/
theorem embParts {je : JointEnv Y s} {E : Env s n m o l} (H : je.Solves E) (bhat : Fin s → ℝ) :
    Parts (embBackend E bhat) (fun _ => embLocal) (embCollective je bhat)
      (fun d dd => dd = Y.embPart d)
      (fun i ii => ii = Y.inputs i) (fun v vv => vv = Y.outputs v) where
  step_ok := by
    rintro d _ g d' rfl hs
    exact ⟨_, fun r => by rw [embCollective_step H, hs]; rfl, rfl⟩
  step_error := by
    rintro d _ g e rfl hs r
    rw [embCollective_step H, hs]; rfl
  measure := by
    rintro d _ rfl r
    exact congrArg Except.ok (H.measure d.errorEstimate d.finalState r)
  time := by rintro d _ rfl r; rfl
  set := by rintro a _ b _ rfl rfl; rfl
  load := by rintro d _ i _ rfl rfl; rfl
  clearLin := by rintro d _ rfl; rfl
  read := by rintro d _ rfl; rfl
  deriv := by
    rintro d _ p _ g rfl rfl
    have h1 : (fun r => (Y.embPart d r).toRKState) = Y.part d.toRKState := rfl
    have h2 : (fun r => (Y.embPart p r).toRKState) = Y.part p.toRKState := rfl
    simp only [embCollective, H.T, embBackend, h1, h2, stepDerivAll_part H.ode]
    rfl
  adj := by
    rintro d _ p _ g rfl rfl
    have h1 : (fun r => (Y.embPart d r).toRKState) = Y.part d.toRKState := rfl
    have h2 : (fun r => (Y.embPart p r).toRKState) = Y.part p.toRKState := rfl
    simp only [embCollective, H.T, embBackend, h1, h2, stepAdjAll_part H.ode]
    rfl
  seed := by rintro d _ v _ rfl rfl; rfl
  writeOut := by rintro d _ v _ rfl rfl; rfl
  writeIn := by rintro d _ v _ rfl rfl; rfl
  cacheHit := by rintro d _ i _ rfl rfl; exact rkCacheHit_part d.toRKState i

/-! ### A joint solution for every problem -/

/-- The global array with the given parts. -/
noncomputable def glue {N : ℕ} {k : Fin R → ℕ} {g : ∀ r, Fin (k r) → Fin N}
    (hg : ∀ x, ∃ r y, g r y = x) (v : ∀ r, Fin (k r) → ℝ) : Fin N → ℝ :=
  fun x => v (hg x).choose (hg x).choose_spec.choose

theorem glue_parts {N : ℕ} {k : Fin R → ℕ} {g : ∀ r, Fin (k r) → Fin N}
    (hg : ∀ x, ∃ r y, g r y = x) (e : Fin N → ℝ) : glue hg (fun r y => e (g r y)) = e := by
  funext x
  exact congrArg e (hg x).choose_spec.choose_spec

/-- The ranks put their arrays together, solve the problem of a single rank, and take their parts
of the solution. -/
noncomputable def jointOf [NeZero R] (Y : Layout R n m o l) (E : Env s n m o l) : JointEnv Y s where
  T := E.T
  ode :=
    { update := fun x h a =>
        let u := E.ode.computeUpdate ⟨glue Y.cover fun r => (x r).stepInput,
          glue Y.cover fun r => (x r).stageInput, glue Y.coverInd fun r => (x r).independentInput,
          (x 0).time⟩ (h 0) (a 0)
        fun r => (Y.odeOut u.1 r, Y.linPoint u.2 r)
      derivative := fun lin x h a => Y.odeOut (E.ode.computeUpdateDerivative (glue Y.coverLin lin)
        ⟨glue Y.cover fun r => (x r).stepInput, glue Y.cover fun r => (x r).stageInput,
          glue Y.coverInd fun r => (x r).independentInput, (x 0).time⟩ (h 0) (a 0))
      adjoint := fun lin v h a => Y.odeInput (E.ode.computeUpdateAdjoint (glue Y.coverLin lin)
        ⟨glue Y.cover fun r => (v r).stageUpdate, glue Y.cover fun r => (v r).stageState,
          glue Y.coverOut fun r => (v r).independentOutput⟩ (h 0) (a 0)) }
  fails := fun v h _ => E.fails ⟨(v 0).initialTime, glue Y.cover fun r => (v r).initialValues,
    glue Y.coverInd fun r => (v r).independentInputs⟩ (h 0)
  nonfinite := fun v h r => (E.nonfinite ⟨(v 0).initialTime,
    glue Y.cover fun r => (v r).initialValues,
    glue Y.coverInd fun r => (v r).independentInputs⟩ (h 0)).map fun d => Y.embPart d r
  measure := fun e x _ => E.measure (glue Y.cover e) (glue Y.cover x)

theorem jointOf_solves [NeZero R] (Y : Layout R n m o l) (E : Env s n m o l) :
    (jointOf Y E).Solves E where
  T := rfl
  ode :=
    { update := fun x h a => by simp only [jointOf, Layout.odeInput, glue_parts]
      derivative := fun lin x h a => by
        simp only [jointOf, Layout.odeInput, glue_parts]
        exact congrArg (fun z => Y.odeOut (E.ode.computeUpdateDerivative z x h a))
          (glue_parts Y.coverLin lin)
      adjoint := fun lin v h a => by
        simp only [jointOf, Layout.odeOut, glue_parts]
        exact congrArg (fun z => Y.odeInput (E.ode.computeUpdateAdjoint z v h a))
          (glue_parts Y.coverLin lin) }
  fails := fun v h r => by simp only [jointOf, Layout.inputs, glue_parts]
  nonfinite := fun v h r => by simp only [jointOf, Layout.inputs, glue_parts]
  measure := fun e x r => by simp only [jointOf, glue_parts]

end Verif.Parallel
