/-
Model of the components of the user guide and of the examples, as stage problems.

Source: /repo/doc/user_guide.ipynb (cells are counted from 0),
/repo/examples/simple_parallel_group.py and /repo/examples/simple_parallel_distributed_component.py

Simplifications (in addition to those of `Verif.Components.Stage`):
* the stage problem of simple_parallel_group.py runs on one rank. Its parallel group then runs the
  same components one after the other;
* the solvers of the two coupled problems are parameters, which see the vectors before the call;
* the component of simple_parallel_distributed_component.py runs on two ranks. Its messages are
  `messages` below. Both ranks together are a function of the inputs of both ranks; the stage
  problem that contains it is taken as a function of the concatenated inputs.
-/
import Verif.Components.Stage

namespace Verif.Comp

open Verif.Metadata

/-! ### `ODEComponent`, cell 2 -/

/-- `compute` of `ODEComponent`, cell 2 L14-17. -/
noncomputable def guideCompute (h a : ℝ) (old acc : ℝ) : ℝ := (old + h * acc) / (1 - h * a)

/-- `compute_partials` of `ODEComponent`, cell 2 L19-23: with respect to `x_old` and `s_i`. -/
noncomputable def guidePartials (h a : ℝ) : ℝ × ℝ := (1 / (1 - h * a), h / (1 - h * a))

/-- `setup`, cell 2 L6-9; the name of the subsystem is that of cell 4 L17. -/
def guideProblem : Problem where
  vars := [
    scalar "ODE_Comp.x_old" .input ["x", "step_input_var"],
    scalar "ODE_Comp.s_i" .input ["x", "accumulated_stage_var"],
    scalar "ODE_Comp.k_i" .output ["x", "stage_output_var"]]
  emptyTagsMatchAll := false

def guideConn : List (String × String) :=
  [("ODE_Comp.x_old", "_auto_ivc.v0"), ("ODE_Comp.s_i", "_auto_ivc.v1")]

/-- The stage problem. -/
noncomputable def guideEnv (fwd rev : OM.Vectors ℝ → ℝ → ℝ → OM.Vec ℝ → OM.Vec ℝ) : OM.Env ℝ where
  solve v h a :=
    let i := transfer guideConn v.outputs v.inputs
    ⟨i, Function.update v.outputs "ODE_Comp.k_i" fun k =>
      guideCompute h a (i "ODE_Comp.x_old" k) (i "ODE_Comp.s_i" k)⟩
  solveFwd := fwd
  solveRev := rev

def guideMeta : Meta where
  arraySize := 1
  quantities := [scalarQuantity "x" "ODE_Comp.x_old" "ODE_Comp.s_i" "ODE_Comp.k_i" 0]

theorem guide_setup : setup guideProblem 1 ["x"] [] = .ok [guideMeta] := by decide +kernel

def guideConf : OM.Conf := ⟨guideMeta, sourceOf guideConn⟩
def guideLayout : OM.Layout := layoutOf ["_auto_ivc.v0", "_auto_ivc.v1"] guideProblem

noncomputable def guideOde (fwd rev : OM.Vectors ℝ → ℝ → ℝ → OM.Vec ℝ → OM.Vec ℝ)
    (v0 : OM.Vectors ℝ) : RK.ODE ℝ 1 0 0 (OM.pointSize guideLayout) :=
  OM.omOde guideConf guideLayout (guideEnv fwd rev) v0

/-! ### `ODEComponentWithStationaryInput`, cell 11 -/

/-- `compute`, cell 11 L12-15. -/
noncomputable def inputCompute (h a : ℝ) (old acc b : ℝ) : ℝ :=
  b * (old + h * acc) / (1 - b * h * a)

/-- `compute_partials`, cell 11 L17-22: with respect to `x_old`, `s_i` and `b`. -/
noncomputable def inputPartials (h a : ℝ) (old acc b : ℝ) : ℝ × ℝ × ℝ :=
  (b / (1 - b * h * a), h * b / (1 - b * h * a), (old + h * acc) / (1 - b * h * a) ^ 2)

/-- `setup`, cell 11 L3-7. -/
def inputProblem : Problem where
  vars := [
    scalar "ODE_Comp.x_old" .input ["x", "step_input_var"],
    scalar "ODE_Comp.s_i" .input ["x", "accumulated_stage_var"],
    scalar "ODE_Comp.k_i" .output ["x", "stage_output_var"],
    scalar "ODE_Comp.b" .input ["b", "time_independent_input_var"]]
  emptyTagsMatchAll := false

def inputConn : List (String × String) :=
  [("ODE_Comp.x_old", "_auto_ivc.v0"), ("ODE_Comp.s_i", "_auto_ivc.v1"),
    ("ODE_Comp.b", "_auto_ivc.v2")]

noncomputable def inputEnv (fwd rev : OM.Vectors ℝ → ℝ → ℝ → OM.Vec ℝ → OM.Vec ℝ) : OM.Env ℝ where
  solve v h a :=
    let i := transfer inputConn v.outputs v.inputs
    ⟨i, Function.update v.outputs "ODE_Comp.k_i" fun k =>
      inputCompute h a (i "ODE_Comp.x_old" k) (i "ODE_Comp.s_i" k) (i "ODE_Comp.b" k)⟩
  solveFwd := fwd
  solveRev := rev

def inputMeta : Meta where
  arraySize := 1
  independentSize := 1
  quantities := [scalarQuantity "x" "ODE_Comp.x_old" "ODE_Comp.s_i" "ODE_Comp.k_i" 0]
  independents := [⟨"b", ⟨[1], [1], true, false, 0, 1, 0, 1⟩, none, none, none, some "ODE_Comp.b"⟩]

theorem input_setup : setup inputProblem 1 ["x"] ["b"] = .ok [inputMeta] := by decide +kernel

def inputConf : OM.Conf := ⟨inputMeta, sourceOf inputConn⟩
def inputLayout : OM.Layout :=
  layoutOf ["_auto_ivc.v0", "_auto_ivc.v1", "_auto_ivc.v2"] inputProblem

noncomputable def inputOde (fwd rev : OM.Vectors ℝ → ℝ → ℝ → OM.Vec ℝ → OM.Vec ℝ)
    (v0 : OM.Vectors ℝ) : RK.ODE ℝ 1 1 0 (OM.pointSize inputLayout) :=
  OM.omOde inputConf inputLayout (inputEnv fwd rev) v0

/-! ### `CoupledODEComponent1` and `CoupledODEComponent2`, cell 7 -/

/-- `compute` of the first component, cell 7 L12-15. -/
def coupledCompute1 (h a : ℝ) (yOld sy ky : ℝ) : ℝ := -(yOld + h * (sy + a * ky))

/-- `compute` of the second component, cell 7 L35-38. -/
def coupledCompute2 (h a : ℝ) (xOld sx kx : ℝ) : ℝ := xOld + h * (sx + a * kx)

/-- `compute_partials` of the first component, cell 7 L17-22: with respect to `y_old`, `sy_i` and
`ky_i`. -/
def coupledPartials1 (h a : ℝ) : ℝ × ℝ × ℝ := (-1, -h, -h * a)

/-- `compute_partials` of the second component, cell 7 L40-45. -/
def coupledPartials2 (h a : ℝ) : ℝ × ℝ × ℝ := (1, h, h * a)

/-- `setup` of both components, cell 7 L3-7 and L26-30; names as in cell 9 L3-12. -/
def coupledProblem : Problem where
  vars := [
    scalar "Coupled_ODE_Comp1.y_old" .input ["y", "step_input_var"],
    scalar "Coupled_ODE_Comp1.sy_i" .input ["y", "accumulated_stage_var"],
    scalar "Coupled_ODE_Comp1.ky_i" .input [],
    scalar "Coupled_ODE_Comp1.kx_i" .output ["x", "stage_output_var"],
    scalar "Coupled_ODE_Comp2.x_old" .input ["x", "step_input_var"],
    scalar "Coupled_ODE_Comp2.sx_i" .input ["x", "accumulated_stage_var"],
    scalar "Coupled_ODE_Comp2.kx_i" .input [],
    scalar "Coupled_ODE_Comp2.ky_i" .output ["y", "stage_output_var"]]
  emptyTagsMatchAll := false

/-- `promotes=["*"]`, cell 9 L6 and L11. -/
def coupledConn : List (String × String) :=
  [("Coupled_ODE_Comp1.y_old", "_auto_ivc.v0"), ("Coupled_ODE_Comp1.sy_i", "_auto_ivc.v1"),
    ("Coupled_ODE_Comp1.ky_i", "Coupled_ODE_Comp2.ky_i"),
    ("Coupled_ODE_Comp2.x_old", "_auto_ivc.v2"), ("Coupled_ODE_Comp2.sx_i", "_auto_ivc.v3"),
    ("Coupled_ODE_Comp2.kx_i", "Coupled_ODE_Comp1.kx_i")]

/-- The values of `kx_i` and `ky_i` the solver of cell 9 L14-15 ends with. -/
abbrev CoupledSolver := OM.Vectors ℝ → ℝ → ℝ → ℝ × ℝ

/-- The residuals of `kx_i` and `ky_i`: output minus what `compute` gives for the inputs, which are
the sources in `x` they are connected with. -/
def coupledResidual (h a : ℝ) (x : OM.Vec ℝ) (k : ℝ × ℝ) : ℝ × ℝ :=
  (k.1 - coupledCompute1 h a (x "_auto_ivc.v0" 0) (x "_auto_ivc.v1" 0) k.2,
    k.2 - coupledCompute2 h a (x "_auto_ivc.v2" 0) (x "_auto_ivc.v3" 0) k.1)

/-- The stage problem, cell 9 L2-15. -/
def coupledEnv (solver : CoupledSolver) (fwd rev : OM.Vectors ℝ → ℝ → ℝ → OM.Vec ℝ → OM.Vec ℝ) :
    OM.Env ℝ where
  solve v h a :=
    let k := solver v h a
    let out := Function.update (Function.update v.outputs "Coupled_ODE_Comp1.kx_i" fun _ => k.1)
      "Coupled_ODE_Comp2.ky_i" fun _ => k.2
    ⟨transfer coupledConn out v.inputs, out⟩
  solveFwd := fwd
  solveRev := rev

def coupledMeta : Meta where
  arraySize := 2
  quantities := [
    scalarQuantity "x" "Coupled_ODE_Comp2.x_old" "Coupled_ODE_Comp2.sx_i"
      "Coupled_ODE_Comp1.kx_i" 0,
    scalarQuantity "y" "Coupled_ODE_Comp1.y_old" "Coupled_ODE_Comp1.sy_i"
      "Coupled_ODE_Comp2.ky_i" 1]

theorem coupled_setup : setup coupledProblem 1 ["x", "y"] [] = .ok [coupledMeta] := by
  decide +kernel

def coupledConf : OM.Conf := ⟨coupledMeta, sourceOf coupledConn⟩
def coupledLayout : OM.Layout :=
  layoutOf ["_auto_ivc.v0", "_auto_ivc.v1", "_auto_ivc.v2", "_auto_ivc.v3"] coupledProblem

noncomputable def coupledOde (solver : CoupledSolver)
    (fwd rev : OM.Vectors ℝ → ℝ → ℝ → OM.Vec ℝ → OM.Vec ℝ) (v0 : OM.Vectors ℝ) :
    RK.ODE ℝ 2 0 0 (OM.pointSize coupledLayout) :=
  OM.omOde coupledConf coupledLayout (coupledEnv solver fwd rev) v0

/-! ### `ObjComp`, cell 14 -/

/-- `compute` of `ObjComp`, cell 14 L36-37. -/
def objCompute (x y : ℝ) : ℝ := (x - 1) ^ 2 + y ^ 2

/-- `compute_jacvec_product` in forward mode, cell 14 L40-42. -/
def objFwd (x y dx dy dsq : ℝ) : ℝ := dsq + 2 * (x - 1) * dx + 2 * y * dy

/-- `compute_jacvec_product` in reverse mode, cell 14 L43-45. -/
def objRev (x y dsq dx dy : ℝ) : ℝ × ℝ := (dx + 2 * (x - 1) * dsq, dy + 2 * y * dsq)

/-! ### `ComponentPart1` and `ComponentPart2`, simple_parallel_group.py -/

/-- The outputs of a component: the stage update and the stage value. -/
structure PartOut (α : Type) where
  k : α
  stage : α

/-- The inputs of a component: old state, accumulated stages, stage value of the other one. -/
structure PartIn (α : Type) where
  old : α
  acc : α
  other : α

/-- `ComponentPart1.compute`, L26-34. -/
def partCompute1 (h a : ℝ) (i : PartIn ℝ) : PartOut ℝ :=
  ⟨-i.other, i.old + h * i.acc - h * a * i.other⟩

/-- `ComponentPart2.compute`, L66-74. -/
def partCompute2 (h a : ℝ) (i : PartIn ℝ) : PartOut ℝ :=
  ⟨i.other, i.old + h * i.acc + h * a * i.other⟩

/-- `ComponentPart1.compute_jacvec_product` with `mode == "fwd"`, L40-46: what `d` becomes. -/
def partFwd1 (h a : ℝ) (i : PartIn ℝ) (d : PartOut ℝ) : PartOut ℝ :=
  ⟨d.k - i.other, d.stage + (i.old + h * i.acc - h * a * i.other)⟩

/-- `ComponentPart1.compute_jacvec_product` with `mode == "rev"`, L47-53. -/
def partRev1 (h a : ℝ) (o : PartOut ℝ) (d : PartIn ℝ) : PartIn ℝ :=
  ⟨d.old + o.stage, d.acc + h * o.stage, d.other - (h * a * o.stage + o.k)⟩

/-- `ComponentPart2.compute_jacvec_product` with `mode == "fwd"`, L80-86. -/
def partFwd2 (h a : ℝ) (i : PartIn ℝ) (d : PartOut ℝ) : PartOut ℝ :=
  ⟨d.k + i.other, d.stage + (i.old + h * i.acc + h * a * i.other)⟩

/-- `ComponentPart2.compute_jacvec_product` with `mode == "rev"`, L87-93. -/
def partRev2 (h a : ℝ) (o : PartOut ℝ) (d : PartIn ℝ) : PartIn ℝ :=
  ⟨d.old + o.stage, d.acc + h * o.stage, d.other + (h * a * o.stage + o.k)⟩

/-- The variables of the components and of the sources next to them, L19-24, L59-64 and L101-122. -/
def partProblem : Problem where
  vars := [
    scalar "parallel_group.first_group.first.x_old" .input ["x", "step_input_var"],
    scalar "parallel_group.first_group.first.sx_i" .input ["x", "accumulated_stage_var"],
    scalar "parallel_group.first_group.first.y_stage" .input [],
    scalar "parallel_group.first_group.first.kx_i" .output ["x", "stage_output_var"],
    scalar "parallel_group.first_group.first.x_stage" .output [],
    scalar "parallel_group.first_group.first_indep.x_old" .output [],
    scalar "parallel_group.first_group.first_indep.sx_i" .output [],
    scalar "parallel_group.second_group.second.y_old" .input ["y", "step_input_var"],
    scalar "parallel_group.second_group.second.sy_i" .input ["y", "accumulated_stage_var"],
    scalar "parallel_group.second_group.second.x_stage" .input [],
    scalar "parallel_group.second_group.second.ky_i" .output ["y", "stage_output_var"],
    scalar "parallel_group.second_group.second.y_stage" .output [],
    scalar "parallel_group.second_group.second_indep.y_old" .output [],
    scalar "parallel_group.second_group.second_indep.sy_i" .output []]
  emptyTagsMatchAll := false

/-- `promotes=["*"]`, L103-122. -/
def partConn : List (String × String) :=
  [("parallel_group.first_group.first.x_old", "parallel_group.first_group.first_indep.x_old"),
    ("parallel_group.first_group.first.sx_i", "parallel_group.first_group.first_indep.sx_i"),
    ("parallel_group.first_group.first.y_stage", "parallel_group.second_group.second.y_stage"),
    ("parallel_group.second_group.second.y_old", "parallel_group.second_group.second_indep.y_old"),
    ("parallel_group.second_group.second.sy_i", "parallel_group.second_group.second_indep.sy_i"),
    ("parallel_group.second_group.second.x_stage", "parallel_group.first_group.first.x_stage")]

/-- The outputs of both components the solver of L124-125 ends with. -/
abbrev PartSolver := OM.Vectors ℝ → ℝ → ℝ → PartOut ℝ × PartOut ℝ

/-- The residuals of the outputs of both components: output minus what `compute` gives. -/
def partResidual (h a : ℝ) (x : OM.Vec ℝ) (o : PartOut ℝ × PartOut ℝ) : PartOut ℝ × PartOut ℝ :=
  let c1 := partCompute1 h a ⟨x "parallel_group.first_group.first_indep.x_old" 0,
    x "parallel_group.first_group.first_indep.sx_i" 0, o.2.stage⟩
  let c2 := partCompute2 h a ⟨x "parallel_group.second_group.second_indep.y_old" 0,
    x "parallel_group.second_group.second_indep.sy_i" 0, o.1.stage⟩
  (⟨o.1.k - c1.k, o.1.stage - c1.stage⟩, ⟨o.2.k - c2.k, o.2.stage - c2.stage⟩)

/-- The stage problem, L99-125. -/
def partEnv (solver : PartSolver) (fwd rev : OM.Vectors ℝ → ℝ → ℝ → OM.Vec ℝ → OM.Vec ℝ) :
    OM.Env ℝ where
  solve v h a :=
    let o := solver v h a
    let out := Function.update (Function.update (Function.update (Function.update v.outputs
      "parallel_group.first_group.first.kx_i" fun _ => o.1.k)
      "parallel_group.first_group.first.x_stage" fun _ => o.1.stage)
      "parallel_group.second_group.second.ky_i" fun _ => o.2.k)
      "parallel_group.second_group.second.y_stage" fun _ => o.2.stage
    ⟨transfer partConn out v.inputs, out⟩
  solveFwd := fwd
  solveRev := rev

def partMeta : Meta where
  arraySize := 2
  quantities := [
    scalarQuantity "x" "parallel_group.first_group.first.x_old"
      "parallel_group.first_group.first.sx_i" "parallel_group.first_group.first.kx_i" 0,
    scalarQuantity "y" "parallel_group.second_group.second.y_old"
      "parallel_group.second_group.second.sy_i" "parallel_group.second_group.second.ky_i" 1]

theorem part_setup : setup partProblem 1 ["x", "y"] [] = .ok [partMeta] := by decide +kernel

def partConf : OM.Conf := ⟨partMeta, sourceOf partConn⟩
def partLayout : OM.Layout := layoutOf [] partProblem

noncomputable def partOde (solver : PartSolver)
    (fwd rev : OM.Vectors ℝ → ℝ → ℝ → OM.Vec ℝ → OM.Vec ℝ) (v0 : OM.Vectors ℝ) :
    RK.ODE ℝ 2 0 0 (OM.pointSize partLayout) :=
  OM.omOde partConf partLayout (partEnv solver fwd rev) v0

/-! ### `SimpleDistributedComponent`, simple_parallel_distributed_component.py -/

/-- The messages of the component on a rank: partner and tag. -/
inductive Message where
  | send (dest tag : ℕ)
  | recv (source tag : ℕ)
  deriving DecidableEq

/-- The messages of `compute`, L34-42; those of `compute_jacvec_product` are the same in both modes,
L53-62 and L69-88. -/
def messages : ℕ → List Message
  | 0 => [.send 1 0, .recv 1 0]
  | r => [.recv 0 (1 - r), .send 0 (1 - r)]

/-- Both ranks exchange messages without buffering: a message is passed if one rank sends it to the
other one, which waits for a message of the first one with the same tag. `own` are the sent
values, `got` the received ones. The result is `none` if a rank waits for ever. -/
def exchange {α : Type} (own : α × α) : List Message → List Message → Option α × Option α →
    Option (α × α)
  | [], [], (some x, some y) => some (x, y)
  | .send d t :: p, .recv s t' :: q, got =>
      if d = 1 ∧ s = 0 ∧ t = t' then exchange own p q (got.1, some own.1) else none
  | .recv s t :: p, .send d t' :: q, got =>
      if s = 1 ∧ d = 0 ∧ t = t' then exchange own p q (some own.2, got.2) else none
  | _, _, _ => none

/-- `compute` on rank 0, L33-38: `other` is the received value. -/
noncomputable def distCompute0 (h a own other : ℝ) : ℝ :=
  (-h * a * own - other) / ((h * a) ^ 2 + 1)

/-- `compute` on rank 1, L40-45. -/
noncomputable def distCompute1 (h a own other : ℝ) : ℝ :=
  (-h * a * own + other) / ((h * a) ^ 2 + 1)

/-- `compute` on both ranks, L28-45. The pairs are the values of both ranks. -/
noncomputable def distCompute (h a : ℝ) (old acc : ℝ × ℝ) : Option (ℝ × ℝ) :=
  let own := (old.1 + h * acc.1, old.2 + h * acc.2)
  (exchange own (messages 0) (messages 1) (none, none)).map fun other =>
    (distCompute0 h a own.1 other.1, distCompute1 h a own.2 other.2)

/-- `compute_jacvec_product` with `mode == "fwd"` on both ranks, L50-66: what `d` becomes. -/
noncomputable def distFwd (h a : ℝ) (old acc d : ℝ × ℝ) : Option (ℝ × ℝ) :=
  let own := (old.1 + h * acc.1, old.2 + h * acc.2)
  (exchange own (messages 0) (messages 1) (none, none)).map fun other =>
    (d.1 + (-h * a * own.1 - other.1) / ((h * a) ^ 2 + 1),
      d.2 + (-h * a * own.2 + other.2) / ((h * a) ^ 2 + 1))

/-- `compute_jacvec_product` with `mode == "rev"` on both ranks, L67-101: what `dOld` and `dAcc`
become. -/
noncomputable def distRev (h a : ℝ) (k dOld dAcc : ℝ × ℝ) : Option ((ℝ × ℝ) × (ℝ × ℝ)) :=
  (exchange k (messages 0) (messages 1) (none, none)).map fun other =>
    ((dOld.1 + (-h * a * k.1 + other.1) / ((h * a) ^ 2 + 1),
      dOld.2 + (-h * a * k.2 - other.2) / ((h * a) ^ 2 + 1)),
     (dAcc.1 + h * (-h * a * k.1 + other.1) / ((h * a) ^ 2 + 1),
      dAcc.2 + h * (-h * a * k.2 - other.2) / ((h * a) ^ 2 + 1)))

/-- The stage updates of both ranks for the concatenated inputs. -/
noncomputable def distUpdate (h a : ℝ) (old acc : Fin 2 → ℝ) : Fin 2 → ℝ :=
  match distCompute h a (old 0, old 1) (acc 0, acc 1) with
  | some k => ![k.1, k.2]
  | none => 0

/-! ### What the backends compute -/

open Verif.RK Verif.OM

theorem guideOde_update (fwd rev v0) (z : OdeInput ℝ 1 0) (h a : ℝ) :
    ((guideOde fwd rev v0).computeUpdate z h a).1.stageUpdate
      = fun _ => guideCompute h a (z.stepInput 0) (z.stageInput 0) := by
  have e : ∀ i : Fin 1, ((guideOde fwd rev v0).computeUpdate z h a).1.stageUpdate i
      = guideCompute h a (z.stepInput 0) (z.stageInput 0) := by
    intro i
    fin_cases i
    simp [guideOde, omOde, OM.computeUpdate, guideEnv, transfer, guideConn, inputsToVec,
      guideConf, guideMeta, writeState, writeTime, scalarQuantity, vecToOutputs, getVar, setVar,
      sourceOf, toInputs, flat, Function.update]
  exact funext e

theorem inputOde_update (fwd rev v0) (z : OdeInput ℝ 1 1) (h a : ℝ) :
    ((inputOde fwd rev v0).computeUpdate z h a).1.stageUpdate
      = fun _ => inputCompute h a (z.stepInput 0) (z.stageInput 0) (z.independentInput 0) := by
  have e : ∀ i : Fin 1, ((inputOde fwd rev v0).computeUpdate z h a).1.stageUpdate i
      = inputCompute h a (z.stepInput 0) (z.stageInput 0) (z.independentInput 0) := by
    intro i
    fin_cases i
    simp [inputOde, omOde, OM.computeUpdate, inputEnv, transfer, inputConn, inputsToVec,
      inputConf, inputMeta, writeState, writeTime, scalarQuantity, vecToOutputs, getVar, setVar,
      writeIndep, sourceOf, toInputs, flat, Function.update]
  exact funext e

/-- The stage updates of the coupled components are what the solver ends with, for vectors that hold
the arguments at the sources of the inputs. -/
theorem coupledOde_update (solver : CoupledSolver) (fwd rev v0) (z : OdeInput ℝ 2 0) (h a : ℝ) :
    ∃ v : Vectors ℝ, v.outputs "_auto_ivc.v0" 0 = z.stepInput 1 ∧
      v.outputs "_auto_ivc.v1" 0 = z.stageInput 1 ∧ v.outputs "_auto_ivc.v2" 0 = z.stepInput 0 ∧
      v.outputs "_auto_ivc.v3" 0 = z.stageInput 0 ∧
      ((coupledOde solver fwd rev v0).computeUpdate z h a).1.stageUpdate
        = ![(solver v h a).1, (solver v h a).2] := by
  set v : Vectors ℝ := ⟨v0.inputs, inputsToVec coupledConf 1 (toInputs z) v0.outputs⟩ with hv
  refine ⟨v, ?_, ?_, ?_, ?_, ?_⟩
  · simp [hv, inputsToVec, coupledConf, coupledMeta, writeState, writeTime, scalarQuantity, setVar,
      sourceOf, coupledConn, toInputs, flat, Function.update]
  · simp [hv, inputsToVec, coupledConf, coupledMeta, writeState, writeTime, scalarQuantity, setVar,
      sourceOf, coupledConn, toInputs, flat, Function.update]
  · simp [hv, inputsToVec, coupledConf, coupledMeta, writeState, writeTime, scalarQuantity, setVar,
      sourceOf, coupledConn, toInputs, flat, Function.update]
  · simp [hv, inputsToVec, coupledConf, coupledMeta, writeState, writeTime, scalarQuantity, setVar,
      sourceOf, coupledConn, toInputs, flat, Function.update]
  · have e : ∀ i : Fin 2, ((coupledOde solver fwd rev v0).computeUpdate z h a).1.stageUpdate i
        = ![(solver v h a).1, (solver v h a).2] i := by
      intro i
      change vecToOutputs coupledConf (Function.update (Function.update v.outputs
        "Coupled_ODE_Comp1.kx_i" fun _ => (solver v h a).1)
        "Coupled_ODE_Comp2.ky_i" fun _ => (solver v h a).2) (fun _ => 0) i = _
      generalize solver v h a = o
      generalize v.outputs = y
      fin_cases i <;>
        simp [vecToOutputs, coupledConf, coupledMeta, scalarQuantity, getVar, Function.update]
    exact funext e

/-- The same for the components of simple_parallel_group.py. -/
theorem partOde_update (solver : PartSolver) (fwd rev v0) (z : OdeInput ℝ 2 0) (h a : ℝ) :
    ∃ v : Vectors ℝ,
      v.outputs "parallel_group.first_group.first_indep.x_old" 0 = z.stepInput 0 ∧
      v.outputs "parallel_group.first_group.first_indep.sx_i" 0 = z.stageInput 0 ∧
      v.outputs "parallel_group.second_group.second_indep.y_old" 0 = z.stepInput 1 ∧
      v.outputs "parallel_group.second_group.second_indep.sy_i" 0 = z.stageInput 1 ∧
      ((partOde solver fwd rev v0).computeUpdate z h a).1.stageUpdate
        = ![(solver v h a).1.k, (solver v h a).2.k] := by
  set v : Vectors ℝ := ⟨v0.inputs, inputsToVec partConf 1 (toInputs z) v0.outputs⟩ with hv
  refine ⟨v, ?_, ?_, ?_, ?_, ?_⟩
  · simp [hv, inputsToVec, partConf, partMeta, writeState, writeTime, scalarQuantity, setVar,
      sourceOf, partConn, toInputs, flat, Function.update]
  · simp [hv, inputsToVec, partConf, partMeta, writeState, writeTime, scalarQuantity, setVar,
      sourceOf, partConn, toInputs, flat, Function.update]
  · simp [hv, inputsToVec, partConf, partMeta, writeState, writeTime, scalarQuantity, setVar,
      sourceOf, partConn, toInputs, flat, Function.update]
  · simp [hv, inputsToVec, partConf, partMeta, writeState, writeTime, scalarQuantity, setVar,
      sourceOf, partConn, toInputs, flat, Function.update]
  · have e : ∀ i : Fin 2, ((partOde solver fwd rev v0).computeUpdate z h a).1.stageUpdate i
        = ![(solver v h a).1.k, (solver v h a).2.k] i := by
      intro i
      change vecToOutputs partConf (Function.update (Function.update (Function.update
        (Function.update v.outputs
        "parallel_group.first_group.first.kx_i" fun _ => (solver v h a).1.k)
        "parallel_group.first_group.first.x_stage" fun _ => (solver v h a).1.stage)
        "parallel_group.second_group.second.ky_i" fun _ => (solver v h a).2.k)
        "parallel_group.second_group.second.y_stage" fun _ => (solver v h a).2.stage)
        (fun _ => 0) i = _
      generalize solver v h a = o
      generalize v.outputs = y
      fin_cases i <;>
        simp [vecToOutputs, partConf, partMeta, scalarQuantity, getVar, Function.update]
    exact funext e

/-- No rank waits for ever, and both get the value of the other one. -/
theorem distCompute_eq (h a : ℝ) (old acc : ℝ × ℝ) : distCompute h a old acc = some
    (distCompute0 h a (old.1 + h * acc.1) (old.2 + h * acc.2),
      distCompute1 h a (old.2 + h * acc.2) (old.1 + h * acc.1)) := rfl

end Verif.Comp
