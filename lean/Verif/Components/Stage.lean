/-
Model of the shipped test problems as stage problems: the variables they declare, the group of the two
components of Kaps' problem, and what `run_solve_nonlinear` does with them.

Source: /repo/src/rkopenmdao/odes/{kaps,prothero_robinson_ode,simple_linear_ode}.py and
/repo/src/rkopenmdao/utils/problems.py, lines 110-120 (the problem is the subsystem `test_comp`)

Simplifications (for the whole file):
* one rank, one entry per variable;
* inputs without connection get a source `_auto_ivc.v<number>`, numbered by component and order of
  declaration;
* `run_solve_nonlinear` of an explicit component is the transfer of the inputs followed by `compute`;
  for Kaps' group the Newton solver is a parameter, which sees the vectors before the call;
* the linear solves are parameters.
-/
import Verif.Components.Model
import Verif.OpenMDAO.Ode

namespace Verif.Comp

open Verif.Metadata

/-- The transfer from sources to inputs: pairs of input and source. -/
def transfer (conn : List (String × String)) (outputs inputs : OM.Vec ℝ) : OM.Vec ℝ :=
  conn.foldl (fun x c => Function.update x c.1 (outputs c.2)) inputs

/-- `model.get_source` for a list of connections. -/
def sourceOf (conn : List (String × String)) (s : String) : String :=
  ((conn.find? fun c => c.1 == s).map Prod.snd).getD s

/-- Names and sizes of all variables of the stage problem: the sources that OpenMDAO adds come
first. -/
def layoutOf (auto : List String) (P : Problem) : OM.Layout where
  inputs := (P.vars.filter fun v => v.io == .input).map fun v => (v.name, 1)
  outputs := auto.map (fun s => (s, 1)) ++
    (P.vars.filter fun v => v.io == .output).map fun v => (v.name, 1)

/-- A variable with one entry on one rank. -/
def scalar (name : String) (io : IOType) (tags : List String) : Var :=
  ⟨name, io, tags, [1], [some [1]]⟩

/-! ### `SimpleLinearODE` -/

/-- `setup`, simple_linear_ode.py L11-16. -/
def linearProblem : Problem where
  vars := [
    scalar "test_comp.y_old" .input ["y", "step_input_var"],
    scalar "test_comp.y_accumulated_stages" .input ["y", "accumulated_stage_var"],
    scalar "test_comp.y_stage" .output ["y", "stage_output_var"]]
  emptyTagsMatchAll := false

def linearConn : List (String × String) :=
  [("test_comp.y_old", "_auto_ivc.v0"), ("test_comp.y_accumulated_stages", "_auto_ivc.v1")]

/-- The stage problem: `compute` is `simpleLinear`, L18-29. -/
noncomputable def linearEnv (fwd rev : OM.Vectors ℝ → ℝ → ℝ → OM.Vec ℝ → OM.Vec ℝ) : OM.Env ℝ where
  solve v h a :=
    let i := transfer linearConn v.outputs v.inputs
    ⟨i, Function.update v.outputs "test_comp.y_stage" fun k =>
      simpleLinear h a ⟨i "test_comp.y_old" k, i "test_comp.y_accumulated_stages" k⟩⟩
  solveFwd := fwd
  solveRev := rev

/-! ### `ProtheroRobinson` -/

/-- `setup`, prothero_robinson_ode.py L22-26. -/
def protheroProblem : Problem where
  vars := [
    scalar "test_comp.time" .input ["time_variable"],
    scalar "test_comp.x" .input ["step_input_var", "x"],
    scalar "test_comp.acc_stages" .input ["accumulated_stage_var", "x"],
    scalar "test_comp.x_stage" .output ["stage_output_var", "x"]]
  emptyTagsMatchAll := false

def protheroConn : List (String × String) :=
  [("test_comp.time", "_auto_ivc.v0"), ("test_comp.x", "_auto_ivc.v1"),
    ("test_comp.acc_stages", "_auto_ivc.v2")]

/-- The stage problem: `compute` is `protheroRobinson`, L41-55. -/
noncomputable def protheroEnv (lam : ℝ) (fwd rev : OM.Vectors ℝ → ℝ → ℝ → OM.Vec ℝ → OM.Vec ℝ) :
    OM.Env ℝ where
  solve v h a :=
    let i := transfer protheroConn v.outputs v.inputs
    ⟨i, Function.update v.outputs "test_comp.x_stage" fun k =>
      protheroRobinson lam h a (i "test_comp.time" k) (i "test_comp.x" k)
        (i "test_comp.acc_stages" k)⟩
  solveFwd := fwd
  solveRev := rev

/-! ### `KapsGroup` -/

/-- `KapsGroup.setup`, kaps.py L308-318, with the variables of the components, L18-26 and L142-150. -/
def kapsProblem : Problem where
  vars := [
    scalar "test_comp.Kaps1.y_1_old" .input ["y_1", "step_input_var"],
    scalar "test_comp.Kaps1.y_1_accumulated_stages" .input ["y_1", "accumulated_stage_var"],
    scalar "test_comp.Kaps1.y_2" .input [],
    scalar "test_comp.Kaps1.y_1" .output [],
    scalar "test_comp.Kaps1.y_1_stage" .output ["y_1", "stage_output_var"],
    scalar "test_comp.Kaps2.y_2_old" .input ["y_2", "step_input_var"],
    scalar "test_comp.Kaps2.y_2_accumulated_stages" .input ["y_2", "accumulated_stage_var"],
    scalar "test_comp.Kaps2.y_1" .input [],
    scalar "test_comp.Kaps2.y_2" .output [],
    scalar "test_comp.Kaps2.y_2_stage" .output ["y_2", "stage_output_var"]]
  emptyTagsMatchAll := false

/-- `promotes=["*"]`, kaps.py L309-318: the inputs `y_2` and `y_1` are connected with the outputs of the
other component. -/
def kapsConn : List (String × String) :=
  [("test_comp.Kaps1.y_1_old", "_auto_ivc.v0"),
    ("test_comp.Kaps1.y_1_accumulated_stages", "_auto_ivc.v1"),
    ("test_comp.Kaps1.y_2", "test_comp.Kaps2.y_2"),
    ("test_comp.Kaps2.y_2_old", "_auto_ivc.v2"),
    ("test_comp.Kaps2.y_2_accumulated_stages", "_auto_ivc.v3"),
    ("test_comp.Kaps2.y_1", "test_comp.Kaps1.y_1")]

/-- The values the Newton solver of the group ends with, kaps.py L319-327; it starts from the current
vectors. -/
abbrev Newton := OM.Vectors ℝ → ℝ → ℝ → Out1 ℝ × Out2 ℝ

/-- The outputs of the components are set. -/
def setKaps (o : Out1 ℝ × Out2 ℝ) (x : OM.Vec ℝ) : OM.Vec ℝ :=
  Function.update (Function.update (Function.update (Function.update x
    "test_comp.Kaps1.y_1" fun _ => o.1.y1) "test_comp.Kaps1.y_1_stage" fun _ => o.1.stage)
    "test_comp.Kaps2.y_2" fun _ => o.2.y2) "test_comp.Kaps2.y_2_stage" fun _ => o.2.stage

/-- The residuals of both components for the outputs `o` of the group: `apply_nonlinear` of both
components, kaps.py L28-45 and L152-165, after the outputs have been transferred to the inputs. -/
def groupResidual (ε h a : ℝ) (v : OM.Vectors ℝ) (o : Out1 ℝ × Out2 ℝ) : Out1 ℝ × Out2 ℝ :=
  let i := transfer kapsConn (setKaps o v.outputs) v.inputs
  (residual1 ε h a ⟨i "test_comp.Kaps1.y_1_old" 0, i "test_comp.Kaps1.y_1_accumulated_stages" 0,
      i "test_comp.Kaps1.y_2" 0⟩ o.1,
    residual2 h a ⟨i "test_comp.Kaps2.y_2_old" 0, i "test_comp.Kaps2.y_2_accumulated_stages" 0,
      i "test_comp.Kaps2.y_1" 0⟩ o.2)

/-- The input `y_2` of the first component is the output of the second one and vice versa. -/
theorem groupResidual_eq (ε h a : ℝ) (v : OM.Vectors ℝ) (o : Out1 ℝ × Out2 ℝ) :
    groupResidual ε h a v o
      = (residual1 ε h a ⟨v.outputs "_auto_ivc.v0" 0, v.outputs "_auto_ivc.v1" 0, o.2.y2⟩ o.1,
        residual2 h a ⟨v.outputs "_auto_ivc.v2" 0, v.outputs "_auto_ivc.v3" 0, o.1.y1⟩ o.2) := by
  simp [groupResidual, transfer, kapsConn, setKaps, Function.update]

/-- The stage problem of Kaps' problem. -/
def kapsEnv (newton : Newton) (fwd rev : OM.Vectors ℝ → ℝ → ℝ → OM.Vec ℝ → OM.Vec ℝ) :
    OM.Env ℝ where
  solve v h a :=
    let out := setKaps (newton v h a) v.outputs
    ⟨transfer kapsConn out v.inputs, out⟩
  solveFwd := fwd
  solveRev := rev

/-! ### The backends -/

/-- A quantity with one entry at position `k`. -/
def scalarQuantity (name old acc stage : String) (k : ℕ) : Quantity :=
  ⟨name, ⟨[1], [1], true, false, k, k + 1, 0, 1⟩, some old, some acc, some stage, none⟩

/-- The metadata that are extracted for `quantities = ["y"]`. -/
def linearMeta : Meta where
  arraySize := 1
  quantities := [scalarQuantity "y" "test_comp.y_old" "test_comp.y_accumulated_stages"
    "test_comp.y_stage" 0]

/-- The metadata that are extracted for `quantities = ["x"]`, problems.py L201. -/
def protheroMeta : Meta where
  timeVariable := some "test_comp.time"
  arraySize := 1
  quantities := [scalarQuantity "x" "test_comp.x" "test_comp.acc_stages" "test_comp.x_stage" 0]

/-- The metadata that are extracted for `quantities = ["y_1", "y_2"]`, problems.py L234. -/
def kapsMeta : Meta where
  arraySize := 2
  quantities := [
    scalarQuantity "y_1" "test_comp.Kaps1.y_1_old" "test_comp.Kaps1.y_1_accumulated_stages"
      "test_comp.Kaps1.y_1_stage" 0,
    scalarQuantity "y_2" "test_comp.Kaps2.y_2_old" "test_comp.Kaps2.y_2_accumulated_stages"
      "test_comp.Kaps2.y_2_stage" 1]

def linearConf : OM.Conf := ⟨linearMeta, sourceOf linearConn⟩
def protheroConf : OM.Conf := ⟨protheroMeta, sourceOf protheroConn⟩
def kapsConf : OM.Conf := ⟨kapsMeta, sourceOf kapsConn⟩

def linearLayout : OM.Layout := layoutOf ["_auto_ivc.v0", "_auto_ivc.v1"] linearProblem
def protheroLayout : OM.Layout :=
  layoutOf ["_auto_ivc.v0", "_auto_ivc.v1", "_auto_ivc.v2"] protheroProblem
def kapsLayout : OM.Layout :=
  layoutOf ["_auto_ivc.v0", "_auto_ivc.v1", "_auto_ivc.v2", "_auto_ivc.v3"] kapsProblem

/-- The metadata above are those of the model of the extraction (C40). -/
theorem linear_setup : setup linearProblem 1 ["y"] [] = .ok [linearMeta] := by decide +kernel

theorem prothero_setup : setup protheroProblem 1 ["x"] [] = .ok [protheroMeta] := by
  decide +kernel

theorem kaps_setup : setup kapsProblem 1 ["y_1", "y_2"] [] = .ok [kapsMeta] := by decide +kernel

/-- The backends of the problems, with the vectors `v0` before the call. -/
noncomputable def linearOde (fwd rev : OM.Vectors ℝ → ℝ → ℝ → OM.Vec ℝ → OM.Vec ℝ)
    (v0 : OM.Vectors ℝ) : RK.ODE ℝ 1 0 0 (OM.pointSize linearLayout) :=
  OM.omOde linearConf linearLayout (linearEnv fwd rev) v0

noncomputable def protheroOde (lam : ℝ) (fwd rev : OM.Vectors ℝ → ℝ → ℝ → OM.Vec ℝ → OM.Vec ℝ)
    (v0 : OM.Vectors ℝ) : RK.ODE ℝ 1 0 0 (OM.pointSize protheroLayout) :=
  OM.omOde protheroConf protheroLayout (protheroEnv lam fwd rev) v0

noncomputable def kapsOde (newton : Newton)
    (fwd rev : OM.Vectors ℝ → ℝ → ℝ → OM.Vec ℝ → OM.Vec ℝ) (v0 : OM.Vectors ℝ) :
    RK.ODE ℝ 2 0 0 (OM.pointSize kapsLayout) :=
  OM.omOde kapsConf kapsLayout (kapsEnv newton fwd rev) v0

/-! ### What the backends compute -/

open Verif.RK Verif.OM

theorem linearOde_update (fwd rev v0) (z : OdeInput ℝ 1 0) (h a : ℝ) :
    ((linearOde fwd rev v0).computeUpdate z h a).1.stageUpdate
      = fun _ => simpleLinear h a ⟨z.stepInput 0, z.stageInput 0⟩ := by
  have e : ∀ i : Fin 1, ((linearOde fwd rev v0).computeUpdate z h a).1.stageUpdate i
      = simpleLinear h a ⟨z.stepInput 0, z.stageInput 0⟩ := by
    intro i
    fin_cases i
    simp [linearOde, omOde, OM.computeUpdate, linearEnv, transfer, linearConn, inputsToVec,
      linearConf, linearMeta, writeState, writeTime, scalarQuantity, vecToOutputs, getVar, setVar,
      sourceOf, toInputs, flat, Function.update]
  exact funext e

theorem protheroOde_update (lam : ℝ) (fwd rev v0) (z : OdeInput ℝ 1 0) (h a : ℝ) :
    ((protheroOde lam fwd rev v0).computeUpdate z h a).1.stageUpdate
      = fun _ => protheroRobinson lam h a z.time (z.stepInput 0) (z.stageInput 0) := by
  have e : ∀ i : Fin 1, ((protheroOde lam fwd rev v0).computeUpdate z h a).1.stageUpdate i
      = protheroRobinson lam h a z.time (z.stepInput 0) (z.stageInput 0) := by
    intro i
    fin_cases i
    simp [protheroOde, omOde, OM.computeUpdate, protheroEnv, transfer, protheroConn, inputsToVec,
      protheroConf, protheroMeta, writeState, writeTime, scalarQuantity, vecToOutputs, getVar,
      setVar, sourceOf, toInputs, flat, Function.update]
  exact funext e

/-- The stage update of Kaps' problem is what the Newton solver ends with, for vectors that hold the
arguments at the sources of the inputs. -/
theorem kapsOde_update (newton : Newton) (fwd rev v0) (z : OdeInput ℝ 2 0) (h a : ℝ) :
    ∃ v : Vectors ℝ, v.outputs "_auto_ivc.v0" 0 = z.stepInput 0 ∧
      v.outputs "_auto_ivc.v1" 0 = z.stageInput 0 ∧ v.outputs "_auto_ivc.v2" 0 = z.stepInput 1 ∧
      v.outputs "_auto_ivc.v3" 0 = z.stageInput 1 ∧
      ((kapsOde newton fwd rev v0).computeUpdate z h a).1.stageUpdate
        = ![(newton v h a).1.stage, (newton v h a).2.stage] := by
  set v : Vectors ℝ := ⟨v0.inputs, inputsToVec kapsConf 1 (toInputs z) v0.outputs⟩ with hv
  refine ⟨v, ?_, ?_, ?_, ?_, ?_⟩
  · simp [hv, inputsToVec, kapsConf, kapsMeta, writeState, writeTime, scalarQuantity, setVar,
      sourceOf, kapsConn, toInputs, flat, Function.update]
  · simp [hv, inputsToVec, kapsConf, kapsMeta, writeState, writeTime, scalarQuantity, setVar,
      sourceOf, kapsConn, toInputs, flat, Function.update]
  · simp [hv, inputsToVec, kapsConf, kapsMeta, writeState, writeTime, scalarQuantity, setVar,
      sourceOf, kapsConn, toInputs, flat, Function.update]
  · simp [hv, inputsToVec, kapsConf, kapsMeta, writeState, writeTime, scalarQuantity, setVar,
      sourceOf, kapsConn, toInputs, flat, Function.update]
  · have e : ∀ i : Fin 2, ((kapsOde newton fwd rev v0).computeUpdate z h a).1.stageUpdate i
        = ![(newton v h a).1.stage, (newton v h a).2.stage] i := by
      intro i
      change vecToOutputs kapsConf (setKaps (newton v h a) v.outputs) (fun _ => 0) i = _
      generalize newton v h a = o
      generalize v.outputs = y
      fin_cases i <;>
        simp [vecToOutputs, kapsConf, kapsMeta, scalarQuantity, getVar, setKaps, Function.update]
    exact funext e

end Verif.Comp
