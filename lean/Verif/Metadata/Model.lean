/-
Model of the metadata extraction from the stage problem.

Source: /repo/src/rkopenmdao/metadata_extractor.py
        /repo/src/rkopenmdao/discretized_ode/openmdao_ode.py, lines 85-96 (calls)

Simplifications (for the whole file):
* a stage problem is the list of its variables in the order of OpenMDAO's tables; the same
  list is seen on every rank, with the local shape on each rank (`none`: the variable is not on
  that rank);
* `get_io_metadata` without a variable type lists inputs before outputs in OpenMDAO, here all
  variables come in the order of the list;
* `np.prod(())` is `1` here (NumPy: the float `1.0`);
* the table layout of older OpenMDAO versions (lines 187-191) holds the same numbers and is not
  distinguished.
-/
import Mathlib.Data.List.Basic
import Mathlib.Data.List.Dedup
import Mathlib.Algebra.BigOperators.Group.List.Basic

namespace Verif.Metadata

/-- The two types of OpenMDAO variables. -/
inductive IOType where
  | input
  | output
  deriving DecidableEq

/-- A variable of the stage problem as OpenMDAO knows it after setup. -/
structure Var where
  name : String
  io : IOType
  tags : List String
  globalShape : List ℕ
  /-- local shape by rank -/
  shapes : List (Option (List ℕ))
  deriving DecidableEq

/-- The local shape on a rank. -/
def Var.shapeAt (v : Var) (rank : ℕ) : Option (List ℕ) := v.shapes.getD rank none

/-- Number of entries on a rank. -/
def entries : Option (List ℕ) → ℕ
  | none => 0
  | some s => s.prod

/-- One column of OpenMDAO's `_var_sizes`: the numbers of entries by rank. -/
def Var.sizes (v : Var) : List ℕ := v.shapes.map entries

/-- A stage problem. `emptyTagsMatchAll`: what `get_io_metadata` does with an empty list of tags
(no filter at all, or nothing matches). -/
structure Problem where
  vars : List Var
  emptyTagsMatchAll : Bool

/-- `model.get_io_metadata(iotypes, tags, get_remote)`: `io = none` asks for both types,
`rank = none` for the variables of all ranks. -/
def ioMetadata (P : Problem) (io : Option IOType) (tags : List String) (rank : Option ℕ) :
    List Var :=
  P.vars.filter fun v =>
    (match io with | none => true | some t => v.io == t) &&
    ((P.emptyTagsMatchAll && tags.isEmpty) || tags.any (fun t => v.tags.contains t)) &&
    (match rank with | none => true | some r => (v.shapeAt r).isSome)

/-- `ArrayMetadata`, metadata_extractor.py 42-53. -/
structure ArrayMeta where
  shape : List ℕ := [0]
  globalShape : List ℕ := [0]
  isLocal : Bool := false
  distributed : Bool := false
  start : ℕ := 0
  stop : ℕ := 0
  globalStart : ℕ := 0
  globalStop : ℕ := 0
  deriving DecidableEq

/-- `Quantity` and its subclasses with their translation metadata, metadata_extractor.py 20-39 and
56-78, in one record (the fields of the other subclass stay `none`). -/
structure Quantity where
  name : String
  arr : ArrayMeta
  stepInput : Option String := none
  accumulated : Option String := none
  stageOutput : Option String := none
  independentInput : Option String := none
  deriving DecidableEq

/-- `TimeIntegrationMetadata`, metadata_extractor.py 81-91. -/
structure Meta where
  timeVariable : Option String := none
  arraySize : ℕ := 0
  independentSize : ℕ := 0
  quantities : List Quantity := []
  independents : List Quantity := []
  deriving DecidableEq

/-- The messages of `SetupError`, and the `IndexError` of the size table. -/
inductive Err where
  | tagClash (var : String)
  | manyStageOutputs (q : String)
  | manyStepInputs (q : String)
  | manyAccumulated (q : String)
  | noStageOutput (q : String)
  | unpaired (q : String)
  | manyIndependents (q : String)
  | noIndependent (q : String)
  | timeNotScalar
  | manyTimeVariables
  | index
  deriving DecidableEq

/-- `SetupError` or another exception. -/
def Err.isSetupError : Err → Bool
  | .index => false
  | _ => true

/-- `_var_allprocs_abs2idx[name]`: position among the variables of the same type. -/
def varIndex (P : Problem) (v : Var) : ℕ :=
  (P.vars.filter fun w => w.io == v.io).findIdx fun w => w.name == v.name

/-- `_var_sizes["output"][:, index]`. -/
def outputSizes (P : Problem) (index : ℕ) : Except Err (List ℕ) :=
  match (P.vars.filter fun w => w.io == .output)[index]? with
  | none => .error .index
  | some w => .ok w.sizes

/-- `_create_local_array_metadata`, metadata_extractor.py 174-205. -/
def createLocal (P : Problem) (rank start stop : ℕ) (v : Var) (shape : List ℕ) :
    Except Err ArrayMeta :=
  if shape ≠ v.globalShape then
    match outputSizes P (varIndex P v) with
    | .error e => .error e
    | .ok sizes =>
      .ok { shape := shape, globalShape := v.globalShape, isLocal := true, start := start,
            stop := stop, globalStart := (sizes.take rank).sum,
            globalStop := (sizes.take rank).sum + sizes.getD rank 0 }
  else
    .ok { shape := shape, globalShape := v.globalShape, isLocal := true, start := start,
          stop := stop, globalStart := 0, globalStop := shape.prod }

/-- The local variables of `_extract_time_integration_quantity`, 218-222 and its loop. -/
structure Found where
  size : ℕ
  outs : ℕ := 0
  steps : ℕ := 0
  accs : ℕ := 0
  arr : Option ArrayMeta := none
  stepInput : Option String := none
  accumulated : Option String := none
  stageOutput : Option String := none

/-- Body of the loop over the variables of a quantity, metadata_extractor.py 223-241. -/
def visit (P : Problem) (rank : ℕ) (f : Found) (v : Var) : Except Err Found :=
  if v.tags.contains "stage_output_var" then
    let shape := (v.shapeAt rank).getD []
    let stop := f.size + shape.prod
    match createLocal P rank f.size stop v shape with
    | .error e => .error e
    | .ok a => .ok { f with outs := f.outs + 1, stageOutput := some v.name, size := stop,
                            arr := some a }
  else if v.tags.contains "step_input_var" then
    .ok { f with steps := f.steps + 1, stepInput := some v.name }
  else if v.tags.contains "accumulated_stage_var" then
    .ok { f with accs := f.accs + 1, accumulated := some v.name }
  else .ok f

/-- The checks of the counters and the result, metadata_extractor.py 243-282. -/
def conclude (q : String) (f : Found) : Except Err (ℕ × Quantity) :=
  if f.outs > 1 then .error (.manyStageOutputs q)
  else if f.steps > 1 then .error (.manyStepInputs q)
  else if f.accs > 1 then .error (.manyAccumulated q)
  else if f.outs < 1 then .error (.noStageOutput q)
  else if ¬ ((f.steps, f.accs) ∈ [(0, 0), (1, 1)]) then .error (.unpaired q)
  else .ok (f.size, { name := q, arr := f.arr.getD {}, stepInput := f.stepInput,
                      accumulated := f.accumulated, stageOutput := f.stageOutput })

/-- `_extract_time_integration_quantity`, metadata_extractor.py 208-282. -/
def extractQuantity (P : Problem) (rank : ℕ) (q : String) (size : ℕ) :
    Except Err (ℕ × Quantity) :=
  match (ioMetadata P none [q] (some rank)).foldlM (visit P rank) { size := size } with
  | .error e => .error e
  | .ok f => conclude q f

/-- The local variables of `_extract_time_independent_quantity`, 347-348 and its loop. -/
structure FoundIndep where
  size : ℕ
  count : ℕ := 0
  arr : Option ArrayMeta := none
  var : Option String := none

/-- Body of the loop over the variables of an independent input, metadata_extractor.py 349-362. -/
def visitIndep (P : Problem) (rank : ℕ) (f : FoundIndep) (v : Var) : Except Err FoundIndep :=
  if v.tags.contains "time_independent_input_var" then
    let shape := (v.shapeAt rank).getD []
    let stop := f.size + shape.prod
    match createLocal P rank f.size stop v shape with
    | .error e => .error e
    | .ok a => .ok { size := stop, count := f.count + 1, arr := some a, var := some v.name }
  else .ok f

/-- The checks and the result, metadata_extractor.py 364-384. -/
def concludeIndep (q : String) (f : FoundIndep) : Except Err (ℕ × Quantity) :=
  if f.count > 1 then .error (.manyIndependents q)
  else if f.count < 1 then .error (.noIndependent q)
  else .ok (f.size, { name := q, arr := f.arr.getD {}, independentInput := f.var })

/-- `_extract_time_independent_quantity`, metadata_extractor.py 337-384. -/
def extractIndependent (P : Problem) (rank : ℕ) (q : String) (size : ℕ) :
    Except Err (ℕ × Quantity) :=
  match (ioMetadata P none [q] (some rank)).foldlM (visitIndep P rank) { size := size } with
  | .error e => .error e
  | .ok f => concludeIndep q f

/-- Body of the loops over the variables of all ranks, metadata_extractor.py 115-139 and 306-334:
the same text up to the function that extracts a quantity. -/
def collectOne (P : Problem) (rank : ℕ) (io : IOType) (requested : List String)
    (extract : String → ℕ → Except Err (ℕ × Quantity)) (acc : ℕ × List Quantity) (v : Var) :
    Except Err (ℕ × List Quantity) :=
  match requested.dedup.filter (fun t => v.tags.contains t) with
  | [q] =>
    if (ioMetadata P (some io) requested (some rank)).any (fun w => w.name == v.name) then
      match extract q acc.1 with
      | .error e => .error e
      | .ok (size, quantity) => .ok (size, acc.2 ++ [quantity])
    else
      .ok (acc.1, acc.2 ++ [{ name := q, arr := { globalShape := v.globalShape } }])
  | _ => .error (.tagClash v.name)

/-- The loops over the variables of all ranks, metadata_extractor.py 99-139 and 292-334. -/
def collect (P : Problem) (rank : ℕ) (io : IOType) (requested : List String)
    (extract : String → ℕ → Except Err (ℕ × Quantity)) (init : ℕ × List Quantity) :
    Except Err (ℕ × List Quantity) :=
  (ioMetadata P (some io) requested none).foldlM (collectOne P rank io requested extract) init

/-- `_search_for_time_variable`, metadata_extractor.py 148-171. -/
def searchTime (P : Problem) (rank : ℕ) : Except Err (Option String) :=
  let loc := ioMetadata P (some .input) ["time_variable"] (some rank)
  match loc.length, ioMetadata P (some .input) ["time_variable"] none with
  | 1, [v] => if v.globalShape.prod ≠ 1 then .error .timeNotScalar else .ok (some v.name)
  | 0, [] => .ok none
  | _, _ => .error .manyTimeVariables

/-- `extract_time_integration_metadata`, metadata_extractor.py 94-145. -/
def extractMetadata (P : Problem) (rank : ℕ) (requested : List String) : Except Err Meta :=
  match collect P rank .output requested (extractQuantity P rank) (0, []) with
  | .error e => .error e
  | .ok (size, qs) =>
    match searchTime P rank with
    | .error e => .error e
    | .ok t => .ok { timeVariable := t, arraySize := size, quantities := qs }

/-- `add_time_independent_input_metadata`, metadata_extractor.py 285-334. -/
def addIndependent (P : Problem) (rank : ℕ) (requested : List String) (m : Meta) :
    Except Err Meta :=
  match collect P rank .input requested (extractIndependent P rank)
      (m.independentSize, m.independents) with
  | .error e => .error e
  | .ok (size, qs) => .ok { m with independentSize := size, independents := qs }

/-- Lines 85-93 of openmdao_ode.py on one rank: the independent inputs are looked at only if some
are requested. -/
def rankMetadata (P : Problem) (rank : ℕ) (requested independents : List String) :
    Except Err Meta :=
  match extractMetadata P rank requested with
  | .error e => .error e
  | .ok m => if independents.isEmpty then .ok m else addIndependent P rank independents m

/-- The shape on a rank agrees with the global one, metadata_extractor.py 396-398. -/
def shapeMatches (q : Quantity) : Bool := q.arr.shape == q.arr.globalShape

/-- The flag of the `j`-th quantity, metadata_extractor.py 399-402: not all ranks agree. `lists`
are the quantity lists by rank. -/
def distributedFlag (lists : List (List Quantity)) (j : ℕ) : Bool :=
  !(lists.all fun qs => match qs[j]? with | none => true | some q => shapeMatches q)

/-- Setting the flags on one rank. -/
def setFlags (lists : List (List Quantity)) (qs : List Quantity) : List Quantity :=
  qs.mapIdx fun j q => { q with arr := { q.arr with distributed := distributedFlag lists j } }

/-- `add_distributivity_information` on all ranks, metadata_extractor.py 387-402. The lists have
the same lengths on all ranks, so the reductions of the ranks belong together by position. -/
def addDistributivity (ms : List Meta) : List Meta :=
  ms.map fun m =>
    { m with quantities := setFlags (ms.map Meta.quantities) m.quantities,
             independents := setFlags (ms.map Meta.independents) m.independents }

/-- Lines 85-96 of openmdao_ode.py on all ranks. -/
def setup (P : Problem) (ranks : ℕ) (requested independents : List String) :
    Except Err (List Meta) :=
  match (List.range ranks).mapM (fun r => rankMetadata P r requested independents) with
  | .error e => .error e
  | .ok ms => .ok (addDistributivity ms)

end Verif.Metadata
