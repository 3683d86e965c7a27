/-
Model of the variables of the component: what `setup` declares, and the translation between the
vectors of the component and the arrays of the time integration.

Source: /repo/src/rkopenmdao/runge_kutta_integrator.py L249-436 (setup), L446-451 and L455-532
        (translation), L665-682, L688-712, L770-789, L799-845 (its use for derivatives)

Simplifications (for the whole file):
* vectors and arrays are as in `Verif.OpenMDAO.Model`: an entry of a vector has a name and a flat
  index, only indices below the size of a variable are meaningful;
* `get_val` of the stage problem is a function from names to lists of values;
* `copy_shape` (L339) is resolved to the shape of the input;
* the discretization is the choice between the plain and the embedded class, the class of the
  checkpointer and its options are not looked at; printing is left out;
* the lists `_of_vars` and `_wrt_vars` (L357-378) are not used anywhere and are left out.
-/
import Verif.OpenMDAO.Model
import Verif.Integrator.RK

namespace Verif.Component

open Verif.Metadata Verif.OM Verif.Control Verif.Integrator Verif.RK

/-! ### Setup -/

/-- Arguments of `add_input` and `add_output`. `val = none`: the default value of OpenMDAO. -/
structure Decl where
  name : String
  io : IOType
  shape : List ℕ
  val : Option (List ℝ)
  distributed : Bool

/-- What can be raised by `setup`. -/
inductive SetupErr where
  /-- OpenMDAO: a variable of this name already exists. -/
  | duplicate (name : String)
  /-- The values of the stage problem do not have the wanted shape. -/
  | shape (name : String)
  /-- `get_val(None)` -/
  | noVariable (name : String)
  /-- `min_p_order` raises -/
  | order
  /-- `None.config` -/
  | attribute
  deriving DecidableEq

/-- `add_input` and `add_output` of OpenMDAO: inputs and outputs share their names. -/
def addVar (ds : List Decl) (d : Decl) : Except SetupErr (List Decl) :=
  if ds.any (fun e => e.name == d.name) then .error (.duplicate d.name) else .ok (ds ++ [d])

/-- The value of the input of a local quantity, L319-328; `stage` is `get_val`. -/
def initialValue (stage : String → List ℝ) (q : Quantity) : Except SetupErr (List ℝ) :=
  match q.stepInput with
  | some s => if (stage s).length = q.arr.shape.prod then .ok (stage s)
      else .error (.shape (q.name ++ "_initial"))
  | none => .ok (List.replicate q.arr.shape.prod 0)

/-- The input of a quantity, L315-336. -/
def addInitial (stage : String → List ℝ) (ds : List Decl) (q : Quantity) :
    Except SetupErr (List Decl) :=
  if q.arr.isLocal then
    match initialValue stage q with
    | .error e => .error e
    | .ok v => addVar ds ⟨q.name ++ "_initial", .input, q.arr.shape, some v, q.arr.distributed⟩
  else addVar ds ⟨q.name ++ "_initial", .input, q.arr.shape, none, q.arr.distributed⟩

/-- Body of the loop in L312-341: input and output of a quantity. -/
def addQuantity (stage : String → List ℝ) (ds : List Decl) (q : Quantity) :
    Except SetupErr (List Decl) :=
  match addInitial stage ds q with
  | .error e => .error e
  | .ok ds' => addVar ds' ⟨q.name ++ "_final", .output, q.arr.shape, none, q.arr.distributed⟩

/-- Body of the loop in L345-355. The values are looked up whether the quantity is local or not. -/
def addIndependentInput (stage : String → List ℝ) (ds : List Decl) (q : Quantity) :
    Except SetupErr (List Decl) :=
  match q.independentInput with
  | none => .error (.noVariable q.name)
  | some s => if (stage s).length = q.arr.shape.prod then
      addVar ds ⟨q.name, .input, q.arr.shape, some (stage s), q.arr.distributed⟩
    else .error (.shape q.name)

/-- `_add_inputs_and_outputs`, L304-355. -/
def declare (info : Meta) (stage : String → List ℝ) : Except SetupErr (List Decl) :=
  match addVar [] ⟨"time_initial", .input, [1], some [0], false⟩ with
  | .error e => .error e
  | .ok d1 => match addVar d1 ⟨"time_final", .output, [1], none, false⟩ with
    | .error e => .error e
    | .ok d2 => match info.quantities.foldlM (addQuantity stage) d2 with
      | .error e => .error e
      | .ok d3 => info.independents.foldlM (addIndependentInput stage) d3

/-- The callbacks of one of the three functions, L266-289: the option if it is given, otherwise
logging and measuring time on the first rank and nothing on the others. -/
def callbacksFor {α : Type} (given : Option (List α)) (rank : ℕ) (logging clock : α) : List α :=
  match given with
  | some l => l
  | none => if rank = 0 then [logging, clock] else []

/-- The options that `setup` reads, L89-197. `order` is the result of `min_p_order` of the tableau,
`none` if it raises. -/
structure SetupOptions (α : Type) where
  embedded : Bool
  order : Option ℝ
  config : Config
  factories : List (ℝ → Params)
  callbacks : Kind → Option (List α)

/-- What `setup` leaves behind. -/
structure Ready (α : Type) where
  declared : List Decl
  embedded : Bool
  ctrl : Ctrl
  callbacks : Kind → List α

/-- `setup`, L249-291, on one rank, with `_setup_error_controller` L393-405 and
`_setup_integration_states` L407-426: variables, discretization, controller, states, callbacks.
`logging k` and `clock k` are the default callbacks. -/
def setupComponent {α : Type} (info : Meta) (stage : String → List ℝ) (o : SetupOptions α)
    (rank : ℕ) (logging clock : Kind → α) : Except SetupErr (Ready α) :=
  match declare info stage with
  | .error e => .error e
  | .ok ds => match o.order with
    | none => .error .order
    | some p => match buildChain p o.config o.factories with
      | none => .error .attribute
      | some c => .ok ⟨ds, o.embedded, c, fun k => callbacksFor (o.callbacks k) rank (logging k) (clock k)⟩

/-! ### Translation -/

/-- `_to_numpy_array_time_integration`, L470-482; `suffix` is `_initial` for input vectors and
`_final` for the others. -/
def toArray (info : Meta) (suffix : String) (x : Vec ℝ) (y : Flat ℝ) : Flat ℝ :=
  info.quantities.foldl (fun y q => getVar y x (q.name ++ suffix) q.arr.start q.arr.stop) y

/-- `_to_numpy_array_independent_inputs`, L484-499. -/
def toIndependent (info : Meta) (x : Vec ℝ) (y : Flat ℝ) : Flat ℝ :=
  info.independents.foldl (fun y q => getVar y x q.name q.arr.start q.arr.stop) y

/-- `_from_numpy_array_time_integration`, L501-515. -/
def fromArray (info : Meta) (suffix : String) (y : Flat ℝ) (x : Vec ℝ) : Vec ℝ :=
  info.quantities.foldl (fun x q => setVar x (q.name ++ suffix) 1 y q.arr.start) x

/-- `_from_numpy_array_independent_input`, L517-532. -/
def fromIndependent (info : Meta) (y : Flat ℝ) (x : Vec ℝ) : Vec ℝ :=
  info.independents.foldl (fun x q => setVar x q.name 1 y q.arr.start) x

/-- An array of `n` entries, as a function of all indices. -/
def flat {n : ℕ} (y : Fin n → ℝ) : Flat ℝ := fun i => if h : i < n then y ⟨i, h⟩ else 0

/-- The `n` entries of an array. -/
def cut (n : ℕ) (y : Flat ℝ) : Fin n → ℝ := fun i => y i

variable {D : Type} {info : Meta}

/-- Inputs or seeds of inputs written into the arrays `old` of a state, L458-464 and L695-711. -/
def readInputs (info : Meta) (old : StartingValues ℝ info.arraySize info.independentSize)
    (x : Vec ℝ) : StartingValues ℝ info.arraySize info.independentSize where
  initialTime := x "time_initial" 0
  initialValues := cut _ (toArray info "_initial" x (flat old.initialValues))
  independentInputs := cut _ (toIndependent info x (flat old.independentInputs))

/-- Seeds of outputs written into the arrays of a state, L837-845. -/
def readOutputs (info : Meta) (old : Fin info.arraySize → ℝ) (x : Vec ℝ) :
    Outputs info.arraySize where
  time := x "time_final" 0
  values := cut _ (toArray info "_final" x (flat old))

/-- Outputs written to the vector of the component, L446-451 and L674-682. -/
def writeOutputs (info : Meta) (v : Outputs info.arraySize) (x : Vec ℝ) : Vec ℝ :=
  Function.update (fromArray info "_final" (flat v.values) x) "time_final" fun _ => v.time

/-- Derivatives for the inputs written to the vector of the component, L779-789. -/
def writeInputs (info : Meta) (v : StartingValues ℝ info.arraySize info.independentSize)
    (x : Vec ℝ) : Vec ℝ :=
  Function.update (fromIndependent info (flat v.independentInputs)
    (fromArray info "_initial" (flat v.initialValues) x)) "time_initial" fun _ => v.initialTime

/-- The integrator with the vectors of the component instead of arrays. `cur` are the arrays of a
state that the translation writes to, `out` is the output vector before `compute`. -/
def named (info : Meta) (B : Backend D (StartingValues ℝ info.arraySize info.independentSize)
      (Outputs info.arraySize)) (cur : D → StartingValues ℝ info.arraySize info.independentSize)
    (out : Vec ℝ) : Backend D (Vec ℝ) (Vec ℝ) where
  step := B.step
  time := B.time
  measure := B.measure
  set := B.set
  load := fun d x => B.load d (readInputs info (cur d) x)
  cacheHit := fun d x => B.cacheHit d (readInputs info ⟨0, 0, 0⟩ x)
  clearLin := B.clearLin
  read := fun d => writeOutputs info (B.read d) out
  deriv := B.deriv
  adj := B.adj
  seed := fun d x => B.seed d (readOutputs info (cur d).initialValues x)
  writeOut := fun d x => writeOutputs info (B.writeOut d (readOutputs info 0 x)) x
  writeIn := fun d x => writeInputs info (B.writeIn d (readInputs info ⟨0, 0, 0⟩ x)) x

end Verif.Component
