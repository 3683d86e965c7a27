/-
Model of the state objects with their arrays in memory: setting, dictionaries, checkpoints.

Source: /repo/src/rkopenmdao/time_discretization/runge_kutta_discretization_state.py
        /repo/src/rkopenmdao/time_integration_state.py
        /repo/src/rkopenmdao/checkpoint_interface/runge_kutta_integrator_pyrevolve_classes.py

Simplifications (for the whole file):
* an array is the list of its rows, one-dimensional arrays have one row;
* the keys of the dictionaries are an enumeration; the keys `f"stage_{i}"` are `stage i`;
* `a[:] = b[:]` fails unless the shapes are equal (NumPy also repeats arrays of length one).
-/
import Mathlib.Data.List.Basic
import Mathlib.Data.List.Nodup
import Mathlib.Logic.Function.Basic

namespace Verif.State

/-- The content of a NumPy array. -/
abbrev Arr (K : Type) := List (List K)

/-- `array.shape`: lengths of the rows. -/
def shape {K : Type} (a : Arr K) : List ℕ := a.map List.length

/-- `array.size`. -/
def size {K : Type} (a : Arr K) : ℕ := (shape a).sum

/-- Memory: the arrays by address; addresses from `next` on are free. -/
structure Heap (K : Type) where
  cells : ℕ → Arr K
  next : ℕ

/-- A reference to an array: a whole one or a row of a two-dimensional one (`a[i, :]`). -/
inductive View where
  | whole (a : ℕ)
  | row (a i : ℕ)
  deriving DecidableEq

/-- What can be raised. -/
inductive Err where
  | key
  | type
  | value
  deriving DecidableEq

variable {K : Type}

/-- Reading through a reference. -/
def View.read (h : Heap K) : View → Arr K
  | .whole a => h.cells a
  | .row a i => [(h.cells a).getD i []]

/-- Overwriting the content seen through a reference, `v[:] = x`. -/
def View.write (h : Heap K) (v : View) (x : Arr K) : Heap K :=
  match v with
  | .whole a => { h with cells := Function.update h.cells a x }
  | .row a i => { h with cells := Function.update h.cells a ((h.cells a).set i (x.getD 0 [])) }

/-- `v[:] = x` with the comparison of shapes. -/
def View.assign (h : Heap K) (v : View) (x : Arr K) : Except Err (Heap K) :=
  if shape (v.read h) = shape x then .ok (v.write h x) else .error .value

/-- A new array. -/
def Heap.alloc (h : Heap K) (x : Arr K) : ℕ × Heap K :=
  (h.next, ⟨Function.update h.cells h.next x, h.next + 1⟩)

/-- `np.zeros((r, c))`. -/
def zeros [Zero K] (r c : ℕ) : Arr K := List.replicate r (List.replicate c 0)

/-- The attributes of `RungeKuttaDiscretizationState`, runge_kutta_discretization_state.py L48-64:
addresses of arrays. -/
@[ext] structure RKObj where
  startState : ℕ
  stageStates : ℕ
  stageUpdates : ℕ
  finalState : ℕ
  independentInputs : ℕ
  stageIndependentOutputs : ℕ
  finalIndependentOutputs : ℕ
  startTime : ℕ
  stageTimes : ℕ
  finalTime : ℕ
  stepSize : ℕ
  linearizationPoints : ℕ

/-- A state object; `emb` are the attributes `embedded_state` and `error_estimate` of
`EmbeddedRungeKuttaDiscretizationState` (L197-198), absent in the plain class. -/
structure Obj extends RKObj where
  emb : Option (ℕ × ℕ)

/-- The addresses of the twelve arrays. -/
def RKObj.ids (o : RKObj) : List ℕ :=
  [o.startState, o.stageStates, o.stageUpdates, o.finalState, o.independentInputs,
    o.stageIndependentOutputs, o.finalIndependentOutputs, o.startTime, o.stageTimes, o.finalTime,
    o.stepSize, o.linearizationPoints]

/-- The addresses of the arrays of `embedded_state` and `error_estimate`. -/
def Obj.embIds (o : Obj) : List ℕ :=
  match o.emb with
  | none => []
  | some (a, b) => [a, b]

/-- One line of `set`: `self.x[:] = other.x[:]`. -/
def copyArray (h : Heap K) (p : ℕ × ℕ) : Except Err (Heap K) :=
  (View.whole p.1).assign h ((View.whole p.2).read h)

/-- Several lines of `set`. -/
def copyAll : Heap K → List (ℕ × ℕ) → Except Err (Heap K)
  | h, [] => .ok h
  | h, p :: ps => match copyArray h p with
    | .error e => .error e
    | .ok h' => copyAll h' ps

/-- `set`, runge_kutta_discretization_state.py L98-110. The embedded class does not override it. -/
def Obj.set (h : Heap K) (self other : Obj) : Except Err (Heap K) :=
  copyAll h
    [(self.startState, other.startState), (self.stageStates, other.stageStates),
      (self.stageUpdates, other.stageUpdates), (self.finalState, other.finalState),
      (self.independentInputs, other.independentInputs),
      (self.stageIndependentOutputs, other.stageIndependentOutputs),
      (self.finalIndependentOutputs, other.finalIndependentOutputs),
      (self.startTime, other.startTime), (self.stageTimes, other.stageTimes),
      (self.finalTime, other.finalTime), (self.stepSize, other.stepSize),
      (self.linearizationPoints, other.linearizationPoints)]

/-- The keys of the dictionaries. -/
inductive Key where
  | startState | startTime | stageTimes | stage (i : ℕ) | state | update | independentOutput
  | finalState | independentInput | finalIndependentOutput | finalTime | linearizationPoints
  | embeddedState | embeddedDict | errorEstimate
  | discretizationState | stepSizeSuggestion | stepSizeHistory | errorHistory
  deriving DecidableEq

/-- A nested dictionary of references. -/
inductive Dict where
  | arr (v : View)
  | dict (entries : List (Key × Dict))

/-- `d[key]`. -/
def Dict.get (d : Dict) (k : Key) : Except Err Dict :=
  match d with
  | .arr _ => .error .type
  | .dict es => match es.find? (fun e => e.1 = k) with
    | none => .error .key
    | some e => .ok e.2

/-- The entry for stage `i`, runge_kutta_discretization_state.py L118-122. -/
def stageEntry (o : RKObj) (i : ℕ) : Key × Dict :=
  (.stage i, .dict [(.state, .arr (.row o.stageStates i)), (.update, .arr (.row o.stageUpdates i)),
    (.independentOutput, .arr (.row o.stageIndependentOutputs i))])

/-- The entries of `to_dict`, runge_kutta_discretization_state.py L112-129, for `s` stages. -/
def RKObj.entries (o : RKObj) (s : ℕ) : List (Key × Dict) :=
  [(.startState, .arr (.whole o.startState)), (.startTime, .arr (.whole o.startTime)),
      (.stageTimes, .arr (.whole o.stageTimes))]
    ++ (List.range s).map (stageEntry o)
    ++ [(.finalState, .arr (.whole o.finalState)),
      (.independentInput, .arr (.whole o.independentInputs)),
      (.finalIndependentOutput, .arr (.whole o.finalIndependentOutputs)),
      (.finalTime, .arr (.whole o.finalTime)),
      (.linearizationPoints, .arr (.whole o.linearizationPoints))]

/-- The entries the embedded class adds, runge_kutta_discretization_state.py L219-223. -/
def Obj.embEntries (o : Obj) : List (Key × Dict) :=
  match o.emb with
  | none => []
  | some (a, b) => [(.embeddedState, .arr (.whole a)), (.errorEstimate, .arr (.whole b))]

/-- `to_dict` of both classes, runge_kutta_discretization_state.py L112-129 and L219-223. The number
of stages is `stage_states.shape[0]`. -/
def Obj.toDict (h : Heap K) (o : Obj) : Dict :=
  .dict (o.entries (h.cells o.stageStates).length ++ o.embEntries)

/-- A dictionary entry used as whole array. Simplification: views of rows do not occur where this
is used if the dictionary comes from `to_dict`. -/
def Dict.asArray : Dict → Except Err ℕ
  | .arr (.whole a) => .ok a
  | _ => .error .type

/-- A dictionary entry used as any array. -/
def Dict.asView : Dict → Except Err View
  | .arr v => .ok v
  | _ => .error .type

/-- The constructor, runge_kutta_discretization_state.py L66-96: twelve new arrays. The size of the
independent inputs is an array here, see `fromDictRK`. -/
def newRK [Zero K] (h : Heap K) (n oo s l : ℕ) : RKObj × Heap K :=
  let (a1, h) := h.alloc (zeros 1 n)
  let (a2, h) := h.alloc (zeros s n)
  let (a3, h) := h.alloc (zeros s n)
  let (a4, h) := h.alloc (zeros 1 n)
  let (a5, h) := h.alloc (zeros 1 0)
  let (a6, h) := h.alloc (zeros s oo)
  let (a7, h) := h.alloc (zeros 1 oo)
  let (a8, h) := h.alloc (zeros 1 1)
  let (a9, h) := h.alloc (zeros 1 s)
  let (a10, h) := h.alloc (zeros 1 1)
  let (a11, h) := h.alloc (zeros 1 1)
  let (a12, h) := h.alloc (zeros s l)
  (⟨a1, a2, a3, a4, a5, a6, a7, a8, a9, a10, a11, a12⟩, h)

/-- `target[i, :] = state_dict[f"stage_{i}"][key]` -/
def copyStage (d : Dict) (target : ℕ) (key : Key) (h : Heap K) (i : ℕ) : Except Err (Heap K) := do
  let st ← d.get (.stage i)
  let v ← (← st.get key).asView
  (View.row target i).assign h (v.read h)

/-- The body of the loop, runge_kutta_discretization_state.py L144-149. -/
def copyStageAll (d : Dict) (o : RKObj) (h : Heap K) (i : ℕ) : Except Err (Heap K) := do
  let h ← copyStage d o.stageStates .state h i
  let h ← copyStage d o.stageUpdates .update h i
  copyStage d o.stageIndependentOutputs .independentOutput h i

/-- `from_dict` of the plain class, runge_kutta_discretization_state.py L131-155.
`independent_input_size` is the array itself (L136): `np.zeros` of a nonempty array of floats raises
TypeError, of an empty one it makes an array that is replaced at L151. -/
def fromDictRK [Zero K] (h : Heap K) (d : Dict) : Except Err (RKObj × Heap K) := do
  let lin ← (← d.get .linearizationPoints).asArray
  let s := (h.cells lin).length
  let fs ← (← d.get .finalState).asArray
  let ii ← (← d.get .independentInput).asArray
  let out0 ← (← (← d.get (.stage 0)).get .independentOutput).asView
  if size (h.cells ii) ≠ 0 then .error .type
  else
    let (o, h) := newRK h (size (h.cells fs)) (size (out0.read h)) s
      (((h.cells lin).getD 0 []).length)
    let o := { o with startState := ← (← d.get .startState).asArray }
    let o := { o with startTime := ← (← d.get .startTime).asArray }
    let o := { o with stageTimes := ← (← d.get .stageTimes).asArray }
    let h ← (List.range s).foldlM (copyStageAll d o) h
    let o := { o with finalState := fs }
    let o := { o with independentInputs := ii }
    let o := { o with finalIndependentOutputs := ← (← d.get .finalIndependentOutput).asArray }
    let o := { o with finalTime := ← (← d.get .finalTime).asArray }
    .ok ({ o with linearizationPoints := lin }, h)

/-- `from_dict` of both classes; `embedded` says which class it is called on. The embedded class
(L225-229) reads the key `embedded_dict` and returns nothing (`none`). -/
def fromDict [Zero K] (embedded : Bool) (h : Heap K) (d : Dict) :
    Except Err (Option Obj × Heap K) := do
  let (o, h) ← fromDictRK h d
  if embedded then
    let _ ← d.get .embeddedDict
    let _ ← d.get .errorEstimate
    .ok (none, h)
  else .ok (some ⟨o, none⟩, h)

/-- The content of a state object: everything its attributes show. -/
@[ext] structure RKVal (K : Type) where
  startState : Arr K
  stageStates : Arr K
  stageUpdates : Arr K
  finalState : Arr K
  independentInputs : Arr K
  stageIndependentOutputs : Arr K
  finalIndependentOutputs : Arr K
  startTime : Arr K
  stageTimes : Arr K
  finalTime : Arr K
  stepSize : Arr K
  linearizationPoints : Arr K

/-- The content of the twelve arrays. -/
def RKObj.value (h : Heap K) (o : RKObj) : RKVal K :=
  ⟨h.cells o.startState, h.cells o.stageStates, h.cells o.stageUpdates, h.cells o.finalState,
    h.cells o.independentInputs, h.cells o.stageIndependentOutputs,
    h.cells o.finalIndependentOutputs, h.cells o.startTime, h.cells o.stageTimes,
    h.cells o.finalTime, h.cells o.stepSize, h.cells o.linearizationPoints⟩

/-- The content of the embedded arrays. -/
def Obj.embValue (h : Heap K) (o : Obj) : Option (Arr K × Arr K) :=
  o.emb.map fun p => (h.cells p.1, h.cells p.2)

/-! ### `TimeIntegrationState` -/

/-- The attribute `step_size_suggestion`: an array, or a number after `from_dict`. -/
inductive Slot (K : Type) where
  | array (a : ℕ)
  | number (x : K)

/-- `TimeIntegrationState`, time_integration_state.py L14-38. -/
structure TObj (K : Type) where
  disc : Obj
  sugg : Slot K
  stepHist : ℕ
  errHist : ℕ

/-- `TimeIntegrationState.set`, time_integration_state.py L40-54. Assigning to the elements of a
number raises TypeError, so does reading them (`other.step_size_suggestion[:]`). -/
def TObj.set (h : Heap K) (self other : TObj K) : Except Err (Heap K) := do
  let h ← self.disc.set h other.disc
  match self.sugg, other.sugg with
  | .array a, .array b =>
    copyAll h [(a, b), (self.stepHist, other.stepHist), (self.errHist, other.errHist)]
  | _, _ => .error .type

/-- `TimeIntegrationState.to_dict`, time_integration_state.py L56-71, for states whose suggestion is
an array. -/
def TObj.toDict (h : Heap K) (t : TObj K) (a : ℕ) : Dict :=
  .dict [(.discretizationState, t.disc.toDict h), (.stepSizeSuggestion, .arr (.whole a)),
    (.stepSizeHistory, .arr (.whole t.stepHist)), (.errorHistory, .arr (.whole t.errHist))]

/-- `TimeIntegrationState.from_dict`, time_integration_state.py L73-91: always the plain class, and
element 0 of the suggestion. -/
def TObj.fromDict [Zero K] (h : Heap K) (d : Dict) : Except Err (TObj K × Heap K) := do
  let (o, h) ← fromDictRK h (← d.get .discretizationState)
  let a ← (← d.get .stepSizeSuggestion).asArray
  let sh ← (← d.get .stepSizeHistory).asArray
  let eh ← (← d.get .errorHistory).asArray
  match ((h.cells a).getD 0 []).head? with
  | none => .error .key
  | some x => .ok (⟨⟨o, none⟩, .number x, sh, eh⟩, h)

/-! ### Checkpoints -/

mutual
/-- `_get_data_impl`, ...pyrevolve_classes.py L70-98: the references in the order of the dictionary,
without those to empty arrays. -/
def locations (h : Heap K) : Dict → List View
  | .arr v => if size (v.read h) > 0 then [v] else []
  | .dict es => locationsList h es
/-- The loop over the values of a dictionary. -/
def locationsList (h : Heap K) : List (Key × Dict) → List View
  | [] => []
  | e :: es => locations h e.2 ++ locationsList h es
end

/-- `get_data`, ...pyrevolve_classes.py L53-68: copies. -/
def getData (h : Heap K) (d : Dict) : List (Arr K) := (locations h d).map (View.read h)

/-- Loading: the revolver copies the saved arrays to `get_data_location` (L33-51) in order. -/
def loadData (h : Heap K) (vs : List View) (xs : List (Arr K)) : Heap K :=
  (vs.zip xs).foldl (fun h p => p.1.write h p.2) h

end Verif.State
