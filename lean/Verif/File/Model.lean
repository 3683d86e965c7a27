/-
Model of the HDF5 output callback and of the functions that read its files.

Source: /repo/src/rkopenmdao/file_writer.py

Simplifications (for the whole file):
* a file is the list of its groups, a group the list of its datasets, both by name; a dataset has a
  shape and a value for every index. New datasets contain zeros (the fill value of HDF5);
* the ranks run the callbacks together: what they create is the same on all ranks (HDF5 demands it) and is
  described with the metadata of the first rank; what they write happens in the order of the
  ranks;
* values written to a slab must have its shape (h5py also repeats values along axes of length
  one);
* `int(key)` is modelled for strings of digits, the only names the callback gives to groups;
* exact real numbers.
-/
import Verif.Metadata.Model
import Mathlib.Data.Real.Basic
import Mathlib.Data.List.Sort
import Mathlib.Order.Lex

namespace Verif.File

open Verif.Metadata

/-- What can be raised. -/
inductive Err where
  /-- opening a file that does not exist with mode `r+` -/
  | missing
  /-- a name that exists already -/
  | nameTaken
  | key
  | index
  | value
  /-- shapes that do not fit -/
  | shape
  | zeroDivision
  deriving DecidableEq

/-- A dataset. -/
structure Dataset where
  shape : List ℕ
  cell : List ℕ → ℝ

abbrev Group := List (String × Dataset)

abbrev File := List (String × Group)

/-- `container[key]`. -/
def get {α : Type} (l : List (String × α)) (k : String) : Option α :=
  (l.find? fun e => decide (e.1 = k)).map Prod.snd

/-- Replacing the object at an existing key. -/
def put {α : Type} (l : List (String × α)) (k : String) (v : α) : List (String × α) :=
  l.map fun e => if e.1 = k then (k, v) else e

/-- `create_group`, `create_dataset`: a new object. -/
def create {α : Type} (l : List (String × α)) (k : String) (v : α) :
    Except Err (List (String × α)) :=
  if (get l k).isSome then .error .nameTaken else .ok (l ++ [(k, v)])

/-- A dataset of zeros. -/
def zeros (shape : List ℕ) : Dataset := ⟨shape, fun _ => 0⟩

/-- Changing the object at a key; `KeyError` if there is none. -/
def update {α : Type} (l : List (String × α)) (k : String) (f : α → Except Err α) :
    Except Err (List (String × α)) :=
  match get l k with
  | none => .error .key
  | some v => match f v with
    | .error e => .error e
    | .ok v' => .ok (put l k v')

/-! ### Slabs -/

/-- `np.unravel_index` for indices in range (row major). -/
def unravel : List ℕ → ℕ → List ℕ
  | [], _ => []
  | _ :: ds, k => k / ds.prod :: unravel ds (k % ds.prod)

/-- The position of an index in the flattened array (row major). -/
def ravel : List ℕ → List ℕ → ℕ
  | _ :: ds, i :: is => i * ds.prod + ravel ds is
  | _, _ => 0

/-- `np.unravel_index(k, shape)`; `ValueError` if out of range. -/
def npUnravel (k : ℕ) (shape : List ℕ) : Except Err (List ℕ) :=
  if k < shape.prod then .ok (unravel shape k) else .error .value

/-- `get_write_indices`, file_writer.py 175-190: begin and end of the slices. -/
def writeIndices (q : Quantity) : Except Err (List (ℕ × ℕ)) :=
  match npUnravel q.arr.globalStart q.arr.globalShape with
  | .error e => .error e
  | .ok s =>
    if q.arr.globalStop = 0 then .error .value
    else match npUnravel (q.arr.globalStop - 1) q.arr.globalShape with
      | .error e => .error e
      | .ok t => .ok ((s.zip t).map fun p => (p.1, p.2 + 1))

/-- An index lies in the slices. -/
def inSlab : List ℕ → List (ℕ × ℕ) → Bool
  | [], [] => true
  | i :: is, p :: ps => (decide (p.1 ≤ i) && decide (i < p.2)) && inSlab is ps
  | _, _ => false

/-- `dataset[slices] = values.reshape(shape)`. -/
def writeSlab (sl : List (ℕ × ℕ)) (shape : List ℕ) (vals : ℕ → ℝ) (ds : Dataset) :
    Except Err Dataset :=
  if sl.map (fun p => p.2 - p.1) = shape then
    .ok ⟨ds.shape, fun idx =>
      if inSlab idx sl then vals (ravel shape (List.zipWith (fun i p => i - p.1) idx sl))
      else ds.cell idx⟩
  else .error .shape

/-- `dataset[0] = x`. -/
def writeScalar (x : ℝ) (ds : Dataset) : Except Err Dataset :=
  .ok ⟨ds.shape, fun idx => if idx = [0] then x else ds.cell idx⟩

/-! ### The callback -/

/-- What the callback reads of the state on one rank: times and states, and for the embedded class
the first entry of the error history. -/
structure Snap where
  startTime : ℝ
  startState : ℕ → ℝ
  finalTime : ℝ
  finalState : ℕ → ℝ
  err : Option ℝ

/-- Lines 82-101 for one group. -/
def createOne (m : Meta) (embedded : Bool) (f : File) (k : String) : Except Err File := do
  let f ← create f k []
  let f ← update f k fun g => create g "time" (zeros [1])
  let f ← m.quantities.foldlM (fun f q =>
    update f k fun g => create g q.name (zeros q.arr.globalShape)) f
  if embedded then update f k fun g => create g "error_measure" (zeros [1]) else .ok f

/-- Opening with mode `w` (a new file) or `r+`. -/
def openFile (f : Option File) (fresh : Bool) : Except Err File :=
  if fresh then .ok [] else match f with
    | none => .error .missing
    | some f => .ok f

/-- `iteration % self.write_out_period == 0`. -/
def due (period it : ℕ) : Except Err Bool :=
  if period = 0 then .error .zeroDivision else .ok (decide (it % period = 0))

/-- `before_iteration`, file_writer.py 48-101. -/
def before (period : ℕ) (m : Meta) (embedded : Bool) (it : ℕ) (f : Option File) :
    Except Err File := do
  let d ← due period it
  let ks := (if it = 1 then ["0"] else []) ++ (if d then [toString it] else [])
  let f ← openFile f (it = 1)
  ks.foldlM (createOne m embedded) f

/-- What one rank writes of one quantity, lines 130-140 and 154-165. -/
def writeQuantity (state : ℕ → ℝ) (g : Group) (q : Quantity) : Except Err Group :=
  if 0 ∈ q.arr.shape then .ok g
  else match writeIndices q with
    | .error e => .error e
    | .ok sl => update g q.name (writeSlab sl q.arr.shape fun k => state (q.arr.start + k))

/-- What one rank writes to one group, lines 126-145 and 148-173. -/
def writeGroup (m : Meta) (time : ℝ) (state : ℕ → ℝ) (err : Option ℝ) (g : Group) :
    Except Err Group := do
  let g ← update g "time" (writeScalar time)
  let g ← m.quantities.foldlM (writeQuantity state) g
  match err with
  | none => .ok g
  | some e => update g "error_measure" (writeScalar e)

/-- The initial values, written in the first iteration, lines 124-145. -/
def writeInitial (it : ℕ) (f : File) (a : Meta × Snap) : Except Err File :=
  if it = 1 then
    update f "0" (writeGroup a.1 a.2.startTime a.2.startState (a.2.err.map fun _ => 0))
  else .ok f

/-- `after_iteration` on one rank, file_writer.py 103-173. -/
def afterRank (period it : ℕ) (f : File) (a : Meta × Snap) : Except Err File := do
  let f ← writeInitial it f a
  let d ← due period it
  if d then update f (toString it) (writeGroup a.1 a.2.finalTime a.2.finalState a.2.err)
  else .ok f

/-- `after_iteration` on all ranks. -/
def after (period : ℕ) (ms : List Meta) (it : ℕ) (f : Option File) (snaps : List Snap) :
    Except Err File := do
  let f ← openFile f false
  (ms.zip snaps).foldlM (afterRank period it) f

/-- Both callbacks around the step with number `it`; `snaps` are the states after it. -/
def stepFile (period : ℕ) (ms : List Meta) (embedded : Bool) (it : ℕ) (f : Option File)
    (snaps : List Snap) : Except Err File := do
  let f ← before period (ms.headD {}) embedded it f
  after period ms it (some f) snaps

/-- The callbacks of a run whose steps have the numbers `it`, `it + 1`, .... -/
def runFile (period : ℕ) (ms : List Meta) (embedded : Bool) :
    ℕ → Option File → List (List Snap) → Except Err (Option File)
  | _, f, [] => .ok f
  | it, f, snaps :: rest => do
    let f ← stepFile period ms embedded it f snaps
    runFile period ms embedded (it + 1) (some f) rest

/-! ### Reading -/

/-- `int(key)` for a string of digits. -/
def parseKey (k : String) : ℕ := Nat.ofDigitChars 10 k.toList 0

/-- The order in which h5py goes through the members of a file: alphabetical. -/
def sortedItems {α : Type} (l : List (String × α)) : List (String × α) :=
  l.mergeSort fun a b => decide (a.1.toList ≤ b.1.toList)

/-- All values of a dataset in row major order. -/
def Dataset.flat (ds : Dataset) : List ℝ :=
  (List.range ds.shape.prod).map fun k => ds.cell (unravel ds.shape k)

/-- A Python dictionary with numbers as keys. -/
abbrev Dict (α : Type) := ℕ → Option α

/-- `d[k] = v`. -/
def Dict.set {α : Type} (d : Dict α) (k : ℕ) (v : α) : Dict α := fun j => if j = k then some v else d j

/-- `d[k]`. -/
def Dict.at' {α : Type} (d : Dict α) (k : ℕ) : Except Err α :=
  match d k with
  | none => .error .key
  | some v => .ok v

/-- `container[key]` with `KeyError`. -/
def getE {α : Type} (l : List (String × α)) (k : String) : Except Err α :=
  match get l k with
  | none => .error .key
  | some v => .ok v

/-- Lines 209-211. -/
def readTimes (f : File) : Except Err (Dict ℝ) :=
  (sortedItems f).foldlM (fun d e => do
    let t ← getE e.2 "time"
    .ok (d.set (parseKey e.1) (t.cell [0]))) fun _ => none

/-- The callable given by the user, for one quantity and for several. -/
structure Solution where
  single : ℝ → List ℝ → ℝ → List ℝ
  several : ℝ → List (List ℝ) → ℝ → List (List ℝ)

/-- `np.abs(a - b)`. -/
def absDiff (a b : List ℝ) : List ℝ := List.zipWith (fun x y => |x - y|) a b

/-- Body of the loop in lines 217-236 for quantity number `i`. `group[quantity].shape[0]` raises
`IndexError` for a dataset without axes. -/
def readOne (sol : Solution) (count i : ℕ) (q : String) (time : Dict ℝ)
    (acc : Dict (List ℝ) × Dict (List ℝ)) (e : String × Group) :
    Except Err (Dict (List ℝ) × Dict (List ℝ)) := do
  let ds ← getE e.2 q
  if ds.shape = [] then .error .index
  else
    let result := acc.2.set (parseKey e.1) ds.flat
    let r0 ← result.at' 0
    let t ← time.at' (parseKey e.1)
    let t0 ← time.at' 0
    if count > 1 then
      match (sol.several t (List.replicate count r0) t0)[i]? with
      | none => .error .index
      | some s => .ok (acc.1.set (parseKey e.1) (absDiff s ds.flat), result)
    else .ok (acc.1.set (parseKey e.1) (absDiff (sol.single t r0 t0) ds.flat), result)

/-- Lines 212-236 for quantity number `i`: errors and results. -/
def readQuantity (sol : Solution) (count : ℕ) (f : File) (time : Dict ℝ) (i : ℕ) (q : String) :
    Except Err (Dict (List ℝ) × Dict (List ℝ)) :=
  (sortedItems f).foldlM (readOne sol count i q time) (fun _ => none, fun _ => none)

/-- `read_hdf5_file`, file_writer.py 193-237: times, and errors and results by quantity. -/
def readFile (sol : Solution) (quantities : List String) (f : File) :
    Except Err (Dict ℝ × List (Dict (List ℝ) × Dict (List ℝ))) := do
  let time ← readTimes f
  let data ← quantities.zipIdx.mapM fun p => readQuantity sol quantities.length f time p.2 p.1
  .ok (time, data)

/-- `read_last_local_error`, file_writer.py 240-254. `max` of an empty sequence is a
`ValueError`. -/
def readLastError (f : File) : Except Err ℝ :=
  match (f.map fun e => parseKey e.1).max? with
  | none => .error .value
  | some k => do
    let g ← getE f (toString k)
    let ds ← getE g "error_measure"
    .ok (ds.cell [0])

end Verif.File
