/-
Model of the norm of the state and of the error measures.

Source: /repo/src/rkopenmdao/discretized_ode/openmdao_ode.py 380-435 (`compute_state_norm`),
/repo/src/rkopenmdao/error_measurer.py

Simplifications:
* real numbers; the order is a real number or plus or minus infinity (strings and `None` are
  not modelled);
* `numpy.linalg.norm` is given by its definition for vectors. The maximum of an empty array is an
  error in some versions of NumPy and zero in others, so that it is a parameter;
* `allreduce` over the ranks: sum, maximum and minimum of the values of the ranks.
-/
import Verif.Metadata.Model
import Mathlib.Analysis.SpecialFunctions.Pow.Real

namespace Verif.OM

open Verif.Metadata

/-- The order of a norm. -/
inductive Order where
  | inf
  | ninf
  | fin (p : ℝ)

/-- `numpy.linalg.norm(x, order)` of a vector; `none` is a `ValueError`. `em` is the value of the maximum
norm of an empty vector. -/
noncomputable def npNorm (em : Option ℝ) : Order → List ℝ → Option ℝ
  | .inf, [] => em
  | .inf, a :: l => some ((l.map abs).foldl max |a|)
  | .ninf, [] => none
  | .ninf, a :: l => some ((l.map abs).foldl min |a|)
  | .fin p, l =>
    if p = 0 then some ((l.countP fun a => decide (a ≠ 0) : ℕ) : ℝ)
    else some ((l.map fun a => |a| ^ p).sum ^ (1 / p))

/-- The exponent in `_partial_norm_intermediate`, openmdao_ode.py 412. -/
noncomputable def exponent : Order → ℝ
  | .inf => 1
  | .ninf => 1
  | .fin p => if p = 0 then 1 else p

/-- `state[start:end]`. -/
def slice (q : Quantity) (x : ℕ → ℝ) : List ℝ :=
  (List.range (q.arr.stop - q.arr.start)).map fun k => x (q.arr.start + k)

/-- `_partial_norm_intermediate`, openmdao_ode.py 407-413. -/
noncomputable def partialNorm (em : Option ℝ) (o : Order) (x : ℕ → ℝ) (q : Quantity) : Option ℝ :=
  (npNorm em o (slice q x)).map fun v => v ^ exponent o

/-- `_add_to_intermediate`, openmdao_ode.py 415-423. -/
noncomputable def addTo : Order → ℝ → ℝ → ℝ
  | .inf, v, w => max v w
  | .ninf, v, w => min v w
  | .fin _, v, w => v + w

/-- The reduction of `_allreduce_own_intermediate`, openmdao_ode.py 425-431, for the values of all
ranks. -/
noncomputable def allreduce : Order → List ℝ → ℝ
  | _, [] => 0
  | .inf, v :: vs => vs.foldl max v
  | .ninf, v :: vs => vs.foldl min v
  | .fin _, vs => vs.sum

/-- `_normalize`, openmdao_ode.py 433-435. -/
noncomputable def normalize : Order → ℝ → ℝ
  | .inf, v => v ^ (1 : ℝ)
  | .ninf, v => v ^ (1 : ℝ)
  | .fin p, v => if p = 0 then v ^ (1 : ℝ) else v ^ (1 / p)

/-- Body of the loop in lines 384-398; the pair is the distributed and the non-distributed
intermediate value. -/
noncomputable def normStep (em : Option ℝ) (excl : List String) (o : Order) (x : ℕ → ℝ) (v : ℝ × ℝ)
    (q : Quantity) : Option (ℝ × ℝ) :=
  if q.name ∈ excl then some v
  else (partialNorm em o x q).map fun w =>
    if q.arr.distributed then (addTo o v.1 w, v.2) else (v.1, addTo o v.2 w)

/-- The two intermediate values of a rank, lines 380-398. -/
noncomputable def intermediates (em : Option ℝ) (excl : List String) (o : Order)
    (a : Meta × (ℕ → ℝ)) : Option (ℝ × ℝ) :=
  a.1.quantities.foldlM (normStep em excl o a.2) (0, 0)

/-- `compute_state_norm` on rank `r`, openmdao_ode.py 380-405, with the metadata and states of all
ranks. If a rank raises, there is no result (`none`). -/
noncomputable def stateNorm (em : Option ℝ) (excl : List String) (o : Order)
    (ranks : List (Meta × (ℕ → ℝ))) (r : ℕ) : Option ℝ := do
  let vs ← ranks.mapM (intermediates em excl o)
  let own ← vs[r]?
  return normalize o (addTo o (allreduce o (vs.map Prod.fst)) own.2)

/-- `SimpleErrorMeasurer.get_measure`, error_measurer.py 41-52. -/
def simpleMeasure {S : Type} (norm : S → ℝ) (err _state : S) : ℝ := norm err

/-- `ImprovedErrorMeasurer.get_measure`, error_measurer.py 72-82; `none` is a division by zero. -/
noncomputable def improvedMeasure {S : Type} (norm : S → ℝ) (eta eps : ℝ) (err state : S) : Option ℝ :=
  if eps = 0 then none
  else if norm state + eta / eps = 0 then none
  else some (norm err / (norm state + eta / eps))

end Verif.OM
