/-
Model of `==` for the states and the decorators, which are data classes.

Source: /repo/src/rkopenmdao/time_discretization/runge_kutta_discretization_state.py L14-64, L158-217
        /repo/src/rkopenmdao/error_controller.py L287-290
        `__eq__` is made by `dataclass`, which compares the tuples of the fields

Simplifications:
* both states have the same class and fields of the same sizes, and values are numbers, not NaN;
* before Python 3.13 the tuples are compared, which takes the same array to be equal; later versions
  compare the fields one by one, which makes no difference for arrays that are not shared;
* the truth of an array without entries depends on the version of NumPy, it is a parameter.
-/
import Mathlib.Data.Real.Basic

namespace Verif.State

open Classical

/-- An array: which object it is, and its entries in one row. -/
structure Held where
  obj : ℕ
  vals : List ℝ

/-- `bool(array)` of NumPy: `none` for `ValueError`, which is raised for more than one entry. -/
def truth (empty : Option Bool) : List Bool → Option Bool
  | [] => empty
  | [b] => some b
  | _ :: _ :: _ => none

/-- The comparison of two fields: the same object, or the truth of the comparison by entries. -/
noncomputable def sameField (empty : Option Bool) (a b : Held) : Option Bool :=
  if a.obj = b.obj then some true
  else truth empty (List.zipWith (fun x y => decide (x = y)) a.vals b.vals)

/-- The comparison of two tuples of fields, runge_kutta_discretization_state.py L47-64 and
error_controller.py L287 (no fields): it ends at the first difference. -/
noncomputable def eqFields (empty : Option Bool) : List (Held × Held) → Option Bool
  | [] => some true
  | (a, b) :: r => match sameField empty a b with
    | none => none
    | some false => some false
    | some true => eqFields empty r

/-- A decorator with the attributes that its constructor sets, error_controller.py L310-336. -/
structure Deco where
  exponents : List ℝ
  name : String
  wrapped : ℕ

/-- The fields that `dataclass` finds in `ErrorControllerDecorator`, error_controller.py L287-336:
neither its class nor its base class, which is no data class, has annotated fields of a data class. -/
def Deco.fields (_ _ : Deco) : List (Held × Held) := []

end Verif.State
