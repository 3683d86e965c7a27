/-
Model of the products with the Jacobian of the stage problems of the shipped test problems: `run_linearize`
and `run_solve_linear` work with these products.

Source: /repo/src/rkopenmdao/odes/{kaps,prothero_robinson_ode,simple_linear_ode}.py

Simplifications (for the whole file):
* the sources that OpenMDAO adds and explicit components have the residual `function - value`, so that
  the product with respect to the own value is `-1` (only the signs depend on this convention);
* one product for all variables of the stage problem: every derivative vector holds all
  variables of the component, with the value of the source for inputs;
* partial derivatives that a component neither declares nor computes are zero for OpenMDAO.
-/
import Verif.Components.Stage

namespace Verif.Comp

/-- The vector that is one at the entry `e` and zero elsewhere. -/
def unitVec (e : String × ℕ) : OM.Vec ℝ := fun n k => if (n, k) = e then 1 else 0

/-- The product of the stage problem of `SimpleLinearODE`: `compute_jacvec_product`, mode `fwd`,
simple_linear_ode.py L43-45. -/
noncomputable def linearApply (h a : ℝ) (d : OM.Vec ℝ) : OM.Vec ℝ :=
  let di := transfer linearConn d fun _ _ => 0
  fun n k =>
    if n = "test_comp.y_stage" then
      match simpleLinearFwd h a
        ⟨some (di "test_comp.y_old" k), some (di "test_comp.y_accumulated_stages" k)⟩
        (some (-d n k)) with
      | .ok (some r) => r
      | _ => 0
    else -d n k

/-- The Jacobian of the stage problem. -/
noncomputable def linearJac (_ : OM.Vectors ℝ) (h a : ℝ) (e e' : String × ℕ) : ℝ :=
  linearApply h a (unitVec e') e.1 e.2

/-- The Jacobian of the stage problem of `ProtheroRobinson`: the component does not declare partial
derivatives and has no method that computes products, prothero_robinson_ode.py L8-72. -/
def protheroJac (_ : OM.Vectors ℝ) (_ _ : ℝ) (e e' : String × ℕ) : ℝ := if e = e' then -1 else 0

/-- The product of the stage problem of Kaps' problem: `apply_linear`, mode `fwd`, of both components at
the vectors `v`, kaps.py L64-88 and L205-228. -/
def kapsApply (ε : ℝ) (v : OM.Vectors ℝ) (h a : ℝ) (d : OM.Vec ℝ) : OM.Vec ℝ :=
  let di := transfer kapsConn d fun _ _ => 0
  fun n k =>
    let r1 := linear1Fwd ε h a
      ⟨v.inputs "test_comp.Kaps1.y_1_old" k, v.inputs "test_comp.Kaps1.y_1_accumulated_stages" k,
        v.inputs "test_comp.Kaps1.y_2" k⟩
      ⟨some (di "test_comp.Kaps1.y_1_old" k),
        some (di "test_comp.Kaps1.y_1_accumulated_stages" k), some (di "test_comp.Kaps1.y_2" k)⟩
      ⟨some (d "test_comp.Kaps1.y_1" k), some (d "test_comp.Kaps1.y_1_stage" k)⟩ ⟨some 0, some 0⟩
    let r2 := linear2Fwd h a
      ⟨v.outputs "test_comp.Kaps2.y_2" k, v.outputs "test_comp.Kaps2.y_2_stage" k⟩
      ⟨some (di "test_comp.Kaps2.y_2_old" k),
        some (di "test_comp.Kaps2.y_2_accumulated_stages" k), some (di "test_comp.Kaps2.y_1" k)⟩
      ⟨some (d "test_comp.Kaps2.y_2" k), some (d "test_comp.Kaps2.y_2_stage" k)⟩ ⟨some 0, some 0⟩
    if n = "test_comp.Kaps1.y_1" then r1.y1.getD 0
    else if n = "test_comp.Kaps1.y_1_stage" then r1.stage.getD 0
    else if n = "test_comp.Kaps2.y_2" then r2.y2.getD 0
    else if n = "test_comp.Kaps2.y_2_stage" then r2.stage.getD 0
    else -d n k

/-- The Jacobian of the stage problem. -/
def kapsJac (ε : ℝ) (v : OM.Vectors ℝ) (h a : ℝ) (e e' : String × ℕ) : ℝ :=
  kapsApply ε v h a (unitVec e') e.1 e.2

end Verif.Comp
