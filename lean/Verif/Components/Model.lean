/-
Model of the components shipped with the package.

Source: /repo/src/rkopenmdao/odes/{kaps,prothero_robinson_ode,simple_linear_ode}.py and
/repo/src/rkopenmdao/utils/utility_components.py

Simplifications (for the whole file):
* exact real numbers, one entry per variable for the test problems; `x / 0` is `0` (NumPy gives `inf`
  or `nan` with a warning), `sqrt` of a negative number is `0` (NumPy: `nan`);
* a vector of derivatives may lack variables (OpenMDAO leaves out those that are not relevant or
  that belong to other components): an entry is then `none`;
* `self.om_data_exchange.step_size` and `.stage_factor` are the parameters `h` and `a`.
-/
import Mathlib.Analysis.SpecialFunctions.Trigonometric.Basic
import Mathlib.Analysis.SpecialFunctions.Exp
import Mathlib.Analysis.SpecialFunctions.Sqrt

namespace Verif.Comp

/-- `if "from" in d_from and "to" in d_to: d_to["to"] += c * d_from["from"]`. -/
def addIf {V : Type} [Add V] [SMul ℝ V] (c : ℝ) (d : Option V) (r : Option V) : Option V :=
  match r, d with
  | some r, some d => some (r + c • d)
  | r, _ => r

/-! ### Kaps' problem, kaps.py -/

/-- Inputs of `KapsComponent1`, kaps.py L19-24. -/
@[ext] structure In1 (α : Type) where
  old : α
  acc : α
  y2 : α

/-- Outputs (and residuals) of `KapsComponent1`, kaps.py L25-26. -/
@[ext] structure Out1 (α : Type) where
  y1 : α
  stage : α

/-- `KapsComponent1.apply_nonlinear`, kaps.py L28-45. -/
def residual1 (ε h a : ℝ) (i : In1 ℝ) (o : Out1 ℝ) : Out1 ℝ where
  y1 := i.old + h * i.acc + h * a * o.stage - o.y1
  stage := -(1 + 2 * ε) * o.y1 + i.y2 ^ 2 - ε * o.stage

/-- `KapsComponent1.solve_nonlinear`, kaps.py L47-62. -/
noncomputable def solve1 (ε h a : ℝ) (i : In1 ℝ) : Out1 ℝ :=
  let stage := (-(1 + 2 * ε) * (i.old + h * i.acc) + i.y2 ^ 2) / (ε + a * h * (1 + 2 * ε))
  { stage := stage, y1 := i.old + h * (i.acc + a * stage) }

/-- `KapsComponent1.apply_linear`, mode `fwd`, kaps.py L70-88. -/
def linear1Fwd (ε h a : ℝ) (i : In1 ℝ) (di : In1 (Option ℝ)) (d : Out1 (Option ℝ))
    (r : Out1 (Option ℝ)) : Out1 (Option ℝ) where
  y1 := addIf (-1) d.y1 (addIf (h * a) d.stage (addIf h di.acc (addIf 1 di.old r.y1)))
  stage := addIf (-(1 + 2 * ε)) d.y1 (addIf (-ε) d.stage (addIf (2 * i.y2) di.y2 r.stage))

/-- `KapsComponent1.apply_linear`, mode `rev`, kaps.py L89-108. -/
def linear1Rev (ε h a : ℝ) (i : In1 ℝ) (r : Out1 (Option ℝ)) (di : In1 (Option ℝ))
    (d : Out1 (Option ℝ)) : In1 (Option ℝ) × Out1 (Option ℝ) :=
  (⟨addIf 1 r.y1 di.old, addIf h r.y1 di.acc, addIf (2 * i.y2) r.stage di.y2⟩,
   ⟨addIf (-(1 + 2 * ε)) r.stage (addIf (-1) r.y1 d.y1),
    addIf (-ε) r.stage (addIf (h * a) r.y1 d.stage)⟩)

/-- `KapsComponent1.solve_linear`, mode `fwd`, kaps.py L116-124. -/
noncomputable def solveLinear1Fwd (ε h a : ℝ) (r : Out1 ℝ) : Out1 ℝ :=
  let factor := 1 / (ε + (1 + 2 * ε) * h * a)
  { stage := factor * (-r.stage + (1 + 2 * ε) * r.y1)
    y1 := factor * (-h * a * r.stage - ε * r.y1) }

/-- `KapsComponent1.solve_linear`, mode `rev`, kaps.py L125-133. -/
noncomputable def solveLinear1Rev (ε h a : ℝ) (d : Out1 ℝ) : Out1 ℝ :=
  let factor := 1 / (ε + (1 + 2 * ε) * h * a)
  { stage := factor * (-d.stage - h * a * d.y1)
    y1 := factor * ((1 + 2 * ε) * d.stage - ε * d.y1) }

/-- Inputs of `KapsComponent2`, kaps.py L143-148. -/
@[ext] structure In2 (α : Type) where
  old : α
  acc : α
  y1 : α

/-- Outputs (and residuals) of `KapsComponent2`, kaps.py L149-150. -/
@[ext] structure Out2 (α : Type) where
  y2 : α
  stage : α

/-- `KapsComponent2.apply_nonlinear`, kaps.py L152-165. -/
def residual2 (h a : ℝ) (i : In2 ℝ) (o : Out2 ℝ) : Out2 ℝ where
  y2 := i.old + h * i.acc + h * a * o.stage - o.y2
  stage := i.y1 - o.y2 - o.y2 ^ 2 - o.stage

/-- The argument of the square root, kaps.py L178-188. -/
def radicand2 (h a : ℝ) (i : In2 ℝ) : ℝ :=
  4 * a ^ 2 * h ^ 2 * i.y1 + a ^ 2 * h ^ 2 + 4 * a * h ^ 2 * i.acc + 4 * a * h * i.old + 2 * a * h + 1

/-- `KapsComponent2.solve_nonlinear`, kaps.py L167-200. -/
noncomputable def solve2 (h a : ℝ) (i : In2 ℝ) : Out2 ℝ :=
  let stage := if a ≠ 0 then
      -(h * i.acc + i.old + (a * h + 1) / (2 * a * h)
        - Real.sqrt (radicand2 h a i) / (2 * a * h)) / (a * h)
    else i.y1 - (i.old + h * i.acc) - (i.old + h * i.acc) ^ 2
  { stage := stage, y2 := i.old + h * (i.acc + a * stage) }

/-- `KapsComponent2.linearize`, kaps.py L202-203: the value of `self.y_2`. -/
def linearize2 (o : Out2 ℝ) : ℝ := o.y2

/-- `KapsComponent2.apply_linear`, mode `fwd`, kaps.py L208-228. -/
def linear2Fwd (h a : ℝ) (o : Out2 ℝ) (di : In2 (Option ℝ)) (d : Out2 (Option ℝ))
    (r : Out2 (Option ℝ)) : Out2 (Option ℝ) where
  y2 := addIf (-1) d.y2 (addIf (h * a) d.stage (addIf h di.acc (addIf 1 di.old r.y2)))
  stage := addIf (-1) d.stage (addIf (-(1 + 2 * o.y2)) d.y2 (addIf 1 di.y1 r.stage))

/-- `KapsComponent2.apply_linear`, mode `rev`, kaps.py L229-249. -/
def linear2Rev (h a : ℝ) (o : Out2 ℝ) (r : Out2 (Option ℝ)) (di : In2 (Option ℝ))
    (d : Out2 (Option ℝ)) : In2 (Option ℝ) × Out2 (Option ℝ) :=
  (⟨addIf 1 r.y2 di.old, addIf h r.y2 di.acc, addIf 1 r.stage di.y1⟩,
   ⟨addIf (-(1 + 2 * o.y2)) r.stage (addIf (-1) r.y2 d.y2),
    addIf (-1) r.stage (addIf (h * a) r.y2 d.stage)⟩)

/-- `KapsComponent2.solve_linear`, mode `fwd`, kaps.py L255-272; `y` is `self.y_2`. -/
noncomputable def solveLinear2Fwd (h a y : ℝ) (r : Out2 ℝ) : Out2 ℝ where
  stage := (-r.stage + 2 * r.y2 * y + r.y2) / (2 * a * h * y + a * h + 1)
  y2 := (-r.stage * a * h - r.y2) / (2 * a * h * y + a * h + 1)

/-- `KapsComponent2.solve_linear`, mode `rev`, kaps.py L274-299. -/
noncomputable def solveLinear2Rev (h a y : ℝ) (d : Out2 ℝ) : Out2 ℝ where
  stage := (-a * h * d.y2 - d.stage) / (2 * a * h * y * a * h + 1)
  y2 := (2 * d.stage * y + d.stage - d.y2) / (2 * a * h * y * a * h + 1)

/-- `KapsGroup.kaps_solution`, kaps.py L342-360: `initial_time` is not used. -/
noncomputable def kapsSolution (time : ℝ) (v : ℝ × ℝ) (_initialTime : ℝ) : ℝ × ℝ :=
  (v.2 * Real.exp (-2 * time) + (v.1 - v.2 ^ 2) * Real.exp (-2 * time),
   (v.2 - v.1 + v.2 ^ 2) * Real.exp (-time) + v.1 * Real.exp (-2 * time)
     - v.2 ^ 2 * Real.exp (-2 * time))

/-! ### The problem of Prothero and Robinson, prothero_robinson_ode.py -/

/-- `phi`, L28-32. -/
noncomputable def phi (t : ℝ) : ℝ := Real.sin (t + Real.pi / 4)

/-- `d_phi`, L35-39. -/
noncomputable def dPhi (t : ℝ) : ℝ := Real.cos (t + Real.pi / 4)

/-- `compute`, L41-55. -/
noncomputable def protheroRobinson (lam h a t x acc : ℝ) : ℝ :=
  (lam * (x + h * acc - phi t) + dPhi t) / (1 - lam * h * a)

/-- `solution`, L63-72. -/
noncomputable def protheroRobinsonSolution (t x0 t0 : ℝ) : ℝ :=
  phi t + (x0 - phi t0) / Real.exp t0 * Real.exp t

/-! ### The linear test problem, simple_linear_ode.py -/

/-- What the derivative (`key`) and the declaration of variables (`name`) can raise. -/
inductive Err where
  | key
  | name
  deriving DecidableEq

/-- Inputs of `SimpleLinearODE`, L12-16. -/
@[ext] structure LinIn (α : Type) where
  old : α
  acc : α

/-- `compute`, L18-29. -/
noncomputable def simpleLinear (h a : ℝ) (i : LinIn ℝ) : ℝ := -(i.old + h * i.acc) / (1 + h * a)

/-- `compute_jacvec_product`, mode `fwd`, L43-45: without looking whether the variables are
there. -/
noncomputable def simpleLinearFwd (h a : ℝ) (di : LinIn (Option ℝ)) (d : Option ℝ) :
    Except Err (Option ℝ) :=
  let factor := (1 + h * a)⁻¹
  match di.old, di.acc, d with
  | some old, some acc, some d => .ok (some (d - factor * old - h * factor * acc))
  | _, _, _ => .error .key

/-- `compute_jacvec_product`, mode `rev`, L46-48. -/
noncomputable def simpleLinearRev (h a : ℝ) (d : Option ℝ) (di : LinIn (Option ℝ)) :
    Except Err (LinIn (Option ℝ)) :=
  let factor := (1 + h * a)⁻¹
  match di.old, di.acc, d with
  | some old, some acc, some d => .ok ⟨some (old - factor * d), some (acc - h * factor * d)⟩
  | _, _, _ => .error .key

/-- `simple_linear_solution`, L51-57. -/
noncomputable def simpleLinearSolution (t y0 t0 : ℝ) : ℝ := y0 / Real.exp (-t0) * Real.exp (-t)

/-! ### Helper components, utility_components.py

Arrays are functions of the position in row major order; `a / c` is `(1 / c) • a`. -/

/-- The entries of an array. -/
abbrev Arr := ℕ → ℝ

/-- Inputs of `StageValueComponent`, L22-37. -/
@[ext] structure ValueIn (α : Type) where
  slope : α
  old : α
  acc : α

/-- `StageValueComponent.compute`, L40-46. -/
def stageValue (h a : ℝ) (i : ValueIn Arr) : Arr := i.old + h • (i.acc + a • i.slope)

/-- `StageValueComponent.compute_jacvec_product`, mode `fwd`, L53-62. -/
noncomputable def stageValueFwd (h a : ℝ) (di : ValueIn (Option Arr)) (d : Option Arr) :
    Option Arr :=
  addIf (h * a) di.slope (addIf h di.acc (addIf 1 di.old d))

/-- `StageValueComponent.compute_jacvec_product`, mode `rev`, L63-72. -/
noncomputable def stageValueRev (h a : ℝ) (d : Option Arr) (di : ValueIn (Option Arr)) :
    ValueIn (Option Arr) where
  old := addIf 1 d di.old
  acc := addIf h d di.acc
  slope := addIf (h * a) d di.slope

/-- A vector of OpenMDAO: variables by name. -/
abbrev Vec := String → Arr

/-- A vector of derivatives, which may lack variables. -/
abbrev DVec := String → Option Arr

/-- `v[k] = x`. -/
def put {α : Type} (v : String → α) (k : String) (x : α) : String → α :=
  fun j => if j = k then x else v j

/-- `add_input` and `add_output` of OpenMDAO: a name can be declared once. Whether the characters of
the name are allowed is not modelled. -/
def declare (names : List String) (q : String) : Except Err (List String) :=
  if q ∈ names then .error .name else .ok (names ++ [q])

/-- One round of the loop of `StageUpdateComponent.setup`, L84-110. -/
def updateSetupOne (names : List String) (q : String) : Except Err (List String) :=
  [q, q ++ "_old", q ++ "_acc_stages", q ++ "_update"].foldlM declare names

/-- `StageUpdateComponent.setup`, L83-110: the names of the variables in the order of their
declaration. -/
def updateSetup (quantities : List String) : Except Err (List String) :=
  quantities.foldlM updateSetupOne []

/-- `StageUpdateComponent.compute`, L112-120. -/
noncomputable def stageUpdate (quantities : List String) (h a : ℝ) (i o : Vec) : Vec :=
  quantities.foldl (fun o q => put o (q ++ "_update")
    ((1 / (h * a)) • (i q - i (q ++ "_old") - h • i (q ++ "_acc_stages")))) o

/-- One round of the loop of `StageUpdateComponent.compute_jacvec_product`, mode `fwd`,
L127-141. -/
noncomputable def updateFwdOne (h a : ℝ) (di : DVec) (d : DVec) (q : String) : DVec :=
  put d (q ++ "_update") (addIf (-(1 / a)) (di (q ++ "_acc_stages"))
    (addIf (-(1 / (h * a))) (di (q ++ "_old")) (addIf (1 / (h * a)) (di q) (d (q ++ "_update")))))

/-- `StageUpdateComponent.compute_jacvec_product`, mode `fwd`. -/
noncomputable def stageUpdateFwd (quantities : List String) (h a : ℝ) (di d : DVec) : DVec :=
  quantities.foldl (updateFwdOne h a di) d

/-- One round of the loop of `StageUpdateComponent.compute_jacvec_product`, mode `rev`,
L142-156. -/
noncomputable def updateRevOne (h a : ℝ) (d : DVec) (di : DVec) (q : String) : DVec :=
  let di := put di q (addIf (1 / (h * a)) (d (q ++ "_update")) (di q))
  let di := put di (q ++ "_old") (addIf (-(1 / (h * a))) (d (q ++ "_update")) (di (q ++ "_old")))
  put di (q ++ "_acc_stages") (addIf (-(1 / a)) (d (q ++ "_update")) (di (q ++ "_acc_stages")))

/-- `StageUpdateComponent.compute_jacvec_product`, mode `rev`. -/
noncomputable def stageUpdateRev (quantities : List String) (h a : ℝ) (d di : DVec) : DVec :=
  quantities.foldl (updateRevOne h a d) di

end Verif.Comp
