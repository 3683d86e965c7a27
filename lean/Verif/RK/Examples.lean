/-
Concrete backends and tableaux used to show that the hypotheses of the property
theorems are met by non-trivial cases.
-/
import Verif.RK.Spec
import Mathlib.Tactic.FieldSimp
import Mathlib.Tactic.Ring
import Mathlib.Tactic.LinearCombination
import Mathlib.Tactic.NormNum
import Mathlib.Tactic.FinCases
import Mathlib.Data.Fin.VecNotation

namespace Verif.RK.Ex

/-- `y' = -y + p + t` on one component, as a backend that solves the implicit stage equation
exactly: `k = (p + t - y - h acc) / (1 + h a)`. -/
def linOde {K : Type} [Field K] : ODE K 1 1 0 0 where
  computeUpdate inp h a :=
    (⟨fun x => (inp.independentInput x + inp.time - inp.stepInput x - h * inp.stageInput x)
        / (1 + h * a), 0, 0⟩, 0)
  computeUpdateDerivative _ d h a :=
    ⟨fun x => (d.independentInput x + d.time - d.stepInput x - h * d.stageInput x)
        / (1 + h * a), 0, 0⟩
  computeUpdateAdjoint _ d h a :=
    ⟨fun x => - d.stageUpdate x / (1 + h * a), fun x => - h * d.stageUpdate x / (1 + h * a),
     fun x => d.stageUpdate x / (1 + h * a), d.stageUpdate 0 / (1 + h * a)⟩

/-- The right-hand side of `linOde`. -/
def linRhs {K : Type} [Field K] : Spec.Rhs K 1 1 := fun t y p x => p x + t - y x

theorem linOde_solves {K : Type} [Field K] (h a : K) (hne : 1 + h * a ≠ 0) :
    Spec.SolvesStage (linOde (K := K)) linRhs h a := by
  intro inp
  funext x
  simp only [linOde, linRhs]
  field_simp
  ring

theorem linOde_adjoint {K : Type} [Field K] (lin : Fin 0 → K) (h a : K) :
    Spec.AdjointPair (linOde (K := K)) lin h a := by
  intro din dout
  simp only [linOde, Spec.dotOut, Spec.dotIn, Spec.dot, Fin.sum_univ_one, Finset.univ_eq_empty,
    Finset.sum_empty, Pi.zero_apply]
  ring

theorem linRhs_unique {K : Type} [Field K] (h a : K) (hne : 1 + h * a ≠ 0) :
    Spec.UniqueStage (linRhs (K := K)) h a := by
  intro t y p k k' hk hk'
  funext x
  have h1 := congrFun hk x
  have h2 := congrFun hk' x
  simp only [linRhs] at h1 h2
  have : (1 + h * a) * (k x - k' x) = 0 := by linear_combination h1 - h2
  rcases mul_eq_zero.mp this with h0 | h0
  · exact absurd h0 hne
  · exact sub_eq_zero.mp h0

/-- A diagonally implicit two stage tableau (Crank-Nicolson / trapezoidal rule). -/
def trapezoid : Coeffs ℚ 2 where
  A := ![![0, 0], ![1/2, 1/2]]
  b := ![1/2, 1/2]
  c := ![0, 1]

theorem trapezoid_lower : Spec.LowerTriangular trapezoid.A := by
  intro i j hij
  fin_cases i <;> fin_cases j <;> simp_all [trapezoid]

end Verif.RK.Ex
