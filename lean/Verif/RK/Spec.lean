/-
Specification of Runge-Kutta steps, independent of the model's functions.
-/
import Mathlib.Algebra.BigOperators.Fin
import Mathlib.Algebra.Field.Rat
import Verif.RK.Model

namespace Verif.RK.Spec

variable {K : Type} {s n m o l : ℕ} [CommRing K]

/-- No entry above the diagonal. -/
def LowerTriangular (A : Fin s → Fin s → K) : Prop := ∀ i j, i < j → A i j = 0

/-- No entry on or above the diagonal. -/
def StrictlyLower (A : Fin s → Fin s → K) : Prop := ∀ i j, i ≤ j → A i j = 0

/-- The right-hand side of an ODE `y' = f(t, y, p)`. -/
abbrev Rhs (K : Type) (n m : ℕ) := K → (Fin n → K) → (Fin m → K) → Fin n → K

/-- `k` solves the stage system of the Runge-Kutta method `(A, b, c)`:
`k_i = f(t + c_i h, y + h ∑_j a_ij k_j, p)`. -/
def IsStageSystem (A : Fin s → Fin s → K) (c : Fin s → K) (f : Rhs K n m) (h t : K)
    (y : Fin n → K) (p : Fin m → K) (k : Fin s → Fin n → K) : Prop :=
  ∀ i, k i = f (t + c i * h) (fun x => y x + h * ∑ j, A i j * k j x) p

/-- `y'` is the result of one Runge-Kutta step from `y`. -/
def IsRKStep (A : Fin s → Fin s → K) (b c : Fin s → K) (f : Rhs K n m) (h t : K)
    (y : Fin n → K) (p : Fin m → K) (y' : Fin n → K) : Prop :=
  ∃ k, IsStageSystem A c f h t y p k ∧ ∀ x, y' x = y x + h * ∑ i, b i * k i x

/-- A backend solves the stage equation of `f` for step size `h` and stage factor `a`:
its update satisfies `k = f(t, y + h * acc + h * a * k, p)`. -/
def SolvesStage (ode : ODE K n m o l) (f : Rhs K n m) (h a : K) : Prop :=
  ∀ inp : OdeInput K n m,
    (ode.computeUpdate inp h a).1.stageUpdate
      = f inp.time (fun x => inp.stepInput x + h * inp.stageInput x
          + h * a * (ode.computeUpdate inp h a).1.stageUpdate x) inp.independentInput

/-- The stage equation with step size `h` and factor `a` has at most one solution. -/
def UniqueStage (f : Rhs K n m) (h a : K) : Prop :=
  ∀ (t : K) (y : Fin n → K) (p : Fin m → K) (k k' : Fin n → K),
    k = f t (fun x => y x + h * a * k x) p → k' = f t (fun x => y x + h * a * k' x) p → k = k'

/-- Euclidean pairing. -/
def dot {q : ℕ} (u v : Fin q → K) : K := ∑ i, u i * v i

/-- Pairing of ODE inputs. -/
def dotIn (u v : OdeInput K n m) : K :=
  dot u.stepInput v.stepInput + dot u.stageInput v.stageInput
    + dot u.independentInput v.independentInput + u.time * v.time

/-- Pairing of ODE outputs. -/
def dotOut (u v : OdeOut K n o) : K :=
  dot u.stageUpdate v.stageUpdate + dot u.stageState v.stageState
    + dot u.independentOutput v.independentOutput

/-- The two derivative calls of a backend are transposes of each other. -/
def AdjointPair (ode : ODE K n m o l) (lin : Fin l → K) (h a : K) : Prop :=
  ∀ (din : OdeInput K n m) (dout : OdeOut K n o),
    dotOut dout (ode.computeUpdateDerivative lin din h a)
      = dotIn (ode.computeUpdateAdjoint lin dout h a) din

/-- Sum and multiples of ODE inputs. -/
def addIn (u v : OdeInput K n m) : OdeInput K n m where
  stepInput := u.stepInput + v.stepInput
  stageInput := u.stageInput + v.stageInput
  independentInput := u.independentInput + v.independentInput
  time := u.time + v.time

def smulIn (a : K) (u : OdeInput K n m) : OdeInput K n m where
  stepInput := a • u.stepInput
  stageInput := a • u.stageInput
  independentInput := a • u.independentInput
  time := a * u.time

def addOut (u v : OdeOut K n o) : OdeOut K n o where
  stageUpdate := u.stageUpdate + v.stageUpdate
  stageState := u.stageState + v.stageState
  independentOutput := u.independentOutput + v.independentOutput

def smulOut (a : K) (u : OdeOut K n o) : OdeOut K n o where
  stageUpdate := a • u.stageUpdate
  stageState := a • u.stageState
  independentOutput := a • u.independentOutput

/-- The backend's forward derivative call is linear in the perturbation. -/
def LinearDeriv (ode : ODE K n m o l) (lin : Fin l → K) (h a : K) : Prop :=
  (∀ u v, ode.computeUpdateDerivative lin (addIn u v) h a
      = addOut (ode.computeUpdateDerivative lin u h a) (ode.computeUpdateDerivative lin v h a))
  ∧ ∀ q u, ode.computeUpdateDerivative lin (smulIn q u) h a
      = smulOut q (ode.computeUpdateDerivative lin u h a)

end Verif.RK.Spec
