/-
Specification of sequences of Runge-Kutta steps, independent of the model's functions.
-/
import Verif.RK.Spec
import Verif.Basic.Steps

namespace Verif.RK.Spec

variable {K : Type} {s n m : ℕ} [CommRing K]

/-- Runge-Kutta steps of sizes `hs` lead from the values `y` at time `t` to the values `y'` at time
`t'`. -/
inductive IsTrajectory (A : Fin s → Fin s → K) (b c : Fin s → K) (f : Rhs K n m) (p : Fin m → K) :
    K → (Fin n → K) → List K → K → (Fin n → K) → Prop
  | nil (t y) : IsTrajectory A b c f p t y [] t y
  | cons {t y h y₁ hs t' y'} (hstep : IsRKStep A b c f h t y p y₁)
      (hrest : IsTrajectory A b c f p (t + h) y₁ hs t' y') :
      IsTrajectory A b c f p t y (h :: hs) t' y'

variable {A : Fin s → Fin s → K} {b c : Fin s → K} {f : Rhs K n m} {p : Fin m → K}

theorem IsTrajectory.time {t t' : K} {y y' : Fin n → K} {hs : List K}
    (h : IsTrajectory A b c f p t y hs t' y') : t' = t + hs.sum := by
  induction h with
  | nil => simp
  | cons _ _ ih => rw [ih, List.sum_cons, add_assoc]

theorem IsTrajectory.append {t t₁ t' : K} {y y₁ y' : Fin n → K} {hs hs' : List K}
    (h : IsTrajectory A b c f p t y hs t₁ y₁) (h' : IsTrajectory A b c f p t₁ y₁ hs' t' y') :
    IsTrajectory A b c f p t y (hs ++ hs') t' y' := by
  induction h with
  | nil => exact h'
  | cons hst _ ih => exact .cons hst (ih h')

theorem IsSteps.trajectory {t t' : K} {y y' : Fin n → K} {hs : List K}
    (h : IsSteps (fun h t y y₁ => IsRKStep A b c f h t y p y₁) t y hs t' y') :
    IsTrajectory A b c f p t y hs t' y' := by
  induction h with
  | nil => exact .nil _ _
  | cons hst _ ih => exact .cons hst ih

end Verif.RK.Spec
