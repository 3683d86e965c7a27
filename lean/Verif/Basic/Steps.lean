/-
Sequences of steps in time.
-/
import Mathlib.Algebra.BigOperators.Group.List.Basic

namespace Verif.RK.Spec

variable {K V : Type*} [AddMonoid K]

/-- Steps of a relation `S h t y y₁` (from `y` at time `t` to `y₁` at time `t + h`) of sizes `hs` lead
from the values `y` at time `t` to the values `y'` at time `t'`. -/
inductive IsSteps (S : K → K → V → V → Prop) : K → V → List K → K → V → Prop
  | nil (t y) : IsSteps S t y [] t y
  | cons {t y h y₁ hs t' y'} (hstep : S h t y y₁) (hrest : IsSteps S (t + h) y₁ hs t' y') :
      IsSteps S t y (h :: hs) t' y'

variable {S S' : K → K → V → V → Prop}

theorem IsSteps.time {t t' : K} {y y' : V} {hs : List K} (h : IsSteps S t y hs t' y') :
    t' = t + hs.sum := by
  induction h with
  | nil => simp
  | cons _ _ ih => rw [ih, List.sum_cons, add_assoc]

theorem IsSteps.append {t t₁ t' : K} {y y₁ y' : V} {hs hs' : List K}
    (h : IsSteps S t y hs t₁ y₁) (h' : IsSteps S t₁ y₁ hs' t' y') :
    IsSteps S t y (hs ++ hs') t' y' := by
  induction h with
  | nil => exact h'
  | cons hst _ ih => exact .cons hst (ih h')

theorem IsSteps.mono {t t' : K} {y y' : V} {hs : List K} (h : IsSteps S t y hs t' y')
    (hS : ∀ h ∈ hs, ∀ t y y₁, S h t y y₁ → S' h t y y₁) : IsSteps S' t y hs t' y' := by
  induction h with
  | nil => exact .nil _ _
  | cons hst _ ih =>
    exact .cons (hS _ (by simp) _ _ _ hst) (ih fun h hh => hS h (by simp [hh]))

/-- Deterministic steps lead to one result only. -/
theorem IsSteps.unique {t t₁ t₂ : K} {y y₁ y₂ : V} {hs : List K}
    (hS : ∀ h t y y₁ y₂, S h t y y₁ → S h t y y₂ → y₁ = y₂) (h : IsSteps S t y hs t₁ y₁)
    (h' : IsSteps S t y hs t₂ y₂) : t₁ = t₂ ∧ y₁ = y₂ := by
  induction h with
  | nil => cases h'; exact ⟨rfl, rfl⟩
  | cons hst _ ih =>
    cases h' with
    | cons hst' hr' =>
      rw [hS _ _ _ _ _ hst' hst] at hr'
      exact ih hr'

/-- An invariant of the steps is an invariant of sequences of steps. -/
theorem IsSteps.invariant {t t' : K} {y y' : V} {hs : List K}
    {Q : K → V → Prop} (h : IsSteps S t y hs t' y')
    (hS : ∀ h ∈ hs, ∀ t y y₁, S h t y y₁ → Q t y → Q (t + h) y₁) (h0 : Q t y) : Q t' y' := by
  induction h with
  | nil => exact h0
  | cons hst _ ih =>
    exact ih (fun h hh => hS h (by simp [hh])) (hS _ (by simp) _ _ _ hst h0)

end Verif.RK.Spec
