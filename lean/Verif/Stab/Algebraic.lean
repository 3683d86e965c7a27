/-
Quadratic forms along Runge-Kutta steps: algebraic stability and conservation.
-/
import Verif.Stab.Linear

namespace Verif.Stab

open Verif.RK Verif.RK.Spec

variable {s n m : ℕ} {A : Fin s → Fin s → ℝ} {b c : Fin s → ℝ} {f : Rhs ℝ n m} {p : Fin m → ℝ}

/-- The matrix `b_i a_ij + b_j a_ji - b_i b_j`. -/
def algMat (A : Fin s → Fin s → ℝ) (b : Fin s → ℝ) (i j : Fin s) : ℝ :=
  b i * A i j + b j * A j i - b i * b j

/-- Weights that are not negative and a positive semidefinite matrix `algMat`. -/
def AlgStable (A : Fin s → Fin s → ℝ) (b : Fin s → ℝ) : Prop :=
  (∀ i, 0 ≤ b i) ∧ ∀ v : Fin s → ℝ, 0 ≤ ∑ i, ∑ j, algMat A b i j * (v i * v j)

/-- Bilinear forms. -/
abbrev Form (n : ℕ) := (Fin n → ℝ) →ₗ[ℝ] (Fin n → ℝ) →ₗ[ℝ] ℝ

/-- The form after a step. -/
theorem form_step (β : Form n) (hβ : ∀ u v, β u v = β v u) (h : ℝ) (d : Fin n → ℝ)
    (κ : Fin s → Fin n → ℝ) :
    β (d + h • ∑ i, b i • κ i) (d + h • ∑ i, b i • κ i)
      = β d d + 2 * h * ∑ i, b i * β (κ i) (d + h • ∑ j, A i j • κ j)
        - h ^ 2 * ∑ i, ∑ j, algMat A b i j * β (κ i) (κ j) := by
  have e1 : β d (∑ i, b i • κ i) = ∑ i, b i * β d (κ i) := by
    rw [map_sum]
    exact Finset.sum_congr rfl fun i _ => by rw [map_smul, smul_eq_mul]
  have e2 : β (∑ i, b i • κ i) (∑ i, b i • κ i) = ∑ i, ∑ j, b i * b j * β (κ i) (κ j) := by
    have e0 : ∀ i, β (∑ j, b j • κ j) (b i • κ i) = ∑ j, b i * b j * β (κ i) (κ j) := fun i => by
      rw [hβ, map_sum]
      refine Finset.sum_congr rfl fun j _ => ?_
      rw [map_smul, map_smul, LinearMap.smul_apply, smul_eq_mul, smul_eq_mul]
      ring
    rw [map_sum]
    exact Finset.sum_congr rfl fun i _ => e0 i
  have e3 : ∀ i, β (κ i) (d + h • ∑ j, A i j • κ j)
      = β d (κ i) + h * ∑ j, A i j * β (κ i) (κ j) := fun i => by
    rw [map_add, map_smul, map_sum, hβ (κ i) d, smul_eq_mul]
    congr 2
    exact Finset.sum_congr rfl fun j _ => by rw [map_smul, smul_eq_mul]
  have e4 : ∑ i, ∑ j, b j * A j i * β (κ i) (κ j) = ∑ i, ∑ j, b i * A i j * β (κ i) (κ j) := by
    rw [Finset.sum_comm]
    exact Finset.sum_congr rfl fun i _ => Finset.sum_congr rfl fun j _ => by rw [hβ]
  have e5 : ∑ i, ∑ j, algMat A b i j * β (κ i) (κ j)
      = 2 * (∑ i, ∑ j, b i * A i j * β (κ i) (κ j)) - ∑ i, ∑ j, b i * b j * β (κ i) (κ j) := by
    rw [two_mul]
    nth_rewrite 2 [← e4]
    rw [← Finset.sum_add_distrib, ← Finset.sum_sub_distrib]
    refine Finset.sum_congr rfl fun i _ => ?_
    rw [← Finset.sum_add_distrib, ← Finset.sum_sub_distrib]
    refine Finset.sum_congr rfl fun j _ => ?_
    rw [algMat]
    ring
  have e6 : ∑ i, b i * β (κ i) (d + h • ∑ j, A i j • κ j)
      = ∑ i, b i * β d (κ i) + h * ∑ i, ∑ j, b i * A i j * β (κ i) (κ j) := by
    rw [Finset.mul_sum, ← Finset.sum_add_distrib]
    refine Finset.sum_congr rfl fun i _ => ?_
    rw [e3, mul_add, Finset.mul_sum, Finset.mul_sum, Finset.mul_sum]
    congr 1
    exact Finset.sum_congr rfl fun j _ => by ring
  rw [e5, e6]
  simp only [map_add, map_smul, LinearMap.add_apply, LinearMap.smul_apply, smul_eq_mul]
  rw [hβ (∑ i, b i • κ i) d, e1, e2]
  ring

/-- The form `∑_r (C u)_r (C v)_r` of a linear map `C`; the identity gives the Euclidean product. -/
def formOf {r : ℕ} (C : (Fin n → ℝ) →ₗ[ℝ] (Fin r → ℝ)) : Form n :=
  LinearMap.mk₂ ℝ (fun u v => ∑ x, C u x * C v x)
    (fun u u' v => by
      rw [map_add, ← Finset.sum_add_distrib]
      exact Finset.sum_congr rfl fun x _ => by rw [Pi.add_apply]; ring)
    (fun a u v => by
      rw [map_smul, smul_eq_mul, Finset.mul_sum]
      exact Finset.sum_congr rfl fun x _ => by rw [Pi.smul_apply, smul_eq_mul]; ring)
    (fun u v v' => by
      rw [map_add, ← Finset.sum_add_distrib]
      exact Finset.sum_congr rfl fun x _ => by rw [Pi.add_apply]; ring)
    (fun a u v => by
      rw [map_smul, smul_eq_mul, Finset.mul_sum]
      exact Finset.sum_congr rfl fun x _ => by rw [Pi.smul_apply, smul_eq_mul]; ring)

theorem formOf_apply {r : ℕ} (C : (Fin n → ℝ) →ₗ[ℝ] (Fin r → ℝ)) (u v : Fin n → ℝ) :
    formOf C u v = ∑ x, C u x * C v x := rfl

theorem formOf_symm {r : ℕ} (C : (Fin n → ℝ) →ₗ[ℝ] (Fin r → ℝ)) (u v : Fin n → ℝ) :
    formOf C u v = formOf C v u := by
  rw [formOf_apply, formOf_apply]
  exact Finset.sum_congr rfl fun x _ => mul_comm _ _

/-- The form does not grow in a step of an algebraically stable scheme if it does not grow along the
stages. -/
theorem AlgStable.form_le (hS : AlgStable A b) {r : ℕ} (C : (Fin n → ℝ) →ₗ[ℝ] (Fin r → ℝ))
    {h : ℝ} (hh : 0 ≤ h) (d : Fin n → ℝ) (κ : Fin s → Fin n → ℝ)
    (hκ : ∀ i, formOf C (κ i) (d + h • ∑ j, A i j • κ j) ≤ 0) :
    formOf C (d + h • ∑ i, b i • κ i) (d + h • ∑ i, b i • κ i) ≤ formOf C d d := by
  rw [form_step (A := A) (formOf C) (formOf_symm C)]
  have h1 : ∑ i, b i * formOf C (κ i) (d + h • ∑ j, A i j • κ j) ≤ 0 :=
    Finset.sum_nonpos fun i _ => mul_nonpos_of_nonneg_of_nonpos (hS.1 i) (hκ i)
  have h2 : 0 ≤ ∑ i, ∑ j, algMat A b i j * formOf C (κ i) (κ j) := by
    have : ∑ i, ∑ j, algMat A b i j * formOf C (κ i) (κ j)
        = ∑ x, ∑ i, ∑ j, algMat A b i j * (C (κ i) x * C (κ j) x) := by
      simp only [formOf_apply, Finset.mul_sum]
      rw [Finset.sum_comm' (t' := Finset.univ) (s' := fun _ => Finset.univ) (by simp)]
      rw [Finset.sum_comm]
      conv_rhs => rw [Finset.sum_comm]
      refine Finset.sum_congr rfl fun i _ => ?_
      rw [Finset.sum_comm]
    rw [this]
    exact Finset.sum_nonneg fun x _ => hS.2 fun i => C (κ i) x
  nlinarith [mul_nonneg hh (neg_nonneg.mpr h1), mul_nonneg (sq_nonneg h) h2]

theorem stage_eq (y : Fin n → ℝ) (h : ℝ) (a : Fin s → ℝ) (k : Fin s → Fin n → ℝ) :
    (fun x => y x + h * ∑ j, a j * k j x) = y + h • ∑ j, a j • k j := by
  funext x
  simp [Finset.sum_apply]

/-- Two steps of a dissipative problem. -/
theorem AlgStable.step (hS : AlgStable A b) {r : ℕ} {C : (Fin n → ℝ) →ₗ[ℝ] (Fin r → ℝ)}
    (hf : ∀ t u u', formOf C (f t u p - f t u' p) (u - u') ≤ 0) {h t : ℝ} (hh : 0 ≤ h)
    {y y' y₁ y₁' : Fin n → ℝ} (h1 : IsRKStep A b c f h t y p y₁)
    (h2 : IsRKStep A b c f h t y' p y₁') :
    formOf C (y₁ - y₁') (y₁ - y₁') ≤ formOf C (y - y') (y - y') := by
  obtain ⟨k, hk, e⟩ := h1
  obtain ⟨k', hk', e'⟩ := h2
  have hd : ∀ a : Fin s → ℝ, (y + h • ∑ j, a j • k j) - (y' + h • ∑ j, a j • k' j)
      = (y - y') + h • ∑ j, a j • (k j - k' j) := fun a => by
    simp only [smul_sub, Finset.sum_sub_distrib]
    abel
  have ey : y₁ - y₁' = (y - y') + h • ∑ i, b i • (k i - k' i) := by
    rw [← hd, ← stage_eq, ← stage_eq]
    funext x
    rw [Pi.sub_apply, Pi.sub_apply, e, e']
  rw [ey]
  refine hS.form_le C hh (y - y') (fun i => k i - k' i) fun i => ?_
  rw [← hd, hk i, hk' i, stage_eq, stage_eq]
  exact hf _ _ _

/-- One step of a problem whose solutions lose energy. -/
theorem AlgStable.energy_step (hS : AlgStable A b) {r : ℕ} {C : (Fin n → ℝ) →ₗ[ℝ] (Fin r → ℝ)}
    (hf : ∀ t u, formOf C (f t u p) u ≤ 0) {h t : ℝ} (hh : 0 ≤ h)
    {y y₁ : Fin n → ℝ} (h1 : IsRKStep A b c f h t y p y₁) :
    formOf C y₁ y₁ ≤ formOf C y y := by
  obtain ⟨k, hk, e⟩ := h1
  have ey : y₁ = y + h • ∑ i, b i • k i := by
    rw [← stage_eq]
    funext x
    rw [e]
  rw [ey]
  refine hS.form_le C hh y k fun i => ?_
  have h2 := hf (t + c i * h) (y + h • ∑ j, A i j • k j)
  have h3 := hk i
  rw [stage_eq] at h3
  rw [← h3] at h2
  exact h2

/-- Conservation of a form in a step of a scheme with vanishing matrix. -/
theorem form_conserved (hM : ∀ i j, algMat A b i j = 0) {β : Form n}
    (hβ : ∀ u v, β u v = β v u) (hf : ∀ t u, β (f t u p) u = 0) {h t : ℝ}
    {y y₁ : Fin n → ℝ} (h1 : IsRKStep A b c f h t y p y₁) : β y₁ y₁ = β y y := by
  obtain ⟨k, hk, e⟩ := h1
  have ey : y₁ = y + h • ∑ i, b i • k i := by
    rw [← stage_eq]
    funext x
    rw [e]
  rw [ey, form_step (A := A) β hβ]
  have h2 : ∑ i, b i * β (k i) (y + h • ∑ j, A i j • k j) = 0 :=
    Finset.sum_eq_zero fun i _ => by
      have h2 := hf (t + c i * h) (y + h • ∑ j, A i j • k j)
      have h3 := hk i
      rw [stage_eq] at h3
      rw [← h3] at h2
      rw [h2, mul_zero]
  rw [h2]
  simp [hM]

theorem AlgStable.trajectory (hS : AlgStable A b) {r : ℕ} {C : (Fin n → ℝ) →ₗ[ℝ] (Fin r → ℝ)}
    (hf : ∀ t u u', formOf C (f t u p - f t u' p) (u - u') ≤ 0) {t t₁ t₁' : ℝ} {hs : List ℝ}
    (hh : ∀ h ∈ hs, 0 ≤ h) {y y' y₁ y₁' : Fin n → ℝ} (h1 : IsTrajectory A b c f p t y hs t₁ y₁)
    (h2 : IsTrajectory A b c f p t y' hs t₁' y₁') :
    formOf C (y₁ - y₁') (y₁ - y₁') ≤ formOf C (y - y') (y - y') := by
  induction h1 generalizing y' with
  | nil => cases h2; exact le_rfl
  | cons hst _ ih =>
    cases h2 with
    | cons hst' hr' =>
      exact (ih (fun h hm => hh h (List.mem_cons_of_mem _ hm)) hr').trans
        (hS.step hf (hh _ (List.mem_cons_self ..)) hst hst')

theorem AlgStable.energy (hS : AlgStable A b) {r : ℕ} {C : (Fin n → ℝ) →ₗ[ℝ] (Fin r → ℝ)}
    (hf : ∀ t u, formOf C (f t u p) u ≤ 0) {t t₁ : ℝ} {hs : List ℝ}
    (hh : ∀ h ∈ hs, 0 ≤ h) {y y₁ : Fin n → ℝ} (h1 : IsTrajectory A b c f p t y hs t₁ y₁) :
    formOf C y₁ y₁ ≤ formOf C y y := by
  induction h1 with
  | nil => exact le_rfl
  | cons hst _ ih =>
    exact (ih fun h hm => hh h (List.mem_cons_of_mem _ hm)).trans
      (hS.energy_step hf (hh _ (List.mem_cons_self ..)) hst)

theorem trajectory_conserved (hM : ∀ i j, algMat A b i j = 0) {β : Form n}
    (hβ : ∀ u v, β u v = β v u) (hf : ∀ t u, β (f t u p) u = 0) {t t₁ : ℝ} {hs : List ℝ}
    {y y₁ : Fin n → ℝ} (h1 : IsTrajectory A b c f p t y hs t₁ y₁) : β y₁ y₁ = β y y := by
  induction h1 with
  | nil => rfl
  | cons hst _ ih => rw [ih, form_conserved hM hβ hf hst]

end Verif.Stab
