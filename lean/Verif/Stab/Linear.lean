/-
Runge-Kutta trajectories of linear problems along eigenvectors, and of dissipative problems.
-/
import Verif.Stab.HalfPlane
import Verif.RK.Trajectory
import Mathlib.Analysis.Matrix.Spectrum

namespace Verif.Stab

open Verif.RK Verif.RK.Spec

variable {s n m : ℕ} {A : Fin s → Fin s → ℝ} {b c : Fin s → ℝ} {f : Rhs ℝ n m} {p : Fin m → ℝ}

/-- `f(t, y, p) = L y + g(t, p)`. -/
def IsAffine (f : Rhs ℝ n m) (L : Matrix (Fin n) (Fin n) ℝ) (g : ℝ → (Fin m → ℝ) → Fin n → ℝ) :
    Prop := ∀ t y p x, f t y p x = (∑ x', L x x' * y x') + g t p x

/-- `w` is a left eigenvector of `L` with the eigenvalue `l`. -/
def LeftEigen (L : Matrix (Fin n) (Fin n) ℝ) (w : Fin n → ℂ) (l : ℂ) : Prop :=
  ∀ x', ∑ x, w x * (L x x' : ℂ) = l * w x'

/-- The component of `y` along `w`: `∑ w_x y_x`. -/
noncomputable def along (w : Fin n → ℂ) (y : Fin n → ℝ) : ℂ := ∑ x, w x * (y x : ℂ)

theorem along_sub (w : Fin n → ℂ) (y y' : Fin n → ℝ) :
    along w (y - y') = along w y - along w y' := by
  simp only [along, Pi.sub_apply, Complex.ofReal_sub, mul_sub, Finset.sum_sub_distrib]

theorem along_mulVec {L : Matrix (Fin n) (Fin n) ℝ} {w : Fin n → ℂ} {l : ℂ}
    (hw : LeftEigen L w l) (u : Fin n → ℝ) :
    along w (fun x => ∑ x', L x x' * u x') = l * along w u := by
  simp only [along, Complex.ofReal_sum, Complex.ofReal_mul, Finset.mul_sum]
  rw [Finset.sum_comm]
  refine Finset.sum_congr rfl fun x' _ => ?_
  calc ∑ x, w x * ((L x x' : ℂ) * (u x' : ℂ)) = (∑ x, w x * (L x x' : ℂ)) * (u x' : ℂ) := by
        rw [Finset.sum_mul]
        exact Finset.sum_congr rfl fun x _ => by ring
    _ = l * (w x' * (u x' : ℂ)) := by rw [hw x']; ring

/-- The stages of two steps with the same size, along an eigenvector. -/
theorem along_steps {L : Matrix (Fin n) (Fin n) ℝ} {g : ℝ → (Fin m → ℝ) → Fin n → ℝ}
    (hf : IsAffine f L g) {w : Fin n → ℂ} {l : ℂ} (hw : LeftEigen L w l) {h t : ℝ}
    {y y' y₁ y₁' : Fin n → ℝ} (h1 : IsRKStep A b c f h t y p y₁)
    (h2 : IsRKStep A b c f h t y' p y₁') :
    ∃ κ : Fin s → ℂ, (∀ i, κ i = h * l * (along w (y - y') + ∑ j, (A i j : ℂ) * κ j))
      ∧ along w (y₁ - y₁') = along w (y - y') + ∑ i, (b i : ℂ) * κ i := by
  obtain ⟨k, hk, e⟩ := h1
  obtain ⟨k', hk', e'⟩ := h2
  have hcomb : ∀ a : Fin s → ℝ,
      along w (fun x => h * ∑ j, a j * k j x - h * ∑ j, a j * k' j x)
        = ∑ j, (a j : ℂ) * (h * along w (k j - k' j)) := fun a => by
    simp only [along, Finset.mul_sum, Pi.sub_apply]
    rw [Finset.sum_comm]
    refine Finset.sum_congr rfl fun x _ => ?_
    push_cast
    rw [← Finset.sum_sub_distrib, Finset.mul_sum]
    exact Finset.sum_congr rfl fun j _ => by ring
  refine ⟨fun i => h * along w (k i - k' i), fun i => ?_, ?_⟩
  · have hd : k i - k' i = fun x => ∑ x', L x x' * ((y - y') x'
        + (h * ∑ j, A i j * k j x' - h * ∑ j, A i j * k' j x')) := by
      funext x
      rw [Pi.sub_apply, hk i, hk' i, hf, hf, add_sub_add_right_eq_sub, ← Finset.sum_sub_distrib]
      exact Finset.sum_congr rfl fun x' _ => by rw [Pi.sub_apply]; ring
    dsimp only
    rw [hd, along_mulVec hw]
    have : (along w fun x' => (y - y') x'
        + (h * ∑ j, A i j * k j x' - h * ∑ j, A i j * k' j x'))
        = along w (y - y') + along w fun x' => h * ∑ j, A i j * k j x'
          - h * ∑ j, A i j * k' j x' := by
      simp only [along, Complex.ofReal_add, mul_add, Finset.sum_add_distrib]
    rw [this, hcomb (A i)]
    ring
  · have : y₁ - y₁' = fun x => (y - y') x
        + (h * ∑ i, b i * k i x - h * ∑ i, b i * k' i x) := by
      funext x
      rw [Pi.sub_apply, e, e', Pi.sub_apply]
      ring
    rw [this]
    have h3 : (along w fun x => (y - y') x + (h * ∑ i, b i * k i x - h * ∑ i, b i * k' i x))
        = along w (y - y') + along w fun x => h * ∑ i, b i * k i x - h * ∑ i, b i * k' i x := by
      simp only [along, Complex.ofReal_add, mul_add, Finset.sum_add_distrib]
    rw [h3, hcomb b]

/-- One step does not enlarge the distance along an eigenvector with eigenvalue in the left half
plane by more than the factor `q`. -/
theorem StableBy.step {q : ℝ} (hS : StableBy q A b) {L : Matrix (Fin n) (Fin n) ℝ}
    {g : ℝ → (Fin m → ℝ) → Fin n → ℝ} (hf : IsAffine f L g) {w : Fin n → ℂ} {l : ℂ}
    (hw : LeftEigen L w l) (hl : l.re ≤ 0) {h t : ℝ} (hh : 0 ≤ h) {y y' y₁ y₁' : Fin n → ℝ}
    (h1 : IsRKStep A b c f h t y p y₁) (h2 : IsRKStep A b c f h t y' p y₁') :
    ‖along w (y₁ - y₁')‖ ≤ q * ‖along w (y - y')‖ := by
  obtain ⟨κ, h3, h4⟩ := along_steps hf hw h1 h2
  rw [h4]
  refine hS (h * l) _ κ ?_ h3
  rw [Complex.re_ofReal_mul]
  exact mul_nonpos_of_nonneg_of_nonpos hh hl

/-- One step with a stiff eigenvalue. -/
theorem DampsBy.step {ε : ℝ} (hS : DampsBy ε A b) : ∃ C : ℝ, 0 ≤ C ∧
    ∀ {n m : ℕ} {c : Fin s → ℝ} {f : Rhs ℝ n m} {p : Fin m → ℝ} {L : Matrix (Fin n) (Fin n) ℝ}
      {g : ℝ → (Fin m → ℝ) → Fin n → ℝ}, IsAffine f L g → ∀ {w : Fin n → ℂ} {l : ℂ},
      LeftEigen L w l → l.re ≤ 0 → l ≠ 0 → ∀ {h t : ℝ}, 0 < h → ∀ {y y' y₁ y₁' : Fin n → ℝ},
      IsRKStep A b c f h t y p y₁ → IsRKStep A b c f h t y' p y₁' →
      ‖along w (y₁ - y₁')‖ ≤ (ε + C / (h * ‖l‖)) * ‖along w (y - y')‖ := by
  obtain ⟨C, hC, hS⟩ := hS
  refine ⟨C, hC, ?_⟩
  intro n m c f p L g hf w l hw hl hl0 h t hh y y' y₁ y₁' h1 h2
  obtain ⟨κ, h3, h4⟩ := along_steps hf hw h1 h2
  rw [h4]
  have h5 := hS (h * l) _ κ (by
    rw [Complex.re_ofReal_mul]
    exact mul_nonpos_of_nonneg_of_nonpos hh.le hl) h3
  have hn : ‖(h : ℂ) * l‖ = h * ‖l‖ := by
    rw [norm_mul, Complex.norm_real, Real.norm_of_nonneg hh.le]
  rw [hn] at h5
  have hpos : 0 < h * ‖l‖ := mul_pos hh (norm_pos_iff.mpr hl0)
  refine le_of_mul_le_mul_left (h5.trans (le_of_eq ?_)) hpos
  field_simp

/-- Two trajectories with the same steps, along an eigenvector. -/
theorem StableBy.trajectory {q : ℝ} (hS : StableBy q A b) (hq : 0 ≤ q)
    {L : Matrix (Fin n) (Fin n) ℝ}
    {g : ℝ → (Fin m → ℝ) → Fin n → ℝ} (hf : IsAffine f L g) {w : Fin n → ℂ} {l : ℂ}
    (hw : LeftEigen L w l) (hl : l.re ≤ 0) {t t₁ t₁' : ℝ} {hs : List ℝ} (hh : ∀ h ∈ hs, 0 ≤ h)
    {y y' y₁ y₁' : Fin n → ℝ} (h1 : IsTrajectory A b c f p t y hs t₁ y₁)
    (h2 : IsTrajectory A b c f p t y' hs t₁' y₁') :
    ‖along w (y₁ - y₁')‖ ≤ q ^ hs.length * ‖along w (y - y')‖ := by
  induction h1 generalizing y' with
  | nil => cases h2; simp
  | cons hst _ ih =>
    cases h2 with
    | cons hst' hr' =>
      have h3 := ih (fun h hm => hh h (List.mem_cons_of_mem _ hm)) hr'
      have h4 := hS.step hf hw hl (hh _ (List.mem_cons_self ..)) hst hst'
      rw [List.length_cons, pow_succ, mul_assoc]
      exact h3.trans (mul_le_mul_of_nonneg_left h4 (pow_nonneg hq _))

/-- Zero is a trajectory of a homogeneous problem. -/
theorem zero_trajectory (hf : ∀ t p x, f t 0 p x = 0) (t : ℝ) (hs : List ℝ) :
    IsTrajectory A b c f p t 0 hs (t + hs.sum) 0 := by
  induction hs generalizing t with
  | nil => simpa using IsTrajectory.nil t 0
  | cons h hs ih =>
    rw [List.sum_cons, ← add_assoc]
    refine .cons ⟨fun _ => 0, fun i => ?_, fun x => by simp⟩ (ih (t + h))
    funext x
    have : (fun x => (0 : Fin n → ℝ) x + h * ∑ j, A i j * (0 : Fin n → ℝ) x) = 0 := by
      funext x; simp
    rw [this, hf]
    rfl

end Verif.Stab
