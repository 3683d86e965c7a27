/-
Errors of Runge-Kutta steps for linear problems, with bounds that do not depend on the stiffness of
the problem. Specification side only.
-/
import Verif.Stab.Linear
import Mathlib.LinearAlgebra.Matrix.Charpoly.Coeff
import Mathlib.LinearAlgebra.Matrix.Charpoly.Basic
import Mathlib.Analysis.Calculus.MeanValue

namespace Verif.Stab

open Verif.RK Verif.RK.Spec

variable {s n m : ℕ} {A : Fin s → Fin s → ℝ} {b c : Fin s → ℝ} {f : Rhs ℝ n m} {p : Fin m → ℝ}

/-! ### Stage equations with sources -/

/-- Every stage is implicit, with a positive diagonal entry, or only evaluates the right hand side
at the start of the step. -/
def StagesOk (A : Fin s → Fin s → ℝ) (c : Fin s → ℝ) : Prop :=
  ∀ i, 0 < A i i ∨ ((∀ j, A i j = 0) ∧ c i = 0)

/-- `k` solves the stage equations of `y' = λ y` with the sources `d` and `z = h λ`. -/
def SolvesSource (A : Fin s → Fin s → ℝ) (z : ℂ) (d k : Fin s → ℂ) : Prop :=
  ∀ i, k i = z * (d i + ∑ j, (A i j : ℂ) * k j)

/-- Bounds of the stages: `g i` times the size of the sources. -/
def Majorant (g : Fin s → ℝ) (A : Fin s → Fin s → ℝ) : Prop :=
  ∀ i, 0 ≤ g i ∧ (0 < A i i → 1 + ∑ j ∈ Finset.Iio i, |A i j| * g j ≤ A i i * g i)

/-- The first `k` stages. -/
theorem source_prefix (hA : ∀ i j, i < j → A i j = 0) (hS : StagesOk A c) {g : Fin s → ℝ}
    (hg : Majorant g A) {z : ℂ} {d : Fin s → ℂ} {δ : ℝ} (hz : z.re ≤ 0) (hδ : 0 ≤ δ)
    (hd : ∀ i, ‖d i‖ ≤ δ) (h0 : ∀ i, A i i = 0 → d i = 0) (k : ℕ) : ∃ G : Fin s → ℂ,
      (∀ i : Fin s, (i : ℕ) < k → G i = z * (d i + ∑ j, (A i j : ℂ) * G j)) ∧
      (∀ i : Fin s, k ≤ (i : ℕ) → G i = 0) ∧ ∀ i, ‖G i‖ ≤ g i * δ := by
  induction k with
  | zero => exact ⟨0, fun i h => absurd h (Nat.not_lt_zero _), fun _ _ => rfl,
      fun i => by simpa using mul_nonneg (hg i).1 hδ⟩
  | succ k ih =>
    obtain ⟨G, h1, h2, h3⟩ := ih
    by_cases hk : k < s
    swap
    · exact ⟨G, fun i _ => h1 i (by have := i.2; omega), fun i hi => absurd i.2 (by omega), h3⟩
    let κ : Fin s := ⟨k, hk⟩
    rcases hS κ with hγ | hzero
    · have hden : (1 - (A κ κ : ℂ) * z) ≠ 0 := fun h => by
        have := one_le_norm hγ.le hz
        rw [h] at this
        norm_num at this
      let v : ℂ := z / (1 - (A κ κ : ℂ) * z) * (d κ + ∑ j, (A κ j : ℂ) * G j)
      have hv : v = z * (d κ + ∑ j, (A κ j : ℂ) * G j + (A κ κ : ℂ) * v) := by
        have hv' : v * (1 - (A κ κ : ℂ) * z) = z * (d κ + ∑ j, (A κ j : ℂ) * G j) := by
          simp only [v]
          rw [div_mul_eq_mul_div, div_mul_cancel₀ _ hden]
        linear_combination hv'
      have hrow : ‖∑ j, (A κ j : ℂ) * G j‖ ≤ (∑ j ∈ Finset.Iio κ, |A κ j| * g j) * δ := by
        have : ∑ j, (A κ j : ℂ) * G j = ∑ j ∈ Finset.Iio κ, (A κ j : ℂ) * G j := by
          refine (Finset.sum_subset (Finset.subset_univ _) fun j _ hj => ?_).symm
          have : k ≤ (j : ℕ) := by
            have := Finset.mem_Iio.not.mp hj
            rw [Fin.lt_def] at this
            simpa [κ] using this
          rw [h2 j this, mul_zero]
        rw [this, Finset.sum_mul]
        refine (norm_sum_le _ _).trans (Finset.sum_le_sum fun j _ => ?_)
        rw [norm_mul, Complex.norm_real, Real.norm_eq_abs, mul_assoc]
        exact mul_le_mul_of_nonneg_left (h3 j) (abs_nonneg _)
      have hvn : ‖v‖ ≤ g κ * δ := by
        have hq : ‖z / (1 - (A κ κ : ℂ) * z)‖ ≤ (A κ κ)⁻¹ := by
          rw [norm_div, div_le_iff₀ (norm_pos_iff.mpr hden)]
          have := mul_norm_le hγ.le hz
          rw [← div_eq_inv_mul, le_div_iff₀ hγ]
          linarith
        calc ‖v‖ ≤ (A κ κ)⁻¹ * (δ + (∑ j ∈ Finset.Iio κ, |A κ j| * g j) * δ) := by
              simp only [v]
              rw [norm_mul]
              refine mul_le_mul hq ?_ (norm_nonneg _) (inv_nonneg.mpr hγ.le)
              exact (norm_add_le _ _).trans (add_le_add (hd κ) hrow)
          _ = (A κ κ)⁻¹ * (1 + ∑ j ∈ Finset.Iio κ, |A κ j| * g j) * δ := by ring
          _ ≤ (A κ κ)⁻¹ * (A κ κ * g κ) * δ := by
              refine mul_le_mul_of_nonneg_right (mul_le_mul_of_nonneg_left ((hg κ).2 hγ)
                (inv_nonneg.mpr hγ.le)) hδ
          _ = _ := by rw [← mul_assoc, inv_mul_cancel₀ hγ.ne', one_mul]
      have hsum : ∀ i : Fin s, ∑ j, (A i j : ℂ) * Function.update G κ v j
          = ∑ j, (A i j : ℂ) * G j + (A i κ : ℂ) * v := fun i => by
        have hG : G κ = 0 := h2 κ le_rfl
        rw [← Finset.add_sum_erase _ _ (Finset.mem_univ κ),
          ← Finset.add_sum_erase _ (fun j => (A i j : ℂ) * G j) (Finset.mem_univ κ),
          Function.update_self, hG, mul_zero, zero_add, add_comm]
        congr 1
        refine Finset.sum_congr rfl fun j hj => ?_
        rw [Function.update_of_ne (Finset.ne_of_mem_erase hj)]
      refine ⟨Function.update G κ v, fun i hi => ?_, fun i hi => ?_, fun i => ?_⟩
      · rw [hsum]
        by_cases hik : i = κ
        · subst hik
          rw [Function.update_self, ← add_assoc]
          exact hv
        · have hlt : (i : ℕ) < k := by
            rcases Nat.lt_succ_iff_lt_or_eq.mp hi with h | h
            · exact h
            · exact absurd (Fin.ext h) hik
          rw [Function.update_of_ne hik, hA i κ (Fin.lt_def.mpr hlt)]
          simpa using h1 i hlt
      · have hik : i ≠ κ := fun h => by rw [h] at hi; simp [κ] at hi
        rw [Function.update_of_ne hik]
        exact h2 i (by omega)
      · by_cases hik : i = κ
        · subst hik
          rw [Function.update_self]
          exact hvn
        · rw [Function.update_of_ne hik]
          exact h3 i
    · refine ⟨G, fun i hi => ?_, fun i hi => h2 i (by omega), h3⟩
      by_cases hik : i = κ
      · subst hik
        rw [h2 _ le_rfl, h0 _ (hzero.1 _)]
        simp [hzero.1]
      · refine h1 i ?_
        rcases Nat.lt_succ_iff_lt_or_eq.mp hi with h | h
        · exact h
        · exact absurd (Fin.ext h) hik

/-- The stage equations can be solved, and the solution is bounded by the sources, with a bound that
does not depend on `z = h λ`. -/
theorem source_solution (hA : ∀ i j, i < j → A i j = 0) (hS : StagesOk A c) {g : Fin s → ℝ}
    (hg : Majorant g A) {z : ℂ} {d : Fin s → ℂ} {δ : ℝ} (hz : z.re ≤ 0) (hδ : 0 ≤ δ)
    (hd : ∀ i, ‖d i‖ ≤ δ) (h0 : ∀ i, A i i = 0 → d i = 0) :
    ∃ G : Fin s → ℂ, SolvesSource A z d G ∧ ∀ i, ‖G i‖ ≤ g i * δ := by
  obtain ⟨G, h1, -, h3⟩ := source_prefix hA hS hg hz hδ hd h0 s
  exact ⟨G, fun i => h1 i i.2, h3⟩

theorem norm_weights_le (b : Fin s → ℝ) {g : Fin s → ℝ} {G : Fin s → ℂ} {δ : ℝ}
    (h : ∀ i, ‖G i‖ ≤ g i * δ) : ‖∑ i, (b i : ℂ) * G i‖ ≤ (∑ i, |b i| * g i) * δ := by
  rw [Finset.sum_mul]
  refine (norm_sum_le _ _).trans (Finset.sum_le_sum fun i _ => ?_)
  rw [norm_mul, Complex.norm_real, Real.norm_eq_abs, mul_assoc]
  exact mul_le_mul_of_nonneg_left (h i) (abs_nonneg _)

/-! ### Stage order and weak stage order -/

/-- Residual of the `i`-th stage for the polynomial `t^(k+1) / (k+1)`. -/
noncomputable def residual (A : Fin s → Fin s → ℝ) (c : Fin s → ℝ) (k : ℕ) (i : Fin s) : ℝ :=
  (∑ j, A i j * c j ^ k) - c i ^ (k + 1) / (k + 1 : ℕ)

/-- The weights integrate polynomials of degree less than `q`, up to `ε`. -/
def Quadrature (ε : ℝ) (q : ℕ) (b c : Fin s → ℝ) : Prop :=
  ∀ k < q, |(∑ j, b j * c j ^ k) - 1 / (k + 1 : ℕ)| ≤ ε

/-- Stage order `q`, up to `ε`: the stages integrate polynomials of degree less than `q`. -/
def StageOrder (ε : ℝ) (q : ℕ) (A : Fin s → Fin s → ℝ) (c : Fin s → ℝ) : Prop :=
  ∀ k < q, ∀ i, |residual A c k i| ≤ ε

/-- Weak stage order `q`, up to `ε`: the residuals do not enter the result in linear problems,
`b A^j τ_k = 0`. -/
def WeakStageOrder (ε : ℝ) (q : ℕ) (A : Fin s → Fin s → ℝ) (b c : Fin s → ℝ) : Prop :=
  ∀ k < q, ∀ j < s, |b ⬝ᵥ ((Matrix.of A ^ j).mulVec (residual A c k))| ≤ ε

/-- What both are needed for: the residuals of the stages have an effect of at most `δ` on the
result, for all `z = h λ` in the left half plane. -/
def Filters (δ : ℝ) (q : ℕ) (A : Fin s → Fin s → ℝ) (b c : Fin s → ℝ) : Prop :=
  ∀ k < q, ∀ (z : ℂ) (G : Fin s → ℂ), z.re ≤ 0 →
    SolvesSource A z (fun i => (residual A c k i : ℂ)) G → ‖∑ i, (b i : ℂ) * G i‖ ≤ δ

theorem residual_zero (hS : StagesOk A c) (k : ℕ) (i : Fin s) (h : A i i = 0) :
    residual A c k i = 0 := by
  rcases hS i with h' | ⟨h1, h2⟩
  · rw [h] at h'
    exact absurd h' (lt_irrefl _)
  · simp [residual, h1, h2]

/-- The solution is unique. -/
theorem SolvesSource.unique (hA : ∀ i j, i < j → A i j = 0) (hS : StagesOk A c) {z : ℂ}
    (hz : z.re ≤ 0) {d k k' : Fin s → ℂ} (h : SolvesSource A z d k) (h' : SolvesSource A z d k') :
    k = k' := by
  have key : ∀ N : ℕ, ∀ i : Fin s, (i : ℕ) < N → k i = k' i := fun N => by
    induction N with
    | zero => exact fun i hi => absurd hi (Nat.not_lt_zero _)
    | succ N ih =>
      intro i hi
      have e := h i
      have e' := h' i
      have hs : ∑ j, (A i j : ℂ) * k j - ∑ j, (A i j : ℂ) * k' j = (A i i : ℂ) * (k i - k' i) := by
        rw [← Finset.sum_sub_distrib, Finset.sum_eq_single i]
        · ring
        · intro j _ hj
          rcases lt_or_gt_of_ne hj with hlt | hgt
          · rw [ih j (lt_of_lt_of_le (Fin.lt_def.mp hlt) (Nat.lt_succ_iff.mp hi)), sub_self]
          · rw [hA i j hgt]; simp
        · exact fun h => absurd (Finset.mem_univ i) h
      have hne : 1 - (A i i : ℂ) * z ≠ 0 := fun h0 => by
        have hpos : 0 ≤ A i i := by
          rcases hS i with h' | h'
          · exact h'.le
          · exact (h'.1 i).ge
        have := one_le_norm hpos hz
        rw [h0] at this
        norm_num at this
      have : (1 - (A i i : ℂ) * z) * (k i - k' i) = 0 := by
        linear_combination e - e' + z * hs
      exact sub_eq_zero.mp ((mul_eq_zero.mp this).resolve_left hne)
  funext i
  exact key s i i.2

theorem StageOrder.filters (hA : ∀ i j, i < j → A i j = 0) (hS : StagesOk A c) {g : Fin s → ℝ}
    (hg : Majorant g A) {ε : ℝ} {q : ℕ} (hε : 0 ≤ ε) (ho : StageOrder ε q A c) :
    Filters ((∑ i, |b i| * g i) * ε) q A b c := by
  intro k hk z G hz hG
  obtain ⟨G', h1, h2⟩ := source_solution hA hS hg (d := fun i => (residual A c k i : ℂ)) hz hε
    (fun i => by rw [Complex.norm_real]; exact ho k hk i)
    (fun i hi => by rw [residual_zero hS k i hi]; rfl)
  rw [hG.unique hA hS hz h1]
  exact norm_weights_le b h2

/-- Cayley-Hamilton for a lower triangular matrix: with `z = h λ ≠ 0`, the denominator times the
effect of the sources is a combination of the numbers `b A^i τ`. -/
theorem cayley_hamilton {M : Matrix (Fin s) (Fin s) ℂ} (hM : ∀ i j, i < j → M i j = 0)
    {β τ G : Fin s → ℂ} {z : ℂ} (hz : z ≠ 0) (hG : G = z • (τ + M.mulVec G)) :
    (β ⬝ᵥ G) * ∏ i, (1 - M i i * z) = ∑ m ∈ Finset.range (s + 1), M.charpoly.coeff m *
      z ^ (s - m) * ∑ i ∈ Finset.range m, z ^ (i + 1) * (β ⬝ᵥ (M ^ i).mulVec τ) := by
  set g : ℕ → ℂ := fun j => β ⬝ᵥ (M ^ j).mulVec G with hg
  set u : ℕ → ℂ := fun j => β ⬝ᵥ (M ^ j).mulVec τ with hu
  have hrec : ∀ j, g j = z * (u j + g (j + 1)) := fun j => by
    have : (M ^ j).mulVec G = z • ((M ^ j).mulVec τ + (M ^ (j + 1)).mulVec G) := by
      conv_lhs => rw [hG]
      rw [Matrix.mulVec_smul, Matrix.mulVec_add, Matrix.mulVec_mulVec, ← pow_succ]
    simp only [hg, hu]
    rw [this, dotProduct_smul, dotProduct_add, smul_eq_mul]
  have hsum : ∀ k, g 0 = (∑ i ∈ Finset.range k, z ^ (i + 1) * u i) + z ^ k * g k := fun k => by
    induction k with
    | zero => simp
    | succ k ih =>
      rw [Finset.sum_range_succ, ih, hrec k]
      ring
  have hχ : M.charpoly = ∏ i, (Polynomial.X - Polynomial.C (M i i)) := by
    rw [← Matrix.charpoly_transpose, Matrix.charpoly_of_isUpperTriangular]
    · rfl
    · exact fun i j hij => hM j i hij
  have hdeg : M.charpoly.natDegree = s := by
    rw [Matrix.charpoly_natDegree_eq_dim, Fintype.card_fin]
  have hden : ∏ i, (1 - M i i * z) = ∑ m ∈ Finset.range (s + 1), M.charpoly.coeff m * z ^ (s - m) := by
    have h1 : M.charpoly.eval z⁻¹ = ∏ i, (z⁻¹ - M i i) := by
      rw [hχ, Polynomial.eval_prod]
      simp
    have h2 : ∏ i, (1 - M i i * z) = z ^ s * M.charpoly.eval z⁻¹ := by
      rw [h1]
      have : z ^ s = ∏ _i : Fin s, z := by simp
      rw [this, ← Finset.prod_mul_distrib]
      refine Finset.prod_congr rfl fun i _ => ?_
      rw [mul_sub, mul_inv_cancel₀ hz, mul_comm z]
    rw [h2, Polynomial.eval_eq_sum_range, hdeg, Finset.mul_sum]
    refine Finset.sum_congr rfl fun m hm => ?_
    have hms : m ≤ s := Nat.lt_succ_iff.mp (Finset.mem_range.mp hm)
    rw [pow_sub₀ _ hz hms, inv_pow]
    ring
  have hCH : ∑ m ∈ Finset.range (s + 1), M.charpoly.coeff m * g m = 0 := by
    have h1 := Matrix.aeval_self_charpoly M
    rw [Polynomial.aeval_eq_sum_range, hdeg] at h1
    have h2 : β ⬝ᵥ (∑ m ∈ Finset.range (s + 1), M.charpoly.coeff m • M ^ m).mulVec G = 0 := by
      rw [h1]; simp
    rw [Matrix.sum_mulVec, dotProduct_sum] at h2
    rw [← h2]
    refine Finset.sum_congr rfl fun m _ => ?_
    rw [Matrix.smul_mulVec, dotProduct_smul, smul_eq_mul]
  have h0 : β ⬝ᵥ G = g 0 := by simp [hg]
  rw [h0, hden, Finset.mul_sum, ← sub_eq_zero, ← Finset.sum_sub_distrib]
  have : ∑ m ∈ Finset.range (s + 1), z ^ s * (M.charpoly.coeff m * g m) = 0 := by
    rw [← Finset.mul_sum, hCH, mul_zero]
  rw [← this]
  refine Finset.sum_congr rfl fun m hm => ?_
  have hms : m ≤ s := Nat.lt_succ_iff.mp (Finset.mem_range.mp hm)
  have hpow : z ^ s = z ^ (s - m) * z ^ m := by rw [← pow_add, Nat.sub_add_cancel hms]
  rw [hsum m, hpow]
  ring

theorem one_le_den {γ : Fin s → ℝ} (hγ : ∀ i, 0 < γ i) {z : ℂ} (hz : z.re ≤ 0) :
    1 ≤ ‖∏ i, (1 - (γ i : ℂ) * z)‖ := by
  rw [norm_prod]
  calc (1 : ℝ) = ∏ _i : Fin s, 1 := by simp
    _ ≤ _ := Finset.prod_le_prod (fun _ _ => zero_le_one) fun i _ => one_le_norm (hγ i).le hz

theorem pow_le_den {γ : Fin s → ℝ} (hγ : ∀ i, 0 < γ i) {z : ℂ} (hz : z.re ≤ 0) {k : ℕ}
    (hk : k ≤ s) : ‖z‖ ^ k ≤ (1 + (∏ i, γ i)⁻¹) * ‖∏ i, (1 - (γ i : ℂ) * z)‖ := by
  have hP : 0 < ∏ i, γ i := Finset.prod_pos fun i _ => hγ i
  have h1 : 1 ≤ ‖∏ i, (1 - (γ i : ℂ) * z)‖ := by
    exact one_le_den hγ hz
  have h2 : (∏ i, γ i) * ‖z‖ ^ s ≤ ‖∏ i, (1 - (γ i : ℂ) * z)‖ := by
    rw [norm_prod]
    have : ‖z‖ ^ s = ∏ _i : Fin s, ‖z‖ := by simp
    rw [this, ← Finset.prod_mul_distrib]
    exact Finset.prod_le_prod (fun i _ => mul_nonneg (hγ i).le (norm_nonneg _))
      fun i _ => mul_norm_le (hγ i).le hz
  have h3 : ‖z‖ ^ s ≤ (∏ i, γ i)⁻¹ * ‖∏ i, (1 - (γ i : ℂ) * z)‖ := by
    rw [← div_eq_inv_mul, le_div_iff₀ hP]
    linarith
  rw [add_mul, one_mul]
  rcases le_total ‖z‖ 1 with h | h
  · exact (pow_le_one₀ (norm_nonneg _) h).trans (h1.trans (le_add_of_nonneg_right (by positivity)))
  · exact (pow_le_pow_right₀ h hk).trans (h3.trans (le_add_of_nonneg_left (norm_nonneg _)))

theorem coeff_sum {ι : Type*} [DecidableEq ι] (S : Finset ι) (γ : ι → ℂ) (N : ℕ) :
    ∑ m ∈ Finset.range N, ‖(∏ i ∈ S, (Polynomial.X - Polynomial.C (γ i))).coeff m‖
      ≤ ∏ i ∈ S, (1 + ‖γ i‖) := by
  induction S using Finset.induction_on generalizing N with
  | empty =>
    simp only [Finset.prod_empty, Polynomial.coeff_one]
    cases N with
    | zero => simp
    | succ N => rw [Finset.sum_range_succ']; simp
  | insert a S ha ih =>
    rw [Finset.prod_insert ha, Finset.prod_insert ha]
    set P := ∏ i ∈ S, (Polynomial.X - Polynomial.C (γ i))
    set Q := ∏ i ∈ S, (1 + ‖γ i‖)
    have h1 : ∀ m, ‖((Polynomial.X - Polynomial.C (γ a)) * P).coeff m‖
        ≤ ‖(Polynomial.X * P).coeff m‖ + ‖γ a‖ * ‖P.coeff m‖ := fun m => by
      rw [sub_mul, Polynomial.coeff_sub, Polynomial.coeff_C_mul]
      exact (norm_sub_le _ _).trans (by rw [norm_mul])
    have h2 : ∑ m ∈ Finset.range N, ‖(Polynomial.X * P).coeff m‖ ≤ Q := by
      cases N with
      | zero => simpa using Finset.prod_nonneg fun i _ => add_nonneg zero_le_one (norm_nonneg (γ i))
      | succ N =>
        rw [Finset.sum_range_succ']
        simpa [Polynomial.coeff_X_mul] using ih N
    calc _ ≤ ∑ m ∈ Finset.range N, (‖(Polynomial.X * P).coeff m‖ + ‖γ a‖ * ‖P.coeff m‖) :=
          Finset.sum_le_sum fun m _ => h1 m
      _ = ∑ m ∈ Finset.range N, ‖(Polynomial.X * P).coeff m‖
          + ‖γ a‖ * ∑ m ∈ Finset.range N, ‖P.coeff m‖ := by
          rw [Finset.sum_add_distrib, Finset.mul_sum]
      _ ≤ Q + ‖γ a‖ * Q := add_le_add h2 (mul_le_mul_of_nonneg_left (ih N) (norm_nonneg _))
      _ = _ := by ring

/-- The factor between the numbers `b A^j τ` and the effect of the residuals. -/
noncomputable def weakFactor (A : Fin s → Fin s → ℝ) : ℝ :=
  s * ((∏ i, (1 + A i i)) * (1 + (∏ i, A i i)⁻¹))

theorem WeakStageOrder.filters (hA : ∀ i j, i < j → A i j = 0) (hS : ∀ i, 0 < A i i) {ε : ℝ} {q : ℕ}
    (hε : 0 ≤ ε) (ho : WeakStageOrder ε q A b c) : Filters (weakFactor A * ε) q A b c := by
  set M : Matrix (Fin s) (Fin s) ℂ := (Matrix.of A).map Complex.ofRealHom with hMdef
  set P := 1 + (∏ i, A i i)⁻¹ with hP
  have hP0 : 0 ≤ P := by
    have : 0 < ∏ i, A i i := Finset.prod_pos fun i _ => hS i
    positivity
  have hW : ∑ m ∈ Finset.range (s + 1), ‖M.charpoly.coeff m‖ * (m * P) ≤ weakFactor A := by
    have hχ : M.charpoly = ∏ i, (Polynomial.X - Polynomial.C (M i i)) := by
      rw [← Matrix.charpoly_transpose, Matrix.charpoly_of_isUpperTriangular]
      · rfl
      · exact fun i j hij => by simp [hMdef, hA j i hij]
    have h1 := coeff_sum Finset.univ (fun i => M i i) (s + 1)
    rw [← hχ] at h1
    have h2 : ∏ i, (1 + ‖M i i‖) = ∏ i, (1 + A i i) := Finset.prod_congr rfl fun i _ => by
      simp [hMdef, abs_of_pos (hS i)]
    rw [h2] at h1
    calc _ ≤ ∑ m ∈ Finset.range (s + 1), ‖M.charpoly.coeff m‖ * (s * P) := by
          refine Finset.sum_le_sum fun m hm => ?_
          have hms : (m : ℝ) ≤ s := by
            exact_mod_cast Nat.lt_succ_iff.mp (Finset.mem_range.mp hm)
          gcongr
      _ = (∑ m ∈ Finset.range (s + 1), ‖M.charpoly.coeff m‖) * (s * P) := by rw [Finset.sum_mul]
      _ ≤ (∏ i, (1 + A i i)) * (s * P) := mul_le_mul_of_nonneg_right h1 (by positivity)
      _ = _ := by rw [weakFactor]; ring
  intro k hk z G hz hG
  refine le_trans ?_ (mul_le_mul_of_nonneg_right hW hε)
  have hz0 : z = 0 → ‖∑ i, (b i : ℂ) * G i‖ ≤ 0 := fun h => by
    have : ∀ i, G i = 0 := fun i => by rw [hG i, h, zero_mul]
    simp [this]
  by_cases hzz : z = 0
  · exact (hz0 hzz).trans (by positivity)
  have hGv : G = z • ((fun i => (residual A c k i : ℂ)) + M.mulVec G) := by
    funext i
    rw [hG i]
    simp [hMdef, Matrix.mulVec, dotProduct]
  have hch := cayley_hamilton (M := M) (β := fun i => (b i : ℂ))
    (fun i j hij => by simp [hMdef, hA i j hij]) hzz hGv
  have hu : ∀ i < s, ‖(fun i => (b i : ℂ)) ⬝ᵥ (M ^ i).mulVec fun i => (residual A c k i : ℂ)‖ ≤ ε :=
    fun i hi => by
    have h1 := ho k hk i hi
    have h2 : (fun i => (b i : ℂ)) ⬝ᵥ (M ^ i).mulVec (fun i => (residual A c k i : ℂ))
        = ((b ⬝ᵥ ((Matrix.of A ^ i).mulVec (residual A c k)) : ℝ) : ℂ) := by
      have : M ^ i = (Matrix.of A ^ i).map Complex.ofRealHom := by
        rw [hMdef, ← Matrix.map_pow]
      rw [this]
      simp [Matrix.mulVec, dotProduct]
    rw [h2, Complex.norm_real]
    exact h1
  set Q := ‖∏ i, (1 - (A i i : ℂ) * z)‖ with hQ
  have hQ1 : 1 ≤ Q := one_le_den hS hz
  have hdot : (fun i => (b i : ℂ)) ⬝ᵥ G = ∑ i, (b i : ℂ) * G i := rfl
  have hprod : ∏ i, (1 - M i i * z) = ∏ i, (1 - (A i i : ℂ) * z) := rfl
  rw [hdot, hprod] at hch
  have hn := congrArg norm hch
  rw [norm_mul] at hn
  refine le_of_mul_le_mul_right ?_ (lt_of_lt_of_le one_pos hQ1)
  refine hn.le.trans ?_
  rw [Finset.sum_mul, Finset.sum_mul]
  refine (norm_sum_le _ _).trans (Finset.sum_le_sum fun m hm => ?_)
  have hms : m ≤ s := Nat.lt_succ_iff.mp (Finset.mem_range.mp hm)
  rw [mul_assoc, norm_mul, Finset.mul_sum]
  have hin : ‖∑ i ∈ Finset.range m, z ^ (s - m) * (z ^ (i + 1)
      * ((fun i => (b i : ℂ)) ⬝ᵥ (M ^ i).mulVec fun i => (residual A c k i : ℂ)))‖
      ≤ m * (P * Q * ε) := by
    refine (norm_sum_le _ _).trans ?_
    calc _ ≤ ∑ i ∈ Finset.range m, P * Q * ε := by
          refine Finset.sum_le_sum fun i hi => ?_
          have him := Finset.mem_range.mp hi
          rw [← mul_assoc, ← pow_add, norm_mul, norm_pow]
          exact mul_le_mul (pow_le_den hS hz (by omega)) (hu i (by omega)) (norm_nonneg _)
            (mul_nonneg hP0 (norm_nonneg _))
      _ = _ := by rw [Finset.sum_const, Finset.card_range, nsmul_eq_mul]
  calc _ ≤ ‖M.charpoly.coeff m‖ * (m * (P * Q * ε)) := mul_le_mul_of_nonneg_left hin (norm_nonneg _)
    _ = _ := by ring

end Verif.Stab
