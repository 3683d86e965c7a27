/-
Error of a trajectory along an eigenvector, independent of the stiffness.
-/
import Verif.Stab.Stiff
import Mathlib.Analysis.Calculus.Deriv.Pow
import Mathlib.Analysis.Calculus.Deriv.Comp
import Mathlib.Analysis.Calculus.Deriv.Add
import Mathlib.Analysis.Calculus.Deriv.Mul
import Mathlib.Analysis.Calculus.Deriv.Prod
import Mathlib.Analysis.Complex.RealDeriv

namespace Verif.Stab

open Verif.RK Verif.RK.Spec

variable {s n m : ℕ} {A : Fin s → Fin s → ℝ} {b c : Fin s → ℝ} {f : Rhs ℝ n m} {p : Fin m → ℝ}

/-- `η 0` has the derivatives `η 1, …, η (q+1)` on the interval, and these are bounded by `M`. -/
structure BoundedDerivs (η : ℕ → ℝ → ℂ) (q : ℕ) (M t0 t1 : ℝ) : Prop where
  deriv : ∀ k ≤ q, ∀ t ∈ Set.Icc t0 t1, HasDerivWithinAt (η k) (η (k + 1) t) (Set.Icc t0 t1) t
  bound : ∀ k, 1 ≤ k → k ≤ q + 1 → ∀ t ∈ Set.Icc t0 t1, ‖η k t‖ ≤ M

/-- Taylor polynomial of degree less than `q`. -/
noncomputable def taylor (η : ℕ → ℝ → ℂ) (k q : ℕ) (t x : ℝ) : ℂ :=
  ∑ j ∈ Finset.range q, (x ^ j / (j.factorial : ℝ)) • η (k + j) t

theorem hasDerivAt_taylor (η : ℕ → ℝ → ℂ) (k q : ℕ) (t x : ℝ) :
    HasDerivAt (taylor η k (q + 1) t) (taylor η (k + 1) q t x) x := by
  have h1 : taylor η k (q + 1) t = fun x =>
      (∑ j ∈ Finset.range q, (x ^ (j + 1) / ((j + 1).factorial : ℝ)) • η (k + (j + 1)) t) + η k t := by
    funext x
    simp [taylor, Finset.sum_range_succ']
  rw [h1]
  refine HasDerivAt.add_const _ ?_
  unfold taylor
  refine HasDerivAt.fun_sum fun j _ => ?_
  have h2 : HasDerivAt (fun x : ℝ => x ^ (j + 1) / ((j + 1).factorial : ℝ))
      (x ^ j / (j.factorial : ℝ)) x := by
    have := (hasDerivAt_pow (j + 1) x).div_const ((j + 1).factorial : ℝ)
    refine this.congr_deriv ?_
    rw [Nat.factorial_succ]
    have h3 : (j.factorial : ℝ) ≠ 0 := by positivity
    push_cast
    have h4 : (j : ℝ) + 1 ≠ 0 := by positivity
    field_simp
  have := h2.smul_const (η (k + (j + 1)) t)
  rwa [show k + (j + 1) = k + 1 + j by omega] at this ⊢

/-- Remainder of the Taylor polynomial. -/
theorem taylor_remainder {η : ℕ → ℝ → ℂ} {M t0 t1 : ℝ} (q : ℕ) (k : ℕ)
    (hd : ∀ j < q, ∀ t ∈ Set.Icc t0 t1,
      HasDerivWithinAt (η (k + j)) (η (k + j + 1) t) (Set.Icc t0 t1) t)
    (hM : ∀ t ∈ Set.Icc t0 t1, ‖η (k + q) t‖ ≤ M) {t x : ℝ} (ht : t0 ≤ t) (hx : 0 ≤ x)
    (htx : t + x ≤ t1) : ‖η k (t + x) - taylor η k q t x‖ ≤ M * x ^ q := by
  induction q generalizing k x with
  | zero => simpa [taylor] using hM (t + x) ⟨by linarith, htx⟩
  | succ q ih =>
    have hmem : ∀ u ∈ Set.Icc 0 x, t + u ∈ Set.Icc t0 t1 := fun u hu =>
      ⟨by linarith [hu.1], by linarith [hu.2]⟩
    have hder : ∀ u ∈ Set.Icc 0 x, HasDerivWithinAt
        (fun u => η k (t + u) - taylor η k (q + 1) t u)
        (η (k + 1) (t + u) - taylor η (k + 1) q t u) (Set.Icc 0 x) u := fun u hu => by
      refine HasDerivWithinAt.sub ?_ (hasDerivAt_taylor η k q t u).hasDerivWithinAt
      have h1 := hd 0 (Nat.succ_pos _) (t + u) (hmem u hu)
      have h2 : HasDerivWithinAt (fun u : ℝ => t + u) 1 (Set.Icc 0 x) u :=
        ((hasDerivAt_id u).const_add t).hasDerivWithinAt
      have h3 := HasDerivWithinAt.scomp u h1 h2 hmem
      rw [one_smul] at h3
      exact h3
    have hbd : ∀ u ∈ Set.Icc 0 x, ‖η (k + 1) (t + u) - taylor η (k + 1) q t u‖ ≤ M * x ^ q := by
      intro u hu
      have h0 : 0 ≤ M := (norm_nonneg _).trans (hM (t + u) (hmem u hu))
      refine (ih (k + 1) (fun j hj => ?_) (fun t ht => ?_) hu.1 (by linarith [hu.2])).trans ?_
      · have := hd (j + 1) (by omega)
        rwa [show k + (j + 1) = k + 1 + j by omega] at this
      · have := hM t ht
        rwa [show k + (q + 1) = k + 1 + q by omega] at this
      · exact mul_le_mul_of_nonneg_left (pow_le_pow_left₀ hu.1 hu.2 q) h0
    have key := (convex_Icc (0 : ℝ) x).norm_image_sub_le_of_norm_hasDerivWithin_le hder hbd
      (Set.left_mem_Icc.mpr hx) (Set.right_mem_Icc.mpr hx)
    have hz : η k (t + 0) - taylor η k (q + 1) t 0 = 0 := by
      simp [taylor, Finset.sum_range_succ']
    rw [hz, sub_zero, sub_zero, Real.norm_of_nonneg hx] at key
    exact key.trans (by rw [pow_succ, mul_assoc])

/-- Residual of a row of the tableau for a smooth function: `θ` is the end point, in units of the
step size. -/
theorem row_defect {η : ℕ → ℝ → ℂ} {q : ℕ} {M t0 t1 : ℝ} (hη : BoundedDerivs η q M t0 t1)
    (a : Fin s → ℝ) {θ h t : ℝ} (hθ : 0 ≤ θ) (hc : ∀ j, 0 ≤ c j) (hh : 0 ≤ h) (ht : t0 ≤ t)
    (h1 : t + θ * h ≤ t1) (h2 : ∀ j, t + c j * h ≤ t1) :
    ‖(h : ℂ) * (∑ j, (a j : ℂ) * η 1 (t + c j * h)) - (η 0 (t + θ * h) - η 0 t)
      - ∑ k ∈ Finset.range q, ((h ^ (k + 1) / (k.factorial : ℝ) : ℝ) : ℂ) * η (k + 1) t
        * (((∑ j, a j * c j ^ k) - θ ^ (k + 1) / (k + 1 : ℕ) : ℝ) : ℂ)‖
      ≤ M * h ^ (q + 1) * ((∑ j, |a j| * c j ^ q) + θ ^ (q + 1)) := by
  have r0 : ‖η 0 (t + θ * h) - taylor η 0 (q + 1) t (θ * h)‖ ≤ M * (θ * h) ^ (q + 1) :=
    taylor_remainder (q + 1) 0 (fun j hj => by
      simpa using hη.deriv j (Nat.lt_succ_iff.mp hj)) (fun t ht => by
      simpa using hη.bound (q + 1) (by omega) le_rfl t ht) ht (mul_nonneg hθ hh) h1
  have r1 : ∀ j, ‖η 1 (t + c j * h) - taylor η 1 q t (c j * h)‖ ≤ M * (c j * h) ^ q := fun j =>
    taylor_remainder q 1 (fun i hi => hη.deriv (1 + i) (by omega)) (fun t ht =>
      hη.bound (1 + q) (by omega) (by omega) t ht) ht (mul_nonneg (hc j) hh) (h2 j)
  set R0 := η 0 (t + θ * h) - taylor η 0 (q + 1) t (θ * h) with hR0
  set R1 := fun j => η 1 (t + c j * h) - taylor η 1 q t (c j * h) with hR1
  have e0 : η 0 (t + θ * h) - η 0 t = R0 + ∑ k ∈ Finset.range q,
      ((h ^ (k + 1) / (k.factorial : ℝ) : ℝ) : ℂ) * η (k + 1) t
        * ((θ ^ (k + 1) / (k + 1 : ℕ) : ℝ) : ℂ) := by
    rw [hR0, taylor, Finset.sum_range_succ']
    have : ∀ k ∈ Finset.range q, ((θ * h) ^ (k + 1) / ((k + 1).factorial : ℝ)) • η (0 + (k + 1)) t
        = ((h ^ (k + 1) / (k.factorial : ℝ) : ℝ) : ℂ) * η (k + 1) t
          * ((θ ^ (k + 1) / (k + 1 : ℕ) : ℝ) : ℂ) := fun k _ => by
      rw [Complex.real_smul, Nat.factorial_succ, zero_add]
      have h3 : (k.factorial : ℂ) ≠ 0 := by exact_mod_cast Nat.factorial_ne_zero k
      have h4 : (k : ℂ) + 1 ≠ 0 := by exact_mod_cast Nat.succ_ne_zero k
      push_cast
      rw [mul_pow]
      field_simp
    rw [Finset.sum_congr rfl this]
    simp
    ring
  have e1 : ∀ j, η 1 (t + c j * h) = R1 j + ∑ k ∈ Finset.range q,
      ((h ^ k / (k.factorial : ℝ) : ℝ) : ℂ) * η (k + 1) t * ((c j ^ k : ℝ) : ℂ) := fun j => by
    rw [hR1]
    dsimp only
    rw [taylor]
    have : ∀ k ∈ Finset.range q, ((c j * h) ^ k / (k.factorial : ℝ)) • η (1 + k) t
        = ((h ^ k / (k.factorial : ℝ) : ℝ) : ℂ) * η (k + 1) t * ((c j ^ k : ℝ) : ℂ) := fun k _ => by
      rw [Complex.real_smul, Nat.add_comm 1 k]
      push_cast
      rw [mul_pow]
      ring
    rw [Finset.sum_congr rfl this]
    ring
  have e2 : (h : ℂ) * (∑ j, (a j : ℂ) * η 1 (t + c j * h)) - (η 0 (t + θ * h) - η 0 t)
      - ∑ k ∈ Finset.range q, ((h ^ (k + 1) / (k.factorial : ℝ) : ℝ) : ℂ) * η (k + 1) t
        * (((∑ j, a j * c j ^ k) - θ ^ (k + 1) / (k + 1 : ℕ) : ℝ) : ℂ)
      = (h : ℂ) * (∑ j, (a j : ℂ) * R1 j) - R0 := by
    have h5 : ∑ j, (a j : ℂ) * η 1 (t + c j * h) = ∑ j, (a j : ℂ) * R1 j
        + ∑ k ∈ Finset.range q, ((h ^ k / (k.factorial : ℝ) : ℝ) : ℂ) * η (k + 1) t
          * ((∑ j, a j * c j ^ k : ℝ) : ℂ) := by
      rw [Finset.sum_congr rfl fun j _ => by rw [e1 j, mul_add], Finset.sum_add_distrib]
      congr 1
      simp only [Finset.mul_sum]
      rw [Finset.sum_comm]
      refine Finset.sum_congr rfl fun k _ => ?_
      push_cast
      rw [Finset.mul_sum]
      exact Finset.sum_congr rfl fun j _ => by ring
    rw [h5, e0, mul_add]
    have h6 : ∀ k ∈ Finset.range q, ((h ^ (k + 1) / (k.factorial : ℝ) : ℝ) : ℂ) * η (k + 1) t
        * (((∑ j, a j * c j ^ k) - θ ^ (k + 1) / (k + 1 : ℕ) : ℝ) : ℂ)
        = (h : ℂ) * (((h ^ k / (k.factorial : ℝ) : ℝ) : ℂ) * η (k + 1) t
          * ((∑ j, a j * c j ^ k : ℝ) : ℂ)) - ((h ^ (k + 1) / (k.factorial : ℝ) : ℝ) : ℂ)
            * η (k + 1) t * ((θ ^ (k + 1) / (k + 1 : ℕ) : ℝ) : ℂ) := fun k _ => by
      push_cast
      ring
    rw [Finset.sum_congr rfl h6, Finset.sum_sub_distrib, ← Finset.mul_sum]
    ring
  rw [e2]
  calc ‖(h : ℂ) * (∑ j, (a j : ℂ) * R1 j) - R0‖
      ≤ h * ∑ j, |a j| * (M * (c j * h) ^ q) + M * (θ * h) ^ (q + 1) := by
        refine (norm_sub_le _ _).trans (add_le_add ?_ r0)
        rw [norm_mul, Complex.norm_real, Real.norm_of_nonneg hh]
        refine mul_le_mul_of_nonneg_left ((norm_sum_le _ _).trans
          (Finset.sum_le_sum fun j _ => ?_)) hh
        rw [norm_mul, Complex.norm_real, Real.norm_eq_abs]
        exact mul_le_mul_of_nonneg_left (r1 j) (abs_nonneg _)
    _ = _ := by
        rw [mul_add, Finset.mul_sum, Finset.mul_sum, mul_pow]
        congr 1
        · exact Finset.sum_congr rfl fun j _ => by rw [mul_pow]; ring
        · ring

/-- What is needed of a tableau: `q` is the order of the error bound, `C` its constant, and `δ` the
effect of rounded coefficients; `1 + ρ` is the growth of perturbations in one step. -/
structure StiffOrder (ρ C δ : ℝ) (q : ℕ) (A : Fin s → Fin s → ℝ) (b c : Fin s → ℝ) : Prop where
  lower : ∀ i j, i < j → A i j = 0
  stages : StagesOk A c
  stable : StableBy (1 + ρ) A b
  nodes : ∀ i, 0 ≤ c i ∧ c i ≤ 3
  weights : ∃ δ₁ δ₂, δ₁ + δ₂ ≤ δ ∧ Quadrature δ₁ q b c ∧ Filters δ₂ q A b c
  const : ∃ (g : Fin s → ℝ) (K : ℝ), Majorant g A ∧ 0 ≤ K ∧
    (∀ i, (∑ j, |A i j| * c j ^ q) + c i ^ (q + 1) ≤ K) ∧
    (∑ i, |b i| * g i) * K + ((∑ j, |b j| * c j ^ q) + 1) ≤ C

variable {ρ C δ : ℝ} {q : ℕ}

theorem SolvesSource.sub {z : ℂ} {d d' k k' : Fin s → ℂ} (h : SolvesSource A z d k)
    (h' : SolvesSource A z d' k') : SolvesSource A z (d - d') (k - k') := fun i => by
  rw [Pi.sub_apply, h i, h' i]
  simp only [Pi.sub_apply, mul_sub, Finset.sum_sub_distrib]
  ring

theorem SolvesSource.smul {z : ℂ} {d k : Fin s → ℂ} (a : ℂ) (h : SolvesSource A z d k) :
    SolvesSource A z (a • d) (a • k) := fun i => by
  have := h i
  simp only [Pi.smul_apply, smul_eq_mul]
  rw [Finset.sum_congr rfl fun j _ => show (A i j : ℂ) * (a * k j) = a * ((A i j : ℂ) * k j) by ring,
    ← Finset.mul_sum]
  linear_combination a * this

theorem SolvesSource.sum {ι : Type*} {z : ℂ} (S : Finset ι) {d k : ι → Fin s → ℂ}
    (h : ∀ x ∈ S, SolvesSource A z (d x) (k x)) :
    SolvesSource A z (∑ x ∈ S, d x) (∑ x ∈ S, k x) := fun i => by
  simp only [Finset.sum_apply]
  rw [Finset.sum_congr rfl fun x hx => h x hx i, ← Finset.mul_sum, Finset.sum_add_distrib]
  congr 2
  simp only [Finset.mul_sum]
  rw [Finset.sum_comm]

/-- Step of the error `e` along an eigenvector: `κ` are the errors of the stages. -/
theorem StiffOrder.local_error (hO : StiffOrder ρ C δ q A b c) {η : ℕ → ℝ → ℂ} {M t0 t1 : ℝ}
    (hη : BoundedDerivs η q M t0 t1) {h t : ℝ} (hh : 0 ≤ h) (ht : t0 ≤ t) (ht1 : t + h ≤ t1)
    (hc : ∀ j, t + c j * h ≤ t1) {z e : ℂ} (hz : z.re ≤ 0) {κ : Fin s → ℂ}
    (hκ : SolvesSource A z (fun i => e + ((h : ℂ) * (∑ j, (A i j : ℂ) * η 1 (t + c j * h))
      - (η 0 (t + c i * h) - η 0 t))) κ) :
    ‖e + ∑ i, (b i : ℂ) * κ i + ((h : ℂ) * (∑ j, (b j : ℂ) * η 1 (t + c j * h))
      - (η 0 (t + h) - η 0 t))‖
      ≤ (1 + ρ) * ‖e‖ + M * h * (C * h ^ q + δ * ∑ k ∈ Finset.range q, h ^ k) := by
  obtain ⟨δ₁, δ₂, hδ, hB, hF⟩ := hO.weights
  obtain ⟨g, K, hg, hKn, hK, hC⟩ := hO.const
  have hc0 : ∀ j, 0 ≤ c j := fun j => (hO.nodes j).1
  have hM : 0 ≤ M := (norm_nonneg _).trans
    (hη.bound 1 le_rfl (by omega) t ⟨ht, by linarith⟩)
  set D : Fin s → ℂ := fun i => (h : ℂ) * (∑ j, (A i j : ℂ) * η 1 (t + c j * h))
      - (η 0 (t + c i * h) - η 0 t) with hD
  set α : ℕ → ℂ := fun k => ((h ^ (k + 1) / (k.factorial : ℝ) : ℝ) : ℂ) * η (k + 1) t with hα
  have hαn : ∀ k < q, ‖α k‖ ≤ M * h * h ^ k := fun k hk => by
    rw [hα]
    dsimp only
    rw [norm_mul, Complex.norm_real, Real.norm_of_nonneg (by positivity)]
    have h1 := hη.bound (k + 1) (by omega) (by omega) t ⟨ht, by linarith⟩
    have h2 : h ^ (k + 1) / (k.factorial : ℝ) ≤ h ^ (k + 1) :=
      div_le_self (pow_nonneg hh _) (by exact_mod_cast Nat.factorial_pos k)
    calc _ ≤ h ^ (k + 1) * M := mul_le_mul h2 h1 (norm_nonneg _) (pow_nonneg hh _)
      _ = _ := by ring
  set r : Fin s → ℂ := fun i => D i - ∑ k ∈ Finset.range q, α k * (residual A c k i : ℂ) with hr
  have hrn : ∀ i, ‖r i‖ ≤ M * h ^ (q + 1) * K := fun i => by
    have := row_defect hη (A i) (hc0 i) hc0 hh ht (hc i) hc
    refine this.trans (mul_le_mul_of_nonneg_left (hK i) (by positivity))
  have hr0 : ∀ i, A i i = 0 → r i = 0 := fun i hi => by
    have hzero : (∀ j, A i j = 0) ∧ c i = 0 :=
      (hO.stages i).resolve_left (by rw [hi]; exact lt_irrefl _)
    have hD0 : D i = 0 := by simp [hD, hzero.1, hzero.2]
    rw [hr]
    dsimp only
    rw [hD0]
    simp [residual_zero hO.stages _ i hi]
  have hK0 : 0 ≤ M * h ^ (q + 1) * K := by positivity
  obtain ⟨G, hG1, hG2⟩ := source_solution hO.lower hO.stages hg hz hK0 hrn hr0
  have hres : ∀ k, ∃ H : Fin s → ℂ, SolvesSource A z (fun i => (residual A c k i : ℂ)) H :=
    fun k => by
    obtain ⟨H, hH, -⟩ := source_solution hO.lower hO.stages hg
      (d := fun i => (residual A c k i : ℂ)) (δ := ∑ i, |residual A c k i|) hz
      (Finset.sum_nonneg fun i _ => abs_nonneg _)
      (fun i => by
        rw [Complex.norm_real]
        exact Finset.single_le_sum (f := fun i => |residual A c k i|)
          (fun i _ => abs_nonneg _) (Finset.mem_univ i))
      (fun i hi => by rw [residual_zero hO.stages k i hi]; rfl)
    exact ⟨H, hH⟩
  choose H hH using hres
  set κe : Fin s → ℂ := κ - G - ∑ k ∈ Finset.range q, α k • H k with hκe
  have hκe1 : SolvesSource A z (fun _ => e) κe := by
    have h1 := (hκ.sub hG1).sub (SolvesSource.sum (Finset.range q)
      (d := fun k => α k • fun i => (residual A c k i : ℂ)) (k := fun k => α k • H k)
      fun k _ => (hH k).smul (α k))
    have h2 : (fun i => e + D i) - r
        - ∑ k ∈ Finset.range q, (α k • fun i => (residual A c k i : ℂ)) = fun _ => e := by
      funext i
      simp only [hr, Pi.sub_apply, Finset.sum_apply, Pi.smul_apply, smul_eq_mul]
      ring
    rw [h2] at h1
    exact h1
  have hsplit : ∑ i, (b i : ℂ) * κ i = ∑ i, (b i : ℂ) * κe i + ∑ i, (b i : ℂ) * G i
      + ∑ k ∈ Finset.range q, α k * ∑ i, (b i : ℂ) * H k i := by
    have h1 : ∀ i, κ i = κe i + G i + ∑ k ∈ Finset.range q, α k * H k i := fun i => by
      simp only [hκe, Pi.sub_apply, Finset.sum_apply, Pi.smul_apply, smul_eq_mul]
      ring
    rw [Finset.sum_congr rfl fun i _ => by rw [h1 i, mul_add, mul_add], Finset.sum_add_distrib,
      Finset.sum_add_distrib]
    congr 1
    simp only [Finset.mul_sum]
    rw [Finset.sum_comm]
    exact Finset.sum_congr rfl fun k _ => Finset.sum_congr rfl fun i _ => by ring
  have b1 : ‖e + ∑ i, (b i : ℂ) * κe i‖ ≤ (1 + ρ) * ‖e‖ := hO.stable z e κe hz hκe1
  have b2 := norm_weights_le b hG2
  have b3 : ‖∑ k ∈ Finset.range q, α k * ∑ i, (b i : ℂ) * H k i‖
      ≤ M * h * (δ₂ * ∑ k ∈ Finset.range q, h ^ k) := by
    refine (norm_sum_le _ _).trans ?_
    rw [Finset.mul_sum, Finset.mul_sum]
    refine Finset.sum_le_sum fun k hk => ?_
    have hk' := Finset.mem_range.mp hk
    rw [norm_mul]
    calc _ ≤ M * h * h ^ k * δ₂ := mul_le_mul (hαn k hk') (hF k hk' z _ hz (hH k)) (norm_nonneg _)
          (by positivity)
      _ = _ := by ring
  have b4 := row_defect hη b zero_le_one hc0 hh ht (by rwa [one_mul]) hc
  have b5 : ‖∑ k ∈ Finset.range q, ((h ^ (k + 1) / (k.factorial : ℝ) : ℝ) : ℂ) * η (k + 1) t
        * (((∑ j, b j * c j ^ k) - 1 ^ (k + 1) / (k + 1 : ℕ) : ℝ) : ℂ)‖
      ≤ M * h * (δ₁ * ∑ k ∈ Finset.range q, h ^ k) := by
    refine (norm_sum_le _ _).trans ?_
    rw [Finset.mul_sum, Finset.mul_sum]
    refine Finset.sum_le_sum fun k hk => ?_
    have hk' := Finset.mem_range.mp hk
    rw [norm_mul, Complex.norm_real, one_pow]
    calc _ ≤ M * h * h ^ k * δ₁ := mul_le_mul (hαn k hk') (hB k hk') (abs_nonneg _) (by positivity)
      _ = _ := by ring
  rw [one_mul] at b4
  set W := (h : ℂ) * (∑ j, (b j : ℂ) * η 1 (t + c j * h)) - (η 0 (t + h) - η 0 t) with hW
  set V := ∑ k ∈ Finset.range q, ((h ^ (k + 1) / (k.factorial : ℝ) : ℝ) : ℂ) * η (k + 1) t
        * (((∑ j, b j * c j ^ k) - 1 ^ (k + 1) / (k + 1 : ℕ) : ℝ) : ℂ)
  have b6 : ‖W‖ ≤ M * h ^ (q + 1) * ((∑ j, |b j| * c j ^ q) + 1 ^ (q + 1))
      + M * h * (δ₁ * ∑ k ∈ Finset.range q, h ^ k) := by
    have : W = (W - V) + V := by ring
    rw [this]
    exact (norm_add_le _ _).trans (add_le_add b4 b5)
  have hsum0 : 0 ≤ ∑ k ∈ Finset.range q, h ^ k := Finset.sum_nonneg fun k _ => pow_nonneg hh k
  rw [hsplit]
  have e7 : e + (∑ i, (b i : ℂ) * κe i + ∑ i, (b i : ℂ) * G i
      + ∑ k ∈ Finset.range q, α k * ∑ i, (b i : ℂ) * H k i) + W
      = (e + ∑ i, (b i : ℂ) * κe i) + ∑ i, (b i : ℂ) * G i
        + (∑ k ∈ Finset.range q, α k * ∑ i, (b i : ℂ) * H k i) + W := by ring
  rw [e7]
  refine (norm_add_le _ _).trans ((add_le_add ((norm_add_le _ _).trans (add_le_add
    ((norm_add_le _ _).trans (add_le_add b1 b2)) b3)) b6).trans ?_)
  rw [one_pow]
  have f1 : M * h ^ (q + 1) * ((∑ i, |b i| * g i) * K + ((∑ j, |b j| * c j ^ q) + 1))
      ≤ M * h ^ (q + 1) * C := mul_le_mul_of_nonneg_left hC (by positivity)
  have f2 : M * h * ((δ₁ + δ₂) * ∑ k ∈ Finset.range q, h ^ k)
      ≤ M * h * (δ * ∑ k ∈ Finset.range q, h ^ k) :=
    mul_le_mul_of_nonneg_left (mul_le_mul_of_nonneg_right hδ hsum0) (by positivity)
  have f3 : M * h * (C * h ^ q + δ * ∑ k ∈ Finset.range q, h ^ k)
      = M * h ^ (q + 1) * C + M * h * (δ * ∑ k ∈ Finset.range q, h ^ k) := by ring
  rw [f3]
  linarith [f1, f2]

/-- The component of the solution along the eigenvector, with its derivatives. -/
structure AlongDerivs (w : Fin n → ℂ) (y : ℝ → Fin n → ℝ) (η : ℕ → ℝ → ℂ) (q : ℕ) (M t0 t1 : ℝ) :
    Prop extends BoundedDerivs η q M t0 t1 where
  start : ∀ t ∈ Set.Icc t0 t1, η 0 t = along w (y t)

theorem along_smul_sum (w : Fin n → ℂ) (h : ℝ) (a : Fin s → ℝ) (k : Fin s → Fin n → ℝ) :
    along w (fun x => h * ∑ j, a j * k j x) = (h : ℂ) * ∑ j, (a j : ℂ) * along w (k j) := by
  simp only [along]
  push_cast
  simp only [Finset.mul_sum]
  rw [Finset.sum_comm]
  exact Finset.sum_congr rfl fun j _ => Finset.sum_congr rfl fun x _ => by ring

theorem along_add (w : Fin n → ℂ) (y y' : Fin n → ℝ) :
    along w (fun x => y x + y' x) = along w y + along w y' := by
  simp only [along, Complex.ofReal_add, mul_add, Finset.sum_add_distrib]

/-- The first derivative along the eigenvector is the right hand side. -/
theorem AlongDerivs.rhs {w : Fin n → ℂ} {y : ℝ → Fin n → ℝ} {η : ℕ → ℝ → ℂ} {M t0 t1 : ℝ}
    (hη : AlongDerivs w y η q M t0 t1) (h01 : t0 < t1)
    (hy : ∀ t ∈ Set.Icc t0 t1, HasDerivWithinAt y (f t (y t) p) (Set.Icc t0 t1) t) {t : ℝ}
    (ht : t ∈ Set.Icc t0 t1) : η 1 t = along w (f t (y t) p) := by
  have h1 : HasDerivWithinAt (η 0) (along w (f t (y t) p)) (Set.Icc t0 t1) t := by
    have h2 : HasDerivWithinAt (fun t => along w (y t)) (along w (f t (y t) p))
        (Set.Icc t0 t1) t := by
      unfold along
      refine HasDerivWithinAt.fun_sum fun x _ => ?_
      have h3 := hasDerivWithinAt_pi.mp (hy t ht) x
      exact (h3.ofReal_comp).const_mul (w x)
    exact h2.congr (fun u hu => hη.start u hu) (hη.start t ht)
  exact ((uniqueDiffOn_Icc h01) t ht).eq_deriv _ (hη.deriv 0 (Nat.zero_le _) t ht) h1

variable {L : Matrix (Fin n) (Fin n) ℝ} {g : ℝ → (Fin m → ℝ) → Fin n → ℝ} {w : Fin n → ℂ} {l : ℂ}
  {y : ℝ → Fin n → ℝ} {η : ℕ → ℝ → ℂ} {M t0 t1 : ℝ}

/-- One step. -/
theorem StiffOrder.step (hO : StiffOrder ρ C δ q A b c) (hf : IsAffine f L g)
    (hw : LeftEigen L w l) (hl : l.re ≤ 0) (hη : AlongDerivs w y η q M t0 t1) (h01 : t0 < t1)
    (hy : ∀ t ∈ Set.Icc t0 t1, HasDerivWithinAt y (f t (y t) p) (Set.Icc t0 t1) t)
    {h t : ℝ} (hh : 0 ≤ h) (ht : t0 ≤ t) (ht1 : t + h + 2 * h ≤ t1) {u u₁ : Fin n → ℝ}
    (hst : IsRKStep A b c f h t u p u₁) :
    ‖along w (u₁ - y (t + h))‖ ≤ (1 + ρ) * ‖along w (u - y t)‖
      + M * h * (C * h ^ q + δ * ∑ k ∈ Finset.range q, h ^ k) := by
  obtain ⟨k, hk, e⟩ := hst
  have hcj : ∀ j, t + c j * h ≤ t1 := fun j => by
    have := mul_le_mul_of_nonneg_right (hO.nodes j).2 hh
    linarith
  have hmem : ∀ j, t + c j * h ∈ Set.Icc t0 t1 := fun j =>
    ⟨by have := mul_nonneg (hO.nodes j).1 hh; linarith, hcj j⟩
  have ht' : t ∈ Set.Icc t0 t1 := ⟨ht, by linarith⟩
  have hth : t + h ∈ Set.Icc t0 t1 := ⟨by linarith, by linarith⟩
  set κ : Fin s → ℂ := fun i => (h : ℂ) * (along w (k i) - η 1 (t + c i * h)) with hκ
  have hκ1 : SolvesSource A ((h : ℂ) * l) (fun i => along w (u - y t)
      + ((h : ℂ) * (∑ j, (A i j : ℂ) * η 1 (t + c j * h)) - (η 0 (t + c i * h) - η 0 t))) κ := by
    intro i
    have h1 : along w (k i) - η 1 (t + c i * h)
        = l * (along w (fun x => u x + h * ∑ j, A i j * k j x) - along w (y (t + c i * h))) := by
      have h2 := hη.rhs h01 hy (hmem i)
      rw [h2, hk i, ← along_sub, ← along_sub, ← along_mulVec hw]
      congr 1
      funext x
      rw [Pi.sub_apply, hf, hf, mul_comm (c i) h, add_sub_add_right_eq_sub, ← Finset.sum_sub_distrib]
      exact Finset.sum_congr rfl fun x' _ => by rw [Pi.sub_apply]; ring
    rw [hκ]
    dsimp only
    rw [h1, along_add, along_smul_sum, along_sub, hη.start _ (hmem i), hη.start _ ht']
    have h3 : ∑ j, (A i j : ℂ) * ((h : ℂ) * (along w (k j) - η 1 (t + c j * h)))
        = (h : ℂ) * (∑ j, (A i j : ℂ) * along w (k j))
          - (h : ℂ) * ∑ j, (A i j : ℂ) * η 1 (t + c j * h) := by
      rw [Finset.mul_sum, Finset.mul_sum, ← Finset.sum_sub_distrib]
      exact Finset.sum_congr rfl fun j _ => by ring
    rw [h3]
    ring
  have key := hO.local_error hη.toBoundedDerivs hh ht hth.2 hcj (e := along w (u - y t))
    (z := (h : ℂ) * l)
    (by rw [Complex.re_ofReal_mul]; exact mul_nonpos_of_nonneg_of_nonpos hh hl) hκ1
  have e2 : along w (u₁ - y (t + h)) = along w (u - y t) + ∑ i, (b i : ℂ) * κ i
      + ((h : ℂ) * (∑ j, (b j : ℂ) * η 1 (t + c j * h)) - (η 0 (t + h) - η 0 t)) := by
    have h4 : u₁ = fun x => u x + h * ∑ i, b i * k i x := funext e
    rw [along_sub, h4, along_add, along_smul_sum, along_sub, hη.start _ hth, hη.start _ ht']
    have h3 : ∑ j, (b j : ℂ) * κ j = (h : ℂ) * (∑ j, (b j : ℂ) * along w (k j))
          - (h : ℂ) * ∑ j, (b j : ℂ) * η 1 (t + c j * h) := by
      rw [Finset.mul_sum, Finset.mul_sum, ← Finset.sum_sub_distrib]
      exact Finset.sum_congr rfl fun j _ => by rw [hκ]; ring
    rw [h3]
    ring
  rw [e2]
  exact key

/-- A whole trajectory with steps of size at most `H`. -/
theorem StiffOrder.trajectory (hO : StiffOrder ρ C δ q A b c) (hρ : 0 ≤ ρ) (hC : 0 ≤ C)
    (hδ : 0 ≤ δ) (hf : IsAffine f L g)
    (hw : LeftEigen L w l) (hl : l.re ≤ 0) (hη : AlongDerivs w y η q M t0 t1) (h01 : t0 < t1)
    (hy : ∀ t ∈ Set.Icc t0 t1, HasDerivWithinAt y (f t (y t) p) (Set.Icc t0 t1) t)
    {H t t' : ℝ} {hs : List ℝ} (hh : ∀ h ∈ hs, 0 ≤ h ∧ h ≤ H) (ht : t0 ≤ t)
    (ht1 : t' + 2 * H ≤ t1) {u u' : Fin n → ℝ} (htr : IsTrajectory A b c f p t u hs t' u') :
    ‖along w (u' - y t')‖ ≤ (1 + ρ) ^ hs.length * (‖along w (u - y t)‖
      + M * (t' - t) * (C * H ^ q + δ * ∑ k ∈ Finset.range q, H ^ k)) := by
  induction htr with
  | nil => simp
  | @cons t u h u₁ hs t' u' hst hrest ih =>
    obtain ⟨h0, hH⟩ := hh h (List.mem_cons_self ..)
    have htail : ∀ x ∈ hs, 0 ≤ x ∧ x ≤ H := fun x hx => hh x (List.mem_cons_of_mem _ hx)
    have htime := hrest.time
    have hsum : 0 ≤ hs.sum := List.sum_nonneg fun x hx => (htail x hx).1
    have hM : 0 ≤ M := (norm_nonneg _).trans
      (hη.bound 1 le_rfl (by omega) t0 ⟨le_rfl, h01.le⟩)
    have h1 := hO.step hf hw hl hη h01 hy h0 ht (by linarith) hst
    have h2 := ih htail (by linarith) ht1
    set X := C * H ^ q + δ * ∑ k ∈ Finset.range q, H ^ k with hX
    have h3 : M * h * (C * h ^ q + δ * ∑ k ∈ Finset.range q, h ^ k) ≤ M * h * X := by
      refine mul_le_mul_of_nonneg_left (add_le_add (mul_le_mul_of_nonneg_left
        (pow_le_pow_left₀ h0 hH q) hC) (mul_le_mul_of_nonneg_left (Finset.sum_le_sum fun k _ =>
        pow_le_pow_left₀ h0 hH k) hδ)) (by positivity)
    have hX0 : 0 ≤ X := by
      have : 0 ≤ H := h0.trans hH
      have : 0 ≤ ∑ k ∈ Finset.range q, H ^ k := Finset.sum_nonneg fun k _ => pow_nonneg this k
      positivity
    rw [List.length_cons, pow_succ, mul_assoc]
    refine h2.trans (mul_le_mul_of_nonneg_left ?_ (by positivity))
    have h4 : 0 ≤ M * (t' - t) * X := by
      have : 0 ≤ t' - t := by rw [htime]; linarith
      positivity
    have h5 : M * (t' - (t + h)) * X + M * h * X = M * (t' - t) * X := by ring
    have h6 : 0 ≤ ρ * (M * (t' - t) * X) := mul_nonneg hρ h4
    linarith

end Verif.Stab
