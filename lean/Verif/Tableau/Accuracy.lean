/-
Consequences of the order conditions for Runge-Kutta steps: exact integration of polynomials and
agreement with the exponential series on linear problems.
-/
import Verif.Tableau.Order
import Verif.RK.Spec
import Mathlib.Algebra.Polynomial.Derivative
import Mathlib.Algebra.Polynomial.Taylor
import Mathlib.Algebra.Module.LinearMap.End
import Mathlib.Data.Nat.Factorial.Basic
import Mathlib.Tactic.FieldSimp
import Mathlib.Tactic.Ring
import Mathlib.Tactic.LinearCombination
import Mathlib.Tactic.Module

namespace Verif.Tableau

open RK.Spec

/-- The tree with one vertex. -/
def leaf : RTree := .node []

/-- A root with `k` leaves. -/
def bushy (k : ℕ) : RTree := .node (List.replicate k leaf)

/-- A path with `k + 1` vertices. -/
def tall : ℕ → RTree
  | 0 => leaf
  | k + 1 => .node [tall k]

theorem orderL_replicate_leaf (k : ℕ) : orderL (List.replicate k leaf) = k := by
  induction k with
  | zero => rfl
  | succ k ih =>
    rw [List.replicate_succ, orderL, ih]
    simp [leaf, RTree.order, orderL, add_comm]

theorem densityL_replicate_leaf (k : ℕ) : densityL (List.replicate k leaf) = 1 := by
  induction k with
  | zero => rfl
  | succ k ih =>
    rw [List.replicate_succ, densityL, ih]
    simp [leaf, RTree.density, orderL, densityL]

theorem bushy_order (k : ℕ) : (bushy k).order = k + 1 := by
  rw [bushy, RTree.order, orderL_replicate_leaf, add_comm]

theorem bushy_density (k : ℕ) : (bushy k).density = k + 1 := by
  rw [bushy, RTree.density, orderL_replicate_leaf, densityL_replicate_leaf, mul_one, add_comm]

theorem tall_order (k : ℕ) : (tall k).order = k + 1 := by
  induction k with
  | zero => rfl
  | succ k ih => simp [tall, RTree.order, orderL, ih]; omega

theorem tall_density (k : ℕ) : (tall k).density = (k + 1).factorial := by
  induction k with
  | zero => rfl
  | succ k ih =>
    simp only [tall, RTree.density, orderL, densityL, ih, tall_order, Nat.factorial_succ]
    ring

section
variable {K : Type} [Field K] {s : ℕ}

theorem bushy_weight (A : Fin s → Fin s → K) (k : ℕ) (i : Fin s) :
    (bushy k).weight A i = (∑ j, A i j) ^ k := by
  rw [bushy, RTree.weight]
  induction k with
  | zero => simp [weightL]
  | succ k ih =>
    rw [List.replicate_succ]
    simp only [weightL]
    rw [ih, pow_succ']
    simp [leaf, RTree.weight, weightL]

theorem tall_weight_succ (A : Fin s → Fin s → K) (k : ℕ) (i : Fin s) :
    (tall (k + 1)).weight A i = ∑ j, A i j * (tall k).weight A j := by
  simp [tall, RTree.weight, weightL]

/-- The quadrature conditions follow from the order conditions and consistent nodes. -/
theorem quadrature_of_order (A : Fin s → Fin s → K) (b c : Fin s → K) (p : ℕ)
    (hc : ∀ i, ∑ j, A i j = c i) (ho : OrderConditions A b p) (k : ℕ) (hk : k < p) :
    ∑ i, b i * c i ^ k = 1 / ((k : K) + 1) := by
  have h := ho (bushy k) (by rw [bushy_order]; omega)
  rw [bushy_density] at h
  push_cast at h
  rw [← h]
  exact Finset.sum_congr rfl fun i _ => by rw [bushy_weight, hc]

theorem tall_of_order [CharZero K] (A : Fin s → Fin s → K) (b : Fin s → K) (p : ℕ)
    (ho : OrderConditions A b p) (k : ℕ) (hk : k < p) :
    ∑ i, b i * (tall k).weight A i = 1 / ((k + 1).factorial : K) := by
  have h := ho (tall k) (by rw [tall_order]; omega)
  rwa [tall_density] at h

open Polynomial in
/-- A quadrature rule that is exact for the monomials below degree `p` is exact for polynomials. -/
theorem quadrature_exact [CharZero K] (b c : Fin s → K) (p : ℕ)
    (hq : ∀ k < p, ∑ i, b i * c i ^ k = 1 / ((k : K) + 1)) (P : K[X]) (hP : P.natDegree ≤ p)
    (t h : K) :
    h * ∑ i, b i * (derivative P).eval (t + c i * h) = P.eval (t + h) - P.eval t := by
  set Q := taylor t P with hQ
  have hdeg : Q.natDegree < p + 1 := by rw [hQ, natDegree_taylor]; omega
  have hev : ∀ x, P.eval (t + x) = Q.eval x := fun x => by
    rw [hQ, taylor_eval, add_comm]
  have hdev : ∀ x, (derivative P).eval (t + x) = (derivative Q).eval x := fun x => by
    rw [hQ, taylor_apply, derivative_comp]
    simp [add_comm]
  have hd : ∀ x, (derivative Q).eval x
      = ∑ k ∈ Finset.range p, Q.coeff (k + 1) * ((k : K) + 1) * x ^ k := by
    intro x
    by_cases h0 : p = 0
    · subst h0
      have : Q.natDegree = 0 := by omega
      rw [derivative_of_natDegree_zero this]
      simp
    · rw [eval_eq_sum_range' (n := p) (lt_of_le_of_lt (natDegree_derivative_le Q) (by omega))]
      exact Finset.sum_congr rfl fun k _ => by rw [coeff_derivative]
  have h0 : P.eval t = Q.eval 0 := by rw [← hev, add_zero]
  rw [h0, hev, eval_eq_sum_range' hdeg, eval_eq_sum_range' hdeg, Finset.sum_range_succ',
    Finset.sum_range_succ']
  simp only [hdev, hd, pow_zero, mul_one, ne_eq, Nat.add_eq_zero_iff, one_ne_zero, and_false,
    not_false_eq_true, zero_pow, mul_zero, Finset.sum_const_zero, zero_add, add_sub_cancel_right]
  simp only [Finset.mul_sum]
  rw [Finset.sum_comm]
  refine Finset.sum_congr rfl fun k hk => ?_
  have hk' := hq k (Finset.mem_range.mp hk)
  have hne : (k : K) + 1 ≠ 0 := by exact_mod_cast Nat.succ_ne_zero k
  have e : ∀ i, h * (b i * (Q.coeff (k + 1) * ((k : K) + 1) * (c i * h) ^ k))
      = (b i * c i ^ k) * (Q.coeff (k + 1) * ((k : K) + 1) * h ^ (k + 1)) := fun i => by
    rw [mul_pow]; ring
  rw [Finset.sum_congr rfl fun i _ => e i, ← Finset.sum_mul, hk']
  field_simp

/-- One application of the coefficient matrix to a family of vectors. -/
def applyA {V : Type} [AddCommMonoid V] [Module K V] (A : Fin s → Fin s → K) (Y : Fin s → V) :
    Fin s → V :=
  fun i => ∑ j, A i j • Y j

variable {V : Type} [AddCommGroup V] [Module K V]

theorem applyA_iterate_stage (A : Fin s → Fin s → K) (L : V →ₗ[K] V) (h : K) (y : V)
    (Y : Fin s → V) (hY : ∀ i, Y i = y + h • ∑ j, A i j • L (Y j)) (k : ℕ) (i : Fin s) :
    ((applyA A)^[k] Y) i
      = (tall k).weight A i • y + h • L (((applyA A)^[k + 1] Y) i) := by
  induction k generalizing i with
  | zero =>
    simp only [Function.iterate_zero, id_eq, Function.iterate_succ, Function.comp_apply]
    conv_lhs => rw [hY i]
    simp [tall, leaf, RTree.weight, weightL, applyA, map_sum]
  | succ k ih =>
    rw [Function.iterate_succ_apply', applyA]
    simp only [ih]
    simp only [smul_add, Finset.sum_add_distrib]
    congr 1
    · simp only [smul_smul, ← Finset.sum_smul, tall_weight_succ]
    · conv_rhs => rw [Function.iterate_succ_apply', applyA]
      rw [map_sum, Finset.smul_sum]
      exact Finset.sum_congr rfl fun j _ => by rw [map_smul, smul_comm]

/-- Expansion of the stage values of a linear problem. -/
theorem stage_expansion (A : Fin s → Fin s → K) (L : V →ₗ[K] V) (h : K) (y : V)
    (Y : Fin s → V) (hY : ∀ i, Y i = y + h • ∑ j, A i j • L (Y j)) (p : ℕ) (i : Fin s) :
    Y i = (∑ k ∈ Finset.range p, (h ^ k * (tall k).weight A i) • (L ^ k) y)
      + h ^ p • (L ^ p) (((applyA A)^[p] Y) i) := by
  induction p with
  | zero => simp
  | succ p ih =>
    rw [ih, Finset.sum_range_succ, applyA_iterate_stage A L h y Y hY p i, map_add, smul_add,
      map_smul, map_smul, add_assoc]
    congr 1
    rw [pow_succ L p, Module.End.mul_apply, smul_smul, smul_smul, pow_succ h]

end

end Verif.Tableau
