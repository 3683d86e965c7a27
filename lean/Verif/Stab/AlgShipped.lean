/-
The shipped schemes that are algebraically stable.
-/
import Verif.Stab.Algebraic
import Verif.Tableau.Shipped

namespace Verif.Stab

open Verif.RK Verif.RK.Spec Verif.Tableau

theorem implicitEuler_alg : AlgStable (implicitEuler.map (Rat.castHom ℝ)).A
    (implicitEuler.map (Rat.castHom ℝ)).b := by
  have hA : ∀ i j : Fin 1, (implicitEuler.map (Rat.castHom ℝ)).A i j = 1 := fun i j =>
    (congrArg (Rat.castHom ℝ) ((by decide +kernel : ∀ i j, implicitEuler.A i j = 1) i j)).trans
      (map_one _)
  have hb : ∀ i : Fin 1, (implicitEuler.map (Rat.castHom ℝ)).b i = 1 := fun i =>
    (congrArg (Rat.castHom ℝ) ((by decide +kernel : ∀ i, implicitEuler.b i = 1) i)).trans
      (map_one _)
  refine ⟨fun i => zero_le_one.trans (hb i).ge, fun v => ?_⟩
  change 0 ≤ ∑ i : Fin 1, ∑ j : Fin 1, algMat (implicitEuler.map (Rat.castHom ℝ)).A
    (implicitEuler.map (Rat.castHom ℝ)).b i j * (v i * v j)
  simp only [algMat, hA, hb, Fin.sum_univ_one]
  nlinarith [mul_self_nonneg (v (0 : Fin 1))]

theorem implicitMidpoint_algMat (i j) : algMat (implicitMidpoint.map (Rat.castHom ℝ)).A
    (implicitMidpoint.map (Rat.castHom ℝ)).b i j = 0 := by
  have h : ∀ i j : Fin 1, implicitMidpoint.b i * implicitMidpoint.A i j
      + implicitMidpoint.b j * implicitMidpoint.A j i
      - implicitMidpoint.b i * implicitMidpoint.b j = 0 := by decide +kernel
  have h2 := congrArg (Rat.castHom ℝ) (h i j)
  rw [map_sub, map_add, map_mul, map_mul, map_mul, map_zero] at h2
  exact h2

theorem implicitMidpoint_alg : AlgStable (implicitMidpoint.map (Rat.castHom ℝ)).A
    (implicitMidpoint.map (Rat.castHom ℝ)).b := by
  refine ⟨fun i => ?_, fun v => ?_⟩
  · have hb : ∀ i, implicitMidpoint.b i = 1 := by decide +kernel
    exact zero_le_one.trans ((congrArg (Rat.castHom ℝ) (hb i)).trans (map_one _)).ge
  · refine Finset.sum_nonneg fun i _ => Finset.sum_nonneg fun j _ => ?_
    rw [implicitMidpoint_algMat, zero_mul]

theorem thirdOrderTwoStageSdirk_alg : AlgStable (thirdOrderTwoStageSdirk.map embQ3).A
    (thirdOrderTwoStageSdirk.map embQ3).b := by
  have hA : ∀ i j : Fin 2, (thirdOrderTwoStageSdirk.map embQ3).A i j
      = (![![1 / 2 + √3 / 6, 0], ![-(√3 / 3), 1 / 2 + √3 / 6]] : Fin 2 → Fin 2 → ℝ) i j := by
    have h00 : thirdOrderTwoStageSdirk.A (0 : Fin 2) (0 : Fin 2) = (⟨1 / 2, 1 / 6⟩ : Q3) := by
      decide +kernel
    have h01 : thirdOrderTwoStageSdirk.A (0 : Fin 2) (1 : Fin 2) = (⟨0, 0⟩ : Q3) := by
      decide +kernel
    have h10 : thirdOrderTwoStageSdirk.A (1 : Fin 2) (0 : Fin 2) = (⟨0, -1 / 3⟩ : Q3) := by
      decide +kernel
    have h11 : thirdOrderTwoStageSdirk.A (1 : Fin 2) (1 : Fin 2) = (⟨1 / 2, 1 / 6⟩ : Q3) := by
      decide +kernel
    intro i j
    fin_cases i <;> fin_cases j
    · exact (congrArg embQ3 h00).trans (by rw [embQ3_apply]; simp; ring)
    · exact (congrArg embQ3 h01).trans (by rw [embQ3_apply]; simp)
    · exact (congrArg embQ3 h10).trans (by rw [embQ3_apply]; simp; ring)
    · exact (congrArg embQ3 h11).trans (by rw [embQ3_apply]; simp; ring)
  have hb : ∀ i : Fin 2, (thirdOrderTwoStageSdirk.map embQ3).b i = 1 / 2 := by
    have h : ∀ i, thirdOrderTwoStageSdirk.b i = (⟨1 / 2, 0⟩ : Q3) := by decide +kernel
    intro i
    change embQ3 (thirdOrderTwoStageSdirk.b i) = _
    rw [h i, embQ3_apply]
    simp
  have h3 : (0 : ℝ) ≤ √3 := Real.sqrt_nonneg _
  refine ⟨fun i => ?_, fun v => ?_⟩
  · rw [hb i]
    norm_num
  · change 0 ≤ ∑ i : Fin 2, ∑ j : Fin 2, algMat (thirdOrderTwoStageSdirk.map embQ3).A
      (thirdOrderTwoStageSdirk.map embQ3).b i j * (v i * v j)
    simp only [algMat, hA, hb, Fin.sum_univ_two]
    simp only [Matrix.cons_val_zero, Matrix.cons_val_one]
    have : 0 ≤ (1 / 4 + √3 / 6) * (v (0 : Fin 2) - v (1 : Fin 2)) ^ 2 := by positivity
    refine this.trans (le_of_eq ?_)
    ring

theorem embeddedThirdOrderThreeStageSdirk2_alg :
    AlgStable (embeddedThirdOrderThreeStageSdirk2.map (Rat.castHom ℝ)).A
      (embeddedThirdOrderThreeStageSdirk2.map (Rat.castHom ℝ)).b := by
  refine ⟨fun i => ?_, fun v => ?_⟩
  · have hb : ∀ i, 0 ≤ embeddedThirdOrderThreeStageSdirk2.b i := by decide +kernel
    change 0 ≤ ((embeddedThirdOrderThreeStageSdirk2.b i : ℚ) : ℝ)
    exact_mod_cast hb i
  · change 0 ≤ ∑ i : Fin 3, ∑ j : Fin 3,
      (Rat.castHom ℝ (embeddedThirdOrderThreeStageSdirk2.b i)
          * Rat.castHom ℝ (embeddedThirdOrderThreeStageSdirk2.A i j)
        + Rat.castHom ℝ (embeddedThirdOrderThreeStageSdirk2.b j)
          * Rat.castHom ℝ (embeddedThirdOrderThreeStageSdirk2.A j i)
        - Rat.castHom ℝ (embeddedThirdOrderThreeStageSdirk2.b i)
          * Rat.castHom ℝ (embeddedThirdOrderThreeStageSdirk2.b j)) * (v i * v j)
    have h : ∀ i j : Fin 3, embeddedThirdOrderThreeStageSdirk2.b i
          * embeddedThirdOrderThreeStageSdirk2.A i j
        + embeddedThirdOrderThreeStageSdirk2.b j * embeddedThirdOrderThreeStageSdirk2.A j i
        - embeddedThirdOrderThreeStageSdirk2.b i * embeddedThirdOrderThreeStageSdirk2.b j
        = (![![5902 / 11163, -19587 / 40931, -101 / 2013],
            ![-19587 / 40931, 257364 / 450241, -687 / 7381],
            ![-101 / 2013, -687 / 7381, 52 / 363]] : Fin 3 → Fin 3 → ℚ) i j := by
      decide +kernel
    simp only [← map_mul, ← map_add, ← map_sub, h]
    simp only [Fin.sum_univ_three, Matrix.cons_val_zero, Matrix.cons_val_one, Matrix.cons_val_two,
      Matrix.tail_cons, Matrix.head_cons, Rat.coe_castHom]
    have : (0 : ℝ) ≤ 5902 / 11163 * (v (0 : Fin 3) - 58761 / 64922 * v (1 : Fin 3)
          - 6161 / 64922 * v (2 : Fin 3)) ^ 2
        + 8991 / 64922 * (v (1 : Fin 3) - v (2 : Fin 3)) ^ 2 := by positivity
    refine this.trans (le_of_eq ?_)
    push_cast
    ring

end Verif.Stab
