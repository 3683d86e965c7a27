/-
Stability of the implicit shipped tableaux: bounds of the stability function on the left half plane
and at infinity, checked over the exact fields and transported to `ℝ`.
-/
import Verif.Stab.HalfPlane
import Verif.Tableau.ShippedChecks

namespace Verif.Stab

open Verif.Tableau

/-! ### Lower bounds of the elements of the fields -/

/-- Lower bound of a rational. -/
def ratLow (x q : ℚ) : Bool := decide (q ≤ x)

theorem ratLow_sound (x q : ℚ) (h : ratLow x q = true) : (q : ℝ) ≤ Rat.castHom ℝ x := by
  have h1 : q ≤ x := of_decide_eq_true h
  simpa using h1

/-- Lower bound of an element of `ℚ(√2)`. -/
def q2Low (x : Q2) (q : ℚ) : Bool :=
  decide (x = 0 ∧ q ≤ 0) || decide (q + |x.im| * (1 / 10 ^ 45) ≤ x.re + x.im * approxSqrt2)

theorem mul_approx {r a ε : ℝ} (h : |r - a| ≤ ε) (b : ℝ) : b * a - |b| * ε ≤ b * r := by
  have h1 : |b * (r - a)| ≤ |b| * ε := by rw [abs_mul]; gcongr
  have h2 := (abs_le.mp h1).1
  linarith

theorem q2Low_sound (x : Q2) (q : ℚ) (h : q2Low x q = true) : (q : ℝ) ≤ embQ2 x := by
  simp only [q2Low, Bool.or_eq_true, decide_eq_true_eq] at h
  rcases h with ⟨rfl, h⟩ | h
  · rw [map_zero]
    exact_mod_cast h
  · have h1 : ((q + |x.im| * (1 / 10 ^ 45) : ℚ) : ℝ) ≤ ((x.re + x.im * approxSqrt2 : ℚ) : ℝ) := by
      exact_mod_cast h
    push_cast at h1
    have h2 := mul_approx sqrt2_approx (x.im : ℝ)
    rw [embQ2_apply]
    linarith

/-- A rational approximation of `√3` and its error bound. -/
def approxSqrt3 : ℚ := 1.73205080756887729352744634150587236694280525381038

theorem sqrt3_approx : |√3 - (approxSqrt3 : ℝ)| ≤ 1 / 10 ^ 45 := by
  rw [abs_le]
  constructor
  · rw [neg_le_sub_iff_le_add, ← sub_le_iff_le_add]
    exact Real.le_sqrt_of_sq_le (by norm_num [approxSqrt3])
  · rw [sub_le_iff_le_add]
    exact (Real.sqrt_le_left (by norm_num [approxSqrt3])).mpr (by norm_num [approxSqrt3])

/-- Lower bound of an element of `ℚ(√3)`. -/
def q3Bound (x : Q3) : ℚ := x.re + x.im * approxSqrt3 - |x.im| * (1 / 10 ^ 45)

theorem q3Bound_le (x : Q3) : (q3Bound x : ℝ) ≤ embQ3 x := by
  have h2 := mul_approx sqrt3_approx (x.im : ℝ)
  rw [embQ3_apply, q3Bound]
  push_cast
  linarith

def q3Low (x : Q3) (q : ℚ) : Bool := decide (x = 0 ∧ q ≤ 0) || decide (q ≤ q3Bound x)

theorem q3Low_sound (x : Q3) (q : ℚ) (h : q3Low x q = true) : (q : ℝ) ≤ embQ3 x := by
  simp only [q3Low, Bool.or_eq_true, decide_eq_true_eq] at h
  rcases h with ⟨rfl, h⟩ | h
  · rw [map_zero]
    exact_mod_cast h
  · have h1 : (q : ℝ) ≤ (q3Bound x : ℝ) := by exact_mod_cast h
    exact h1.trans (q3Bound_le x)

/-- Lower bound of an element of `ℚ(√3)(√((2 + √3)/3))`. -/
def q3rLow (x : Q3r) (q : ℚ) : Bool :=
  decide (x = 0 ∧ q ≤ 0) ||
    decide (q ≤ q3Bound x.re + min (q3Bound x.im * (11 / 10)) (q3Bound x.im * (12 / 10)))

theorem nested_bounds : 11 / 10 ≤ √((2 + √3) / 3) ∧ √((2 + √3) / 3) ≤ 12 / 10 := by
  have h := abs_le.mp sqrt3_approx
  have h1 : (1.7 : ℝ) ≤ √3 := by
    have : (1.7 : ℝ) ≤ (approxSqrt3 : ℝ) - 1 / 10 ^ 45 := by norm_num [approxSqrt3]
    linarith
  have h2 : √3 ≤ (1.8 : ℝ) := by
    have : (approxSqrt3 : ℝ) + 1 / 10 ^ 45 ≤ 1.8 := by norm_num [approxSqrt3]
    linarith
  constructor
  · exact Real.le_sqrt_of_sq_le (by norm_num; linarith)
  · exact (Real.sqrt_le_left (by norm_num)).mpr (by norm_num; linarith)

theorem q3rLow_sound (x : Q3r) (q : ℚ) (h : q3rLow x q = true) : (q : ℝ) ≤ embQ3r x := by
  simp only [q3rLow, Bool.or_eq_true, decide_eq_true_eq] at h
  rcases h with ⟨rfl, h⟩ | h
  · rw [map_zero]
    exact_mod_cast h
  · have h1 : (q : ℝ) ≤ ((q3Bound x.re
        + min (q3Bound x.im * (11 / 10)) (q3Bound x.im * (12 / 10)) : ℚ) : ℝ) := by exact_mod_cast h
    push_cast at h1
    refine h1.trans ?_
    rw [embQ3r_apply]
    refine add_le_add (q3Bound_le _) ?_
    obtain ⟨n1, n2⟩ := nested_bounds
    have h2 := q3Bound_le x.im
    have h3 : (q3Bound x.im : ℝ) * √((2 + √3) / 3) ≤ embQ3 x.im * √((2 + √3) / 3) := by gcongr
    refine le_trans ?_ h3
    rcases le_total 0 (q3Bound x.im : ℝ) with h4 | h4
    · exact (min_le_left _ _).trans (by gcongr)
    · exact (min_le_right _ _).trans (by nlinarith)

/-- From the check over the exact field to the real tableau. -/
theorem stable_of_check {R : Type} [Field R] [DecidableEq R] (φ : R →+* ℝ) (low : R → ℚ → Bool)
    (hlow : ∀ x q, low x q = true → (q : ℝ) ≤ φ x) (c ε : ℚ) (cert : List (ℚ × ℚ × ℚ)) {s : ℕ}
    (A : Fin s → Fin s → R) (b : Fin s → R)
    (h : (decide (0 ≤ c) && decide (∀ i j, i < j → A i j = 0) && checkStable low c ε cert A b) = true) :
    StableBy (c : ℝ) (fun i j => φ (A i j)) (fun i => φ (b i))
      ∧ DampsBy (ε : ℝ) (fun i j => φ (A i j)) (fun i => φ (b i)) := by
  simp only [Bool.and_eq_true, decide_eq_true_eq] at h
  obtain ⟨⟨h1, h2⟩, h3⟩ := h
  exact ⟨checkStable_sound hlow h1 h2 h3, checkStable_damps hlow h2 h3⟩

/-! ### The tableaux -/

theorem implicitEuler_stable :
    StableBy ((1 : ℚ) : ℝ) (implicitEuler.map (Rat.castHom ℝ)).A (implicitEuler.map (Rat.castHom ℝ)).b
      ∧ DampsBy ((0 : ℚ) : ℝ) (implicitEuler.map (Rat.castHom ℝ)).A (implicitEuler.map (Rat.castHom ℝ)).b :=
  stable_of_check (Rat.castHom ℝ) ratLow ratLow_sound (1) (0) []
    implicitEuler.A implicitEuler.b (by decide +kernel)

theorem implicitMidpoint_stable :
    StableBy ((1 : ℚ) : ℝ) (implicitMidpoint.map (Rat.castHom ℝ)).A (implicitMidpoint.map (Rat.castHom ℝ)).b
      ∧ DampsBy ((1 : ℚ) : ℝ) (implicitMidpoint.map (Rat.castHom ℝ)).A (implicitMidpoint.map (Rat.castHom ℝ)).b :=
  stable_of_check (Rat.castHom ℝ) ratLow ratLow_sound (1) (1) []
    implicitMidpoint.A implicitMidpoint.b (by decide +kernel)

theorem thirdOrderTwoStageSdirk_stable :
    StableBy ((1 : ℚ) : ℝ) (thirdOrderTwoStageSdirk.map embQ3).A (thirdOrderTwoStageSdirk.map embQ3).b
      ∧ DampsBy ((3 / 4 : ℚ) : ℝ) (thirdOrderTwoStageSdirk.map embQ3).A (thirdOrderTwoStageSdirk.map embQ3).b :=
  stable_of_check (embQ3) q3Low q3Low_sound (1) (3 / 4) []
    thirdOrderTwoStageSdirk.A thirdOrderTwoStageSdirk.b (by decide +kernel)

theorem fifthOrderFiveStageSdirk_stable :
    StableBy ((1 + 1 / 10 ^ 25 : ℚ) : ℝ) (fifthOrderFiveStageSdirk.map (Rat.castHom ℝ)).A (fifthOrderFiveStageSdirk.map (Rat.castHom ℝ)).b
      ∧ DampsBy ((1 / 10 ^ 20 : ℚ) : ℝ) (fifthOrderFiveStageSdirk.map (Rat.castHom ℝ)).A (fifthOrderFiveStageSdirk.map (Rat.castHom ℝ)).b :=
  stable_of_check (Rat.castHom ℝ) ratLow ratLow_sound (1 + 1 / 10 ^ 25) (1 / 10 ^ 20) []
    fifthOrderFiveStageSdirk.A fifthOrderFiveStageSdirk.b (by decide +kernel)

theorem embeddedSecondOrderTwoStageSdirk_stable :
    StableBy ((1 : ℚ) : ℝ) (embeddedSecondOrderTwoStageSdirk.map embQ2).A (embeddedSecondOrderTwoStageSdirk.map embQ2).b
      ∧ DampsBy ((0 : ℚ) : ℝ) (embeddedSecondOrderTwoStageSdirk.map embQ2).A (embeddedSecondOrderTwoStageSdirk.map embQ2).b :=
  stable_of_check (embQ2) q2Low q2Low_sound (1) (0) []
    embeddedSecondOrderTwoStageSdirk.A embeddedSecondOrderTwoStageSdirk.b (by decide +kernel)

theorem embeddedSecondOrderThreeStageEsdirk_stable :
    StableBy ((1 : ℚ) : ℝ) (embeddedSecondOrderThreeStageEsdirk.map embQ2).A (embeddedSecondOrderThreeStageEsdirk.map embQ2).b
      ∧ DampsBy ((0 : ℚ) : ℝ) (embeddedSecondOrderThreeStageEsdirk.map embQ2).A (embeddedSecondOrderThreeStageEsdirk.map embQ2).b :=
  stable_of_check (embQ2) q2Low q2Low_sound (1) (0) []
    embeddedSecondOrderThreeStageEsdirk.A embeddedSecondOrderThreeStageEsdirk.b (by decide +kernel)

theorem embeddedThirdOrderThreeStageSdirk1_stable :
    StableBy ((1 : ℚ) : ℝ) (embeddedThirdOrderThreeStageSdirk1.map (Rat.castHom ℝ)).A (embeddedThirdOrderThreeStageSdirk1.map (Rat.castHom ℝ)).b
      ∧ DampsBy ((0 : ℚ) : ℝ) (embeddedThirdOrderThreeStageSdirk1.map (Rat.castHom ℝ)).A (embeddedThirdOrderThreeStageSdirk1.map (Rat.castHom ℝ)).b :=
  stable_of_check (Rat.castHom ℝ) ratLow ratLow_sound (1) (0) []
    embeddedThirdOrderThreeStageSdirk1.A embeddedThirdOrderThreeStageSdirk1.b (by decide +kernel)

theorem embeddedThirdOrderThreeStageSdirk2_stable :
    StableBy ((1 : ℚ) : ℝ) (embeddedThirdOrderThreeStageSdirk2.map (Rat.castHom ℝ)).A (embeddedThirdOrderThreeStageSdirk2.map (Rat.castHom ℝ)).b
      ∧ DampsBy ((3 / 4 : ℚ) : ℝ) (embeddedThirdOrderThreeStageSdirk2.map (Rat.castHom ℝ)).A (embeddedThirdOrderThreeStageSdirk2.map (Rat.castHom ℝ)).b :=
  stable_of_check (Rat.castHom ℝ) ratLow ratLow_sound (1) (3 / 4) []
    embeddedThirdOrderThreeStageSdirk2.A embeddedThirdOrderThreeStageSdirk2.b (by decide +kernel)

theorem embeddedThirdOrderThreeStageEsdirk_stable :
    StableBy ((1 : ℚ) : ℝ) (embeddedThirdOrderThreeStageEsdirk.map embQ3r).A (embeddedThirdOrderThreeStageEsdirk.map embQ3r).b
      ∧ DampsBy ((3 / 4 : ℚ) : ℝ) (embeddedThirdOrderThreeStageEsdirk.map embQ3r).A (embeddedThirdOrderThreeStageEsdirk.map embQ3r).b :=
  stable_of_check (embQ3r) q3rLow q3rLow_sound (1) (3 / 4) []
    embeddedThirdOrderThreeStageEsdirk.A embeddedThirdOrderThreeStageEsdirk.b (by decide +kernel)

theorem embeddedThirdOrderFourStageSdirk_stable :
    StableBy ((1 : ℚ) : ℝ) (embeddedThirdOrderFourStageSdirk.map (Rat.castHom ℝ)).A (embeddedThirdOrderFourStageSdirk.map (Rat.castHom ℝ)).b
      ∧ DampsBy ((0 : ℚ) : ℝ) (embeddedThirdOrderFourStageSdirk.map (Rat.castHom ℝ)).A (embeddedThirdOrderFourStageSdirk.map (Rat.castHom ℝ)).b :=
  stable_of_check (Rat.castHom ℝ) ratLow ratLow_sound (1) (0) [(0, 0, 0), (0, 0, 0), (108411 / 10 ^ 8, -113328 / 10 ^ 9, 656840 / 10 ^ 11)]
    embeddedThirdOrderFourStageSdirk.A embeddedThirdOrderFourStageSdirk.b (by decide +kernel)

theorem embeddedThirdOrderSecondWeakStageOrderFourStageDirk_stable :
    StableBy ((1 : ℚ) : ℝ) (embeddedThirdOrderSecondWeakStageOrderFourStageDirk.map (Rat.castHom ℝ)).A (embeddedThirdOrderSecondWeakStageOrderFourStageDirk.map (Rat.castHom ℝ)).b
      ∧ DampsBy ((0 : ℚ) : ℝ) (embeddedThirdOrderSecondWeakStageOrderFourStageDirk.map (Rat.castHom ℝ)).A (embeddedThirdOrderSecondWeakStageOrderFourStageDirk.map (Rat.castHom ℝ)).b :=
  stable_of_check (Rat.castHom ℝ) ratLow ratLow_sound (1) (0) []
    embeddedThirdOrderSecondWeakStageOrderFourStageDirk.A embeddedThirdOrderSecondWeakStageOrderFourStageDirk.b (by decide +kernel)

theorem embeddedThirdOrderThirdWeakStageOrderFourStageDirk_stable :
    StableBy ((1 : ℚ) : ℝ) (embeddedThirdOrderThirdWeakStageOrderFourStageDirk.map (Rat.castHom ℝ)).A (embeddedThirdOrderThirdWeakStageOrderFourStageDirk.map (Rat.castHom ℝ)).b
      ∧ DampsBy ((0 : ℚ) : ℝ) (embeddedThirdOrderThirdWeakStageOrderFourStageDirk.map (Rat.castHom ℝ)).A (embeddedThirdOrderThirdWeakStageOrderFourStageDirk.map (Rat.castHom ℝ)).b :=
  stable_of_check (Rat.castHom ℝ) ratLow ratLow_sound (1) (0) []
    embeddedThirdOrderThirdWeakStageOrderFourStageDirk.A embeddedThirdOrderThirdWeakStageOrderFourStageDirk.b (by decide +kernel)

theorem embeddedThirdOrderFourStageEsdirk_stable :
    StableBy ((1 : ℚ) : ℝ) (embeddedThirdOrderFourStageEsdirk.map (Rat.castHom ℝ)).A (embeddedThirdOrderFourStageEsdirk.map (Rat.castHom ℝ)).b
      ∧ DampsBy ((1 / 10 ^ 20 : ℚ) : ℝ) (embeddedThirdOrderFourStageEsdirk.map (Rat.castHom ℝ)).A (embeddedThirdOrderFourStageEsdirk.map (Rat.castHom ℝ)).b :=
  stable_of_check (Rat.castHom ℝ) ratLow ratLow_sound (1) (1 / 10 ^ 20) []
    embeddedThirdOrderFourStageEsdirk.A embeddedThirdOrderFourStageEsdirk.b (by decide +kernel)

theorem embeddedThirdOrderFiveStageEsdirk_stable :
    StableBy ((1 : ℚ) : ℝ) (embeddedThirdOrderFiveStageEsdirk.map embQ2).A (embeddedThirdOrderFiveStageEsdirk.map embQ2).b
      ∧ DampsBy ((0 : ℚ) : ℝ) (embeddedThirdOrderFiveStageEsdirk.map embQ2).A (embeddedThirdOrderFiveStageEsdirk.map embQ2).b :=
  stable_of_check (embQ2) q2Low q2Low_sound (1) (0) [(0, 0, 0), (0, 0, 0), (108411 / 10 ^ 8, -113328 / 10 ^ 9, 656840 / 10 ^ 11)]
    embeddedThirdOrderFiveStageEsdirk.A embeddedThirdOrderFiveStageEsdirk.b (by decide +kernel)

theorem embeddedFourthOrderFourStageSdirk_stable :
    StableBy ((1 : ℚ) : ℝ) (embeddedFourthOrderFourStageSdirk.map (Rat.castHom ℝ)).A (embeddedFourthOrderFourStageSdirk.map (Rat.castHom ℝ)).b
      ∧ DampsBy ((3 / 4 : ℚ) : ℝ) (embeddedFourthOrderFourStageSdirk.map (Rat.castHom ℝ)).A (embeddedFourthOrderFourStageSdirk.map (Rat.castHom ℝ)).b :=
  stable_of_check (Rat.castHom ℝ) ratLow ratLow_sound (1) (3 / 4) []
    embeddedFourthOrderFourStageSdirk.A embeddedFourthOrderFourStageSdirk.b (by decide +kernel)

theorem embeddedFourthOrderFiveStageSdirk_stable :
    StableBy ((1 : ℚ) : ℝ) (embeddedFourthOrderFiveStageSdirk.map embQ2).A (embeddedFourthOrderFiveStageSdirk.map embQ2).b
      ∧ DampsBy ((0 : ℚ) : ℝ) (embeddedFourthOrderFiveStageSdirk.map embQ2).A (embeddedFourthOrderFiveStageSdirk.map embQ2).b :=
  stable_of_check (embQ2) q2Low q2Low_sound (1) (0) [(0, 0, 0), (0, 0, 0), (0, 0, 0), (542534 / 10 ^ 10, -678169 / 10 ^ 11, 953674 / 10 ^ 12)]
    embeddedFourthOrderFiveStageSdirk.A embeddedFourthOrderFiveStageSdirk.b (by decide +kernel)

theorem embeddedFourthOrderFiveStageEsdirk_stable :
    StableBy ((1 : ℚ) : ℝ) (embeddedFourthOrderFiveStageEsdirk.map (Rat.castHom ℝ)).A (embeddedFourthOrderFiveStageEsdirk.map (Rat.castHom ℝ)).b
      ∧ DampsBy ((3 / 4 : ℚ) : ℝ) (embeddedFourthOrderFiveStageEsdirk.map (Rat.castHom ℝ)).A (embeddedFourthOrderFiveStageEsdirk.map (Rat.castHom ℝ)).b :=
  stable_of_check (Rat.castHom ℝ) ratLow ratLow_sound (1) (3 / 4) []
    embeddedFourthOrderFiveStageEsdirk.A embeddedFourthOrderFiveStageEsdirk.b (by decide +kernel)

theorem embeddedFourthOrderSixStageEsdirk_stable :
    StableBy ((1 : ℚ) : ℝ) (embeddedFourthOrderSixStageEsdirk.map embQ2).A (embeddedFourthOrderSixStageEsdirk.map embQ2).b
      ∧ DampsBy ((0 : ℚ) : ℝ) (embeddedFourthOrderSixStageEsdirk.map embQ2).A (embeddedFourthOrderSixStageEsdirk.map embQ2).b :=
  stable_of_check (embQ2) q2Low q2Low_sound (1) (0) [(0, 0, 0), (0, 0, 0), (0, 0, 0), (542534 / 10 ^ 10, -678169 / 10 ^ 11, 953674 / 10 ^ 12)]
    embeddedFourthOrderSixStageEsdirk.A embeddedFourthOrderSixStageEsdirk.b (by decide +kernel)

theorem embeddedFourthOrderThirdWeakStageOrderSixStageDirk_stable :
    StableBy ((1 : ℚ) : ℝ) (embeddedFourthOrderThirdWeakStageOrderSixStageDirk.map (Rat.castHom ℝ)).A (embeddedFourthOrderThirdWeakStageOrderSixStageDirk.map (Rat.castHom ℝ)).b
      ∧ DampsBy ((0 : ℚ) : ℝ) (embeddedFourthOrderThirdWeakStageOrderSixStageDirk.map (Rat.castHom ℝ)).A (embeddedFourthOrderThirdWeakStageOrderSixStageDirk.map (Rat.castHom ℝ)).b :=
  stable_of_check (Rat.castHom ℝ) ratLow ratLow_sound (1) (0) [(0, 0, 0), (761208 / 10 ^ 21, -308932 / 10 ^ 21, 110984 / 10 ^ 11), (0, 0, 0), (109874 / 10 ^ 8, -116578 / 10 ^ 9, 325552 / 10 ^ 11)]
    embeddedFourthOrderThirdWeakStageOrderSixStageDirk.A embeddedFourthOrderThirdWeakStageOrderSixStageDirk.b (by decide +kernel)

theorem embeddedFifthOrderSixStageEsdirk_stable :
    StableBy ((1 + 1 / 10 ^ 25 : ℚ) : ℝ) (embeddedFifthOrderSixStageEsdirk.map (Rat.castHom ℝ)).A (embeddedFifthOrderSixStageEsdirk.map (Rat.castHom ℝ)).b
      ∧ DampsBy ((1 / 10 ^ 20 : ℚ) : ℝ) (embeddedFifthOrderSixStageEsdirk.map (Rat.castHom ℝ)).A (embeddedFifthOrderSixStageEsdirk.map (Rat.castHom ℝ)).b :=
  stable_of_check (Rat.castHom ℝ) ratLow ratLow_sound (1 + 1 / 10 ^ 25) (1 / 10 ^ 20) []
    embeddedFifthOrderSixStageEsdirk.A embeddedFifthOrderSixStageEsdirk.b (by decide +kernel)

end Verif.Stab
