/-
The reported orders are sharp: at the next order some condition fails by more than the accuracy
of the coefficients.
-/
import Verif.Tableau.ShippedChecks

namespace Verif.Tableau

theorem sharp_of_check {R : Type} [Field R] {s : ℕ} (φ : R →+* ℝ) (ld : R → Bool) (ε : ℝ)
    (hld : ∀ x, ld x = true → ε < |φ x|) (A : Fin s → Fin s → R) (b : Fin s → R) (p : ℕ)
    (h : ((forests p).any fun f => decide (orderL f = p) &&
      ld ((∑ i, b i * (RTree.node f).weight A i) - 1 / (((RTree.node f).density : ℕ) : R)))
        = true) :
    ¬ OrderConditionsWithin ε (fun i j => φ (A i j)) (fun i => φ (b i)) (p + 1) := by
  intro hc
  obtain ⟨f, -, h2⟩ := List.any_eq_true.mp h
  rw [Bool.and_eq_true, decide_eq_true_eq] at h2
  have h3 := hld _ h2.2
  rw [map_sub, map_sum, map_div₀, map_one, map_natCast] at h3
  simp only [map_mul, weight_map] at h3
  have h4 := hc (RTree.node f) (by rw [RTree.order, h2.1, add_comm])
  exact absurd h3 (not_lt.mpr h4)

/-- Exact test. -/
def isNonzero {R : Type} [Zero R] [DecidableEq R] (x : R) : Bool := decide (x ≠ 0)

theorem isNonzero_sound {R : Type} [Field R] [DecidableEq R] (φ : R →+* ℝ) (x : R)
    (h : isNonzero x = true) : 0 < |φ x| := by
  have h1 : x ≠ 0 := of_decide_eq_true h
  exact abs_pos.mpr ((map_ne_zero φ).mpr h1)

/-- Test of a rational against a lower bound. -/
def ratBeyond (ε x : ℚ) : Bool := decide (ε < |x|)

theorem ratBeyond_sound (ε x : ℚ) (h : ratBeyond ε x = true) :
    (ε : ℝ) < |Rat.castHom ℝ x| := by
  have h1 : ε < |x| := of_decide_eq_true h
  rw [Rat.coe_castHom, ← Rat.cast_abs]
  exact_mod_cast h1

/-- Test of an element of `ℚ(√2)` against a lower bound. -/
def q2Beyond (ε : ℚ) (x : Q2) : Bool :=
  decide (ε < |x.re + x.im * approxSqrt2| - |x.im| * (1 / 10 ^ 45))

theorem q2Beyond_sound (ε : ℚ) (x : Q2) (h : q2Beyond ε x = true) : (ε : ℝ) < |embQ2 x| := by
  have h1 : ε < |x.re + x.im * approxSqrt2| - |x.im| * (1 / 10 ^ 45) := of_decide_eq_true h
  have h3 : (ε : ℝ) < ((|x.re + x.im * approxSqrt2| - |x.im| * (1 / 10 ^ 45) : ℚ) : ℝ) := by
    exact_mod_cast h1
  push_cast at h3
  refine lt_of_lt_of_le h3 ?_
  rw [embQ2_apply]
  have e : (x.re : ℝ) + x.im * (approxSqrt2 : ℝ)
      = (x.re + x.im * √2) - x.im * (√2 - (approxSqrt2 : ℝ)) := by ring
  rw [e, sub_le_iff_le_add]
  refine (abs_sub _ _).trans ?_
  rw [abs_mul]
  gcongr
  exact sqrt2_approx

theorem explicitEuler_main_sharp :
    ¬ OrderConditionsWithin 0
      (explicitEuler.map (Rat.castHom ℝ)).A (explicitEuler.map (Rat.castHom ℝ)).b 2 :=
  sharp_of_check (Rat.castHom ℝ) isNonzero _
    (isNonzero_sound (Rat.castHom ℝ)) explicitEuler.A explicitEuler.b 1
    (by decide +kernel)

theorem implicitEuler_main_sharp :
    ¬ OrderConditionsWithin 0
      (implicitEuler.map (Rat.castHom ℝ)).A (implicitEuler.map (Rat.castHom ℝ)).b 2 :=
  sharp_of_check (Rat.castHom ℝ) isNonzero _
    (isNonzero_sound (Rat.castHom ℝ)) implicitEuler.A implicitEuler.b 1
    (by decide +kernel)

theorem implicitMidpoint_main_sharp :
    ¬ OrderConditionsWithin 0
      (implicitMidpoint.map (Rat.castHom ℝ)).A (implicitMidpoint.map (Rat.castHom ℝ)).b 3 :=
  sharp_of_check (Rat.castHom ℝ) isNonzero _
    (isNonzero_sound (Rat.castHom ℝ)) implicitMidpoint.A implicitMidpoint.b 2
    (by decide +kernel)

theorem thirdOrderTwoStageSdirk_main_sharp :
    ¬ OrderConditionsWithin 0
      (thirdOrderTwoStageSdirk.map embQ3).A (thirdOrderTwoStageSdirk.map embQ3).b 4 :=
  sharp_of_check embQ3 isNonzero _
    (isNonzero_sound embQ3) thirdOrderTwoStageSdirk.A thirdOrderTwoStageSdirk.b 3
    (by decide +kernel)

theorem rungeKuttaFour_main_sharp :
    ¬ OrderConditionsWithin 0
      (rungeKuttaFour.map (Rat.castHom ℝ)).A (rungeKuttaFour.map (Rat.castHom ℝ)).b 5 :=
  sharp_of_check (Rat.castHom ℝ) isNonzero _
    (isNonzero_sound (Rat.castHom ℝ)) rungeKuttaFour.A rungeKuttaFour.b 4
    (by decide +kernel)

theorem fifthOrderFiveStageSdirk_main_sharp :
    ¬ OrderConditionsWithin (((1 / 10 ^ 25 : ℚ)) : ℝ)
      (fifthOrderFiveStageSdirk.map (Rat.castHom ℝ)).A (fifthOrderFiveStageSdirk.map (Rat.castHom ℝ)).b 6 :=
  sharp_of_check (Rat.castHom ℝ) (ratBeyond (1 / 10 ^ 25)) _
    (ratBeyond_sound (1 / 10 ^ 25)) fifthOrderFiveStageSdirk.A fifthOrderFiveStageSdirk.b 5
    (by decide +kernel)

theorem embeddedHeunEuler_main_sharp :
    ¬ OrderConditionsWithin 0
      (embeddedHeunEuler.map (Rat.castHom ℝ)).A (embeddedHeunEuler.map (Rat.castHom ℝ)).b 3 :=
  sharp_of_check (Rat.castHom ℝ) isNonzero _
    (isNonzero_sound (Rat.castHom ℝ)) embeddedHeunEuler.A embeddedHeunEuler.b 2
    (by decide +kernel)

theorem embeddedHeunEuler_emb_sharp :
    ¬ OrderConditionsWithin 0
      (embeddedHeunEuler.map (Rat.castHom ℝ)).A (embeddedHeunEuler.map (Rat.castHom ℝ)).bhat 2 :=
  sharp_of_check (Rat.castHom ℝ) isNonzero _
    (isNonzero_sound (Rat.castHom ℝ)) embeddedHeunEuler.A embeddedHeunEuler.bhat 1
    (by decide +kernel)

theorem embeddedSecondOrderTwoStageSdirk_main_sharp :
    ¬ OrderConditionsWithin 0
      (embeddedSecondOrderTwoStageSdirk.map embQ2).A (embeddedSecondOrderTwoStageSdirk.map embQ2).b 3 :=
  sharp_of_check embQ2 isNonzero _
    (isNonzero_sound embQ2) embeddedSecondOrderTwoStageSdirk.A embeddedSecondOrderTwoStageSdirk.b 2
    (by decide +kernel)

theorem embeddedSecondOrderTwoStageSdirk_emb_sharp :
    ¬ OrderConditionsWithin 0
      (embeddedSecondOrderTwoStageSdirk.map embQ2).A (embeddedSecondOrderTwoStageSdirk.map embQ2).bhat 2 :=
  sharp_of_check embQ2 isNonzero _
    (isNonzero_sound embQ2) embeddedSecondOrderTwoStageSdirk.A embeddedSecondOrderTwoStageSdirk.bhat 1
    (by decide +kernel)

theorem embeddedSecondOrderThreeStageEsdirk_main_sharp :
    ¬ OrderConditionsWithin 0
      (embeddedSecondOrderThreeStageEsdirk.map embQ2).A (embeddedSecondOrderThreeStageEsdirk.map embQ2).b 3 :=
  sharp_of_check embQ2 isNonzero _
    (isNonzero_sound embQ2) embeddedSecondOrderThreeStageEsdirk.A embeddedSecondOrderThreeStageEsdirk.b 2
    (by decide +kernel)

theorem embeddedSecondOrderThreeStageEsdirk_emb_sharp :
    ¬ OrderConditionsWithin 0
      (embeddedSecondOrderThreeStageEsdirk.map embQ2).A (embeddedSecondOrderThreeStageEsdirk.map embQ2).bhat 2 :=
  sharp_of_check embQ2 isNonzero _
    (isNonzero_sound embQ2) embeddedSecondOrderThreeStageEsdirk.A embeddedSecondOrderThreeStageEsdirk.bhat 1
    (by decide +kernel)

theorem embeddedThirdOrderThreeStageSdirk1_main_sharp :
    ¬ OrderConditionsWithin (((1 / 10 ^ 27 : ℚ)) : ℝ)
      (embeddedThirdOrderThreeStageSdirk1.map (Rat.castHom ℝ)).A (embeddedThirdOrderThreeStageSdirk1.map (Rat.castHom ℝ)).b 4 :=
  sharp_of_check (Rat.castHom ℝ) (ratBeyond (1 / 10 ^ 27)) _
    (ratBeyond_sound (1 / 10 ^ 27)) embeddedThirdOrderThreeStageSdirk1.A embeddedThirdOrderThreeStageSdirk1.b 3
    (by decide +kernel)

theorem embeddedThirdOrderThreeStageSdirk1_emb_sharp :
    ¬ OrderConditionsWithin 0
      (embeddedThirdOrderThreeStageSdirk1.map (Rat.castHom ℝ)).A (embeddedThirdOrderThreeStageSdirk1.map (Rat.castHom ℝ)).bhat 3 :=
  sharp_of_check (Rat.castHom ℝ) isNonzero _
    (isNonzero_sound (Rat.castHom ℝ)) embeddedThirdOrderThreeStageSdirk1.A embeddedThirdOrderThreeStageSdirk1.bhat 2
    (by decide +kernel)

theorem embeddedThirdOrderThreeStageSdirk2_main_sharp :
    ¬ OrderConditionsWithin 0
      (embeddedThirdOrderThreeStageSdirk2.map (Rat.castHom ℝ)).A (embeddedThirdOrderThreeStageSdirk2.map (Rat.castHom ℝ)).b 4 :=
  sharp_of_check (Rat.castHom ℝ) isNonzero _
    (isNonzero_sound (Rat.castHom ℝ)) embeddedThirdOrderThreeStageSdirk2.A embeddedThirdOrderThreeStageSdirk2.b 3
    (by decide +kernel)

theorem embeddedThirdOrderThreeStageSdirk2_emb_sharp :
    ¬ OrderConditionsWithin 0
      (embeddedThirdOrderThreeStageSdirk2.map (Rat.castHom ℝ)).A (embeddedThirdOrderThreeStageSdirk2.map (Rat.castHom ℝ)).bhat 3 :=
  sharp_of_check (Rat.castHom ℝ) isNonzero _
    (isNonzero_sound (Rat.castHom ℝ)) embeddedThirdOrderThreeStageSdirk2.A embeddedThirdOrderThreeStageSdirk2.bhat 2
    (by decide +kernel)

theorem embeddedThirdOrderThreeStageEsdirk_main_sharp :
    ¬ OrderConditionsWithin 0
      (embeddedThirdOrderThreeStageEsdirk.map embQ3r).A (embeddedThirdOrderThreeStageEsdirk.map embQ3r).b 4 :=
  sharp_of_check embQ3r isNonzero _
    (isNonzero_sound embQ3r) embeddedThirdOrderThreeStageEsdirk.A embeddedThirdOrderThreeStageEsdirk.b 3
    (by decide +kernel)

theorem embeddedThirdOrderThreeStageEsdirk_emb_sharp :
    ¬ OrderConditionsWithin 0
      (embeddedThirdOrderThreeStageEsdirk.map embQ3r).A (embeddedThirdOrderThreeStageEsdirk.map embQ3r).bhat 3 :=
  sharp_of_check embQ3r isNonzero _
    (isNonzero_sound embQ3r) embeddedThirdOrderThreeStageEsdirk.A embeddedThirdOrderThreeStageEsdirk.bhat 2
    (by decide +kernel)

theorem embeddedThirdOrderFourStageSdirk_main_sharp :
    ¬ OrderConditionsWithin 0
      (embeddedThirdOrderFourStageSdirk.map (Rat.castHom ℝ)).A (embeddedThirdOrderFourStageSdirk.map (Rat.castHom ℝ)).b 4 :=
  sharp_of_check (Rat.castHom ℝ) isNonzero _
    (isNonzero_sound (Rat.castHom ℝ)) embeddedThirdOrderFourStageSdirk.A embeddedThirdOrderFourStageSdirk.b 3
    (by decide +kernel)

theorem embeddedThirdOrderFourStageSdirk_emb_sharp :
    ¬ OrderConditionsWithin 0
      (embeddedThirdOrderFourStageSdirk.map (Rat.castHom ℝ)).A (embeddedThirdOrderFourStageSdirk.map (Rat.castHom ℝ)).bhat 3 :=
  sharp_of_check (Rat.castHom ℝ) isNonzero _
    (isNonzero_sound (Rat.castHom ℝ)) embeddedThirdOrderFourStageSdirk.A embeddedThirdOrderFourStageSdirk.bhat 2
    (by decide +kernel)

theorem embeddedThirdOrderSecondWeakStageOrderFourStageDirk_main_sharp :
    ¬ OrderConditionsWithin (((2 / 10 ^ 11 : ℚ)) : ℝ)
      (embeddedThirdOrderSecondWeakStageOrderFourStageDirk.map (Rat.castHom ℝ)).A (embeddedThirdOrderSecondWeakStageOrderFourStageDirk.map (Rat.castHom ℝ)).b 4 :=
  sharp_of_check (Rat.castHom ℝ) (ratBeyond (2 / 10 ^ 11)) _
    (ratBeyond_sound (2 / 10 ^ 11)) embeddedThirdOrderSecondWeakStageOrderFourStageDirk.A embeddedThirdOrderSecondWeakStageOrderFourStageDirk.b 3
    (by decide +kernel)

theorem embeddedThirdOrderSecondWeakStageOrderFourStageDirk_emb_sharp :
    ¬ OrderConditionsWithin (((1 / 10 ^ 11 : ℚ)) : ℝ)
      (embeddedThirdOrderSecondWeakStageOrderFourStageDirk.map (Rat.castHom ℝ)).A (embeddedThirdOrderSecondWeakStageOrderFourStageDirk.map (Rat.castHom ℝ)).bhat 3 :=
  sharp_of_check (Rat.castHom ℝ) (ratBeyond (1 / 10 ^ 11)) _
    (ratBeyond_sound (1 / 10 ^ 11)) embeddedThirdOrderSecondWeakStageOrderFourStageDirk.A embeddedThirdOrderSecondWeakStageOrderFourStageDirk.bhat 2
    (by decide +kernel)

theorem embeddedThirdOrderThirdWeakStageOrderFourStageDirk_main_sharp :
    ¬ OrderConditionsWithin (((2 / 10 ^ 11 : ℚ)) : ℝ)
      (embeddedThirdOrderThirdWeakStageOrderFourStageDirk.map (Rat.castHom ℝ)).A (embeddedThirdOrderThirdWeakStageOrderFourStageDirk.map (Rat.castHom ℝ)).b 4 :=
  sharp_of_check (Rat.castHom ℝ) (ratBeyond (2 / 10 ^ 11)) _
    (ratBeyond_sound (2 / 10 ^ 11)) embeddedThirdOrderThirdWeakStageOrderFourStageDirk.A embeddedThirdOrderThirdWeakStageOrderFourStageDirk.b 3
    (by decide +kernel)

theorem embeddedThirdOrderThirdWeakStageOrderFourStageDirk_emb_sharp :
    ¬ OrderConditionsWithin (((1 / 10 ^ 16 : ℚ)) : ℝ)
      (embeddedThirdOrderThirdWeakStageOrderFourStageDirk.map (Rat.castHom ℝ)).A (embeddedThirdOrderThirdWeakStageOrderFourStageDirk.map (Rat.castHom ℝ)).bhat 3 :=
  sharp_of_check (Rat.castHom ℝ) (ratBeyond (1 / 10 ^ 16)) _
    (ratBeyond_sound (1 / 10 ^ 16)) embeddedThirdOrderThirdWeakStageOrderFourStageDirk.A embeddedThirdOrderThirdWeakStageOrderFourStageDirk.bhat 2
    (by decide +kernel)

theorem embeddedThirdOrderFourStageEsdirk_main_sharp :
    ¬ OrderConditionsWithin 0
      (embeddedThirdOrderFourStageEsdirk.map (Rat.castHom ℝ)).A (embeddedThirdOrderFourStageEsdirk.map (Rat.castHom ℝ)).b 4 :=
  sharp_of_check (Rat.castHom ℝ) isNonzero _
    (isNonzero_sound (Rat.castHom ℝ)) embeddedThirdOrderFourStageEsdirk.A embeddedThirdOrderFourStageEsdirk.b 3
    (by decide +kernel)

theorem embeddedThirdOrderFourStageEsdirk_emb_sharp :
    ¬ OrderConditionsWithin 0
      (embeddedThirdOrderFourStageEsdirk.map (Rat.castHom ℝ)).A (embeddedThirdOrderFourStageEsdirk.map (Rat.castHom ℝ)).bhat 3 :=
  sharp_of_check (Rat.castHom ℝ) isNonzero _
    (isNonzero_sound (Rat.castHom ℝ)) embeddedThirdOrderFourStageEsdirk.A embeddedThirdOrderFourStageEsdirk.bhat 2
    (by decide +kernel)

theorem embeddedThirdOrderFiveStageEsdirk_main_sharp :
    ¬ OrderConditionsWithin 0
      (embeddedThirdOrderFiveStageEsdirk.map embQ2).A (embeddedThirdOrderFiveStageEsdirk.map embQ2).b 4 :=
  sharp_of_check embQ2 isNonzero _
    (isNonzero_sound embQ2) embeddedThirdOrderFiveStageEsdirk.A embeddedThirdOrderFiveStageEsdirk.b 3
    (by decide +kernel)

theorem embeddedThirdOrderFiveStageEsdirk_emb_sharp :
    ¬ OrderConditionsWithin (((1 / 10 ^ 25 : ℚ)) : ℝ)
      (embeddedThirdOrderFiveStageEsdirk.map embQ2).A (embeddedThirdOrderFiveStageEsdirk.map embQ2).bhat 3 :=
  sharp_of_check embQ2 (q2Beyond (1 / 10 ^ 25)) _
    (q2Beyond_sound (1 / 10 ^ 25)) embeddedThirdOrderFiveStageEsdirk.A embeddedThirdOrderFiveStageEsdirk.bhat 2
    (by decide +kernel)

theorem embeddedFourthOrderFourStageSdirk_main_sharp :
    ¬ OrderConditionsWithin 0
      (embeddedFourthOrderFourStageSdirk.map (Rat.castHom ℝ)).A (embeddedFourthOrderFourStageSdirk.map (Rat.castHom ℝ)).b 5 :=
  sharp_of_check (Rat.castHom ℝ) isNonzero _
    (isNonzero_sound (Rat.castHom ℝ)) embeddedFourthOrderFourStageSdirk.A embeddedFourthOrderFourStageSdirk.b 4
    (by decide +kernel)

theorem embeddedFourthOrderFourStageSdirk_emb_sharp :
    ¬ OrderConditionsWithin 0
      (embeddedFourthOrderFourStageSdirk.map (Rat.castHom ℝ)).A (embeddedFourthOrderFourStageSdirk.map (Rat.castHom ℝ)).bhat 4 :=
  sharp_of_check (Rat.castHom ℝ) isNonzero _
    (isNonzero_sound (Rat.castHom ℝ)) embeddedFourthOrderFourStageSdirk.A embeddedFourthOrderFourStageSdirk.bhat 3
    (by decide +kernel)

theorem embeddedFourthOrderFiveStageSdirk_main_sharp :
    ¬ OrderConditionsWithin 0
      (embeddedFourthOrderFiveStageSdirk.map embQ2).A (embeddedFourthOrderFiveStageSdirk.map embQ2).b 5 :=
  sharp_of_check embQ2 isNonzero _
    (isNonzero_sound embQ2) embeddedFourthOrderFiveStageSdirk.A embeddedFourthOrderFiveStageSdirk.b 4
    (by decide +kernel)

theorem embeddedFourthOrderFiveStageSdirk_emb_sharp :
    ¬ OrderConditionsWithin (((1 / 10 ^ 14 : ℚ)) : ℝ)
      (embeddedFourthOrderFiveStageSdirk.map embQ2).A (embeddedFourthOrderFiveStageSdirk.map embQ2).bhat 4 :=
  sharp_of_check embQ2 (q2Beyond (1 / 10 ^ 14)) _
    (q2Beyond_sound (1 / 10 ^ 14)) embeddedFourthOrderFiveStageSdirk.A embeddedFourthOrderFiveStageSdirk.bhat 3
    (by decide +kernel)

theorem embeddedFourthOrderFiveStageEsdirk_main_sharp :
    ¬ OrderConditionsWithin 0
      (embeddedFourthOrderFiveStageEsdirk.map (Rat.castHom ℝ)).A (embeddedFourthOrderFiveStageEsdirk.map (Rat.castHom ℝ)).b 5 :=
  sharp_of_check (Rat.castHom ℝ) isNonzero _
    (isNonzero_sound (Rat.castHom ℝ)) embeddedFourthOrderFiveStageEsdirk.A embeddedFourthOrderFiveStageEsdirk.b 4
    (by decide +kernel)

theorem embeddedFourthOrderFiveStageEsdirk_emb_sharp :
    ¬ OrderConditionsWithin 0
      (embeddedFourthOrderFiveStageEsdirk.map (Rat.castHom ℝ)).A (embeddedFourthOrderFiveStageEsdirk.map (Rat.castHom ℝ)).bhat 4 :=
  sharp_of_check (Rat.castHom ℝ) isNonzero _
    (isNonzero_sound (Rat.castHom ℝ)) embeddedFourthOrderFiveStageEsdirk.A embeddedFourthOrderFiveStageEsdirk.bhat 3
    (by decide +kernel)

theorem embeddedFourthOrderSixStageEsdirk_main_sharp :
    ¬ OrderConditionsWithin 0
      (embeddedFourthOrderSixStageEsdirk.map embQ2).A (embeddedFourthOrderSixStageEsdirk.map embQ2).b 5 :=
  sharp_of_check embQ2 isNonzero _
    (isNonzero_sound embQ2) embeddedFourthOrderSixStageEsdirk.A embeddedFourthOrderSixStageEsdirk.b 4
    (by decide +kernel)

theorem embeddedFourthOrderSixStageEsdirk_emb_sharp :
    ¬ OrderConditionsWithin (((1 / 10 ^ 12 : ℚ)) : ℝ)
      (embeddedFourthOrderSixStageEsdirk.map embQ2).A (embeddedFourthOrderSixStageEsdirk.map embQ2).bhat 4 :=
  sharp_of_check embQ2 (q2Beyond (1 / 10 ^ 12)) _
    (q2Beyond_sound (1 / 10 ^ 12)) embeddedFourthOrderSixStageEsdirk.A embeddedFourthOrderSixStageEsdirk.bhat 3
    (by decide +kernel)

theorem embeddedFourthOrderThirdWeakStageOrderSixStageDirk_main_sharp :
    ¬ OrderConditionsWithin (((1 / 10 ^ 14 : ℚ)) : ℝ)
      (embeddedFourthOrderThirdWeakStageOrderSixStageDirk.map (Rat.castHom ℝ)).A (embeddedFourthOrderThirdWeakStageOrderSixStageDirk.map (Rat.castHom ℝ)).b 5 :=
  sharp_of_check (Rat.castHom ℝ) (ratBeyond (1 / 10 ^ 14)) _
    (ratBeyond_sound (1 / 10 ^ 14)) embeddedFourthOrderThirdWeakStageOrderSixStageDirk.A embeddedFourthOrderThirdWeakStageOrderSixStageDirk.b 4
    (by decide +kernel)

theorem embeddedFourthOrderThirdWeakStageOrderSixStageDirk_emb_sharp :
    ¬ OrderConditionsWithin (((1 / 10 ^ 14 : ℚ)) : ℝ)
      (embeddedFourthOrderThirdWeakStageOrderSixStageDirk.map (Rat.castHom ℝ)).A (embeddedFourthOrderThirdWeakStageOrderSixStageDirk.map (Rat.castHom ℝ)).bhat 4 :=
  sharp_of_check (Rat.castHom ℝ) (ratBeyond (1 / 10 ^ 14)) _
    (ratBeyond_sound (1 / 10 ^ 14)) embeddedFourthOrderThirdWeakStageOrderSixStageDirk.A embeddedFourthOrderThirdWeakStageOrderSixStageDirk.bhat 3
    (by decide +kernel)

theorem embeddedRungeKuttaFehlberg_main_sharp :
    ¬ OrderConditionsWithin 0
      (embeddedRungeKuttaFehlberg.map (Rat.castHom ℝ)).A (embeddedRungeKuttaFehlberg.map (Rat.castHom ℝ)).b 6 :=
  sharp_of_check (Rat.castHom ℝ) isNonzero _
    (isNonzero_sound (Rat.castHom ℝ)) embeddedRungeKuttaFehlberg.A embeddedRungeKuttaFehlberg.b 5
    (by decide +kernel)

theorem embeddedRungeKuttaFehlberg_emb_sharp :
    ¬ OrderConditionsWithin 0
      (embeddedRungeKuttaFehlberg.map (Rat.castHom ℝ)).A (embeddedRungeKuttaFehlberg.map (Rat.castHom ℝ)).bhat 5 :=
  sharp_of_check (Rat.castHom ℝ) isNonzero _
    (isNonzero_sound (Rat.castHom ℝ)) embeddedRungeKuttaFehlberg.A embeddedRungeKuttaFehlberg.bhat 4
    (by decide +kernel)

theorem embeddedFifthOrderSixStageEsdirk_main_sharp :
    ¬ OrderConditionsWithin (((1 / 10 ^ 25 : ℚ)) : ℝ)
      (embeddedFifthOrderSixStageEsdirk.map (Rat.castHom ℝ)).A (embeddedFifthOrderSixStageEsdirk.map (Rat.castHom ℝ)).b 6 :=
  sharp_of_check (Rat.castHom ℝ) (ratBeyond (1 / 10 ^ 25)) _
    (ratBeyond_sound (1 / 10 ^ 25)) embeddedFifthOrderSixStageEsdirk.A embeddedFifthOrderSixStageEsdirk.b 5
    (by decide +kernel)

theorem embeddedFifthOrderSixStageEsdirk_emb_sharp :
    ¬ OrderConditionsWithin (((1 / 10 ^ 12 : ℚ)) : ℝ)
      (embeddedFifthOrderSixStageEsdirk.map (Rat.castHom ℝ)).A (embeddedFifthOrderSixStageEsdirk.map (Rat.castHom ℝ)).bhat 5 :=
  sharp_of_check (Rat.castHom ℝ) (ratBeyond (1 / 10 ^ 12)) _
    (ratBeyond_sound (1 / 10 ^ 12)) embeddedFifthOrderSixStageEsdirk.A embeddedFifthOrderSixStageEsdirk.bhat 4
    (by decide +kernel)

end Verif.Tableau
