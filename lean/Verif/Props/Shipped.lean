/-
Properties of the shipped tableaux (C05).

`plainShipped` and `embShipped` (Verif/Tableau/Shipped.lean) list the 24 tableaux exported by
/repo/src/rkopenmdao/butcher_tableaux.py over `ℝ` together with the accuracy claimed for their
coefficients; accuracy `0` means that the conditions hold exactly.
-/
import Verif.Tableau.ShippedSharp
import Verif.Props.Tableau

namespace Verif.Props

open Verif.Tableau

/-- Every plain shipped tableau reports an order `p`, has zeros above the diagonal, is consistent
and satisfies all order conditions up to `p`. -/
theorem C05_plain_tableaux : ∀ e ∈ plainShipped, ∃ p, e.tab.p = some p ∧
    |(∑ i, e.tab.b i) - 1| ≤ e.tol ∧ (∀ i, |(∑ j, e.tab.A i j) - e.tab.c i| ≤ e.tol) ∧
    RK.Spec.LowerTriangular e.tab.A ∧ OrderConditionsWithin e.tol e.tab.A e.tab.b p := by
  intro e he
  suffices h : ∃ p, e.tab.p = some p ∧ Claim e.tab.A e.tab.b e.tab.c e.tol p by
    obtain ⟨p, h1, h2⟩ := h
    exact ⟨p, h1, h2.weightSum, h2.rowSums, h2.lower, h2.order⟩
  simp only [plainShipped, List.mem_cons, List.not_mem_nil, or_false] at he
  rcases he with rfl | rfl | rfl | rfl | rfl | rfl
  · exact ⟨1, rfl, explicitEuler_main⟩
  · exact ⟨1, rfl, implicitEuler_main⟩
  · exact ⟨2, rfl, implicitMidpoint_main⟩
  · exact ⟨3, rfl, thirdOrderTwoStageSdirk_main⟩
  · exact ⟨4, rfl, rungeKuttaFour_main⟩
  · exact ⟨5, rfl, by simpa using fifthOrderFiveStageSdirk_main⟩

/-- Every embedded shipped tableau reports orders `p` and `phat`, has zeros above the diagonal,
is consistent with both weight vectors, and the main and embedded weights satisfy all order
conditions up to `p` and `phat`, respectively. -/
theorem C05_embedded_tableaux : ∀ e ∈ embShipped, ∃ p q, e.tab.p = some p ∧ e.tab.phat = some q ∧
    |(∑ i, e.tab.b i) - 1| ≤ e.tol ∧ |(∑ i, e.tab.bhat i) - 1| ≤ e.tolHat ∧
    (∀ i, |(∑ j, e.tab.A i j) - e.tab.c i| ≤ e.tol) ∧ RK.Spec.LowerTriangular e.tab.A ∧
    OrderConditionsWithin e.tol e.tab.A e.tab.b p ∧
    OrderConditionsWithin e.tolHat e.tab.A e.tab.bhat q := by
  intro e he
  suffices h : ∃ p q, e.tab.p = some p ∧ e.tab.phat = some q ∧
      Claim e.tab.A e.tab.b e.tab.c e.tol p ∧ Claim e.tab.A e.tab.bhat e.tab.c e.tolHat q by
    obtain ⟨p, q, h1, h2, h3, h4⟩ := h
    exact ⟨p, q, h1, h2, h3.weightSum, h4.weightSum, h3.rowSums, h3.lower, h3.order, h4.order⟩
  simp only [embShipped, List.mem_cons, List.not_mem_nil, or_false] at he
  rcases he with rfl | rfl | rfl | rfl | rfl | rfl | rfl | rfl | rfl |
      rfl | rfl | rfl | rfl | rfl | rfl | rfl | rfl | rfl
  · exact ⟨2, 1, rfl, rfl, embeddedHeunEuler_main,
      embeddedHeunEuler_emb⟩
  · exact ⟨2, 1, rfl, rfl, embeddedSecondOrderTwoStageSdirk_main,
      embeddedSecondOrderTwoStageSdirk_emb⟩
  · exact ⟨2, 1, rfl, rfl, embeddedSecondOrderThreeStageEsdirk_main,
      embeddedSecondOrderThreeStageEsdirk_emb⟩
  · exact ⟨3, 2, rfl, rfl, by simpa using embeddedThirdOrderThreeStageSdirk1_main,
      embeddedThirdOrderThreeStageSdirk1_emb⟩
  · exact ⟨3, 2, rfl, rfl, embeddedThirdOrderThreeStageSdirk2_main,
      embeddedThirdOrderThreeStageSdirk2_emb⟩
  · exact ⟨3, 2, rfl, rfl, embeddedThirdOrderThreeStageEsdirk_main,
      embeddedThirdOrderThreeStageEsdirk_emb⟩
  · exact ⟨3, 2, rfl, rfl, embeddedThirdOrderFourStageSdirk_main,
      embeddedThirdOrderFourStageSdirk_emb⟩
  · exact ⟨3, 2, rfl, rfl, by simpa using embeddedThirdOrderSecondWeakStageOrderFourStageDirk_main,
      by simpa using embeddedThirdOrderSecondWeakStageOrderFourStageDirk_emb⟩
  · exact ⟨3, 2, rfl, rfl, by simpa using embeddedThirdOrderThirdWeakStageOrderFourStageDirk_main,
      by simpa using embeddedThirdOrderThirdWeakStageOrderFourStageDirk_emb⟩
  · exact ⟨3, 2, rfl, rfl, embeddedThirdOrderFourStageEsdirk_main,
      embeddedThirdOrderFourStageEsdirk_emb⟩
  · exact ⟨3, 2, rfl, rfl, embeddedThirdOrderFiveStageEsdirk_main,
      by simpa using embeddedThirdOrderFiveStageEsdirk_emb⟩
  · exact ⟨4, 3, rfl, rfl, embeddedFourthOrderFourStageSdirk_main,
      embeddedFourthOrderFourStageSdirk_emb⟩
  · exact ⟨4, 3, rfl, rfl, embeddedFourthOrderFiveStageSdirk_main,
      by simpa using embeddedFourthOrderFiveStageSdirk_emb⟩
  · exact ⟨4, 3, rfl, rfl, embeddedFourthOrderFiveStageEsdirk_main,
      embeddedFourthOrderFiveStageEsdirk_emb⟩
  · exact ⟨4, 3, rfl, rfl, embeddedFourthOrderSixStageEsdirk_main,
      by simpa using embeddedFourthOrderSixStageEsdirk_emb⟩
  · exact ⟨4, 3, rfl, rfl, by simpa using embeddedFourthOrderThirdWeakStageOrderSixStageDirk_main,
      by simpa using embeddedFourthOrderThirdWeakStageOrderSixStageDirk_emb⟩
  · exact ⟨5, 4, rfl, rfl, embeddedRungeKuttaFehlberg_main,
      embeddedRungeKuttaFehlberg_emb⟩
  · exact ⟨5, 4, rfl, rfl, by simpa using embeddedFifthOrderSixStageEsdirk_main,
      by simpa using embeddedFifthOrderSixStageEsdirk_emb⟩

/-- Tableaux given in closed form satisfy the conditions exactly. -/
theorem C05_closed_form_exact :
    (∀ e ∈ plainShipped, e.tol = 0 → ∃ p, e.tab.p = some p ∧ ∑ i, e.tab.b i = 1 ∧
      (∀ i, ∑ j, e.tab.A i j = e.tab.c i) ∧ OrderConditions e.tab.A e.tab.b p) ∧
    (∀ e ∈ embShipped, e.tol = 0 → ∃ p, e.tab.p = some p ∧ ∑ i, e.tab.b i = 1 ∧
      (∀ i, ∑ j, e.tab.A i j = e.tab.c i) ∧ OrderConditions e.tab.A e.tab.b p) ∧
    (∀ e ∈ embShipped, e.tolHat = 0 → ∃ q, e.tab.phat = some q ∧ ∑ i, e.tab.bhat i = 1 ∧
      OrderConditions e.tab.A e.tab.bhat q) := by
  refine ⟨fun e he h0 => ?_, fun e he h0 => ?_, fun e he h0 => ?_⟩
  · obtain ⟨p, h1, h2, h3, -, h5⟩ := C05_plain_tableaux e he
    rw [h0] at h2 h3 h5
    exact ⟨p, h1, sub_eq_zero.mp (abs_nonpos_iff.mp h2),
      fun i => sub_eq_zero.mp (abs_nonpos_iff.mp (h3 i)),
      fun t ht => sub_eq_zero.mp (abs_nonpos_iff.mp (h5 t ht))⟩
  · obtain ⟨p, q, h1, -, h2, -, h3, -, h5, -⟩ := C05_embedded_tableaux e he
    rw [h0] at h2 h3 h5
    exact ⟨p, h1, sub_eq_zero.mp (abs_nonpos_iff.mp h2),
      fun i => sub_eq_zero.mp (abs_nonpos_iff.mp (h3 i)),
      fun t ht => sub_eq_zero.mp (abs_nonpos_iff.mp (h5 t ht))⟩
  · obtain ⟨p, q, -, h1, -, h2, -, -, -, h5⟩ := C05_embedded_tableaux e he
    rw [h0] at h2 h5
    exact ⟨q, h1, sub_eq_zero.mp (abs_nonpos_iff.mp h2),
      fun t ht => sub_eq_zero.mp (abs_nonpos_iff.mp (h5 t ht))⟩

/-- All 24 tableaux are listed and all accuracies are at most `2e-11`. -/
theorem C05_accuracies :
    plainShipped.length = 6 ∧ embShipped.length = 18 ∧
    (∀ e ∈ plainShipped, e.tol ≤ 2 / 10 ^ 11) ∧
    (∀ e ∈ embShipped, e.tol ≤ 2 / 10 ^ 11 ∧ e.tolHat ≤ 2 / 10 ^ 11) := by
  refine ⟨rfl, rfl, ?_, ?_⟩ <;> simp only [plainShipped, embShipped, List.forall_mem_cons] <;>
    norm_num

/-- The code classifies every shipped tableau as explicit or diagonally implicit. -/
theorem C05_explicit_or_diagonally_implicit :
    (∀ e ∈ plainShipped, isExplicit e.tab = true ∨ isDiagonallyImplicit e.tab = true) ∧
    (∀ e ∈ embShipped, isExplicit e.tab.toTableau = true ∨
      isDiagonallyImplicit e.tab.toTableau = true) := by
  have key : ∀ T : Tableau ℝ, RK.Spec.LowerTriangular T.A →
      isExplicit T = true ∨ isDiagonallyImplicit T = true := by
    intro T hT
    have h := C03_implicit_iff T
    have h1 : ¬ HasUpper T := fun ⟨i, j, hij, hne⟩ => hne (hT i j hij)
    rcases Bool.eq_false_or_eq_true (isImplicit T) with h2 | h2
    · exact absurd (h.mp h2) h1
    · unfold isImplicit at h2
      by_cases h3 : (isExplicit T || isDiagonallyImplicit T) = true
      · exact Bool.or_eq_true _ _ ▸ h3
      · simp [h3] at h2
  refine ⟨fun e he => ?_, fun e he => ?_⟩
  · obtain ⟨p, -, -, -, h, -⟩ := C05_plain_tableaux e he
    exact key _ h
  · obtain ⟨p, q, -, -, -, -, -, h, -⟩ := C05_embedded_tableaux e he
    exact key _ h

/-- The reported orders are the exact orders: at the next order some condition fails by more than
the accuracy of the coefficients. -/
theorem C05_orders_are_sharp :
    (∀ e ∈ plainShipped, ∃ p, e.tab.p = some p ∧
      ¬ OrderConditionsWithin e.tol e.tab.A e.tab.b (p + 1)) ∧
    (∀ e ∈ embShipped, ∃ p q, e.tab.p = some p ∧ e.tab.phat = some q ∧ p ≠ q ∧
      ¬ OrderConditionsWithin e.tol e.tab.A e.tab.b (p + 1) ∧
      ¬ OrderConditionsWithin e.tolHat e.tab.A e.tab.bhat (q + 1)) := by
  refine ⟨fun e he => ?_, fun e he => ?_⟩
  · simp only [plainShipped, List.mem_cons, List.not_mem_nil, or_false] at he
    rcases he with rfl | rfl | rfl | rfl | rfl | rfl
    · exact ⟨1, rfl, explicitEuler_main_sharp⟩
    · exact ⟨1, rfl, implicitEuler_main_sharp⟩
    · exact ⟨2, rfl, implicitMidpoint_main_sharp⟩
    · exact ⟨3, rfl, thirdOrderTwoStageSdirk_main_sharp⟩
    · exact ⟨4, rfl, rungeKuttaFour_main_sharp⟩
    · exact ⟨5, rfl, by simpa using fifthOrderFiveStageSdirk_main_sharp⟩
  · simp only [embShipped, List.mem_cons, List.not_mem_nil, or_false] at he
    rcases he with rfl | rfl | rfl | rfl | rfl | rfl | rfl | rfl | rfl |
        rfl | rfl | rfl | rfl | rfl | rfl | rfl | rfl | rfl
    · exact ⟨2, 1, rfl, rfl, by decide, embeddedHeunEuler_main_sharp,
        embeddedHeunEuler_emb_sharp⟩
    · exact ⟨2, 1, rfl, rfl, by decide, embeddedSecondOrderTwoStageSdirk_main_sharp,
        embeddedSecondOrderTwoStageSdirk_emb_sharp⟩
    · exact ⟨2, 1, rfl, rfl, by decide, embeddedSecondOrderThreeStageEsdirk_main_sharp,
        embeddedSecondOrderThreeStageEsdirk_emb_sharp⟩
    · exact ⟨3, 2, rfl, rfl, by decide, by simpa using embeddedThirdOrderThreeStageSdirk1_main_sharp,
        embeddedThirdOrderThreeStageSdirk1_emb_sharp⟩
    · exact ⟨3, 2, rfl, rfl, by decide, embeddedThirdOrderThreeStageSdirk2_main_sharp,
        embeddedThirdOrderThreeStageSdirk2_emb_sharp⟩
    · exact ⟨3, 2, rfl, rfl, by decide, embeddedThirdOrderThreeStageEsdirk_main_sharp,
        embeddedThirdOrderThreeStageEsdirk_emb_sharp⟩
    · exact ⟨3, 2, rfl, rfl, by decide, embeddedThirdOrderFourStageSdirk_main_sharp,
        embeddedThirdOrderFourStageSdirk_emb_sharp⟩
    · exact ⟨3, 2, rfl, rfl, by decide, by simpa using embeddedThirdOrderSecondWeakStageOrderFourStageDirk_main_sharp,
        by simpa using embeddedThirdOrderSecondWeakStageOrderFourStageDirk_emb_sharp⟩
    · exact ⟨3, 2, rfl, rfl, by decide, by simpa using embeddedThirdOrderThirdWeakStageOrderFourStageDirk_main_sharp,
        by simpa using embeddedThirdOrderThirdWeakStageOrderFourStageDirk_emb_sharp⟩
    · exact ⟨3, 2, rfl, rfl, by decide, embeddedThirdOrderFourStageEsdirk_main_sharp,
        embeddedThirdOrderFourStageEsdirk_emb_sharp⟩
    · exact ⟨3, 2, rfl, rfl, by decide, embeddedThirdOrderFiveStageEsdirk_main_sharp,
        by simpa using embeddedThirdOrderFiveStageEsdirk_emb_sharp⟩
    · exact ⟨4, 3, rfl, rfl, by decide, embeddedFourthOrderFourStageSdirk_main_sharp,
        embeddedFourthOrderFourStageSdirk_emb_sharp⟩
    · exact ⟨4, 3, rfl, rfl, by decide, embeddedFourthOrderFiveStageSdirk_main_sharp,
        by simpa using embeddedFourthOrderFiveStageSdirk_emb_sharp⟩
    · exact ⟨4, 3, rfl, rfl, by decide, embeddedFourthOrderFiveStageEsdirk_main_sharp,
        embeddedFourthOrderFiveStageEsdirk_emb_sharp⟩
    · exact ⟨4, 3, rfl, rfl, by decide, embeddedFourthOrderSixStageEsdirk_main_sharp,
        by simpa using embeddedFourthOrderSixStageEsdirk_emb_sharp⟩
    · exact ⟨4, 3, rfl, rfl, by decide, by simpa using embeddedFourthOrderThirdWeakStageOrderSixStageDirk_main_sharp,
        by simpa using embeddedFourthOrderThirdWeakStageOrderSixStageDirk_emb_sharp⟩
    · exact ⟨5, 4, rfl, rfl, by decide, embeddedRungeKuttaFehlberg_main_sharp,
        embeddedRungeKuttaFehlberg_emb_sharp⟩
    · exact ⟨5, 4, rfl, rfl, by decide, by simpa using embeddedFifthOrderSixStageEsdirk_main_sharp,
        by simpa using embeddedFifthOrderSixStageEsdirk_emb_sharp⟩

-- The lists are not empty; e.g. the classical Runge-Kutta method is exact of order four.
example : ⟨rungeKuttaFour.map (Rat.castHom ℝ), 0⟩ ∈ plainShipped := by simp [plainShipped]
example : OrderConditions (rungeKuttaFour.map (Rat.castHom ℝ)).A
    (rungeKuttaFour.map (Rat.castHom ℝ)).b 4 := by
  obtain ⟨p, h1, -, -, h2⟩ := C05_closed_form_exact.1
    ⟨rungeKuttaFour.map (Rat.castHom ℝ), 0⟩ (by simp [plainShipped]) rfl
  have : p = 4 := by
    have h3 : (rungeKuttaFour.map (Rat.castHom ℝ)).p = some 4 := rfl
    rw [h3] at h1
    exact (Option.some.inj h1).symm
  exact this ▸ h2

end Verif.Props
