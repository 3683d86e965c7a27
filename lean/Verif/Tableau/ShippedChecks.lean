/-
Kernel evaluated checks of the shipped tableaux in their number fields, and the transfer to `ℝ`.
-/
import Verif.Tableau.Shipped
import Verif.Tableau.Order
import Verif.RK.Spec

namespace Verif.Tableau

mutual
theorem weight_map {R S : Type} [CommSemiring R] [CommSemiring S] {s : ℕ} (φ : R →+* S)
    (A : Fin s → Fin s → R) : ∀ (t : RTree) (i : Fin s),
      φ (t.weight A i) = t.weight (fun i j => φ (A i j)) i
  | .node ts, i => by
    simp only [RTree.weight]
    exact weightL_map φ A ts i
theorem weightL_map {R S : Type} [CommSemiring R] [CommSemiring S] {s : ℕ} (φ : R →+* S)
    (A : Fin s → Fin s → R) : ∀ (ts : List RTree) (i : Fin s),
      φ (weightL A ts i) = weightL (fun i j => φ (A i j)) ts i
  | [], i => by simp [weightL]
  | t :: ts, i => by
    simp only [weightL, map_mul, map_sum]
    rw [weightL_map φ A ts i]
    congr 1
    exact Finset.sum_congr rfl fun j _ => by rw [weight_map φ A t j]
end

section
variable {R : Type} [Field R] {s : ℕ}

/-- All order conditions up to `p + 1`, each residual tested by `bd`. -/
def checkOrder (bd : R → Bool) (A : Fin s → Fin s → R) (b : Fin s → R) (p : ℕ) : Bool :=
  (forests p).all fun f =>
    bd ((∑ i, b i * (RTree.node f).weight A i) - 1 / (((RTree.node f).density : ℕ) : R))

/-- Row sums and weight sum, each residual tested by `bd`, and zeros above the diagonal. -/
def checkConsistent [DecidableEq R] (bd : R → Bool) (A : Fin s → Fin s → R) (b c : Fin s → R) :
    Bool :=
  bd ((∑ i, b i) - 1) && ((List.finRange s).all fun i => bd ((∑ j, A i j) - c i))
    && ((List.finRange s).all fun i => (List.finRange s).all fun j =>
      if i < j then decide (A i j = 0) else true)

theorem checkOrder_sound (φ : R →+* ℝ) (bd : R → Bool) (ε : ℝ)
    (hbd : ∀ x, bd x = true → |φ x| ≤ ε) (A : Fin s → Fin s → R) (b : Fin s → R) (p : ℕ)
    (h : checkOrder bd A b p = true) :
    OrderConditionsWithin ε (fun i j => φ (A i j)) (fun i => φ (b i)) (p + 1) := by
  refine forall_tree_of_forests (P := fun t => |(∑ i, φ (b i) * t.weight (fun i j => φ (A i j)) i)
    - 1 / (t.density : ℝ)| ≤ ε) p ?_
  intro f hf
  have h1 := hbd _ (List.all_eq_true.mp h f hf)
  rw [map_sub, map_sum, map_div₀, map_one, map_natCast] at h1
  simp only [map_mul, weight_map] at h1
  exact h1

theorem checkConsistent_sound [DecidableEq R] (φ : R →+* ℝ) (bd : R → Bool) (ε : ℝ)
    (hbd : ∀ x, bd x = true → |φ x| ≤ ε) (A : Fin s → Fin s → R) (b c : Fin s → R)
    (h : checkConsistent bd A b c = true) :
    |(∑ i, φ (b i)) - 1| ≤ ε ∧ (∀ i, |(∑ j, φ (A i j)) - φ (c i)| ≤ ε)
      ∧ RK.Spec.LowerTriangular (fun i j => φ (A i j)) := by
  unfold checkConsistent at h
  rw [Bool.and_eq_true, Bool.and_eq_true] at h
  obtain ⟨⟨h1, h2⟩, h3⟩ := h
  refine ⟨?_, fun i => ?_, fun i j hij => ?_⟩
  · have := hbd _ h1
    rwa [map_sub, map_sum, map_one] at this
  · have := hbd _ (List.all_eq_true.mp h2 i (List.mem_finRange i))
    rwa [map_sub, map_sum] at this
  · have := List.all_eq_true.mp (List.all_eq_true.mp h3 i (List.mem_finRange i)) j
      (List.mem_finRange j)
    rw [if_pos hij, decide_eq_true_eq] at this
    change φ (A i j) = 0
    rw [this, map_zero]

end

/-- Exact test. -/
def isZero {R : Type} [Zero R] [DecidableEq R] (x : R) : Bool := decide (x = 0)

theorem isZero_sound {R : Type} [Field R] [DecidableEq R] (φ : R →+* ℝ) (x : R)
    (h : isZero x = true) : |φ x| ≤ 0 := by
  rw [of_decide_eq_true h, map_zero, abs_zero]

/-- Test of a rational against a bound. -/
def ratWithin (ε x : ℚ) : Bool := decide (|x| ≤ ε)

theorem ratWithin_sound (ε x : ℚ) (h : ratWithin ε x = true) :
    |Rat.castHom ℝ x| ≤ (ε : ℝ) := by
  have h1 : |x| ≤ ε := of_decide_eq_true h
  rw [Rat.coe_castHom, ← Rat.cast_abs]
  exact_mod_cast h1

/-- A rational approximation of `√2` and its error bound. -/
def approxSqrt2 : ℚ := 1.41421356237309504880168872420969807856967187537694

theorem sqrt2_approx : |√2 - (approxSqrt2 : ℝ)| ≤ 1 / 10 ^ 45 := by
  rw [abs_le]
  constructor
  · rw [neg_le_sub_iff_le_add, ← sub_le_iff_le_add]
    exact Real.le_sqrt_of_sq_le (by norm_num [approxSqrt2])
  · rw [sub_le_iff_le_add]
    exact (Real.sqrt_le_left (by norm_num [approxSqrt2])).mpr (by norm_num [approxSqrt2])

/-- Test of an element of `ℚ(√2)` against a bound. -/
def q2Within (ε : ℚ) (x : Q2) : Bool :=
  decide (|x.re + x.im * approxSqrt2| + |x.im| * (1 / 10 ^ 45) ≤ ε)

theorem q2Within_sound (ε : ℚ) (x : Q2) (h : q2Within ε x = true) : |embQ2 x| ≤ (ε : ℝ) := by
  have h1 : |x.re + x.im * approxSqrt2| + |x.im| * (1 / 10 ^ 45) ≤ ε := of_decide_eq_true h
  have h2 := sqrt2_approx
  have h3 : ((|x.re + x.im * approxSqrt2| + |x.im| * (1 / 10 ^ 45) : ℚ) : ℝ) ≤ (ε : ℝ) := by
    exact_mod_cast h1
  push_cast at h3
  rw [embQ2_apply]
  have e : (x.re : ℝ) + x.im * √2
      = (x.re + x.im * (approxSqrt2 : ℝ)) + x.im * (√2 - (approxSqrt2 : ℝ)) := by ring
  rw [e]
  refine (abs_add_le _ _).trans (le_trans ?_ h3)
  rw [abs_mul]
  gcongr

/-- What is claimed of one weight vector of a shipped tableau. -/
structure Claim {s : ℕ} (A : Fin s → Fin s → ℝ) (b c : Fin s → ℝ) (ε : ℝ) (p : ℕ) : Prop where
  weightSum : |(∑ i, b i) - 1| ≤ ε
  rowSums : ∀ i, |(∑ j, A i j) - c i| ≤ ε
  lower : RK.Spec.LowerTriangular A
  order : OrderConditionsWithin ε A b p

theorem claim_of_checks {R : Type} [Field R] [DecidableEq R] {s : ℕ} (φ : R →+* ℝ)
    (bd : R → Bool) (ε : ℝ) (hbd : ∀ x, bd x = true → |φ x| ≤ ε) (A : Fin s → Fin s → R)
    (b c : Fin s → R) (p : ℕ) (h1 : checkConsistent bd A b c = true)
    (h2 : checkOrder bd A b p = true) :
    Claim (fun i j => φ (A i j)) (fun i => φ (b i)) (fun i => φ (c i)) ε (p + 1) := by
  obtain ⟨h3, h4, h5⟩ := checkConsistent_sound φ bd ε hbd A b c h1
  exact ⟨h3, h4, h5, checkOrder_sound φ bd ε hbd A b p h2⟩

theorem explicitEuler_main : Claim (explicitEuler.map (Rat.castHom ℝ)).A (explicitEuler.map (Rat.castHom ℝ)).b
    (explicitEuler.map (Rat.castHom ℝ)).c 0 1 :=
  claim_of_checks (Rat.castHom ℝ) isZero _ (isZero_sound (Rat.castHom ℝ)) explicitEuler.A explicitEuler.b explicitEuler.c 0
    (by decide +kernel) (by decide +kernel)

theorem implicitEuler_main : Claim (implicitEuler.map (Rat.castHom ℝ)).A (implicitEuler.map (Rat.castHom ℝ)).b
    (implicitEuler.map (Rat.castHom ℝ)).c 0 1 :=
  claim_of_checks (Rat.castHom ℝ) isZero _ (isZero_sound (Rat.castHom ℝ)) implicitEuler.A implicitEuler.b implicitEuler.c 0
    (by decide +kernel) (by decide +kernel)

theorem implicitMidpoint_main : Claim (implicitMidpoint.map (Rat.castHom ℝ)).A (implicitMidpoint.map (Rat.castHom ℝ)).b
    (implicitMidpoint.map (Rat.castHom ℝ)).c 0 2 :=
  claim_of_checks (Rat.castHom ℝ) isZero _ (isZero_sound (Rat.castHom ℝ)) implicitMidpoint.A implicitMidpoint.b implicitMidpoint.c 1
    (by decide +kernel) (by decide +kernel)

theorem thirdOrderTwoStageSdirk_main : Claim (thirdOrderTwoStageSdirk.map embQ3).A (thirdOrderTwoStageSdirk.map embQ3).b
    (thirdOrderTwoStageSdirk.map embQ3).c 0 3 :=
  claim_of_checks embQ3 isZero _ (isZero_sound embQ3) thirdOrderTwoStageSdirk.A thirdOrderTwoStageSdirk.b thirdOrderTwoStageSdirk.c 2
    (by decide +kernel) (by decide +kernel)

theorem rungeKuttaFour_main : Claim (rungeKuttaFour.map (Rat.castHom ℝ)).A (rungeKuttaFour.map (Rat.castHom ℝ)).b
    (rungeKuttaFour.map (Rat.castHom ℝ)).c 0 4 :=
  claim_of_checks (Rat.castHom ℝ) isZero _ (isZero_sound (Rat.castHom ℝ)) rungeKuttaFour.A rungeKuttaFour.b rungeKuttaFour.c 3
    (by decide +kernel) (by decide +kernel)

theorem fifthOrderFiveStageSdirk_main : Claim (fifthOrderFiveStageSdirk.map (Rat.castHom ℝ)).A (fifthOrderFiveStageSdirk.map (Rat.castHom ℝ)).b
    (fifthOrderFiveStageSdirk.map (Rat.castHom ℝ)).c (((1 / 10 ^ 25 : ℚ)) : ℝ) 5 :=
  claim_of_checks (Rat.castHom ℝ) (ratWithin (1 / 10 ^ 25)) _ (ratWithin_sound (1 / 10 ^ 25)) fifthOrderFiveStageSdirk.A fifthOrderFiveStageSdirk.b fifthOrderFiveStageSdirk.c 4
    (by decide +kernel) (by decide +kernel)

theorem embeddedHeunEuler_main : Claim (embeddedHeunEuler.map (Rat.castHom ℝ)).A (embeddedHeunEuler.map (Rat.castHom ℝ)).b
    (embeddedHeunEuler.map (Rat.castHom ℝ)).c 0 2 :=
  claim_of_checks (Rat.castHom ℝ) isZero _ (isZero_sound (Rat.castHom ℝ)) embeddedHeunEuler.A embeddedHeunEuler.b embeddedHeunEuler.c 1
    (by decide +kernel) (by decide +kernel)

theorem embeddedHeunEuler_emb : Claim (embeddedHeunEuler.map (Rat.castHom ℝ)).A (embeddedHeunEuler.map (Rat.castHom ℝ)).bhat
    (embeddedHeunEuler.map (Rat.castHom ℝ)).c 0 1 :=
  claim_of_checks (Rat.castHom ℝ) isZero _ (isZero_sound (Rat.castHom ℝ)) embeddedHeunEuler.A embeddedHeunEuler.bhat embeddedHeunEuler.c 0
    (by decide +kernel) (by decide +kernel)

theorem embeddedSecondOrderTwoStageSdirk_main : Claim (embeddedSecondOrderTwoStageSdirk.map embQ2).A (embeddedSecondOrderTwoStageSdirk.map embQ2).b
    (embeddedSecondOrderTwoStageSdirk.map embQ2).c 0 2 :=
  claim_of_checks embQ2 isZero _ (isZero_sound embQ2) embeddedSecondOrderTwoStageSdirk.A embeddedSecondOrderTwoStageSdirk.b embeddedSecondOrderTwoStageSdirk.c 1
    (by decide +kernel) (by decide +kernel)

theorem embeddedSecondOrderTwoStageSdirk_emb : Claim (embeddedSecondOrderTwoStageSdirk.map embQ2).A (embeddedSecondOrderTwoStageSdirk.map embQ2).bhat
    (embeddedSecondOrderTwoStageSdirk.map embQ2).c 0 1 :=
  claim_of_checks embQ2 isZero _ (isZero_sound embQ2) embeddedSecondOrderTwoStageSdirk.A embeddedSecondOrderTwoStageSdirk.bhat embeddedSecondOrderTwoStageSdirk.c 0
    (by decide +kernel) (by decide +kernel)

theorem embeddedSecondOrderThreeStageEsdirk_main : Claim (embeddedSecondOrderThreeStageEsdirk.map embQ2).A (embeddedSecondOrderThreeStageEsdirk.map embQ2).b
    (embeddedSecondOrderThreeStageEsdirk.map embQ2).c 0 2 :=
  claim_of_checks embQ2 isZero _ (isZero_sound embQ2) embeddedSecondOrderThreeStageEsdirk.A embeddedSecondOrderThreeStageEsdirk.b embeddedSecondOrderThreeStageEsdirk.c 1
    (by decide +kernel) (by decide +kernel)

theorem embeddedSecondOrderThreeStageEsdirk_emb : Claim (embeddedSecondOrderThreeStageEsdirk.map embQ2).A (embeddedSecondOrderThreeStageEsdirk.map embQ2).bhat
    (embeddedSecondOrderThreeStageEsdirk.map embQ2).c 0 1 :=
  claim_of_checks embQ2 isZero _ (isZero_sound embQ2) embeddedSecondOrderThreeStageEsdirk.A embeddedSecondOrderThreeStageEsdirk.bhat embeddedSecondOrderThreeStageEsdirk.c 0
    (by decide +kernel) (by decide +kernel)

theorem embeddedThirdOrderThreeStageSdirk1_main : Claim (embeddedThirdOrderThreeStageSdirk1.map (Rat.castHom ℝ)).A (embeddedThirdOrderThreeStageSdirk1.map (Rat.castHom ℝ)).b
    (embeddedThirdOrderThreeStageSdirk1.map (Rat.castHom ℝ)).c (((1 / 10 ^ 27 : ℚ)) : ℝ) 3 :=
  claim_of_checks (Rat.castHom ℝ) (ratWithin (1 / 10 ^ 27)) _ (ratWithin_sound (1 / 10 ^ 27)) embeddedThirdOrderThreeStageSdirk1.A embeddedThirdOrderThreeStageSdirk1.b embeddedThirdOrderThreeStageSdirk1.c 2
    (by decide +kernel) (by decide +kernel)

theorem embeddedThirdOrderThreeStageSdirk1_emb : Claim (embeddedThirdOrderThreeStageSdirk1.map (Rat.castHom ℝ)).A (embeddedThirdOrderThreeStageSdirk1.map (Rat.castHom ℝ)).bhat
    (embeddedThirdOrderThreeStageSdirk1.map (Rat.castHom ℝ)).c 0 2 :=
  claim_of_checks (Rat.castHom ℝ) isZero _ (isZero_sound (Rat.castHom ℝ)) embeddedThirdOrderThreeStageSdirk1.A embeddedThirdOrderThreeStageSdirk1.bhat embeddedThirdOrderThreeStageSdirk1.c 1
    (by decide +kernel) (by decide +kernel)

theorem embeddedThirdOrderThreeStageSdirk2_main : Claim (embeddedThirdOrderThreeStageSdirk2.map (Rat.castHom ℝ)).A (embeddedThirdOrderThreeStageSdirk2.map (Rat.castHom ℝ)).b
    (embeddedThirdOrderThreeStageSdirk2.map (Rat.castHom ℝ)).c 0 3 :=
  claim_of_checks (Rat.castHom ℝ) isZero _ (isZero_sound (Rat.castHom ℝ)) embeddedThirdOrderThreeStageSdirk2.A embeddedThirdOrderThreeStageSdirk2.b embeddedThirdOrderThreeStageSdirk2.c 2
    (by decide +kernel) (by decide +kernel)

theorem embeddedThirdOrderThreeStageSdirk2_emb : Claim (embeddedThirdOrderThreeStageSdirk2.map (Rat.castHom ℝ)).A (embeddedThirdOrderThreeStageSdirk2.map (Rat.castHom ℝ)).bhat
    (embeddedThirdOrderThreeStageSdirk2.map (Rat.castHom ℝ)).c 0 2 :=
  claim_of_checks (Rat.castHom ℝ) isZero _ (isZero_sound (Rat.castHom ℝ)) embeddedThirdOrderThreeStageSdirk2.A embeddedThirdOrderThreeStageSdirk2.bhat embeddedThirdOrderThreeStageSdirk2.c 1
    (by decide +kernel) (by decide +kernel)

theorem embeddedThirdOrderThreeStageEsdirk_main : Claim (embeddedThirdOrderThreeStageEsdirk.map embQ3r).A (embeddedThirdOrderThreeStageEsdirk.map embQ3r).b
    (embeddedThirdOrderThreeStageEsdirk.map embQ3r).c 0 3 :=
  claim_of_checks embQ3r isZero _ (isZero_sound embQ3r) embeddedThirdOrderThreeStageEsdirk.A embeddedThirdOrderThreeStageEsdirk.b embeddedThirdOrderThreeStageEsdirk.c 2
    (by decide +kernel) (by decide +kernel)

theorem embeddedThirdOrderThreeStageEsdirk_emb : Claim (embeddedThirdOrderThreeStageEsdirk.map embQ3r).A (embeddedThirdOrderThreeStageEsdirk.map embQ3r).bhat
    (embeddedThirdOrderThreeStageEsdirk.map embQ3r).c 0 2 :=
  claim_of_checks embQ3r isZero _ (isZero_sound embQ3r) embeddedThirdOrderThreeStageEsdirk.A embeddedThirdOrderThreeStageEsdirk.bhat embeddedThirdOrderThreeStageEsdirk.c 1
    (by decide +kernel) (by decide +kernel)

theorem embeddedThirdOrderFourStageSdirk_main : Claim (embeddedThirdOrderFourStageSdirk.map (Rat.castHom ℝ)).A (embeddedThirdOrderFourStageSdirk.map (Rat.castHom ℝ)).b
    (embeddedThirdOrderFourStageSdirk.map (Rat.castHom ℝ)).c 0 3 :=
  claim_of_checks (Rat.castHom ℝ) isZero _ (isZero_sound (Rat.castHom ℝ)) embeddedThirdOrderFourStageSdirk.A embeddedThirdOrderFourStageSdirk.b embeddedThirdOrderFourStageSdirk.c 2
    (by decide +kernel) (by decide +kernel)

theorem embeddedThirdOrderFourStageSdirk_emb : Claim (embeddedThirdOrderFourStageSdirk.map (Rat.castHom ℝ)).A (embeddedThirdOrderFourStageSdirk.map (Rat.castHom ℝ)).bhat
    (embeddedThirdOrderFourStageSdirk.map (Rat.castHom ℝ)).c 0 2 :=
  claim_of_checks (Rat.castHom ℝ) isZero _ (isZero_sound (Rat.castHom ℝ)) embeddedThirdOrderFourStageSdirk.A embeddedThirdOrderFourStageSdirk.bhat embeddedThirdOrderFourStageSdirk.c 1
    (by decide +kernel) (by decide +kernel)

theorem embeddedThirdOrderSecondWeakStageOrderFourStageDirk_main : Claim (embeddedThirdOrderSecondWeakStageOrderFourStageDirk.map (Rat.castHom ℝ)).A (embeddedThirdOrderSecondWeakStageOrderFourStageDirk.map (Rat.castHom ℝ)).b
    (embeddedThirdOrderSecondWeakStageOrderFourStageDirk.map (Rat.castHom ℝ)).c (((2 / 10 ^ 11 : ℚ)) : ℝ) 3 :=
  claim_of_checks (Rat.castHom ℝ) (ratWithin (2 / 10 ^ 11)) _ (ratWithin_sound (2 / 10 ^ 11)) embeddedThirdOrderSecondWeakStageOrderFourStageDirk.A embeddedThirdOrderSecondWeakStageOrderFourStageDirk.b embeddedThirdOrderSecondWeakStageOrderFourStageDirk.c 2
    (by decide +kernel) (by decide +kernel)

theorem embeddedThirdOrderSecondWeakStageOrderFourStageDirk_emb : Claim (embeddedThirdOrderSecondWeakStageOrderFourStageDirk.map (Rat.castHom ℝ)).A (embeddedThirdOrderSecondWeakStageOrderFourStageDirk.map (Rat.castHom ℝ)).bhat
    (embeddedThirdOrderSecondWeakStageOrderFourStageDirk.map (Rat.castHom ℝ)).c (((1 / 10 ^ 11 : ℚ)) : ℝ) 2 :=
  claim_of_checks (Rat.castHom ℝ) (ratWithin (1 / 10 ^ 11)) _ (ratWithin_sound (1 / 10 ^ 11)) embeddedThirdOrderSecondWeakStageOrderFourStageDirk.A embeddedThirdOrderSecondWeakStageOrderFourStageDirk.bhat embeddedThirdOrderSecondWeakStageOrderFourStageDirk.c 1
    (by decide +kernel) (by decide +kernel)

theorem embeddedThirdOrderThirdWeakStageOrderFourStageDirk_main : Claim (embeddedThirdOrderThirdWeakStageOrderFourStageDirk.map (Rat.castHom ℝ)).A (embeddedThirdOrderThirdWeakStageOrderFourStageDirk.map (Rat.castHom ℝ)).b
    (embeddedThirdOrderThirdWeakStageOrderFourStageDirk.map (Rat.castHom ℝ)).c (((2 / 10 ^ 11 : ℚ)) : ℝ) 3 :=
  claim_of_checks (Rat.castHom ℝ) (ratWithin (2 / 10 ^ 11)) _ (ratWithin_sound (2 / 10 ^ 11)) embeddedThirdOrderThirdWeakStageOrderFourStageDirk.A embeddedThirdOrderThirdWeakStageOrderFourStageDirk.b embeddedThirdOrderThirdWeakStageOrderFourStageDirk.c 2
    (by decide +kernel) (by decide +kernel)

theorem embeddedThirdOrderThirdWeakStageOrderFourStageDirk_emb : Claim (embeddedThirdOrderThirdWeakStageOrderFourStageDirk.map (Rat.castHom ℝ)).A (embeddedThirdOrderThirdWeakStageOrderFourStageDirk.map (Rat.castHom ℝ)).bhat
    (embeddedThirdOrderThirdWeakStageOrderFourStageDirk.map (Rat.castHom ℝ)).c (((1 / 10 ^ 16 : ℚ)) : ℝ) 2 :=
  claim_of_checks (Rat.castHom ℝ) (ratWithin (1 / 10 ^ 16)) _ (ratWithin_sound (1 / 10 ^ 16)) embeddedThirdOrderThirdWeakStageOrderFourStageDirk.A embeddedThirdOrderThirdWeakStageOrderFourStageDirk.bhat embeddedThirdOrderThirdWeakStageOrderFourStageDirk.c 1
    (by decide +kernel) (by decide +kernel)

theorem embeddedThirdOrderFourStageEsdirk_main : Claim (embeddedThirdOrderFourStageEsdirk.map (Rat.castHom ℝ)).A (embeddedThirdOrderFourStageEsdirk.map (Rat.castHom ℝ)).b
    (embeddedThirdOrderFourStageEsdirk.map (Rat.castHom ℝ)).c 0 3 :=
  claim_of_checks (Rat.castHom ℝ) isZero _ (isZero_sound (Rat.castHom ℝ)) embeddedThirdOrderFourStageEsdirk.A embeddedThirdOrderFourStageEsdirk.b embeddedThirdOrderFourStageEsdirk.c 2
    (by decide +kernel) (by decide +kernel)

theorem embeddedThirdOrderFourStageEsdirk_emb : Claim (embeddedThirdOrderFourStageEsdirk.map (Rat.castHom ℝ)).A (embeddedThirdOrderFourStageEsdirk.map (Rat.castHom ℝ)).bhat
    (embeddedThirdOrderFourStageEsdirk.map (Rat.castHom ℝ)).c 0 2 :=
  claim_of_checks (Rat.castHom ℝ) isZero _ (isZero_sound (Rat.castHom ℝ)) embeddedThirdOrderFourStageEsdirk.A embeddedThirdOrderFourStageEsdirk.bhat embeddedThirdOrderFourStageEsdirk.c 1
    (by decide +kernel) (by decide +kernel)

theorem embeddedThirdOrderFiveStageEsdirk_main : Claim (embeddedThirdOrderFiveStageEsdirk.map embQ2).A (embeddedThirdOrderFiveStageEsdirk.map embQ2).b
    (embeddedThirdOrderFiveStageEsdirk.map embQ2).c 0 3 :=
  claim_of_checks embQ2 isZero _ (isZero_sound embQ2) embeddedThirdOrderFiveStageEsdirk.A embeddedThirdOrderFiveStageEsdirk.b embeddedThirdOrderFiveStageEsdirk.c 2
    (by decide +kernel) (by decide +kernel)

theorem embeddedThirdOrderFiveStageEsdirk_emb : Claim (embeddedThirdOrderFiveStageEsdirk.map embQ2).A (embeddedThirdOrderFiveStageEsdirk.map embQ2).bhat
    (embeddedThirdOrderFiveStageEsdirk.map embQ2).c (((1 / 10 ^ 25 : ℚ)) : ℝ) 2 :=
  claim_of_checks embQ2 (q2Within (1 / 10 ^ 25)) _ (q2Within_sound (1 / 10 ^ 25)) embeddedThirdOrderFiveStageEsdirk.A embeddedThirdOrderFiveStageEsdirk.bhat embeddedThirdOrderFiveStageEsdirk.c 1
    (by decide +kernel) (by decide +kernel)

theorem embeddedFourthOrderFourStageSdirk_main : Claim (embeddedFourthOrderFourStageSdirk.map (Rat.castHom ℝ)).A (embeddedFourthOrderFourStageSdirk.map (Rat.castHom ℝ)).b
    (embeddedFourthOrderFourStageSdirk.map (Rat.castHom ℝ)).c 0 4 :=
  claim_of_checks (Rat.castHom ℝ) isZero _ (isZero_sound (Rat.castHom ℝ)) embeddedFourthOrderFourStageSdirk.A embeddedFourthOrderFourStageSdirk.b embeddedFourthOrderFourStageSdirk.c 3
    (by decide +kernel) (by decide +kernel)

theorem embeddedFourthOrderFourStageSdirk_emb : Claim (embeddedFourthOrderFourStageSdirk.map (Rat.castHom ℝ)).A (embeddedFourthOrderFourStageSdirk.map (Rat.castHom ℝ)).bhat
    (embeddedFourthOrderFourStageSdirk.map (Rat.castHom ℝ)).c 0 3 :=
  claim_of_checks (Rat.castHom ℝ) isZero _ (isZero_sound (Rat.castHom ℝ)) embeddedFourthOrderFourStageSdirk.A embeddedFourthOrderFourStageSdirk.bhat embeddedFourthOrderFourStageSdirk.c 2
    (by decide +kernel) (by decide +kernel)

theorem embeddedFourthOrderFiveStageSdirk_main : Claim (embeddedFourthOrderFiveStageSdirk.map embQ2).A (embeddedFourthOrderFiveStageSdirk.map embQ2).b
    (embeddedFourthOrderFiveStageSdirk.map embQ2).c 0 4 :=
  claim_of_checks embQ2 isZero _ (isZero_sound embQ2) embeddedFourthOrderFiveStageSdirk.A embeddedFourthOrderFiveStageSdirk.b embeddedFourthOrderFiveStageSdirk.c 3
    (by decide +kernel) (by decide +kernel)

theorem embeddedFourthOrderFiveStageSdirk_emb : Claim (embeddedFourthOrderFiveStageSdirk.map embQ2).A (embeddedFourthOrderFiveStageSdirk.map embQ2).bhat
    (embeddedFourthOrderFiveStageSdirk.map embQ2).c (((1 / 10 ^ 14 : ℚ)) : ℝ) 3 :=
  claim_of_checks embQ2 (q2Within (1 / 10 ^ 14)) _ (q2Within_sound (1 / 10 ^ 14)) embeddedFourthOrderFiveStageSdirk.A embeddedFourthOrderFiveStageSdirk.bhat embeddedFourthOrderFiveStageSdirk.c 2
    (by decide +kernel) (by decide +kernel)

theorem embeddedFourthOrderFiveStageEsdirk_main : Claim (embeddedFourthOrderFiveStageEsdirk.map (Rat.castHom ℝ)).A (embeddedFourthOrderFiveStageEsdirk.map (Rat.castHom ℝ)).b
    (embeddedFourthOrderFiveStageEsdirk.map (Rat.castHom ℝ)).c 0 4 :=
  claim_of_checks (Rat.castHom ℝ) isZero _ (isZero_sound (Rat.castHom ℝ)) embeddedFourthOrderFiveStageEsdirk.A embeddedFourthOrderFiveStageEsdirk.b embeddedFourthOrderFiveStageEsdirk.c 3
    (by decide +kernel) (by decide +kernel)

theorem embeddedFourthOrderFiveStageEsdirk_emb : Claim (embeddedFourthOrderFiveStageEsdirk.map (Rat.castHom ℝ)).A (embeddedFourthOrderFiveStageEsdirk.map (Rat.castHom ℝ)).bhat
    (embeddedFourthOrderFiveStageEsdirk.map (Rat.castHom ℝ)).c 0 3 :=
  claim_of_checks (Rat.castHom ℝ) isZero _ (isZero_sound (Rat.castHom ℝ)) embeddedFourthOrderFiveStageEsdirk.A embeddedFourthOrderFiveStageEsdirk.bhat embeddedFourthOrderFiveStageEsdirk.c 2
    (by decide +kernel) (by decide +kernel)

theorem embeddedFourthOrderSixStageEsdirk_main : Claim (embeddedFourthOrderSixStageEsdirk.map embQ2).A (embeddedFourthOrderSixStageEsdirk.map embQ2).b
    (embeddedFourthOrderSixStageEsdirk.map embQ2).c 0 4 :=
  claim_of_checks embQ2 isZero _ (isZero_sound embQ2) embeddedFourthOrderSixStageEsdirk.A embeddedFourthOrderSixStageEsdirk.b embeddedFourthOrderSixStageEsdirk.c 3
    (by decide +kernel) (by decide +kernel)

theorem embeddedFourthOrderSixStageEsdirk_emb : Claim (embeddedFourthOrderSixStageEsdirk.map embQ2).A (embeddedFourthOrderSixStageEsdirk.map embQ2).bhat
    (embeddedFourthOrderSixStageEsdirk.map embQ2).c (((1 / 10 ^ 12 : ℚ)) : ℝ) 3 :=
  claim_of_checks embQ2 (q2Within (1 / 10 ^ 12)) _ (q2Within_sound (1 / 10 ^ 12)) embeddedFourthOrderSixStageEsdirk.A embeddedFourthOrderSixStageEsdirk.bhat embeddedFourthOrderSixStageEsdirk.c 2
    (by decide +kernel) (by decide +kernel)

theorem embeddedFourthOrderThirdWeakStageOrderSixStageDirk_main : Claim (embeddedFourthOrderThirdWeakStageOrderSixStageDirk.map (Rat.castHom ℝ)).A (embeddedFourthOrderThirdWeakStageOrderSixStageDirk.map (Rat.castHom ℝ)).b
    (embeddedFourthOrderThirdWeakStageOrderSixStageDirk.map (Rat.castHom ℝ)).c (((1 / 10 ^ 14 : ℚ)) : ℝ) 4 :=
  claim_of_checks (Rat.castHom ℝ) (ratWithin (1 / 10 ^ 14)) _ (ratWithin_sound (1 / 10 ^ 14)) embeddedFourthOrderThirdWeakStageOrderSixStageDirk.A embeddedFourthOrderThirdWeakStageOrderSixStageDirk.b embeddedFourthOrderThirdWeakStageOrderSixStageDirk.c 3
    (by decide +kernel) (by decide +kernel)

theorem embeddedFourthOrderThirdWeakStageOrderSixStageDirk_emb : Claim (embeddedFourthOrderThirdWeakStageOrderSixStageDirk.map (Rat.castHom ℝ)).A (embeddedFourthOrderThirdWeakStageOrderSixStageDirk.map (Rat.castHom ℝ)).bhat
    (embeddedFourthOrderThirdWeakStageOrderSixStageDirk.map (Rat.castHom ℝ)).c (((1 / 10 ^ 14 : ℚ)) : ℝ) 3 :=
  claim_of_checks (Rat.castHom ℝ) (ratWithin (1 / 10 ^ 14)) _ (ratWithin_sound (1 / 10 ^ 14)) embeddedFourthOrderThirdWeakStageOrderSixStageDirk.A embeddedFourthOrderThirdWeakStageOrderSixStageDirk.bhat embeddedFourthOrderThirdWeakStageOrderSixStageDirk.c 2
    (by decide +kernel) (by decide +kernel)

theorem embeddedRungeKuttaFehlberg_main : Claim (embeddedRungeKuttaFehlberg.map (Rat.castHom ℝ)).A (embeddedRungeKuttaFehlberg.map (Rat.castHom ℝ)).b
    (embeddedRungeKuttaFehlberg.map (Rat.castHom ℝ)).c 0 5 :=
  claim_of_checks (Rat.castHom ℝ) isZero _ (isZero_sound (Rat.castHom ℝ)) embeddedRungeKuttaFehlberg.A embeddedRungeKuttaFehlberg.b embeddedRungeKuttaFehlberg.c 4
    (by decide +kernel) (by decide +kernel)

theorem embeddedRungeKuttaFehlberg_emb : Claim (embeddedRungeKuttaFehlberg.map (Rat.castHom ℝ)).A (embeddedRungeKuttaFehlberg.map (Rat.castHom ℝ)).bhat
    (embeddedRungeKuttaFehlberg.map (Rat.castHom ℝ)).c 0 4 :=
  claim_of_checks (Rat.castHom ℝ) isZero _ (isZero_sound (Rat.castHom ℝ)) embeddedRungeKuttaFehlberg.A embeddedRungeKuttaFehlberg.bhat embeddedRungeKuttaFehlberg.c 3
    (by decide +kernel) (by decide +kernel)

theorem embeddedFifthOrderSixStageEsdirk_main : Claim (embeddedFifthOrderSixStageEsdirk.map (Rat.castHom ℝ)).A (embeddedFifthOrderSixStageEsdirk.map (Rat.castHom ℝ)).b
    (embeddedFifthOrderSixStageEsdirk.map (Rat.castHom ℝ)).c (((1 / 10 ^ 25 : ℚ)) : ℝ) 5 :=
  claim_of_checks (Rat.castHom ℝ) (ratWithin (1 / 10 ^ 25)) _ (ratWithin_sound (1 / 10 ^ 25)) embeddedFifthOrderSixStageEsdirk.A embeddedFifthOrderSixStageEsdirk.b embeddedFifthOrderSixStageEsdirk.c 4
    (by decide +kernel) (by decide +kernel)

theorem embeddedFifthOrderSixStageEsdirk_emb : Claim (embeddedFifthOrderSixStageEsdirk.map (Rat.castHom ℝ)).A (embeddedFifthOrderSixStageEsdirk.map (Rat.castHom ℝ)).bhat
    (embeddedFifthOrderSixStageEsdirk.map (Rat.castHom ℝ)).c (((1 / 10 ^ 12 : ℚ)) : ℝ) 4 :=
  claim_of_checks (Rat.castHom ℝ) (ratWithin (1 / 10 ^ 12)) _ (ratWithin_sound (1 / 10 ^ 12)) embeddedFifthOrderSixStageEsdirk.A embeddedFifthOrderSixStageEsdirk.bhat embeddedFifthOrderSixStageEsdirk.c 3
    (by decide +kernel) (by decide +kernel)

end Verif.Tableau
