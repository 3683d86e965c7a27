/-
Properties C59: what the order conditions mean for the computed steps.
-/
import Verif.Tableau.Accuracy
import Verif.Props.Shipped
import Verif.Props.Step

namespace Verif.Props

open Verif.Tableau RK RK.Spec Polynomial

variable {K : Type} [Field K] [CharZero K] {s n m o l : ℕ}

/-- C59: on `y' = q(t)` with polynomial `q = Q'`, a step with a tableau that satisfies the
quadrature conditions up to order `p` is exact if the degree of `Q` is at most `p`. The
tableau is not fully implicit (the code would truncate it, C07). -/
theorem C59_polynomials_exact (T : Coeffs K s) (ode : ODE K n m o l) (Q : Fin n → K[X])
    (st : RKState K s n m o l) (h : K) (p : ℕ) (hT : LowerTriangular T.A)
    (hq : ∀ k < p, ∑ i, T.b i * T.c i ^ k = 1 / ((k : K) + 1))
    (hs : ∀ i, SolvesStage ode (fun t _ _ x => (derivative (Q x)).eval t) h (T.A i i))
    (hQ : ∀ x, (Q x).natDegree ≤ p) (x : Fin n) :
    (computeStep T ode st h).finalState x - st.finalState x
      = (Q x).eval (computeStep T ode st h).finalTime - (Q x).eval st.finalTime := by
  obtain ⟨k, hk, hy⟩ := C06_step_is_rk_formula T ode _ st h hT hs
  rw [hy x, (C10_step_times T ode st h).1, ← quadrature_exact T.b T.c p hq (Q x) (hQ x)]
  rw [add_sub_cancel_left]
  congr 1
  exact Finset.sum_congr rfl fun i _ => by rw [hk i]

/-- C59: on a linear problem `y' = L y` a step with a tableau of order `p` is the exponential
series of `h L` up to order `p` plus `h^(p+1)` times an explicit remainder, a fixed combination
of `L^(p+1)` applied to the stage values `y + h ∑_j a_ij k_j`. -/
theorem C59_linear_problems (T : Coeffs K s) (ode : ODE K n m o l)
    (L : (Fin n → K) →ₗ[K] (Fin n → K)) (st : RKState K s n m o l) (h : K) (p : ℕ)
    (hT : LowerTriangular T.A) (ho : OrderConditions T.A T.b p)
    (hs : ∀ i, SolvesStage ode (fun _ y _ => L y) h (T.A i i)) :
    (computeStep T ode st h).finalState
      = (∑ k ∈ Finset.range (p + 1), (h ^ k / (k.factorial : K)) • (L ^ k) st.finalState)
        + h ^ (p + 1) • (L ^ (p + 1)) (∑ i, T.b i • ((applyA T.A)^[p] (fun i => st.finalState
            + h • ∑ j, T.A i j • (computeStep T ode st h).stageUpdates j)) i) := by
  have hk := C06_stage_values T ode _ st h hT hs
  have hr := computeStep_result T ode st h
  set k := (computeStep T ode st h).stageUpdates with hkdef
  set Y : Fin s → Fin n → K := fun i => st.finalState + h • ∑ j, T.A i j • k j with hYdef
  have hkY : ∀ i, k i = L (Y i) := by
    intro i
    have e : (fun x => st.finalState x + h * ∑ j, T.A i j * k j x) = Y i := by
      funext x
      simp [hYdef, Finset.sum_apply]
    have := hk i
    rwa [e] at this
  have hY : ∀ i, Y i = st.finalState + h • ∑ j, T.A i j • L (Y j) := by
    intro i
    conv_lhs => rw [hYdef]
    simp only [hkY]
  have hfin : (computeStep T ode st h).finalState = st.finalState + h • ∑ i, T.b i • L (Y i) := by
    funext x
    rw [hr.finalState, accumulateStep_apply]
    simp only [← hkY, Pi.add_apply, Pi.smul_apply, Finset.sum_apply, smul_eq_mul]
    rfl
  rw [hfin, Finset.sum_range_succ']
  simp only [pow_zero, Nat.factorial_zero, Nat.cast_one, div_one, one_smul, Module.End.one_apply]
  rw [add_right_comm, add_comm _ st.finalState]
  congr 1
  have e : ∀ i, T.b i • L (Y i)
      = (∑ q ∈ Finset.range p, (h ^ q * (T.b i * (tall q).weight T.A i)) • (L ^ (q + 1))
          st.finalState)
        + (h ^ p) • (L ^ (p + 1)) (T.b i • ((applyA T.A)^[p] Y) i) := by
    intro i
    conv_lhs => rw [stage_expansion T.A L h st.finalState Y hY p i]
    rw [map_add, map_sum, smul_add, Finset.smul_sum]
    congr 1
    · refine Finset.sum_congr rfl fun q _ => ?_
      rw [map_smul, smul_smul, pow_succ' L q, Module.End.mul_apply]
      congr 1
      ring
    · rw [map_smul, map_smul, pow_succ' L p, Module.End.mul_apply, smul_comm]
  rw [Finset.sum_congr rfl fun i _ => e i, Finset.sum_add_distrib, smul_add]
  congr 1
  · rw [Finset.sum_comm, Finset.smul_sum]
    refine Finset.sum_congr rfl fun q hq => ?_
    rw [← Finset.sum_smul, ← Finset.mul_sum,
      tall_of_order T.A T.b p ho q (Finset.mem_range.mp hq), smul_smul]
    congr 1
    rw [pow_succ']
    simp only [div_eq_mul_inv, one_mul, mul_assoc]
  · rw [← Finset.smul_sum, ← map_sum, smul_smul, ← pow_succ' h p]

/-- C59 for `y' = λ y`: the result is a number `R`, independent of the state, times the state;
`R` is `∑_{k ≤ p} (hλ)^k / k!` plus `(hλ)^(p+1)` times an explicit remainder. The stage factors
`1 - h λ a_ii` must not vanish. -/
theorem C59_stability_function (T : Coeffs K s) (lam h : K) (p : ℕ)
    (hT : LowerTriangular T.A) (ho : OrderConditions T.A T.b p)
    (hne : ∀ i, 1 - h * lam * T.A i i ≠ 0) :
    ∃ R r : K, R = (∑ k ∈ Finset.range (p + 1), (h * lam) ^ k / (k.factorial : K))
        + (h * lam) ^ (p + 1) * r ∧
      ∀ (n m o l : ℕ) (ode : ODE K n m o l) (st : RKState K s n m o l),
        (∀ i, SolvesStage ode (fun _ y _ => lam • y) h (T.A i i)) →
        (computeStep T ode st h).finalState = R • st.finalState := by
  -- reference problem in one dimension
  let ref : ODE K 1 0 0 0 :=
    { computeUpdate := fun inp h a =>
        (⟨fun x => lam * (inp.stepInput x + h * inp.stageInput x) / (1 - h * lam * a), 0, 0⟩, 0)
      computeUpdateDerivative := fun _ _ _ _ => ⟨0, 0, 0⟩
      computeUpdateAdjoint := fun _ _ _ _ => ⟨0, 0, 0, 0⟩ }
  let st1 : RKState K s 1 0 0 0 :=
    { (RKState.empty : RKState K s 1 0 0 0) with finalState := fun _ => 1 }
  have hs1 : ∀ i, SolvesStage ref (fun _ y _ => lam • y) h (T.A i i) := by
    intro i inp
    funext x
    have := hne i
    simp only [ref, Pi.smul_apply, smul_eq_mul]
    rw [eq_comm, eq_div_iff this]
    have e : ∀ z : K, z / (1 - h * lam * T.A i i) * (1 - h * lam * T.A i i) = z :=
      fun z => div_mul_cancel₀ z this
    linear_combination lam * h * T.A i i * e (lam * (inp.stepInput x + h * inp.stageInput x))
  have hu : ∀ n m, ∀ i, UniqueStage (n := n) (m := m) (fun _ y _ => lam • y) h (T.A i i) := by
    intro n m i t y q k k' h1 h2
    funext x
    have e1 := congrFun h1 x
    have e2 := congrFun h2 x
    simp only [Pi.smul_apply, smul_eq_mul] at e1 e2
    have : (1 - h * lam * T.A i i) * (k x - k' x) = 0 := by linear_combination e1 - e2
    rcases mul_eq_zero.mp this with h0 | h0
    · exact absurd h0 (hne i)
    · exact sub_eq_zero.mp h0
  refine ⟨(computeStep T ref st1 h).finalState 0,
    (∑ i, T.b i • ((applyA T.A)^[p] (fun i => st1.finalState
        + h • ∑ j, T.A i j • (computeStep T ref st1 h).stageUpdates j)) i) 0, ?_, ?_⟩
  · have h1 := congrFun (C59_linear_problems T ref (lam • LinearMap.id) st1 h p hT ho
      (fun i => by simpa using hs1 i)) 0
    have hpow : ∀ q : ℕ, (lam • (LinearMap.id : (Fin 1 → K) →ₗ[K] (Fin 1 → K))) ^ q
        = lam ^ q • LinearMap.id := by
      intro q
      have : (LinearMap.id : (Fin 1 → K) →ₗ[K] (Fin 1 → K)) = 1 := rfl
      rw [this, smul_pow, one_pow]
    rw [h1]
    simp only [hpow, LinearMap.smul_apply, LinearMap.id_apply, Pi.add_apply, Finset.sum_apply,
      Pi.smul_apply, smul_eq_mul]
    congr 1
    · refine Finset.sum_congr rfl fun q _ => ?_
      simp only [st1, mul_one, mul_pow]
      ring
    · rw [mul_pow]; ring
  · intro n m o l ode st hs
    obtain ⟨k1, hk1, hy1⟩ := C06_step_is_rk_formula T ref _ st1 h hT hs1
    refine (C06_step_iff_rk_formula T ode _ st h _ hT hs (hu n m)).mp
      ⟨fun i x => k1 i 0 * st.finalState x, ?_, ?_⟩
    · intro i
      funext x
      have := congrFun (hk1 i) 0
      simp only [Pi.smul_apply, smul_eq_mul, st1] at this ⊢
      conv_lhs => rw [this]
      rw [mul_assoc, add_mul, one_mul, mul_assoc h, Finset.sum_mul]
      simp only [mul_assoc]
    · intro x
      have := hy1 0
      simp only [st1] at this
      rw [Pi.smul_apply, smul_eq_mul, this, add_mul, one_mul, mul_assoc h, Finset.sum_mul]
      simp only [mul_assoc]

/-- C59 for the shipped tableaux: with an exact closed form tableau of order `p`, polynomials of
degree below `p` are integrated exactly, with the main and with the embedded weights. -/
theorem C59_shipped_integrate_polynomials (e : PlainEntry) (he : e ∈ plainShipped)
    (h0 : e.tol = 0) (ode : ODE ℝ n m o l) (Q : Fin n → ℝ[X])
    (st : RKState ℝ e.tab.stages n m o l) (h : ℝ)
    (hs : ∀ i, SolvesStage ode (fun t _ _ x => (derivative (Q x)).eval t) h (e.tab.A i i)) :
    ∃ p, e.tab.p = some p ∧ ∀ x, (∀ x, (Q x).natDegree ≤ p) →
      (computeStep e.tab.coeffs ode st h).finalState x - st.finalState x
        = (Q x).eval (st.finalTime + h) - (Q x).eval st.finalTime := by
  obtain ⟨p, h1, -, h3, h4⟩ := C05_closed_form_exact.1 e he h0
  obtain ⟨-, -, -, -, hl, -⟩ := C05_plain_tableaux e he
  refine ⟨p, h1, fun x hQ => ?_⟩
  have := C59_polynomials_exact e.tab.coeffs ode Q st h p hl
    (quadrature_of_order e.tab.A e.tab.b e.tab.c p h3 h4) hs hQ x
  rwa [(C10_step_times e.tab.coeffs ode st h).1] at this

theorem C59_shipped_embedded_integrate_polynomials (e : EmbEntry) (he : e ∈ embShipped)
    (h0 : e.tol = 0) (h0' : e.tolHat = 0) (ode : ODE ℝ n m o l) (Q : Fin n → ℝ[X])
    (st : EmbRKState ℝ e.tab.stages n m o l) (h : ℝ)
    (hs : ∀ i, SolvesStage ode (fun t _ _ x => (derivative (Q x)).eval t) h (e.tab.A i i)) :
    ∃ p q, e.tab.p = some p ∧ e.tab.phat = some q ∧ ∀ x,
      ((∀ x, (Q x).natDegree ≤ p) →
        (computeStepEmb e.tab.coeffs e.tab.bhat ode st h).finalState x - st.finalState x
          = (Q x).eval (st.finalTime + h) - (Q x).eval st.finalTime) ∧
      ((∀ x, (Q x).natDegree ≤ q) →
        (computeStepEmb e.tab.coeffs e.tab.bhat ode st h).embeddedState x - st.finalState x
          = (Q x).eval (st.finalTime + h) - (Q x).eval st.finalTime) ∧
      ((∀ x, (Q x).natDegree ≤ min p q) →
        (computeStepEmb e.tab.coeffs e.tab.bhat ode st h).errorEstimate x = 0) := by
  obtain ⟨p, h1, -, h3, h4⟩ := C05_closed_form_exact.2.1 e he h0
  obtain ⟨q, h2, -, h5⟩ := C05_closed_form_exact.2.2 e he h0'
  obtain ⟨-, -, -, -, -, -, -, hl, -⟩ := C05_embedded_tableaux e he
  have hm : ∀ x, (∀ x, (Q x).natDegree ≤ p) →
      (computeStepEmb e.tab.coeffs e.tab.bhat ode st h).finalState x - st.finalState x
        = (Q x).eval (st.finalTime + h) - (Q x).eval st.finalTime := by
    intro x hQ
    have := C59_polynomials_exact e.tab.coeffs ode Q st.toRKState h p hl
      (quadrature_of_order e.tab.A e.tab.b e.tab.c p h3 h4) hs hQ x
    rwa [(C10_step_times e.tab.coeffs ode st.toRKState h).1] at this
  have hm' : ∀ x, (∀ x, (Q x).natDegree ≤ q) →
      (computeStepEmb e.tab.coeffs e.tab.bhat ode st h).embeddedState x - st.finalState x
        = (Q x).eval (st.finalTime + h) - (Q x).eval st.finalTime := by
    intro x hQ
    have := C59_polynomials_exact { e.tab.coeffs with b := e.tab.bhat } ode Q st.toRKState h q hl
      (quadrature_of_order e.tab.A e.tab.bhat e.tab.c q h3 h5) hs hQ x
    rw [(C10_step_times _ ode st.toRKState h).1] at this
    rwa [C08_embedded_state]
  refine ⟨p, q, h1, h2, fun x => ⟨hm x, hm' x, fun hQ => ?_⟩⟩
  have a := hm x fun x => (hQ x).trans (min_le_left _ _)
  have b := hm' x fun x => (hQ x).trans (min_le_right _ _)
  have c := congrFun (C08_estimate_is_difference e.tab.coeffs e.tab.bhat ode st h) x
  rw [Pi.sub_apply, ← C08_embedded_state] at c
  rw [c]
  exact sub_eq_zero.mpr (sub_left_injective (a.trans b.symm))

/-- A backend for `y' = 3 t²` (`Q = X³`). -/
def cubeOde : ODE ℝ 1 0 0 0 where
  computeUpdate inp _ _ := (⟨fun _ => 3 * inp.time ^ 2, 0, 0⟩, 0)
  computeUpdateDerivative _ d _ _ := ⟨fun _ => 6 * d.time, 0, 0⟩
  computeUpdateAdjoint _ d _ _ := ⟨0, 0, 0, 6 * d.stageUpdate 0⟩

/-- The classical Runge-Kutta method integrates `y' = 3 t²` exactly. -/
example (st : RKState ℝ 4 1 0 0 0) (h : ℝ) :
    (computeStep (rungeKuttaFour.map (Rat.castHom ℝ)).coeffs cubeOde st h).finalState 0
        - st.finalState 0
      = (st.finalTime + h) ^ 3 - st.finalTime ^ 3 := by
  obtain ⟨p, h1, h2⟩ := C59_shipped_integrate_polynomials
    ⟨rungeKuttaFour.map (Rat.castHom ℝ), 0⟩ (by simp [plainShipped]) rfl cubeOde (fun _ => X ^ 3)
    st h (fun i inp => by funext x; simp [cubeOde]; norm_num)
  have h3 : (rungeKuttaFour.map (Rat.castHom ℝ)).p = some 4 := rfl
  rw [h3] at h1
  have h4 : 4 = p := Option.some.inj h1
  simpa using h2 0 (fun _ => by rw [natDegree_X_pow]; omega)

/-- `C59_stability_function` applies to implicit Euler with `hλ = -1/2`. -/
example : ∃ R r : ℚ, R = (∑ k ∈ Finset.range 2, (-1/2 : ℚ) ^ k / (k.factorial : ℚ))
    + (-1/2) ^ 2 * r := by
  have ho : OrderConditions implicitEuler.coeffs.A implicitEuler.coeffs.b 1 :=
    forall_tree_of_forests (P := fun t => ∑ i, implicitEuler.coeffs.b i
      * t.weight implicitEuler.coeffs.A i = 1 / (t.density : ℚ)) 0 (by decide +kernel)
  obtain ⟨R, r, h, -⟩ := C59_stability_function implicitEuler.coeffs (-1) (1/2) 1
    (fun i j hij => absurd hij (by
      have hi : i.val < 1 := i.isLt
      have hj : j.val < 1 := j.isLt
      rw [Fin.lt_def]; omega)) ho (by decide +kernel)
  exact ⟨R, r, by norm_num at h ⊢; exact h⟩

end Verif.Props
