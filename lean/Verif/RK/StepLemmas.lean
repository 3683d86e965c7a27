/-
Helper lemmas for the step properties: relation of the stage sweep to the Runge-Kutta stage
system, adjoint invariant, linearity.
-/
import Verif.RK.Sweep
import Verif.RK.Spec

namespace Verif.RK

open Spec

variable {K : Type} {s n m o l : ℕ} [CommRing K]

/-- For lower triangular `A` the sum over all stages splits into earlier stages and the
diagonal. -/
theorem sum_lower (A : Fin s → Fin s → K) (hA : LowerTriangular A) (i : Fin s)
    (g : Fin s → K) :
    ∑ j, A i j * g j
      = (∑ j ∈ Finset.univ.filter (fun j : Fin s => j < i), A i j * g j) + A i i * g i := by
  rw [← Finset.sum_filter_add_sum_filter_not Finset.univ (fun j : Fin s => j < i)]
  congr 1
  rw [Finset.sum_eq_single i]
  · intro j hj hne
    have h1 : ¬ j < i := (Finset.mem_filter.mp hj).2
    have : i < j := lt_of_le_of_ne (not_lt.mp h1) (Ne.symm hne)
    rw [hA i j this, zero_mul]
  · intro hi
    exact absurd (Finset.mem_filter.mpr ⟨Finset.mem_univ i, lt_irrefl i⟩) hi

theorem accumulateStep_apply (w : Fin s → K) (y : Fin n → K) (k : Fin s → Fin n → K) (h : K)
    (x : Fin n) : accumulateStep w y k h x = y x + h * ∑ i, w i * k i x := by
  unfold accumulateStep
  rw [Finset.mul_sum]
  congr 1
  exact Finset.sum_congr rfl fun i _ => by ring

theorem stageInput_eq (A : Fin s → Fin s → K) (b c : Fin s → K) (hA : LowerTriangular A) (h : K)
    (y : Fin n → K) (k : Fin s → Fin n → K) (i : Fin s) :
    (fun x => y x + h * accumulateStages ⟨A, b, c⟩ i k x + h * A i i * k i x)
      = fun x => y x + h * ∑ j, A i j * k j x := by
  funext x
  rw [sum_lower A hA i (fun j => k j x), accumulateStages_apply]
  ring

/-- The stage updates of a step solve the Runge-Kutta stage system. -/
theorem stages_solve (T : Coeffs K s) (ode : ODE K n m o l) (f : Rhs K n m) (h t : K)
    (y : Fin n → K) (p : Fin m → K) (r : RKState K s n m o l)
    (hT : LowerTriangular T.A) (hs : ∀ i, SolvesStage ode f h (T.A i i))
    (hr : StepResult T ode h t y p r) : IsStageSystem T.A T.c f h t y p r.stageUpdates := by
  intro i
  have h1 := hs i (stageIn T h t y p r.stageUpdates i)
  rw [← hr.update i] at h1
  rw [h1]
  have h2 := stageInput_eq T.A T.b T.c hT h y r.stageUpdates i
  simp only [stageIn]
  rw [mul_comm (T.c i) h, ← h2]

/-- With uniquely solvable stage equations a stage system of a lower triangular tableau has at
most one solution. -/
theorem stageSystem_unique (A : Fin s → Fin s → K) (c : Fin s → K) (f : Rhs K n m) (h t : K)
    (y : Fin n → K) (p : Fin m → K) (hA : LowerTriangular A)
    (hu : ∀ i, UniqueStage f h (A i i)) (k k' : Fin s → Fin n → K)
    (hk : IsStageSystem A c f h t y p k) (hk' : IsStageSystem A c f h t y p k') : k = k' := by
  have : ∀ q : ℕ, ∀ i : Fin s, i.val < q → k i = k' i := by
    intro q
    induction q with
    | zero => intro i hi; omega
    | succ q ih =>
      intro i _
      have hlt : ∀ j, j < i → k j = k' j := by
        intro j hj
        rw [Fin.lt_def] at hj
        exact ih j (by omega)
      refine hu i (t + c i * h)
        (fun x => y x + h * accumulateStages ⟨A, c, c⟩ i k x) p (k i) (k' i) ?_ ?_
      · rw [stageInput_eq A c c hA h y k i]
        exact hk i
      · rw [accumulateStages_congr ⟨A, c, c⟩ i k k' hlt, stageInput_eq A c c hA h y k' i]
        exact hk' i
  funext i
  exact this (i.val + 1) i (Nat.lt_succ_self _)

theorem dot_comm {q : ℕ} (u v : Fin q → K) : dot u v = dot v u := by
  unfold dot
  exact Finset.sum_congr rfl fun i _ => mul_comm _ _

theorem dot_add_left {q : ℕ} (u v w : Fin q → K) : dot (u + v) w = dot u w + dot v w := by
  unfold dot
  rw [← Finset.sum_add_distrib]
  exact Finset.sum_congr rfl fun i _ => by simp [add_mul]

theorem dot_smul_left {q : ℕ} (a : K) (u w : Fin q → K) :
    dot (fun x => a * u x) w = a * dot u w := by
  unfold dot
  rw [Finset.mul_sum]
  exact Finset.sum_congr rfl fun i _ => by ring

theorem dot_zero_left {q : ℕ} (w : Fin q → K) : dot (0 : Fin q → K) w = 0 := by
  simp [dot]

theorem dot_zero_right {q : ℕ} (w : Fin q → K) : dot w (0 : Fin q → K) = 0 := by
  simp [dot]

theorem dot_accumulateStages (T : Coeffs K s) (i : Fin s) (u : Fin n → K)
    (k : Fin s → Fin n → K) :
    dot u (accumulateStages T i k)
      = ∑ j ∈ Finset.univ.filter (fun j : Fin s => j < i), T.A i j * dot u (k j) := by
  unfold dot
  simp only [accumulateStages_apply, Finset.mul_sum]
  rw [Finset.sum_comm]
  refine Finset.sum_congr rfl fun j _ => Finset.sum_congr rfl fun x _ => by ring

theorem dot_accumulateStep (w : Fin s → K) (u y : Fin n → K) (k : Fin s → Fin n → K) (h : K) :
    dot u (accumulateStep w y k h) = dot u y + ∑ i, h * w i * dot u (k i) := by
  unfold dot accumulateStep
  simp only [mul_add, Finset.sum_add_distrib, Finset.mul_sum]
  congr 1
  rw [Finset.sum_comm]
  refine Finset.sum_congr rfl fun j _ => Finset.sum_congr rfl fun x _ => by ring

/-- `∑_{j < i+1} = ∑_{j < i} + (term i)`. -/
theorem sum_filter_succ (i : Fin s) (g : Fin s → K) :
    ∑ j ∈ Finset.univ.filter (fun j : Fin s => j.val < i.val + 1), g j
      = (∑ j ∈ Finset.univ.filter (fun j : Fin s => j.val < i.val), g j) + g i := by
  have : (Finset.univ.filter (fun j : Fin s => j.val < i.val + 1))
      = insert i (Finset.univ.filter (fun j : Fin s => j.val < i.val)) := by
    ext j
    simp only [Finset.mem_filter, Finset.mem_univ, true_and, Finset.mem_insert, Fin.ext_iff]
    omega
  rw [this, Finset.sum_insert (by simp), add_comm]

/-- Invariant of the reverse stage loop: the pairing with the forward perturbation is
preserved while the seeds of the stages are consumed one after another. -/
structure AdjInv (d : RKState K s n m o l) (σ : Fin s → Fin n → K) (C : K) (q : ℕ)
    (r : RKState K s n m o l) : Prop where
  times : ∀ i : Fin s, i.val < q → r.stageTimes i = 0
  outs : ∀ i : Fin s, i.val < q → r.stageIndependentOutputs i = 0
  states : r.stageStates = σ
  pairing : dot r.startState d.startState + r.startTime * d.startTime
      + dot r.independentInputs d.independentInputs
      + ∑ j ∈ Finset.univ.filter (fun j : Fin s => j.val < q),
          (dot (r.stageUpdates j) (d.stageUpdates j) + dot (σ j) (d.stageStates j)) = C

theorem AdjInv.step {T : Coeffs K s} {ode : ODE K n m o l} {h : K} {lin : Fin s → Fin l → K}
    {t : K} {y : Fin n → K} {p : Fin m → K} {d : RKState K s n m o l}
    (hd : StepDerivResult T ode h lin t y p d)
    (hadj : ∀ i, AdjointPair ode (lin i) h (T.A i i))
    {σ : Fin s → Fin n → K} {C : K} (i : Fin s) (r : RKState K s n m o l)
    (inv : AdjInv d σ C (i.val + 1) r) :
    AdjInv d σ C i.val (computeStageAdjoint T ode h lin r i) := by
  obtain ⟨h1, h2, h3, h4⟩ := inv
  have hA := hadj i (stageInD T t y p d.stageUpdates i)
    ⟨r.stageUpdates i, r.stageStates i, r.stageIndependentOutputs i⟩
  rw [sum_filter_succ] at h4
  simp only [dotOut, dotIn] at hA
  rw [← hd.update i, ← hd.state i, ← hd.outp i] at hA
  simp only [h2 i (Nat.lt_succ_self _), dot_zero_left, h3, add_zero] at hA
  unfold computeStageAdjoint
  simp only [h2 i (Nat.lt_succ_self _), h3, h1 i (Nat.lt_succ_self _), zero_add]
  generalize ode.computeUpdateAdjoint (lin i) ⟨r.stageUpdates i, σ i, 0⟩ h (T.A i i) = w at hA ⊢
  refine ⟨?_, ?_, rfl, ?_⟩
  · intro j hj
    have hne : j ≠ i := fun e => by subst e; omega
    simp only [Function.update_of_ne hne]
    exact h1 j (by omega)
  · intro j hj
    exact h2 j (by omega)
  · have hsum : ∑ j ∈ Finset.univ.filter (fun j : Fin s => j.val < i.val),
        (dot (if j < i then r.stageUpdates j + fun x => T.A i j * w.stageInput x
            else r.stageUpdates j) (d.stageUpdates j) + dot (σ j) (d.stageStates j))
        = (∑ j ∈ Finset.univ.filter (fun j : Fin s => j.val < i.val),
            (dot (r.stageUpdates j) (d.stageUpdates j) + dot (σ j) (d.stageStates j)))
          + ∑ j ∈ Finset.univ.filter (fun j : Fin s => j < i),
              T.A i j * dot w.stageInput (d.stageUpdates j) := by
      have e : (Finset.univ.filter (fun j : Fin s => j < i))
          = Finset.univ.filter (fun j : Fin s => j.val < i.val) := by
        ext j; simp only [Finset.mem_filter, Fin.lt_def]
      rw [e, ← Finset.sum_add_distrib]
      refine Finset.sum_congr rfl fun j hj => ?_
      have hlt : j < i := by
        rw [Fin.lt_def]
        exact (Finset.mem_filter.mp hj).2
      simp only [if_pos hlt, dot_add_left, dot_smul_left]
      ring
    simp only [hsum, dot_add_left]
    simp only [stageInD, dot_accumulateStages] at hA
    rw [hd.startTime, hd.startState, hd.indep] at h4 ⊢
    linear_combination h4 - hA

/-- The pairing identity for one step, with arbitrary contents `stageStates` of the seed
buffer. -/
theorem step_pairing (T : Coeffs K s) (ode : ODE K n m o l) (st pert seed : RKState K s n m o l)
    (h : K) (hadj : ∀ i, AdjointPair ode (st.linearizationPoints i) h (T.A i i)) :
    dot (computeStepAdjoint T ode st seed h).finalState pert.finalState
      + (computeStepAdjoint T ode st seed h).finalTime * pert.finalTime
      + dot (computeStepAdjoint T ode st seed h).independentInputs pert.independentInputs
    = dot seed.finalState (computeStepDerivative T ode st pert h).finalState
      + seed.finalTime * (computeStepDerivative T ode st pert h).finalTime
      + dot seed.independentInputs pert.independentInputs
      + ∑ i, dot (seed.stageStates i)
          ((computeStepDerivative T ode st pert h).stageStates i) := by
  have hd := computeStepDerivative_result T ode st pert h
  generalize hdd : computeStepDerivative T ode st pert h = d at hd ⊢
  have key := Loop.foldl_finRange_reverse
    (computeStageAdjoint T ode h st.linearizationPoints)
    (AdjInv d seed.stageStates
      (dot seed.finalState d.finalState + seed.finalTime * d.finalTime
        + dot seed.independentInputs pert.independentInputs
        + ∑ i, dot (seed.stageStates i) (d.stageStates i)))
    { seed with
      stageTimes := 0
      stageIndependentOutputs := 0
      finalTime := seed.finalTime + 0
      startState := seed.finalState
      stageUpdates := fun i x => h * T.b i * seed.finalState x
      startTime := seed.finalTime + 0 }
    ?_ (fun i y hy => AdjInv.step hd hadj i y hy)
  · have hp := key.pairing
    simp only [Nat.not_lt_zero, Finset.filter_false, Finset.sum_empty, add_zero] at hp
    rw [hd.startState, hd.startTime, hd.indep] at hp
    unfold computeStepAdjoint shiftStateReverse
    simp only [add_zero]
    exact hp
  · refine ⟨fun _ _ => rfl, fun _ _ => rfl, rfl, ?_⟩
    have hf : (Finset.univ.filter (fun j : Fin s => j.val < s)) = Finset.univ := by
      ext j; simp
    simp only [hf, add_zero]
    rw [hd.startState, hd.startTime, hd.indep, hd.finalState, hd.finalTime, dot_accumulateStep,
      Finset.sum_add_distrib]
    simp only [dot_smul_left]
    ring

theorem accumulateStages_add (T : Coeffs K s) (i : Fin s) (f g : Fin s → Fin n → K) :
    accumulateStages T i (f + g) = accumulateStages T i f + accumulateStages T i g := by
  funext x
  simp only [Pi.add_apply, accumulateStages_apply, ← Finset.sum_add_distrib]
  exact Finset.sum_congr rfl fun j _ => by ring

theorem accumulateStages_smul (T : Coeffs K s) (i : Fin s) (a : K) (f : Fin s → Fin n → K) :
    accumulateStages T i (a • f) = a • accumulateStages T i f := by
  funext x
  simp only [Pi.smul_apply, smul_eq_mul, accumulateStages_apply, Finset.mul_sum]
  exact Finset.sum_congr rfl fun j _ => by ring

theorem accumulateStep_add (w : Fin s → K) (y z : Fin n → K) (f g : Fin s → Fin n → K) (h : K) :
    accumulateStep w (y + z) (f + g) h = accumulateStep w y f h + accumulateStep w z g h := by
  funext x
  simp only [accumulateStep, Pi.add_apply, add_mul, Finset.sum_add_distrib]
  ring

theorem accumulateStep_smul (w : Fin s → K) (a : K) (y : Fin n → K) (f : Fin s → Fin n → K)
    (h : K) : accumulateStep w (a • y) (a • f) h = a • accumulateStep w y f h := by
  funext x
  simp only [accumulateStep, Pi.smul_apply, smul_eq_mul, mul_add, Finset.mul_sum]
  congr 1
  exact Finset.sum_congr rfl fun j _ => by ring

end Verif.RK
