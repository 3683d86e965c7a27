/-
How often operations of the component evaluate the stage problem.

Source: /repo/src/rkopenmdao/runge_kutta_integrator.py
        /repo/src/rkopenmdao/time_discretization/stage_ordered_runge_kutta_discretization.py
        /repo/src/rkopenmdao/checkpoint_interface/

The stage problem counts its calls in its memory (`Verif.RK.Memory`, `Verif.Integrator.Memory`).

The property theorems are in `Verif.Props.Cost`.
-/
import Verif.Integrator.MemoryRK
import Verif.Integrator.MemoryPyrevolve
import Verif.Integrator.Revolve

namespace Verif.Integrator

open Verif.RK Verif.Control Verif.XReal
open Classical

/-- Numbers of calls of the stage problem: evaluations, forward products, reverse products. -/
abbrev Calls := ℕ × ℕ × ℕ

variable {D I O M σ : Type}

/-! ### Counters in the stage problem -/

/-- `κ` counts the calls of the stage problem `S`. -/
structure Metered {ε K : Type} {n m o l : ℕ} (S : MOde ε M K n m o l) (κ : M → Calls) : Prop where
  update : ∀ w z h a, κ (S.computeUpdate w z h a).1 = κ w + (1, 0, 0)
  deriv : ∀ w p z h a, κ (S.computeUpdateDerivative w p z h a).1 = κ w + (0, 1, 0)
  adj : ∀ w p z h a, κ (S.computeUpdateAdjoint w p z h a).1 = κ w + (0, 0, 1)

/-- Every stage problem with a counter. -/
def metered {ε K : Type} {n m o l : ℕ} (S : MOde ε M K n m o l) :
    MOde ε (M × Calls) K n m o l where
  computeUpdate w z h a :=
    let r := S.computeUpdate w.1 z h a
    ((r.1, w.2 + (1, 0, 0)), r.2)
  computeUpdateDerivative w p z h a :=
    let r := S.computeUpdateDerivative w.1 p z h a
    ((r.1, w.2 + (0, 1, 0)), r.2)
  computeUpdateAdjoint w p z h a :=
    let r := S.computeUpdateAdjoint w.1 p z h a
    ((r.1, w.2 + (0, 0, 1)), r.2)

theorem metered_metered {ε K : Type} {n m o l : ℕ} (S : MOde ε M K n m o l) :
    Metered (metered S) Prod.snd :=
  ⟨fun _ _ _ _ => rfl, fun _ _ _ _ _ => rfl, fun _ _ _ _ _ => rfl⟩

section RK
variable {ε K : Type} {s n m o l : ℕ} [CommRing K] {S : MOde ε M K n m o l} {κ : M → Calls}

theorem stagesM_calls (hS : Metered S κ) (T : Coeffs K s) (h : K) (is : List (Fin s)) (w : M)
    (st : RKState K s n m o l) :
    ∃ k ≤ is.length, κ (stagesM T S h is w st).1 = κ w + (k, 0, 0) ∧
      ∀ st', (stagesM T S h is w st).2 = .ok st' → k = is.length := by
  induction is generalizing w st with
  | nil => exact ⟨0, le_refl _, by simp [stagesM], fun _ _ => rfl⟩
  | cons i is ih =>
    simp only [stagesM, computeStageM]
    have hu := hS.update w { stepInput := st.startState
                             stageInput := accumulateStages T i st.stageUpdates
                             independentInput := st.independentInputs
                             time := st.startTime + h * T.c i } h (T.A i i)
    rcases hr : S.computeUpdate w { stepInput := st.startState
                                    stageInput := accumulateStages T i st.stageUpdates
                                    independentInput := st.independentInputs
                                    time := st.startTime + h * T.c i } h (T.A i i)
      with ⟨w', e | r⟩
    · rw [hr] at hu
      exact ⟨1, by simp, hu, fun _ h' => by cases h'⟩
    · rw [hr] at hu
      dsimp only at hu ⊢
      obtain ⟨k, h1, h2, h3⟩ := ih w' { st with
        stageTimes := Function.update st.stageTimes i (st.startTime + h * T.c i)
        stageUpdates := Function.update st.stageUpdates i r.1.stageUpdate
        stageStates := Function.update st.stageStates i r.1.stageState
        stageIndependentOutputs :=
          Function.update st.stageIndependentOutputs i r.1.independentOutput
        linearizationPoints := Function.update st.linearizationPoints i r.2 }
      refine ⟨k + 1, by simpa using h1, ?_, fun st' h' => ?_⟩
      · rw [h2, hu]
        ext <;> simp <;> omega
      · rw [h3 st' h']
        simp

/-- A step evaluates the stage problem once for every stage, fewer times if it raises. -/
theorem computeStepM_calls (hS : Metered S κ) (T : Coeffs K s) (h : K) (w : M)
    (st : RKState K s n m o l) :
    ∃ k ≤ s, κ (computeStepM T S w st h).1 = κ w + (k, 0, 0) ∧
      ∀ st', (computeStepM T S w st h).2 = .ok st' → k = s := by
  obtain ⟨k, h1, h2, h3⟩ := stagesM_calls hS T h (List.finRange s) w
    { shiftState st with stepSize := h }
  simp only [List.length_finRange] at h1 h3
  refine ⟨k, h1, ?_⟩
  simp only [computeStepM]
  rcases hr : stagesM T S h (List.finRange s) w { shiftState st with stepSize := h } with ⟨w', e | r⟩
  · rw [hr] at h2
    exact ⟨h2, fun _ h' => by cases h'⟩
  · rw [hr] at h2 h3
    exact ⟨h2, fun _ _ => h3 _ rfl⟩

theorem foldl_calls {X A : Type} (f : M × X → A → M × X) (c : Calls)
    (hf : ∀ x a, κ (f x a).1 = κ x.1 + c) (as : List A) (x : M × X) :
    κ (as.foldl f x).1 = κ x.1 + as.length • c := by
  induction as generalizing x with
  | nil => simp
  | cons a as ih =>
    rw [List.foldl_cons, ih, hf, List.length_cons, succ_nsmul]
    abel

theorem computeStepDerivativeM_calls (hS : Metered S κ) (T : Coeffs K s) (h : K) (w : M)
    (st p : RKState K s n m o l) :
    κ (computeStepDerivativeM T S w st p h).1 = κ w + (0, s, 0) := by
  simp only [computeStepDerivativeM]
  rw [foldl_calls (κ := κ) (computeStageDerivativeM T S h st.linearizationPoints) (0, 1, 0)
    fun x a => hS.deriv ..]
  simp

theorem computeStepAdjointM_calls (hS : Metered S κ) (T : Coeffs K s) (h : K) (w : M)
    (st p : RKState K s n m o l) :
    κ (computeStepAdjointM T S w st p h).1 = κ w + (0, 0, s) := by
  simp only [computeStepAdjointM]
  rw [foldl_calls (κ := κ) (computeStageAdjointM T S h st.linearizationPoints) (0, 0, 1)
    fun x a => hS.adj ..]
  simp

end RK

/-! ### Steps and products of the discretization -/

/-- Every step needs `s` evaluations, every product of a step `s` products. Only step sizes `Ok` are
considered. -/
structure MeteredMem (S : Mem D M) (κ : M → Calls) (s : ℕ) (Ok : XReal → Prop) : Prop where
  step : ∀ m d h, Ok h → ∃ k ≤ s, κ (S.step m d h).1 = κ m + (k, 0, 0) ∧
    ∀ d', (S.step m d h).2 = .ok d' → k = s
  deriv : ∀ m d p h, κ (S.deriv m d p h).1 = κ m + (0, s, 0)
  adj : ∀ m d p h, κ (S.adj m d p h).1 = κ m + (0, 0, s)

section RK
variable {s n m o l : ℕ} {S : MOde Err M ℝ n m o l} {κ : M → Calls}

/-- Steps with non-finite step size also evaluate the stage problem once for every stage. -/
def MeteredNonfinite (κ : M → Calls) (N : Nonfinite M s n m o l) : Prop :=
  ∀ w v h, ∃ k ≤ s, κ (N w v h).1 = κ w + (k, 0, 0) ∧ ∀ d, (N w v h).2 = .ok d → k = s

theorem rkMem_metered (hS : Metered S κ) (T : Coeffs ℝ s) (N : Nonfinite M s n m o l) :
    MeteredMem (rkMem T S N) κ s (fun h => (∃ r, h = fin r) ∨ MeteredNonfinite κ N) where
  step w d h ho := by
    cases h with
    | fin r => exact computeStepM_calls hS T r w d
    | _ =>
      obtain ⟨k, h1, h2, h3⟩ := (ho.resolve_left (by simp)) w (rkObs d) _
      refine ⟨k, h1, h2, fun d' hd => ?_⟩
      simp only [rkMem] at hd
      rcases hn : (N w (rkObs d) _).2 with e | q
      · rw [hn] at hd; cases hd
      · exact h3 q hn
  deriv w d p h := computeStepDerivativeM_calls hS T _ w d p
  adj w d p h := computeStepAdjointM_calls hS T _ w d p

theorem embMem_metered (hS : Metered S κ) (T : Coeffs ℝ s) (bhat : Fin s → ℝ)
    (N : Nonfinite M s n m o l) :
    MeteredMem (embMem T bhat S N) κ s (fun h => (∃ r, h = fin r) ∨ MeteredNonfinite κ N) where
  step w d h ho := by
    cases h with
    | fin r =>
      obtain ⟨k, h1, h2, h3⟩ := computeStepM_calls hS T r w d.toRKState
      refine ⟨k, h1, ?_⟩
      simp only [embMem, computeStepEmbM]
      rcases hr : computeStepM T S w d.toRKState r with ⟨w', e | q⟩
      · rw [hr] at h2
        exact ⟨h2, fun _ h' => by cases h'⟩
      · rw [hr] at h2 h3
        exact ⟨h2, fun _ _ => h3 _ rfl⟩
    | _ => exact (ho.resolve_left (by simp)) w (rkObs d.toRKState) _
  deriv w d p h := computeStepDerivativeM_calls hS T _ w d.toRKState p.toRKState
  adj w d p h := computeStepAdjointM_calls hS T _ w d.toRKState p.toRKState

end RK

/-! ### Operations -/

variable {B : Backend D I O} {S : Mem D M} {opt : Options} {κ : M → Calls} {s : ℕ}
  {Ok : XReal → Prop}

/-- A step of the integrator: one attempt, or with adaptive stepping up to the retry limit. -/
theorem iterateM_calls (hS : MeteredMem S κ s Ok) (hO : Sizes opt Ok) (f : ℕ) (m : M) (c : Ctrl)
    (x : IState D) (hx : Ok x.sugg) (hok : (iterateM B S opt f m c x).2.2.2 = .ok ()) :
    Ok (iterateM B S opt f m c x).2.2.1.sugg ∧
    ∃ r < f, (opt.adaptive = false → r = 0) ∧
      κ (iterateM B S opt f m c x).1 = κ m + ((1 + r) * s, 0, 0) := by
  induction f generalizing m c x with
  | zero => simp [iterateM] at hok
  | succ f ih =>
    obtain ⟨k, -, h2, h3⟩ := hS.step m x.disc x.sugg hx
    simp only [iterateM] at hok ⊢
    rcases hr : S.step m x.disc x.sugg with ⟨m', e | d⟩
    · simp [hr] at hok
    · rw [hr] at h2 h3
      obtain rfl := h3 d rfl
      simp only [hr] at hok
      by_cases ha : opt.adaptive = true
      · simp only [ha, if_true] at hok ⊢
        rcases hm : B.measure d with e | err
        · simp [hm] at hok
        · simp only [hm] at hok ⊢
          rcases hc : c.call true ⟨err, x.sugg, opt.crit.remaining (B.time d), x.errHist, x.stepHist⟩
            with ⟨c', e | st⟩
          · simp [hc] at hok
          · simp only [hc] at hok ⊢
            by_cases hacc : st.acc = true
            · simp only [hacc, if_true]
              exact ⟨hO.2 ha _, 0, by omega, fun h => by simp at h, by simpa using h2⟩
            · simp only [hacc] at hok ⊢
              obtain ⟨g1, r, g2, g3, g4⟩ := ih m' c' { x with sugg := st.sugg } (hO.2 ha _) hok
              refine ⟨g1, r + 1, by omega, fun h => by simp at h, ?_⟩
              simp only [Bool.false_eq_true, if_false]
              rw [g4]
              dsimp only at h2
              rw [h2]
              ext <;> simp
              ring
      · simp only [ha]
        exact ⟨hx, 0, by omega, fun _ => rfl, by simpa using h2⟩

theorem runStepM_calls (hS : MeteredMem S κ s Ok) (hO : Sizes opt Ok) (it : ℕ) (m : M) (c : Ctrl)
    (x : IState D) (hx : Ok x.sugg) (hok : (runStepM B S opt it m c x).2.out = .ok ()) :
    Ok (runStepM B S opt it m c x).2.st.sugg ∧
    ∃ r < opt.recursionLimit, (opt.adaptive = false → r = 0) ∧
      κ (runStepM B S opt it m c x).1 = κ m + ((1 + r) * s, 0, 0) := by
  have key := iterateM_calls (B := B) hS hO opt.recursionLimit m c x hx
  simp only [runStepM] at hok ⊢
  rcases hr : iterateM B S opt opt.recursionLimit m c x with ⟨m', c', x', e | u⟩
  · simp [hr] at hok
  · rw [hr] at key
    exact key rfl

/-- What a run of `n` steps needs, with `r` rejected attempts. -/
def RunCost (opt : Options) (s : ℕ) (n : ℕ) (a b : Calls) : Prop :=
  ∃ r ≤ n * (opt.recursionLimit - 1), (opt.adaptive = false → r = 0) ∧ b = a + ((n + r) * s, 0, 0)

theorem RunCost.step {n : ℕ} {a b c : Calls} {r : ℕ} (hr : r < opt.recursionLimit)
    (h0 : opt.adaptive = false → r = 0) (hb : b = a + ((1 + r) * s, 0, 0))
    (h : RunCost opt s n b c) : RunCost opt s (n + 1) a c := by
  obtain ⟨q, h1, h2, h3⟩ := h
  refine ⟨r + q, ?_, fun ha => by rw [h0 ha, h2 ha], ?_⟩
  · have : r ≤ opt.recursionLimit - 1 := by omega
    rw [Nat.add_mul, one_mul]
    omega
  · rw [h3, hb]
    ext <;> simp
    ring

theorem noForwardM_calls (hS : MeteredMem S κ s Ok) (hO : Sizes opt Ok) (fuel it : ℕ) (m : M)
    (c : Ctrl) (x : IState D) (hx : Ok x.sugg)
    (hok : (noForwardM B S opt fuel it m c x).2.out = .ok ()) :
    ∃ n, (∀ N, opt.crit = .steps N → it ≤ N → it + n = N) ∧
      RunCost opt s n (κ m) (κ (noForwardM B S opt fuel it m c x).1) := by
  induction fuel generalizing it m c x with
  | zero => simp [noForwardM] at hok
  | succ fuel ih =>
    simp only [noForwardM] at hok ⊢
    by_cases hf : opt.crit.finished it (B.time x.disc)
    · simp only [if_pos hf]
      refine ⟨0, fun N hN hle => ?_, 0, by simp, fun _ => rfl, by simp⟩
      simp only [hN, Crit.finished] at hf
      omega
    · simp only [if_neg hf] at hok ⊢
      have key := runStepM_calls (B := B) hS hO (it + 1) m c x hx
      rcases hr : runStepM B S opt (it + 1) m c x with ⟨m', c', x', log, e | u⟩
      · simp [hr] at hok
      · rw [hr] at key
        simp only [hr] at hok
        obtain ⟨k1, r, k2, k3, k4⟩ := key rfl
        obtain ⟨n, g1, g2⟩ := ih (it + 1) m' c' x' k1 hok
        refine ⟨n + 1, fun N hN hle => ?_, g2.step k2 k3 k4⟩
        have : it + 1 ≤ N := by
          simp only [hN, Crit.finished] at hf
          omega
        have := g1 N hN this
        omega

theorem allForwardM_calls (hS : MeteredMem S κ s Ok) (hO : Sizes opt Ok) (fuel it : ℕ)
    (stor : List (IState D)) (m : M) (c : Ctrl) (x : IState D) (hx : Ok x.sugg)
    (hok : (allForwardM B S opt fuel it stor m c x).2.2.out = .ok ()) :
    ∃ n, (allForwardM B S opt fuel it stor m c x).2.1.length = stor.length + n ∧
      (∀ N, opt.crit = .steps N → it ≤ N → it + n = N) ∧
      RunCost opt s n (κ m) (κ (allForwardM B S opt fuel it stor m c x).1) := by
  induction fuel generalizing it stor m c x with
  | zero => simp [allForwardM] at hok
  | succ fuel ih =>
    simp only [allForwardM] at hok ⊢
    by_cases hf : opt.crit.finished it (B.time x.disc)
    · simp only [if_pos hf]
      refine ⟨0, rfl, fun N hN hle => ?_, 0, by simp, fun _ => rfl, by simp⟩
      simp only [hN, Crit.finished] at hf
      omega
    · simp only [if_neg hf] at hok ⊢
      have key := runStepM_calls (B := B) hS hO (it + 1) m c x hx
      rcases hr : runStepM B S opt (it + 1) m c x with ⟨m', c', x', log, e | u⟩
      · simp [hr] at hok
      · rw [hr] at key
        simp only [hr] at hok
        obtain ⟨k1, r, k2, k3, k4⟩ := key rfl
        obtain ⟨n, g0, g1, g2⟩ := ih (it + 1) (stor ++ [x']) m' c' x' k1 hok
        refine ⟨n + 1, ?_, fun N hN hle => ?_, g2.step k2 k3 k4⟩
        · dsimp only
          rw [g0, List.length_append]
          simp
          omega
        · have : it + 1 ≤ N := by
            simp only [hN, Crit.finished] at hf
            omega
          have := g1 N hN this
          omega

theorem runStepFwdM_calls (hS : MeteredMem S κ s Ok) (hO : Sizes opt Ok) (it : ℕ) (m : M) (c : Ctrl)
    (x : IState D) (p : D) (hx : Ok x.sugg)
    (hok : (runStepFwdM B S opt it m c x p).2.1.out = .ok ()) :
    Ok (runStepFwdM B S opt it m c x p).2.1.st.sugg ∧
    ∃ r < opt.recursionLimit, (opt.adaptive = false → r = 0) ∧
      κ (runStepFwdM B S opt it m c x p).1 = κ m + ((1 + r) * s, s, 0) := by
  have key := iterateM_calls (B := B) hS hO opt.recursionLimit m c x hx
  simp only [runStepFwdM] at hok ⊢
  rcases hr : iterateM B S opt opt.recursionLimit m c x with ⟨m', c', x', e | u⟩
  · simp [hr] at hok
  · rw [hr] at key
    obtain ⟨k1, r, k2, k3, k4⟩ := key rfl
    refine ⟨k1, r, k2, k3, ?_⟩
    dsimp only at k4 ⊢
    rw [hS.deriv, k4]
    ext <;> simp

theorem fwdLoopM_calls (hS : MeteredMem S κ s Ok) (hO : Sizes opt Ok) (fuel it : ℕ) (m : M)
    (c : Ctrl) (x : IState D) (p : D) (hx : Ok x.sugg)
    (hok : (fwdLoopM B S opt fuel it m c x p).2.1.out = .ok ()) :
    ∃ n, (∀ N, opt.crit = .steps N → it ≤ N → it + n = N) ∧
      RunCost opt s n (κ m + (0, n * s, 0)) (κ (fwdLoopM B S opt fuel it m c x p).1) := by
  induction fuel generalizing it m c x p with
  | zero => simp [fwdLoopM] at hok
  | succ fuel ih =>
    simp only [fwdLoopM] at hok ⊢
    by_cases hf : opt.crit.finished it (B.time x.disc)
    · simp only [if_pos hf]
      refine ⟨0, fun N hN hle => ?_, 0, by simp, fun _ => rfl, by ext <;> simp⟩
      simp only [hN, Crit.finished] at hf
      omega
    · simp only [if_neg hf] at hok ⊢
      have key := runStepFwdM_calls (B := B) hS hO (it + 1) m c x p hx
      rcases hr : runStepFwdM B S opt (it + 1) m c x p with ⟨m', ⟨c', x', log, e | u⟩, p'⟩
      · simp [hr] at hok
      · rw [hr] at key
        simp only [hr] at hok
        obtain ⟨k1, r, k2, k3, k4⟩ := key rfl
        obtain ⟨n, g1, g2⟩ := ih (it + 1) m' c' x' p' k1 hok
        refine ⟨n + 1, fun N hN hle => ?_, g2.step k2 k3 ?_⟩
        · have : it + 1 ≤ N := by
            simp only [hN, Crit.finished] at hf
            omega
          have := g1 N hN this
          omega
        · dsimp only at k4
          rw [k4]
          ext <;> simp
          ring

theorem allReverseM_calls (hS : MeteredMem S κ s Ok) (xs : List (IState D)) (m : M) (p : D) :
    κ (allReverseM S opt xs m p).1 = κ m + (0, 0, xs.length * s) := by
  induction xs generalizing m p with
  | nil => simp [allReverseM]
  | cons x xs ih =>
    simp only [allReverseM, runStepRevM]
    rw [ih, hS.adj]
    ext <;> simp
    ring

/-! ### With pyrevolve -/

theorem RunCost.append {n n' : ℕ} {a b c : Calls} (h : RunCost opt s n a b)
    (h' : RunCost opt s n' b c) : RunCost opt s (n + n') a c := by
  obtain ⟨q, h1, h2, h3⟩ := h
  obtain ⟨q', g1, g2, g3⟩ := h'
  refine ⟨q + q', ?_, fun ha => by rw [h2 ha, g2 ha], ?_⟩
  · rw [Nat.add_mul]
    omega
  · rw [g3, h3]
    ext <;> simp
    ring

theorem RunCost.zero (a : Calls) : RunCost opt s 0 a a := ⟨0, by simp, fun _ => rfl, by simp⟩

theorem RunCost.shift {n : ℕ} {a b : Calls} (h : RunCost opt s n a b) (c : Calls) :
    RunCost opt s n (a + c) (b + c) := by
  obtain ⟨q, h1, h2, h3⟩ := h
  refine ⟨q, h1, h2, ?_⟩
  rw [h3]
  abel

theorem fwdApplyM_calls (hS : MeteredMem S κ s Ok) (hO : Sizes opt Ok) (count it : ℕ) (m : M)
    (c : Ctrl) (x : IState D) (hx : Ok x.sugg)
    (hok : (fwdApplyM B S opt it count m c x).2.out = .ok ()) :
    Ok (fwdApplyM B S opt it count m c x).2.st.sugg ∧
    RunCost opt s count (κ m) (κ (fwdApplyM B S opt it count m c x).1) := by
  induction count generalizing it m c x with
  | zero => exact ⟨hx, .zero _⟩
  | succ count ih =>
    simp only [fwdApplyM] at hok ⊢
    have key := runStepM_calls (B := B) hS hO it m c x hx
    rcases hr : runStepM B S opt it m c x with ⟨m', c', x', log, e | u⟩
    · simp [hr] at hok
    · rw [hr] at key
      simp only [hr] at hok
      obtain ⟨k1, r, k2, k3, k4⟩ := key rfl
      obtain ⟨g1, g2⟩ := ih (it + 1) m' c' x' k1 hok
      exact ⟨g1, g2.step k2 k3 k4⟩

/-- Step sizes in the saved states. -/
def SizesOk (Ok : XReal → Prop) (d : PyData D) : Prop := ∀ j y, d.slots j = some y → Ok y.sugg

theorem SizesOk.save {d : PyData D} (h : SizesOk Ok d) (j : ℕ) {x : IState D} (hx : Ok x.sugg) :
    SizesOk Ok { d with slots := Function.update d.slots j (some x) } := by
  intro k y hy
  by_cases hk : k = j
  · subst hk
    simp only [Function.update_self, Option.some.injEq] at hy
    rw [← hy]
    exact hx
  · simp only [Function.update_of_ne hk] at hy
    exact h k y hy

theorem applyForwardM_calls (hS : MeteredMem S κ s Ok) (hO : Sizes opt Ok) {R : Restore D} {n k : ℕ}
    {acts : List Act} {sl sl' : ℕ → Option ℕ} (hl : LegalF n acts k sl sl') (d : PyData D) (m : M)
    (c : Ctrl) (x : IState D) (hx : Ok x.sugg) (hd : SizesOk Ok d)
    (hok : (applyForwardM B S opt R n acts d m c x).2.2.out = .ok ()) :
    SizesOk Ok (applyForwardM B S opt R n acts d m c x).2.1 ∧
    Ok (applyForwardM B S opt R n acts d m c x).2.2.st.sugg ∧
    RunCost opt s (workOf n acts) (κ m) (κ (applyForwardM B S opt R n acts d m c x).1) := by
  induction hl generalizing d m c x with
  | @advance acts a b sl sl' hab hbn h ih =>
    simp only [applyForwardM] at hok ⊢
    have key := fwdApplyM_calls (B := B) hS hO (b - a) (a + 1) m c x hx
    rcases hr : fwdApplyM B S opt (a + 1) (b - a) m c x with ⟨m', c', x', log, e | u⟩
    · simp [hr] at hok
    · rw [hr] at key
      simp only [hr] at hok
      obtain ⟨k1, k2⟩ := key rfl
      obtain ⟨g1, g2, g3⟩ := ih d m' c' x' k1 hd hok
      rw [workOf_cons]
      exact ⟨g1, g2, k2.append g3⟩
  | takeshot h ih =>
    rw [workOf_cons, Act.work, Nat.zero_add]
    exact ih _ m c x hx (hd.save _ hx) hok
  | @restore acts k k' j sl sl' hj h ih =>
    rw [workOf_cons, Act.work, Nat.zero_add]
    simp only [applyForwardM] at hok ⊢
    rcases hy : d.slots j with _ | y
    · simp [hy] at hok
    · simp only [hy] at hok
      exact ih d m c _ (hd j y hy) hd hok
  | @lastfw a sl ha =>
    simp only [applyForwardM] at hok ⊢
    obtain ⟨k1, k2⟩ := fwdApplyM_calls (B := B) hS hO (n - a) (a + 1) m c x hx hok
    rw [workOf_cons]
    exact ⟨hd, k1, k2⟩

theorem applyReverseM_calls (hS : MeteredMem S κ s Ok) (hO : Sizes opt Ok) {R : Restore D}
    {n k todo : ℕ} {acts : List Act} {sl : ℕ → Option ℕ} (hl : LegalR n acts k sl todo)
    (d : PyData D) (m : M) (c : Ctrl) (x : IState D) (p : D) (hx : Ok x.sugg) (hd : SizesOk Ok d)
    (hok : (applyReverseM B S opt R acts d m c x p).2.2.1.out = .ok ()) :
    RunCost opt s (workOf n acts) (κ m + (0, 0, todo * s))
      (κ (applyReverseM B S opt R acts d m c x p).1) := by
  induction hl generalizing d m c x p with
  | done =>
    have e : ((0, 0, 0 * s) : Calls) = 0 := by simp
    rw [e, add_zero]
    exact RunCost.zero _
  | @advance acts a b sl todo hab hbn h ih =>
    simp only [applyReverseM] at hok ⊢
    have key := fwdApplyM_calls (B := B) hS hO (b - a) (a + 1) m c x hx
    rcases hr : fwdApplyM B S opt (a + 1) (b - a) m c x with ⟨m', c', x', log, e | u⟩
    · simp [hr] at hok
    · rw [hr] at key
      simp only [hr] at hok
      obtain ⟨k1, k2⟩ := key rfl
      rw [workOf_cons]
      exact (k2.shift _).append (ih d m' c' x' p k1 hd hok)
  | takeshot h ih =>
    rw [workOf_cons, Act.work, Nat.zero_add]
    exact ih _ m c x p hx (hd.save _ hx) hok
  | @restore acts k k' j sl todo hj h ih =>
    rw [workOf_cons, Act.work, Nat.zero_add]
    simp only [applyReverseM] at hok ⊢
    rcases hy : d.slots j with _ | y
    · simp [hy] at hok
    · simp only [hy] at hok
      exact ih d m c _ p (hd j y hy) hd hok
  | @reverse acts k sl h ih =>
    simp only [applyReverseM] at hok ⊢
    have key := fwdApplyM_calls (B := B) hS hO 1 (k + 1) m c x hx
    rcases hr : fwdApplyM B S opt (k + 1) 1 m c x with ⟨m', c', x', log, e | u⟩
    · simp [hr] at hok
    · rw [hr] at key
      simp only [hr] at hok
      obtain ⟨k1, k2⟩ := key rfl
      have h1 := ih d (runStepRevM S opt (k + 2) m' x' p).1 c' x' _ k1 hd hok
      rw [workOf_cons]
      refine RunCost.append ((k2.shift (0, 0, (k + 1) * s))) ?_
      have e : κ m' + (0, 0, (k + 1) * s)
          = κ (runStepRevM S opt (k + 2) m' x' p).1 + (0, 0, k * s) := by
        simp only [runStepRevM]
        rw [hS.adj]
        ext <;> simp
        ring
      rw [e]
      exact h1

/-- A successful run with pyrevolve. -/
theorem pyForwardM_calls (hS : MeteredMem S κ s Ok) (hO : Sizes opt Ok) {R : Restore D} {n : ℕ}
    {sched : Schedule} {sl : ℕ → Option ℕ} (hl : LegalF n sched.fwd 0 (fun _ => none) sl)
    (d : PyData D) (m : M) (c : Ctrl) (x : IState D) (hx : Ok x.sugg) (hd : SizesOk Ok d)
    (hok : (pyForwardM B S opt R n sched d m c x).2.2.out = .ok ()) :
    SizesOk Ok (pyForwardM B S opt R n sched d m c x).2.1 ∧
    Ok (pyForwardM B S opt R n sched d m c x).2.2.st.sugg ∧
    RunCost opt s (1 + workOf n sched.fwd) (κ m) (κ (pyForwardM B S opt R n sched d m c x).1) := by
  simp only [pyForwardM] at hok ⊢
  have key := fwdApplyM_calls (B := B) hS hO 1 0 m c x hx
  rcases hr : fwdApplyM B S opt 0 1 m c x with ⟨m', c', x', log, e | u⟩
  · simp [hr] at hok
  · rw [hr] at key
    simp only [hr] at hok
    obtain ⟨k1, k2⟩ := key rfl
    obtain ⟨g1, g2, g3⟩ := applyForwardM_calls hS hO hl { d with first := d.first.set B x' } m' c' x' k1
      hd hok
    exact ⟨g1, g2, k2.append g3⟩

/-- A successful reverse sweep with pyrevolve. -/
theorem pyReverseM_calls (hS : MeteredMem S κ s Ok) (hO : Sizes opt Ok) {R : Restore D} {n : ℕ}
    {sched : Schedule} {sl : ℕ → Option ℕ} (hl : LegalR n sched.rev n sl sched.capo)
    (hn : sched.capo + 1 = n) (d : PyData D) (m : M) (c : Ctrl) (x : IState D) (p : D)
    (hx : Ok x.sugg) (hd : SizesOk Ok d)
    (hok : (pyReverseM B S opt R sched d m c x p).2.2.1.out = .ok ()) :
    RunCost opt s (workOf n sched.rev) (κ m + (0, 0, (n + 1) * s))
      (κ (pyReverseM B S opt R sched d m c x p).1) := by
  simp only [pyReverseM] at hok ⊢
  have key := applyReverseM_calls (B := B) hS hO (R := R) hl d
    (runStepRevM S opt (sched.capo + 2) m x p).1 c x (runStepRevM S opt (sched.capo + 2) m x p).2.1 hx
    hd
  rcases hr : applyReverseM B S opt R sched.rev d (runStepRevM S opt (sched.capo + 2) m x p).1 c x
    (runStepRevM S opt (sched.capo + 2) m x p).2.1 with ⟨m', d', ⟨c', x', log, e | u⟩, p'⟩
  · simp [hr] at hok
  · rw [hr] at key
    have h1 := key rfl
    simp only [runStepRevM] at h1 ⊢
    rw [hS.adj] at h1 ⊢
    have h2 := h1.shift (0, 0, s)
    have e : κ m + (0, 0, (n + 1) * s) = κ m + (0, 0, s) + (0, 0, sched.capo * s) + (0, 0, s) := by
      rw [← hn]
      ext <;> simp
      ring
    rw [e]
    exact h2

end Verif.Integrator
