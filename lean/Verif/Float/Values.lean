/-
A step of the discretization in floating point arithmetic.

Source: /repo/src/rkopenmdao/time_discretization/stage_ordered_runge_kutta_discretization.py L53-80,
        L181-243, L475-517

The functions are those of `Verif.RK.Model` with every operation rounded. `np.einsum` may add the
products in any order, and products that are added at once (fused multiply-add) may be unrounded;
`dot` is any function of this kind. The stage problem is an arbitrary function, so its rounding is
part of it. Overflow and underflow are not modelled.
-/
import Verif.Float.Model
import Mathlib.Algebra.BigOperators.Group.List.Lemmas

namespace Verif.Fl

open Verif.RK Verif.Control Verif.XReal Verif.Integrator
open Classical

variable {s n m o l : ℕ} {fl : ℝ → ℝ} {u : ℝ}

/-- Sums of a list of numbers that are computed with at most `d` rounded additions one after the
other, in any order and with any brackets. -/
inductive Summed (fl : ℝ → ℝ) : ℕ → List ℝ → ℝ → Prop
  | nil : Summed fl 0 [] 0
  | single (x) : Summed fl 0 [x] x
  | add {d xs ys l a b} : Summed fl d xs a → Summed fl d ys b → l.Perm (xs ++ ys) →
      Summed fl (d + 1) l (fl (a + b))
  | more {d l a} : Summed fl d l a → Summed fl (d + 1) l a

/-- How `np.einsum("ij,i", ..)` evaluates one entry, stage_ordered...py L194-198: it multiplies, with
or without rounding, and adds the products in some order. -/
def IsDot (fl : ℝ → ℝ) (dot : List (ℝ × ℝ) → ℝ) : Prop :=
  ∀ ps, ∃ ts, List.Forall₂ (fun p t => t = p.1 * p.2 ∨ t = fl (p.1 * p.2)) ps ts ∧
    Summed fl ps.length ts (dot ps)

/-- From left to right, starting with zero. -/
noncomputable def leftDot (fl : ℝ → ℝ) (ps : List (ℝ × ℝ)) : ℝ :=
  ps.foldl (fun a p => fl (a + fl (p.1 * p.2))) 0

/-- `_accumulate_stages`, stage_ordered...py L190-199. -/
noncomputable def accumulateStagesFl (dot : List (ℝ × ℝ) → ℝ) (T : Coeffs ℝ s) (i : Fin s)
    (field : Fin s → Fin n → ℝ) : Fin n → ℝ :=
  if i.val = 0 then 0
  else fun x => dot (((List.finRange s).filter fun j => j < i).map fun j => (field j x, T.A i j))

/-- `_accumulate_step` and `_accumulate_embedded_step`, stage_ordered...py L201-208 and L510-517. -/
noncomputable def accumulateStepFl (fl : ℝ → ℝ) (dot : List (ℝ × ℝ) → ℝ) (w : Fin s → ℝ)
    (start : Fin n → ℝ) (field : Fin s → Fin n → ℝ) (h : ℝ) : Fin n → ℝ :=
  fun x => fl (start x + dot ((List.finRange s).map fun i => (field i x, fl (h * w i))))

/-- `_compute_stage`, stage_ordered...py L210-243. -/
noncomputable def computeStageFl (fl : ℝ → ℝ) (dot : List (ℝ × ℝ) → ℝ) (T : Coeffs ℝ s)
    (ode : ODE ℝ n m o l) (h : ℝ) (st : RKState ℝ s n m o l) (i : Fin s) : RKState ℝ s n m o l :=
  let ti := fl (st.startTime + fl (h * T.c i))
  let r := ode.computeUpdate
    { stepInput := st.startState
      stageInput := accumulateStagesFl dot T i st.stageUpdates
      independentInput := st.independentInputs
      time := ti } h (T.A i i)
  { st with
    stageTimes := Function.update st.stageTimes i ti
    stageUpdates := Function.update st.stageUpdates i r.1.stageUpdate
    stageStates := Function.update st.stageStates i r.1.stageState
    stageIndependentOutputs :=
      Function.update st.stageIndependentOutputs i r.1.independentOutput
    linearizationPoints := Function.update st.linearizationPoints i r.2 }

/-- `compute_step`, stage_ordered...py L53-80. -/
noncomputable def computeStepFl (fl : ℝ → ℝ) (dot : List (ℝ × ℝ) → ℝ) (T : Coeffs ℝ s)
    (ode : ODE ℝ n m o l) (st : RKState ℝ s n m o l) (h : ℝ) : RKState ℝ s n m o l :=
  let st1 := { shiftState st with stepSize := h }
  let st2 := (List.finRange s).foldl (computeStageFl fl dot T ode h) st1
  { st2 with
    finalTime := fl (st2.startTime + h)
    finalState := accumulateStepFl fl dot T.b st2.startState st2.stageUpdates h
    finalIndependentOutputs := 0 }

/-- Embedded `compute_step` with `compute_error_estimate`, stage_ordered...py L475-508 and
L546-555. -/
noncomputable def computeStepEmbFl (fl : ℝ → ℝ) (dot : List (ℝ × ℝ) → ℝ) (T : Coeffs ℝ s)
    (bhat : Fin s → ℝ) (ode : ODE ℝ n m o l) (st : EmbRKState ℝ s n m o l) (h : ℝ) :
    EmbRKState ℝ s n m o l :=
  let r := computeStepFl fl dot T ode st.toRKState h
  let e := accumulateStepFl fl dot bhat r.startState r.stageUpdates h
  { st with
    toRKState := r
    embeddedState := e
    errorEstimate := fun x => fl (r.finalState x - e x) }

/-- The plain discretization in floating point as backend; `T` is the final time of the criterion
(see `Timed`). -/
noncomputable def rkFloat (fl : ℝ → ℝ) (dot : List (ℝ × ℝ) → ℝ) (T : ℝ) (E : Env s n m o l) :
    Backend (RKState ℝ s n m o l) (StartingValues ℝ n m) (Outputs n) :=
  { rkBackend E with
    step := fun d h => match h with
      | .fin r => match E.fails (rkObs d) r with
        | some e => .error e
        | none => .ok (computeStepFl fl dot E.T E.ode d r)
      | h => (E.nonfinite (rkObs d) h).map EmbRKState.toRKState
    time := fun d => fin (T - fl (T - d.finalTime)) }

/-- The embedded discretization in floating point as backend. -/
noncomputable def embFloat (fl : ℝ → ℝ) (dot : List (ℝ × ℝ) → ℝ) (T : ℝ) (E : Env s n m o l)
    (bhat : Fin s → ℝ) : Backend (EmbRKState ℝ s n m o l) (StartingValues ℝ n m) (Outputs n) :=
  { embBackend E bhat with
    step := fun d h => match h with
      | .fin r => match E.fails (rkObs d.toRKState) r with
        | some e => .error e
        | none => .ok (computeStepEmbFl fl dot E.T bhat E.ode d r)
      | h => E.nonfinite (rkObs d.toRKState) h
    time := fun d => fin (T - fl (T - d.finalTime)) }

/-! ### Errors of sums -/

/-- The error of a sum with `d` additions one after the other. -/
theorem Summed.error (hf : Rounds fl u) {d : ℕ} {xs : List ℝ} {z : ℝ} (h : Summed fl d xs z) :
    |z - xs.sum| ≤ ((1 + u) ^ d - 1) * (xs.map fun x => |x|).sum := by
  have hu := hf.nonneg
  have habs : ∀ l : List ℝ, 0 ≤ (l.map fun x => |x|).sum := fun l =>
    List.sum_nonneg fun x hx => by
      obtain ⟨y, -, rfl⟩ := List.mem_map.mp hx
      exact abs_nonneg y
  have hle : ∀ l : List ℝ, |l.sum| ≤ (l.map fun x => |x|).sum := by
    intro l
    induction l with
    | nil => simp
    | cons x l ih =>
      simp only [List.sum_cons, List.map_cons]
      exact (abs_add_le _ _).trans (by linarith)
  induction h with
  | nil => simp
  | single x => simp
  | @add d xs ys l a b ha hb hp iha ihb =>
    rw [hp.sum_eq, (hp.map _).sum_eq, List.map_append, List.sum_append, List.sum_append]
    have h1 := hf.err (a + b)
    set X := (xs.map fun x => |x|).sum
    set Y := (ys.map fun x => |x|).sum
    have hX : 0 ≤ X := habs xs
    have hY : 0 ≤ Y := habs ys
    have hx := hle xs
    have hy := hle ys
    have e1 : |a + b - (xs.sum + ys.sum)| ≤ ((1 + u) ^ d - 1) * (X + Y) := by
      calc |a + b - (xs.sum + ys.sum)| = |(a - xs.sum) + (b - ys.sum)| := by congr 1; ring
        _ ≤ _ := (abs_add_le _ _).trans (by linarith)
    have e2 : |a + b| ≤ (1 + u) ^ d * (X + Y) := by
      have : a + b = (a + b - (xs.sum + ys.sum)) + (xs.sum + ys.sum) := by ring
      rw [this]
      refine (abs_add_le _ _).trans ?_
      have := abs_add_le xs.sum ys.sum
      linarith
    have : fl (a + b) - (xs.sum + ys.sum)
        = (fl (a + b) - (a + b)) + (a + b - (xs.sum + ys.sum)) := by ring
    rw [this]
    refine (abs_add_le _ _).trans ?_
    have e3 : u * |a + b| ≤ u * ((1 + u) ^ d * (X + Y)) := mul_le_mul_of_nonneg_left e2 hu
    rw [pow_succ]
    nlinarith
  | @more d l a _ ih =>
    refine ih.trans (mul_le_mul_of_nonneg_right ?_ (habs l))
    have : (1 + u) ^ d ≤ (1 + u) ^ (d + 1) := pow_le_pow_right₀ (by linarith) (Nat.le_succ d)
    linarith

/-- The error of a sum of products. -/
theorem IsDot.error (hf : Rounds fl u) {dot : List (ℝ × ℝ) → ℝ} (hd : IsDot fl dot)
    (ps : List (ℝ × ℝ)) : |dot ps - (ps.map fun p => p.1 * p.2).sum| ≤
      ((1 + u) ^ (ps.length + 1) - 1) * (ps.map fun p => |p.1 * p.2|).sum := by
  have hu := hf.nonneg
  obtain ⟨ts, h1, h2⟩ := hd ps
  have h3 := h2.error hf
  have h4 : |ts.sum - (ps.map fun p => p.1 * p.2).sum| ≤ u * (ps.map fun p => |p.1 * p.2|).sum ∧
      (ts.map fun x => |x|).sum ≤ (1 + u) * (ps.map fun p => |p.1 * p.2|).sum := by
    clear h2 h3
    induction h1 with
    | nil => simp
    | @cons p t ps ts hp _ ih =>
      simp only [List.map_cons, List.sum_cons]
      have ht : |t - p.1 * p.2| ≤ u * |p.1 * p.2| := by
        rcases hp with rfl | rfl
        · rw [sub_self, abs_zero]
          exact mul_nonneg hu (abs_nonneg _)
        · exact hf.err _
      have ht' : |t| ≤ (1 + u) * |p.1 * p.2| := by
        have := abs_add_le (t - p.1 * p.2) (p.1 * p.2)
        rw [sub_add_cancel] at this
        linarith
      constructor
      · have : t + ts.sum - (p.1 * p.2 + (ps.map fun p => p.1 * p.2).sum)
          = (t - p.1 * p.2) + (ts.sum - (ps.map fun p => p.1 * p.2).sum) := by ring
        rw [this]
        refine (abs_add_le _ _).trans ?_
        linarith [ih.1]
      · linarith [ih.2]
  set P := (ps.map fun p => |p.1 * p.2|).sum
  have hg : 0 ≤ (1 + u) ^ ps.length - 1 := by
    have := one_le_pow₀ (n := ps.length) (by linarith : (1 : ℝ) ≤ 1 + u)
    linarith
  have e : dot ps - (ps.map fun p => p.1 * p.2).sum
      = (dot ps - ts.sum) + (ts.sum - (ps.map fun p => p.1 * p.2).sum) := by ring
  rw [e]
  refine (abs_add_le _ _).trans ?_
  have e2 := mul_le_mul_of_nonneg_left h4.2 hg
  rw [pow_succ]
  nlinarith [h4.1]

theorem pow_sub_one_le (hf : Rounds fl u) (k : ℕ) : (1 + u) ^ k - 1 ≤ u * 2 ^ k := by
  have hu := hf.nonneg
  have hu1 := hf.lt_one
  have key : (1 + u) ^ k - 1 ≤ u * (2 ^ k - 1) := by
    induction k with
    | zero => simp
    | succ k ih =>
      rw [pow_succ, pow_succ]
      have h1 : (1 : ℝ) ≤ 2 ^ k := one_le_pow₀ (by norm_num)
      have h2 := mul_le_mul_of_nonneg_right ih (by linarith : 0 ≤ 1 + u)
      have h3 : u * (2 ^ k - 1) * (1 + u) ≤ u * (2 ^ k - 1) * 2 :=
        mul_le_mul_of_nonneg_left (by linarith) (mul_nonneg hu (by linarith))
      linarith
  linarith

theorem forall₂_mul (fl : ℝ → ℝ) (ps : List (ℝ × ℝ)) :
    List.Forall₂ (fun p t => t = p.1 * p.2 ∨ t = fl (p.1 * p.2)) ps
      (ps.map fun p => fl (p.1 * p.2)) := by
  induction ps with
  | nil => exact .nil
  | cons p ps ih => exact .cons (.inr rfl) ih

/-- Adding from left to right is one of the possibilities. -/
theorem leftDot_isDot (fl : ℝ → ℝ) : IsDot fl (leftDot fl) := by
  intro ps
  refine ⟨ps.map fun p => fl (p.1 * p.2), forall₂_mul fl ps, ?_⟩
  have key : ∀ (qs : List (ℝ × ℝ)) (d : ℕ) (xs : List ℝ) (a : ℝ), Summed fl d xs a →
      Summed fl (d + qs.length) (xs ++ qs.map fun p => fl (p.1 * p.2))
        (qs.foldl (fun a p => fl (a + fl (p.1 * p.2))) a) := by
    intro qs
    induction qs with
    | nil => intro d xs a h; simpa using h
    | cons q qs ih =>
      intro d xs a h
      have hup : ∀ d, Summed fl d [fl (q.1 * q.2)] (fl (q.1 * q.2)) := by
        intro d
        induction d with
        | zero => exact .single _
        | succ d ih => exact .more ih
      have := ih (d + 1) (xs ++ [fl (q.1 * q.2)]) _ (.add h (hup d) (List.Perm.refl _))
      rw [List.length_cons, List.map_cons, List.foldl_cons]
      rw [show d + (qs.length + 1) = d + 1 + qs.length by omega]
      simpa using this
  simpa [leftDot] using key ps 0 [] 0 .nil

/-! ### What a step leaves behind -/

/-- The input of the stage problem in stage `i`. -/
noncomputable def stageInFl (fl : ℝ → ℝ) (dot : List (ℝ × ℝ) → ℝ) (T : Coeffs ℝ s) (h t : ℝ)
    (y : Fin n → ℝ) (p : Fin m → ℝ) (k : Fin s → Fin n → ℝ) (i : Fin s) : OdeInput ℝ n m where
  stepInput := y
  stageInput := accumulateStagesFl dot T i k
  independentInput := p
  time := fl (t + fl (h * T.c i))

/-- The part of the result of a step that later steps use. -/
structure FlResult (fl : ℝ → ℝ) (dot : List (ℝ × ℝ) → ℝ) (T : Coeffs ℝ s) (ode : ODE ℝ n m o l)
    (h t : ℝ) (y : Fin n → ℝ) (p : Fin m → ℝ) (r : RKState ℝ s n m o l) : Prop where
  indep : r.independentInputs = p
  update : ∀ i, r.stageUpdates i
    = (ode.computeUpdate (stageInFl fl dot T h t y p r.stageUpdates i) h (T.A i i)).1.stageUpdate
  finalTime : r.finalTime = fl (t + h)
  finalState : r.finalState = accumulateStepFl fl dot T.b y r.stageUpdates h

theorem stageInFl_congr {dot : List (ℝ × ℝ) → ℝ} (T : Coeffs ℝ s) (h t : ℝ) (y : Fin n → ℝ)
    (p : Fin m → ℝ) (k k' : Fin s → Fin n → ℝ) (i : Fin s) (hk : ∀ j, j < i → k j = k' j) :
    stageInFl fl dot T h t y p k i = stageInFl fl dot T h t y p k' i := by
  unfold stageInFl accumulateStagesFl
  congr 1
  split_ifs
  · rfl
  · funext x
    congr 1
    refine List.map_congr_left fun j hj => ?_
    rw [hk j (by simpa using (List.mem_filter.mp hj).2)]

theorem computeStepFl_result (dot : List (ℝ × ℝ) → ℝ) (T : Coeffs ℝ s) (ode : ODE ℝ n m o l)
    (st : RKState ℝ s n m o l) (h : ℝ) : FlResult fl dot T ode h st.finalTime st.finalState
      st.independentInputs (computeStepFl fl dot T ode st h) := by
  have key := Loop.foldl_finRange (computeStageFl fl dot T ode h)
    (fun q r => r.startTime = st.finalTime ∧ r.startState = st.finalState ∧
      r.independentInputs = st.independentInputs ∧ ∀ i : Fin s, i.val < q → r.stageUpdates i
        = (ode.computeUpdate (stageInFl fl dot T h st.finalTime st.finalState st.independentInputs
            r.stageUpdates i) h (T.A i i)).1.stageUpdate)
    { shiftState st with stepSize := h } ⟨rfl, rfl, rfl, by simp⟩
    (fun i r hr => ?_)
  · obtain ⟨h1, h2, h3, h4⟩ := key
    unfold computeStepFl
    refine ⟨h3, fun i => h4 i i.2, ?_, ?_⟩
    · simp only [h1]
    · simp only [h2]
  · obtain ⟨h1, h2, h3, h4⟩ := hr
    refine ⟨h1, h2, h3, fun j hj => ?_⟩
    have hown : OdeInput.mk r.startState (accumulateStagesFl dot T i r.stageUpdates)
        r.independentInputs (fl (r.startTime + fl (h * T.c i)))
        = stageInFl fl dot T h st.finalTime st.finalState st.independentInputs r.stageUpdates i := by
      simp [stageInFl, h1, h2, h3]
    have hin : ∀ (v : Fin n → ℝ) (j : Fin s), j.val ≤ i.val →
        stageInFl fl dot T h st.finalTime st.finalState st.independentInputs
          (Function.update r.stageUpdates i v) j
        = stageInFl fl dot T h st.finalTime st.finalState st.independentInputs r.stageUpdates j := by
      intro v j hj
      refine stageInFl_congr T h _ _ _ _ _ j fun q hq => ?_
      have : q ≠ i := by
        rintro rfl
        exact absurd hq (by rw [Fin.lt_def]; omega)
      simp [Function.update_of_ne this]
    unfold computeStageFl
    simp only [hown]
    by_cases e : j = i
    · subst e
      rw [Function.update_self, hin _ j le_rfl]
    · have hj' : j.val < i.val := by
        have : j.val ≠ i.val := fun hh => e (Fin.ext hh)
        omega
      rw [Function.update_of_ne e, hin _ j (by omega)]
      exact h4 j hj'

/-! ### The two backends -/

/-- What plain and embedded backend have in common. -/
structure FlCore {D : Type} (fl : ℝ → ℝ) (dot : List (ℝ × ℝ) → ℝ)
    (B : Backend D (StartingValues ℝ n m) (Outputs n)) (E : Env s n m o l) where
  core : D → RKState ℝ s n m o l
  step_core : ∀ d r e, B.step d (fin r) = .ok e → core e = computeStepFl fl dot E.T E.ode (core d) r
  set_core : ∀ a b, core (B.set a b) = (core a).set (core b)
  load_core : ∀ d i, core (B.load d i) = rkLoad (core d) i
  clear_core : ∀ d, core (B.clearLin d) = { core d with linearizationPoints := 0 }
  read_core : ∀ d, B.read d = ⟨(core d).finalTime, (core d).finalState⟩

/-- The plain backend. -/
def rkFlCore (fl : ℝ → ℝ) (dot : List (ℝ × ℝ) → ℝ) (T : ℝ) (E : Env s n m o l) :
    FlCore fl dot (rkFloat fl dot T E) E where
  core := id
  step_core := by
    intro d r e h
    simp only [rkFloat] at h
    split at h
    · simp at h
    · simp only [Except.ok.injEq] at h
      exact h.symm
  set_core := fun _ _ => rfl
  load_core := fun _ _ => rfl
  clear_core := fun _ => rfl
  read_core := fun _ => rfl

/-- The embedded backend. -/
def embFlCore (fl : ℝ → ℝ) (dot : List (ℝ × ℝ) → ℝ) (T : ℝ) (E : Env s n m o l) (bhat : Fin s → ℝ) :
    FlCore fl dot (embFloat fl dot T E bhat) E where
  core := EmbRKState.toRKState
  step_core := by
    intro d r e h
    simp only [embFloat] at h
    split at h
    · simp at h
    · simp only [Except.ok.injEq] at h
      rw [← h]
      rfl
  set_core := fun _ _ => rfl
  load_core := fun _ _ => rfl
  clear_core := fun _ => rfl
  read_core := fun _ => rfl

/-- The times of the plain backend are those of C74 and C75. -/
theorem rkFloat_timed (dot : List (ℝ × ℝ) → ℝ) (T : ℝ) (E : Env s n m o l) :
    Timed fl T (rkFloat fl dot T E) (fun d => d.finalTime) (fun i => i.initialTime)
      (fun v => v.time) where
  time := fun _ => rfl
  set := fun _ _ => rfl
  step := by
    intro d h e he
    have := (rkFlCore fl dot T E).step_core d h e he
    change e = computeStepFl fl dot E.T E.ode d h at this
    rw [this]
    exact (computeStepFl_result (fl := fl) dot E.T E.ode d h).finalTime
  load := fun _ _ => rfl
  read := fun _ => rfl

/-- The times of the embedded backend are those of C74 and C75. -/
theorem embFloat_timed (dot : List (ℝ × ℝ) → ℝ) (T : ℝ) (E : Env s n m o l) (bhat : Fin s → ℝ) :
    Timed fl T (embFloat fl dot T E bhat) (fun d => d.finalTime) (fun i => i.initialTime)
      (fun v => v.time) where
  time := fun _ => rfl
  set := fun _ _ => rfl
  step := by
    intro d h e he
    have := (embFlCore fl dot T E bhat).step_core d h e he
    change e.toRKState = computeStepFl fl dot E.T E.ode d.toRKState h at this
    change e.toRKState.finalTime = _
    rw [this]
    exact (computeStepFl_result (fl := fl) dot E.T E.ode d.toRKState h).finalTime
  load := fun _ _ => rfl
  read := fun _ => rfl

end Verif.Fl
