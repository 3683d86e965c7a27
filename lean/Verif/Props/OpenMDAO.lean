/-
C50, C51, C52: linearization points, translation between arrays and variables, forward and reverse
derivatives of the OpenMDAO backend.
-/
import Verif.OpenMDAO.Lemmas
import Mathlib.Tactic.NormNum

namespace Verif.Props

open Verif.OM Verif.Metadata Finset

variable {K : Type}

theorem built_sound {C : Conf} (h : Built C) : C.info.Sound := by
  obtain ⟨P, n, req, ind, ms, r, h1, h2⟩ := h
  exact setup_sound h1 h2

/-! ### A problem for the examples -/

/-- A serial problem: time, a quantity `x` with all variables and one entry, a quantity `y` of two
entries with stage output only, an independent input `p` of two entries. -/
def serialProblem : Problem :=
  { vars := [
      ⟨"t", .input, ["time_variable"], [1], [some [1]]⟩,
      ⟨"x_old", .input, ["x", "step_input_var"], [1], [some [1]]⟩,
      ⟨"x_acc", .input, ["x", "accumulated_stage_var"], [1], [some [1]]⟩,
      ⟨"p_in", .input, ["p", "time_independent_input_var"], [2], [some [2]]⟩,
      ⟨"x_up", .output, ["x", "stage_output_var"], [1], [some [1]]⟩,
      ⟨"y_up", .output, ["y", "stage_output_var"], [2], [some [2]]⟩],
    emptyTagsMatchAll := false }

/-- Its metadata. -/
def serialMeta : Meta where
  timeVariable := some "t"
  arraySize := 3
  independentSize := 2
  quantities := [
    ⟨"x", ⟨[1], [1], true, false, 0, 1, 0, 1⟩, some "x_old", some "x_acc", some "x_up", none⟩,
    ⟨"y", ⟨[2], [2], true, false, 1, 3, 0, 2⟩, none, none, some "y_up", none⟩]
  independents := [⟨"p", ⟨[2], [2], true, false, 0, 2, 0, 2⟩, none, none, none, some "p_in"⟩]

/-- Every input has its own source. -/
def serialConf : Conf := ⟨serialMeta, fun s => "_auto_ivc_" ++ s⟩

/-- Inputs and outputs of the problem. -/
def serialLayout : Layout where
  inputs := [("t", 1), ("x_old", 1), ("x_acc", 1), ("p_in", 2)]
  outputs := [("_auto_ivc_t", 1), ("_auto_ivc_x_old", 1), ("_auto_ivc_x_acc", 1),
    ("_auto_ivc_p_in", 2), ("x_up", 1), ("y_up", 2)]

theorem serial_built : Built serialConf :=
  ⟨serialProblem, 1, ["x", "y"], ["p"], [serialMeta], 0, by decide +kernel, rfl⟩

theorem serial_proper : serialLayout.Proper := by constructor <;> decide

theorem serial_fits : Fits serialConf serialLayout := by
  constructor <;> decide +kernel

/-! ### C50: linearization points -/

/-- Restoring a linearization point recorded from the vectors `v` sets every entry of inputs and
outputs to its value in `v`, from whatever vectors `w`; nothing else is changed. -/
theorem C50_roundtrip [Inhabited K] {L : Layout} (hL : L.Proper) (v w : Vectors K) :
    Agree L (setPoint L (getPoint L v) w) v ∧
    (∀ e, e ∉ entriesOf L.inputs →
      (setPoint L (getPoint L v) w).inputs e.1 e.2 = w.inputs e.1 e.2) ∧
    ∀ e, e ∉ entriesOf L.outputs →
      (setPoint L (getPoint L v) w).outputs e.1 e.2 = w.outputs e.1 e.2 := by
  refine ⟨setPoint_getPoint hL v w, fun e he => ?_, fun e he => ?_⟩ <;>
  · refine load_above _ _ _ _ _ fun s hs => ?_
    by_contra hc
    exact he (mem_entriesOf.mpr ⟨s, hs, by omega⟩)

/-- The recorded point has the advertised size. -/
theorem C50_size (L : Layout) (v : Vectors K) : (getPoint L v).length = pointSize L := by
  unfold getPoint pointSize
  rw [List.length_append, asarray_length, asarray_length]

/-- A derivative or adjoint call with the linearization point returned by an evaluation linearizes
at the vectors of that evaluation, whatever was computed in between. -/
theorem C50_derivatives_at_evaluation [CommRing K] [Inhabited K] (C : Conf) {L : Layout}
    (hL : L.Proper) (E : Env K) (v w : Vectors K) (u d : Inputs K) (y : Flat K) (h a h' a' : K) :
    Agree L (computeDerivative C L E w (computeUpdate C L E v u h a).2.2 d h' a').1
      (computeUpdate C L E v u h a).1 ∧
    Agree L (computeAdjoint C L E w (computeUpdate C L E v u h a).2.2 y h' a').1
      (computeUpdate C L E v u h a).1 :=
  ⟨setPoint_getPoint hL _ _, setPoint_getPoint hL _ _⟩

/-- The forward derivative at a recorded point does not depend on what the stage problem held before the
call. -/
theorem C50_derivative_history_free [CommRing K] [Inhabited K] {C : Conf} (hB : Built C)
    {L : Layout} (hL : L.Proper) (hF : Fits C L) {E : Env K}
    {J : Vectors K → K → K → String × ℕ → String × ℕ → K} (hJ : SolvesLinear L E J)
    (v v' w : Vectors K) (d : Inputs K) (h a : K) :
    ∀ i < C.info.arraySize, (computeDerivative C L E v (getPoint L w) d h a).2 i =
      (computeDerivative C L E v' (getPoint L w) d h a).2 i := by
  refine vecToOutputs_congr (built_sound hB) hF ?_ _
  have key : ∀ v : Vectors K, Solves (entriesOf L.outputs) (J w h a)
      (E.solveFwd (setPoint L (getPoint L w) v) h a (inputsToVec C (-1) d fun _ _ => 0))
      (inputsToVec C (-1) d fun _ _ => 0) := by
    intro v e he
    rw [← hJ.fwd (setPoint L (getPoint L w) v) h a (inputsToVec C (-1) d fun _ _ => 0) e he]
    refine Finset.sum_congr rfl fun e' he' => ?_
    rw [hJ.point _ _ h a (setPoint_getPoint hL w v) e he e' he']
  exact solves_unique (fun c => ⟨_, hJ.rev w h a c⟩) (key v) (key v')

-- a recorded point of the example problem is restored although all values have changed
example : (setPoint serialLayout (getPoint serialLayout
      (⟨fun _ k => k + 1, fun _ k => k + 5⟩ : Vectors ℤ)) ⟨fun _ _ => 0, fun _ _ => 0⟩).inputs
        "p_in" 1 = 2 :=
  (C50_roundtrip serial_proper _ _).1.1 ("p_in", 1) (by decide +kernel)

/-! ### C51: translation of variables -/

/-- Writing arrays, time and independent inputs to the variables puts every slice into its variable
(times the factor), changes no other variable, and reading the variables back gives the
same values for all quantities with a step input and zero at the other indices. Missing for the full
property: the variables the inputs are connected to have to be different ones. -/
theorem C51_inputs_partial [CommRing K] {C : Conf} (hB : Built C)
    (hs : ((written C).map Prod.fst).Nodup) (f : K) (u : Inputs K) (x : Vec K) :
    (∀ q ∈ C.info.quantities, q.arr.isLocal = true → ∀ k,
      (∀ s, q.stepInput = some s →
        inputsToVec C f u x (C.source s) k = f * u.step (q.arr.start + k)) ∧
      ∀ s, q.accumulated = some s →
        inputsToVec C f u x (C.source s) k = f * u.stage (q.arr.start + k)) ∧
    (∀ q ∈ C.info.independents, q.arr.isLocal = true → ∀ s, q.independentInput = some s → ∀ k,
      inputsToVec C f u x (C.source s) k = f * u.indep (q.arr.start + k)) ∧
    (∀ n, n ∉ (written C).map Prod.fst → inputsToVec C f u x n = x n) ∧
    (vecToInputs C (inputsToVec C f u x) Inputs.zero).time =
      (if C.info.timeVariable.isSome then f * u.time else 0) ∧
    (∀ i, InputAt C i → (vecToInputs C (inputsToVec C f u x) Inputs.zero).step i = f * u.step i ∧
      (vecToInputs C (inputsToVec C f u x) Inputs.zero).stage i = f * u.stage i) ∧
    (∀ i, ¬ InputAt C i → (vecToInputs C (inputsToVec C f u x) Inputs.zero).step i = 0 ∧
      (vecToInputs C (inputsToVec C f u x) Inputs.zero).stage i = 0) ∧
    ∀ i < C.info.independentSize,
      (vecToInputs C (inputsToVec C f u x) Inputs.zero).indep i = f * u.indep i := by
  have hC := built_sound hB
  have hnod : ((ports C u).map Port.name).Nodup := by
    rw [names_of (ports_written C u)]; exact hs
  have hw : ∀ p ∈ ports C u, ∀ k, inputsToVec C f u x p.name k = f * p.val k := by
    rw [inputsToVec_eq hC]
    exact writeAll_mem f _ x hnod
  have hstep : ∀ q ∈ C.info.quantities, q.arr.isLocal = true → ∀ s, q.stepInput = some s → ∀ k,
      inputsToVec C f u x (C.source s) k = f * u.step (q.arr.start + k) := by
    intro q hq hl s h k
    refine hw ⟨C.source s, q.arr.stop - q.arr.start, fun k => u.step (q.arr.start + k)⟩ ?_ k
    refine List.mem_append_right _ (List.mem_append_left _ (List.mem_flatMap.mpr ⟨q, hq, ?_⟩))
    refine List.mem_append_left _ ?_
    rw [h]; simp [portOf, hl]
  have hstage : ∀ q ∈ C.info.quantities, q.arr.isLocal = true → ∀ s, q.accumulated = some s → ∀ k,
      inputsToVec C f u x (C.source s) k = f * u.stage (q.arr.start + k) := by
    intro q hq hl s h k
    refine hw ⟨C.source s, q.arr.stop - q.arr.start, fun k => u.stage (q.arr.start + k)⟩ ?_ k
    refine List.mem_append_right _ (List.mem_append_left _ (List.mem_flatMap.mpr ⟨q, hq, ?_⟩))
    refine List.mem_append_right _ ?_
    rw [h]; simp [portOf, hl]
  have hindep : ∀ q ∈ C.info.independents, q.arr.isLocal = true → ∀ s, q.independentInput = some s →
      ∀ k, inputsToVec C f u x (C.source s) k = f * u.indep (q.arr.start + k) := by
    intro q hq hl s h k
    refine hw ⟨C.source s, q.arr.stop - q.arr.start, fun k => u.indep (q.arr.start + k)⟩ ?_ k
    refine List.mem_append_right _ (List.mem_append_right _ (List.mem_flatMap.mpr ⟨q, hq, ?_⟩))
    unfold indepPorts
    rw [h]; simp [portOf, hl]
  refine ⟨fun q hq hl k => ⟨fun s h => hstep q hq hl s h k, fun s h => hstage q hq hl s h k⟩,
    hindep, fun n hn => ?_, ?_, ?_, ?_, ?_⟩
  · rw [inputsToVec_eq hC]
    refine writeAll_not_mem f n _ x ?_
    rw [names_of (ports_written C u)]; exact hn
  · rw [vecToInputs_eq hC]
    cases ht : C.info.timeVariable with
    | none => rfl
    | some t =>
      refine hw ⟨C.source t, 1, fun _ => u.time⟩ ?_ 0
      refine List.mem_append_left _ ?_
      unfold timePorts; rw [ht]; simp
  · rintro i ⟨q, hq, hl, h1, h2, h3⟩
    rw [vecToInputs_eq hC]
    obtain ⟨s, h4⟩ := Option.isSome_iff_exists.mp h1
    obtain ⟨s', h5⟩ := Option.isSome_iff_exists.mp (hC.paired q hq ▸ h1)
    constructor
    · dsimp only
      rw [fold_readBy_covered _ _ _ _ _ _ hC.laid q hq hl (C.source s) (by simp [h4]) i h2 h3,
        hstep q hq hl s h4, Nat.add_sub_of_le h2]
    · dsimp only
      rw [fold_readBy_covered _ _ _ _ _ _ hC.laid q hq hl (C.source s') (by simp [h5]) i h2 h3,
        hstage q hq hl s' h5, Nat.add_sub_of_le h2]
  · intro i hi
    rw [vecToInputs_eq hC]
    constructor
    · dsimp only
      rw [fold_readBy_uncovered]
      · rfl
      · intro q hq hl h1 h2
        exact hi ⟨q, hq, hl, by simpa using h1, h2.1, h2.2⟩
    · dsimp only
      rw [fold_readBy_uncovered]
      · rfl
      · intro q hq hl h1 h2
        refine hi ⟨q, hq, hl, ?_, h2.1, h2.2⟩
        rw [hC.paired q hq]; simpa using h1
  · intro i hi
    rw [vecToInputs_eq hC]
    obtain ⟨j, ⟨q, hj, h2, h3⟩, _⟩ := hC.laidIndep.unique i (Nat.zero_le _) hi
    have hq : q ∈ C.info.independents := List.mem_of_getElem? hj
    have hl : q.arr.isLocal = true := by
      rcases hC.laidIndep.bound q hq with h | h
      · exact h.1
      · omega
    obtain ⟨s, h4⟩ := Option.isSome_iff_exists.mp (hC.indep q hq hl)
    dsimp only
    rw [fold_readBy_covered _ _ _ _ _ _ hC.laidIndep q hq hl (C.source s) (by simp [h4]) i h2 h3,
      hindep q hq hl s h4, Nat.add_sub_of_le h2]

/-- Writing the stage update to the stage outputs puts every slice into its variable, changes no
other variable and can be read back. Missing for the full property: the quantities have
to have different stage output variables. -/
theorem C51_outputs_partial [CommRing K] {C : Conf} (hB : Built C)
    (hs : ((delivered C).map Prod.fst).Nodup) (f : K) (y : Flat K) (x : Vec K) :
    (∀ q ∈ C.info.quantities, q.arr.isLocal = true → ∀ s, q.stageOutput = some s → ∀ k,
      outputsToVec C f y x s k = f * y (q.arr.start + k)) ∧
    (∀ n, n ∉ (delivered C).map Prod.fst → outputsToVec C f y x n = x n) ∧
    ∀ i < C.info.arraySize, vecToOutputs C (outputsToVec C f y x) (fun _ => 0) i = f * y i := by
  have hC := built_sound hB
  have hnod : ((outPorts C y).map Port.name).Nodup := by
    rw [names_of (outPorts_delivered C y)]; exact hs
  have hout : ∀ q ∈ C.info.quantities, q.arr.isLocal = true → ∀ s, q.stageOutput = some s → ∀ k,
      outputsToVec C f y x s k = f * y (q.arr.start + k) := by
    intro q hq hl s h k
    rw [outputsToVec_eq]
    refine writeAll_mem f _ x hnod
      ⟨s, q.arr.stop - q.arr.start, fun k => y (q.arr.start + k)⟩ ?_ k
    refine List.mem_flatMap.mpr ⟨q, hq, ?_⟩
    rw [h]; simp [portOf, hl]
  refine ⟨hout, fun n hn => ?_, fun i hi => ?_⟩
  · rw [outputsToVec_eq]
    refine writeAll_not_mem f n _ x ?_
    rw [names_of (outPorts_delivered C y)]; exact hn
  · obtain ⟨j, ⟨q, hj, h2, h3⟩, _⟩ := hC.laid.unique i (Nat.zero_le _) hi
    have hq : q ∈ C.info.quantities := List.mem_of_getElem? hj
    have hl : q.arr.isLocal = true := by
      rcases hC.laid.bound q hq with h | h
      · exact h.1
      · omega
    obtain ⟨s, h4⟩ := Option.isSome_iff_exists.mp (hC.output q hq hl)
    rw [vecToOutputs_eq, fold_readBy_covered _ _ _ _ _ _ hC.laid q hq hl s h4 i h2 h3,
      hout q hq hl s h4, Nat.add_sub_of_le h2]

/-- What the stage outputs hold is what the evaluation returns: every slice of the stage update is
the value of the stage output variable after the nonlinear solve, and the rest is zero. -/
theorem C51_update_read [CommRing K] {C : Conf} (hB : Built C) (L : Layout) (E : Env K)
    (v : Vectors K) (u : Inputs K) (h a : K) :
    (∀ q ∈ C.info.quantities, q.arr.isLocal = true → ∀ s, q.stageOutput = some s →
      ∀ k < q.arr.stop - q.arr.start, (computeUpdate C L E v u h a).2.1 (q.arr.start + k) =
        (computeUpdate C L E v u h a).1.outputs s k) ∧
    ∀ i, (∀ q ∈ C.info.quantities, q.arr.isLocal = true → q.stageOutput.isSome = true →
      ¬ (q.arr.start ≤ i ∧ i < q.arr.stop)) → (computeUpdate C L E v u h a).2.1 i = 0 := by
  refine ⟨?_, ?_⟩
  · intro q hq hl s hs k hk
    have hC := built_sound hB
    change vecToOutputs C _ _ _ = _
    rw [vecToOutputs_eq, fold_readBy_covered _ _ _ _ _ _ hC.laid q hq hl s hs _ (by omega)
      (by omega), Nat.add_sub_cancel_left]
    rfl
  · intro i hi
    change vecToOutputs C _ _ _ = _
    rw [vecToOutputs_eq, fold_readBy_uncovered _ _ _ _ _ hi]

-- the hypotheses hold for the example problem, whose first index has a step input, the others not
example : InputAt serialConf 0 ∧ ¬ InputAt serialConf 1 ∧
    ((written serialConf).map Prod.fst).Nodup ∧ ((delivered serialConf).map Prod.fst).Nodup ∧
    (written serialConf).length = 4 := by
  refine ⟨⟨_, List.mem_cons_self, rfl, rfl, by decide, by decide⟩, ?_, serial_fits.sources,
    serial_fits.results, by decide +kernel⟩
  rintro ⟨q, hq, -, h1, h2, h3⟩
  simp only [serialConf, serialMeta, List.mem_cons, List.not_mem_nil, or_false] at hq
  rcases hq with rfl | rfl
  · simp at h3
  · simp at h1

/-- All inputs connected to one source, as after promotion to a common name. -/
def sharedConf : Conf := ⟨serialMeta, fun s => if s = "x_acc" then "ivc_x_old" else "ivc_" ++ s⟩

/-- If step input and accumulated stages of a quantity are connected to the same source, the second
write replaces the first: reading back gives the stage values for both arrays. -/
theorem C51_shared_source_violated :
    ∃ C : Conf, Built C ∧ ∃ (u : Inputs ℤ) (i : ℕ), InputAt C i ∧
      (vecToInputs C (inputsToVec C 1 u fun _ _ => 0) Inputs.zero).step i ≠ u.step i := by
  refine ⟨sharedConf, ⟨serialProblem, 1, ["x", "y"], ["p"], [serialMeta], 0, by decide +kernel, rfl⟩,
    ⟨0, fun _ => 1, fun _ => 2, fun _ => 0⟩, 0, ?_, by decide +kernel⟩
  exact ⟨_, List.mem_cons_self, rfl, rfl, by decide, by decide⟩

/-! ### C52: forward and reverse derivatives -/

/-- The forward and the reverse derivative call at a linearization point are transposes of each
other, from whatever vectors the two calls start. Missing for the full property: every
role has its own variable, and the source of the time variable has one entry. -/
theorem C52_transpose_partial [CommRing K] [Inhabited K] {C : Conf} (hB : Built C) {L : Layout}
    (hL : L.Proper) (hF : Fits C L) {E : Env K}
    {J : Vectors K → K → K → String × ℕ → String × ℕ → K} (hJ : SolvesLinear L E J)
    (v v' w : Vectors K) (d : Inputs K) (y : Flat K) (h a : K) :
    ∑ i ∈ range C.info.arraySize, y i * (computeDerivative C L E v (getPoint L w) d h a).2 i =
      pairInputs C.info.arraySize C.info.independentSize d
        (computeAdjoint C L E v' (getPoint L w) y h a).2 := by
  have h1 := hJ.fwd (setPoint L (getPoint L w) v) h a (inputsToVec C (-1) d fun _ _ => 0)
  have h2 := hJ.rev (setPoint L (getPoint L w) v') h a (outputsToVec C (-1) y fun _ _ => 0)
  refine derivative_adjoint (built_sound hB) hL hF (J := J w h a) ?_ ?_
  · intro e he
    rw [← h1 e he]
    refine Finset.sum_congr rfl fun e' he' => ?_
    rw [hJ.point _ _ h a (setPoint_getPoint hL w v) e he e' he']
  · intro e he
    rw [← h2 e he]
    refine Finset.sum_congr rfl fun e' he' => ?_
    dsimp only
    rw [hJ.point _ _ h a (setPoint_getPoint hL w v') e' he' e he]

end Verif.Props
