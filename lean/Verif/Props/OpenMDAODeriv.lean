/-
C52: derivative and adjoint of the OpenMDAO backend as part of an integration.
-/
import Verif.Props.OpenMDAO
import Verif.Props.Deriv
import Verif.OpenMDAO.Ode
import Mathlib.Analysis.Calculus.FDeriv.Pow
import Mathlib.Analysis.Calculus.FDeriv.Mul

namespace Verif.Props

open Verif.OM Verif.Metadata Verif.RK Verif.RK.Spec
open Verif.Control Verif.XReal Verif.Integrator

/-! ### C52: the derivative -/

/-- The forward derivative call at the linearization point of an evaluation is the derivative of the
evaluation with respect to time, arrays and independent inputs: whenever the nonlinear
solve finds a solution that depends continuously on the arguments and the linear solves use the
Jacobian of the residuals. Missing for the full property: every role has its own variable,
and the source of the time variable has one entry. -/
theorem C52_implicit_derivative_partial {C : Conf} (hB : Built C) {L : Layout} (hL : L.Proper)
    (hF : Fits C L) {E : OM.Env ℝ} {v0 : Vectors ℝ}
    {J : Vectors ℝ → ℝ → ℝ → String × ℕ → String × ℕ → ℝ} (hJ : SolvesLinear L E J)
    {G : ℝ → ℝ → (Ent L → ℝ) → Ent L → ℝ} {h a : ℝ} (hP : SolvesProblem C L E v0 J G h a) :
    DifferentiableBackend (omOde C L E v0) h a :=
  omOde_differentiable (built_sound hB) hL hF hJ hP

/-- The reverse derivative call is the transpose of the derivative of the evaluation, under the same
conditions. -/
theorem C52_reverse_is_transposed_derivative_partial {C : Conf} (hB : Built C) {L : Layout}
    (hL : L.Proper) (hF : Fits C L) {E : OM.Env ℝ} {v0 : Vectors ℝ}
    {J : Vectors ℝ → ℝ → ℝ → String × ℕ → String × ℕ → ℝ} (hJ : SolvesLinear L E J)
    {G : ℝ → ℝ → (Ent L → ℝ) → Ent L → ℝ} {h a : ℝ} (hP : SolvesProblem C L E v0 J G h a)
    (z0 : OdeInput ℝ C.info.arraySize C.info.independentSize) :
    ∃ M : InSpace C.info.arraySize C.info.independentSize →L[ℝ] (Fin C.info.arraySize → ℝ),
      HasFDerivAt (fun z => ((omOde C L E v0).computeUpdate (toIn z) h a).1.stageUpdate) M
        (ofIn z0) ∧
      ∀ w d, dotIn ((omOde C L E v0).computeUpdateAdjoint
        ((omOde C L E v0).computeUpdate z0 h a).2 w h a) d = dot w.stageUpdate (M (ofIn d)) := by
  obtain ⟨M, hM, hd⟩ := C52_implicit_derivative_partial hB hL hF hJ hP z0
  refine ⟨M, hM, fun w d => ?_⟩
  rw [← omOde_adjoint (built_sound hB) hL hF v0 hJ _ h a d w, ← hd d]
  simp [dotOut, dot, omOde]

/-- The derivatives of a whole integration with an OpenMDAO model: for a fixed step size and number of
steps, the forward product of the component is the derivative of its result. -/
theorem C52_integration_derivative_partial {C : Conf} (hB : Built C) {L : Layout} (hL : L.Proper)
    (hF : Fits C L) {E : OM.Env ℝ} {v0 : Vectors ℝ}
    {J : Vectors ℝ → ℝ → ℝ → String × ℕ → String × ℕ → ℝ} (hJ : SolvesLinear L E J)
    {G : ℝ → ℝ → (Ent L → ℝ) → Ent L → ℝ} {s : ℕ}
    (I : Integrator.Env s C.info.arraySize C.info.independentSize 0 (pointSize L))
    (hI : I.ode = omOde C L E v0) (hfail : ∀ v h, I.fails v h = none) {opt : Options} {dt : ℝ}
    {N : ℕ} (hP : ∀ i, SolvesProblem C L E v0 J G dt (I.T.A i i))
    (ha : opt.adaptive = false) (hc : opt.crit = .steps N) (hi : opt.initialStep = fin dt)
    (hl : opt.recursionLimit ≠ 0) {ch : Choice} {σ : Type}
    (w : World _ (ch.Data (RKState ℝ s C.info.arraySize C.info.independentSize 0 (pointSize L))))
    (w2 : World (RKState ℝ s C.info.arraySize C.info.independentSize 0 (pointSize L)) σ)
    {fuel : ℕ} (hf : N < fuel) :
    ∃ Φ : Pub C.info.arraySize C.info.independentSize → (Fin C.info.arraySize → ℝ) × ℝ,
      (∀ x, ∃ v, (compute (rkBackend I) opt (ch.ck (rkBackend I) opt) fuel w (inOf x)).2 = .ok v ∧
        outOf v = Φ x) ∧
      ∀ x0, ∃ M : Pub C.info.arraySize C.info.independentSize →L[ℝ]
          (Fin C.info.arraySize → ℝ) × ℝ, HasFDerivAt Φ M x0 ∧
        ∀ dx dO, (fwd (rkBackend I) opt fuel w2 (inOf x0) (inOf dx) dO).2
          = .ok ⟨dO.time + (M dx).2, (M dx).1⟩ :=
  C15_forward_mode_is_derivative (rkCore I)
    (fun d => ⟨computeStep I.T I.ode d dt, by simp only [rkBackend, hfail]⟩)
    (fun i => by rw [hI]; exact C52_implicit_derivative_partial hB hL hF hJ (hP i))
    ha hc hi hl w w2 hf

/-! ### An example: `x_up = x_old ^ 2 + h * x_acc` -/

/-- A quantity with one entry. -/
def squareMeta : Meta where
  timeVariable := none
  arraySize := 1
  independentSize := 0
  quantities := [
    ⟨"x", ⟨[1], [1], true, false, 0, 1, 0, 1⟩, some "x_old", some "x_acc", some "x_up", none⟩]
  independents := []

def squareConf : Conf := ⟨squareMeta, fun s => if s = "x_old" then "ivc_old" else "ivc_acc"⟩

def squareLayout : Layout where
  inputs := [("x_old", 1), ("x_acc", 1)]
  outputs := [("ivc_old", 1), ("ivc_acc", 1), ("x_up", 1)]

theorem square_built : Built squareConf :=
  ⟨⟨[⟨"x_old", .input, ["x", "step_input_var"], [1], [some [1]]⟩,
      ⟨"x_acc", .input, ["x", "accumulated_stage_var"], [1], [some [1]]⟩,
      ⟨"x_up", .output, ["x", "stage_output_var"], [1], [some [1]]⟩], false⟩,
    1, ["x"], [], [squareMeta], 0, by decide +kernel, rfl⟩

theorem square_proper : squareLayout.Proper := by constructor <;> decide

theorem square_fits : Fits squareConf squareLayout := by constructor <;> decide +kernel

/-- Values at the three outputs. -/
def three (x y z : ℝ) : Vec ℝ := fun n _ =>
  if n = "ivc_old" then x else if n = "ivc_acc" then y else z

/-- The stage problem of the example. -/
def squareEnv : OM.Env ℝ where
  solve v h _ := ⟨v.inputs, three (v.outputs "ivc_old" 0) (v.outputs "ivc_acc" 0)
    (v.outputs "ivc_old" 0 ^ 2 + h * v.outputs "ivc_acc" 0)⟩
  solveFwd v h _ b := three (- b "ivc_old" 0) (- b "ivc_acc" 0)
    (- (2 * v.outputs "ivc_old" 0 * b "ivc_old" 0) - h * b "ivc_acc" 0 - b "x_up" 0)
  solveRev v h _ b := three (- (2 * v.outputs "ivc_old" 0 * b "x_up" 0) - b "ivc_old" 0)
    (- (h * b "x_up" 0) - b "ivc_acc" 0) (- b "x_up" 0)

/-- Its Jacobian. -/
def squareJac (v : Vectors ℝ) (h _ : ℝ) (e e' : String × ℕ) : ℝ :=
  if e = e' then -1
  else if e = ("x_up", 0) then
    if e' = ("ivc_old", 0) then 2 * v.outputs "ivc_old" 0
    else if e' = ("ivc_acc", 0) then h else 0
  else 0

theorem square_entries : entriesOf squareLayout.outputs =
    {("ivc_old", 0), ("ivc_acc", 0), ("x_up", 0)} := by decide +kernel

theorem square_written : entriesOf (written squareConf) =
    {("ivc_old", 0), ("ivc_acc", 0)} := by decide +kernel

theorem square_linear : SolvesLinear squareLayout squareEnv squareJac := by
  refine ⟨fun v h a b e he => ?_, fun v h a b e he => ?_, fun v w h a hvw e he e' he' => ?_⟩
  · rw [square_entries] at he ⊢
    simp only [Finset.mem_insert, Finset.mem_singleton] at he
    rcases he with rfl | rfl | rfl <;>
      simp [squareJac, squareEnv, three] <;> ring
  · rw [square_entries] at he ⊢
    simp only [Finset.mem_insert, Finset.mem_singleton] at he
    rcases he with rfl | rfl | rfl <;>
      simp [squareJac, squareEnv, three] <;> ring
  · have := hvw.2 ("ivc_old", 0) (by rw [square_entries]; simp)
    simp only at this
    unfold squareJac
    rw [this]

/-- The three entries. -/
def entOld : Ent squareLayout := ⟨("ivc_old", 0), by rw [square_entries]; simp⟩
def entAcc : Ent squareLayout := ⟨("ivc_acc", 0), by rw [square_entries]; simp⟩
def entUp : Ent squareLayout := ⟨("x_up", 0), by rw [square_entries]; simp⟩

theorem ent_cases (e : Ent squareLayout) : e = entOld ∨ e = entAcc ∨ e = entUp := by
  have he : e.1 = ("ivc_old", 0) ∨ e.1 = ("ivc_acc", 0) ∨ e.1 = ("x_up", 0) := by
    have h : ∀ x ∈ entriesOf squareLayout.outputs,
        x = ("ivc_old", 0) ∨ x = ("ivc_acc", 0) ∨ x = ("x_up", 0) := by
      intro x hx
      rw [square_entries] at hx
      simpa only [Finset.mem_insert, Finset.mem_singleton] using hx
    exact h e.1 e.2
  rcases he with h | h | h
  · exact Or.inl (Subtype.ext h)
  · exact Or.inr (Or.inl (Subtype.ext h))
  · exact Or.inr (Or.inr (Subtype.ext h))

/-- The residuals of the example. -/
noncomputable def squareRes (h _ : ℝ) (y : Ent squareLayout → ℝ) (_ : Ent squareLayout) : ℝ :=
  y entOld ^ 2 + h * y entAcc - y entUp

theorem square_problem (v0 : Vectors ℝ) (h a : ℝ) :
    SolvesProblem squareConf squareLayout squareEnv v0 squareJac squareRes h a := by
  refine ⟨fun v e he => ?_, fun v e he => ?_, fun v => ?_, fun v e he e' _ => ?_, ?_⟩
  · rw [square_written] at he
    simp only [Finset.mem_insert, Finset.mem_singleton] at he
    rcases he with rfl | rfl <;> simp [squareEnv, three]
  · simp [squareRes, restrict, entOld, entAcc, entUp, squareEnv, three]
  · let G' : (Ent squareLayout → ℝ) →L[ℝ] (Ent squareLayout → ℝ) := ContinuousLinearMap.pi fun _ =>
      (2 * v.outputs "ivc_old" 0) • ContinuousLinearMap.proj entOld +
        h • ContinuousLinearMap.proj entAcc - ContinuousLinearMap.proj entUp
    refine ⟨G', ?_, fun e e' he => ?_⟩
    · rw [hasFDerivAt_pi']
      intro e
      have p1 := (ContinuousLinearMap.proj (R := ℝ) (φ := fun _ : Ent squareLayout => ℝ)
        entOld).hasFDerivAt (x := restrict squareLayout (squareEnv.solve v h a).outputs)
      have p2 := (ContinuousLinearMap.proj (R := ℝ) (φ := fun _ : Ent squareLayout => ℝ)
        entAcc).hasFDerivAt (x := restrict squareLayout (squareEnv.solve v h a).outputs)
      have p3 := (ContinuousLinearMap.proj (R := ℝ) (φ := fun _ : Ent squareLayout => ℝ)
        entUp).hasFDerivAt (x := restrict squareLayout (squareEnv.solve v h a).outputs)
      have p := ((p1.pow 2).add (p2.const_mul h)).sub p3
      refine p.congr_fderiv ?_
      ext y
      simp [G', restrict, entOld, squareEnv, three]
    · have hup : e = entUp := by
        rw [square_written] at he
        rcases ent_cases e with rfl | rfl | rfl
        · exact absurd (by simp [entOld]) he
        · exact absurd (by simp [entAcc]) he
        · rfl
      subst hup
      rcases ent_cases e' with rfl | rfl | rfl <;>
        simp [G', squareJac, entOld, entAcc, entUp, squareEnv, three]
  · rw [square_written] at he
    simp only [Finset.mem_insert, Finset.mem_singleton] at he
    unfold squareJac
    by_cases hee : e = e'
    · rw [if_pos hee, if_pos hee]
    · rw [if_neg hee, if_neg hee]
      rcases he with rfl | rfl <;> simp
  · have hold : ∀ z : InSpace squareConf.info.arraySize squareConf.info.independentSize,
        inputsToVec squareConf 1 (toInputs (toIn z)) v0.outputs "ivc_old" 0 = z.1 (0 : Fin 1) := by
      intro z
      change 1 * flat z.1 0 = _
      rw [one_mul]; rfl
    have hacc : ∀ z : InSpace squareConf.info.arraySize squareConf.info.independentSize,
        inputsToVec squareConf 1 (toInputs (toIn z)) v0.outputs "ivc_acc" 0 = z.2.1 (0 : Fin 1) := by
      intro z
      change 1 * flat z.2.1 0 = _
      rw [one_mul]; rfl
    have c1 : Continuous fun z : InSpace squareConf.info.arraySize
        squareConf.info.independentSize => z.1 (0 : Fin 1) :=
      (continuous_apply (0 : Fin 1)).comp continuous_fst
    have c2 : Continuous fun z : InSpace squareConf.info.arraySize
        squareConf.info.independentSize => z.2.1 (0 : Fin 1) :=
      (continuous_apply (0 : Fin 1)).comp (continuous_fst.comp continuous_snd)
    refine continuous_pi fun e => ?_
    have key : ∀ z : InSpace squareConf.info.arraySize squareConf.info.independentSize,
        restrict squareLayout (computeUpdate squareConf squareLayout squareEnv v0
          (toInputs (toIn z)) h a).1.outputs e =
        three (z.1 (0 : Fin 1)) (z.2.1 (0 : Fin 1))
          (z.1 (0 : Fin 1) ^ 2 + h * z.2.1 (0 : Fin 1)) e.1.1 e.1.2 := by
      intro z
      simp only [restrict, computeUpdate, squareEnv]
      rw [hold, hacc]
    simp only [key]
    rcases ent_cases e with rfl | rfl | rfl
    · simpa [three, entOld] using c1
    · simpa [three, entAcc] using c2
    · have c3 := (c1.pow 2).add ((continuous_const (y := h)).mul c2)
      simp only [three, entUp]
      exact c3

-- the derivative and its transpose for the example, at any step size
example (v0 : Vectors ℝ) (h a : ℝ) :
    DifferentiableBackend (omOde squareConf squareLayout squareEnv v0) h a :=
  C52_implicit_derivative_partial square_built square_proper square_fits square_linear
    (square_problem v0 h a)

/-! ### C52: what does not hold -/

/-- If step input and accumulated stages of a quantity are connected to one source, exact linear solves
do not make the two derivative calls transposes of each other: the second write replaces
the first, while the reverse call reads the source twice. -/
theorem C52_shared_source_violated :
    ∃ (C : Conf) (L : Layout) (E : OM.Env ℤ)
      (J : Vectors ℤ → ℤ → ℤ → String × ℕ → String × ℕ → ℤ),
      Built C ∧ L.Proper ∧ (∀ v ∈ written C, v ∈ L.outputs) ∧ (∀ v ∈ delivered C, v ∈ L.outputs) ∧
      SolvesLinear L E J ∧
      ∀ v w, ∃ d y, ∑ i ∈ Finset.range C.info.arraySize,
          y i * (computeDerivative C L E v (getPoint L w) d 1 1).2 i ≠
        pairInputs C.info.arraySize C.info.independentSize d
          (computeAdjoint C L E v (getPoint L w) y 1 1).2 := by
  let L : Layout := ⟨[("x_old", 1), ("x_acc", 1)], [("ivc", 1), ("x_up", 1)]⟩
  have hent : entriesOf L.outputs = {("ivc", 0), ("x_up", 0)} := by decide +kernel
  refine ⟨⟨squareMeta, fun _ => "ivc"⟩, L,
    ⟨fun v _ _ => v,
      fun _ _ _ b n _ => if n = "ivc" then - b "ivc" 0 else - b "ivc" 0 - b "x_up" 0,
      fun _ _ _ b n _ => if n = "ivc" then - b "x_up" 0 - b "ivc" 0 else - b "x_up" 0⟩,
    fun _ _ _ e e' => if e = e' then -1 else if e = ("x_up", 0) then 1 else 0,
    ⟨⟨[⟨"x_old", .input, ["x", "step_input_var"], [1], [some [1]]⟩,
      ⟨"x_acc", .input, ["x", "accumulated_stage_var"], [1], [some [1]]⟩,
      ⟨"x_up", .output, ["x", "stage_output_var"], [1], [some [1]]⟩], false⟩,
      1, ["x"], [], [squareMeta], 0, by decide +kernel, rfl⟩,
    by constructor <;> decide, by decide +kernel, by decide +kernel, ?_, ?_⟩
  · refine ⟨fun v h a b e he => ?_, fun v h a b e he => ?_, fun _ _ _ _ _ _ _ _ _ => rfl⟩
    · rw [hent] at he ⊢
      simp only [Finset.mem_insert, Finset.mem_singleton] at he
      rcases he with rfl | rfl <;> simp
    · rw [hent] at he ⊢
      simp only [Finset.mem_insert, Finset.mem_singleton] at he
      rcases he with rfl | rfl <;> simp
  · intro v w
    refine ⟨⟨0, fun _ => 1, fun _ => 0, fun _ => 0⟩, fun _ => 1, ?_⟩
    simp only [computeDerivative, computeAdjoint, pairInputs]
    decide +kernel

/-- The time variable is connected to the second entry of a source with two entries: the forward call sets
both, the reverse call reads the first, so that the two are not transposes although the
linear solves are exact. -/
theorem C52_time_source_violated :
    ∃ (C : Conf) (L : Layout) (E : OM.Env ℤ)
      (J : Vectors ℤ → ℤ → ℤ → String × ℕ → String × ℕ → ℤ),
      Built C ∧ L.Proper ∧ ((written C).map Prod.fst).Nodup ∧ (∀ v ∈ delivered C, v ∈ L.outputs) ∧
      SolvesLinear L E J ∧
      ∀ v w, ∃ d y, ∑ i ∈ Finset.range C.info.arraySize,
          y i * (computeDerivative C L E v (getPoint L w) d 1 1).2 i ≠
        pairInputs C.info.arraySize C.info.independentSize d
          (computeAdjoint C L E v (getPoint L w) y 1 1).2 := by
  let L : Layout := ⟨[("t", 1)], [("ivc", 2), ("x_up", 1)]⟩
  let M : Meta := ⟨some "t", 1, 0,
    [⟨"x", ⟨[1], [1], true, false, 0, 1, 0, 1⟩, none, none, some "x_up", none⟩], []⟩
  have hent : entriesOf L.outputs = {("ivc", 0), ("ivc", 1), ("x_up", 0)} := by decide +kernel
  refine ⟨⟨M, fun _ => "ivc"⟩, L,
    ⟨fun v _ _ => v,
      fun _ _ _ b n k => if n = "ivc" then - b "ivc" k else - b "ivc" 1 - b "x_up" 0,
      fun _ _ _ b n k => if n = "ivc" then
        (if k = 1 then - b "x_up" 0 else 0) - b "ivc" k else - b "x_up" 0⟩,
    fun _ _ _ e e' => if e = e' then -1 else if e = ("x_up", 0) ∧ e' = ("ivc", 1) then 1 else 0,
    ⟨⟨[⟨"t", .input, ["time_variable"], [1], [some [1]]⟩,
      ⟨"x_up", .output, ["x", "stage_output_var"], [1], [some [1]]⟩], false⟩,
      1, ["x"], [], [M], 0, by decide +kernel, rfl⟩,
    by constructor <;> decide, by decide +kernel, by decide +kernel, ?_, ?_⟩
  · refine ⟨fun v h a b e he => ?_, fun v h a b e he => ?_, fun _ _ _ _ _ _ _ _ _ => rfl⟩
    · rw [hent] at he ⊢
      simp only [Finset.mem_insert, Finset.mem_singleton] at he
      rcases he with rfl | rfl | rfl <;> simp
    · rw [hent] at he ⊢
      simp only [Finset.mem_insert, Finset.mem_singleton] at he
      rcases he with rfl | rfl | rfl <;> simp
  · intro v w
    refine ⟨⟨1, fun _ => 0, fun _ => 0, fun _ => 0⟩, fun _ => 1, ?_⟩
    simp only [computeDerivative, computeAdjoint, pairInputs]
    decide +kernel

end Verif.Props
