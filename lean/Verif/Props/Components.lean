/-
Properties of the shipped components (C54, C55, C56, C57).
-/
import Verif.Components.Model
import Mathlib.Tactic.FieldSimp
import Mathlib.Tactic.LinearCombination
import Mathlib.Analysis.SpecialFunctions.ExpDeriv
import Mathlib.Analysis.SpecialFunctions.Log.Basic
import Mathlib.Analysis.SpecialFunctions.Trigonometric.Deriv

namespace Verif.Props

open Verif.Comp

/-! ### Derivative vectors with missing variables -/

/-- The value of an entry; missing ones count as zero. -/
def val (x : Option ℝ) : ℝ := x.getD 0

/-- Two entries are both there or both missing. -/
def Same {α : Type} (x y : Option α) : Prop := x.isSome = y.isSome

theorem val_addIf (c : ℝ) (d r : Option ℝ) :
    val (addIf c d r) = val r + (if r.isSome then 1 else 0) * (c * val d) := by
  cases r <;> cases d <;> simp [addIf, val]

theorem isSome_addIf {V : Type} [Add V] [SMul ℝ V] (c : ℝ) (d r : Option V) :
    (addIf c d r).isSome = r.isSome := by
  cases r <;> cases d <;> rfl

theorem Same.mul {x y : Option ℝ} (h : Same x y) : (if x.isSome then 1 else 0) * val y = val y := by
  unfold Same at h
  cases x <;> cases y <;> simp_all [val]

theorem Same.symm {α : Type} {x y : Option α} (h : Same x y) : Same y x := Eq.symm h

/-! ### C54, first component -/

/-- The solve makes both residuals zero, whenever the stage equation has a nonzero determinant. -/
theorem C54_kaps1_solve_nonlinear (ε h a : ℝ) (i : In1 ℝ) (hd : ε + a * h * (1 + 2 * ε) ≠ 0) :
    residual1 ε h a i (solve1 ε h a i) = ⟨0, 0⟩ := by
  unfold residual1 solve1
  ext
  · simp only; ring
  · simp only
    generalize hD : ε + a * h * (1 + 2 * ε) = D at hd ⊢
    field_simp
    rw [← hD]; ring

/-- With all variables there, the forward product is the derivative of the residuals: it is what
comes out for all differentiable curves of inputs and outputs. -/
theorem C54_kaps1_derivative (ε h a τ : ℝ) (i : ℝ → In1 ℝ) (o : ℝ → Out1 ℝ) (di : In1 ℝ)
    (d : Out1 ℝ) (h1 : HasDerivAt (fun τ => (i τ).old) di.old τ)
    (h2 : HasDerivAt (fun τ => (i τ).acc) di.acc τ) (h3 : HasDerivAt (fun τ => (i τ).y2) di.y2 τ)
    (h4 : HasDerivAt (fun τ => (o τ).y1) d.y1 τ)
    (h5 : HasDerivAt (fun τ => (o τ).stage) d.stage τ) :
    ∃ r : Out1 ℝ, linear1Fwd ε h a (i τ) ⟨some di.old, some di.acc, some di.y2⟩
        ⟨some d.y1, some d.stage⟩ ⟨some 0, some 0⟩ = ⟨some r.y1, some r.stage⟩ ∧
      HasDerivAt (fun τ => (residual1 ε h a (i τ) (o τ)).y1) r.y1 τ ∧
      HasDerivAt (fun τ => (residual1 ε h a (i τ) (o τ)).stage) r.stage τ := by
  refine ⟨⟨_, _⟩, rfl, ?_, ?_⟩
  · exact (((h1.add (h2.const_mul h)).add (h5.const_mul (h * a))).sub h4).congr_deriv (by simp; ring)
  · exact (((h4.const_mul (-(1 + 2 * ε))).add (h3.pow 2)).sub (h5.const_mul ε)).congr_deriv (by simp; ring)

/-- The reverse product is the transpose of the forward product, whichever variables are there and
whatever the vectors hold before. -/
theorem C54_kaps1_transpose (ε h a : ℝ) (i : In1 ℝ) (di di' : In1 (Option ℝ))
    (d d' r r' : Out1 (Option ℝ)) (m1 : Same di.old di'.old) (m2 : Same di.acc di'.acc)
    (m3 : Same di.y2 di'.y2) (m4 : Same d.y1 d'.y1) (m5 : Same d.stage d'.stage)
    (m6 : Same r.y1 r'.y1) (m7 : Same r.stage r'.stage) :
    (val (linear1Fwd ε h a i di d r).y1 - val r.y1) * val r'.y1 +
      (val (linear1Fwd ε h a i di d r).stage - val r.stage) * val r'.stage =
    (val (linear1Rev ε h a i r' di' d').1.old - val di'.old) * val di.old +
      (val (linear1Rev ε h a i r' di' d').1.acc - val di'.acc) * val di.acc +
      (val (linear1Rev ε h a i r' di' d').1.y2 - val di'.y2) * val di.y2 +
      (val (linear1Rev ε h a i r' di' d').2.y1 - val d'.y1) * val d.y1 +
      (val (linear1Rev ε h a i r' di' d').2.stage - val d'.stage) * val d.stage := by
  simp only [linear1Fwd, linear1Rev, val_addIf, isSome_addIf]
  have e1 := m1.symm.mul; have e2 := m2.symm.mul; have e3 := m3.symm.mul; have e4 := m4.symm.mul
  have e5 := m5.symm.mul; have e6 := m6.mul; have e7 := m7.mul
  linear_combination (val di.old + h * val di.acc + h * a * val d.stage - val d.y1) * e6 +
    (2 * i.y2 * val di.y2 - ε * val d.stage - (1 + 2 * ε) * val d.y1) * e7 -
    val r'.y1 * e1 - h * val r'.y1 * e2 - 2 * i.y2 * val r'.stage * e3 -
    (-val r'.y1 - (1 + 2 * ε) * val r'.stage) * e4 -
    (h * a * val r'.y1 - ε * val r'.stage) * e5

/-- The linear solves: the forward one is a solution of the system with the Jacobian of the outputs
(the forward product with outputs only), the reverse one of the transposed system. -/
theorem C54_kaps1_solve_linear (ε h a : ℝ) (i : In1 ℝ) (r : Out1 ℝ)
    (hd : ε + (1 + 2 * ε) * h * a ≠ 0) :
    linear1Fwd ε h a i ⟨none, none, none⟩
      ⟨some (solveLinear1Fwd ε h a r).y1, some (solveLinear1Fwd ε h a r).stage⟩ ⟨some 0, some 0⟩ =
      ⟨some r.y1, some r.stage⟩ ∧
    (linear1Rev ε h a i
      ⟨some (solveLinear1Rev ε h a r).y1, some (solveLinear1Rev ε h a r).stage⟩ ⟨none, none, none⟩
      ⟨some 0, some 0⟩).2 = ⟨some r.y1, some r.stage⟩ := by
  constructor
  · simp only [linear1Fwd, addIf, solveLinear1Fwd, smul_eq_mul, Out1.mk.injEq, Option.some.injEq]
    generalize hD : ε + (1 + 2 * ε) * h * a = D at hd ⊢
    constructor <;> field_simp <;> rw [← hD] <;> ring
  · simp only [linear1Rev, addIf, solveLinear1Rev, smul_eq_mul, Out1.mk.injEq, Option.some.injEq]
    generalize hD : ε + (1 + 2 * ε) * h * a = D at hd ⊢
    constructor <;> field_simp <;> rw [← hD] <;> ring

/-! ### C54, second component -/

/-- The stage equation of the second component with implicit factor: a solution exists exactly if
the argument of the root is not negative, and then the solve finds one. -/
theorem C54_kaps2_solve_nonlinear (h a : ℝ) (i : In2 ℝ) (hh : h ≠ 0) (ha : a ≠ 0) :
    (residual2 h a i (solve2 h a i) = ⟨0, 0⟩ ↔ 0 ≤ radicand2 h a i) ∧
    ((∃ o, residual2 h a i o = ⟨0, 0⟩) ↔ 0 ≤ radicand2 h a i) := by
  have key : 0 ≤ radicand2 h a i → residual2 h a i (solve2 h a i) = ⟨0, 0⟩ := by
    intro hD
    have hs := Real.sq_sqrt hD
    have hah : a * h ≠ 0 := mul_ne_zero ha hh
    unfold residual2 solve2
    rw [if_pos ha]
    ext
    · simp only; ring
    · generalize Real.sqrt (radicand2 h a i) = s at hs
      unfold radicand2 at hs
      simp only
      field_simp
      linear_combination -hs
  have nec : ∀ o, residual2 h a i o = ⟨0, 0⟩ → 0 ≤ radicand2 h a i := by
    intro o ho
    have e1 := congrArg Out2.y2 ho
    have e2 := congrArg Out2.stage ho
    simp only [residual2] at e1 e2
    have : radicand2 h a i = (2 * a * h * o.y2 + a * h + 1) ^ 2 := by
      unfold radicand2
      linear_combination 4 * a * h * e1 + 4 * a ^ 2 * h ^ 2 * e2
    rw [this]
    exact sq_nonneg _
  exact ⟨⟨nec _, key⟩, ⟨fun ⟨o, ho⟩ => nec o ho, fun hD => ⟨_, key hD⟩⟩⟩

/-- Without implicit factor the solve always makes the residuals zero. -/
theorem C54_kaps2_solve_explicit (h : ℝ) (i : In2 ℝ) :
    residual2 h 0 i (solve2 h 0 i) = ⟨0, 0⟩ := by
  unfold residual2 solve2
  simp only [ne_eq, not_true_eq_false, ↓reduceIte]
  ext <;> simp only <;> ring

/-- Of the two solutions the solve finds the one at which the determinant of the linear system is
not negative: it is the root. -/
theorem C54_kaps2_branch (h a : ℝ) (i : In2 ℝ) (hh : h ≠ 0) (ha : a ≠ 0) :
    2 * a * h * (solve2 h a i).y2 + a * h + 1 = Real.sqrt (radicand2 h a i) := by
  unfold solve2
  rw [if_pos ha]
  simp only
  field_simp
  ring

/-- With all variables there, the forward product is the derivative of the residuals. -/
theorem C54_kaps2_derivative (h a τ : ℝ) (i : ℝ → In2 ℝ) (o : ℝ → Out2 ℝ) (di : In2 ℝ)
    (d : Out2 ℝ) (h1 : HasDerivAt (fun τ => (i τ).old) di.old τ)
    (h2 : HasDerivAt (fun τ => (i τ).acc) di.acc τ) (h3 : HasDerivAt (fun τ => (i τ).y1) di.y1 τ)
    (h4 : HasDerivAt (fun τ => (o τ).y2) d.y2 τ)
    (h5 : HasDerivAt (fun τ => (o τ).stage) d.stage τ) :
    ∃ r : Out2 ℝ, linear2Fwd h a (o τ) ⟨some di.old, some di.acc, some di.y1⟩
        ⟨some d.y2, some d.stage⟩ ⟨some 0, some 0⟩ = ⟨some r.y2, some r.stage⟩ ∧
      HasDerivAt (fun τ => (residual2 h a (i τ) (o τ)).y2) r.y2 τ ∧
      HasDerivAt (fun τ => (residual2 h a (i τ) (o τ)).stage) r.stage τ := by
  refine ⟨⟨_, _⟩, rfl, ?_, ?_⟩
  · exact (((h1.add (h2.const_mul h)).add (h5.const_mul (h * a))).sub h4).congr_deriv (by simp; ring)
  · exact (((h3.sub h4).sub (h4.pow 2)).sub h5).congr_deriv (by simp; ring)

/-- The reverse product is the transpose of the forward product. -/
theorem C54_kaps2_transpose (h a : ℝ) (o : Out2 ℝ) (di di' : In2 (Option ℝ))
    (d d' r r' : Out2 (Option ℝ)) (m1 : Same di.old di'.old) (m2 : Same di.acc di'.acc)
    (m3 : Same di.y1 di'.y1) (m4 : Same d.y2 d'.y2) (m5 : Same d.stage d'.stage)
    (m6 : Same r.y2 r'.y2) (m7 : Same r.stage r'.stage) :
    (val (linear2Fwd h a o di d r).y2 - val r.y2) * val r'.y2 +
      (val (linear2Fwd h a o di d r).stage - val r.stage) * val r'.stage =
    (val (linear2Rev h a o r' di' d').1.old - val di'.old) * val di.old +
      (val (linear2Rev h a o r' di' d').1.acc - val di'.acc) * val di.acc +
      (val (linear2Rev h a o r' di' d').1.y1 - val di'.y1) * val di.y1 +
      (val (linear2Rev h a o r' di' d').2.y2 - val d'.y2) * val d.y2 +
      (val (linear2Rev h a o r' di' d').2.stage - val d'.stage) * val d.stage := by
  simp only [linear2Fwd, linear2Rev, val_addIf, isSome_addIf]
  have e1 := m1.symm.mul; have e2 := m2.symm.mul; have e3 := m3.symm.mul; have e4 := m4.symm.mul
  have e5 := m5.symm.mul; have e6 := m6.mul; have e7 := m7.mul
  linear_combination (val di.old + h * val di.acc + h * a * val d.stage - val d.y2) * e6 +
    (val di.y1 - val d.stage - (1 + 2 * o.y2) * val d.y2) * e7 -
    val r'.y2 * e1 - h * val r'.y2 * e2 - val r'.stage * e3 -
    (-val r'.y2 - (1 + 2 * o.y2) * val r'.stage) * e4 -
    (h * a * val r'.y2 - val r'.stage) * e5

/-- The forward linear solve at the point of the last linearization is a solution of the system
with the Jacobian of the outputs. -/
theorem C54_kaps2_solve_linear_fwd (h a : ℝ) (o r : Out2 ℝ)
    (hd : 2 * a * h * o.y2 + a * h + 1 ≠ 0) :
    linear2Fwd h a o ⟨none, none, none⟩
      ⟨some (solveLinear2Fwd h a (linearize2 o) r).y2,
        some (solveLinear2Fwd h a (linearize2 o) r).stage⟩ ⟨some 0, some 0⟩ =
      ⟨some r.y2, some r.stage⟩ := by
  simp only [linear2Fwd, addIf, solveLinear2Fwd, linearize2, smul_eq_mul, Out2.mk.injEq,
    Option.some.injEq]
  generalize hD : 2 * a * h * o.y2 + a * h + 1 = D at hd ⊢
  constructor <;> field_simp <;> rw [← hD] <;> ring

/-- What the reverse linear solve gives: the transposed system applied to its result is the right
hand side multiplied by a number, which is one exactly if `2 a h y a h = 2 a h y + a h`. So the solve
is right without implicit factor.

Missing for the full property: other factors, where it is wrong (next theorem). -/
theorem C54_kaps2_solve_linear_rev_partial (h a : ℝ) (o d : Out2 ℝ) :
    (linear2Rev h a o
      ⟨some (solveLinear2Rev h a (linearize2 o) d).y2,
        some (solveLinear2Rev h a (linearize2 o) d).stage⟩ ⟨none, none, none⟩
      ⟨some 0, some 0⟩).2 =
      ⟨some ((2 * a * h * o.y2 + a * h + 1) / (2 * a * h * o.y2 * a * h + 1) * d.y2),
        some ((2 * a * h * o.y2 + a * h + 1) / (2 * a * h * o.y2 * a * h + 1) * d.stage)⟩ := by
  simp only [linear2Rev, addIf, solveLinear2Rev, linearize2, smul_eq_mul, Out2.mk.injEq,
    Option.some.injEq]
  constructor <;> ring

/-- C54 fails for the reverse linear solve of the second component: at the initial values `y2 = 1`,
for every implicit factor with `a h > 0` other than `a h = 3/2`, no right hand side but zero is
solved for. -/
theorem C54_kaps2_solve_linear_rev_violated (h a : ℝ) (hpos : 0 < a * h) (hne : a * h ≠ 3 / 2)
    (o : Out2 ℝ) (ho : o.y2 = 1) (d : Out2 ℝ) (hd : d ≠ ⟨0, 0⟩) :
    (linear2Rev h a o
      ⟨some (solveLinear2Rev h a (linearize2 o) d).y2,
        some (solveLinear2Rev h a (linearize2 o) d).stage⟩ ⟨none, none, none⟩
      ⟨some 0, some 0⟩).2 ≠ ⟨some d.y2, some d.stage⟩ := by
  rw [C54_kaps2_solve_linear_rev_partial, ho]
  intro e
  simp only [Out2.mk.injEq, Option.some.injEq] at e
  have hden : 2 * a * h * 1 * a * h + 1 ≠ 0 := by nlinarith
  have hf : (2 * a * h * 1 + a * h + 1) / (2 * a * h * 1 * a * h + 1) ≠ 1 := by
    rw [Ne, div_eq_one_iff_eq hden]
    intro e
    apply hne
    have : (a * h) * (2 * (a * h) - 3) = 0 := by linear_combination -e
    rcases mul_eq_zero.mp this with h0 | h0
    · linarith
    · linarith
  apply hd
  have solve : ∀ x : ℝ, (2 * a * h * 1 + a * h + 1) / (2 * a * h * 1 * a * h + 1) * x = x → x = 0 := by
    intro x hx
    by_contra h0
    exact hf (mul_right_cancel₀ h0 (by rw [hx, one_mul]))
  ext
  · exact solve _ e.1
  · exact solve _ e.2

/-- The differential equation of the Kaps problem. -/
def KapsEquation (ε : ℝ) (y : ℝ → ℝ × ℝ) : Prop :=
  ∀ t, HasDerivAt (fun t => (y t).1) ((-(1 + 2 * ε) * (y t).1 + (y t).2 ^ 2) / ε) t ∧
    HasDerivAt (fun t => (y t).2) ((y t).1 - (y t).2 - (y t).2 ^ 2) t

/-- A solution of the stage equations is a pair of slopes that fits to the differential equation
at the stage value. -/
theorem C54_kaps_slopes (ε h a : ℝ) (hε : ε ≠ 0) (i1 : In1 ℝ) (i2 : In2 ℝ) (o1 : Out1 ℝ)
    (o2 : Out2 ℝ) (hc1 : i1.y2 = o2.y2) (hc2 : i2.y1 = o1.y1) :
    (residual1 ε h a i1 o1 = ⟨0, 0⟩ ∧ residual2 h a i2 o2 = ⟨0, 0⟩) ↔
    (o1.y1 = i1.old + h * (i1.acc + a * o1.stage) ∧ o2.y2 = i2.old + h * (i2.acc + a * o2.stage) ∧
      o1.stage = (-(1 + 2 * ε) * o1.y1 + o2.y2 ^ 2) / ε ∧
      o2.stage = o1.y1 - o2.y2 - o2.y2 ^ 2) := by
  simp only [residual1, residual2, Out1.mk.injEq, Out2.mk.injEq, hc1, hc2]
  constructor
  · rintro ⟨⟨e1, e2⟩, e3, e4⟩
    refine ⟨by linear_combination -e1, by linear_combination -e3, ?_, by linear_combination -e4⟩
    field_simp
    linear_combination -e2
  · rintro ⟨e1, e2, e3, e4⟩
    field_simp at e3
    exact ⟨⟨by linear_combination -e1, by linear_combination -e3⟩, by linear_combination -e2,
      by linear_combination -e4⟩

theorem hasDerivAt_exp_mul (c t : ℝ) :
    HasDerivAt (fun t => Real.exp (c * t)) (c * Real.exp (c * t)) t := by
  have := ((hasDerivAt_id t).const_mul c).exp
  simpa [mul_comm] using this

/-- `kaps_solution` solves the differential equation for the default initial values, and for the
initial values zero, and for no others, whatever the parameter is. -/
theorem C54_kaps_solution_partial (ε t0 : ℝ) (hε : ε ≠ 0) (v : ℝ × ℝ) :
    KapsEquation ε (fun t => kapsSolution t v t0) ↔ v = (1, 1) ∨ v = (0, 0) := by
  obtain ⟨a, b⟩ := v
  have hE2 : ∀ t, Real.exp (-2 * t) = Real.exp (-t) ^ 2 := by
    intro t
    rw [← Real.exp_nat_mul]; congr 1; push_cast; ring
  have d1 : ∀ t, HasDerivAt (fun t => Real.exp (-t)) (-Real.exp (-t)) t := by
    intro t
    have := hasDerivAt_exp_mul (-1) t
    simpa using this
  have d2 : ∀ t, HasDerivAt (fun t => Real.exp (-2 * t)) (-2 * Real.exp (-2 * t)) t :=
    fun t => hasDerivAt_exp_mul (-2) t
  have D1 : ∀ t, HasDerivAt (fun t => (kapsSolution t (a, b) t0).1)
      (b * (-2 * Real.exp (-2 * t)) + (a - b ^ 2) * (-2 * Real.exp (-2 * t))) t :=
    fun t => ((d2 t).const_mul b).add ((d2 t).const_mul (a - b ^ 2))
  have D2 : ∀ t, HasDerivAt (fun t => (kapsSolution t (a, b) t0).2)
      ((b - a + b ^ 2) * (-Real.exp (-t)) + a * (-2 * Real.exp (-2 * t))
        - b ^ 2 * (-2 * Real.exp (-2 * t))) t :=
    fun t => (((d1 t).const_mul _).add ((d2 t).const_mul a)).sub ((d2 t).const_mul (b ^ 2))
  constructor
  · intro h
    have E : ∀ x > 0, (-2 * (a - b ^ 2) - b + (b - (a - b ^ 2)) ^ 2) +
        2 * (b - (a - b ^ 2)) * (a - b ^ 2) * x + (a - b ^ 2) ^ 2 * x ^ 2 = 0 := by
      intro x hx
      have u := (h (-Real.log x)).2.unique (D2 (-Real.log x))
      simp only [kapsSolution, hE2, neg_neg, Real.exp_log hx] at u
      have hx2 : x ^ 2 ≠ 0 := by positivity
      apply mul_left_cancel₀ hx2
      linear_combination -u
    have e1 := E 1 (by norm_num)
    have e2 := E 2 (by norm_num)
    have e3 := E 3 (by norm_num)
    have hc : a - b ^ 2 = 0 := by
      have : (a - b ^ 2) ^ 2 = 0 := by linear_combination (e1 - 2 * e2 + e3) / 2
      exact pow_eq_zero_iff (two_ne_zero) |>.mp this
    rw [hc] at e1
    have hb : b * (b - 1) = 0 := by linear_combination e1
    rcases mul_eq_zero.mp hb with h0 | h0
    · right
      rw [h0] at hc ⊢
      simp only [Prod.mk.injEq, and_true]
      linear_combination hc
    · left
      have hb1 : b = 1 := by linarith
      rw [hb1] at hc ⊢
      simp only [Prod.mk.injEq, and_true]
      linear_combination hc
  · intro h t
    rcases h with h | h <;> simp only [Prod.mk.injEq] at h <;> obtain ⟨rfl, rfl⟩ := h
    · constructor
      · convert D1 t using 1
        simp only [kapsSolution, hE2]
        field_simp
        ring
      · convert D2 t using 1
        simp only [kapsSolution, hE2]
        ring
    · constructor
      · convert D1 t using 1
        simp [kapsSolution]
      · convert D2 t using 1
        simp [kapsSolution]

/-- C54 fails for `kaps_solution`: from the default initial values at another time than zero it does
not have the initial values, and from other initial values at time zero it is no solution (by the
theorem before). The initial time is not used at all. -/
theorem C54_kaps_initial_time_violated (t0 : ℝ) :
    (kapsSolution t0 (1, 1) t0 = (1, 1) ↔ t0 = 0) ∧
    ∀ t v t1, kapsSolution t v t0 = kapsSolution t v t1 := by
  refine ⟨?_, fun _ _ _ => rfl⟩
  have e : kapsSolution t0 (1, 1) t0 = (Real.exp (-2 * t0), Real.exp (-t0)) := by
    simp [kapsSolution]
  rw [e]
  constructor
  · intro h
    have := congrArg Prod.snd h
    simpa using this
  · rintro rfl
    simp

section examples

-- the denominators that occur for the initial values and a usual step
example : (0.001 : ℝ) + 0.5 * 0.1 * (1 + 2 * 0.001) ≠ 0 ∧
    0 ≤ radicand2 0.1 0.5 ⟨1, 0, 1⟩ ∧ (0.5 : ℝ) * 0.1 ≠ 3 / 2 := by
  unfold radicand2
  norm_num

-- no solution exists
example : ¬ ∃ o, residual2 1 1 ⟨-2, 0, 0⟩ o = ⟨0, 0⟩ := by
  rw [(C54_kaps2_solve_nonlinear 1 1 _ one_ne_zero one_ne_zero).2]
  norm_num [radicand2]

-- a vector in which the accumulated stages are missing
example : linear1Fwd 1 2 3 ⟨0, 0, 5⟩ ⟨some 1, none, some 1⟩ ⟨some 1, some 1⟩ ⟨some 0, some 0⟩ =
    ⟨some 6, some 6⟩ := by
  norm_num [linear1Fwd, addIf]

end examples

/-! ### C55 -/

/-- The output is the solution of the stage equation, and the only one, if the denominator is not
zero. -/
theorem C55_stage_equation (lam h a t x acc k : ℝ) (hd : 1 - lam * h * a ≠ 0) :
    k = lam * (x + h * (acc + a * k) - Real.sin (t + Real.pi / 4)) + Real.cos (t + Real.pi / 4) ↔
      k = protheroRobinson lam h a t x acc := by
  unfold protheroRobinson phi dPhi
  rw [eq_div_iff hd]
  constructor <;> intro e <;> linear_combination e

/-- The differential equation of the Prothero-Robinson problem. -/
def PREquation (lam : ℝ) (x : ℝ → ℝ) : Prop :=
  ∀ t, HasDerivAt x
    (lam * (x t - Real.sin (t + Real.pi / 4)) + Real.cos (t + Real.pi / 4)) t

theorem prSolution_hasDerivAt (x0 t0 t : ℝ) :
    HasDerivAt (fun t => protheroRobinsonSolution t x0 t0)
      (Real.cos (t + Real.pi / 4) + (x0 - phi t0) / Real.exp t0 * Real.exp t) t := by
  have h1 : HasDerivAt (fun t => Real.sin (t + Real.pi / 4)) (Real.cos (t + Real.pi / 4)) t := by
    have := ((hasDerivAt_id t).add_const (Real.pi / 4)).sin
    simpa using this
  exact h1.add ((Real.hasDerivAt_exp t).const_mul _)

/-- `solution` has the initial value, and solves the differential equation exactly if the parameter
is one or the initial value lies on `phi`. The default initial value does.

Missing for the full property: other initial values, where `solution` is none (next theorem). -/
theorem C55_solution_partial (lam x0 t0 : ℝ) :
    protheroRobinsonSolution t0 x0 t0 = x0 ∧
    (PREquation lam (fun t => protheroRobinsonSolution t x0 t0) ↔
      lam = 1 ∨ x0 = Real.sin (t0 + Real.pi / 4)) ∧
    PREquation lam (fun t => protheroRobinsonSolution t (Real.sin (Real.pi / 4)) 0) := by
  have hiff : ∀ x0 t0, PREquation lam (fun t => protheroRobinsonSolution t x0 t0) ↔
      lam = 1 ∨ x0 = Real.sin (t0 + Real.pi / 4) := by
    intro x0 t0
    constructor
    · intro h
      have u := (h t0).unique (prSolution_hasDerivAt x0 t0 t0)
      have he : Real.exp t0 ≠ 0 := (Real.exp_pos t0).ne'
      unfold protheroRobinsonSolution phi at u
      beta_reduce at u
      rw [div_mul_cancel₀ _ he] at u
      have : (lam - 1) * (x0 - Real.sin (t0 + Real.pi / 4)) = 0 := by
        linear_combination u
      rcases mul_eq_zero.mp this with h0 | h0
      · left; linarith
      · right; linarith
    · intro h t
      refine (prSolution_hasDerivAt x0 t0 t).congr_deriv ?_
      unfold protheroRobinsonSolution phi
      rcases h with rfl | rfl
      · ring
      · ring
  refine ⟨?_, hiff x0 t0, ?_⟩
  · unfold protheroRobinsonSolution
    have he : Real.exp t0 ≠ 0 := (Real.exp_pos t0).ne'
    field_simp
    ring
  · rw [hiff]
    right
    rw [zero_add]

/-- C55 fails for `solution`: with the default parameter, every initial value away from `phi` gives a
function that does not solve the differential equation. -/
theorem C55_solution_violated (x0 t0 : ℝ) (h : x0 ≠ Real.sin (t0 + Real.pi / 4)) :
    ¬ PREquation (-100) (fun t => protheroRobinsonSolution t x0 t0) := by
  rw [(C55_solution_partial (-100) x0 t0).2.1]
  rintro (h0 | h0)
  · norm_num at h0
  · exact h h0

-- a stage with the default parameter; an initial value away from phi
example : (1 : ℝ) - -100 * 0.1 * 0.5 ≠ 0 ∧ (2 : ℝ) ≠ Real.sin (0 + Real.pi / 4) := by
  refine ⟨by norm_num, fun h => ?_⟩
  have := Real.sin_le_one (0 + Real.pi / 4)
  linarith

/-! ### C56 -/

/-- The stage equation `k = -(old + h (acc + a k))` has exactly one solution iff `1 + h a ≠ 0`, and
then the output is the solution. -/
theorem C56_stage_equation (h a : ℝ) (i : LinIn ℝ) :
    ((∃! k, k = -(i.old + h * (i.acc + a * k))) ↔ 1 + h * a ≠ 0) ∧
    ((∃! k, k = -(i.old + h * (i.acc + a * k))) →
      ∀ k, k = -(i.old + h * (i.acc + a * k)) ↔ k = simpleLinear h a i) := by
  have key : 1 + h * a ≠ 0 →
      ∀ k, k = -(i.old + h * (i.acc + a * k)) ↔ k = simpleLinear h a i := by
    intro hd k
    unfold simpleLinear
    rw [eq_div_iff hd]
    constructor <;> intro e <;> linear_combination e
  have hiff : (∃! k, k = -(i.old + h * (i.acc + a * k))) ↔ 1 + h * a ≠ 0 := by
    refine ⟨?_, fun hd => ⟨_, (key hd _).mpr rfl, fun k hk => (key hd k).mp hk⟩⟩
    rintro ⟨k, hk, hu⟩ h0
    have := hu (k + 1) (by simp only at hk ⊢; linear_combination hk + h0)
    linarith
  exact ⟨hiff, fun hk => key (hiff.mp hk)⟩

/-- The forward product is the derivative of the output. -/
theorem C56_derivative (h a τ : ℝ) (i : ℝ → LinIn ℝ) (di : LinIn ℝ)
    (h1 : HasDerivAt (fun τ => (i τ).old) di.old τ)
    (h2 : HasDerivAt (fun τ => (i τ).acc) di.acc τ) :
    ∃ d, simpleLinearFwd h a ⟨some di.old, some di.acc⟩ (some 0) = .ok (some d) ∧
      HasDerivAt (fun τ => simpleLinear h a (i τ)) d τ := by
  refine ⟨_, rfl, ?_⟩
  exact ((h1.add (h2.const_mul h)).neg.div_const (1 + h * a)).congr_deriv
    (by simp [div_eq_mul_inv]; ring)

/-- The reverse product is the transpose of the forward product, whatever the vectors hold before;
both raise KeyError if a variable is missing. -/
theorem C56_transpose (h a : ℝ) :
    (∀ (di di' : LinIn ℝ) (d d' : ℝ), ∃ (e : ℝ) (ei : LinIn ℝ),
      simpleLinearFwd h a ⟨some di.old, some di.acc⟩ (some d) = .ok (some e) ∧
      simpleLinearRev h a (some d') ⟨some di'.old, some di'.acc⟩ =
        .ok ⟨some ei.old, some ei.acc⟩ ∧
      (e - d) * d' = (ei.old - di'.old) * di.old + (ei.acc - di'.acc) * di.acc) ∧
    ∀ (di : LinIn (Option ℝ)) (d : Option ℝ), di.old = none ∨ di.acc = none ∨ d = none →
      simpleLinearFwd h a di d = .error .key ∧ simpleLinearRev h a d di = .error .key := by
  constructor
  · intro di di' d d'
    refine ⟨_, ⟨_, _⟩, rfl, rfl, ?_⟩
    simp only
    ring
  · rintro ⟨o, c⟩ d hn
    rcases o with - | o <;> rcases c with - | c <;> rcases d with - | d <;>
      simp [simpleLinearFwd, simpleLinearRev] at hn ⊢

/-- `simple_linear_solution` has the initial value and solves `y' = -y`. -/
theorem C56_solution (y0 t0 : ℝ) : simpleLinearSolution t0 y0 t0 = y0 ∧
    ∀ t, HasDerivAt (fun t => simpleLinearSolution t y0 t0) (-simpleLinearSolution t y0 t0) t := by
  refine ⟨?_, fun t => ?_⟩
  · unfold simpleLinearSolution
    have he : Real.exp (-t0) ≠ 0 := (Real.exp_pos _).ne'
    field_simp
  · unfold simpleLinearSolution
    have := ((hasDerivAt_exp_mul (-1) t).const_mul (y0 / Real.exp (-t0)))
    simpa using this

-- a stage of an implicit scheme
example : (1 : ℝ) + 0.1 * 0.5 ≠ 0 ∧ simpleLinear 0.1 0.5 ⟨1.05, 0⟩ = -1 := by
  constructor <;> norm_num [simpleLinear]

/-! ### C57 -/

/-- The stage value is `old + dt * (acc + a * slope)`, entry by entry. -/
theorem C57_stage_value (h a : ℝ) (i : ValueIn Arr) (k : ℕ) :
    stageValue h a i k = i.old k + h * (i.acc k + a * i.slope k) := by
  simp [stageValue, mul_add]

/-- The loop of the update component computes the slope of every quantity and changes no other
variable. -/
theorem C57_stage_update (qs : List String) (h a : ℝ) (i o : Vec) :
    (∀ q ∈ qs, ∀ k, stageUpdate qs h a i o (q ++ "_update") k =
      (i q k - i (q ++ "_old") k - h * i (q ++ "_acc_stages") k) / (h * a)) ∧
    ∀ nm, (∀ q ∈ qs, nm ≠ q ++ "_update") → stageUpdate qs h a i o nm = o nm := by
  unfold stageUpdate
  induction qs generalizing o with
  | nil => simp
  | cons q qs ih =>
    rw [List.foldl_cons]
    refine ⟨fun q' hq' k => ?_, fun nm hnm => ?_⟩
    · by_cases hin : q' ∈ qs
      · exact (ih _).1 q' hin k
      · have hqq : q' = q := by
          rcases List.mem_cons.mp hq' with e | e
          · exact e
          · exact absurd e hin
        subst hqq
        rw [(ih _).2 _ fun q'' hq'' e => hin (by
          rw [(String.append_left_inj _).mp e]; exact hq'')]
        simp [put]
        ring
    · rw [(ih _).2 nm fun q' hq' => hnm q' (by simp [hq'])]
      simp [put, hnm q (by simp)]

/-- The two components are inverse to each other: the update component recovers the slope from the
stage value, and the stage value from the slope it computes is the value it got. -/
theorem C57_inverse (qs : List String) (h a : ℝ) (hne : h * a ≠ 0) (i o : Vec) (q : String)
    (hq : q ∈ qs) (slope : Arr) :
    (i q = stageValue h a ⟨slope, i (q ++ "_old"), i (q ++ "_acc_stages")⟩ →
      stageUpdate qs h a i o (q ++ "_update") = slope) ∧
    stageValue h a ⟨stageUpdate qs h a i o (q ++ "_update"), i (q ++ "_old"),
      i (q ++ "_acc_stages")⟩ = i q := by
  have hh : h ≠ 0 := left_ne_zero_of_mul hne
  have ha : a ≠ 0 := right_ne_zero_of_mul hne
  constructor
  · intro e
    funext k
    rw [(C57_stage_update qs h a i o).1 q hq k, e, C57_stage_value]
    simp only
    field_simp
    ring
  · funext k
    rw [C57_stage_value]
    simp only
    rw [(C57_stage_update qs h a i o).1 q hq k]
    field_simp
    ring

/-- The entries of a variable; missing ones count as zero. -/
def vals (x : Option Arr) : Arr := x.getD 0

theorem vals_addIf (c : ℝ) (d r : Option Arr) (k : ℕ) :
    vals (addIf c d r) k = vals r k + (if r.isSome then 1 else 0) * (c * vals d k) := by
  cases r <;> cases d <;> simp [addIf, vals]

theorem Same.mul' {x y : Option Arr} (h : Same x y) (k : ℕ) :
    (if x.isSome then 1 else 0) * vals y k = vals y k := by
  unfold Same at h
  cases x <;> cases y <;> simp_all [vals]

/-- With all variables there, the forward product of the value component is the derivative of its
output. -/
theorem C57_stage_value_derivative (h a τ : ℝ) (i : ℝ → ValueIn Arr) (di : ValueIn Arr) (k : ℕ)
    (h1 : HasDerivAt (fun τ => (i τ).old k) (di.old k) τ)
    (h2 : HasDerivAt (fun τ => (i τ).acc k) (di.acc k) τ)
    (h3 : HasDerivAt (fun τ => (i τ).slope k) (di.slope k) τ) :
    ∃ d : Arr, stageValueFwd h a ⟨some di.slope, some di.old, some di.acc⟩ (some 0) = some d ∧
      HasDerivAt (fun τ => stageValue h a (i τ) k) (d k) τ := by
  refine ⟨_, rfl, ?_⟩
  exact (h1.add ((h2.add (h3.const_mul a)).const_mul h)).congr_deriv (by simp; ring)

/-- The reverse product of the value component is the transpose of the forward product, whichever
variables are there and whatever the vectors hold before. -/
theorem C57_stage_value_transpose (h a : ℝ) (n : ℕ) (di di' : ValueIn (Option Arr))
    (d d' : Option Arr) (m1 : Same di.old di'.old) (m2 : Same di.acc di'.acc)
    (m3 : Same di.slope di'.slope) (m4 : Same d d') :
    ∑ k ∈ Finset.range n, (vals (stageValueFwd h a di d) k - vals d k) * vals d' k =
    ∑ k ∈ Finset.range n, (vals (stageValueRev h a d' di').old k - vals di'.old k) * vals di.old k +
    ∑ k ∈ Finset.range n, (vals (stageValueRev h a d' di').acc k - vals di'.acc k) * vals di.acc k +
    ∑ k ∈ Finset.range n,
      (vals (stageValueRev h a d' di').slope k - vals di'.slope k) * vals di.slope k := by
  rw [← Finset.sum_add_distrib, ← Finset.sum_add_distrib]
  refine Finset.sum_congr rfl fun k _ => ?_
  simp only [stageValueFwd, stageValueRev, vals_addIf, isSome_addIf]
  have e1 := m1.symm.mul' k; have e2 := m2.symm.mul' k; have e3 := m3.symm.mul' k
  have e4 := m4.mul' k
  linear_combination (vals di.old k + h * vals di.acc k + h * a * vals di.slope k) * e4 -
    vals d' k * e1 - h * vals d' k * e2 - h * a * vals d' k * e3

/-- The names of the inputs of the update component. -/
def inputNames (qs : List String) : List String :=
  qs.flatMap fun q => [q, q ++ "_old", q ++ "_acc_stages"]

/-- The forward product of the update component, for every quantity and every other variable. -/
theorem stageUpdateFwd_eq (h a : ℝ) (di : DVec) : ∀ (qs : List String) (d : DVec), qs.Nodup →
    (∀ q ∈ qs, stageUpdateFwd qs h a di d (q ++ "_update") =
      addIf (-(1 / a)) (di (q ++ "_acc_stages")) (addIf (-(1 / (h * a))) (di (q ++ "_old"))
        (addIf (1 / (h * a)) (di q) (d (q ++ "_update"))))) ∧
    ∀ nm, (∀ q ∈ qs, nm ≠ q ++ "_update") → stageUpdateFwd qs h a di d nm = d nm := by
  intro qs
  induction qs with
  | nil => intro d _; simp [stageUpdateFwd]
  | cons q qs ih =>
    intro d hn
    rw [List.nodup_cons] at hn
    have ih := ih (updateFwdOne h a di d q) hn.2
    have other : ∀ nm, nm ≠ q ++ "_update" → updateFwdOne h a di d q nm = d nm := by
      intro nm hnm
      simp [updateFwdOne, put, hnm]
    refine ⟨fun q' hq' => ?_, fun nm hnm => ?_⟩
    · rcases List.mem_cons.mp hq' with rfl | hin
      · refine (ih.2 _ fun q'' hq'' e => hn.1 ?_).trans ?_
        · rw [(String.append_left_inj _).mp e]; exact hq''
        · simp [updateFwdOne, put]
      · refine (ih.1 q' hin).trans ?_
        rw [other _ fun e => hn.1 ?_]
        rw [← (String.append_left_inj _).mp e]; exact hin
    · exact (ih.2 nm fun q' hq' => hnm q' (by simp [hq'])).trans (other nm (hnm q (by simp)))

/-- The reverse product of the update component, for every quantity and every other variable. -/
theorem stageUpdateRev_eq (h a : ℝ) (d : DVec) : ∀ (qs : List String) (di : DVec),
    (inputNames qs).Nodup →
    (∀ q ∈ qs, stageUpdateRev qs h a d di q = addIf (1 / (h * a)) (d (q ++ "_update")) (di q) ∧
      stageUpdateRev qs h a d di (q ++ "_old") =
        addIf (-(1 / (h * a))) (d (q ++ "_update")) (di (q ++ "_old")) ∧
      stageUpdateRev qs h a d di (q ++ "_acc_stages") =
        addIf (-(1 / a)) (d (q ++ "_update")) (di (q ++ "_acc_stages"))) ∧
    ∀ nm, nm ∉ inputNames qs → stageUpdateRev qs h a d di nm = di nm := by
  intro qs
  induction qs with
  | nil => intro di _; simp [stageUpdateRev]
  | cons q qs ih =>
    intro di hn
    have hcons : inputNames (q :: qs) = [q, q ++ "_old", q ++ "_acc_stages"] ++ inputNames qs := by
      simp [inputNames]
    rw [hcons, List.nodup_append] at hn
    obtain ⟨hn1, hn2, hn3⟩ := hn
    have ih := ih (updateRevOne h a d di q) hn2
    simp only [List.nodup_cons, List.mem_cons, List.not_mem_nil, or_false, not_or,
      List.nodup_nil, and_true, not_false_eq_true] at hn1
    obtain ⟨⟨n1, n2⟩, n3⟩ := hn1
    have other : ∀ nm, nm ∉ [q, q ++ "_old", q ++ "_acc_stages"] →
        updateRevOne h a d di q nm = di nm := by
      intro nm hnm
      simp only [List.mem_cons, List.not_mem_nil, or_false, not_or] at hnm
      simp [updateRevOne, put, hnm.1, hnm.2.1, hnm.2.2]
    have hnot : ∀ nm ∈ [q, q ++ "_old", q ++ "_acc_stages"], nm ∉ inputNames qs :=
      fun nm h1 h2 => hn3 nm h1 nm h2 rfl
    have hnot' : ∀ nm ∈ inputNames qs, nm ∉ [q, q ++ "_old", q ++ "_acc_stages"] :=
      fun nm h1 h2 => hnot nm h2 h1
    refine ⟨fun q' hq' => ?_, fun nm hnm => ?_⟩
    · rcases List.mem_cons.mp hq' with rfl | hin
      · refine ⟨(ih.2 _ (hnot _ (by simp))).trans ?_, (ih.2 _ (hnot _ (by simp))).trans ?_,
          (ih.2 _ (hnot _ (by simp))).trans ?_⟩
        · simp [updateRevOne, put, n1, n2]
        · simp [updateRevOne, put, n3, Ne.symm n1]
        · simp [updateRevOne, put, Ne.symm n3, Ne.symm n2]
      · have hm : ∀ nm ∈ [q', q' ++ "_old", q' ++ "_acc_stages"], nm ∈ inputNames qs :=
          fun nm hnm => List.mem_flatMap.mpr ⟨q', hin, hnm⟩
        obtain ⟨g1, g2, g3⟩ := ih.1 q' hin
        refine ⟨g1.trans ?_, g2.trans ?_, g3.trans ?_⟩
        all_goals rw [other _ (hnot' _ (hm _ (by simp)))]
    · rw [hcons, List.mem_append, not_or] at hnm
      exact (ih.2 nm hnm.2).trans (other nm hnm.1)

/-- With all variables there, the forward product of the update component is the derivative of its
outputs. -/
theorem C57_stage_update_derivative (qs : List String) (hn : qs.Nodup) (h a τ : ℝ) (hh : h ≠ 0)
    (i : ℝ → Vec) (o di : Vec) (q : String) (hq : q ∈ qs) (k : ℕ)
    (h1 : HasDerivAt (fun τ => i τ q k) (di q k) τ)
    (h2 : HasDerivAt (fun τ => i τ (q ++ "_old") k) (di (q ++ "_old") k) τ)
    (h3 : HasDerivAt (fun τ => i τ (q ++ "_acc_stages") k) (di (q ++ "_acc_stages") k) τ) :
    ∃ d : Arr, stageUpdateFwd qs h a (fun nm => some (di nm)) (fun _ => some 0) (q ++ "_update")
        = some d ∧
      HasDerivAt (fun τ => stageUpdate qs h a (i τ) o (q ++ "_update") k) (d k) τ := by
  refine ⟨_, (stageUpdateFwd_eq h a _ qs _ hn).1 q hq, ?_⟩
  have e : (fun τ => stageUpdate qs h a (i τ) o (q ++ "_update") k) = fun τ =>
      (i τ q k - i τ (q ++ "_old") k - h * i τ (q ++ "_acc_stages") k) / (h * a) := by
    funext τ
    exact (C57_stage_update qs h a (i τ) o).1 q hq k
  rw [e]
  refine (((h1.sub h2).sub (h3.const_mul h)).div_const (h * a)).congr_deriv ?_
  by_cases ha : a = 0
  · simp [ha]
  · simp
    field_simp
    ring

/-- All names of the update component. -/
def updateNames (qs : List String) : List String :=
  qs.flatMap fun q => [q, q ++ "_old", q ++ "_acc_stages", q ++ "_update"]

theorem declare_all : ∀ (new names : List String), names.Nodup → ∀ r,
    new.foldlM declare names = .ok r ↔ (names ++ new).Nodup ∧ r = names ++ new := by
  intro new
  induction new with
  | nil =>
    intro names hn r
    simp [pure, Except.pure, hn, eq_comm]
  | cons q new ih =>
    intro names hn r
    rw [List.foldlM_cons]
    unfold declare
    by_cases hq : q ∈ names
    · rw [if_pos hq]
      simp only [bind, Except.bind, reduceCtorEq, false_iff]
      rintro ⟨h1, -⟩
      rw [List.nodup_append] at h1
      exact h1.2.2 q hq q List.mem_cons_self rfl
    · rw [if_neg hq]
      simp only [bind, Except.bind]
      have h2 : (names ++ [q]).Nodup := by
        rw [List.nodup_append]
        exact ⟨hn, List.nodup_singleton _, fun a ha b hb e => hq (by simp_all)⟩
      have := ih (names ++ [q]) h2 r
      unfold declare at this
      rw [this]
      simp

/-- Setup of the update component succeeds iff the names of all variables are different, and declares
them in order. -/
theorem C57_setup (qs ns : List String) :
    updateSetup qs = .ok ns ↔ (updateNames qs).Nodup ∧ ns = updateNames qs := by
  have key : ∀ (qs names : List String), names.Nodup → ∀ r,
      qs.foldlM updateSetupOne names = .ok r ↔
        (names ++ updateNames qs).Nodup ∧ r = names ++ updateNames qs := by
    intro qs
    induction qs with
    | nil =>
      intro names hn r
      simp [pure, Except.pure, hn, eq_comm, updateNames]
    | cons q qs ih =>
      intro names hn r
      rw [List.foldlM_cons]
      rcases hc : updateSetupOne names q with e | r1
      · simp only [bind, Except.bind, reduceCtorEq, false_iff]
        rintro ⟨h1, -⟩
        have h2 : (names ++ [q, q ++ "_old", q ++ "_acc_stages", q ++ "_update"]).Nodup := by
          refine h1.sublist ?_
          simp [updateNames]
        have := (declare_all _ names hn _).mpr ⟨h2, rfl⟩
        rw [updateSetupOne, this] at hc
        cases hc
      · obtain ⟨h1, rfl⟩ := (declare_all _ names hn _).mp hc
        simp only [bind, Except.bind]
        rw [ih _ h1 r]
        simp [updateNames]
  have := key qs [] List.nodup_nil ns
  simpa [updateSetup] using this

theorem names_of_setup {qs ns : List String} (h : updateSetup qs = .ok ns) :
    qs.Nodup ∧ (inputNames qs).Nodup := by
  obtain ⟨h1, -⟩ := (C57_setup qs ns).mp h
  have h2 : (inputNames qs).Sublist (updateNames qs) := by
    clear h h1
    unfold inputNames updateNames
    induction qs with
    | nil => exact List.Sublist.refl _
    | cons q qs ih =>
      rw [List.flatMap_cons, List.flatMap_cons]
      exact List.Sublist.append (by simp) ih
  have h3 : qs.Sublist (updateNames qs) := by
    clear h h1 h2
    unfold updateNames
    induction qs with
    | nil => exact List.Sublist.refl _
    | cons q qs ih =>
      rw [List.flatMap_cons]
      exact List.Sublist.append (l₁ := [q]) (by simp) ih
  exact ⟨h1.sublist h3, h1.sublist h2⟩

/-- The reverse product of the update component is the transpose of the forward product, for any list
of quantities that can be set up, whichever variables are there and whatever the vectors hold before;
`n q` is the number of entries of quantity `q`. -/
theorem C57_stage_update_transpose (qs : List String) {ns : List String}
    (hset : updateSetup qs = .ok ns) (h a : ℝ) (n : String → ℕ) (di di' d d' : DVec)
    (m1 : ∀ nm, Same (di nm) (di' nm)) (m2 : ∀ nm, Same (d nm) (d' nm)) :
    (qs.map fun q => ∑ k ∈ Finset.range (n q),
      (vals (stageUpdateFwd qs h a di d (q ++ "_update")) k - vals (d (q ++ "_update")) k)
        * vals (d' (q ++ "_update")) k).sum =
    (qs.map fun q => ∑ k ∈ Finset.range (n q),
      ((vals (stageUpdateRev qs h a d' di' q) k - vals (di' q) k) * vals (di q) k +
       (vals (stageUpdateRev qs h a d' di' (q ++ "_old")) k - vals (di' (q ++ "_old")) k)
         * vals (di (q ++ "_old")) k +
       (vals (stageUpdateRev qs h a d' di' (q ++ "_acc_stages")) k
         - vals (di' (q ++ "_acc_stages")) k) * vals (di (q ++ "_acc_stages")) k)).sum := by
  obtain ⟨hn, hnames⟩ := names_of_setup hset
  congr 1
  refine List.map_congr_left fun q hq => Finset.sum_congr rfl fun k _ => ?_
  obtain ⟨g1, g2, g3⟩ := (stageUpdateRev_eq h a d' qs di' hnames).1 q hq
  rw [(stageUpdateFwd_eq h a di qs d hn).1 q hq, g1, g2, g3]
  simp only [vals_addIf, isSome_addIf]
  have e1 := (m1 q).symm.mul' k; have e2 := (m1 (q ++ "_old")).symm.mul' k
  have e3 := (m1 (q ++ "_acc_stages")).symm.mul' k; have e4 := (m2 (q ++ "_update")).mul' k
  linear_combination (1 / (h * a) * vals (di q) k - 1 / (h * a) * vals (di (q ++ "_old")) k
      - 1 / a * vals (di (q ++ "_acc_stages")) k) * e4 -
    1 / (h * a) * vals (d' (q ++ "_update")) k * e1 +
    1 / (h * a) * vals (d' (q ++ "_update")) k * e2 + 1 / a * vals (d' (q ++ "_update")) k * e3

-- two quantities; the old value of the second is not in the vector
example : updateSetup ["x", "y"] = .ok ["x", "x_old", "x_acc_stages", "x_update", "y", "y_old",
      "y_acc_stages", "y_update"] ∧ (0.5 : ℝ) * 0.1 ≠ 0 ∧
    stageUpdateFwd ["x", "y"] 1 2 (fun nm => if nm = "y_old" then none else some fun _ => 1)
      (fun _ => some 0) "x_update" = some fun _ => -1 / 2 := by
  refine ⟨(C57_setup _ _).mpr ⟨by decide, by decide⟩, by norm_num, ?_⟩
  have := (stageUpdateFwd_eq 1 2 (fun nm => if nm = "y_old" then none else some fun _ => 1)
    ["x", "y"] (fun _ => some 0) (by decide)).1 "x" (by simp)
  refine this.trans ?_
  simp [addIf]
  funext k
  norm_num

end Verif.Props
