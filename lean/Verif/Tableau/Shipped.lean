/-
The tableaux shipped with the package as exact data.

Source: /repo/src/rkopenmdao/butcher_tableaux.py

The arithmetic expressions are transcribed literally. Decimals and quotients of integers are
exact rationals here (Python rounds them to double precision). `np.sqrt(2)`, `np.sqrt(3)` and
`np.sqrt((2 + np.sqrt(3)) / 3)` are exact square roots: the data lives in the computable number
fields `ℚ`, `Q2 = ℚ(√2)`, `Q3 = ℚ(√3)`, `Q3r = Q3(√((2+√3)/3))`, and `embQ2`, `embQ3`, `embQ3r`
embed these into `ℝ`, sending the generator to the real square root.
-/
import Verif.Tableau.Model
import Mathlib.Algebra.QuadraticAlgebra.Basic
import Mathlib.Algebra.Field.Rat
import Mathlib.Algebra.Order.Ring.Rat
import Mathlib.Data.Fin.VecNotation
import Mathlib.Data.Real.Sqrt
import Mathlib.Tactic.NormNum
import Mathlib.Tactic.NormNum.IsSquare
import Mathlib.Tactic.Linarith
import Mathlib.Tactic.LinearCombination
import Mathlib.Tactic.FieldSimp

namespace Verif.Tableau

theorem rat_sq_ne_two (r : ℚ) : r ^ 2 ≠ 2 := by
  intro h
  have : IsSquare (2 : ℚ) := ⟨r, by rw [← h]; ring⟩
  revert this
  norm_num

theorem rat_sq_ne_three (r : ℚ) : r ^ 2 ≠ 3 := by
  intro h
  have : IsSquare (3 : ℚ) := ⟨r, by rw [← h]; ring⟩
  revert this
  norm_num

theorem rat_sq_ne_six (r : ℚ) : r ^ 2 ≠ 6 := by
  intro h
  have : IsSquare (6 : ℚ) := ⟨r, by rw [← h]; ring⟩
  revert this
  norm_num

/-- The number field `ℚ(√2)`. -/
abbrev Q2 := QuadraticAlgebra ℚ 2 0
/-- The number field `ℚ(√3)`. -/
abbrev Q3 := QuadraticAlgebra ℚ 3 0

instance : Fact (∀ r : ℚ, r ^ 2 ≠ 2 + 0 * r) := ⟨fun r => by
  rw [zero_mul, add_zero]; exact rat_sq_ne_two r⟩
instance : Fact (∀ r : ℚ, r ^ 2 ≠ 3 + 0 * r) := ⟨fun r => by
  rw [zero_mul, add_zero]; exact rat_sq_ne_three r⟩

/-- `np.sqrt(2)`. -/
def sqrt2 : Q2 := ⟨0, 1⟩
/-- `np.sqrt(3)`. -/
def sqrt3 : Q3 := ⟨0, 1⟩

/-- The number `(2 + √3) / 3` in `ℚ(√3)`. -/
def radicand : Q3 := ⟨2/3, 1/3⟩

/-- The number field `ℚ(√3)(√((2 + √3)/3))`. -/
abbrev Q3r := QuadraticAlgebra Q3 radicand 0

instance : Fact (∀ r : Q3, r ^ 2 ≠ radicand + 0 * r) := ⟨fun r => by
  rw [zero_mul, add_zero]
  intro h
  have h1 := congrArg QuadraticAlgebra.re h
  have h2 := congrArg QuadraticAlgebra.im h
  simp only [pow_two, QuadraticAlgebra.re_mul, QuadraticAlgebra.im_mul, radicand] at h1 h2
  have h3 : (2 * r.re ^ 2 - 1) * (6 * r.re ^ 2 - 1) = 0 := by
    linear_combination 12 * r.re ^ 2 * h1 - (18 * r.re * r.im + 3) * h2
  rcases mul_eq_zero.mp h3 with h4 | h4
  · exact rat_sq_ne_two (2 * r.re) (by linear_combination 2 * h4)
  · exact rat_sq_ne_six (6 * r.re) (by linear_combination 6 * h4)⟩

/-- `np.sqrt(3)` as element of `Q3r`. -/
def sqrt3r : Q3r := ⟨sqrt3, 0⟩
/-- `np.sqrt((2 + np.sqrt(3)) / 3)`. -/
def sqrtNested : Q3r := ⟨0, 1⟩

/-- The embedding `ℚ(√2) → ℝ`. -/
noncomputable def embQ2 : Q2 →+* ℝ :=
  (QuadraticAlgebra.lift (R := ℚ) (A := ℝ) ⟨√2, by
    rw [Real.mul_self_sqrt (by norm_num), zero_smul, add_zero, Rat.smul_def]
    norm_num⟩).toRingHom

/-- The embedding `ℚ(√3) → ℝ`. -/
noncomputable def embQ3 : Q3 →+* ℝ :=
  (QuadraticAlgebra.lift (R := ℚ) (A := ℝ) ⟨√3, by
    rw [Real.mul_self_sqrt (by norm_num), zero_smul, add_zero, Rat.smul_def]
    norm_num⟩).toRingHom

theorem embQ2_apply (x : Q2) : embQ2 x = x.re + x.im * √2 := by
  simp [embQ2, QuadraticAlgebra.lift, Rat.smul_def]

theorem embQ3_apply (x : Q3) : embQ3 x = x.re + x.im * √3 := by
  simp [embQ3, QuadraticAlgebra.lift, Rat.smul_def]

theorem embQ2_sqrt2 : embQ2 sqrt2 = √2 := by simp [embQ2_apply, sqrt2]

theorem embQ3_sqrt3 : embQ3 sqrt3 = √3 := by simp [embQ3_apply, sqrt3]

noncomputable instance : Algebra Q3 ℝ := embQ3.toAlgebra

/-- The embedding `Q3r → ℝ`. -/
noncomputable def embQ3r : Q3r →+* ℝ :=
  (QuadraticAlgebra.lift (R := Q3) (A := ℝ) ⟨√((2 + √3) / 3), by
    have h3 : (0 : ℝ) ≤ √3 := Real.sqrt_nonneg _
    rw [Real.mul_self_sqrt (by positivity), zero_smul, add_zero, Algebra.smul_def, mul_one]
    change _ = embQ3 radicand
    rw [embQ3_apply, radicand]
    push_cast
    ring⟩).toRingHom

theorem embQ3r_apply (x : Q3r) : embQ3r x = embQ3 x.re + embQ3 x.im * √((2 + √3) / 3) := by
  simp [embQ3r, QuadraticAlgebra.lift, Algebra.smul_def]
  rfl

theorem embQ3r_sqrt3 : embQ3r sqrt3r = √3 := by
  simp [embQ3r_apply, sqrt3r, embQ3_sqrt3]

theorem embQ3r_sqrtNested : embQ3r sqrtNested = √((2 + √3) / 3) := by
  simp [embQ3r_apply, sqrtNested]

/-- Image of a tableau under a map of coefficients. -/
def Tableau.map {K L : Type} (f : K → L) (T : Tableau K) : Tableau L :=
  ⟨T.stages, fun i j => f (T.A i j), fun i => f (T.b i), fun i => f (T.c i), T.p, T.name⟩

/-- Image of an embedded tableau under a map of coefficients. -/
def EmbTableau.map {K L : Type} (f : K → L) (T : EmbTableau K) : EmbTableau L :=
  ⟨T.toTableau.map f, fun i => f (T.bhat i), T.phat⟩

/-- `explicit_euler`, butcher_tableaux.py L52-58. -/
def explicitEuler : Tableau ℚ :=
  ⟨1,
     ![
       ![0]],
      ![1],
      ![0],
      some 1, "Explicit Euler"⟩

/-- `implicit_euler`, butcher_tableaux.py L60-66. -/
def implicitEuler : Tableau ℚ :=
  ⟨1,
     ![
       ![1]],
      ![1],
      ![1],
      some 1, "Implicit Euler"⟩

/-- `implicit_midpoint`, butcher_tableaux.py L68-74. -/
def implicitMidpoint : Tableau ℚ :=
  ⟨1,
     ![
       ![0.5]],
      ![1],
      ![0.5],
      some 2, "Implicit Midpoint"⟩

/-- `third_order_two_stage_sdirk`, butcher_tableaux.py L77-90. -/
def thirdOrderTwoStageSdirk : Tableau Q3 :=
  let gamma : Q3 := 0.5 + sqrt3 / 6
  let c2 : Q3 := 0.5 - sqrt3 / 6
  ⟨2,
     ![
       ![gamma, 0],
       ![c2 - gamma, gamma]],
      ![0.5, 0.5],
      ![gamma, c2],
      some 3, "SDIRK 2-stage, 3rd order"⟩

/-- `runge_kutta_four`, butcher_tableaux.py L95-108. -/
def rungeKuttaFour : Tableau ℚ :=
  ⟨4,
     ![
       ![0, 0, 0, 0],
       ![0.5, 0, 0, 0],
       ![0, 0.5, 0, 0],
       ![0, 0, 1, 0]],
      ![1 / 6, 1 / 3, 1 / 3, 1 / 6],
      ![0, 0.5, 0.5, 1],
      some 4, "RK4 with simple embedded 2nd-order estimator"⟩

/-- `fifth_order_five_stage_sdirk`, butcher_tableaux.py L111-165. -/
def fifthOrderFiveStageSdirk : Tableau ℚ :=
  ⟨5,
     ![
       ![4024571134387 / 14474071345096, 0, 0, 0, 0],
       ![9365021263232 / 12572342979331, 4024571134387 / 14474071345096, 0, 0, 0],
       ![2144716224527 / 9320917548702, (-397905335951) / 4008788611757,
       4024571134387 / 14474071345096, 0, 0],
       ![(-291541413000) / 6267936762551, 226761949132 / 4473940808273,
       (-1282248297070) / 9697416712681, 4024571134387 / 14474071345096, 0],
       ![(-2481679516057) / 4626464057815, (-197112422687) / 6604378783090,
       3952887910906 / 9713059315593, 4906835613583 / 8134926921134,
       4024571134387 / 14474071345096]],
      ![(-2522702558582) / 12162329469185, 1018267903655 / 12907234417901,
      4542392826351 / 13702606430957, 5001116467727 / 12224457745473,
      1509636094297 / 3891594770934],
      ![4024571134387 / 14474071345096, 5555633399575 / 5431021154178,
      5255299487392 / 12852514622453, 3 / 20, 10449500210709 / 14474071345096],
      some 5, "SDIRK 5-stage, 5th order"⟩

/-- `embedded_heun_euler`, butcher_tableaux.py L167-175. -/
def embeddedHeunEuler : EmbTableau ℚ :=
  ⟨⟨2,
     ![
       ![0, 0],
       ![1, 0]],
      ![0.5, 0.5],
      ![0, 1],
      some 2, "Embedded Heun's Method with Euler method"⟩,
      ![1, 0],
      some 1⟩

/-- `embedded_second_order_two_stage_sdirk`, butcher_tableaux.py L178-189. -/
def embeddedSecondOrderTwoStageSdirk : EmbTableau Q2 :=
  let gamma : Q2 := (2 - sqrt2) / 2
  ⟨⟨2,
     ![
       ![gamma, 0],
       ![1 - gamma, gamma]],
      ![1 - gamma, gamma],
      ![gamma, 1],
      some 2, "SDIRK 2-stage, 2nd order"⟩,
      ![0.5, 0.5],
      some 1⟩

/-- `embedded_second_order_three_stage_esdirk`, butcher_tableaux.py L195-217. -/
def embeddedSecondOrderThreeStageEsdirk : EmbTableau Q2 :=
  let gamma : Q2 := (2 - sqrt2) / 2
  let b2 : Q2 := (1 - 2 * gamma) / (4 * gamma)
  let b2_hat : Q2 :=
    gamma * (-2 + 7 * gamma - 5 * gamma ^ 2 + 4 * gamma ^ 3) / (2 * (2 * gamma - 1))
  let b3_hat : Q2 := (-2) * gamma ^ 2 * (1 - gamma + gamma ^ 2) / (2 * gamma - 1)
  ⟨⟨3,
     ![
       ![0, 0, 0],
       ![gamma, gamma, 0],
       ![1 - b2 - gamma, b2, gamma]],
      ![1 - b2 - gamma, b2, gamma],
      ![0, 2 * gamma, 1],
      some 2, "ESDIRK 3-stage, 2nd order"⟩,
      ![1 - b2_hat - b3_hat, b2_hat, b3_hat],
      some 1⟩

/-- `embedded_third_order_three_stage_sdirk1`, butcher_tableaux.py L223-245. -/
def embeddedThirdOrderThreeStageSdirk1 : EmbTableau ℚ :=
  let gamma : ℚ := 0.43586652150845899941601945
  let alpha : ℚ := 1 - 4 * gamma + 2 * gamma ^ 2
  let beta : ℚ := -1 + 6 * gamma - 9 * gamma ^ 2 + 3 * gamma ^ 3
  let b2 : ℚ := (-3) * alpha ^ 2 / (4 * beta)
  let c2 : ℚ := (2 - 9 * gamma + 6 * gamma ^ 2) / (3 * alpha)
  let b2_hat : ℚ := (1 / 2 - gamma) / (c2 - gamma)
  ⟨⟨3,
     ![
       ![gamma, 0, 0],
       ![c2 - gamma, gamma, 0],
       ![1 - b2 - gamma, b2, gamma]],
      ![1 - b2 - gamma, b2, gamma],
      ![gamma, c2, 1],
      some 3, "SDIRK 3-stage, 3rd order"⟩,
      ![1 - b2_hat, b2_hat, 0],
      some 2⟩

/-- `embedded_third_order_three_stage_sdirk2`, butcher_tableaux.py L252-266. -/
def embeddedThirdOrderThreeStageSdirk2 : EmbTableau ℚ :=
  ⟨⟨3,
     ![
       ![5 / 6, 0, 0],
       ![(-61) / 108, 5 / 6, 0],
       ![(-23) / 183, (-33) / 61, 5 / 6]],
      ![26 / 61, 324 / 671, 1 / 11],
      ![5 / 6, 29 / 108, 1 / 6],
      some 3, "SDIRK 3-stage, 3rd order"⟩,
      ![25 / 61, 36 / 61, 0],
      some 2⟩

/-- `embedded_third_order_three_stage_esdirk`, butcher_tableaux.py L269-291. -/
def embeddedThirdOrderThreeStageEsdirk : EmbTableau Q3r :=
  let gamma : Q3r := (3 + sqrt3r) / 6
  let c3 : Q3r := 2 * gamma - sqrtNested
  let a32 : Q3r := c3 * (c3 - 2 * gamma) / (4 * gamma)
  let b2 : Q3r := (-2 + 3 * c3) / (12 * (c3 - 2 * gamma) * gamma)
  let b2_hat : Q3r := 1 / (4 * gamma)
  let b3 : Q3r := (1 - 3 * gamma) / (3 * c3 * (c3 - 2 * gamma))
  ⟨⟨3,
     ![
       ![0, 0, 0],
       ![gamma, gamma, 0],
       ![c3 - a32 - gamma, a32, gamma]],
      ![1 - b2 - b3, b2, b3],
      ![0, 2 * gamma, c3],
      some 3, "ESDIRK 3-stage, 3rd order"⟩,
      ![1 - b2_hat, b2_hat, 0],
      some 2⟩

/-- `embedded_third_order_four_stage_sdirk`, butcher_tableaux.py L297-330. -/
def embeddedThirdOrderFourStageSdirk : EmbTableau ℚ :=
  let gamma : ℚ := 9 / 40
  let c2 : ℚ := 7 / 13
  let c3 : ℚ := 11 / 15
  let a32 : ℚ :=
    (-((c2 - c3) * (c3 - gamma) * (-1 + 9 * gamma - 18 * gamma ^ 2
    + 6 * gamma ^ 3))) / ((c2 - gamma) * (-2 + 3 * c2 + 9 * gamma - 12 * c2 * gamma
    - 6 * gamma ^ 2 + 6 * c2 * gamma ^ 2))
  let b2 : ℚ :=
    (-(-2 + 3 * c3 + 9 * gamma - 12 * c3 * gamma - 6 * gamma ^ 2
    + 6 * c3 * gamma ^ 2)) / (6 * (c2 - c3) * (c2 - gamma))
  let b3 : ℚ :=
    (-2 + 3 * c2 + 9 * gamma - 12 * c2 * gamma - 6 * gamma ^ 2
    + 6 * c2 * gamma ^ 2) / (6 * (c2 - c3) * (c3 - gamma))
  let b2_hat : ℚ := (1 / 2 - gamma) / (c2 - gamma)
  ⟨⟨4,
     ![
       ![gamma, 0, 0, 0],
       ![c2 - gamma, gamma, 0, 0],
       ![c3 - a32 - gamma, a32, gamma, 0],
       ![1 - b2 - b3 - gamma, b2, b3, gamma]],
      ![1 - b2 - b3 - gamma, b2, b3, gamma],
      ![gamma, c2, c3, 1],
      some 3, "SDIRK 4-stage, 3rd order"⟩,
      ![1 - b2_hat, b2_hat, 0, 0],
      some 2⟩

/-- `embedded_third_order_second_weak_stage_order_four_stage_dirk`, butcher_tableaux.py L338-374. -/
def embeddedThirdOrderSecondWeakStageOrderFourStageDirk : EmbTableau ℚ :=
  ⟨⟨4,
     ![
       ![0.01900072890, 0, 0, 0],
       ![0.40434605601, 0.38435717512, 0, 0],
       ![0.06487908412, -0.16389640295, 0.51545231222, 0],
       ![0.02343549374, -0.41207877888, 0.96661161281, 0.42203167233]],
      ![0.02343549374, -0.41207877888, 0.96661161281, 0.42203167233],
      ![0.01900072890, 0.78870323114, 0.41643499339, 1],
      some 3, "Embedded 2nd weak stage order 4-stage DIRK, 3rd order"⟩,
      ![0.3750841790169713, 0.6249158209830273, 0, 0],
      some 2⟩

/-- `embedded_third_order_third_weak_stage_order_four_stage_dirk`, butcher_tableaux.py L380-416. -/
def embeddedThirdOrderThirdWeakStageOrderFourStageDirk : EmbTableau ℚ :=
  ⟨⟨4,
     ![
       ![0.13756543551, 0, 0, 0],
       ![0.56695122794, 0.23483888782, 0, 0],
       ![-1.08354072813, 2.96618223864, 0.44915521951, 0],
       ![0.59761291500, -0.43420997584, -0.05305815322, 0.88965521406]],
      ![0.59761291500, -0.43420997584, -0.05305815322, 0.88965521406],
      ![0.13756543551, 0.80179011576, 2.33179673002, 1],
      some 3, "Embedded 3rd weak stage DIRK (4-stage)"⟩,
      ![0.4543494464048109, 0.5456505535951891, 0, 0],
      some 2⟩

/-- `embedded_third_order_four_stage_esdirk`, butcher_tableaux.py L419-467. -/
def embeddedThirdOrderFourStageEsdirk : EmbTableau ℚ :=
  let gamma : ℚ := 0.435866521508458999416019
  let c3 : ℚ := (3 - 20 * gamma + 24 * gamma ^ 2) / (4 - 24 * gamma + 24 * gamma ^ 2)
  let a32 : ℚ := c3 * (c3 - 2 * gamma) / (4 * gamma)
  let b2 : ℚ := (-2 + 3 * c3 + 6 * gamma * (1 - c3)) / (12 * gamma * (c3 - 2 * gamma))
  let b3 : ℚ := (1 - 6 * gamma + 6 * gamma ^ 2) / (3 * c3 * (c3 - 2 * gamma))
  let polynomial : ℚ := 1 - 6 * gamma + 6 * gamma ^ 2
  let linear : ℚ := 2 * gamma - c3
  let b2_hat : ℚ :=
    c3 * (-1 + 6 * gamma - 24 * gamma ^ 3 + 12 * gamma ^ 4
    - 6 * gamma ^ 5) / (4 * gamma * linear * polynomial) + (3 - 27 * gamma + 68 * gamma ^ 2
    - 55 * gamma ^ 3 + 21 * gamma ^ 4 - 6 * gamma ^ 5) / (2 * linear * polynomial)
  let b3_hat : ℚ :=
    (-gamma) * (-2 + 21 * gamma - 68 * gamma ^ 2 + 79 * gamma ^ 3 - 33 * gamma ^ 4
    + 12 * gamma ^ 5) / (c3 * (-linear) * polynomial)
  let b4_hat : ℚ := (-3) * gamma ^ 2 * (-1 + 4 * gamma - 2 * gamma ^ 2 + gamma ^ 3) / polynomial
  ⟨⟨4,
     ![
       ![0, 0, 0, 0],
       ![gamma, gamma, 0, 0],
       ![c3 - a32 - gamma, a32, gamma, 0],
       ![1 - b2 - b3 - gamma, b2, b3, gamma]],
      ![1 - b2 - b3 - gamma, b2, b3, gamma],
      ![0, 2 * gamma, c3, 1],
      some 3, "ESDIRK 4-stage, 3rd order"⟩,
      ![1 - b2_hat - b3_hat - b4_hat, b2_hat, b3_hat, b4_hat],
      some 2⟩

/-- `embedded_third_order_five_stage_esdirk`, butcher_tableaux.py L473-517. -/
def embeddedThirdOrderFiveStageEsdirk : EmbTableau Q2 :=
  ⟨⟨5,
     ![
       ![0, 0, 0, 0, 0],
       ![9 / 40, 9 / 40, 0, 0, 0],
       ![9 * (1 + sqrt2) / 80, 9 * (1 + sqrt2) / 80, 9 / 40, 0, 0],
       ![(22 + 15 * sqrt2) / (80 * (1 + sqrt2)), (22 + 15 * sqrt2) / (80 * (1 + sqrt2)),
       (-7) / (40 * (1 + sqrt2)), 9 / 40, 0],
       ![(2398 + 1205 * sqrt2) / (2835 * (4 + 3 * sqrt2)),
       (2398 + 1205 * sqrt2) / (2835 * (4 + 3 * sqrt2)),
       (-2374) * (1 + 2 * sqrt2) / (2835 * (5 + 3 * sqrt2)), 5827 / 7560, 9 / 40]],
      ![(2398 + 1205 * sqrt2) / (2835 * (4 + 3 * sqrt2)),
      (2398 + 1205 * sqrt2) / (2835 * (4 + 3 * sqrt2)),
      (-2374) * (1 + 2 * sqrt2) / (2835 * (5 + 3 * sqrt2)), 5827 / 7560, 9 / 40],
      ![0, 9 / 20, 9 * (2 + sqrt2) / 40, 3 / 5, 1],
      some 3, "ESDIRK 5-stage, 3rd order"⟩,
      ![4555948517383 / 24713416420891, 4555948517383 / 24713416420891,
      (-7107561914881) / 25547637784726, 30698249 / 44052120, 49563 / 233080],
      some 2⟩

/-- `embedded_fourth_order_four_stage_sdirk`, butcher_tableaux.py L520-535. -/
def embeddedFourthOrderFourStageSdirk : EmbTableau ℚ :=
  ⟨⟨4,
     ![
       ![5 / 6, 0, 0, 0],
       ![(-15) / 26, 5 / 6, 0, 0],
       ![215 / 54, (-130) / 27, 5 / 6, 0],
       ![4007 / 6075, (-31031) / 24300, (-133) / 2700, 5 / 6]],
      ![61 / 150, 2197 / 2100, 19 / 100, (-9) / 14],
      ![5 / 6, 10 / 39, 0, 1 / 6],
      some 4, "SDIRK 4-stage, 4rd order"⟩,
      ![32 / 75, 169 / 300, 1 / 100, 0],
      some 3⟩

/-- `embedded_fourth_order_five_stage_sdirk`, butcher_tableaux.py L538-596. -/
def embeddedFourthOrderFiveStageSdirk : EmbTableau Q2 :=
  ⟨⟨5,
     ![
       ![0.25, 0, 0, 0, 0],
       ![(1 - sqrt2) * 0.25, 0.25, 0, 0, 0],
       ![(-1676 + 145 * sqrt2) / 6724, 3 * (709 + 389 * sqrt2) / 6724, 0.25, 0, 0],
       ![(-371435 - 351111 * sqrt2) / 470596, (98054928 + 73894543 * sqrt2) / 112001848,
       (56061972 + 30241643 * sqrt2) / 112001848, 0.25, 0],
       ![0, 4 * (74 + 273 * sqrt2) / 5253, (19187 + 5031 * sqrt2) / 55284,
       (116092 - 100113 * sqrt2) / 334956, 0.25]],
      ![0, 4 * (74 + 273 * sqrt2) / 5253, (19187 + 5031 * sqrt2) / 55284,
      (116092 - 100113 * sqrt2) / 334956, 0.25],
      ![0.25, (2 - sqrt2) / 4, (13 + 8 * sqrt2) / 41, (41 + 9 * sqrt2) / 49, 1],
      some 4, "SDIRK 5-stage, 4th order"⟩,
      ![0, 0.341280744198674, 0.511600880412258, -0.005036325586745, 0.152154700975811],
      some 3⟩

/-- `embedded_fourth_order_five_stage_esdirk`, butcher_tableaux.py L599-722. -/
def embeddedFourthOrderFiveStageEsdirk : EmbTableau ℚ :=
  let gamma : ℚ := 0.43586652150845899941601945
  let c_2 : ℚ := 2 * gamma * (2 - 9 * gamma + 12 * gamma ^ 2) / (1 - 6 * gamma + 12 * gamma ^ 2)
  let c_3 : ℚ := 1
  let phi_0 : ℚ := 1 - 6 * gamma + 6 * gamma ^ 2
  let phi_1 : ℚ := 3 - 20 * gamma + 24 * gamma ^ 2
  let phi_2 : ℚ := 5 - 36 * gamma + 48 * gamma ^ 2
  let phi_3 : ℚ := -1 + 12 * gamma - 36 * gamma ^ 2 + 24 * gamma ^ 3
  let b_1 : ℚ :=
    (3 - 12 * gamma + 4 * c_3 * (-1 + 3 * gamma) - 2 * c_2 * (2 - 6 * gamma + c_3 * (-3
    + 6 * gamma))) / (24 * gamma * (2 * gamma - c_2) * (2 * gamma - c_3))
  let b_2 : ℚ := (phi_1 - 4 * c_3 * phi_0) / (12 * c_2 * (c_2 - c_3) * (c_2 - 2 * gamma))
  let b_3 : ℚ := (phi_1 - 4 * c_2 * phi_0) / (12 * c_3 * (c_3 - c_2) * (c_3 - 2 * gamma))
  let a32 : ℚ := c_2 * (c_2 - 2 * gamma) / (4 * gamma)
  let a42 : ℚ :=
    c_3 * (c_3 - 2 * gamma) * ((-4) * c_2 ^ 2 * phi_0 - 2 * gamma * phi_1 + c_2 * phi_2
    + 2 * c_3 * phi_3) / (4 * gamma * (2 * gamma - c_2) * (4 * c_2 * phi_0 - phi_1))
  let a43 : ℚ :=
    (c_3 - c_2) * c_3 * (c_3 - 2 * gamma) * phi_3 / (c_2 * (c_2
    - 2 * gamma) * (4 * c_2 * phi_0 - phi_1))
  let phi0_hat : ℚ :=
    2 - 43 * gamma + 336 * gamma ^ 2 - 1194 * gamma ^ 3 + 1966 * gamma ^ 4
    - 1336 * gamma ^ 5 + 168 * gamma ^ 6 + 96 * gamma ^ 7
  let b_hat_3 : ℚ :=
    4 * gamma ^ 2 * (-1 + 9 * gamma - 18 * gamma ^ 2 + 6 * gamma ^ 3 - 2 * gamma ^ 4) / (-1
    + 12 * gamma - 36 * gamma ^ 2 + 24 * gamma ^ 3)
  let b_hat_2 : ℚ :=
    (-gamma) * phi0_hat * (-3 + 4 * c_2 + 20 * gamma - 24 * c_2 * gamma - 24 * gamma ^ 2
    + 24 * c_2 * gamma ^ 2) / (3 * c_3 * (c_3 - c_2) * (c_3 - 2 * gamma) * (-1 + 12 * gamma
    - 36 * gamma ^ 2 + 24 * gamma ^ 3) ^ 2)
  let b_hat_1 : ℚ :=
    (1 - 3 * b_hat_3 - 3 * b_hat_2 * c_3 ^ 2 - 3 * gamma + 6 * b_hat_3 * gamma
    + 6 * b_hat_2 * c_3 * gamma) / (3 * c_2 * (c_2 - 2 * gamma))
  let b_hat_0 : ℚ :=
    (2 - 6 * b_hat_3 - 3 * c_2 + 6 * b_hat_3 * c_2 + 6 * b_hat_2 * c_2 * c_3
    - 6 * b_hat_2 * c_3 ^ 2) / (12 * gamma * (2 * gamma - c_2))
  ⟨⟨5,
     ![
       ![0, 0, 0, 0, 0],
       ![gamma, gamma, 0, 0, 0],
       ![c_2 - a32 - gamma, a32, gamma, 0, 0],
       ![c_3 - a42 - a43 - gamma, a42, a43, gamma, 0],
       ![1 - b_1 - b_2 - b_3 - gamma, b_1, b_2, b_3, gamma]],
      ![1 - b_1 - b_2 - b_3 - gamma, b_1, b_2, b_3, gamma],
      ![0, 2 * gamma, c_2, c_3, 1],
      some 4, "ESDIRK 5-stage, 4th order"⟩,
      ![1 - b_hat_3 - b_hat_2 - b_hat_1 - b_hat_0, b_hat_0, b_hat_1, b_hat_2, b_hat_3],
      some 3⟩

/-- `embedded_fourth_order_six_stage_esdirk`, butcher_tableaux.py L728-783. -/
def embeddedFourthOrderSixStageEsdirk : EmbTableau Q2 :=
  ⟨⟨6,
     ![
       ![0, 0, 0, 0, 0, 0],
       ![0.25, 0.25, 0, 0, 0, 0],
       ![(1 - sqrt2) / 8, (1 - sqrt2) / 8, 0.25, 0, 0, 0],
       ![(5 - 7 * sqrt2) / 64, (5 - 7 * sqrt2) / 64, 7 * (1 + sqrt2) / 32, 0.25, 0, 0],
       ![(-13796 - 54539 * sqrt2) / 125000, (-13796 - 54539 * sqrt2) / 125000,
       (506605 + 132109 * sqrt2) / 437500, 166 * (-97 + 376 * sqrt2) / 109375, 0.25, 0],
       ![(1181 - 987 * sqrt2) / 13782, (1181 - 987 * sqrt2) / 13782,
       47 * (-267 + 1783 * sqrt2) / 273343, (-16) * (-22922 + 3525 * sqrt2) / 571953,
       (-15625) * (97 + 376 * sqrt2) / 90749876, 0.25]],
      ![(1181 - 987 * sqrt2) / 13782, (1181 - 987 * sqrt2) / 13782,
      47 * (-267 + 1783 * sqrt2) / 273343, (-16) * (-22922 + 3525 * sqrt2) / 571953,
      (-15625) * (97 + 376 * sqrt2) / 90749876, 0.25],
      ![0, 0.5, (2 - sqrt2) / 4, 5 / 8, 26 / 25, 1],
      some 4, "Adaptive Runge-Kutta method"⟩,
      ![0.077091360363, 0.305407835281, 0.190349064475, 0.292496855486, 0.048867204752,
      0.085787679643],
      some 3⟩

/-- `embedded_fourth_order_third_weak_stage_order_six_stage_dirk`, butcher_tableaux.py L788-874. -/
def embeddedFourthOrderThirdWeakStageOrderSixStageDirk : EmbTableau ℚ :=
  ⟨⟨6,
     ![
       ![0.079672377876931, 0, 0, 0, 0, 0],
       ![0.328355391763968, 0.136009256546967, 0, 0, 0, 0],
       ![-0.650772774016417, 1.742859063495349, 0.256472952467792, 0, 0, 0],
       ![-0.714580550967259, 1.793745752775934, -0.078254785672497, 0.311753794172585, 0, 0],
       ![-1.120092779092918, 1.983452339867353, 3.117393885836001, -3.761930177913743,
       0.770646024799205, 0],
       ![0.214823667785537, 0.536367363903245, 0.154488125726409, -0.217748592703941,
       0.072226422925896, 0.239843012362853]],
      ![0.214823667785537, 0.536367363903245, 0.154488125726409, -0.217748592703941,
      0.072226422925896, 0.239843012362853],
      ![0.079672377876931, 0.464364648310935, 1.348559241946724, 1.312664210308764,
      0.989469293495897, 1],
      some 4, "3rd weak stage 6-stage DIRK, 4th order"⟩,
      ![0.259708343532495, 0.429989048079402, -0.052124203635890, -0.037657590408588,
      0.068689511652968, 0.331394890779613],
      some 3⟩

/-- `embedded_runge_kutta_fehlberg`, butcher_tableaux.py L878-899. -/
def embeddedRungeKuttaFehlberg : EmbTableau ℚ :=
  ⟨⟨6,
     ![
       ![0, 0, 0, 0, 0, 0],
       ![1 / 4, 0, 0, 0, 0, 0],
       ![3 / 32, 9 / 32, 0, 0, 0, 0],
       ![1932 / 2197, (-7200) / 2197, 7296 / 2197, 0, 0, 0],
       ![439 / 216, -8, 3680 / 513, (-845) / 4104, 0, 0],
       ![(-8) / 27, 2, (-3544) / 2565, 1859 / 4104, (-11) / 40, 0]],
      ![16 / 135, 0, 6656 / 12825, 28561 / 56430, (-9) / 50, 2 / 55],
      ![0, 1 / 4, 3 / 8, 12 / 13, 1, 1 / 2],
      some 5, "The Runge–Kutta–Fehlberg method"⟩,
      ![25 / 216, 0, 1408 / 2565, 2197 / 4104, (-1) / 5, 0],
      some 4⟩

/-- `embedded_fifth_order_six_stage_esdirk`, butcher_tableaux.py L902-981. -/
def embeddedFifthOrderSixStageEsdirk : EmbTableau ℚ :=
  ⟨⟨6,
     ![
       ![0, 0, 0, 0, 0, 0],
       ![3282482714977 / 11805205429139, 3282482714977 / 11805205429139, 0, 0, 0, 0],
       ![606638434273 / 1934588254988, 2719561380667 / 6223645057524,
       3282482714977 / 11805205429139, 0, 0, 0],
       ![(-651839358321) / 6893317340882, (-1510159624805) / 11312503783159,
       235043282255 / 4700683032009, 3282482714977 / 11805205429139, 0, 0],
       ![(-5266892529762) / 23715740857879, (-1007523679375) / 10375683364751,
       521543607658 / 16698046240053, 514935039541 / 7366641897523,
       3282482714977 / 11805205429139, 0],
       ![(-6225479754948) / 6925873918471, 6894665360202 / 11185215031699,
       (-2508324082331) / 20512393166649, (-7289596211309) / 4653106810017,
       39811658682819 / 14781729060964, 3282482714977 / 11805205429139]],
      ![(-6225479754948) / 6925873918471, 6894665360202 / 11185215031699,
      (-2508324082331) / 20512393166649, (-7289596211309) / 4653106810017,
      39811658682819 / 14781729060964, 3282482714977 / 11805205429139],
      ![0, 4024571134387 / 7237035672548, 14228244952610 / 13832614967709, 0.1, 3 / 50, 1],
      some 5, "ESDIRK 6-stage, 5th order"⟩,
      ![-0.085013280765, 0.526534869197, -0.283373493019, 0.215634909381, 0.158630047529,
      0.467586947677],
      some 4⟩

/-- A shipped plain tableau over `ℝ` with the stated accuracy of its coefficients. -/
structure PlainEntry where
  tab : Tableau ℝ
  tol : ℝ

/-- A shipped embedded tableau over `ℝ` with the stated accuracies of main and embedded part. -/
structure EmbEntry where
  tab : EmbTableau ℝ
  tol : ℝ
  tolHat : ℝ

/-- The plain tableaux exported by butcher_tableaux.py (`__all__`, L24-49). Accuracy `0` means
that the coefficients are given in closed form. -/
noncomputable def plainShipped : List PlainEntry := [
  ⟨explicitEuler.map (Rat.castHom ℝ), 0⟩,
  ⟨implicitEuler.map (Rat.castHom ℝ), 0⟩,
  ⟨implicitMidpoint.map (Rat.castHom ℝ), 0⟩,
  ⟨thirdOrderTwoStageSdirk.map embQ3, 0⟩,
  ⟨rungeKuttaFour.map (Rat.castHom ℝ), 0⟩,
  ⟨fifthOrderFiveStageSdirk.map (Rat.castHom ℝ), 1 / 10 ^ 25⟩]

/-- The embedded tableaux exported by butcher_tableaux.py (`__all__`, L24-49). -/
noncomputable def embShipped : List EmbEntry := [
  ⟨embeddedHeunEuler.map (Rat.castHom ℝ),
    0, 0⟩,
  ⟨embeddedSecondOrderTwoStageSdirk.map embQ2,
    0, 0⟩,
  ⟨embeddedSecondOrderThreeStageEsdirk.map embQ2,
    0, 0⟩,
  ⟨embeddedThirdOrderThreeStageSdirk1.map (Rat.castHom ℝ),
    1 / 10 ^ 27, 0⟩,
  ⟨embeddedThirdOrderThreeStageSdirk2.map (Rat.castHom ℝ),
    0, 0⟩,
  ⟨embeddedThirdOrderThreeStageEsdirk.map embQ3r,
    0, 0⟩,
  ⟨embeddedThirdOrderFourStageSdirk.map (Rat.castHom ℝ),
    0, 0⟩,
  ⟨embeddedThirdOrderSecondWeakStageOrderFourStageDirk.map (Rat.castHom ℝ),
    2 / 10 ^ 11, 1 / 10 ^ 11⟩,
  ⟨embeddedThirdOrderThirdWeakStageOrderFourStageDirk.map (Rat.castHom ℝ),
    2 / 10 ^ 11, 1 / 10 ^ 16⟩,
  ⟨embeddedThirdOrderFourStageEsdirk.map (Rat.castHom ℝ),
    0, 0⟩,
  ⟨embeddedThirdOrderFiveStageEsdirk.map embQ2,
    0, 1 / 10 ^ 25⟩,
  ⟨embeddedFourthOrderFourStageSdirk.map (Rat.castHom ℝ),
    0, 0⟩,
  ⟨embeddedFourthOrderFiveStageSdirk.map embQ2,
    0, 1 / 10 ^ 14⟩,
  ⟨embeddedFourthOrderFiveStageEsdirk.map (Rat.castHom ℝ),
    0, 0⟩,
  ⟨embeddedFourthOrderSixStageEsdirk.map embQ2,
    0, 1 / 10 ^ 12⟩,
  ⟨embeddedFourthOrderThirdWeakStageOrderSixStageDirk.map (Rat.castHom ℝ),
    1 / 10 ^ 14, 1 / 10 ^ 14⟩,
  ⟨embeddedRungeKuttaFehlberg.map (Rat.castHom ℝ),
    0, 0⟩,
  ⟨embeddedFifthOrderSixStageEsdirk.map (Rat.castHom ℝ),
    1 / 10 ^ 25, 1 / 10 ^ 12⟩]

end Verif.Tableau
