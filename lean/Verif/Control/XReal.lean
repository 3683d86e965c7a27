/-
Extended reals with NumPy/Python semantics of the special values.

Used for the error controller (/repo/src/rkopenmdao/error_controller.py), whose numbers are
Python floats and `np.float64` scalars. Finite values are exact reals (no rounding, overflow or
underflow); there is only one zero (no signed zero).
-/
import Mathlib.Analysis.SpecialFunctions.Pow.Real
import Mathlib.Tactic.Linarith
import Mathlib.Tactic.NormNum

namespace Verif

/-- A floating point number without rounding. -/
inductive XReal where
  | nan
  | ninf
  | fin (r : ℝ)
  | pinf

namespace XReal

open Classical

instance : Coe ℝ XReal := ⟨fin⟩
instance : Zero XReal := ⟨fin 0⟩
instance : One XReal := ⟨fin 1⟩
instance : Inhabited XReal := ⟨nan⟩

theorem zero_def : (0 : XReal) = fin 0 := rfl
theorem one_def : (1 : XReal) = fin 1 := rfl

/-- Comparison `x < y`: false if one side is NaN. -/
def lt : XReal → XReal → Prop
  | nan, _ => False
  | _, nan => False
  | ninf, ninf => False
  | ninf, _ => True
  | fin a, fin b => a < b
  | fin _, pinf => True
  | fin _, ninf => False
  | pinf, _ => False

/-- Comparison `x <= y`: false if one side is NaN. -/
def le : XReal → XReal → Prop
  | nan, _ => False
  | _, nan => False
  | ninf, _ => True
  | fin a, fin b => a ≤ b
  | fin _, pinf => True
  | fin _, ninf => False
  | pinf, pinf => True
  | pinf, _ => False

/-- Python's `min(x, y)`: the first argument unless the second one is smaller. -/
noncomputable def pyMin (x y : XReal) : XReal := if lt y x then y else x

/-- Python's `max(x, y)`: the first argument unless the second one is larger. -/
noncomputable def pyMax (x y : XReal) : XReal := if lt x y then y else x

/-- Negation. -/
noncomputable def neg : XReal → XReal
  | nan => nan
  | ninf => pinf
  | fin a => fin (-a)
  | pinf => ninf

/-- Addition; `inf - inf` is NaN. -/
noncomputable def add : XReal → XReal → XReal
  | nan, _ => nan
  | _, nan => nan
  | fin a, fin b => fin (a + b)
  | pinf, ninf => nan
  | ninf, pinf => nan
  | pinf, _ => pinf
  | _, pinf => pinf
  | ninf, _ => ninf
  | _, ninf => ninf

/-- Subtraction. -/
noncomputable def sub (x y : XReal) : XReal := add x (neg y)

/-- An infinity with the sign of `r`, NaN for `r = 0`. -/
noncomputable def infSign (r : ℝ) : XReal :=
  if 0 < r then pinf else if r < 0 then ninf else nan

/-- Multiplication; `inf * 0` is NaN. -/
noncomputable def mul : XReal → XReal → XReal
  | nan, _ => nan
  | _, nan => nan
  | fin a, fin b => fin (a * b)
  | fin a, pinf => infSign a
  | pinf, fin b => infSign b
  | fin a, ninf => infSign (-a)
  | ninf, fin b => infSign (-b)
  | pinf, pinf => pinf
  | ninf, ninf => pinf
  | pinf, ninf => ninf
  | ninf, pinf => ninf

/-- NumPy division: `x / 0` is an infinity, `0 / 0` and `inf / inf` are NaN. -/
noncomputable def div : XReal → XReal → XReal
  | nan, _ => nan
  | _, nan => nan
  | fin a, fin b => if b = 0 then infSign a else fin (a / b)
  | fin _, _ => fin 0
  | pinf, fin b => if b < 0 then ninf else pinf
  | ninf, fin b => if b < 0 then pinf else ninf
  | _, _ => nan

/-- Absolute value. -/
noncomputable def abs : XReal → XReal
  | nan => nan
  | ninf => pinf
  | fin a => fin |a|
  | pinf => pinf

/-- `np.float64` power with a finite exponent: `x ** 0 = 1` even for NaN, `0 ** y` is `0` or
infinite, negative bases need an integer exponent, infinities go to `0` or an infinity. -/
noncomputable def pow (x : XReal) (y : ℝ) : XReal :=
  if y = 0 then fin 1
  else match x with
    | nan => nan
    | pinf => if 0 < y then pinf else fin 0
    | ninf =>
      if 0 < y then (if ∃ k : ℤ, y = k ∧ Odd k then ninf else pinf) else fin 0
    | fin a =>
      if 0 < a then fin (a ^ y)
      else if a = 0 then (if 0 < y then fin 0 else pinf)
      else if ∃ k : ℤ, y = k then fin (a ^ y) else nan

/-! ### Comparison lemmas -/

@[simp] theorem lt_fin (a b : ℝ) : lt (fin a) (fin b) ↔ a < b := Iff.rfl
@[simp] theorem le_fin (a b : ℝ) : le (fin a) (fin b) ↔ a ≤ b := Iff.rfl
@[simp] theorem lt_fin_pinf (a : ℝ) : lt (fin a) pinf ↔ True := Iff.rfl
@[simp] theorem le_fin_pinf (a : ℝ) : le (fin a) pinf ↔ True := Iff.rfl
@[simp] theorem not_lt_nan (x : XReal) : ¬ lt x nan := by cases x <;> exact id
@[simp] theorem not_nan_lt (x : XReal) : ¬ lt nan x := by cases x <;> exact id
@[simp] theorem not_le_nan (x : XReal) : ¬ le x nan := by cases x <;> exact id
@[simp] theorem not_nan_le (x : XReal) : ¬ le nan x := by cases x <;> exact id
@[simp] theorem not_pinf_lt (x : XReal) : ¬ lt pinf x := by cases x <;> exact id
@[simp] theorem not_lt_ninf (x : XReal) : ¬ lt x ninf := by cases x <;> exact id

theorem le_refl {x : XReal} (h : x ≠ nan) : le x x := by
  cases x <;> simp_all [le]

theorem le_of_lt {x y : XReal} (h : lt x y) : le x y := by
  cases x <;> cases y <;> simp_all [le, lt]
  exact _root_.le_of_lt h

theorem le_trans {x y z : XReal} (h : le x y) (h' : le y z) : le x z := by
  cases x <;> cases y <;> cases z <;> simp_all [le]
  exact _root_.le_trans h h'

theorem lt_of_le_of_lt {x y z : XReal} (h : le x y) (h' : lt y z) : lt x z := by
  cases x <;> cases y <;> cases z <;> simp_all [le, lt]
  exact _root_.lt_of_le_of_lt h h'

theorem lt_of_lt_of_le {x y z : XReal} (h : lt x y) (h' : le y z) : lt x z := by
  cases x <;> cases y <;> cases z <;> simp_all [le, lt]
  exact _root_.lt_of_lt_of_le h h'

theorem not_lt_of_le {x y : XReal} (h : le x y) : ¬ lt y x := by
  cases x <;> cases y <;> simp_all [le, lt]

theorem lt_irrefl (x : XReal) : ¬ lt x x := by cases x <;> simp [lt]

theorem lt_asymm {x y : XReal} (h : lt x y) : ¬ lt y x := not_lt_of_le (le_of_lt h)

/-- On numbers that are not NaN the comparison is total. -/
theorem le_of_not_lt {x y : XReal} (hx : x ≠ nan) (hy : y ≠ nan) (h : ¬ lt y x) : le x y := by
  cases x <;> cases y <;> simp_all [le, lt]

theorem ne_nan_of_lt_left {x y : XReal} (h : lt x y) : x ≠ nan := by
  rintro rfl; exact not_nan_lt _ h

theorem ne_nan_of_lt_right {x y : XReal} (h : lt x y) : y ≠ nan := by
  rintro rfl; exact not_lt_nan _ h

theorem ne_nan_of_le_left {x y : XReal} (h : le x y) : x ≠ nan := by
  rintro rfl; exact not_nan_le _ h

theorem ne_nan_of_le_right {x y : XReal} (h : le x y) : y ≠ nan := by
  rintro rfl; exact not_le_nan _ h

/-! ### `min` and `max` -/

theorem pyMin_le_left {x y : XReal} (hx : x ≠ nan) : le (pyMin x y) x := by
  unfold pyMin
  split
  · exact le_of_lt ‹_›
  · exact le_refl hx

theorem pyMin_le_right {x y : XReal} (hx : x ≠ nan) (hy : y ≠ nan) : le (pyMin x y) y := by
  unfold pyMin
  split
  · exact le_refl hy
  · exact le_of_not_lt hx hy ‹_›

theorem left_le_pyMax {x y : XReal} (hx : x ≠ nan) : le x (pyMax x y) := by
  unfold pyMax
  split
  · exact le_of_lt ‹_›
  · exact le_refl hx

theorem pyMin_ne_nan {x y : XReal} (hx : x ≠ nan) : pyMin x y ≠ nan :=
  ne_nan_of_le_left (pyMin_le_left hx)

theorem pyMax_ne_nan {x y : XReal} (hx : x ≠ nan) : pyMax x y ≠ nan :=
  ne_nan_of_le_right (left_le_pyMax hx)

theorem pyMin_eq_or (x y : XReal) : pyMin x y = x ∨ pyMin x y = y := by
  unfold pyMin; split <;> simp

theorem pyMax_eq_or (x y : XReal) : pyMax x y = x ∨ pyMax x y = y := by
  unfold pyMax; split <;> simp

theorem pyMax_le {x y z : XReal} (hx : le x z) (hy : le y z) : le (pyMax x y) z := by
  rcases pyMax_eq_or x y with h | h <;> rw [h] <;> assumption

theorem le_pyMin {x y z : XReal} (hx : le z x) (hy : le z y) : le z (pyMin x y) := by
  rcases pyMin_eq_or x y with h | h <;> rw [h] <;> assumption

theorem pyMin_fin (a b : ℝ) : pyMin (fin a) (fin b) = fin (min a b) := by
  unfold pyMin
  simp only [lt_fin]
  split
  · rw [min_eq_right (_root_.le_of_lt ‹_›)]
  · rw [min_eq_left (not_lt.mp ‹_›)]

theorem pyMax_fin (a b : ℝ) : pyMax (fin a) (fin b) = fin (max a b) := by
  unfold pyMax
  simp only [lt_fin]
  split
  · rw [max_eq_right (_root_.le_of_lt ‹_›)]
  · rw [max_eq_left (not_lt.mp ‹_›)]

theorem pyMin_pinf_left (x : XReal) (hx : x ≠ nan) : pyMin pinf x = x := by
  unfold pyMin
  cases x <;> simp_all [lt]

theorem pyMin_nan_right (x : XReal) : pyMin x nan = x := by simp [pyMin]

theorem pyMin_pinf_right (x : XReal) : pyMin x pinf = x := by simp [pyMin]

/-! ### Arithmetic on finite values -/

@[simp] theorem add_fin (a b : ℝ) : add (fin a) (fin b) = fin (a + b) := rfl
@[simp] theorem sub_fin (a b : ℝ) : sub (fin a) (fin b) = fin (a - b) := by
  simp [sub, neg, sub_eq_add_neg]
@[simp] theorem mul_fin (a b : ℝ) : mul (fin a) (fin b) = fin (a * b) := rfl
@[simp] theorem abs_fin (a : ℝ) : abs (fin a) = fin |a| := rfl
theorem div_fin (a : ℝ) {b : ℝ} (hb : b ≠ 0) : div (fin a) (fin b) = fin (a / b) := by
  simp [div, hb]
theorem pow_zero (x : XReal) : pow x 0 = fin 1 := by simp [pow]
theorem pow_fin {a : ℝ} (ha : 0 < a) (y : ℝ) : pow (fin a) y = fin (a ^ y) := by
  unfold pow
  split
  · simp_all
  · simp [ha]
theorem pow_nan {y : ℝ} (hy : y ≠ 0) : pow nan y = nan := by simp [pow, hy]
@[simp] theorem mul_nan (x : XReal) : mul x nan = nan := by cases x <;> rfl
@[simp] theorem nan_mul (x : XReal) : mul nan x = nan := by cases x <;> rfl
@[simp] theorem add_pinf_fin (a : ℝ) : add pinf (fin a) = pinf := rfl

theorem fin_inj {a b : ℝ} : (fin a = fin b) ↔ a = b := ⟨fun h => by injection h, fun h => h ▸ rfl⟩

end XReal

end Verif
