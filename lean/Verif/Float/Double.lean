/-
IEEE 754 binary64 with its range of exponents.

Source: /repo/src/rkopenmdao/time_discretization/stage_ordered_runge_kutta_discretization.py L65-67
        /repo/src/rkopenmdao/termination_criterion.py L93-105
        /repo/src/rkopenmdao/error_controller.py L143-252, L347-416

`Verif.Float.Round` has numbers with unbounded exponents. Here the last bit is not below `2^-1074`, so
that small results are rounded to multiples of it (gradual underflow), and nothing is said about
results from `2^1023` on, where infinities can occur.
-/
import Verif.Float.Control

namespace Verif.Fl

open Verif.RK Verif.Control Verif.XReal Verif.Integrator
open Classical

/-- Binary64 numbers, except for the upper bound of the exponent. -/
def IsDouble (x : ℝ) : Prop := ∃ m e : ℤ, |m| < 2 ^ 53 ∧ -1074 ≤ e ∧ x = m * 2 ^ e

/-- Rounding to the nearest of them, ties to even. -/
noncomputable def rnd64 (x : ℝ) : ℝ :=
  rne (x / 2 ^ max (expo x) (-1074)) * 2 ^ max (expo x) (-1074)

theorem IsDouble.isFloat {x : ℝ} (h : IsDouble x) : IsFloat x := by
  obtain ⟨m, e, h1, -, h2⟩ := h
  exact ⟨m, e, h1, h2⟩

theorem IsDouble.neg {x : ℝ} (h : IsDouble x) : IsDouble (-x) := by
  obtain ⟨m, e, h1, h2, rfl⟩ := h
  exact ⟨-m, e, by rwa [abs_neg], h2, by push_cast; ring⟩

theorem isDouble_zero : IsDouble 0 := ⟨0, 0, by norm_num, by norm_num, by simp⟩

theorem isDouble_zpow {e : ℤ} (h : -1074 ≤ e) : IsDouble (2 ^ e) := ⟨1, e, by norm_num, h, by simp⟩

theorem isDouble_rnd64 (x : ℝ) : IsDouble (rnd64 x) := by
  rcases eq_or_ne x 0 with rfl | hx
  · simp only [rnd64, zero_div]
    rw [show rne (0 : ℝ) = 0 by simpa using rne_int 0]
    simpa using isDouble_zero
  obtain ⟨-, g2⟩ := expo_spec hx
  unfold rnd64
  set e := max (expo x) (-1074) with he
  have hge : -1074 ≤ e := le_max_right _ _
  have hle : (2 : ℝ) ^ expo x ≤ 2 ^ e := zpow_le_zpow_right₀ (by norm_num) (le_max_left _ _)
  have h1 : |x / 2 ^ e| < 2 ^ (53 : ℤ) := by
    rw [abs_div, abs_of_pos (two_zpow_pos e), div_lt_iff₀ (two_zpow_pos e)]
    exact g2.trans_le (mul_le_mul_of_nonneg_left hle (two_zpow_pos 53).le)
  obtain ⟨h2, h3⟩ := abs_lt.mp h1
  have hc : ((2 ^ 53 : ℤ) : ℝ) = 2 ^ (53 : ℤ) := by norm_num
  have u1 : rne (x / 2 ^ e) ≤ 2 ^ 53 := by
    rw [← rne_int (2 ^ 53), hc]
    exact rne_mono h3.le
  have u2 : -2 ^ 53 ≤ rne (x / 2 ^ e) := by
    rw [← rne_int (-2 ^ 53), Int.cast_neg, hc]
    exact rne_mono h2.le
  rcases (abs_le.mpr ⟨u2, u1⟩).lt_or_eq with hlt | heq
  · exact ⟨_, e, hlt, hge, rfl⟩
  · rcases (abs_eq (by norm_num)).mp heq with h | h
    · rw [h]
      refine ⟨2 ^ 52, e + 1, by norm_num, by omega, ?_⟩
      rw [split_zpow]
      push_cast
      ring
    · rw [h]
      refine ⟨-2 ^ 52, e + 1, by norm_num, by omega, ?_⟩
      rw [split_zpow]
      push_cast
      ring

/-- Numbers that are not small are rounded as with unbounded exponents. -/
theorem rnd64_normal {x : ℝ} (h : (2 : ℝ) ^ (-1022 : ℤ) ≤ |x|) : rnd64 x = rnd x := by
  have hx : x ≠ 0 := by
    rintro rfl
    rw [abs_zero] at h
    exact absurd (two_zpow_pos (-1022)) (not_lt.mpr h)
  obtain ⟨-, g2⟩ := expo_spec hx
  have := h.trans_lt g2
  rw [← split_zpow] at this
  have := (zpow_lt_zpow_iff_right₀ (by norm_num : (1 : ℝ) < 2)).mp this
  unfold rnd64 rnd
  rw [max_eq_left (by omega)]

/-- The multiples of `2^-1074` are rounded as with unbounded exponents. -/
theorem rnd64_multiple (k : ℤ) : rnd64 (k * 2 ^ (-1074 : ℤ)) = rnd (k * 2 ^ (-1074 : ℤ)) := by
  set x : ℝ := k * 2 ^ (-1074 : ℤ) with hx
  by_cases h : -1074 ≤ expo x
  · unfold rnd64 rnd
    rw [max_eq_left h]
  · have h' : expo x ≤ -1074 := by omega
    have h1 : rnd64 x = x := by
      unfold rnd64
      rw [max_eq_right h', hx, mul_div_cancel_right₀ _ (two_zpow_pos _).ne', rne_int]
    rw [h1]
    rcases eq_or_ne x 0 with h0 | h0
    · rw [h0, rnd_zero]
    obtain ⟨-, g2⟩ := expo_spec h0
    have g3 : |x| < 2 ^ (53 : ℤ) * 2 ^ (-1074 : ℤ) :=
      g2.trans_le (mul_le_mul_of_nonneg_left (zpow_le_zpow_right₀ (by norm_num) h')
        (two_zpow_pos 53).le)
    rw [hx, abs_mul, abs_of_pos (two_zpow_pos (-1074))] at g3
    have g4 := lt_of_mul_lt_mul_right g3 (two_zpow_pos (-1074)).le
    refine (IsFloat.rnd_eq ⟨k, -1074, ?_, hx⟩).symm
    exact_mod_cast g4

theorem IsDouble.multiple {x : ℝ} (h : IsDouble x) : ∃ k : ℤ, x = k * 2 ^ (-1074 : ℤ) := by
  obtain ⟨m, e, -, h2, rfl⟩ := h
  obtain ⟨j, hj⟩ := Int.eq_ofNat_of_zero_le (show 0 ≤ e + 1074 by omega)
  refine ⟨m * 2 ^ j, ?_⟩
  rw [show e = j + (-1074) by omega, split_zpow, zpow_natCast]
  push_cast
  ring

/-- Sums of binary64 numbers are rounded as with unbounded exponents: what is below the smallest normal
number is exact. -/
theorem rnd64_add {a b : ℝ} (ha : IsDouble a) (hb : IsDouble b) : rnd64 (a + b) = rnd (a + b) := by
  obtain ⟨j, rfl⟩ := ha.multiple
  obtain ⟨k, rfl⟩ := hb.multiple
  have := rnd64_multiple (j + k)
  push_cast at this
  rwa [add_mul] at this

theorem rnd64_sub {a b : ℝ} (ha : IsDouble a) (hb : IsDouble b) : rnd64 (a - b) = rnd (a - b) := by
  rw [sub_eq_add_neg]
  exact rnd64_add ha hb.neg

theorem isDouble_rnd_add {a b : ℝ} (ha : IsDouble a) (hb : IsDouble b) : IsDouble (rnd (a + b)) := by
  rw [← rnd64_add ha hb]
  exact isDouble_rnd64 _

theorem isDouble_rnd_sub {a b : ℝ} (ha : IsDouble a) (hb : IsDouble b) : IsDouble (rnd (a - b)) := by
  rw [← rnd64_sub ha hb]
  exact isDouble_rnd64 _

theorem IsDouble.rnd64_eq {x : ℝ} (h : IsDouble x) : rnd64 x = x := by
  have := rnd64_add h isDouble_zero
  rwa [add_zero, h.isFloat.rnd_eq] at this

/-- A function that rounds to binary64 where the result is not large; elsewhere it is arbitrary. -/
def Is64 (f : ℝ → ℝ) : Prop := ∀ x, |x| < 2 ^ (1023 : ℤ) → f x = rnd64 x

variable {D I O : Type} {T : ℝ} {B : Backend D I O} {tm : D → ℝ} {t0 : I → ℝ} {out : O → ℝ}

/-- A discretization whose times are binary64 numbers: as `Timed`, but only where the operands are
binary64 numbers and the results are not large. -/
structure Timed64 (T : ℝ) (B : Backend D I O) (tm : D → ℝ) (t0 : I → ℝ) (out : O → ℝ) : Prop where
  time : ∀ d, IsDouble (tm d) → |T - tm d| < 2 ^ (1023 : ℤ) → B.time d = fin (T - rnd64 (T - tm d))
  set : ∀ d e, tm (B.set d e) = tm e
  step : ∀ d h e, IsDouble (tm d) → IsDouble h → |tm d + h| < 2 ^ (1023 : ℤ) →
    B.step d (fin h) = .ok e → tm e = rnd64 (tm d + h)
  load : ∀ d i, tm (B.clearLin (B.load d i)) = t0 i
  read : ∀ d, out (B.read d) = tm d

theorem Timed.binary64 {f : ℝ → ℝ} (h : Timed f T B tm t0 out) (hf : Is64 f) :
    Timed64 T B tm t0 out where
  time := fun d _ hs => by rw [h.time, hf _ hs]
  set := h.set
  step := fun d z e _ _ hs he => by rw [h.step d z e he, hf _ hs]
  load := h.load
  read := h.read

/-- The same discretization with unbounded exponents: it fails where the other one could overflow or
gets numbers that are not binary64. -/
noncomputable def unbounded (T : ℝ) (B : Backend D I O) (tm : D → ℝ) : Backend D I O :=
  { B with
    time := fun d => fin (T - rnd (T - tm d))
    step := fun d h => match h with
      | fin h => if IsDouble (tm d) ∧ IsDouble h ∧ |tm d + h| < 2 ^ (1023 : ℤ) then B.step d (fin h)
          else .error .backend
      | h => B.step d h }

theorem unbounded_timed (H : Timed64 T B tm t0 out) : Timed rnd T (unbounded T B tm) tm t0 out where
  time := fun _ => rfl
  set := H.set
  step := fun d h e he => by
    simp only [unbounded] at he
    split at he
    · rename_i hc
      rw [H.step d h e hc.1 hc.2.1 hc.2.2 he, rnd64_add hc.1 hc.2.1]
    · cases he
  load := H.load
  read := H.read

/-- A number that is binary64 if it is finite. -/
def DX (x : XReal) : Prop := ∀ z, x = fin z → IsDouble z

theorem DX.pyMin {x y : XReal} (hx : DX x) (hy : DX y) : DX (pyMin x y) := by
  unfold XReal.pyMin
  split
  · exact hy
  · exact hx

theorem DX.pyMax {x y : XReal} (hx : DX x) (hy : DX y) : DX (pyMax x y) := by
  unfold XReal.pyMax
  split
  · exact hy
  · exact hx

/-- The estimates of the shipped controllers with rounded operations are binary64. -/
theorem estimateFl_DX {f : ℝ → ℝ} (hf : ∀ x, IsDouble (f x)) (pw : XReal → ℝ → XReal) (par : Params)
    (cfg : Config) (i : Input) : DX (estimateFl f pw par cfg i) := by
  have key : ∀ x, DX (rdX f x) := by
    intro x z hz
    cases x <;> simp only [rdX, fin.injEq, reduceCtorEq] at hz
    rw [← hz]
    exact hf _
  unfold estimateFl
  dsimp only
  split
  · split
    · exact key _
    · exact key _
  · exact key _

/-! ### Calls of controllers -/

variable {rd : ℝ → ℝ} {est : Params → Config → Input → XReal}

theorem tiny64 : rnd64 (1 / 10 ^ 10) = rnd (1 / 10 ^ 10) := by
  apply rnd64_normal
  rw [abs_of_pos (by norm_num)]
  calc (2 : ℝ) ^ (-1022 : ℤ) ≤ 2 ^ (-34 : ℤ) := zpow_le_zpow_right₀ (by norm_num) (by norm_num)
    _ ≤ 1 / 10 ^ 10 := by norm_num

theorem small_lt : |(1 / 10 ^ 10 : ℝ)| < 2 ^ (1023 : ℤ) := by
  rw [abs_of_pos (by norm_num)]
  calc (1 / 10 ^ 10 : ℝ) < 2 ^ (0 : ℤ) := by norm_num
    _ ≤ 2 ^ (1023 : ℤ) := zpow_le_zpow_right₀ (by norm_num) (by norm_num)

/-- A controller computes the same with both roundings. -/
theorem runFl_64 (hrd : Is64 rd) (par : Params) (cfg : Config) {i : Input} {h r lo : ℝ}
    (hdt : i.dt = fin h) (hr : i.rem = fin r) (hl : cfg.lower = fin lo) (dh : IsDouble h)
    (dr : IsDouble r) (dl : IsDouble lo) (b1 : |h - lo| < 2 ^ (1023 : ℤ))
    (b2 : |h - r| < 2 ^ (1023 : ℤ)) (b3 : |r + h| < 2 ^ (1023 : ℤ)) (b4 : |r| < 2 ^ (1023 : ℤ)) :
    runFl ⟨rd, est⟩ par cfg i = runFl ⟨rnd, est⟩ par cfg i := by
  have hacc : acceptsFl ⟨rd, est⟩ cfg i = acceptsFl ⟨rnd, est⟩ cfg i := by
    simp only [acceptsFl, hdt, hr, hl, sub_fin, rdX, hrd _ b1, hrd _ b2, hrd _ small_lt, tiny64,
      rnd64_sub dh dl, rnd64_sub dh dr]
  unfold runFl
  rw [hacc]
  dsimp only
  congr 2
  rw [hdt, hr]
  split
  · simp only [mul_fin, zero_mul, add_fin, add_zero, rdX, hrd _ b4]
    rw [dr.rnd64_eq, dr.isFloat.rnd_eq]
  · simp only [mul_fin, one_mul, add_fin, rdX, hrd _ b3, rnd64_add dr dh]

theorem callFl_64 {A A' : Arith} (top : Bool) (c : Ctrl) (i : Input)
    (h : ∀ par, runFl A par c.config i = runFl A' par c.config i) :
    callFl A top c i = callFl A' top c i := by
  induction c generalizing top with
  | base par cfg => simp only [callFl, h par, Ctrl.config] at *
  | deco par w ni k ih =>
    have h' : ∀ par, runFl A par w.config i = runFl A' par w.config i := h
    simp only [callFl, runDecoFl, h', ih _ h']

/-- What a controller suggests is binary64. -/
theorem callFl_DX {top : Bool} {c : Ctrl} {i : Input} {st : Status} {h r : ℝ}
    (hest : ∀ par cfg i, DX (est par cfg i)) (hl : DX c.config.lower) (hu : DX c.config.upper)
    (hdt : i.dt = fin h) (hr : i.rem = fin r) (dh : IsDouble h) (dr : IsDouble r)
    (hc : (callFl ⟨rnd, est⟩ top c i).2 = .ok st) : DX st.sugg := by
  obtain ⟨par, rfl⟩ := callFl_ok_run hc
  rw [runFl_sugg par _ i h hdt]
  refine DX.pyMin ?_ (hl.pyMax (hu.pyMin ?_))
  · unfold timeLeftFl
    rw [hdt, hr]
    intro z hz
    split at hz
    · simp only [rdX, fin.injEq] at hz
      rw [← hz, dr.isFloat.rnd_eq]
      exact dr
    · simp only [rdX, add_fin, fin.injEq] at hz
      rw [← hz]
      exact isDouble_rnd_add dr dh
  · split
    · exact hest _ _ _
    · intro z hz
      rw [hdt, fin.injEq] at hz
      rw [← hz]
      exact dh

end Verif.Fl
