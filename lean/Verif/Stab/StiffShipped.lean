/-
The conditions of the error bounds for stiff problems, checked over the exact fields.
-/
import Verif.Stab.StiffRun
import Verif.Stab.Shipped

namespace Verif.Stab

open Verif.Tableau

/-! ### Upper bounds of absolute values -/

def ratUp (x : ℚ) : ℚ := |x|

theorem ratUp_sound (x : ℚ) : |Rat.castHom ℝ x| ≤ (ratUp x : ℝ) := by
  simp [ratUp]

theorem abs_approx {r a ε : ℝ} (h : |r - a| ≤ ε) (b c : ℝ) : |c + b * r| ≤ |c + b * a| + |b| * ε := by
  have h1 : c + b * r = (c + b * a) + b * (r - a) := by ring
  rw [h1]
  refine (abs_add_le _ _).trans (add_le_add_right ?_ _)
  rw [abs_mul]
  exact mul_le_mul_of_nonneg_left h (abs_nonneg _)

def q2Up (x : Q2) : ℚ := |x.re + x.im * approxSqrt2| + |x.im| * (1 / 10 ^ 45)

theorem q2Up_sound (x : Q2) : |embQ2 x| ≤ (q2Up x : ℝ) := by
  rw [embQ2_apply, q2Up]
  push_cast
  exact abs_approx sqrt2_approx _ _

def q3Up (x : Q3) : ℚ := |x.re + x.im * approxSqrt3| + |x.im| * (1 / 10 ^ 45)

theorem q3Up_sound (x : Q3) : |embQ3 x| ≤ (q3Up x : ℝ) := by
  rw [embQ3_apply, q3Up]
  push_cast
  exact abs_approx sqrt3_approx _ _

/-- A rational approximation of `√((2 + √3) / 3)` and its error bound. -/
def approxNested : ℚ := 1.11535507165041

theorem nested_approx : |√((2 + √3) / 3) - (approxNested : ℝ)| ≤ 1 / 10 ^ 12 := by
  have h := abs_le.mp sqrt3_approx
  have h1 : (1.732050807568877 : ℝ) ≤ √3 := by
    have : (1.732050807568877 : ℝ) ≤ (approxSqrt3 : ℝ) - 1 / 10 ^ 45 := by norm_num [approxSqrt3]
    linarith
  have h2 : √3 ≤ (1.732050807568878 : ℝ) := by
    have : (approxSqrt3 : ℝ) + 1 / 10 ^ 45 ≤ 1.732050807568878 := by norm_num [approxSqrt3]
    linarith
  rw [abs_le]
  constructor
  · rw [neg_le_sub_iff_le_add, ← sub_le_iff_le_add]
    exact Real.le_sqrt_of_sq_le (by norm_num [approxNested]; linarith)
  · rw [sub_le_iff_le_add]
    exact (Real.sqrt_le_left (by norm_num [approxNested])).mpr
      (by norm_num [approxNested]; linarith)

def q3rUp (x : Q3r) : ℚ := q3Up ⟨x.re.re + x.im.re * approxNested, x.re.im + x.im.im * approxNested⟩
  + q3Up x.im * (1 / 10 ^ 12)

theorem q3rUp_sound (x : Q3r) : |embQ3r x| ≤ (q3rUp x : ℝ) := by
  rw [embQ3r_apply, q3rUp]
  push_cast
  refine (abs_approx nested_approx _ _).trans (add_le_add ?_ ?_)
  · have e : embQ3 x.re + embQ3 x.im * (approxNested : ℝ)
        = embQ3 ⟨x.re.re + x.im.re * approxNested, x.re.im + x.im.im * approxNested⟩ := by
      simp only [embQ3_apply]
      push_cast
      ring
    rw [e]
    exact q3Up_sound _
  · exact mul_le_mul_of_nonneg_right (q3Up_sound _) (by norm_num)

/-! ### The check -/

/-- Numbers the check uses: bounds `g` of the stages and `K` of their residuals, the accuracy `ε` of
the conditions on the stages and `δ₁` of those on the weights, and lower bounds of the diagonal for
tableaux that satisfy the weak conditions only. -/
structure StiffCert where
  g : List ℚ
  K : ℚ
  ε : ℚ := 0
  δ₁ : ℚ := 0
  weak : Option (List ℚ) := none

section
variable {R : Type} [Field R] [DecidableEq R] {s : ℕ}

/-- `residual` over the field. -/
def residualIn (A : Fin s → Fin s → R) (c : Fin s → R) (k : ℕ) (i : Fin s) : R :=
  (∑ j, A i j * c j ^ k) - c i ^ (k + 1) / (k + 1 : ℕ)

/-- The row `b A^j`. -/
def rowPow (A : Fin s → Fin s → R) (b : Fin s → R) : ℕ → List R
  | 0 => List.ofFn b
  | j + 1 =>
    let w := rowPow A b j
    List.ofFn fun l => ∑ i : Fin s, w.getD i 0 * A i l

def checkStiff (low : R → ℚ → Bool) (up : R → ℚ) (q : ℕ) (C δ : ℚ) (t : StiffCert)
    (A : Fin s → Fin s → R) (b c : Fin s → R) : Bool :=
  decide (∀ i j, i < j → A i j = 0) &&
  decide (∀ i : Fin s, 0 ≤ t.g.getD i 0) &&
  decide (∀ i : Fin s, ((∀ j, A i j = 0) ∧ c i = 0) ∨ (0 < t.g.getD i 0 ∧
    low (A i i) ((1 + ∑ j ∈ Finset.Iio i, up (A i j) * t.g.getD j 0) / t.g.getD i 0) = true)) &&
  decide (∀ i, low (c i) 0 = true ∧ up (c i) ≤ 3) &&
  decide (∀ k < q, up ((∑ j, b j * c j ^ k) - 1 / (k + 1 : ℕ)) ≤ t.δ₁) &&
  decide (0 ≤ t.K ∧ 0 ≤ t.ε) &&
  decide (∀ i, (∑ j, up (A i j) * up (c j) ^ q) + up (c i) ^ (q + 1) ≤ t.K) &&
  decide ((∑ i : Fin s, up (b i) * t.g.getD i 0) * t.K + ((∑ j, up (b j) * up (c j) ^ q) + 1) ≤ C) &&
  match t.weak with
  | none =>
    decide (∀ k < q, ∀ i, up (residualIn A c k i) ≤ t.ε) &&
    decide (t.δ₁ + (∑ i : Fin s, up (b i) * t.g.getD i 0) * t.ε ≤ δ)
  | some γ =>
    decide (∀ i : Fin s, 0 < γ.getD i 0 ∧ low (A i i) (γ.getD i 0) = true) &&
    decide (∀ j < s, ∀ k < q, up (∑ i : Fin s, (rowPow A b j).getD i 0 * residualIn A c k i) ≤ t.ε) &&
    decide (t.δ₁ + s * ((∏ i, (1 + up (A i i))) * (1 + (∏ i : Fin s, γ.getD i 0)⁻¹)) * t.ε ≤ δ)

variable {low : R → ℚ → Bool} {up : R → ℚ} {φ : R →+* ℝ} {q : ℕ} {C δ : ℚ} {t : StiffCert}
  {A : Fin s → Fin s → R} {b c : Fin s → R}

omit [DecidableEq R] in
theorem residualIn_map (k : ℕ) (i : Fin s) :
    φ (residualIn A c k i) = residual (fun i j => φ (A i j)) (fun i => φ (c i)) k i := by
  simp [residualIn, residual]

omit [DecidableEq R] in
theorem rowPow_map (j : ℕ) (l : Fin s) : φ ((rowPow A b j).getD l 0)
    = Matrix.vecMul (fun i => φ (b i)) (Matrix.of (fun i j => φ (A i j)) ^ j) l := by
  induction j generalizing l with
  | zero => rw [rowPow, getD_ofFn]; simp
  | succ j ih =>
    rw [rowPow, pow_succ, ← Matrix.vecMul_vecMul]
    rw [getD_ofFn, map_sum]
    simp only [Matrix.vecMul, dotProduct, Matrix.of_apply, map_mul] at ih ⊢
    exact Finset.sum_congr rfl fun i _ => by rw [ih i]

theorem checkStiff_sound {ρ : ℝ} (hlow : ∀ x q, low x q = true → (q : ℝ) ≤ φ x)
    (hup : ∀ x, |φ x| ≤ (up x : ℝ))
    (hS : StableBy (1 + ρ) (fun i j => φ (A i j)) (fun i => φ (b i)))
    (h : checkStiff low up q C δ t A b c = true) :
    StiffOrder ρ C δ q (fun i j => φ (A i j)) (fun i => φ (b i)) (fun i => φ (c i)) := by
  simp only [checkStiff, Bool.and_eq_true, decide_eq_true_eq] at h
  obtain ⟨⟨⟨⟨⟨⟨⟨⟨h1, h2⟩, h3⟩, h4⟩, h5⟩, h6K, h6ε⟩, h7⟩, h8⟩, h9⟩ := h
  have hlower : ∀ i j, i < j → φ (A i j) = 0 := fun i j hij => by rw [h1 i j hij, map_zero]
  have hg0 : ∀ i : Fin s, (0 : ℝ) ≤ (t.g.getD i 0 : ℚ) := fun i => by exact_mod_cast h2 i
  have hdiag : ∀ i : Fin s, 0 < t.g.getD i 0 →
      low (A i i) ((1 + ∑ j ∈ Finset.Iio i, up (A i j) * t.g.getD j 0) / t.g.getD i 0) = true →
      1 + ∑ j ∈ Finset.Iio i, |φ (A i j)| * ((t.g.getD j 0 : ℚ) : ℝ)
        ≤ φ (A i i) * ((t.g.getD i 0 : ℚ) : ℝ) := fun i hp hl => by
    have e := hlow _ _ hl
    push_cast at e
    have hp' : (0 : ℝ) < (t.g.getD i 0 : ℚ) := by exact_mod_cast hp
    rw [div_le_iff₀ hp'] at e
    refine le_trans ?_ e
    gcongr with j _
    · exact hg0 j
    · exact hup _
  have hsum0 : ∀ i : Fin s, 0 ≤ ∑ j ∈ Finset.Iio i, |φ (A i j)| * ((t.g.getD j 0 : ℚ) : ℝ) :=
    fun i => Finset.sum_nonneg fun j _ => mul_nonneg (abs_nonneg _) (hg0 j)
  have hstages : StagesOk (fun i j => φ (A i j)) (fun i => φ (c i)) := fun i => by
    rcases h3 i with ⟨ha, hc⟩ | ⟨hp, hl⟩
    · exact .inr ⟨fun j => (congrArg φ (ha j)).trans (map_zero φ),
        (congrArg φ hc).trans (map_zero φ)⟩
    · refine .inl ?_
      have e := hdiag i hp hl
      have hp' : (0 : ℝ) < (t.g.getD i 0 : ℚ) := by exact_mod_cast hp
      have : 0 < φ (A i i) * ((t.g.getD i 0 : ℚ) : ℝ) := by linarith [hsum0 i]
      exact (pos_iff_pos_of_mul_pos this).mpr hp'
  have hmaj : Majorant (fun i => ((t.g.getD i 0 : ℚ) : ℝ)) (fun i j => φ (A i j)) := fun i => by
    refine ⟨hg0 i, fun hpos => ?_⟩
    rcases h3 i with ⟨ha, hc⟩ | ⟨hp, hl⟩
    · exact absurd ((congrArg φ (ha i)).trans (map_zero φ)) (ne_of_gt hpos)
    · exact hdiag i hp hl
  have hc0 : ∀ i, 0 ≤ φ (c i) := fun i => by simpa using hlow _ _ (h4 i).1
  have hcu : ∀ i, φ (c i) ≤ (up (c i) : ℝ) := fun i => (le_abs_self _).trans (hup _)
  have hK0 : (0 : ℝ) ≤ t.K := by exact_mod_cast h6K
  have hε0 : (0 : ℝ) ≤ t.ε := by exact_mod_cast h6ε
  have hQ : Quadrature (t.δ₁ : ℝ) q (fun i => φ (b i)) (fun i => φ (c i)) := fun k hk => by
    have e : (up ((∑ j, b j * c j ^ k) - 1 / (k + 1 : ℕ)) : ℝ) ≤ (t.δ₁ : ℝ) := by
      exact_mod_cast h5 k hk
    have e' := (hup _).trans e
    simpa using e'
  have hbg : ∑ i : Fin s, |φ (b i)| * ((t.g.getD i 0 : ℚ) : ℝ)
      ≤ ((∑ i : Fin s, up (b i) * t.g.getD i 0 : ℚ) : ℝ) := by
    push_cast
    exact Finset.sum_le_sum fun i _ => mul_le_mul_of_nonneg_right (hup _) (hg0 i)
  refine ⟨hlower, hstages, hS, fun i => ⟨hc0 i, (hcu i).trans (by exact_mod_cast (h4 i).2)⟩, ?_,
    fun i => ((t.g.getD i 0 : ℚ) : ℝ), t.K, hmaj, hK0, fun i => ?_, ?_⟩
  · cases hw : t.weak with
    | none =>
      rw [hw] at h9
      simp only [Bool.and_eq_true, decide_eq_true_eq] at h9
      have ho : StageOrder (t.ε : ℝ) q (fun i j => φ (A i j)) (fun i => φ (c i)) := fun k hk i => by
        rw [← residualIn_map]
        refine (hup _).trans ?_
        exact_mod_cast h9.1 k hk i
      refine ⟨t.δ₁, _, ?_, hQ, ho.filters hlower hstages hmaj hε0⟩
      have e : ((t.δ₁ + (∑ i : Fin s, up (b i) * t.g.getD i 0) * t.ε : ℚ) : ℝ) ≤ (δ : ℝ) := by
        exact_mod_cast h9.2
      rw [Rat.cast_add, Rat.cast_mul] at e
      exact le_trans (add_le_add_right (mul_le_mul_of_nonneg_right hbg hε0) _) e
    | some γ =>
      rw [hw] at h9
      simp only [Bool.and_eq_true, decide_eq_true_eq] at h9
      obtain ⟨⟨k1, k2⟩, k3⟩ := h9
      have hγ : ∀ i : Fin s, (0 : ℝ) < (γ.getD i 0 : ℚ) := fun i => by exact_mod_cast (k1 i).1
      have hγA : ∀ i : Fin s, ((γ.getD i 0 : ℚ) : ℝ) ≤ φ (A i i) := fun i => hlow _ _ (k1 i).2
      have hpos : ∀ i, 0 < φ (A i i) := fun i => lt_of_lt_of_le (hγ i) (hγA i)
      have ho : WeakStageOrder (t.ε : ℝ) q (fun i j => φ (A i j)) (fun i => φ (b i))
          (fun i => φ (c i)) := fun k hk j hj => by
        have e : (up (∑ i : Fin s, (rowPow A b j).getD i 0 * residualIn A c k i) : ℝ) ≤ t.ε := by
          exact_mod_cast k2 j hj k hk
        have e' := (hup _).trans e
        rw [map_sum] at e'
        rw [Matrix.dotProduct_mulVec]
        have : (Matrix.vecMul (fun i => φ (b i)) (Matrix.of (fun i j => φ (A i j)) ^ j)) ⬝ᵥ
            residual (fun i j => φ (A i j)) (fun i => φ (c i)) k
            = ∑ i : Fin s, φ ((rowPow A b j).getD i 0 * residualIn A c k i) := by
          rw [dotProduct]
          exact Finset.sum_congr rfl fun i _ => by rw [map_mul, rowPow_map, residualIn_map]
        rw [this]
        exact e'
      refine ⟨t.δ₁, _, ?_, hQ, ho.filters hlower hpos hε0⟩
      have e : ((t.δ₁ + s * ((∏ i, (1 + up (A i i))) * (1 + (∏ i : Fin s, γ.getD i 0)⁻¹)) * t.ε : ℚ)
          : ℝ) ≤ (δ : ℝ) := by exact_mod_cast k3
      have hP : 0 < ∏ i : Fin s, ((γ.getD i 0 : ℚ) : ℝ) := Finset.prod_pos fun i _ => hγ i
      have hP' : ∏ i : Fin s, ((γ.getD i 0 : ℚ) : ℝ) ≤ ∏ i, φ (A i i) :=
        Finset.prod_le_prod (fun i _ => (hγ i).le) fun i _ => hγA i
      have hU : ∏ i, (1 + φ (A i i)) ≤ ∏ i, (1 + (up (A i i) : ℝ)) :=
        Finset.prod_le_prod (fun i _ => by linarith [hpos i])
          fun i _ => by linarith [(le_abs_self _).trans (hup (A i i))]
      have hU0 : 0 ≤ ∏ i, (1 + φ (A i i)) := Finset.prod_nonneg fun i _ => by linarith [hpos i]
      have hinv : (∏ i, φ (A i i))⁻¹ ≤ (∏ i : Fin s, ((γ.getD i 0 : ℚ) : ℝ))⁻¹ :=
        inv_anti₀ hP hP'
      have hinv0 : 0 ≤ (∏ i, φ (A i i))⁻¹ := inv_nonneg.mpr (hP.le.trans hP')
      have hW : weakFactor (fun i j => φ (A i j)) ≤ (s : ℝ) * ((∏ i, (1 + (up (A i i) : ℝ)))
          * (1 + (∏ i : Fin s, ((γ.getD i 0 : ℚ) : ℝ))⁻¹)) :=
        mul_le_mul_of_nonneg_left
          (mul_le_mul hU (by linarith) (by linarith) (hU0.trans hU)) (Nat.cast_nonneg _)
      refine le_trans (add_le_add_right (mul_le_mul_of_nonneg_right hW hε0) _)
        (le_trans (le_of_eq ?_) e)
      push_cast
      rfl
  · have e : (((∑ j, up (A i j) * up (c j) ^ q) + up (c i) ^ (q + 1) : ℚ) : ℝ) ≤ t.K := by
      exact_mod_cast h7 i
    push_cast at e
    refine le_trans (add_le_add (Finset.sum_le_sum fun j _ => ?_)
      (pow_le_pow_left₀ (hc0 i) (hcu i) _)) e
    exact mul_le_mul (hup _) (pow_le_pow_left₀ (hc0 j) (hcu j) _) (pow_nonneg (hc0 j) _)
      ((abs_nonneg _).trans (hup _))
  · have e : (((∑ i : Fin s, up (b i) * t.g.getD i 0) * t.K
        + ((∑ j, up (b j) * up (c j) ^ q) + 1) : ℚ) : ℝ) ≤ C := by exact_mod_cast h8
    rw [Rat.cast_add, Rat.cast_mul, Rat.cast_add] at e
    refine le_trans (add_le_add (mul_le_mul_of_nonneg_right hbg hK0) (add_le_add ?_ ?_)) e
    · push_cast
      refine Finset.sum_le_sum fun j _ => ?_
      exact mul_le_mul (hup _) (pow_le_pow_left₀ (hc0 j) (hcu j) _) (pow_nonneg (hc0 j) _)
        ((abs_nonneg _).trans (hup _))
    · simp

end

/-! ### The shipped tableaux -/

theorem stable_zero {s : ℕ} {A : Fin s → Fin s → ℝ} {b : Fin s → ℝ}
    (h : StableBy ((1 : ℚ) : ℝ) A b) : StableBy (1 + 0) A b := by simpa using h

theorem stable_tiny {s : ℕ} {A : Fin s → Fin s → ℝ} {b : Fin s → ℝ}
    (h : StableBy ((1 + 1 / 10 ^ 25 : ℚ) : ℝ) A b) : StableBy (1 + 1 / 10 ^ 25) A b := by
  have : ((1 + 1 / 10 ^ 25 : ℚ) : ℝ) = 1 + 1 / 10 ^ 25 := by push_cast; rfl
  rwa [this] at h

theorem implicitEuler_stiff : StiffOrder 0 ((41 / 10 ^ 1 : ℚ) : ℝ) ((0 : ℚ) : ℝ) 1
    (implicitEuler.map (Rat.castHom ℝ)).A (implicitEuler.map (Rat.castHom ℝ)).b (implicitEuler.map (Rat.castHom ℝ)).c :=
  checkStiff_sound (low := ratLow) (up := ratUp) (φ := Rat.castHom ℝ) (q := 1) (C := 41 / 10 ^ 1) (δ := 0)
    (t := { g := [101 / 10 ^ 2], K := 201 / 10 ^ 2 })
    (A := implicitEuler.A) (b := implicitEuler.b) (c := implicitEuler.c)
    ratLow_sound ratUp_sound (stable_zero implicitEuler_stable.1) (by decide +kernel)

theorem implicitMidpoint_stiff : StiffOrder 0 ((26 / 10 ^ 1 : ℚ) : ℝ) ((0 : ℚ) : ℝ) 1
    (implicitMidpoint.map (Rat.castHom ℝ)).A (implicitMidpoint.map (Rat.castHom ℝ)).b (implicitMidpoint.map (Rat.castHom ℝ)).c :=
  checkStiff_sound (low := ratLow) (up := ratUp) (φ := Rat.castHom ℝ) (q := 1) (C := 26 / 10 ^ 1) (δ := 0)
    (t := { g := [201 / 10 ^ 2], K := 502 / 10 ^ 3 })
    (A := implicitMidpoint.A) (b := implicitMidpoint.b) (c := implicitMidpoint.c)
    ratLow_sound ratUp_sound (stable_zero implicitMidpoint_stable.1) (by decide +kernel)

theorem thirdOrderTwoStageSdirk_stiff : StiffOrder 0 ((37 / 10 ^ 1 : ℚ) : ℝ) ((0 : ℚ) : ℝ) 1
    (thirdOrderTwoStageSdirk.map embQ3).A (thirdOrderTwoStageSdirk.map embQ3).b (thirdOrderTwoStageSdirk.map embQ3).c :=
  checkStiff_sound (low := q3Low) (up := q3Up) (φ := embQ3) (q := 1) (C := 37 / 10 ^ 1) (δ := 0)
    (t := { g := [128 / 10 ^ 2, 222 / 10 ^ 2], K := 125 / 10 ^ 2 })
    (A := thirdOrderTwoStageSdirk.A) (b := thirdOrderTwoStageSdirk.b) (c := thirdOrderTwoStageSdirk.c)
    q3Low_sound q3Up_sound (stable_zero thirdOrderTwoStageSdirk_stable.1) (by decide +kernel)

theorem fifthOrderFiveStageSdirk_stiff : StiffOrder (1 / 10 ^ 25) ((52 : ℚ) : ℝ) ((12 / 10 ^ 25 : ℚ) : ℝ) 1
    (fifthOrderFiveStageSdirk.map (Rat.castHom ℝ)).A (fifthOrderFiveStageSdirk.map (Rat.castHom ℝ)).b (fifthOrderFiveStageSdirk.map (Rat.castHom ℝ)).c :=
  checkStiff_sound (low := ratLow) (up := ratUp) (φ := Rat.castHom ℝ) (q := 1) (C := 52) (δ := 12 / 10 ^ 25)
    (t := { g := [361 / 10 ^ 2, 134 / 10 ^ 1, 115 / 10 ^ 1, 122 / 10 ^ 1, 555 / 10 ^ 1], K := 155 / 10 ^ 2, ε := 344 / 10 ^ 28, δ₁ := 125 / 10 ^ 28 })
    (A := fifthOrderFiveStageSdirk.A) (b := fifthOrderFiveStageSdirk.b) (c := fifthOrderFiveStageSdirk.c)
    ratLow_sound ratUp_sound (stable_tiny fifthOrderFiveStageSdirk_stable.1) (by decide +kernel)

theorem embeddedSecondOrderTwoStageSdirk_stiff : StiffOrder 0 ((11 : ℚ) : ℝ) ((0 : ℚ) : ℝ) 1
    (embeddedSecondOrderTwoStageSdirk.map embQ2).A (embeddedSecondOrderTwoStageSdirk.map embQ2).b (embeddedSecondOrderTwoStageSdirk.map embQ2).c :=
  checkStiff_sound (low := q2Low) (up := q2Up) (φ := embQ2) (q := 1) (C := 11) (δ := 0)
    (t := { g := [343 / 10 ^ 2, 118 / 10 ^ 1], K := 151 / 10 ^ 2 })
    (A := embeddedSecondOrderTwoStageSdirk.A) (b := embeddedSecondOrderTwoStageSdirk.b) (c := embeddedSecondOrderTwoStageSdirk.c)
    q2Low_sound q2Up_sound (stable_zero embeddedSecondOrderTwoStageSdirk_stable.1) (by decide +kernel)

theorem embeddedSecondOrderThreeStageEsdirk_stiff : StiffOrder 0 ((64 / 10 ^ 1 : ℚ) : ℝ) ((0 : ℚ) : ℝ) 2
    (embeddedSecondOrderThreeStageEsdirk.map embQ2).A (embeddedSecondOrderThreeStageEsdirk.map embQ2).b (embeddedSecondOrderThreeStageEsdirk.map embQ2).c :=
  checkStiff_sound (low := q2Low) (up := q2Up) (φ := embQ2) (q := 2) (C := 64 / 10 ^ 1) (δ := 0)
    (t := { g := [0, 343 / 10 ^ 2, 758 / 10 ^ 2], K := 142 / 10 ^ 2 })
    (A := embeddedSecondOrderThreeStageEsdirk.A) (b := embeddedSecondOrderThreeStageEsdirk.b) (c := embeddedSecondOrderThreeStageEsdirk.c)
    q2Low_sound q2Up_sound (stable_zero embeddedSecondOrderThreeStageEsdirk_stable.1) (by decide +kernel)

theorem embeddedThirdOrderThreeStageSdirk1_stiff : StiffOrder 0 ((31 : ℚ) : ℝ) ((0 : ℚ) : ℝ) 1
    (embeddedThirdOrderThreeStageSdirk1.map (Rat.castHom ℝ)).A (embeddedThirdOrderThreeStageSdirk1.map (Rat.castHom ℝ)).b (embeddedThirdOrderThreeStageSdirk1.map (Rat.castHom ℝ)).c :=
  checkStiff_sound (low := ratLow) (up := ratUp) (φ := Rat.castHom ℝ) (q := 1) (C := 31) (δ := 0)
    (t := { g := [231 / 10 ^ 2, 381 / 10 ^ 2, 144 / 10 ^ 1], K := 244 / 10 ^ 2 })
    (A := embeddedThirdOrderThreeStageSdirk1.A) (b := embeddedThirdOrderThreeStageSdirk1.b) (c := embeddedThirdOrderThreeStageSdirk1.c)
    ratLow_sound ratUp_sound (stable_zero embeddedThirdOrderThreeStageSdirk1_stable.1) (by decide +kernel)

theorem embeddedThirdOrderThreeStageSdirk2_stiff : StiffOrder 0 ((40 / 10 ^ 1 : ℚ) : ℝ) ((0 : ℚ) : ℝ) 1
    (embeddedThirdOrderThreeStageSdirk2.map (Rat.castHom ℝ)).A (embeddedThirdOrderThreeStageSdirk2.map (Rat.castHom ℝ)).b (embeddedThirdOrderThreeStageSdirk2.map (Rat.castHom ℝ)).c :=
  checkStiff_sound (low := ratLow) (up := ratUp) (φ := Rat.castHom ℝ) (q := 1) (C := 40 / 10 ^ 1) (δ := 0)
    (t := { g := [121 / 10 ^ 2, 203 / 10 ^ 2, 271 / 10 ^ 2], K := 140 / 10 ^ 2 })
    (A := embeddedThirdOrderThreeStageSdirk2.A) (b := embeddedThirdOrderThreeStageSdirk2.b) (c := embeddedThirdOrderThreeStageSdirk2.c)
    ratLow_sound ratUp_sound (stable_zero embeddedThirdOrderThreeStageSdirk2_stable.1) (by decide +kernel)


theorem embeddedThirdOrderThreeStageEsdirk_stiff : StiffOrder 0 ((99 / 10 ^ 1 : ℚ) : ℝ) ((0 : ℚ) : ℝ) 2
    (embeddedThirdOrderThreeStageEsdirk.map embQ3r).A (embeddedThirdOrderThreeStageEsdirk.map embQ3r).b (embeddedThirdOrderThreeStageEsdirk.map embQ3r).c :=
  checkStiff_sound (low := q3rLow) (up := q3rUp) (φ := embQ3r) (q := 2) (C := 99 / 10 ^ 1) (δ := 0)
    (t := { g := [0, 128 / 10 ^ 2, 154 / 10 ^ 2], K := 591 / 10 ^ 2 })
    (A := embeddedThirdOrderThreeStageEsdirk.A) (b := embeddedThirdOrderThreeStageEsdirk.b) (c := embeddedThirdOrderThreeStageEsdirk.c)
    q3rLow_sound q3rUp_sound (stable_zero embeddedThirdOrderThreeStageEsdirk_stable.1) (by decide +kernel)

theorem embeddedThirdOrderFourStageSdirk_stiff : StiffOrder 0 ((45 : ℚ) : ℝ) ((0 : ℚ) : ℝ) 1
    (embeddedThirdOrderFourStageSdirk.map (Rat.castHom ℝ)).A (embeddedThirdOrderFourStageSdirk.map (Rat.castHom ℝ)).b (embeddedThirdOrderFourStageSdirk.map (Rat.castHom ℝ)).c :=
  checkStiff_sound (low := ratLow) (up := ratUp) (φ := Rat.castHom ℝ) (q := 1) (C := 45) (δ := 0)
    (t := { g := [446 / 10 ^ 2, 107 / 10 ^ 1, 783 / 10 ^ 1, 611 / 10 ^ 1], K := 162 / 10 ^ 2 })
    (A := embeddedThirdOrderFourStageSdirk.A) (b := embeddedThirdOrderFourStageSdirk.b) (c := embeddedThirdOrderFourStageSdirk.c)
    ratLow_sound ratUp_sound (stable_zero embeddedThirdOrderFourStageSdirk_stable.1) (by decide +kernel)

theorem embeddedThirdOrderSecondWeakStageOrderFourStageDirk_stiff : StiffOrder 0 ((200 : ℚ) : ℝ) ((38 / 10 ^ 9 : ℚ) : ℝ) 2
    (embeddedThirdOrderSecondWeakStageOrderFourStageDirk.map (Rat.castHom ℝ)).A (embeddedThirdOrderSecondWeakStageOrderFourStageDirk.map (Rat.castHom ℝ)).b (embeddedThirdOrderSecondWeakStageOrderFourStageDirk.map (Rat.castHom ℝ)).c :=
  checkStiff_sound (low := ratLow) (up := ratUp) (φ := Rat.castHom ℝ) (q := 2) (C := 200) (δ := 38 / 10 ^ 9)
    (t := { g := [528 / 10 ^ 1, 584 / 10 ^ 1, 273 / 10 ^ 1, 126], K := 186 / 10 ^ 2, ε := 493 / 10 ^ 14, δ₁ := 247 / 10 ^ 14, weak := some [19 / 1000, 384 / 1000, 515 / 1000, 422 / 1000] })
    (A := embeddedThirdOrderSecondWeakStageOrderFourStageDirk.A) (b := embeddedThirdOrderSecondWeakStageOrderFourStageDirk.b) (c := embeddedThirdOrderSecondWeakStageOrderFourStageDirk.c)
    ratLow_sound ratUp_sound (stable_zero embeddedThirdOrderSecondWeakStageOrderFourStageDirk_stable.1) (by decide +kernel)

theorem embeddedThirdOrderThirdWeakStageOrderFourStageDirk_stiff : StiffOrder 0 ((1800 : ℚ) : ℝ) ((17 / 10 ^ 9 : ℚ) : ℝ) 3
    (embeddedThirdOrderThirdWeakStageOrderFourStageDirk.map (Rat.castHom ℝ)).A (embeddedThirdOrderThirdWeakStageOrderFourStageDirk.map (Rat.castHom ℝ)).b (embeddedThirdOrderThirdWeakStageOrderFourStageDirk.map (Rat.castHom ℝ)).c :=
  checkStiff_sound (low := ratLow) (up := ratUp) (φ := Rat.castHom ℝ) (q := 3) (C := 1800) (δ := 17 / 10 ^ 9)
    (t := { g := [730 / 10 ^ 2, 220 / 10 ^ 1, 166, 268 / 10 ^ 1], K := 370 / 10 ^ 1, ε := 136 / 10 ^ 13, δ₁ := 169 / 10 ^ 13, weak := some [137 / 1000, 234 / 1000, 449 / 1000, 889 / 1000] })
    (A := embeddedThirdOrderThirdWeakStageOrderFourStageDirk.A) (b := embeddedThirdOrderThirdWeakStageOrderFourStageDirk.b) (c := embeddedThirdOrderThirdWeakStageOrderFourStageDirk.c)
    ratLow_sound ratUp_sound (stable_zero embeddedThirdOrderThirdWeakStageOrderFourStageDirk_stable.1) (by decide +kernel)

theorem embeddedThirdOrderFourStageEsdirk_stiff : StiffOrder 0 ((24 : ℚ) : ℝ) ((0 : ℚ) : ℝ) 2
    (embeddedThirdOrderFourStageEsdirk.map (Rat.castHom ℝ)).A (embeddedThirdOrderFourStageEsdirk.map (Rat.castHom ℝ)).b (embeddedThirdOrderFourStageEsdirk.map (Rat.castHom ℝ)).c :=
  checkStiff_sound (low := ratLow) (up := ratUp) (φ := Rat.castHom ℝ) (q := 2) (C := 24) (δ := 0)
    (t := { g := [0, 231 / 10 ^ 2, 279 / 10 ^ 2, 120 / 10 ^ 1], K := 228 / 10 ^ 2 })
    (A := embeddedThirdOrderFourStageEsdirk.A) (b := embeddedThirdOrderFourStageEsdirk.b) (c := embeddedThirdOrderFourStageEsdirk.c)
    ratLow_sound ratUp_sound (stable_zero embeddedThirdOrderFourStageEsdirk_stable.1) (by decide +kernel)

theorem embeddedThirdOrderFiveStageEsdirk_stiff : StiffOrder 0 ((52 : ℚ) : ℝ) ((0 : ℚ) : ℝ) 2
    (embeddedThirdOrderFiveStageEsdirk.map embQ2).A (embeddedThirdOrderFiveStageEsdirk.map embQ2).b (embeddedThirdOrderFiveStageEsdirk.map embQ2).c :=
  checkStiff_sound (low := q2Low) (up := q2Up) (φ := embQ2) (q := 2) (C := 52) (δ := 0)
    (t := { g := [0, 446 / 10 ^ 2, 986 / 10 ^ 2, 121 / 10 ^ 1, 648 / 10 ^ 1], K := 175 / 10 ^ 2 })
    (A := embeddedThirdOrderFiveStageEsdirk.A) (b := embeddedThirdOrderFiveStageEsdirk.b) (c := embeddedThirdOrderFiveStageEsdirk.c)
    q2Low_sound q2Up_sound (stable_zero embeddedThirdOrderFiveStageEsdirk_stable.1) (by decide +kernel)

theorem embeddedFourthOrderFourStageSdirk_stiff : StiffOrder 0 ((50 : ℚ) : ℝ) ((0 : ℚ) : ℝ) 1
    (embeddedFourthOrderFourStageSdirk.map (Rat.castHom ℝ)).A (embeddedFourthOrderFourStageSdirk.map (Rat.castHom ℝ)).b (embeddedFourthOrderFourStageSdirk.map (Rat.castHom ℝ)).c :=
  checkStiff_sound (low := ratLow) (up := ratUp) (φ := Rat.castHom ℝ) (q := 1) (C := 50) (δ := 0)
    (t := { g := [121 / 10 ^ 2, 205 / 10 ^ 2, 189 / 10 ^ 1, 644 / 10 ^ 2], K := 457 / 10 ^ 2 })
    (A := embeddedFourthOrderFourStageSdirk.A) (b := embeddedFourthOrderFourStageSdirk.b) (c := embeddedFourthOrderFourStageSdirk.c)
    ratLow_sound ratUp_sound (stable_zero embeddedFourthOrderFourStageSdirk_stable.1) (by decide +kernel)

theorem embeddedFourthOrderFiveStageSdirk_stiff : StiffOrder 0 ((140 : ℚ) : ℝ) ((0 : ℚ) : ℝ) 1
    (embeddedFourthOrderFiveStageSdirk.map embQ2).A (embeddedFourthOrderFiveStageSdirk.map embQ2).b (embeddedFourthOrderFiveStageSdirk.map embQ2).c :=
  checkStiff_sound (low := q2Low) (up := q2Up) (φ := embQ2) (q := 1) (C := 140) (δ := 0)
    (t := { g := [402 / 10 ^ 2, 569 / 10 ^ 2, 204 / 10 ^ 1, 148, 962 / 10 ^ 1], K := 274 / 10 ^ 2 })
    (A := embeddedFourthOrderFiveStageSdirk.A) (b := embeddedFourthOrderFiveStageSdirk.b) (c := embeddedFourthOrderFiveStageSdirk.c)
    q2Low_sound q2Up_sound (stable_zero embeddedFourthOrderFiveStageSdirk_stable.1) (by decide +kernel)

theorem embeddedFourthOrderFiveStageEsdirk_stiff : StiffOrder 0 ((26 : ℚ) : ℝ) ((0 : ℚ) : ℝ) 2
    (embeddedFourthOrderFiveStageEsdirk.map (Rat.castHom ℝ)).A (embeddedFourthOrderFiveStageEsdirk.map (Rat.castHom ℝ)).b (embeddedFourthOrderFiveStageEsdirk.map (Rat.castHom ℝ)).c :=
  checkStiff_sound (low := ratLow) (up := ratUp) (φ := Rat.castHom ℝ) (q := 2) (C := 26) (δ := 0)
    (t := { g := [0, 231 / 10 ^ 2, 288 / 10 ^ 2, 987 / 10 ^ 2, 145 / 10 ^ 1], K := 200 / 10 ^ 2 })
    (A := embeddedFourthOrderFiveStageEsdirk.A) (b := embeddedFourthOrderFiveStageEsdirk.b) (c := embeddedFourthOrderFiveStageEsdirk.c)
    ratLow_sound ratUp_sound (stable_zero embeddedFourthOrderFiveStageEsdirk_stable.1) (by decide +kernel)

theorem embeddedFourthOrderSixStageEsdirk_stiff : StiffOrder 0 ((77 : ℚ) : ℝ) ((0 : ℚ) : ℝ) 2
    (embeddedFourthOrderSixStageEsdirk.map embQ2).A (embeddedFourthOrderSixStageEsdirk.map embQ2).b (embeddedFourthOrderSixStageEsdirk.map embQ2).c :=
  checkStiff_sound (low := q2Low) (up := q2Up) (φ := embQ2) (q := 2) (C := 77) (δ := 0)
    (t := { g := [0, 402 / 10 ^ 2, 485 / 10 ^ 2, 156 / 10 ^ 1, 879 / 10 ^ 1, 814 / 10 ^ 1], K := 188 / 10 ^ 2 })
    (A := embeddedFourthOrderSixStageEsdirk.A) (b := embeddedFourthOrderSixStageEsdirk.b) (c := embeddedFourthOrderSixStageEsdirk.c)
    q2Low_sound q2Up_sound (stable_zero embeddedFourthOrderSixStageEsdirk_stable.1) (by decide +kernel)

theorem embeddedFourthOrderThirdWeakStageOrderSixStageDirk_stiff : StiffOrder 0 ((13000 : ℚ) : ℝ) ((83 / 10 ^ 12 : ℚ) : ℝ) 3
    (embeddedFourthOrderThirdWeakStageOrderSixStageDirk.map (Rat.castHom ℝ)).A (embeddedFourthOrderThirdWeakStageOrderSixStageDirk.map (Rat.castHom ℝ)).b (embeddedFourthOrderThirdWeakStageOrderSixStageDirk.map (Rat.castHom ℝ)).c :=
  checkStiff_sound (low := ratLow) (up := ratUp) (φ := Rat.castHom ℝ) (q := 3) (C := 13000) (δ := 83 / 10 ^ 12)
    (t := { g := [126 / 10 ^ 1, 379 / 10 ^ 1, 295, 326, 2920, 1470], K := 182 / 10 ^ 1, ε := 488 / 10 ^ 18, δ₁ := 101 / 10 ^ 17, weak := some [79 / 1000, 136 / 1000, 256 / 1000, 311 / 1000, 770 / 1000, 239 / 1000] })
    (A := embeddedFourthOrderThirdWeakStageOrderSixStageDirk.A) (b := embeddedFourthOrderThirdWeakStageOrderSixStageDirk.b) (c := embeddedFourthOrderThirdWeakStageOrderSixStageDirk.c)
    ratLow_sound ratUp_sound (stable_zero embeddedFourthOrderThirdWeakStageOrderSixStageDirk_stable.1) (by decide +kernel)

theorem embeddedFifthOrderSixStageEsdirk_stiff : StiffOrder (1 / 10 ^ 25) ((120 : ℚ) : ℝ) ((86 / 10 ^ 26 : ℚ) : ℝ) 2
    (embeddedFifthOrderSixStageEsdirk.map (Rat.castHom ℝ)).A (embeddedFifthOrderSixStageEsdirk.map (Rat.castHom ℝ)).b (embeddedFifthOrderSixStageEsdirk.map (Rat.castHom ℝ)).c :=
  checkStiff_sound (low := ratLow) (up := ratUp) (φ := Rat.castHom ℝ) (q := 2) (C := 120) (δ := 86 / 10 ^ 26)
    (t := { g := [0, 361 / 10 ^ 2, 930 / 10 ^ 2, 703 / 10 ^ 2, 770 / 10 ^ 2, 131], K := 163 / 10 ^ 2, ε := 118 / 10 ^ 28, δ₁ := 949 / 10 ^ 29 })
    (A := embeddedFifthOrderSixStageEsdirk.A) (b := embeddedFifthOrderSixStageEsdirk.b) (c := embeddedFifthOrderSixStageEsdirk.c)
    ratLow_sound ratUp_sound (stable_tiny embeddedFifthOrderSixStageEsdirk_stable.1) (by decide +kernel)

end Verif.Stab
