/-
Rational functions bounded on the imaginary axis are bounded on the left half plane.
-/
import Verif.Stab.Poly
import Mathlib.Analysis.Complex.PhragmenLindelof

namespace Verif.Stab

open Complex Filter Asymptotics Bornology

theorem one_le_norm {γ : ℝ} (hγ : 0 ≤ γ) {z : ℂ} (hz : z.re ≤ 0) : 1 ≤ ‖1 - (γ : ℂ) * z‖ := by
  have h1 : (1 - (γ : ℂ) * z).re = 1 - γ * z.re := by simp
  have h2 := Complex.re_le_norm (1 - (γ : ℂ) * z)
  rw [h1] at h2
  nlinarith

theorem mul_norm_le {γ : ℝ} (hγ : 0 ≤ γ) {z : ℂ} (hz : z.re ≤ 0) :
    γ * ‖z‖ ≤ ‖1 - (γ : ℂ) * z‖ := by
  refine (sq_le_sq₀ (by positivity) (norm_nonneg _)).mp ?_
  rw [mul_pow, ← Complex.normSq_eq_norm_sq, ← Complex.normSq_eq_norm_sq, Complex.normSq_apply,
    Complex.normSq_apply]
  simp only [sub_re, one_re, mul_re, ofReal_re, ofReal_im, zero_mul, sub_zero, sub_im, one_im,
    mul_im, add_zero, zero_sub]
  nlinarith [mul_nonneg hγ (neg_nonneg.mpr hz)]

theorem one_le_prod (γs : List ℝ) (hγ : ∀ γ ∈ γs, 0 ≤ γ) {z : ℂ} (hz : z.re ≤ 0) :
    1 ≤ ‖(γs.map fun γ : ℝ => 1 - (γ : ℂ) * z).prod‖ := by
  induction γs with
  | nil => simp
  | cons γ γs ih =>
    rw [List.map_cons, List.prod_cons, norm_mul]
    exact one_le_mul_of_one_le_of_one_le (one_le_norm (hγ γ (List.mem_cons_self ..)) hz)
      (ih fun x hx => hγ x (List.mem_cons_of_mem _ hx))

/-- A numerator of lower or equal degree is bounded by a multiple of the denominator. -/
theorem bounded_of_length (γs : List ℝ) (hγ : ∀ γ ∈ γs, 0 ≤ γ) (p : List ℝ)
    (hl : p.length ≤ (γs.filter fun γ => γ ≠ 0).length + 1) :
    ∃ C, 0 ≤ C ∧ ∀ z : ℂ, z.re ≤ 0 →
      ‖peval Complex.ofRealHom z p‖ ≤ C * ‖(γs.map fun γ : ℝ => 1 - (γ : ℂ) * z).prod‖ := by
  induction γs generalizing p with
  | nil =>
    match p, hl with
    | [], _ => exact ⟨0, le_rfl, fun z _ => by simp [peval]⟩
    | [a], _ => exact ⟨|a|, abs_nonneg _, fun z _ => by simp [peval]⟩
  | cons γ γs ih =>
    have hγ' : ∀ γ ∈ γs, 0 ≤ γ := fun x hx => hγ x (List.mem_cons_of_mem _ hx)
    have hγ0 := hγ γ (List.mem_cons_self ..)
    by_cases h0 : γ = 0
    · subst h0
      obtain ⟨C, hC, h⟩ := ih hγ' p (by simpa using hl)
      exact ⟨C, hC, fun z hz => by simpa using h z hz⟩
    · have hpos : 0 < γ := lt_of_le_of_ne hγ0 (Ne.symm h0)
      match p with
      | [] => exact ⟨0, le_rfl, fun z _ => by simp [peval]⟩
      | a :: p =>
        obtain ⟨C, hC, h⟩ := ih hγ' p (by simpa [h0] using hl)
        refine ⟨|a| + C / γ, by positivity, fun z hz => ?_⟩
        rw [List.map_cons, List.prod_cons, norm_mul, peval]
        have h1 := one_le_norm hγ0 hz
        have h2 := mul_norm_le hγ0 hz
        have h3 := one_le_prod γs hγ' hz
        have h4 := h z hz
        set q := ‖(γs.map fun γ : ℝ => 1 - (γ : ℂ) * z).prod‖
        set d := ‖1 - (γ : ℂ) * z‖
        have h5 : ‖z‖ ≤ d / γ := by rw [le_div_iff₀ hpos]; linarith
        calc ‖(Complex.ofRealHom a : ℂ) + z * peval Complex.ofRealHom z p‖
            ≤ |a| + ‖z‖ * ‖peval Complex.ofRealHom z p‖ := by
              refine (norm_add_le _ _).trans ?_
              rw [norm_mul]
              simp
          _ ≤ |a| * (d * q) + d / γ * (C * q) := by
              have : 1 ≤ d * q := one_le_mul_of_one_le_of_one_le h1 h3
              gcongr
              exact le_mul_of_one_le_right (abs_nonneg _) this
          _ = (|a| + C / γ) * (d * q) := by ring

theorem differentiable_peval {R : Type} [CommRing R] (φ : R →+* ℂ) (p : List R) :
    Differentiable ℂ fun w : ℂ => peval φ (-w) p := by
  induction p with
  | nil => exact differentiable_const 0
  | cons a p ih => exact (differentiable_const _).add (differentiable_id.neg.mul ih)

/-- A bound on the imaginary axis holds on the left half plane. -/
theorem le_of_axis (γs : List ℝ) (hγ : ∀ γ ∈ γs, 0 ≤ γ) (p q : List ℝ) {C : ℝ}
    (hl : p.length ≤ (γs.filter fun γ => γ ≠ 0).length + 1)
    (hq : ∀ z : ℂ, peval Complex.ofRealHom z q = (γs.map fun γ : ℝ => 1 - (γ : ℂ) * z).prod)
    (hax : ∀ y : ℝ, ‖peval Complex.ofRealHom (y * I) p‖ ≤ C * ‖peval Complex.ofRealHom (y * I) q‖)
    {z : ℂ} (hz : z.re ≤ 0) :
    ‖peval Complex.ofRealHom z p‖ ≤ C * ‖peval Complex.ofRealHom z q‖ := by
  obtain ⟨K, hK, hb⟩ := bounded_of_length γs hγ p hl
  have hq1 : ∀ z : ℂ, z.re ≤ 0 → 1 ≤ ‖peval Complex.ofRealHom z q‖ := fun z hz => by
    rw [hq]; exact one_le_prod γs hγ hz
  have hq0 : ∀ z : ℂ, z.re ≤ 0 → peval Complex.ofRealHom z q ≠ 0 := fun z hz h => by
    have := hq1 z hz
    rw [h] at this
    norm_num at this
  let f : ℂ → ℂ := fun w => peval Complex.ofRealHom (-w) p / peval Complex.ofRealHom (-w) q
  have hf : ∀ w : ℂ, 0 ≤ w.re → ‖f w‖ ≤ K := fun w hw => by
    have h1 : (-w).re ≤ 0 := by simpa using hw
    have h2 := hb (-w) h1
    rw [← hq] at h2
    rw [norm_div, div_le_iff₀ (lt_of_lt_of_le one_pos (hq1 _ h1))]
    exact h2
  have key : ‖f (-z)‖ ≤ C := by
    refine PhragmenLindelof.right_half_plane_of_bounded_on_real (f := f) ?_ ?_ ?_ ?_ (z := -z)
      (by simpa using hz)
    · refine DifferentiableOn.diffContOnCl ?_
      rw [Complex.closure_setOfPred_lt_re]
      exact DifferentiableOn.div (differentiable_peval _ p).differentiableOn
        (differentiable_peval _ q).differentiableOn fun w hw => hq0 _ (by simpa using hw)
    · refine ⟨0, by norm_num, 0, ?_⟩
      refine IsBigO.of_bound K ?_
      refine eventually_inf_principal.mpr (Eventually.of_forall fun w hw => ?_)
      have := hf w (le_of_lt hw)
      simpa using this
    · refine ⟨K, ?_⟩
      rw [eventually_map]
      filter_upwards [eventually_ge_atTop (0 : ℝ)] with x hx
      exact hf x (by simpa using hx)
    · intro x
      have h1 := hax (-x)
      have h2 : -((x : ℂ) * I) = ((-x : ℝ) : ℂ) * I := by push_cast; ring
      have h3 : (-((x : ℂ) * I)).re ≤ 0 := by simp
      have h4 := hq1 _ h3
      dsimp only [f]
      rw [norm_div, div_le_iff₀ (lt_of_lt_of_le one_pos h4), h2]
      exact h1
  dsimp only [f] at key
  rwa [neg_neg, norm_div, div_le_iff₀ (lt_of_lt_of_le one_pos (hq1 z hz))] at key

/-- With a numerator of lower degree the quotient decays at infinity. -/
theorem decay_of_length (γs : List ℝ) (hγ : ∀ γ ∈ γs, 0 ≤ γ) (p : List ℝ)
    (hl : p.length ≤ (γs.filter fun γ => γ ≠ 0).length) :
    ∃ C, 0 ≤ C ∧ ∀ z : ℂ, z.re ≤ 0 → ‖z‖ * ‖peval Complex.ofRealHom z p‖
      ≤ C * ‖(γs.map fun γ : ℝ => 1 - (γ : ℂ) * z).prod‖ := by
  obtain ⟨C, hC, h⟩ := bounded_of_length γs hγ (0 :: p) (by simpa using hl)
  refine ⟨C, hC, fun z hz => ?_⟩
  have := h z hz
  rw [peval, map_zero, zero_add, norm_mul] at this
  exact this

/-- The product of the positive numbers. -/
theorem pow_le_prod (γs : List ℝ) (hγ : ∀ γ ∈ γs, 0 ≤ γ) {z : ℂ} (hz : z.re ≤ 0) :
    (γs.filter fun γ => γ ≠ 0).prod * ‖z‖ ^ (γs.filter fun γ => γ ≠ 0).length
      ≤ ‖(γs.map fun γ : ℝ => 1 - (γ : ℂ) * z).prod‖ := by
  induction γs with
  | nil => simp
  | cons γ γs ih =>
    have hγ' : ∀ γ ∈ γs, 0 ≤ γ := fun x hx => hγ x (List.mem_cons_of_mem _ hx)
    have hγ0 := hγ γ (List.mem_cons_self ..)
    have h1 := ih hγ'
    rw [List.map_cons, List.prod_cons, norm_mul]
    by_cases h0 : γ = 0
    · subst h0
      simpa using h1
    · have h2 := mul_norm_le hγ0 hz
      have h3 : (γ :: γs).filter (fun γ => γ ≠ 0) = γ :: γs.filter fun γ => γ ≠ 0 := by simp [h0]
      rw [h3, List.prod_cons, List.length_cons, pow_succ]
      have h4 : 0 ≤ (γs.filter fun γ => γ ≠ 0).prod :=
        List.prod_nonneg fun x hx => hγ' x (List.mem_of_mem_filter hx)
      calc γ * (γs.filter fun γ => γ ≠ 0).prod
            * (‖z‖ ^ (γs.filter fun γ => γ ≠ 0).length * ‖z‖)
          = γ * ‖z‖ * ((γs.filter fun γ => γ ≠ 0).prod
            * ‖z‖ ^ (γs.filter fun γ => γ ≠ 0).length) := by ring
        _ ≤ _ := by gcongr

/-! ### Checks over a computable field -/

section
variable {R : Type} [Field R] [DecidableEq R]

/-- Bound `c` of the stability function on the imaginary axis and `ε` at infinity, diagonal entries
that are not negative, and a numerator of at most the degree of the denominator. -/
def checkStable (low : R → ℚ → Bool) (c ε : ℚ) (cert : List (ℚ × ℚ × ℚ)) {s : ℕ}
    (A : Fin s → Fin s → R) (b : Fin s → R) : Bool :=
  let nd := numDen (rowsOf A) (List.ofFn b)
  let pos := (List.ofFn fun i => A i i).filter fun γ => γ ≠ 0
  (List.ofFn fun i => low (A i i) 0).all id &&
    (nd.1.drop (pos.length + 1)).all (fun x => decide (x = 0)) &&
    low ((ε : R) * pos.prod - nd.1.getD pos.length 0) 0 &&
    low ((ε : R) * pos.prod + nd.1.getD pos.length 0) 0 &&
    cert.all certOk &&
    geCoeffs low
      (padd (pscale ((c ^ 2 : ℚ) : R) (axisSq nd.2)) (pscale (-1) (axisSq nd.1))) (sumCert cert)

/-- What `checkStable` shows about a tableau with real coefficients: with `z = h λ` in the left half
plane, the solution of the stage equations of `y' = λ y` is bounded by `c` times the start. -/
def StableBy {s : ℕ} (c : ℝ) (A : Fin s → Fin s → ℝ) (b : Fin s → ℝ) : Prop :=
  ∀ (z ξ : ℂ) (k : Fin s → ℂ), z.re ≤ 0 → (∀ i, k i = z * (ξ + ∑ j, (A i j : ℂ) * k j)) →
    ‖ξ + ∑ i, (b i : ℂ) * k i‖ ≤ c * ‖ξ‖

/-- For large `z = h λ` in the left half plane the result is bounded by `ε` times the start, up to a
multiple of `1 / |z|`. -/
def DampsBy {s : ℕ} (ε : ℝ) (A : Fin s → Fin s → ℝ) (b : Fin s → ℝ) : Prop :=
  ∃ C : ℝ, 0 ≤ C ∧ ∀ (z ξ : ℂ) (k : Fin s → ℂ), z.re ≤ 0 →
    (∀ i, k i = z * (ξ + ∑ j, (A i j : ℂ) * k j)) →
    ‖z‖ * ‖ξ + ∑ i, (b i : ℂ) * k i‖ ≤ (ε * ‖z‖ + C) * ‖ξ‖

variable {low : R → ℚ → Bool} {φ : R →+* ℝ} {c ε : ℚ} {cert : List (ℚ × ℚ × ℚ)} {s : ℕ}
  {A : Fin s → Fin s → R} {b : Fin s → R}

theorem filter_map_length (l : List R) :
    ((l.map φ).filter fun γ => γ ≠ 0).length = (l.filter fun γ => γ ≠ 0).length := by
  rw [List.filter_map, List.length_map]
  congr 1
  refine List.filter_congr fun x _ => ?_
  simp

theorem filter_map_prod (l : List R) :
    ((l.map φ).filter fun γ => γ ≠ 0).prod = φ (l.filter fun γ => γ ≠ 0).prod := by
  rw [List.filter_map, map_list_prod]
  congr 2
  refine List.filter_congr fun x _ => ?_
  simp

/-- The facts behind both properties. -/
theorem checkStable_facts (hlow : ∀ x q, low x q = true → (q : ℝ) ≤ φ x)
    (h : checkStable low c ε cert A b = true) :
    let nd := numDen (rowsOf A) (List.ofFn b)
    let γs := List.ofFn fun i => φ (A i i)
    (∀ γ ∈ γs, 0 ≤ γ)
      ∧ (∀ a ∈ nd.1.drop ((γs.filter fun γ => γ ≠ 0).length + 1), a = 0)
      ∧ |φ (nd.1.getD (γs.filter fun γ => γ ≠ 0).length 0)|
        ≤ ε * (γs.filter fun γ => γ ≠ 0).prod
      ∧ ∀ y : ℝ, peval φ (y * y) (axisSq nd.1) ≤ c ^ 2 * peval φ (y * y) (axisSq nd.2) := by
  simp only [checkStable, Bool.and_eq_true] at h
  obtain ⟨⟨⟨⟨⟨h1, h3⟩, h8⟩, h9⟩, h4⟩, h5⟩ := h
  simp only [List.all_eq_true, decide_eq_true_eq] at h1 h3
  have e : (List.ofFn fun i => φ (A i i)) = (List.ofFn fun i => A i i).map φ := by
    simp [List.map_ofFn, Function.comp_def]
  intro nd γs
  have hlen : (γs.filter fun γ => γ ≠ 0).length
      = ((List.ofFn fun i => A i i).filter fun γ => γ ≠ 0).length := by
    simp only [γs]
    rw [e, filter_map_length]
  have hprod : (γs.filter fun γ => γ ≠ 0).prod
      = φ ((List.ofFn fun i => A i i).filter fun γ => γ ≠ 0).prod := by
    simp only [γs]
    rw [e, filter_map_prod]
  refine ⟨?_, by rw [hlen]; exact h3, ?_, fun y => ?_⟩
  · intro γ hγ
    obtain ⟨i, rfl⟩ := (List.mem_ofFn' _ _).mp hγ
    have := h1 (low (A i i) 0) ((List.mem_ofFn' _ _).mpr ⟨i, rfl⟩)
    simpa using hlow _ _ this
  · have a1 := hlow _ _ h8
    have a2 := hlow _ _ h9
    rw [map_sub, map_mul, map_ratCast, Rat.cast_zero] at a1
    rw [map_add, map_mul, map_ratCast, Rat.cast_zero] at a2
    rw [hlen, hprod, abs_le]
    constructor <;> linarith
  · have h6 := sumCert_nonneg h4 (mul_self_nonneg y)
    have h7 := geCoeffs_sound hlow _ _ h5 (mul_self_nonneg y)
    rw [peval_padd, peval_pscale, peval_pscale, map_neg, map_one, map_ratCast] at h7
    push_cast at h7
    linarith

omit [DecidableEq R] in
theorem norm_axis (p : List R) (y : ℝ) :
    ‖peval (Complex.ofRealHom.comp φ) (y * I) p‖ ^ 2 = peval φ (y * y) (axisSq p) := by
  have hr : ∀ q : List R, peval (Complex.ofRealHom.comp φ) ((y : ℂ) * y) q
      = ((peval φ (y * y) q : ℝ) : ℂ) := fun q => by
    induction q with
    | nil => simp [peval]
    | cons a q ih =>
      simp only [peval, ih, RingHom.comp_apply, Complex.ofRealHom_eq_coe]
      push_cast
      ring
  rw [peval_reim _ (y : ℂ) I (by simp), hr, hr, peval_axisSq, ← Complex.normSq_eq_norm_sq,
    Complex.normSq_apply]
  simp
  ring

omit [DecidableEq R] in
theorem map_prod_eq (A : Fin s → Fin s → R) (z : ℂ) :
    ((rowsOf A).map fun r => 1 - (Complex.ofRealHom.comp φ) r.1 * z).prod
      = ((List.ofFn fun i => φ (A i i)).map fun γ : ℝ => 1 - (γ : ℂ) * z).prod := by
  simp [rowsOf, List.map_ofFn, Function.comp_def]

/-- Soundness of the check. -/
theorem checkStable_sound (hlow : ∀ x q, low x q = true → (q : ℝ) ≤ φ x) (hc : 0 ≤ c)
    (hA : ∀ i j, i < j → A i j = 0) (h : checkStable low c ε cert A b = true) :
    StableBy (c : ℝ) (fun i j => φ (A i j)) (fun i => φ (b i)) := by
  obtain ⟨h1, h3, -, h4⟩ := checkStable_facts hlow h
  intro z ξ κ hz hk
  have hstep := numDen_step (Complex.ofRealHom.comp φ) (z := z) (ξ := ξ) A b hA κ hk
  set p := (numDen (rowsOf A) (List.ofFn b)).1
  set q := (numDen (rowsOf A) (List.ofFn b)).2 with hqdef
  set γs := List.ofFn fun i => φ (A i i)
  have hq : ∀ z : ℂ, peval (Complex.ofRealHom.comp φ) z q
      = (γs.map fun γ : ℝ => 1 - (γ : ℂ) * z).prod := fun z => by
    rw [hqdef, numDen_den, map_prod_eq]
  have hp : ∀ z : ℂ, peval Complex.ofRealHom z
      ((p.take ((γs.filter fun γ => γ ≠ 0).length + 1)).map φ)
        = peval (Complex.ofRealHom.comp φ) z p := fun z => by
    rw [peval_map, peval_take]
    exact h3
  have hq' : ∀ z : ℂ, peval Complex.ofRealHom z (q.map φ)
      = peval (Complex.ofRealHom.comp φ) z q := fun z => peval_map _ _ _ _
  have key := le_of_axis γs h1 ((p.take ((γs.filter fun γ => γ ≠ 0).length + 1)).map φ) (q.map φ)
    (C := c) (by rw [List.length_map, List.length_take]; omega)
    (fun z => by rw [hq', hq]) (fun y => by
      rw [hp, hq']
      refine (sq_le_sq₀ (norm_nonneg _)
        (mul_nonneg (by exact_mod_cast hc) (norm_nonneg _))).mp ?_
      rw [mul_pow, norm_axis, norm_axis]
      exact h4 y) hz
  rw [hp, hq'] at key
  have hq1 : 1 ≤ ‖peval (Complex.ofRealHom.comp φ) z q‖ := by
    rw [hq]; exact one_le_prod γs h1 hz
  have h5 := congrArg norm hstep
  rw [norm_mul, norm_mul] at h5
  refine le_of_mul_le_mul_right ?_ (lt_of_lt_of_le one_pos hq1)
  calc _ = ‖peval (Complex.ofRealHom.comp φ) z p‖ * ‖ξ‖ := h5
    _ ≤ c * ‖peval (Complex.ofRealHom.comp φ) z q‖ * ‖ξ‖ := by gcongr
    _ = _ := by ring

omit [DecidableEq R] in
theorem peval_take_succ (n : ℕ) (p : List R) (z : ℂ) :
    peval (Complex.ofRealHom.comp φ) z (p.take (n + 1))
      = peval (Complex.ofRealHom.comp φ) z (p.take n) + z ^ n * (φ (p.getD n 0) : ℝ) := by
  induction p generalizing n with
  | nil => simp [peval]
  | cons a p ih =>
    cases n with
    | zero => simp [peval]
    | succ n =>
      rw [List.take_succ_cons, List.take_succ_cons, peval, peval, ih, List.getD_cons_succ]
      ring

/-- Soundness of the check at infinity. -/
theorem checkStable_damps (hlow : ∀ x q, low x q = true → (q : ℝ) ≤ φ x)
    (hA : ∀ i j, i < j → A i j = 0) (h : checkStable low c ε cert A b = true) :
    DampsBy (ε : ℝ) (fun i j => φ (A i j)) (fun i => φ (b i)) := by
  obtain ⟨h1, h3, h4, -⟩ := checkStable_facts hlow h
  set p := (numDen (rowsOf A) (List.ofFn b)).1 with hpdef
  set q := (numDen (rowsOf A) (List.ofFn b)).2 with hqdef
  set γs := List.ofFn fun i => φ (A i i)
  set n := (γs.filter fun γ => γ ≠ 0).length
  have hq : ∀ z : ℂ, peval (Complex.ofRealHom.comp φ) z q
      = (γs.map fun γ : ℝ => 1 - (γ : ℂ) * z).prod := fun z => by
    rw [hqdef, numDen_den, map_prod_eq]
  have hp : ∀ z : ℂ, peval (Complex.ofRealHom.comp φ) z p
      = peval Complex.ofRealHom z ((p.take n).map φ) + z ^ n * (φ (p.getD n 0) : ℝ) := fun z => by
    rw [peval_map, ← peval_take_succ, peval_take]
    exact h3
  obtain ⟨C, hC, key⟩ := decay_of_length γs h1 ((p.take n).map φ)
    (by rw [List.length_map, List.length_take]; omega)
  refine ⟨C, hC, fun z ξ κ hz hk => ?_⟩
  have hstep := numDen_step (Complex.ofRealHom.comp φ) (z := z) (ξ := ξ) A b hA κ hk
  rw [← hpdef, ← hqdef] at hstep
  have hkey := key z hz
  rw [← hq] at hkey
  have hpow := pow_le_prod γs h1 hz
  rw [← hq] at hpow
  have hq1 : 1 ≤ ‖peval (Complex.ofRealHom.comp φ) z q‖ := by
    rw [hq]; exact one_le_prod γs h1 hz
  have hε : 0 ≤ (ε : ℝ) * (γs.filter fun γ => γ ≠ 0).prod := (abs_nonneg _).trans h4
  have hprod : 0 < (γs.filter fun γ => γ ≠ 0).prod :=
    List.prod_pos fun x hx => by
      have := List.mem_filter.mp hx
      exact lt_of_le_of_ne (h1 x this.1) (Ne.symm (by simpa using this.2))
  have hε0 : 0 ≤ (ε : ℝ) := nonneg_of_mul_nonneg_left hε hprod
  have hlead : ‖z ^ n * ((φ (p.getD n 0) : ℝ) : ℂ)‖
      ≤ ε * ‖peval (Complex.ofRealHom.comp φ) z q‖ := by
    rw [norm_mul, norm_pow, Complex.norm_real, Real.norm_eq_abs]
    calc ‖z‖ ^ n * |φ (p.getD n 0)| ≤ ‖z‖ ^ n * (ε * (γs.filter fun γ => γ ≠ 0).prod) := by gcongr
      _ = ε * ((γs.filter fun γ => γ ≠ 0).prod * ‖z‖ ^ n) := by ring
      _ ≤ _ := by gcongr
  have h5 := congrArg norm hstep
  rw [norm_mul, norm_mul] at h5
  refine le_of_mul_le_mul_right ?_ (lt_of_lt_of_le one_pos hq1)
  calc _ = ‖z‖ * (‖peval (Complex.ofRealHom.comp φ) z p‖ * ‖ξ‖) := by
        rw [mul_assoc]
        exact congrArg (‖z‖ * ·) h5
    _ ≤ ‖z‖ * ((‖peval Complex.ofRealHom z ((p.take n).map φ)‖
          + ε * ‖peval (Complex.ofRealHom.comp φ) z q‖) * ‖ξ‖) := by
        have : ‖peval (Complex.ofRealHom.comp φ) z p‖
            ≤ ‖peval Complex.ofRealHom z ((p.take n).map φ)‖
              + ε * ‖peval (Complex.ofRealHom.comp φ) z q‖ := by
          rw [hp]
          exact (norm_add_le _ _).trans (add_le_add_right hlead _)
        gcongr
    _ = (‖z‖ * ‖peval Complex.ofRealHom z ((p.take n).map φ)‖
          + ε * ‖z‖ * ‖peval (Complex.ofRealHom.comp φ) z q‖) * ‖ξ‖ := by ring
    _ ≤ (C * ‖peval (Complex.ofRealHom.comp φ) z q‖
          + ε * ‖z‖ * ‖peval (Complex.ofRealHom.comp φ) z q‖) * ‖ξ‖ := by gcongr
    _ = _ := by ring

end

end Verif.Stab
