/-
The stability function of an explicit scheme is a polynomial and grows without bound.
-/
import Verif.Stab.Linear
import Verif.Tableau.Shipped

namespace Verif.Stab

open Verif.RK Verif.RK.Spec

section Coeff
variable {R : Type} [CommRing R]

theorem coeff_padd (p q : List R) (k : ℕ) :
    (padd p q).getD k 0 = p.getD k 0 + q.getD k 0 := by
  induction p generalizing q k with
  | nil => simp [padd]
  | cons a p ih =>
    cases q with
    | nil => simp [padd]
    | cons b q =>
      cases k with
      | zero => simp [padd]
      | succ k => simpa [padd] using ih q k

theorem coeff_pscale (c : R) (p : List R) (k : ℕ) :
    (pscale c p).getD k 0 = c * p.getD k 0 := by
  induction p generalizing k with
  | nil => simp [pscale]
  | cons a p ih =>
    cases k with
    | zero => simp [pscale]
    | succ k => simpa [pscale] using ih k

theorem coeff_den_zero (r : R) (q : List R) : (pmul [1, -r] q).getD 0 0 = q.getD 0 0 := by
  rw [pmul, coeff_padd, coeff_pscale]
  simp

theorem coeff_den_one (r : R) (q : List R) :
    (pmul [1, -r] q).getD 1 0 = q.getD 1 0 - r * q.getD 0 0 := by
  rw [pmul, coeff_padd, coeff_pscale, List.getD_cons_succ, pmul, coeff_padd, coeff_pscale]
  simp
  ring

/-- Lowest coefficients of denominator and numerators for an explicit scheme. -/
def LowInv (st : List R × List (List R)) : Prop :=
  st.1.getD 0 0 = 1 ∧ st.1.getD 1 0 = 0 ∧ ∀ n ∈ st.2, n.getD 0 0 = 0 ∧ n.getD 1 0 = 1

theorem coeff_comb_zero (row : List R) (ns : List (List R)) (h : ∀ n ∈ ns, n.getD 0 0 = 0) :
    (comb row ns).getD 0 0 = 0 := by
  induction ns generalizing row with
  | nil => cases row <;> simp [comb]
  | cons n ns ih =>
    cases row with
    | nil => simp [comb]
    | cons a row =>
      rw [comb, coeff_padd, coeff_pscale, h n (List.mem_cons_self ..),
        ih _ fun n hn => h n (List.mem_cons_of_mem _ hn)]
      simp

theorem coeff_comb_one (row : List R) (ns : List (List R)) (hl : row.length = ns.length)
    (h : ∀ n ∈ ns, n.getD 1 0 = 1) : (comb row ns).getD 1 0 = row.sum := by
  induction ns generalizing row with
  | nil =>
    cases row with
    | nil => simp [comb]
    | cons a row => simp at hl
  | cons n ns ih =>
    cases row with
    | nil => simp at hl
    | cons a row =>
      rw [comb, coeff_padd, coeff_pscale, h n (List.mem_cons_self ..),
        ih row (by simpa using hl) fun n hn => h n (List.mem_cons_of_mem _ hn)]
      simp

theorem addStage_low {st : List R × List (List R)} (h : LowInv st) (row : R × List R)
    (hr : row.1 = 0) : LowInv (addStage st row) := by
  obtain ⟨h1, h2, h3⟩ := h
  refine ⟨?_, ?_, ?_⟩
  · rw [addStage, coeff_den_zero, h1]
  · rw [addStage, coeff_den_one, h2, hr]
    simp
  · intro n hn
    rw [addStage] at hn
    rcases List.mem_append.mp hn with hn | hn
    · obtain ⟨n', hn', rfl⟩ := List.mem_map.mp hn
      rw [coeff_den_zero, coeff_den_one, (h3 n' hn').1, (h3 n' hn').2, hr]
      simp
    · rw [List.mem_singleton.mp hn, List.getD_cons_zero, List.getD_cons_succ, coeff_padd, h1,
        coeff_comb_zero _ _ fun n hn => (h3 n hn).1]
      simp

theorem stages_low (rows : List (R × List R)) (hr : ∀ r ∈ rows, r.1 = 0)
    (st : List R × List (List R)) (h : LowInv st) :
    LowInv (rows.foldl addStage st)
      ∧ (rows.foldl addStage st).2.length = st.2.length + rows.length := by
  induction rows generalizing st with
  | nil => exact ⟨h, rfl⟩
  | cons r rows ih =>
    have := ih (fun q hq => hr q (List.mem_cons_of_mem _ hq)) (addStage st r)
      (addStage_low h r (hr r (List.mem_cons_self ..)))
    refine ⟨this.1, ?_⟩
    rw [List.foldl_cons, this.2, List.length_cons]
    simp [addStage]
    omega

/-- The coefficient of `z` is the sum of the weights. -/
theorem numDen_coeff_one {s : ℕ} (A : Fin s → Fin s → R) (b : Fin s → R)
    (hA : ∀ i, A i i = 0) : (numDen (rowsOf A) (List.ofFn b)).1.getD 1 0 = ∑ i, b i := by
  obtain ⟨⟨h1, h2, h3⟩, h4⟩ := stages_low (rowsOf A) (fun r hr => by
    obtain ⟨i, rfl⟩ := (List.mem_ofFn' _ _).mp hr
    exact hA i) ([1], []) ⟨by simp, by simp, by simp⟩
  simp only [numDen]
  rw [coeff_padd, h2, zero_add, coeff_comb_one _ _ ?_ fun n hn => (h3 n hn).2, List.sum_ofFn]
  rw [h4]
  simp [rowsOf]

end Coeff

/-- A polynomial with a coefficient that is not zero stays away from zero for large arguments. -/
theorem away_from_zero (p : List ℝ) (hp : ∃ k, p.getD k 0 ≠ 0) :
    ∃ δ Z : ℝ, 0 < δ ∧ ∀ z : ℂ, Z ≤ ‖z‖ → δ ≤ ‖peval Complex.ofRealHom z p‖ := by
  induction p with
  | nil => simp at hp
  | cons a p ih =>
    by_cases h : ∃ k, p.getD k 0 ≠ 0
    · obtain ⟨δ, Z, hδ, hZ⟩ := ih h
      refine ⟨1, max Z ((1 + |a|) / δ), one_pos, fun z hz => ?_⟩
      have h1 := hZ z ((le_max_left _ _).trans hz)
      have h2 := (le_max_right _ _).trans hz
      rw [div_le_iff₀ hδ] at h2
      have h3 : ‖z‖ * δ ≤ ‖z * peval Complex.ofRealHom z p‖ := by
        rw [norm_mul]; gcongr
      have h4 := norm_sub_norm_le (z * peval Complex.ofRealHom z p) (-(Complex.ofRealHom a : ℂ))
      rw [peval, add_comm]
      rw [sub_neg_eq_add, norm_neg] at h4
      have h5 : ‖(Complex.ofRealHom a : ℂ)‖ = |a| := by simp
      linarith
    · push Not at h
      have h0 : a ≠ 0 := by
        obtain ⟨k, hk⟩ := hp
        cases k with
        | zero => simpa using hk
        | succ k => exact absurd (h k) (by simpa using hk)
      refine ⟨|a|, 0, abs_pos.mpr h0, fun z _ => ?_⟩
      have : peval Complex.ofRealHom z p = 0 := by
        refine peval_of_zeros _ _ _ fun x hx => ?_
        obtain ⟨k, hk, rfl⟩ := List.getElem_of_mem hx
        have := h k
        simpa [List.getD_eq_getElem?_getD, hk] using this
      rw [peval, this]
      simp

/-- A polynomial that is not constant grows without bound. -/
theorem grows (p : List ℝ) (hp : p.getD 1 0 ≠ 0) (K : ℝ) :
    ∃ Z : ℝ, ∀ z : ℂ, Z ≤ ‖z‖ → K ≤ ‖peval Complex.ofRealHom z p‖ := by
  cases p with
  | nil => simp at hp
  | cons a p =>
    obtain ⟨δ, Z, hδ, hZ⟩ := away_from_zero p ⟨0, by simpa using hp⟩
    refine ⟨max Z ((K + |a|) / δ), fun z hz => ?_⟩
    have h1 := hZ z ((le_max_left _ _).trans hz)
    have h2 := (le_max_right _ _).trans hz
    rw [div_le_iff₀ hδ] at h2
    have h3 : ‖z‖ * δ ≤ ‖z * peval Complex.ofRealHom z p‖ := by
      rw [norm_mul]; gcongr
    have h4 := norm_sub_norm_le (z * peval Complex.ofRealHom z p) (-(Complex.ofRealHom a : ℂ))
    rw [peval, add_comm]
    rw [sub_neg_eq_add, norm_neg] at h4
    have h5 : ‖(Complex.ofRealHom a : ℂ)‖ = |a| := by simp
    linarith

/-- What an explicit scheme does to `y' = λ y`. -/
theorem explicit_step {s : ℕ} {A : Fin s → Fin s → ℝ} {b : Fin s → ℝ}
    (hA : StrictlyLower A) (z ξ : ℂ) (k : Fin s → ℂ)
    (h : ∀ i, k i = z * (ξ + ∑ j, (A i j : ℂ) * k j)) :
    ξ + ∑ i, (b i : ℂ) * k i
      = peval Complex.ofRealHom z (numDen (rowsOf A) (List.ofFn b)).1 * ξ := by
  have h1 := numDen_step Complex.ofRealHom (z := z) (ξ := ξ) A b (fun i j hij => hA i j hij.le) k h
  rw [numDen_den] at h1
  have h2 : ((rowsOf A).map fun r => 1 - Complex.ofRealHom r.1 * z).prod = 1 := by
    refine List.prod_eq_one fun x hx => ?_
    obtain ⟨r, hr, rfl⟩ := List.mem_map.mp hx
    obtain ⟨i, rfl⟩ := (List.mem_ofFn' _ _).mp hr
    simp [hA i i le_rfl]
  rwa [h2, mul_one] at h1

/-- No explicit scheme with weights that do not sum up to zero is stable for all step sizes. -/
theorem explicit_grows {s : ℕ} {A : Fin s → Fin s → ℝ} {b : Fin s → ℝ} (hA : StrictlyLower A)
    (hb : ∑ i, b i ≠ 0) (K : ℝ) : ∃ Z : ℝ, ∀ (z ξ : ℂ) (k : Fin s → ℂ), Z ≤ ‖z‖ →
      (∀ i, k i = z * (ξ + ∑ j, (A i j : ℂ) * k j)) →
      K * ‖ξ‖ ≤ ‖ξ + ∑ i, (b i : ℂ) * k i‖ := by
  obtain ⟨Z, hZ⟩ := grows (numDen (rowsOf A) (List.ofFn b)).1
    (by rw [numDen_coeff_one A b fun i => hA i i le_rfl]; exact hb) K
  refine ⟨Z, fun z ξ k hz h => ?_⟩
  rw [explicit_step hA z ξ k h, norm_mul]
  exact mul_le_mul_of_nonneg_right (hZ z hz) (norm_nonneg _)

/-- The factor of an explicit scheme with rational coefficients. -/
theorem explicit_rat_step (T : Tableau.Tableau ℚ) (hA : StrictlyLower T.A) (z ξ : ℂ)
    (k : Fin T.stages → ℂ)
    (h : ∀ i, k i = z * (ξ + ∑ j, ((T.map (Rat.castHom ℝ)).A i j : ℂ) * k j)) :
    ξ + ∑ i, ((T.map (Rat.castHom ℝ)).b i : ℂ) * k i
      = peval (Complex.ofRealHom.comp (Rat.castHom ℝ)) z
          (numDen (rowsOf T.A) (List.ofFn T.b)).1 * ξ := by
  have h1 := numDen_step (Complex.ofRealHom.comp (Rat.castHom ℝ)) (z := z) (ξ := ξ) T.A T.b
    (fun i j hij => hA i j hij.le) k h
  rw [numDen_den] at h1
  have h2 : ((rowsOf T.A).map fun r =>
      1 - (Complex.ofRealHom.comp (Rat.castHom ℝ)) r.1 * z).prod = 1 := by
    refine List.prod_eq_one fun x hx => ?_
    obtain ⟨r, hr, rfl⟩ := List.mem_map.mp hx
    obtain ⟨i, rfl⟩ := (List.mem_ofFn' _ _).mp hr
    simp [hA i i le_rfl]
  rw [h2, mul_one] at h1
  exact h1

variable {s n m : ℕ} {A : Fin s → Fin s → ℝ} {b c : Fin s → ℝ} {f : Rhs ℝ n m} {p : Fin m → ℝ}

/-- `N` equal steps along an eigenvector, from above. -/
theorem repeat_le {q : ℝ} (hq : 0 ≤ q) {L : Matrix (Fin n) (Fin n) ℝ}
    {g : ℝ → (Fin m → ℝ) → Fin n → ℝ} (hf : IsAffine f L g) {w : Fin n → ℂ} {l : ℂ}
    (hw : LeftEigen L w l) {h : ℝ}
    (hz : ∀ (ξ : ℂ) (k : Fin s → ℂ), (∀ i, k i = h * l * (ξ + ∑ j, (A i j : ℂ) * k j)) →
      ‖ξ + ∑ i, (b i : ℂ) * k i‖ ≤ q * ‖ξ‖) (N : ℕ) {t t₁ t₁' : ℝ} {y y' y₁ y₁' : Fin n → ℝ}
    (h1 : IsTrajectory A b c f p t y (List.replicate N h) t₁ y₁)
    (h2 : IsTrajectory A b c f p t y' (List.replicate N h) t₁' y₁') :
    ‖along w (y₁ - y₁')‖ ≤ q ^ N * ‖along w (y - y')‖ := by
  induction N generalizing t y y' with
  | zero =>
    cases h1
    cases h2
    simp
  | succ N ih =>
    rw [List.replicate_succ] at h1 h2
    cases h1 with
    | cons hst hr =>
      cases h2 with
      | cons hst' hr' =>
        obtain ⟨κ, h3, h4⟩ := along_steps hf hw hst hst'
        have h5 := hz _ κ h3
        rw [← h4] at h5
        rw [pow_succ, mul_assoc]
        exact (ih hr hr').trans (mul_le_mul_of_nonneg_left h5 (pow_nonneg hq _))

/-- `N` equal steps along an eigenvector, from below. -/
theorem repeat_ge {q : ℝ} (hq : 0 ≤ q) {L : Matrix (Fin n) (Fin n) ℝ}
    {g : ℝ → (Fin m → ℝ) → Fin n → ℝ} (hf : IsAffine f L g) {w : Fin n → ℂ} {l : ℂ}
    (hw : LeftEigen L w l) {h : ℝ}
    (hz : ∀ (ξ : ℂ) (k : Fin s → ℂ), (∀ i, k i = h * l * (ξ + ∑ j, (A i j : ℂ) * k j)) →
      q * ‖ξ‖ ≤ ‖ξ + ∑ i, (b i : ℂ) * k i‖) (N : ℕ) {t t₁ t₁' : ℝ} {y y' y₁ y₁' : Fin n → ℝ}
    (h1 : IsTrajectory A b c f p t y (List.replicate N h) t₁ y₁)
    (h2 : IsTrajectory A b c f p t y' (List.replicate N h) t₁' y₁') :
    q ^ N * ‖along w (y - y')‖ ≤ ‖along w (y₁ - y₁')‖ := by
  induction N generalizing t y y' with
  | zero =>
    cases h1
    cases h2
    simp
  | succ N ih =>
    rw [List.replicate_succ] at h1 h2
    cases h1 with
    | cons hst hr =>
      cases h2 with
      | cons hst' hr' =>
        obtain ⟨κ, h3, h4⟩ := along_steps hf hw hst hst'
        have h5 := hz _ κ h3
        rw [← h4] at h5
        rw [pow_succ, mul_assoc]
        exact (mul_le_mul_of_nonneg_left h5 (pow_nonneg hq _)).trans (ih hr hr')

/-- In a symmetric problem the sum of squares follows from the components along eigenvectors. -/
theorem sum_sq_le_of_along {L : Matrix (Fin n) (Fin n) ℝ} (hL : ∀ x x', L x x' = L x' x)
    (hneg : ∀ u : Fin n → ℝ, ∑ x, ∑ x', u x * L x x' * u x' ≤ 0) {d d' : Fin n → ℝ} {q : ℝ}
    (hd : ∀ (w : Fin n → ℂ) (l : ℂ), LeftEigen L w l → l.re ≤ 0 →
      ‖along w d'‖ ≤ q * ‖along w d‖) :
    ∑ x, d' x ^ 2 ≤ q ^ 2 * ∑ x, d x ^ 2 := by
  have hH : L.IsHermitian := by
    ext x x'
    simp [hL x x']
  have hmul : ∀ (j : Fin n) (x : Fin n), ∑ x', L x x' * hH.eigenvectorBasis j x'
      = hH.eigenvalues j * hH.eigenvectorBasis j x := fun j x => by
    have := congrFun (hH.mulVec_eigenvectorBasis j) x
    simpa [Matrix.mulVec, dotProduct] using this
  have hev : ∀ j, hH.eigenvalues j ≤ 0 := fun j => by
    have h1 := hneg (hH.eigenvectorBasis j)
    have h2 : ∑ x, ∑ x', hH.eigenvectorBasis j x * L x x' * hH.eigenvectorBasis j x'
        = hH.eigenvalues j * ∑ x, hH.eigenvectorBasis j x ^ 2 := by
      rw [Finset.mul_sum]
      refine Finset.sum_congr rfl fun x _ => ?_
      have : ∑ x', hH.eigenvectorBasis j x * L x x' * hH.eigenvectorBasis j x'
          = hH.eigenvectorBasis j x * ∑ x', L x x' * hH.eigenvectorBasis j x' := by
        rw [Finset.mul_sum]
        exact Finset.sum_congr rfl fun x' _ => by ring
      rw [this, hmul]
      ring
    have h3 : ∑ x, hH.eigenvectorBasis j x ^ 2 = 1 := by
      have := hH.eigenvectorBasis.orthonormal.1 j
      rw [EuclideanSpace.norm_eq, Real.sqrt_eq_one] at this
      simpa using this
    rw [h2, h3, mul_one] at h1
    exact h1
  let W : Fin n → Fin n → ℂ := fun j x => (hH.eigenvectorBasis j x : ℂ)
  have hW : ∀ j, LeftEigen L (W j) (hH.eigenvalues j : ℂ) := fun j x' => by
    have := hmul j x'
    simp only [W]
    rw [← Complex.ofReal_mul, ← this]
    push_cast
    exact Finset.sum_congr rfl fun x _ => by rw [hL x x']; ring
  have hn : ∀ (e : Fin n → ℝ), ∑ j, ‖along (W j) e‖ ^ 2 = ∑ x, e x ^ 2 := fun e => by
    have h1 := hH.eigenvectorBasis.sum_sq_norm_inner_right (WithLp.toLp 2 e)
    rw [EuclideanSpace.norm_sq_eq] at h1
    simp only [Real.norm_eq_abs, sq_abs] at h1
    rw [← h1]
    refine Finset.sum_congr rfl fun j _ => ?_
    have h2 : along (W j) e = ((∑ x, hH.eigenvectorBasis j x * e x : ℝ) : ℂ) := by
      simp only [along, W]
      push_cast
      rfl
    rw [h2, Complex.norm_real, Real.norm_eq_abs, sq_abs]
    congr 1
    simp only [PiLp.inner_apply]
    exact Finset.sum_congr rfl fun x _ => by simp [mul_comm]
  rw [← hn d', ← hn d, Finset.mul_sum]
  refine Finset.sum_le_sum fun j _ => ?_
  have h1 := hd (W j) _ (hW j) (by simpa using hev j)
  rw [← mul_pow]
  exact pow_le_pow_left₀ (norm_nonneg _) h1 2

end Verif.Stab
