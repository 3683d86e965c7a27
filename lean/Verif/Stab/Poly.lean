/-
Polynomials as lists of coefficients, and the stability function of a diagonally implicit scheme as
the quotient of two such polynomials. Specification side only: nothing here is in the code.
-/
import Mathlib.Algebra.BigOperators.Fin
import Mathlib.Algebra.BigOperators.Intervals
import Mathlib.Algebra.Order.Field.Basic
import Mathlib.Data.Real.Basic
import Mathlib.Data.Rat.Cast.Order
import Mathlib.Tactic.Ring
import Mathlib.Tactic.LinearCombination
import Mathlib.Tactic.Positivity
import Mathlib.Tactic.Linarith

namespace Verif.Stab

section Poly
variable {R S : Type} [CommRing R] [CommRing S]

/-- Sum of polynomials, lowest coefficient first. -/
def padd : List R → List R → List R
  | [], q => q
  | a :: p, [] => a :: p
  | a :: p, b :: q => (a + b) :: padd p q

/-- Multiple of a polynomial. -/
def pscale (c : R) (p : List R) : List R := p.map (c * ·)

/-- Product of polynomials. -/
def pmul : List R → List R → List R
  | [], _ => []
  | a :: p, q => padd (pscale a q) (0 :: pmul p q)

/-- Value of a polynomial with coefficients mapped to another ring. -/
def peval (φ : R →+* S) (z : S) : List R → S
  | [] => 0
  | a :: p => φ a + z * peval φ z p

variable (φ : R →+* S) (z : S)

theorem peval_padd (p q : List R) : peval φ z (padd p q) = peval φ z p + peval φ z q := by
  induction p generalizing q with
  | nil => simp [padd, peval]
  | cons a p ih =>
    cases q with
    | nil => simp [padd, peval]
    | cons b q => simp only [padd, peval, ih, map_add]; ring

theorem peval_pscale (c : R) (p : List R) : peval φ z (pscale c p) = φ c * peval φ z p := by
  induction p with
  | nil => simp [pscale, peval]
  | cons a p ih =>
    unfold pscale at ih
    simp only [pscale, List.map_cons, peval, map_mul, ih]; ring

theorem peval_pmul (p q : List R) : peval φ z (pmul p q) = peval φ z p * peval φ z q := by
  induction p with
  | nil => simp [pmul, peval]
  | cons a p ih => simp only [pmul, peval_padd, peval_pscale, peval, map_zero, ih]; ring

theorem peval_of_zeros (p : List R) (h : ∀ a ∈ p, a = 0) : peval φ z p = 0 := by
  induction p with
  | nil => rfl
  | cons a p ih =>
    rw [peval, ih fun b hb => h b (List.mem_cons_of_mem _ hb), h a (List.mem_cons_self ..)]
    simp

/-- Only leading zeros are lost by cutting a polynomial. -/
theorem peval_take (k : ℕ) (p : List R) (h : ∀ a ∈ p.drop k, a = 0) :
    peval φ z (p.take k) = peval φ z p := by
  induction p generalizing k with
  | nil => simp
  | cons a p ih =>
    cases k with
    | zero => exact (peval_of_zeros φ z (a :: p) h).symm
    | succ k => rw [List.take_succ_cons, peval, peval, ih k h]

theorem peval_map {T : Type} [CommRing T] (ψ : T →+* R) (p : List T) :
    peval φ z (p.map ψ) = peval (φ.comp ψ) z p := by
  induction p with
  | nil => rfl
  | cons a p ih => simp only [List.map_cons, peval, ih, RingHom.comp_apply]

/-! ### Stages -/

/-- Linear combination of polynomials. -/
def comb : List R → List (List R) → List R
  | a :: r, n :: ns => padd (pscale a n) (comb r ns)
  | _, _ => []

/-- One more stage: `st.1` is the common denominator of the stages so far, `st.2` has their
numerators. `row` is the diagonal entry and the row of the matrix. -/
def addStage (st : List R × List (List R)) (row : R × List R) : List R × List (List R) :=
  (pmul [1, -row.1] st.1, st.2.map (pmul [1, -row.1]) ++ [0 :: padd st.1 (comb row.2 st.2)])

/-- Numerator and denominator of the stability function. -/
def numDen (rows : List (R × List R)) (b : List R) : List R × List R :=
  let st := rows.foldl addStage ([1], [])
  (padd st.1 (comb b st.2), st.1)

variable {z} {ξ : S} {κ : ℕ → S}

theorem peval_comb {D : S} (row : List R) (ns : List (List R)) (hl : ns.length ≤ row.length)
    (h : ∀ j (hj : j < ns.length), peval φ z ns[j] * ξ = κ j * D) :
    peval φ z (comb row ns) * ξ
      = D * ∑ j ∈ Finset.range ns.length, φ (row.getD j 0) * κ j := by
  induction ns generalizing row κ with
  | nil => cases row <;> simp [comb, peval]
  | cons n ns ih =>
    cases row with
    | nil => simp at hl
    | cons a row =>
      have h0 := h 0 (by simp)
      simp only [List.getElem_cons_zero] at h0
      have h1 := ih (κ := fun j => κ (j + 1)) row (by simpa using hl) fun j hj =>
        h (j + 1) (Nat.succ_lt_succ hj)
      rw [comb, peval_padd, peval_pscale, add_mul, h1, List.length_cons, Finset.sum_range_succ']
      simp only [List.getD_cons_succ, List.getD_cons_zero]
      linear_combination φ a * h0

/-- The stages found so far are the quotients of numerators and denominator. -/
def StageInv (φ : R →+* S) (z ξ : S) (κ : ℕ → S) (st : List R × List (List R)) : Prop :=
  ∀ j (hj : j < st.2.length), peval φ z st.2[j] * ξ = κ j * peval φ z st.1

theorem peval_den (r : R) (p : List R) :
    peval φ z (pmul [1, -r] p) = (1 - φ r * z) * peval φ z p := by
  rw [peval_pmul]
  simp only [peval, map_one, map_neg]
  ring

theorem addStage_inv {st : List R × List (List R)} (hi : StageInv φ z ξ κ st) (row : R × List R)
    (hl : st.2.length ≤ row.2.length)
    (h : κ st.2.length = z * (ξ + (∑ j ∈ Finset.range st.2.length, φ (row.2.getD j 0) * κ j)
      + φ row.1 * κ st.2.length)) : StageInv φ z ξ κ (addStage st row) := by
  intro j hj
  simp only [addStage, List.length_append, List.length_map, List.length_singleton] at hj
  rcases Nat.lt_succ_iff_lt_or_eq.mp hj with hj' | rfl
  · have : (addStage st row).2[j]'(by simpa [addStage] using hj) = pmul [1, -row.1] st.2[j] := by
      simp [addStage, List.getElem_append_left, hj']
    rw [this, addStage, peval_den, peval_den]
    linear_combination (1 - φ row.1 * z) * hi j hj'
  · have : (addStage st row).2[st.2.length]'(by simpa [addStage] using hj)
        = 0 :: padd st.1 (comb row.2 st.2) := by
      simp [addStage]
    rw [this, peval, peval_padd, map_zero, addStage, peval_den]
    have h1 := peval_comb φ row.2 st.2 hl hi
    linear_combination z * h1 - peval φ z st.1 * h

theorem stages_inv (rows : List (R × List R)) (st : List R × List (List R))
    (hi : StageInv φ z ξ κ st)
    (hl : ∀ r ∈ rows, st.2.length + rows.length ≤ r.2.length)
    (h : ∀ i (hi : i < rows.length), κ (st.2.length + i)
      = z * (ξ + (∑ j ∈ Finset.range (st.2.length + i), φ (rows[i].2.getD j 0) * κ j)
        + φ rows[i].1 * κ (st.2.length + i))) :
    StageInv φ z ξ κ (rows.foldl addStage st)
      ∧ (rows.foldl addStage st).2.length = st.2.length + rows.length := by
  induction rows generalizing st with
  | nil => exact ⟨hi, rfl⟩
  | cons r rows ih =>
    have hlen : (addStage st r).2.length = st.2.length + 1 := by simp [addStage]
    have h0 := h 0 (by simp)
    simp only [List.getElem_cons_zero, Nat.add_zero] at h0
    have hr := hl r (List.mem_cons_self ..)
    have := ih (addStage st r)
      (addStage_inv φ hi r (by simp at hr; omega) h0)
      (fun q hq => by
        have := hl q (List.mem_cons_of_mem _ hq)
        rw [hlen]; simp at this; omega)
      (fun i hi => by
        have := h (i + 1) (by simpa using hi)
        simp only [List.getElem_cons_succ] at this
        rw [hlen, Nat.add_assoc, Nat.add_comm 1 i]
        exact this)
    refine ⟨this.1, ?_⟩
    rw [List.foldl_cons, this.2, hlen, List.length_cons]
    omega

theorem stages_den (rows : List (R × List R)) (st : List R × List (List R)) :
    peval φ z (rows.foldl addStage st).1
      = peval φ z st.1 * (rows.map fun r => 1 - φ r.1 * z).prod := by
  induction rows generalizing st with
  | nil => simp
  | cons r rows ih =>
    rw [List.foldl_cons, ih, addStage, peval_den, List.map_cons, List.prod_cons]
    ring

theorem numDen_den (rows : List (R × List R)) (b : List R) :
    peval φ z (numDen rows b).2 = (rows.map fun r => 1 - φ r.1 * z).prod := by
  simp only [numDen]
  rw [stages_den]
  simp [peval]

/-- Diagonal and rows of a matrix. -/
def rowsOf {s : ℕ} (A : Fin s → Fin s → R) : List (R × List R) :=
  List.ofFn fun i => (A i i, List.ofFn (A i))

theorem getD_ofFn {s : ℕ} (v : Fin s → R) (j : Fin s) : (List.ofFn v).getD j 0 = v j := by
  simp [List.getD_eq_getElem?_getD]

/-- What a Runge-Kutta step does to the equation `y' = λ y`, `z = h λ`: the result times the
denominator is the start times the numerator. -/
theorem numDen_step {s : ℕ} (A : Fin s → Fin s → R) (b : Fin s → R)
    (hA : ∀ i j, i < j → A i j = 0) (k : Fin s → S)
    (h : ∀ i, k i = z * (ξ + ∑ j, φ (A i j) * k j)) :
    (ξ + ∑ i, φ (b i) * k i) * peval φ z (numDen (rowsOf A) (List.ofFn b)).2
      = peval φ z (numDen (rowsOf A) (List.ofFn b)).1 * ξ := by
  let κ : ℕ → S := fun j => if hj : j < s then k ⟨j, hj⟩ else 0
  have hκ : ∀ j : Fin s, κ j = k j := fun j => by simp [κ]
  have hlen : (rowsOf A).length = s := by simp [rowsOf]
  obtain ⟨h1, h2⟩ := stages_inv φ (z := z) (ξ := ξ) (κ := κ) (rowsOf A) ([1], [])
    (fun j hj => by simp at hj)
    (fun r hr => by
      obtain ⟨i, rfl⟩ := (List.mem_ofFn' _ _).mp hr
      simp [rowsOf])
    (fun i hi => by
      have hi' : i < s := by rw [hlen] at hi; exact hi
      have e : (rowsOf A)[i] = (A ⟨i, hi'⟩ ⟨i, hi'⟩, List.ofFn (A ⟨i, hi'⟩)) := by
        simp [rowsOf]
      simp only [List.length_nil, Nat.zero_add, e]
      rw [show κ i = k ⟨i, hi'⟩ from hκ ⟨i, hi'⟩]
      rw [h ⟨i, hi'⟩]
      congr 1
      rw [← h ⟨i, hi'⟩, add_assoc]
      congr 1
      rw [← hκ ⟨i, hi'⟩]
      have e2 : ∑ j, φ (A ⟨i, hi'⟩ j) * k j
          = ∑ j ∈ Finset.range s, φ ((List.ofFn (A ⟨i, hi'⟩)).getD j 0) * κ j := by
        rw [Finset.sum_range]
        exact Finset.sum_congr rfl fun j _ => by rw [getD_ofFn, hκ]
      rw [e2]
      obtain ⟨q, rfl⟩ : ∃ q, s = i + 1 + q := ⟨s - (i + 1), by omega⟩
      rw [Finset.sum_range_add, Finset.sum_range_succ]
      have e3 : ∑ x ∈ Finset.range q,
          φ ((List.ofFn (A ⟨i, hi'⟩)).getD (i + 1 + x) 0) * κ (i + 1 + x) = 0 := by
        refine Finset.sum_eq_zero fun x hx => ?_
        have hx' := Finset.mem_range.mp hx
        have := getD_ofFn (A ⟨i, hi'⟩) ⟨i + 1 + x, by omega⟩
        rw [this, hA _ _ (by rw [Fin.lt_def]; simp; omega), map_zero, zero_mul]
      have e4 := getD_ofFn (A ⟨i, hi'⟩) ⟨i, hi'⟩
      rw [e3, e4, add_zero])
  simp only [numDen]
  rw [peval_padd, add_mul, add_mul, peval_comb φ (List.ofFn b) _ (by rw [h2, hlen]; simp) h1, h2,
    hlen]
  simp only [List.length_nil, Nat.zero_add]
  have e5 : ∑ j ∈ Finset.range s, φ ((List.ofFn b).getD j 0) * κ j = ∑ i, φ (b i) * k i := by
    rw [Finset.sum_range]
    exact Finset.sum_congr rfl fun j _ => by rw [getD_ofFn, hκ]
  rw [e5]
  ring

/-! ### Squared absolute value on the imaginary axis -/

/-- `p(i y) = e(y²) + i y o(y²)`: the two polynomials `e` and `o`. -/
def reim : List R → List R × List R
  | [] => ([], [])
  | a :: p => (a :: pscale (-1) (reim p).2, (reim p).1)

/-- `|p(i y)|²` as polynomial in `y²`. -/
def axisSq (p : List R) : List R :=
  padd (pmul (reim p).1 (reim p).1) (0 :: pmul (reim p).2 (reim p).2)

theorem peval_reim (y I : S) (hI : I * I = -1) (p : List R) :
    peval φ (y * I) p = peval φ (y * y) (reim p).1 + I * (y * peval φ (y * y) (reim p).2) := by
  induction p with
  | nil => simp [reim, peval]
  | cons a p ih =>
    simp only [reim, peval, ih, peval_pscale, map_neg, map_one]
    linear_combination y * y * peval φ (y * y) (reim p).2 * hI

theorem peval_axisSq (y : S) (p : List R) :
    peval φ (y * y) (axisSq p)
      = peval φ (y * y) (reim p).1 ^ 2 + (y * peval φ (y * y) (reim p).2) ^ 2 := by
  simp only [axisSq, peval_padd, peval_pmul, peval, map_zero]
  ring

end Poly

/-! ### Nonnegative polynomials -/

section Nonneg
variable {R : Type} [CommRing R]

/-- A polynomial with rational coefficients as sum of terms `u^k (a + b u + c u²)`. -/
def sumCert : List (ℚ × ℚ × ℚ) → List ℚ
  | [] => []
  | (a, b, c) :: r => padd [a, b, c] (0 :: sumCert r)

/-- The terms are not negative for `u ≥ 0`. -/
def certOk (t : ℚ × ℚ × ℚ) : Bool :=
  decide (0 ≤ t.1) && decide (0 ≤ t.2.2) &&
    (decide (0 ≤ t.2.1) || decide (t.2.1 ^ 2 ≤ 4 * t.1 * t.2.2))

/-- The coefficients of a polynomial are at least those of another one; `low x q` tests whether `x`
is at least `q`. -/
def geCoeffs (low : R → ℚ → Bool) : List R → List ℚ → Bool
  | [], qs => qs.all fun q => decide (q ≤ 0)
  | e :: es, [] => low e 0 && geCoeffs low es []
  | e :: es, q :: qs => low e q && geCoeffs low es qs

theorem certOk_sound {t : ℚ × ℚ × ℚ} (h : certOk t = true) {u : ℝ} (hu : 0 ≤ u) :
    0 ≤ (t.1 : ℝ) + t.2.1 * u + t.2.2 * u ^ 2 := by
  obtain ⟨a, b, c⟩ := t
  simp only [certOk, Bool.and_eq_true, Bool.or_eq_true, decide_eq_true_eq] at h
  obtain ⟨⟨ha, hc⟩, hb⟩ := h
  have ha' : (0 : ℝ) ≤ a := by exact_mod_cast ha
  have hc' : (0 : ℝ) ≤ c := by exact_mod_cast hc
  rcases hb with hb | hb
  · have hb' : (0 : ℝ) ≤ b := by exact_mod_cast hb
    positivity
  · have hb' : (b : ℝ) ^ 2 ≤ 4 * a * c := by exact_mod_cast hb
    dsimp only
    rcases ha'.eq_or_lt with h0 | h0
    · have : (b : ℝ) = 0 := by
        have : (b : ℝ) ^ 2 ≤ 0 := by rw [← h0] at hb'; linarith
        exact pow_eq_zero_iff (n := 2) (by norm_num) |>.mp (le_antisymm this (sq_nonneg _))
      rw [this, ← h0]
      positivity
    · have h1 : 0 ≤ 4 * (a : ℝ) * (a + b * u + c * u ^ 2) := by
        have : 4 * (a : ℝ) * (a + b * u + c * u ^ 2)
            = (2 * a + b * u) ^ 2 + (4 * a * c - b ^ 2) * u ^ 2 := by ring
        rw [this]
        have := sub_nonneg.mpr hb'
        positivity
      exact nonneg_of_mul_nonneg_right h1 (by linarith)

theorem sumCert_nonneg {ts : List (ℚ × ℚ × ℚ)} (h : ts.all certOk = true) {u : ℝ} (hu : 0 ≤ u) :
    0 ≤ peval (Rat.castHom ℝ) u (sumCert ts) := by
  induction ts with
  | nil => exact le_rfl
  | cons t ts ih =>
    simp only [List.all_cons, Bool.and_eq_true] at h
    obtain ⟨a, b, c⟩ := t
    have h1 := certOk_sound h.1 hu
    have h2 := ih h.2
    simp only [sumCert, peval_padd, peval, map_zero, Rat.coe_castHom]
    dsimp only at h1
    have : (a : ℝ) + u * (b + u * (c + u * 0)) + (0 + u * peval (Rat.castHom ℝ) u (sumCert ts))
        = (a + b * u + c * u ^ 2) + u * peval (Rat.castHom ℝ) u (sumCert ts) := by ring
    rw [this]
    positivity

theorem geCoeffs_sound {low : R → ℚ → Bool} {φ : R →+* ℝ}
    (hlow : ∀ x q, low x q = true → (q : ℝ) ≤ φ x) (es : List R) (qs : List ℚ)
    (h : geCoeffs low es qs = true) {u : ℝ} (hu : 0 ≤ u) :
    peval (Rat.castHom ℝ) u qs ≤ peval φ u es := by
  induction es generalizing qs with
  | nil =>
    induction qs with
    | nil => exact le_rfl
    | cons q qs ih =>
      simp only [geCoeffs, List.all_cons, Bool.and_eq_true, decide_eq_true_eq] at h ih
      have h1 : (q : ℝ) ≤ 0 := by exact_mod_cast h.1
      have h2 := ih h.2
      simp only [peval, Rat.coe_castHom] at h2 ⊢
      nlinarith
  | cons e es ih =>
    cases qs with
    | nil =>
      simp only [geCoeffs, Bool.and_eq_true] at h
      have h1 := hlow _ _ h.1
      have h2 := ih [] h.2
      simp only [peval, Rat.cast_zero] at h1 h2 ⊢
      positivity
    | cons q qs =>
      simp only [geCoeffs, Bool.and_eq_true] at h
      have h1 := hlow _ _ h.1
      have h2 := ih qs h.2
      simp only [peval, Rat.coe_castHom]
      gcongr

end Nonneg

end Verif.Stab
