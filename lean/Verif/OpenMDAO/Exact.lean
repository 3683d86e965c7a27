/-
Exact linear solves: a solver as in `SolvesRegular` exists for every Jacobian. Only for the concrete
cases beside the theorems; OpenMDAO's solvers are parameters of the model.
-/
import Verif.OpenMDAO.Spec
import Mathlib.LinearAlgebra.Matrix.NonsingularInverse
import Mathlib.LinearAlgebra.Matrix.ToLin
import Mathlib.Data.Real.Basic

namespace Verif.OM

open Finset

/-- The Jacobian as a matrix over the entries `I`. -/
def jacMatrix (I : Finset (String × ℕ)) (J : String × ℕ → String × ℕ → ℝ) : Matrix I I ℝ :=
  fun e e' => J e.1 e'.1

/-- The product with a matrix over the entries `I`. -/
def applyMatrix (I : Finset (String × ℕ)) (M : Matrix I I ℝ) (b : Vec ℝ) : Vec ℝ := fun n k =>
  if h : (n, k) ∈ I then M.mulVec (fun e => b e.1.1 e.1.2) ⟨(n, k), h⟩ else 0

theorem applyMatrix_mem (I : Finset (String × ℕ)) (M : Matrix I I ℝ) (b : Vec ℝ) (e : I) :
    applyMatrix I M b e.1.1 e.1.2 = M.mulVec (fun e => b e.1.1 e.1.2) e := by
  unfold applyMatrix
  rw [dif_pos e.2]

theorem solves_matrix {I : Finset (String × ℕ)} {J : String × ℕ → String × ℕ → ℝ} {x b : Vec ℝ} :
    Solves I J x b ↔ (jacMatrix I J).mulVec (fun e => x e.1.1 e.1.2) = fun e => b e.1.1 e.1.2 := by
  constructor
  · intro h
    funext e
    rw [← h e.1 e.2, ← Finset.sum_coe_sort I]
    rfl
  · intro h e he
    rw [← Finset.sum_coe_sort I]
    exact congrFun h ⟨e, he⟩

/-- Multiplication with the inverse, zero if there is none. -/
noncomputable def invFwd (L : Layout) (J : Vectors ℝ → ℝ → ℝ → String × ℕ → String × ℕ → ℝ)
    (v : Vectors ℝ) (h a : ℝ) (b : Vec ℝ) : Vec ℝ :=
  applyMatrix (entriesOf L.outputs) (jacMatrix (entriesOf L.outputs) (J v h a))⁻¹ b

/-- Multiplication with its transpose. -/
noncomputable def invRev (L : Layout) (J : Vectors ℝ → ℝ → ℝ → String × ℕ → String × ℕ → ℝ)
    (v : Vectors ℝ) (h a : ℝ) (b : Vec ℝ) : Vec ℝ :=
  applyMatrix (entriesOf L.outputs)
    (jacMatrix (entriesOf L.outputs) (J v h a))⁻¹.transpose b

theorem exact_regular (L : Layout) (J : Vectors ℝ → ℝ → ℝ → String × ℕ → String × ℕ → ℝ)
    (solve : Vectors ℝ → ℝ → ℝ → Vectors ℝ) :
    SolvesRegular L ⟨solve, invFwd L J, invRev L J⟩ J := by
  refine ⟨fun v h a b hs => ?_, fun v h a b c => ?_⟩
  · set I := entriesOf L.outputs with hI
    have hsurj : Function.Surjective (jacMatrix I (J v h a)).mulVec := by
      intro c
      obtain ⟨x, hx⟩ := hs fun n k => if h : (n, k) ∈ I then c ⟨(n, k), h⟩ else 0
      refine ⟨fun e => x e.1.1 e.1.2, (solves_matrix.mp hx).trans ?_⟩
      funext e
      rw [dif_pos e.2]
    have hu : IsUnit (jacMatrix I (J v h a)) := Matrix.mulVec_surjective_iff_isUnit.mp hsurj
    rw [solves_matrix]
    have e1 : (fun e : I => (invFwd L J v h a b) e.1.1 e.1.2)
        = (jacMatrix I (J v h a))⁻¹.mulVec fun e => b e.1.1 e.1.2 :=
      funext fun e => applyMatrix_mem I _ b e
    change (jacMatrix I (J v h a)).mulVec (fun e : I => (invFwd L J v h a b) e.1.1 e.1.2) = _
    rw [e1, Matrix.mulVec_mulVec, Matrix.mul_nonsing_inv _ ((Matrix.isUnit_iff_isUnit_det _).mp hu),
      Matrix.one_mulVec]
  · set I := entriesOf L.outputs with hI
    rw [← Finset.sum_coe_sort I, ← Finset.sum_coe_sort I]
    have e1 : ∀ e : I, (invFwd L J v h a b) e.1.1 e.1.2 = _ := fun e => applyMatrix_mem I _ b e
    have e2 : ∀ e : I, (invRev L J v h a c) e.1.1 e.1.2 = _ := fun e => applyMatrix_mem I _ c e
    simp only [e1, e2]
    set M := (jacMatrix I (J v h a))⁻¹ with hM
    have := Matrix.dotProduct_mulVec (fun e : I => c e.1.1 e.1.2) M (fun e : I => b e.1.1 e.1.2)
    rw [← Matrix.mulVec_transpose, dotProduct_comm (Matrix.mulVec _ _)] at this
    exact this

end Verif.OM
