/-
Norms of other orders in floating point arithmetic.

Source: /repo/src/rkopenmdao/discretized_ode/openmdao_ode.py 380-435 (`compute_state_norm`)

Simplifications: as in `Verif.Float.Norm`.
-/
import Verif.Float.Norm

namespace Verif.Fl

open Verif.Metadata Verif.OM

/-- The arithmetic of a norm (see `NormArith`) whose order is a number: rounded sums, `1.0 / order`
rounded, and the norm of NumPy for vectors (openmdao_ode.py 413), the sum `sm` of the powers `pn` of the
absolute values, to the power of the reciprocal; for the order 1 NumPy takes no powers, `pn` is the
identity then. `pw` is the power of Python and `red` the sum over the ranks. -/
noncomputable def powered (f : ℝ → ℝ) (sm : List ℝ → ℝ) (pn pw : ℝ → ℝ → ℝ) (red : List ℝ → ℝ) :
    NormArith where
  add := fun a b => f (a + b)
  pw := pw
  inv := fun p => f (1 / p)
  np := fun o l => match o with
    | .fin p => some (pn (sm (l.map fun a => pn |a| p)) (f (1 / p)))
    | _ => none
  red := red

theorem powered_accurate {f : ℝ → ℝ} {u w p : ℝ} (hf : Rounds f u) (hp : 0 < p)
    (h2 : f (1 / p) = 1 / p) {sm : List ℝ → ℝ} (hsm : ∀ l : List ℝ, Summed f l.length l (sm l))
    {pn pw : ℝ → ℝ → ℝ} (hw : 0 ≤ w) (hw1 : w < 1)
    (hpn : ∀ a, 0 ≤ a → |pn a p - a ^ p| ≤ w * a ^ p)
    (hpn' : ∀ a, 0 ≤ a → |pn a (1 / p) - a ^ (1 / p)| ≤ w * a ^ (1 / p))
    (hpw : ∀ a y, 0 ≤ a → |pw a y - a ^ y| ≤ w * a ^ y) {red : List ℝ → ℝ}
    (hred : ∀ l : List ℝ, Summed f l.length l (red l)) (K : ℕ) :
    NormAccurate (powered f sm pn pw red) p (-Real.log (1 - u)) (-Real.log (1 - w))
      ((-Real.log (1 - w) + K * -Real.log (1 - u)) * (1 / p) + -Real.log (1 - w)) K := by
  have ht := neg_log_nonneg hf.nonneg hf.lt_one
  have hv := neg_log_nonneg hw hw1
  set t := -Real.log (1 - u) with htd
  set v := -Real.log (1 - w) with hvd
  refine ⟨ht, hv, by positivity, fun a b ha hb => hf.near (add_nonneg ha hb),
    fun a y ha => near_of_relative hw1 hw (Real.rpow_nonneg ha y) (hpw a y ha), h2, fun l hl => ?_,
    fun l h => (hred l).near hf h⟩
  refine ⟨_, rfl, ?_⟩
  rw [h2]
  have hpow : List.Forall₂ (Near v) (l.map fun a => pn |a| p) (l.map fun a => |a| ^ p) := by
    rw [List.forall₂_map_left_iff, List.forall₂_map_right_iff, List.forall₂_same]
    exact fun a _ => near_of_relative hw1 hw (Real.rpow_nonneg (abs_nonneg a) p) (hpn _ (abs_nonneg a))
  have hpos : ∀ x ∈ l.map fun a => pn |a| p, 0 ≤ x := by
    intro x hx
    obtain ⟨a, -, rfl⟩ := List.mem_map.mp hx
    exact (near_of_relative hw1 hw (Real.rpow_nonneg (abs_nonneg a) p)
      (hpn _ (abs_nonneg a))).nonneg (Real.rpow_nonneg (abs_nonneg a) p)
  have n1 := ((hsm _).near hf hpos).trans (near_sum hpow)
  have s0 := powers_nonneg p l
  have n2 := n1.rpow s0 (y := 1 / p) (by positivity)
  have n3 := (near_of_relative hw1 hw (Real.rpow_nonneg (n1.nonneg s0) (1 / p))
    (hpn' _ (n1.nonneg s0))).trans n2
  refine n3.mono (Real.rpow_nonneg s0 _) ?_
  rw [← htd, ← hvd, List.length_map]
  have h1 : (l.length : ℝ) * t ≤ K * t := mul_le_mul_of_nonneg_right (by exact_mod_cast hl) ht
  have h3 : (l.length * t + v) * (1 / p) ≤ (v + K * t) * (1 / p) :=
    mul_le_mul_of_nonneg_right (by linarith) (by positivity)
  linarith

end Verif.Fl
