/-
C124: comparing states and controllers with `==`.
-/
import Verif.State.Equality

namespace Verif.Props

open Verif.State
open Classical

theorem sameField_true {empty : Option Bool} (he : empty ≠ some true) {a b : Held}
    (hl : a.vals.length = b.vals.length) :
    sameField empty a b = some true ↔
      a.obj = b.obj ∨ ∃ x, a.vals = [x] ∧ b.vals = [x] := by
  unfold sameField
  by_cases h : a.obj = b.obj
  · simp [h]
  · rw [if_neg h]
    rcases ha : a.vals with _ | ⟨x, _ | ⟨x', xs⟩⟩ <;> rcases hb : b.vals with _ | ⟨y, _ | ⟨y', ys⟩⟩ <;>
      simp_all [truth, eq_comm]

/-- C124: two states compare equal exactly if every field is the same array in both or has a single
entry, with the same value. -/
theorem C124_equal_iff {empty : Option Bool} (he : empty ≠ some true) (fs : List (Held × Held))
    (hl : ∀ f ∈ fs, f.1.vals.length = f.2.vals.length) :
    eqFields empty fs = some true ↔
      ∀ f ∈ fs, f.1.obj = f.2.obj ∨ ∃ x, f.1.vals = [x] ∧ f.2.vals = [x] := by
  induction fs with
  | nil => simp [eqFields]
  | cons f fs ih =>
    obtain ⟨a, b⟩ := f
    have h1 := sameField_true he (hl (a, b) (by simp))
    have h2 := ih fun g hg => hl g (by simp [hg])
    rw [List.forall_mem_cons, ← h2, ← h1, eqFields]
    rcases sameField empty a b with _ | _ | _ <;> simp

/-- C124: a state equals itself, whatever its sizes are. -/
theorem C124_self (empty : Option Bool) (s : List Held) :
    eqFields empty (s.map fun a => (a, a)) = some true := by
  induction s with
  | nil => rfl
  | cons a s ih => simpa [eqFields, sameField] using ih

/-- C124: if every field has a single entry, the comparison is the one of the entries. -/
theorem C124_single_entries_partial (empty : Option Bool) (fs : List (Held × Held))
    (h1 : ∀ f ∈ fs, f.1.obj ≠ f.2.obj)
    (hl : ∀ f ∈ fs, f.1.vals.length = 1 ∧ f.2.vals.length = 1) :
    eqFields empty fs = some (decide (∀ f ∈ fs, f.1.vals = f.2.vals)) := by
  induction fs with
  | nil => simp [eqFields]
  | cons f fs ih =>
    obtain ⟨a, b⟩ := f
    obtain ⟨ha, hb⟩ := hl (a, b) (by simp)
    obtain ⟨x, hx⟩ := List.length_eq_one_iff.mp ha
    obtain ⟨y, hy⟩ := List.length_eq_one_iff.mp hb
    have hs : sameField empty a b = some (decide (x = y)) := by
      dsimp only at hx hy
      simp [sameField, h1 (a, b) (by simp), hx, hy, truth]
    have h2 := ih (fun g hg => h1 g (by simp [hg])) fun g hg => hl g (by simp [hg])
    dsimp only at hx hy
    rw [eqFields, hs]
    by_cases hxy : x = y
    · subst hxy
      simp only [decide_true, h2, List.forall_mem_cons, hx, hy, true_and]
    · simp [hxy, hx, hy]

/-- C124 is violated by systems with more than one variable: comparing a state with any other state,
also with a copy of it, raises `ValueError`, because the first field is the start state. -/
theorem C124_copy_violated (empty : Option Bool) (a b : Held) (fs : List (Held × Held))
    (hid : a.obj ≠ b.obj) (ha : 2 ≤ a.vals.length) (hb : 2 ≤ b.vals.length) :
    eqFields empty ((a, b) :: fs) = none := by
  obtain ⟨x, x', xs, hx⟩ : ∃ x x' xs, a.vals = x :: x' :: xs := by
    rcases h : a.vals with _ | ⟨x, _ | ⟨x', xs⟩⟩ <;> simp_all
  obtain ⟨y, y', ys, hy⟩ : ∃ y y' ys, b.vals = y :: y' :: ys := by
    rcases h : b.vals with _ | ⟨y, _ | ⟨y', ys⟩⟩ <;> simp_all
  simp [eqFields, sameField, hid, hx, hy, truth]

/-- C124 is violated by schemes with more than one stage and a single variable: states with the same
start value cannot be compared, states with different ones can. -/
theorem C124_stages_violated (empty : Option Bool) (x y : ℝ) (a b : Held) (fs : List (Held × Held))
    (i j : ℕ) (hij : i ≠ j) (hid : a.obj ≠ b.obj) (ha : 2 ≤ a.vals.length)
    (hb : 2 ≤ b.vals.length) :
    eqFields empty ((⟨i, [x]⟩, ⟨j, [y]⟩) :: (a, b) :: fs) = if x = y then none else some false := by
  have h := C124_copy_violated empty a b fs hid ha hb
  rw [eqFields]
  by_cases hxy : x = y <;> simp [sameField, hij, truth, hxy, h]

/-- C124 is violated by decorators: their data class has no fields, so that any two of them are
equal, whatever their exponents, names and controllers are. -/
theorem C124_decorators_violated (empty : Option Bool) (d d' : Deco) :
    eqFields empty (d.fields d') = some true := rfl

/-- A state of two variables and a copy of it. -/
example : eqFields none [(⟨0, [1, 2]⟩, ⟨1, [1, 2]⟩)] = none :=
  C124_copy_violated none _ _ _ (by simp) (by simp) (by simp)

/-- One variable, one stage: equal contents. -/
example : eqFields none [(⟨0, [1]⟩, ⟨1, [1]⟩), (⟨2, [3]⟩, ⟨3, [3]⟩)] = some true := by
  rw [C124_single_entries_partial _ _ (by simp) (by simp)]
  simp

end Verif.Props
