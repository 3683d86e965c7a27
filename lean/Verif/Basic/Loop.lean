/-
Loop lemmas: invariants for `for i in range(s)` and `for i in reversed(range(s))`,
written as folds over `List.finRange s`.
-/
import Mathlib.Data.List.FinRange

namespace Verif.Loop

variable {σ : Type*} {s : ℕ}

/-- Invariant rule for `for i in range(s)`. -/
theorem foldl_finRange (f : σ → Fin s → σ) (P : ℕ → σ → Prop) (x : σ) (h0 : P 0 x)
    (hs : ∀ (i : Fin s) (y : σ), P i y → P (i + 1) (f y i)) :
    P s ((List.finRange s).foldl f x) := by
  have key : ∀ k, k ≤ s → P k (((List.finRange s).take k).foldl f x) := by
    intro k
    induction k with
    | zero => intro _; simpa using h0
    | succ k ih =>
      intro hk
      have hk' : k < s := hk
      have hlen : k < (List.finRange s).length := by simpa using hk'
      rw [List.take_succ_eq_append_getElem hlen, List.foldl_append]
      simp only [List.foldl_cons, List.foldl_nil, List.getElem_finRange]
      exact hs ⟨k, hk'⟩ _ (ih (le_of_lt hk'))
  have := key s le_rfl
  rwa [List.take_of_length_le (by simp)] at this

/-- Invariant rule for `for i in reversed(range(s))`. -/
theorem foldl_finRange_reverse (f : σ → Fin s → σ) (P : ℕ → σ → Prop) (x : σ) (h0 : P s x)
    (hs : ∀ (i : Fin s) (y : σ), P (i + 1) y → P i (f y i)) :
    P 0 ((List.finRange s).reverse.foldl f x) := by
  rw [List.foldl_reverse]
  have key : ∀ k, k ≤ s →
      P (s - k) (((List.finRange s).drop (s - k)).foldr (fun i y => f y i) x) := by
    intro k
    induction k with
    | zero =>
      intro _
      rw [Nat.sub_zero, List.drop_of_length_le (by simp)]
      exact h0
    | succ k ih =>
      intro hk
      have h1 : s - (k + 1) < s := by omega
      have hlen : s - (k + 1) < (List.finRange s).length := by simpa using h1
      rw [List.drop_eq_getElem_cons hlen]
      simp only [List.foldr_cons, List.getElem_finRange]
      have h2 : s - (k + 1) + 1 = s - k := by omega
      rw [h2]
      refine hs ⟨s - (k + 1), h1⟩ _ ?_
      simp only [h2]
      exact ih (by omega)
  have := key s le_rfl
  simpa using this

end Verif.Loop
