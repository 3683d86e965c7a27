/-
Specification of the Runge-Kutta order conditions (Butcher's rooted tree conditions), independent
of the code, and an enumeration of the trees of bounded order.
-/
import Mathlib.Algebra.BigOperators.Fin
import Mathlib.Algebra.Order.Field.Basic
import Mathlib.Algebra.Order.BigOperators.Group.Finset
import Mathlib.Data.List.FinRange

namespace Verif.Tableau

/-- Rooted trees (with ordered children; the order does not matter for the conditions). -/
inductive RTree where
  | node : List RTree → RTree

mutual
/-- Number of vertices. -/
def RTree.order : RTree → ℕ
  | .node ts => 1 + orderL ts
/-- Number of vertices of a forest. -/
def orderL : List RTree → ℕ
  | [] => 0
  | t :: ts => t.order + orderL ts
end

mutual
/-- The density `γ(t)`: order times the densities of the subtrees. -/
def RTree.density : RTree → ℕ
  | .node ts => (1 + orderL ts) * densityL ts
def densityL : List RTree → ℕ
  | [] => 1
  | t :: ts => t.density * densityL ts
end

section
variable {K : Type} [CommSemiring K] {s : ℕ}

mutual
/-- The stage weights `Φ_i(t)`: product over the subtrees `t'` of `∑_j a_ij Φ_j(t')`. -/
def RTree.weight (A : Fin s → Fin s → K) : RTree → Fin s → K
  | .node ts => weightL A ts
def weightL (A : Fin s → Fin s → K) : List RTree → Fin s → K
  | [] => fun _ => 1
  | t :: ts => fun i => (∑ j, A i j * t.weight A j) * weightL A ts i
end

end

/-- All order conditions up to order `p`: `∑ b_i Φ_i(t) = 1 / γ(t)` for every tree with at most
`p` vertices. -/
def OrderConditions {K : Type} [Field K] {s : ℕ} (A : Fin s → Fin s → K) (b : Fin s → K)
    (p : ℕ) : Prop :=
  ∀ t : RTree, t.order ≤ p → ∑ i, b i * t.weight A i = 1 / (t.density : K)

/-- All order conditions up to order `p` hold with error at most `ε`. -/
def OrderConditionsWithin {K : Type} [Field K] [LinearOrder K] {s : ℕ} (ε : K)
    (A : Fin s → Fin s → K) (b : Fin s → K) (p : ℕ) : Prop :=
  ∀ t : RTree, t.order ≤ p → |(∑ i, b i * t.weight A i) - 1 / (t.density : K)| ≤ ε

/-- All forests with at most `n` vertices. -/
def forests : ℕ → List (List RTree)
  | 0 => [[]]
  | n + 1 => [] :: (((forests n).flatMap fun a => (forests n).map fun f => .node a :: f).filter
      fun f => orderL f ≤ n + 1)

theorem mem_forests (n : ℕ) : ∀ f : List RTree, orderL f ≤ n → f ∈ forests n := by
  induction n with
  | zero =>
    intro f hf
    match f with
    | [] => simp [forests]
    | .node a :: f => simp [orderL, RTree.order] at hf
  | succ n ih =>
    intro f hf
    match f with
    | [] => simp [forests]
    | .node a :: f =>
      simp only [forests, List.mem_cons, List.mem_filter, List.mem_flatMap, List.mem_map,
        decide_eq_true_eq]
      right
      have h : 1 + orderL a + orderL f ≤ n + 1 := hf
      exact ⟨⟨a, ih a (by omega), f, ih f (by omega), rfl⟩, hf⟩

/-- To check all trees up to order `p + 1` it suffices to check the enumerated ones. -/
theorem forall_tree_of_forests {P : RTree → Prop} (p : ℕ)
    (h : ∀ f ∈ forests p, P (.node f)) : ∀ t : RTree, t.order ≤ p + 1 → P t := by
  intro t ht
  match t with
  | .node f =>
    refine h f (mem_forests p f ?_)
    have : 1 + orderL f ≤ p + 1 := ht
    omega

end Verif.Tableau
