/-
Rooted trees as index set of power series in the step size: finite sets of trees, sums over them,
and elementary differentials. No code is modelled here.
-/
import Verif.Tableau.Order
import Mathlib.Analysis.Calculus.ContDiff.Defs
import Mathlib.Logic.Equiv.List
import Mathlib.Data.Fintype.Pi

namespace Verif.Conv

open Verif.Tableau Finset

/-! ### Sums and products over the children -/

theorem orderL_eq (ts : List RTree) : orderL ts = (ts.map RTree.order).sum := by
  induction ts with
  | nil => rfl
  | cons t ts ih => simp [orderL, ih]

theorem densityL_eq (ts : List RTree) : densityL ts = (ts.map RTree.density).prod := by
  induction ts with
  | nil => rfl
  | cons t ts ih => simp [densityL, ih]

theorem weightL_eq {s : ℕ} (A : Fin s → Fin s → ℝ) (ts : List RTree) (i : Fin s) :
    weightL A ts i = (ts.map fun t => ∑ j, A i j * t.weight A j).prod := by
  induction ts with
  | nil => rfl
  | cons t ts ih => simp [weightL, ih]

theorem order_node {m : ℕ} (r : Fin m → RTree) :
    (RTree.node (List.ofFn r)).order = 1 + ∑ i, (r i).order := by
  rw [RTree.order, orderL_eq, List.map_ofFn, List.sum_ofFn]; rfl

theorem density_node {m : ℕ} (r : Fin m → RTree) :
    (RTree.node (List.ofFn r)).density = (1 + ∑ i, (r i).order) * ∏ i, (r i).density := by
  rw [RTree.density, orderL_eq, List.map_ofFn, List.sum_ofFn, densityL_eq, List.map_ofFn,
    List.prod_ofFn]; rfl

theorem weight_node {s m : ℕ} (A : Fin s → Fin s → ℝ) (r : Fin m → RTree) (i : Fin s) :
    (RTree.node (List.ofFn r)).weight A i = ∏ l, ∑ j, A i j * (r l).weight A j := by
  rw [RTree.weight, weightL_eq, List.map_ofFn, List.prod_ofFn]; rfl

theorem order_pos (t : RTree) : 0 < t.order := by
  cases t with
  | node ts => rw [RTree.order]; omega

theorem density_pos (t : RTree) : 0 < t.density := by
  suffices h : ∀ n, ∀ ts, orderL ts ≤ n → 0 < densityL ts by
    cases t with
    | node ts => rw [RTree.density]; exact Nat.mul_pos (by omega) (h _ ts le_rfl)
  intro n
  induction n with
  | zero =>
    intro ts hts
    cases ts with
    | nil => simp [densityL]
    | cons t ts => have := order_pos t; simp [orderL] at hts; omega
  | succ n ih =>
    intro ts hts
    cases ts with
    | nil => simp [densityL]
    | cons t ts =>
      have := order_pos t
      simp only [orderL] at hts
      rw [densityL]
      refine Nat.mul_pos ?_ (ih ts (by omega))
      cases t with
      | node us =>
        rw [RTree.order] at hts
        rw [RTree.density]
        exact Nat.mul_pos (by omega) (ih us (by omega))

/-- Coefficient of a tree with ordered children: `w(t) = 1/m! ∏ w(t_i)`. -/
noncomputable def coeff : RTree → ℝ
  | .node ts => ((ts.length.factorial : ℝ))⁻¹ * (ts.attach.map fun t => coeff t.1).prod
decreasing_by
  have := t.2
  have := List.sizeOf_lt_of_mem this
  simp; omega

theorem coeff_node {m : ℕ} (r : Fin m → RTree) :
    coeff (.node (List.ofFn r)) = ((m.factorial : ℝ))⁻¹ * ∏ i, coeff (r i) := by
  rw [coeff]
  have : (List.ofFn r).attach.map (fun t => coeff t.1) = (List.ofFn r).map coeff := by
    conv_rhs => rw [← List.attach_map_subtype_val (List.ofFn r), List.map_map]
    rfl
  rw [this, List.map_ofFn, List.prod_ofFn, List.length_ofFn]; rfl

/-! ### Elementary differentials -/

section
variable {X : Type*} [NormedAddCommGroup X] [NormedSpace ℝ X]

/-- The elementary differential of a tree:
`D(t)(x) = F^(m)(x)(D(t_1)(x), …, D(t_m)(x))`. -/
noncomputable def elem (F : X → X) (x : X) : RTree → X
  | .node ts => iteratedFDeriv ℝ ts.length F x fun i => elem F x (ts.get i)
decreasing_by
  have := List.sizeOf_lt_of_mem (List.get_mem ts i)
  simp at this ⊢; omega

theorem elem_node_of_length (F : X → X) (x : X) (ts : List RTree) (m : ℕ) (hm : ts.length = m) :
    elem F x (.node ts)
      = iteratedFDeriv ℝ m F x fun i => elem F x (ts.get (i.cast hm.symm)) := by
  subst hm
  rw [elem]; rfl

theorem elem_node {m : ℕ} (F : X → X) (x : X) (r : Fin m → RTree) :
    elem F x (.node (List.ofFn r)) = iteratedFDeriv ℝ m F x fun i => elem F x (r i) := by
  rw [elem_node_of_length F x _ m (List.length_ofFn)]
  congr 1
  funext i
  congr 1
  simp

end

/-! ### Finite sets of trees -/

theorem finite_trees (k : ℕ) : {t : RTree | t.order ≤ k}.Finite := by
  cases k with
  | zero =>
    convert Set.finite_empty
    ext t
    have := order_pos t
    simp; omega
  | succ k =>
    refine Set.Finite.subset (List.finite_toSet ((forests k).map RTree.node)) ?_
    intro t ht
    cases t with
    | node ts =>
      have h : 1 + orderL ts ≤ k + 1 := ht
      simp only [Set.mem_ofPred_eq, List.mem_map, RTree.node.injEq, exists_eq_right]
      exact mem_forests k ts (by omega)

/-- The trees with at most `k` vertices. -/
noncomputable def trees (k : ℕ) : Finset RTree := (finite_trees k).toFinset

theorem mem_trees {k : ℕ} {t : RTree} : t ∈ trees k ↔ t.order ≤ k := by simp [trees]

theorem trees_zero : trees 0 = ∅ := by
  ext t; have := order_pos t; simp [mem_trees]; omega

open Classical in
/-- The tuples of `m` trees with at most `k` vertices together. -/
noncomputable def tuples (m k : ℕ) : Finset (Fin m → RTree) :=
  (Fintype.piFinset fun _ => trees k).filter fun r => ∑ i, (r i).order ≤ k

theorem mem_tuples {m k : ℕ} {r : Fin m → RTree} :
    r ∈ tuples m k ↔ ∑ i, (r i).order ≤ k := by
  simp only [tuples, mem_filter, Fintype.mem_piFinset, mem_trees, and_iff_right_iff_imp]
  exact fun h i => le_trans (Finset.single_le_sum (f := fun i => (r i).order)
    (fun _ _ => Nat.zero_le _) (mem_univ i)) h

/-- A sum over all trees is a sum over the tuples of children. -/
theorem sum_trees {M : Type*} [AddCommMonoid M] (k : ℕ) (G : RTree → M) :
    ∑ t ∈ trees (k + 1), G t
      = ∑ m ∈ range (k + 1), ∑ r ∈ tuples m k, G (.node (List.ofFn r)) := by
  rw [Finset.sum_sigma']
  symm
  refine Finset.sum_bij (fun q _ => RTree.node (List.ofFn q.2)) ?_ ?_ ?_ (fun _ _ => rfl)
  · rintro ⟨m, r⟩ h
    simp only [mem_sigma, mem_tuples] at h
    rw [mem_trees, order_node]; dsimp only; omega
  · rintro ⟨m, r⟩ - ⟨m', r'⟩ - h
    simp only [RTree.node.injEq] at h
    exact List.ofFn_inj'.mp h
  · intro t ht
    rw [mem_trees] at ht
    cases t with
    | node ts =>
      refine ⟨⟨ts.length, ts.get⟩, ?_, by simp⟩
      have hs : ∑ i, (ts.get i).order = orderL ts := by
        rw [orderL_eq, ← List.sum_ofFn]
        congr 1
        conv_rhs => rw [← List.ofFn_get ts]
        rw [List.map_ofFn]; rfl
      have hl : ts.length ≤ orderL ts := by
        rw [← hs]
        calc ts.length = ∑ _i : Fin ts.length, 1 := by simp
          _ ≤ _ := Finset.sum_le_sum fun i _ => order_pos _
      have h : 1 + orderL ts ≤ k + 1 := ht
      simp only [mem_sigma, mem_range, mem_tuples, hs]
      omega

end Verif.Conv
