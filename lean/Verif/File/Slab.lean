/-
Lemmas about the slabs that the ranks write.
-/
import Verif.File.Model
import Mathlib.Algebra.BigOperators.Group.List.Basic
import Mathlib.Algebra.Order.BigOperators.Group.List
import Mathlib.Tactic.Ring
import Mathlib.Tactic.Linarith

namespace Verif.File

open Verif.Metadata

/-- An index of an array of the given shape. -/
def Valid (shape idx : List ℕ) : Prop := List.Forall₂ (· < ·) idx shape

theorem prod_pos_of_lt {k : ℕ} {l : List ℕ} (h : k < l.prod) : 0 < l.prod := by omega

theorem unravel_valid : ∀ (shape : List ℕ) (k : ℕ), k < shape.prod → Valid shape (unravel shape k)
  | [], _, _ => .nil
  | d :: ds, k, h => by
    rw [List.prod_cons] at h
    have hp : 0 < ds.prod := by
      rcases Nat.eq_zero_or_pos ds.prod with h0 | h0
      · rw [h0] at h; omega
      · exact h0
    exact .cons (Nat.div_lt_of_lt_mul (by rw [Nat.mul_comm]; exact h))
      (unravel_valid ds _ (Nat.mod_lt _ hp))

theorem ravel_unravel : ∀ (shape : List ℕ) (k : ℕ), k < shape.prod →
    ravel shape (unravel shape k) = k
  | [], k, h => by
    simp at h
    subst h
    rfl
  | d :: ds, k, h => by
    rw [List.prod_cons] at h
    have hp : 0 < ds.prod := by
      rcases Nat.eq_zero_or_pos ds.prod with h0 | h0
      · rw [h0] at h; omega
      · exact h0
    simp only [unravel, ravel]
    rw [ravel_unravel ds _ (Nat.mod_lt _ hp)]
    exact Nat.div_add_mod' k ds.prod

theorem ravel_lt {shape idx : List ℕ} (h : Valid shape idx) : ravel shape idx < shape.prod := by
  induction h with
  | nil => simp [ravel]
  | @cons i d is ds hi _ ih =>
    simp only [ravel, List.prod_cons]
    nlinarith

theorem unravel_ravel {shape idx : List ℕ} (h : Valid shape idx) :
    unravel shape (ravel shape idx) = idx := by
  induction h with
  | nil => rfl
  | @cons i d is ds hi hv ih =>
    have hlt := ravel_lt hv
    have hp : 0 < ds.prod := by omega
    simp only [ravel, unravel]
    rw [Nat.mul_comm, Nat.mul_add_div hp, Nat.div_eq_of_lt hlt, Nat.mul_add_mod,
      Nat.mod_eq_of_lt hlt, ih, Nat.add_zero]

theorem unravel_zero (shape : List ℕ) : unravel shape 0 = shape.map fun _ => 0 := by
  induction shape with
  | nil => rfl
  | cons d ds ih => simp [unravel, ih]

theorem prod_pos_of_all {l : List ℕ} (h : 0 ∉ l) : 0 < l.prod := by
  induction l with
  | nil => simp
  | cons d ds ih =>
    simp only [List.mem_cons, not_or] at h
    rw [List.prod_cons]
    exact Nat.mul_pos (Nat.pos_of_ne_zero fun h0 => h.1 h0.symm) (ih h.2)

theorem unravel_last (shape : List ℕ) (h : 0 ∉ shape) :
    unravel shape (shape.prod - 1) = shape.map fun d => d - 1 := by
  induction shape with
  | nil => rfl
  | cons d ds ih =>
    simp only [List.mem_cons, not_or] at h
    have hp := prod_pos_of_all h.2
    have hd : 0 < d := Nat.pos_of_ne_zero fun h0 => h.1 h0.symm
    have e : (d :: ds).prod - 1 = ds.prod * (d - 1) + (ds.prod - 1) := by
      obtain ⟨d', rfl⟩ : ∃ d', d = d' + 1 := ⟨d - 1, by omega⟩
      rw [List.prod_cons]
      simp only [Nat.add_sub_cancel]
      have : (d' + 1) * ds.prod = ds.prod * d' + ds.prod := by ring
      omega
    rw [e]
    simp only [unravel, List.map_cons]
    rw [Nat.mul_add_div hp, Nat.div_eq_of_lt (by omega), Nat.mul_add_mod,
      Nat.mod_eq_of_lt (by omega), ih h.2, Nat.add_zero]

/-- What the slices of a quantity have to be: of the local shape, selecting the entries of the
global range, in the order of the local array. -/
structure Block (q : Quantity) (sl : List (ℕ × ℕ)) : Prop where
  indices : writeIndices q = .ok sl
  lengths : sl.map (fun p => p.2 - p.1) = q.arr.shape
  selects : ∀ idx, Valid q.arr.globalShape idx →
    (inSlab idx sl = true ↔
      q.arr.globalStart ≤ ravel q.arr.globalShape idx ∧
        ravel q.arr.globalShape idx < q.arr.globalStop)
  places : ∀ idx, Valid q.arr.globalShape idx → inSlab idx sl = true →
    ravel q.arr.shape (List.zipWith (fun i p => i - p.1) idx sl)
      = ravel q.arr.globalShape idx - q.arr.globalStart

theorem inSlab_full {rest is : List ℕ} (h : Valid rest is) :
    inSlab is (rest.map fun d => ((0 : ℕ), d)) = true := by
  induction h with
  | nil => rfl
  | cons hi _ ih => simp [inSlab, hi, ih]

theorem sub_full {rest is : List ℕ} (h : Valid rest is) :
    List.zipWith (fun (i : ℕ) (p : ℕ × ℕ) => i - p.1) is (rest.map fun d => ((0 : ℕ), d)) = is := by
  induction h with
  | nil => rfl
  | cons hi _ ih => simp [ih]

theorem zip_full (rest : List ℕ) (h : 0 ∉ rest) :
    ((rest.map fun _ => 0).zip (rest.map fun d => d - 1)).map (fun p => (p.1, p.2 + 1))
      = rest.map fun d => ((0 : ℕ), d) := by
  induction rest with
  | nil => rfl
  | cons d ds ih =>
    simp only [List.mem_cons, not_or] at h
    have hd : 0 < d := Nat.pos_of_ne_zero fun h0 => h.1 h0.symm
    simp only [List.map_cons, List.zip_cons_cons, ih h.2, List.cons.injEq, Prod.mk.injEq, true_and,
      and_true]
    omega

/-- Complete rows of an array: a range of the first axis. -/
theorem block_rows {q : Quantity} {a n N : ℕ} {rest : List ℕ} (hs : q.arr.shape = n :: rest)
    (hg : q.arr.globalShape = N :: rest) (hn : 0 < n) (hr : 0 ∉ rest) (hN : a + n ≤ N)
    (h1 : q.arr.globalStart = a * rest.prod) (h2 : q.arr.globalStop = (a + n) * rest.prod) :
    Block q ((a, a + n) :: rest.map fun d => (0, d)) := by
  have hp := prod_pos_of_all hr
  have hstop : 0 < (a + n) * rest.prod := Nat.mul_pos (by omega) hp
  have hlast : (a + n) * rest.prod - 1 = rest.prod * (a + n - 1) + (rest.prod - 1) := by
    obtain ⟨b, hb⟩ : ∃ b, a + n = b + 1 := ⟨a + n - 1, by omega⟩
    rw [hb]
    simp only [Nat.add_sub_cancel]
    have : (b + 1) * rest.prod = rest.prod * b + rest.prod := by ring
    omega
  refine ⟨?_, ?_, ?_, ?_⟩
  · unfold writeIndices npUnravel
    rw [hg, h1, h2, List.prod_cons]
    have l1 : a * rest.prod < N * rest.prod := Nat.mul_lt_mul_of_pos_right (by omega) hp
    have l2 : (a + n) * rest.prod - 1 < N * rest.prod := by
      have : (a + n) * rest.prod ≤ N * rest.prod := Nat.mul_le_mul_right _ hN
      omega
    rw [if_pos l1]
    simp only
    rw [if_neg (by omega), if_pos l2]
    simp only [Except.ok.injEq]
    rw [hlast]
    simp only [unravel]
    rw [Nat.mul_div_cancel _ hp, Nat.mul_mod_left, unravel_zero, Nat.mul_add_div hp,
      Nat.div_eq_of_lt (by omega), Nat.mul_add_mod, Nat.mod_eq_of_lt (by omega),
      unravel_last rest hr]
    simp only [List.zip_cons_cons, List.map_cons, zip_full rest hr, Nat.add_zero]
    have : a + n - 1 + 1 = a + n := by omega
    rw [this]
  · rw [hs]
    simp only [List.map_cons, Nat.add_sub_cancel_left, List.map_map, List.cons.injEq, true_and]
    conv_rhs => rw [← List.map_id rest]
    rfl
  · intro idx hv
    rw [hg] at hv ⊢
    cases hv with
    | @cons i _ is _ hi hv =>
      have hlt := ravel_lt hv
      simp only [inSlab, inSlab_full hv, Bool.and_true, Bool.and_eq_true, decide_eq_true_eq, ravel,
        h1, h2]
      constructor
      · rintro ⟨g1, g2⟩
        exact ⟨by nlinarith, by nlinarith⟩
      · rintro ⟨g1, g2⟩
        constructor
        · by_contra hc
          have : i + 1 ≤ a := by omega
          nlinarith
        · by_contra hc
          have : a + n ≤ i := by omega
          nlinarith
  · intro idx hv hin
    rw [hg] at hv ⊢
    cases hv with
    | @cons i _ is _ hi hv =>
      simp only [inSlab, inSlab_full hv, Bool.and_true, Bool.and_eq_true, decide_eq_true_eq] at hin
      rw [hs, h1]
      simp only [List.zipWith_cons_cons, ravel, sub_full hv]
      have : i * rest.prod = a * rest.prod + (i - a) * rest.prod := by
        rw [← Nat.add_mul]; congr 1; omega
      omega

/-- A whole array. -/
theorem block_whole {q : Quantity} (hs : q.arr.shape = q.arr.globalShape) (h0 : 0 ∉ q.arr.shape)
    (h1 : q.arr.globalStart = 0) (h2 : q.arr.globalStop = q.arr.globalShape.prod) :
    ∃ sl, Block q sl := by
  cases hg : q.arr.globalShape with
  | nil =>
    rw [hg] at hs h2
    refine ⟨[], ?_, by rw [hs]; rfl, ?_, ?_⟩
    · unfold writeIndices npUnravel
      rw [hg, h1, h2]
      simp [unravel]
    · intro idx hv
      rw [hg] at hv ⊢
      cases hv
      simp [inSlab, ravel, h1, h2]
    · intro idx hv _
      rw [hg] at hv ⊢
      cases hv
      simp [ravel]
  | cons d ds =>
    rw [hg] at hs h2
    rw [hs] at h0
    simp only [List.mem_cons, not_or] at h0
    exact ⟨_, block_rows hs hg (Nat.pos_of_ne_zero fun h => h0.1 h.symm) h0.2 (a := 0) (by omega)
      (by rw [h1]; simp) (by rw [h2]; simp)⟩

/-- Writing a block: the entries of the global range get the local values, all others stay. -/
theorem writeSlab_block {q : Quantity} {sl : List (ℕ × ℕ)} (hb : Block q sl) (vals : ℕ → ℝ)
    (ds : Dataset) :
    ∃ ds', writeSlab sl q.arr.shape vals ds = .ok ds' ∧ ds'.shape = ds.shape ∧
      ∀ k < q.arr.globalShape.prod, ds'.cell (unravel q.arr.globalShape k)
        = if q.arr.globalStart ≤ k ∧ k < q.arr.globalStop then vals (k - q.arr.globalStart)
          else ds.cell (unravel q.arr.globalShape k) := by
  unfold writeSlab
  rw [if_pos hb.lengths]
  refine ⟨_, rfl, rfl, fun k hk => ?_⟩
  have hv := unravel_valid _ k hk
  have hrav := ravel_unravel _ k hk
  have hsel := hb.selects _ hv
  rw [hrav] at hsel
  simp only
  by_cases hin : inSlab (unravel q.arr.globalShape k) sl = true
  · rw [if_pos hin, if_pos (hsel.mp hin), hb.places _ hv hin, hrav]
  · rw [if_neg hin, if_neg fun h => hin (hsel.mpr h)]

end Verif.File
