/-
Properties of tableau construction and classification: C01, C02, C03, C04, C07.
-/
import Verif.Tableau.Model
import Verif.Props.Step
import Mathlib.Tactic.NormNum
import Mathlib.Tactic.Linarith
import Mathlib.Data.Real.Basic

namespace Verif.Props

open Tableau RK

variable {K : Type} [Field K] [LinearOrder K]

/-! ### C01 -/

/-- Row sums of a square matrix: the default nodes. -/
def IsRowSums {s : ℕ} (A : Fin s → Fin s → K) (c : Fin s → K) : Prop := ∀ i, c i = ∑ j, A i j

theorem finish_ok {s : ℕ} (A : Fin s → Fin s → K) (b c : Fin s → K) (p : Option ℕ)
    (name : String) :
    finish ⟨s, s, A⟩ ⟨s, b⟩ ⟨s, c⟩ p name = .ok ⟨s, A, b, c, p, name⟩ :=
  dif_pos ⟨rfl, rfl, rfl⟩

theorem broadcastSub_same {s : ℕ} (u v : Fin s → K) :
    broadcastSub ⟨s, u⟩ ⟨s, v⟩ = some ((List.finRange s).map fun i => u i - v i) :=
  dif_pos rfl

/-- C01: construction succeeds with tableau `T` exactly when the arguments are, with matching
shapes, the matrix, the weights and the nodes that `T` reports (row sums when none are given),
and `T` carries the given order and name. -/
theorem C01_construct_ok_iff (A : Mat K) (b : Vec K) (c : Option (Vec K)) (p : Option ℕ)
    (name : String) (T : Tableau K) :
    (construct A b c p name).2 = .ok T ↔
      A = ⟨T.stages, T.stages, T.A⟩ ∧ b = ⟨T.stages, T.b⟩
      ∧ (c = some ⟨T.stages, T.c⟩ ∨ (c = none ∧ IsRowSums T.A T.c))
      ∧ T.p = p ∧ T.name = name := by
  obtain ⟨r, q, Ae⟩ := A
  obtain ⟨s, be⟩ := b
  constructor
  · intro h
    unfold construct at h
    split at h
    · simp at h
    · rename_i hsq
      have hrq : r = q := not_not.mp hsq
      subst hrq
      cases c with
      | none =>
        simp only [finish] at h
        split at h
        · rename_i hh
          have h1 : r = s := hh.1
          subst h1
          cases h
          exact ⟨rfl, rfl, Or.inr ⟨rfl, fun i => rfl⟩, rfl, rfl⟩
        · simp at h
      | some c =>
        obtain ⟨t, ce⟩ := c
        simp only at h
        split at h
        · simp at h
        · simp only [finish] at h
          split at h
          · rename_i hh
            have h1 : r = s := hh.1
            have h3 : t = s := hh.2.2
            subst h1
            subst h3
            cases h
            exact ⟨rfl, rfl, Or.inl rfl, rfl, rfl⟩
          · simp at h
  · rintro ⟨hA, hb, hc, hp, hn⟩
    subst hp hn
    rw [hA, hb]
    unfold construct
    simp only [ne_eq, not_true_eq_false, if_false]
    rcases hc with rfl | ⟨rfl, hrow⟩
    · simp only [rowSums, broadcastSub_same, finish_ok]
    · have : (fun i => ∑ j, T.A i j) = T.c := funext fun i => (hrow i).symm
      simp only [rowSums, this, finish_ok]

/-- C01: a matrix that is not square raises `ValueError`, whatever the other arguments. -/
theorem C01_not_square (A : Mat K) (b : Vec K) (c : Option (Vec K)) (p : Option ℕ)
    (name : String) (h : A.rows ≠ A.cols) : construct A b c p name = ([], .error .valueError) := by
  unfold construct
  rw [if_pos h]

/-- C01: with a square matrix, wrong sizes always raise an error. It is `AssertionError`, except
that nodes whose length can neither be matched nor broadcast raise `ValueError` (already when
the node check subtracts the arrays). -/
theorem C01_wrong_sizes (A : Mat K) (b : Vec K) (c : Option (Vec K)) (p : Option ℕ)
    (name : String) (hsq : A.rows = A.cols)
    (h : b.len ≠ A.rows ∨ ∃ v, c = some v ∧ v.len ≠ A.rows) :
    (construct A b c p name).2 = .error .assertionError
      ∨ ((construct A b c p name).2 = .error .valueError
          ∧ ∃ v, c = some v ∧ v.len ≠ A.rows ∧ v.len ≠ 1 ∧ A.rows ≠ 1) := by
  unfold construct
  rw [if_neg (not_not.mpr hsq)]
  cases c with
  | none =>
    left
    rcases h with h | ⟨v, hv, -⟩
    · simp only [finish]
      rw [dif_neg (fun hh => h hh.1.symm)]
    · cases hv
  | some v =>
    by_cases hbr : broadcastSub (rowSums A) v = none
    · right
      simp only [hbr, true_and]
      refine ⟨v, rfl, ?_⟩
      unfold broadcastSub at hbr
      split at hbr
      · simp at hbr
      · rename_i h1
        split at hbr
        · simp at hbr
        · rename_i h2
          split at hbr
          · simp at hbr
          · rename_i h3
            exact ⟨fun e => h1 e.symm, h2, h3⟩
    · left
      obtain ⟨d, hd⟩ := Option.ne_none_iff_exists'.mp hbr
      simp only [hd, finish]
      rw [dif_neg]
      rintro ⟨h1, h2, h3⟩
      rcases h with h | ⟨w, hw, hne⟩
      · exact h h1.symm
      · cases hw
        exact hne (h3.trans h1.symm)

/-- C01: construction succeeds if and only if the shapes match, and there is no other outcome
than success, `ValueError` and `AssertionError`. -/
theorem C01_succeeds_iff_shapes (A : Mat K) (b : Vec K) (c : Option (Vec K)) (p : Option ℕ)
    (name : String) :
    (∃ T, (construct A b c p name).2 = .ok T) ↔
      A.rows = A.cols ∧ b.len = A.rows ∧ ∀ v, c = some v → v.len = A.rows := by
  constructor
  · rintro ⟨T, hT⟩
    obtain ⟨rfl, rfl, hc, -, -⟩ := (C01_construct_ok_iff A b c p name T).mp hT
    refine ⟨rfl, rfl, fun v hv => ?_⟩
    rcases hc with hc | ⟨hc, -⟩
    · rw [hc] at hv; cases hv; rfl
    · rw [hc] at hv; cases hv
  · obtain ⟨r, q, Ae⟩ := A
    obtain ⟨s, be⟩ := b
    rintro ⟨h1, h2, h3⟩
    simp only at h1 h2 h3
    subst h1 h2
    cases c with
    | none =>
      exact ⟨⟨s, Ae, be, fun i => ∑ j, Ae i j, p, name⟩, (C01_construct_ok_iff _ _ _ _ _ _).mpr
        ⟨rfl, rfl, Or.inr ⟨rfl, fun _ => rfl⟩, rfl, rfl⟩⟩
    | some v =>
      obtain ⟨t, ce⟩ := v
      have h4 := h3 _ rfl
      simp only at h4
      subst h4
      exact ⟨⟨t, Ae, be, ce, p, name⟩, (C01_construct_ok_iff _ _ _ _ _ _).mpr
        ⟨rfl, rfl, Or.inl rfl, rfl, rfl⟩⟩

/-- Heun's method is accepted and reports its data; three weights for two stages are refused;
nodes of length two for three stages give the `ValueError` of the broadcasting. -/
example : (construct ⟨2, 2, ![![0, 0], ![1, 0]]⟩ ⟨2, ![1/2, 1/2]⟩ (some ⟨2, ![0, 1]⟩) (some 2)
    "Heun" : _ × Except Err (Tableau ℚ)).2
      = .ok ⟨2, ![![0, 0], ![1, 0]], ![1/2, 1/2], ![0, 1], some 2, "Heun"⟩ :=
  (C01_construct_ok_iff _ _ _ _ _ _).mpr ⟨rfl, rfl, Or.inl rfl, rfl, rfl⟩

example : (construct ⟨2, 2, ![![0, 0], ![1, 0]]⟩ ⟨3, ![1/2, 1/2, 0]⟩ none none
    "wrong" : _ × Except Err (Tableau ℚ)).2 = .error .assertionError := by
  simp [construct, finish]

example : (construct ⟨3, 3, fun _ _ => 0⟩ ⟨3, ![1, 0, 0]⟩ (some ⟨2, ![0, 1]⟩) none
    "wrong" : _ × Except Err (Tableau ℚ)).2 = .error .valueError := by
  simp [construct, broadcastSub, rowSums]

/-! ### C02 -/

/-- C02, weights: for a square matrix a warning about the weights is issued exactly when their
sum differs from one by more than `1e-5`. -/
theorem C02_weight_warning_iff (A : Mat K) (b : Vec K) (c : Option (Vec K)) (p : Option ℕ)
    (name : String) (hsq : A.rows = A.cols) :
    Warn.weights ∈ (construct A b c p name).1 ↔ 1 / 100000 < |(∑ i, b.entry i) - 1| := by
  have hw : Warn.weights ∈ (if weightCheck b then [Warn.weights] else [])
      ↔ 1 / 100000 < |(∑ i, b.entry i) - 1| := by
    unfold weightCheck
    split <;> simp_all
  unfold construct
  rw [if_neg (not_not.mpr hsq)]
  cases c with
  | none => exact hw
  | some v =>
    dsimp only
    split
    · exact hw
    · rw [List.mem_append]
      constructor
      · rintro (h | h)
        · exact hw.mp h
        · split at h <;> simp at h
      · intro h
        exact Or.inl (hw.mpr h)

/-- C02, nodes, what the code does: for matching shapes the warning about the nodes is issued
exactly when *every* node differs from its row sum (by any amount). -/
theorem C02_node_warning_partial {s : ℕ} (A : Fin s → Fin s → K) (b c : Fin s → K)
    (p : Option ℕ) (name : String) :
    Warn.nodes ∈ (construct ⟨s, s, A⟩ ⟨s, b⟩ (some ⟨s, c⟩) p name).1
      ↔ ∀ i, ∑ j, A i j ≠ c i := by
  have h1 : Warn.nodes ∉ (if weightCheck (⟨s, b⟩ : Vec K) then [Warn.weights] else []) := by
    split <;> simp
  have h2 : ∀ d : List K, Warn.nodes ∈ (if nodeCheck d then [Warn.nodes] else [])
      ↔ nodeCheck d = true := by
    intro d
    split <;> simp_all
  unfold construct
  simp only [ne_eq, not_true_eq_false, if_false, broadcastSub_same, rowSums,
    List.mem_append, h1, false_or, h2]
  simp [nodeCheck, sub_eq_zero]

/-- C02: so a tableau whose nodes are the row sums never gets a node warning (at least one
stage), and none is given when the nodes are left to their default. -/
theorem C02_consistent_no_warning_partial {s : ℕ} [NeZero s] (A : Fin s → Fin s → K)
    (b c : Fin s → K) (p : Option ℕ) (name : String) (h : ∃ i, c i = ∑ j, A i j) :
    Warn.nodes ∉ (construct ⟨s, s, A⟩ ⟨s, b⟩ (some ⟨s, c⟩) p name).1
    ∧ Warn.nodes ∉ (construct ⟨s, s, A⟩ ⟨s, b⟩ none p name).1 := by
  constructor
  · rw [C02_node_warning_partial]
    obtain ⟨i, hi⟩ := h
    exact fun hh => hh i hi.symm
  · unfold construct
    simp only [ne_eq, not_true_eq_false, if_false]
    split <;> simp

/-- C02 is violated: Heun's method with the second node replaced by `7` (row sum `1`) is
accepted without any warning. -/
theorem C02_inconsistent_nodes_silent_violated :
    ∃ (A : Fin 2 → Fin 2 → ℚ) (b c : Fin 2 → ℚ),
      (∃ i, 1 / 100000 ≤ |∑ j, A i j - c i|)
      ∧ (construct ⟨2, 2, A⟩ ⟨2, b⟩ (some ⟨2, c⟩) (some 2) "Heun").1 = [] := by
  refine ⟨![![0, 0], ![1, 0]], ![1/2, 1/2], ![0, 7], ⟨1, ?_⟩, ?_⟩
  · norm_num [Fin.sum_univ_two]
  · decide +kernel

/-! ### C03 -/

/-- Some entry above the diagonal is nonzero. -/
def HasUpper (T : Tableau K) : Prop := ∃ i j, i < j ∧ T.A i j ≠ 0

/-- Some entry on or above the diagonal is nonzero. -/
def HasDiagOrUpper (T : Tableau K) : Prop := ∃ i j, i ≤ j ∧ T.A i j ≠ 0

theorem mem_drop_finRange {s : ℕ} (k : ℕ) (j : Fin s) :
    j ∈ (List.finRange s).drop k ↔ k ≤ j.val := by
  rw [List.mem_iff_getElem]
  constructor
  · rintro ⟨i, hi, rfl⟩
    simp
  · intro h
    refine ⟨j.val - k, by simp; omega, ?_⟩
    ext
    simp
    omega

/-- C03: `is_explicit` is true exactly when no entry on or above the diagonal is nonzero. -/
theorem C03_explicit_iff (T : Tableau K) : isExplicit T = true ↔ ¬ HasDiagOrUpper T := by
  unfold isExplicit HasDiagOrUpper
  simp only [List.all_eq_true, List.mem_finRange, mem_drop_finRange, true_implies]
  push Not
  simp only [Bool.not_eq_true', decide_eq_false_iff_not, not_not, ← Fin.le_def]

theorem upper_loop (T : Tableau K) :
    ((List.finRange T.stages).all fun i =>
      ((List.finRange T.stages).drop (i.val + 1)).all fun j => !decide (T.A i j ≠ 0)) = true
      ↔ ¬ HasUpper T := by
  unfold HasUpper
  simp only [List.all_eq_true, List.mem_finRange, mem_drop_finRange, true_implies]
  push Not
  simp only [Bool.not_eq_true', decide_eq_false_iff_not, not_not, Nat.succ_le_iff, ← Fin.lt_def]

/-- C03: `is_implicit` is true exactly when some entry above the diagonal is nonzero. -/
theorem C03_implicit_iff (T : Tableau K) : isImplicit T = true ↔ HasUpper T := by
  have h1 := C03_explicit_iff T
  have h2 := upper_loop T
  have h3 : HasUpper T → HasDiagOrUpper T := fun ⟨i, j, hij, h⟩ => ⟨i, j, le_of_lt hij, h⟩
  unfold isImplicit isDiagonallyImplicit
  by_cases he : isExplicit T = true
  · have : ¬ HasUpper T := fun h => (h1.mp he) (h3 h)
    simp [he, this]
  · simp only [he, Bool.false_or, Bool.false_eq_true, if_false]
    by_cases hu : HasUpper T
    · have := (not_congr h2).mpr (not_not.mpr hu)
      simp only [this, hu, Bool.false_eq_true, if_false]
    · simp only [h2.mpr hu, hu, if_true, Bool.false_eq_true]

/-- C03: `is_diagonally_implicit` is true exactly when nothing above the diagonal is nonzero
but something on the diagonal is. -/
theorem C03_diagonally_implicit_iff (T : Tableau K) :
    isDiagonallyImplicit T = true ↔ ¬ HasUpper T ∧ ∃ i, T.A i i ≠ 0 := by
  have h1 := C03_explicit_iff T
  have h2 := upper_loop T
  unfold isDiagonallyImplicit
  by_cases he : isExplicit T = true
  · have hn := h1.mp he
    simp only [he, if_true, Bool.false_eq_true, false_iff, not_and, not_exists, not_not]
    intro _ i
    by_contra hne
    exact hn ⟨i, i, le_rfl, hne⟩
  · simp only [he, Bool.false_eq_true, if_false, h2]
    refine ⟨fun hu => ⟨hu, ?_⟩, fun h => h.1⟩
    obtain ⟨i, j, hij, hne⟩ := not_not.mp (fun h => he (h1.mpr h))
    rcases eq_or_lt_of_le hij with rfl | hlt
    · exact ⟨i, hne⟩
    · exact absurd ⟨i, j, hlt, hne⟩ hu

/-- C03: exactly one of the three predicates is true. -/
theorem C03_trichotomy (T : Tableau K) :
    (isExplicit T = true ∧ isDiagonallyImplicit T = false ∧ isImplicit T = false)
    ∨ (isExplicit T = false ∧ isDiagonallyImplicit T = true ∧ isImplicit T = false)
    ∨ (isExplicit T = false ∧ isDiagonallyImplicit T = false ∧ isImplicit T = true) := by
  unfold isImplicit
  cases he : isExplicit T
  · cases hd : isDiagonallyImplicit T <;> simp
  · left
    simp [isDiagonallyImplicit, he]

/-- One tableau of each class. -/
example : isExplicit (⟨2, ![![0, 0], ![1, 0]], ![1/2, 1/2], ![0, 1], some 2, ""⟩ : Tableau ℚ)
      = true
    ∧ isDiagonallyImplicit
        (⟨2, ![![0, 0], ![1/2, 1/2]], ![1/2, 1/2], ![0, 1], some 2, ""⟩ : Tableau ℚ) = true
    ∧ isImplicit (⟨2, ![![0, 1], ![0, 0]], ![1/2, 1/2], ![1, 0], some 2, ""⟩ : Tableau ℚ)
      = true := by
  decide +kernel

/-! ### C04 -/

/-- C04: `main_method` succeeds and has the matrix, the nodes, the main weights and the main
order. -/
theorem C04_main_method (T : EmbTableau K) :
    T.mainMethod.2 = .ok ⟨T.stages, T.A, T.b, T.c, T.p, "Main: " ++ T.name⟩ :=
  (C01_construct_ok_iff _ _ _ _ _ _).mpr ⟨rfl, rfl, Or.inl rfl, rfl, rfl⟩

/-- C04: `embedded_method` succeeds and has the matrix, the nodes, the embedded weights and the
embedded order. -/
theorem C04_embedded_method (T : EmbTableau K) :
    T.embeddedMethod.2 = .ok ⟨T.stages, T.A, T.bhat, T.c, T.phat, "Embedded: " ++ T.name⟩ :=
  (C01_construct_ok_iff _ _ _ _ _ _).mpr ⟨rfl, rfl, Or.inl rfl, rfl, rfl⟩

/-- C04: the embedded constructor succeeds with `E` exactly when the plain constructor succeeds
with the plain part of `E` and the second weight vector has one entry per stage. -/
theorem C04_embedded_construct_ok_iff (A : Mat K) (b bhat : Vec K) (c : Option (Vec K))
    (p phat : Option ℕ) (name : String) (E : EmbTableau K) :
    (constructEmb A b bhat c p phat name).2 = .ok E ↔
      (construct A b c p name).2 = .ok E.toTableau ∧ bhat = ⟨E.stages, E.bhat⟩
        ∧ phat = E.phat := by
  unfold constructEmb
  rcases hcon : construct A b c p name with ⟨w, e | T⟩
  · simp
  · simp only [Except.ok.injEq]
    obtain ⟨t, bh⟩ := bhat
    by_cases hl : t = T.stages
    · subst hl
      simp only [dite_true, Except.ok.injEq]
      constructor
      · rintro rfl
        exact ⟨rfl, rfl, rfl⟩
      · rintro ⟨rfl, hb, rfl⟩
        obtain ⟨E0, Eb, Ep⟩ := E
        cases hb
        rfl
    · simp only [hl, dite_false, reduceCtorEq, false_iff]
      rintro ⟨rfl, hb, -⟩
      cases hb
      exact hl rfl

/-- C04, round trip: combining a tableau of known order with a second weight vector succeeds,
and splitting again gives the original arrays and orders. -/
theorem C04_round_trip (T : Tableau K) (bhat : Fin T.stages → K) (p : ℕ) (hp : T.p = some p)
    (phat : Option ℕ) (name : Option String) :
    ∃ E : EmbTableau K, (fromButcherTableau T ⟨T.stages, bhat⟩ phat name).2 = .ok E
      ∧ (∃ nm, E.mainMethod.2 = .ok { T with name := nm })
      ∧ (∃ nm, E.embeddedMethod.2 = .ok { T with b := bhat, p := phat, name := nm }) := by
  refine ⟨⟨{ T with name := match name with | none => "Adaptive " ++ T.name | some x => x },
    bhat, phat⟩, ?_, ⟨_, C04_main_method _⟩, ⟨_, C04_embedded_method _⟩⟩
  · unfold fromButcherTableau
    simp only [Tableau.order, hp]
    rw [C04_embedded_construct_ok_iff, C01_construct_ok_iff]
    refine ⟨⟨rfl, rfl, Or.inl rfl, hp, ?_⟩, rfl, rfl⟩
    cases name <;> rfl

omit [Field K] [LinearOrder K] in
/-- C04: with both orders known `min_p_order` is their minimum. Missing: orders that were not given,
see `C04_min_order_missing_violated`. -/
theorem C04_min_order_partial (T : EmbTableau K) (p q : ℕ) (hp : T.p = some p) (hq : T.phat = some q) :
    T.minPOrder = .ok (min p q) := by
  unfold EmbTableau.minPOrder
  rw [hp, hq]
  simp only
  congr 1
  split <;> omega

omit [Field K] [LinearOrder K] in
/-- C04 is violated for `min_p_order` of an embedded tableau: if one of the orders was not given, it
raises `TypeError` (comparison of `None`), not `ValueError`. -/
theorem C04_min_order_missing_violated (T : EmbTableau K) (h : T.p = none ∨ T.phat = none) :
    T.minPOrder = .error .typeError ∧ T.minPOrder ≠ .error .valueError := by
  have : T.minPOrder = .error .typeError := by
    unfold EmbTableau.minPOrder
    rcases h with h | h
    · rw [h]
    · rw [h]
      rcases T.p with _ | p <;> rfl
  exact ⟨this, by rw [this]; simp⟩

example : ∃ T : EmbTableau ℚ, T.p = some 2 ∧ T.phat = none :=
  ⟨⟨⟨1, fun _ _ => 0, fun _ => 1, fun _ => 0, some 2, "x"⟩, fun _ => 1, none⟩, rfl, rfl⟩

/-- C04: asking for an order that was not given raises `ValueError`; a given order is
returned. -/
theorem C04_unknown_order (T : EmbTableau K) :
    (T.order = .error .valueError ↔ T.p = none) ∧ (∀ p, T.order = .ok p ↔ T.p = some p)
    ∧ (T.orderHat = .error .valueError ↔ T.phat = none)
    ∧ (∀ p, T.orderHat = .ok p ↔ T.phat = some p) := by
  unfold Tableau.order EmbTableau.orderHat
  refine ⟨?_, ?_, ?_, ?_⟩ <;> first | (intro q; split <;> simp_all) | (split <;> simp_all)

/-- Heun with Euler as embedded method: the minimal order is 1. -/
example : (⟨⟨2, ![![0, 0], ![1, 0]], ![1/2, 1/2], ![0, 1], some 2, "Heun"⟩, ![1, 0], some 1⟩
    : EmbTableau ℚ).minPOrder = .ok 1 := rfl

/-! ### C07 -/

/-- C07 for the accepted classes: a tableau that is not fully implicit has no entry above the
diagonal, so the step uses the full matrix (the hypothesis of `C06_step_is_rk_formula`). -/
theorem C07_not_implicit_full_matrix_partial (T : Tableau K) (hT : isImplicit T = false) {n m o l : ℕ}
    (ode : ODE K n m o l) (f : Spec.Rhs K n m) (st : RKState K T.stages n m o l) (h : K)
    (hs : ∀ i, Spec.SolvesStage ode f h (T.A i i)) :
    Spec.IsRKStep T.A T.b T.c f h st.finalTime st.finalState st.independentInputs
      (computeStep T.coeffs ode st h).finalState := by
  refine C06_step_is_rk_formula T.coeffs ode f st h ?_ hs
  intro i j hij
  by_contra hne
  have := (C03_implicit_iff T).mpr ⟨i, j, hij, hne⟩
  rw [hT] at this
  cases this

/-- C07: entries above the diagonal are never read: changing them changes no result. -/
theorem C07_upper_entries_ignored {R : Type} [CommRing R] {s n m o l : ℕ} (T T' : Coeffs R s)
    (ode : ODE R n m o l) (st : RKState R s n m o l) (h : R)
    (hA : ∀ i j, j ≤ i → T.A i j = T'.A i j) (hb : T.b = T'.b) (hc : T.c = T'.c) :
    computeStep T ode st h = computeStep T' ode st h := by
  have hr := computeStep_result T ode st h
  have hr' := computeStep_result T' ode st h
  refine StepResult.unique (T := T') ?_ hr'
  have hin : ∀ k i, stageIn T h st.finalTime st.finalState st.independentInputs k i
      = stageIn T' h st.finalTime st.finalState st.independentInputs k i := by
    intro k i
    unfold stageIn
    congr 1
    · funext x
      rw [accumulateStages_apply, accumulateStages_apply]
      exact Finset.sum_congr rfl fun j hj => by
        rw [hA i j (le_of_lt (Finset.mem_filter.mp hj).2)]
    · rw [hc]
  have hd : ∀ i, T.A i i = T'.A i i := fun i => hA i i le_rfl
  refine ⟨hr.startTime, hr.startState, hr.indep, hr.stepSize, fun i => by
      rw [hr.stageTimes, hc], fun i => ?_, fun i => ?_, fun i => ?_, fun i => ?_, hr.finalTime, ?_,
    hr.finalOut⟩
  · rw [← hin, ← hd]; exact hr.update i
  · rw [← hin, ← hd]; exact hr.state i
  · rw [← hin, ← hd]; exact hr.outp i
  · rw [← hin, ← hd]; exact hr.lin i
  · rw [hr.finalState, hb]

/-- C07 is violated: the fully implicit tableau `A = ((0,1),(0,0))`, `b = (1,0)` is accepted
and integrated, and the result for `y' = p + t - y` with `y = 1, p = 0, t = 0, h = 1/2` is
`1/2`, which is not the Runge-Kutta result of the full matrix (that is `3/4`). -/
theorem C07_fully_implicit_silently_truncated_violated :
    ∃ T : Tableau ℚ, isImplicit T = true
      ∧ (construct (matOf T) (weightsOf T) (some (nodesOf T)) T.p T.name).2 = .ok T
      ∧ ∃ st : RKState ℚ T.stages 1 1 0 0,
        ¬ Spec.IsRKStep T.A T.b T.c (Ex.linRhs (K := ℚ)) (1/2) st.finalTime st.finalState
            st.independentInputs (computeStep T.coeffs Ex.linOde st (1/2)).finalState := by
  refine ⟨⟨2, ![![0, 1], ![0, 0]], ![1, 0], ![0, 0], some 1, "implicit"⟩, by decide +kernel,
    (C01_construct_ok_iff _ _ _ _ _ _).mpr ⟨rfl, rfl, Or.inl rfl, rfl, rfl⟩,
    { (RKState.empty : RKState ℚ 2 1 1 0 0) with finalState := ![1] }, ?_⟩
  rintro ⟨k, hk, hy⟩
  have h0 := congrFun (hk 0) 0
  have h1 := congrFun (hk 1) 0
  have h2 := hy 0
  have e : (computeStep (Tableau.coeffs (⟨2, ![![0, 1], ![0, 0]], ![1, 0], ![0, 0], some 1,
      "implicit"⟩ : Tableau ℚ)) Ex.linOde
      { (RKState.empty : RKState ℚ 2 1 1 0 0) with finalState := ![1] } (1/2)).finalState 0
      = 1/2 := by decide +kernel
  rw [e] at h2
  simp only [Ex.linRhs, Fin.sum_univ_two, RKState.empty] at h0 h1 h2
  simp at h0 h1 h2
  rw [h1] at h0
  rw [h0] at h2
  norm_num at h2

end Verif.Props
