/-
Properties C48 and C49: the norm of the state over all ranks and the error measures.
-/
import Verif.OpenMDAO.NormLemmas

namespace Verif.Props

open Verif.Metadata Verif.OM

/-- C48. For every order `p > 0`, every number of ranks, every distribution of quantities that the metadata
extraction accepts, every set of excluded names: if each quantity is either held completely by
all ranks or split over them, then the reported norm on every rank is the `p`-norm of the
concatenation of all values not excluded.

Partial: the order `-inf` and quantities that are held completely by several but not all ranks
are not covered, see the theorems below. -/
theorem C48_p_norm_partial {P : Problem} {n : ℕ} {req ind : List String} {ms : List Meta}
    (h : setup P n req ind = .ok ms) {xs : List (ℕ → ℝ)} (hlen : xs.length = ms.length)
    {G : List (String × List ℝ)} (hG : Stored (ms.zip xs) G) (em : Option ℝ) {p : ℝ} (hp : 0 < p)
    (excl : List String) {r : ℕ} (hr : r < ms.length) :
    stateNorm em excl (.fin p) (ms.zip xs) r
      = some (((((G.filter fun g => decide (g.1 ∉ excl)).flatMap Prod.snd).map
          fun a => |a| ^ p).sum) ^ (1 / p)) :=
  stateNorm_fin h hlen hG hp excl hr

/-- C48. The same for the maximum: the reported norm is the largest absolute value.

Partial: if a rank has no part of some quantity, then the result depends on the version of NumPy,
see `C48_empty_part_violated`. -/
theorem C48_max_norm_partial {P : Problem} {n : ℕ} {req ind : List String} {ms : List Meta}
    (h : setup P n req ind = .ok ms) {xs : List (ℕ → ℝ)} (hlen : xs.length = ms.length)
    {G : List (String × List ℝ)} (hG : Stored (ms.zip xs) G) {em : Option ℝ} (excl : List String)
    (hem : ∀ m ∈ ms, ∀ q ∈ m.quantities, q.name ∉ excl → q.arr.stop ≤ q.arr.start → em = some 0)
    {r : ℕ} (hr : r < ms.length) :
    stateNorm em excl .inf (ms.zip xs) r
      = some (((G.filter fun g => decide (g.1 ∉ excl)).flatMap Prod.snd).foldr
          (fun a b => max |a| b) 0) := by
  refine stateNorm_inf h hlen hG excl (fun a ha q hq hn he => ?_) hr
  refine hem a.1 (zip_meta ha) q hq hn ?_
  unfold slice at he
  rw [List.map_eq_nil_iff, List.range_eq_nil] at he
  omega

/-- C48. The norm is zero only if all values not excluded are zero. -/
theorem C48_zero {P : Problem} {n : ℕ} {req ind : List String} {ms : List Meta}
    (h : setup P n req ind = .ok ms) {xs : List (ℕ → ℝ)} (hlen : xs.length = ms.length)
    {G : List (String × List ℝ)} (hG : Stored (ms.zip xs) G) (em : Option ℝ) {p : ℝ} (hp : 0 < p)
    (excl : List String) {r : ℕ} (hr : r < ms.length) :
    stateNorm em excl (.fin p) (ms.zip xs) r = some 0 ↔
      ∀ g ∈ G, g.1 ∉ excl → ∀ a ∈ g.2, a = 0 := by
  rw [stateNorm_fin h hlen hG hp excl hr, Option.some.injEq]
  have hnn : ∀ x ∈ (kept excl G).map fun a => |a| ^ p, (0 : ℝ) ≤ x := by
    intro x hx
    obtain ⟨a, _, rfl⟩ := List.mem_map.mp hx
    positivity
  unfold pNorm
  rw [Real.rpow_eq_zero (List.sum_nonneg hnn) (by positivity)]
  have hz : ∀ l : List ℝ, (∀ x ∈ l, (0 : ℝ) ≤ x) → (l.sum = 0 ↔ ∀ x ∈ l, x = 0) := by
    intro l hl
    induction l with
    | nil => simp
    | cons a l ih =>
      have ha := hl a (by simp)
      have hl' : ∀ x ∈ l, (0 : ℝ) ≤ x := fun x hx => hl x (by simp [hx])
      have hs := List.sum_nonneg hl'
      rw [List.sum_cons, add_eq_zero_iff_of_nonneg ha hs, ih hl']
      simp
  rw [hz _ hnn]
  unfold kept
  constructor
  · intro hall g hg hn a ha
    have := hall (|a| ^ p) (List.mem_map.mpr ⟨a, List.mem_flatMap.mpr
      ⟨g, List.mem_filter.mpr ⟨hg, by simpa using hn⟩, ha⟩, rfl⟩)
    rw [Real.rpow_eq_zero (abs_nonneg a) hp.ne'] at this
    simpa using this
  · intro hall x hx
    obtain ⟨a, ha, rfl⟩ := List.mem_map.mp hx
    obtain ⟨g, hg, ha⟩ := List.mem_flatMap.mp ha
    obtain ⟨hg, hn⟩ := List.mem_filter.mp hg
    rw [hall g hg (by simpa using hn) a ha, abs_zero, Real.zero_rpow hp.ne']

/-- Two ranks: `x` is split over them, `y` is on both. -/
def normProblem : Problem :=
  ⟨[⟨"x_up", .output, ["x", "stage_output_var"], [2], [some [1], some [1]]⟩,
    ⟨"y_up", .output, ["y", "stage_output_var"], [1], [some [1], some [1]]⟩], false⟩

def normMetas : List Meta :=
  [⟨none, 2, 0,
    [⟨"x", ⟨[1], [2], true, true, 0, 1, 0, 1⟩, none, none, some "x_up", none⟩,
     ⟨"y", ⟨[1], [1], true, false, 1, 2, 0, 1⟩, none, none, some "y_up", none⟩], []⟩,
   ⟨none, 2, 0,
    [⟨"x", ⟨[1], [2], true, true, 0, 1, 1, 2⟩, none, none, some "x_up", none⟩,
     ⟨"y", ⟨[1], [1], true, false, 1, 2, 0, 1⟩, none, none, some "y_up", none⟩], []⟩]

theorem normProblem_setup : setup normProblem 2 ["x", "y"] [] = .ok normMetas := by decide +kernel

/-- The states of the two ranks: `x = (3, -4)` and `y = 12`. -/
noncomputable def normStates : List (ℕ → ℝ) :=
  [fun i => if i = 0 then 3 else 12, fun i => if i = 0 then -4 else 12]

theorem normStored : Stored (normMetas.zip normStates) [("x", [3, -4]), ("y", [12])] := by
  refine ⟨⟨_, List.mem_cons_self, rfl⟩, fun j g hj => ?_⟩
  match j, hj with
  | 0, hj =>
    cases hj
    refine Or.inr ⟨⟨_, List.mem_cons_self, _, rfl, by decide⟩, ?_⟩
    simp [normMetas, normStates, part, held]
  | 1, hj =>
    cases hj
    refine Or.inl fun a ha => ?_
    simp only [normMetas, normStates, List.zip_cons_cons, List.zip_nil_left, List.mem_cons,
      List.not_mem_nil, or_false] at ha
    rcases ha with rfl | rfl
    · exact ⟨_, rfl, rfl, by simp [held]⟩
    · exact ⟨_, rfl, rfl, by simp [held]⟩
  | _ + 2, hj => cases hj

/-- The hypotheses can be met: two ranks, a split and a replicated quantity. With `y` excluded the
second rank reports the Euclidean norm of `(3, -4)`; the 1-norm of everything is 19. -/
example : stateNorm none ["y"] (.fin 2) (normMetas.zip normStates) 1 = some 5 := by
  rw [C48_p_norm_partial normProblem_setup rfl normStored none (by norm_num) ["y"] (by decide)]
  have h25 : ((25 : ℝ) ^ ((1 : ℝ) / 2)) = 5 := by
    rw [← Real.sqrt_eq_rpow, show (25 : ℝ) = 5 ^ 2 by norm_num, Real.sqrt_sq (by norm_num)]
  norm_num [List.filter_cons, h25, show ¬ ("x" = "y") by decide]

example : stateNorm none [] (.fin 1) (normMetas.zip normStates) 0 = some 19 := by
  rw [C48_p_norm_partial normProblem_setup rfl normStored none (by norm_num) [] (by decide)]
  norm_num [List.filter_cons]

example : stateNorm none ["y"] .inf (normMetas.zip normStates) 0 = some 4 := by
  rw [C48_max_norm_partial normProblem_setup rfl normStored ["y"] (by decide +kernel) (by decide)]
  norm_num [List.filter_cons, show ¬ ("x" = "y") by decide]

example : ¬ stateNorm none [] (.fin 3) (normMetas.zip normStates) 0 = some 0 := by
  rw [C48_zero normProblem_setup rfl normStored none (by norm_num) [] (by decide)]
  simp

/-- C48. With the order `-inf` the reported norm is zero for every state, so that it is not the
smallest absolute value. -/
theorem C48_minus_inf_violated (em : Option ℝ) (excl : List String)
    (ranks : List (Meta × (ℕ → ℝ))) (r : ℕ) (v : ℝ)
    (h : stateNorm em excl .ninf ranks r = some v) : v = 0 := by
  unfold stateNorm at h
  simp only [Option.bind_eq_bind, Option.bind_eq_some_iff] at h
  obtain ⟨vs, hvs, own, hown, hv⟩ := h
  have hall : ∀ w ∈ vs, w = (0, 0) := by
    clear hown hv
    induction ranks generalizing vs with
    | nil => cases hvs; simp
    | cons a l ih =>
      rw [List.mapM_cons] at hvs
      simp only [Option.bind_eq_bind, Option.bind_eq_some_iff] at hvs
      obtain ⟨w, hw, ws, hws, hp⟩ := hvs
      cases hp
      intro u hu
      rcases List.mem_cons.mp hu with rfl | hu
      · exact fold_ninf excl a.2 a.1.quantities _ _ rfl hw
      · exact ih ws hws u hu
  have hown0 := hall own (List.mem_of_getElem? hown)
  subst hown0
  have hred : allreduce .ninf (vs.map Prod.fst) = 0 := by
    cases vs with
    | nil => rfl
    | cons w ws =>
      simp only [List.map_cons, allreduce]
      rw [hall w (by simp)]
      have hws : ∀ u ∈ ws, u = (0, 0) := fun u hu => hall u (by simp [hu])
      clear hall hvs hown hv
      induction ws with
      | nil => rfl
      | cons u us ih =>
        rw [List.map_cons, List.foldl_cons, hws u (by simp)]
        simp only [min_self]
        exact ih fun u hu => hws u (by simp [hu])
  simp only [hred, addTo, OM.normalize, min_self, Real.rpow_one, Option.pure_def,
    Option.some.injEq] at hv
  exact hv.symm

/-- The smallest absolute value of the state `(3, -4)`, `12` is 3, the reported norm is 0. -/
example : stateNorm none [] .ninf (normMetas.zip normStates) 0 = some 0 := by
  norm_num [stateNorm, intermediates, normMetas, normStates, normStep, partialNorm, npNorm, slice,
    exponent, addTo, allreduce, OM.normalize]

/-- Three ranks; `x` has one entry and is held by the first two. -/
def twoOfThree : Problem :=
  ⟨[⟨"x_up", .output, ["x", "stage_output_var"], [1], [some [1], some [1], none]⟩], false⟩

def twoOfThreeMetas : List Meta :=
  [⟨none, 1, 0, [⟨"x", ⟨[1], [1], true, true, 0, 1, 0, 1⟩, none, none, some "x_up", none⟩], []⟩,
   ⟨none, 1, 0, [⟨"x", ⟨[1], [1], true, true, 0, 1, 0, 1⟩, none, none, some "x_up", none⟩], []⟩,
   ⟨none, 0, 0, [⟨"x", ⟨[0], [1], false, true, 0, 0, 0, 0⟩, none, none, none, none⟩], []⟩]

/-- C48. A quantity held by some ranks completely, but not by all, is counted once for each of them: the
state with the single value 1 has the reported 1-norm 2. -/
theorem C48_partly_replicated_violated :
    ∃ (P : Problem) (ms : List Meta) (xs : List (ℕ → ℝ)), setup P 3 ["x"] [] = .ok ms ∧
      (∀ m ∈ ms, ∀ x ∈ xs, ∀ q ∈ m.quantities, q.arr.isLocal = true →
        q.arr.shape = q.arr.globalShape ∧ held q x = [1]) ∧
      stateNorm none [] (.fin 1) (ms.zip xs) 0 = some 2 := by
  refine ⟨twoOfThree, twoOfThreeMetas, [fun _ => 1, fun _ => 1, fun _ => 1], by decide +kernel,
    ?_, ?_⟩
  · simp [twoOfThreeMetas, held]
  · norm_num [stateNorm, intermediates, twoOfThreeMetas, normStep, partialNorm, npNorm, slice,
      exponent, addTo, allreduce, OM.normalize]

/-- Two ranks; `x` is on the first only. -/
def oneOfTwo : Problem :=
  ⟨[⟨"x_up", .output, ["x", "stage_output_var"], [1], [some [1], none]⟩], false⟩

/-- C48. If NumPy refuses the maximum of an empty array, then the maximum norm raises as soon as a
rank has no part of a quantity, although the values of the state have a maximum. -/
theorem C48_empty_part_violated :
    ∃ (P : Problem) (ms : List Meta) (xs : List (ℕ → ℝ)), setup P 2 ["x"] [] = .ok ms ∧
      xs.length = ms.length ∧ Stored (ms.zip xs) [("x", [1])] ∧
      ∀ r, stateNorm none [] .inf (ms.zip xs) r = none := by
  refine ⟨oneOfTwo,
    [⟨none, 1, 0, [⟨"x", ⟨[1], [1], true, true, 0, 1, 0, 1⟩, none, none, some "x_up", none⟩], []⟩,
     ⟨none, 0, 0, [⟨"x", ⟨[0], [1], false, true, 0, 0, 0, 0⟩, none, none, none, none⟩], []⟩],
    [fun _ => 1, fun _ => 1], by decide +kernel, rfl, ?_, fun r => ?_⟩
  · refine ⟨⟨_, List.mem_cons_self, rfl⟩, fun j g hj => ?_⟩
    match j, hj with
    | 0, hj =>
      cases hj
      refine Or.inr ⟨⟨_, List.mem_cons_of_mem _ List.mem_cons_self, _, rfl, by decide⟩, ?_⟩
      simp [part, held]
    | _ + 1, hj => cases hj
  · simp [stateNorm, intermediates, normStep, partialNorm, npNorm, slice]

/-! ### Error measures -/

/-- C49. The simple measure is the norm of the error estimate, whatever the state is. -/
theorem C49_simple {S : Type} (norm : S → ℝ) (err state : S) :
    simpleMeasure norm err state = norm err := rfl

/-- C49. For every nonnegative norm and positive parameters the improved measure has a value; it is
between zero and both `norm * eps / eta` and the relative error. -/
theorem C49_improved_bounds {S : Type} (norm : S → ℝ) (hn : ∀ x, 0 ≤ norm x) {eta eps : ℝ}
    (he : 0 < eta) (hs : 0 < eps) (err state : S) :
    ∃ m, improvedMeasure norm eta eps err state = some m ∧ 0 ≤ m ∧ m ≤ norm err * eps / eta ∧
      m * norm state ≤ norm err ∧ (m = 0 ↔ norm err = 0) := by
  have hq : 0 < eta / eps := div_pos he hs
  have hd : 0 < norm state + eta / eps := by have := hn state; linarith
  refine ⟨norm err / (norm state + eta / eps), ?_, div_nonneg (hn _) hd.le, ?_, ?_, ?_⟩
  · unfold improvedMeasure
    rw [if_neg hs.ne', if_neg hd.ne']
  · rw [div_le_iff₀ hd]
    have h1 : norm err * eps / eta * (eta / eps) = norm err := by
      field_simp
    have h2 : 0 ≤ norm err * eps / eta := by
      have := hn err; positivity
    nlinarith [hn state, mul_nonneg h2 (hn state)]
  · rw [div_mul_eq_mul_div, div_le_iff₀ hd]
    nlinarith [hn err, mul_nonneg (hn err) hq.le]
  · rw [div_eq_zero_iff]
    constructor
    · rintro (h | h)
      · exact h
      · exact absurd h hd.ne'
    · exact Or.inl

/-- C49. The improved measure does not decrease when the norm of the error grows, and does not
increase when the norm of the state grows; it grows strictly with the norm of the error. -/
theorem C49_improved_monotone {S : Type} (norm : S → ℝ) (hn : ∀ x, 0 ≤ norm x) {eta eps : ℝ}
    (he : 0 < eta) (hs : 0 < eps) {err err' state state' : S} {m m' : ℝ}
    (hm : improvedMeasure norm eta eps err state = some m)
    (hm' : improvedMeasure norm eta eps err' state' = some m') :
    (norm err ≤ norm err' → norm state' ≤ norm state → m ≤ m') ∧
      (norm err < norm err' → norm state' ≤ norm state → m < m') := by
  have hq : 0 < eta / eps := div_pos he hs
  have hd : 0 < norm state + eta / eps := by have := hn state; linarith
  have hd' : 0 < norm state' + eta / eps := by have := hn state'; linarith
  unfold improvedMeasure at hm hm'
  rw [if_neg hs.ne', if_neg hd.ne', Option.some.injEq] at hm
  rw [if_neg hs.ne', if_neg hd'.ne', Option.some.injEq] at hm'
  subst hm hm'
  refine ⟨fun h1 h2 => ?_, fun h1 h2 => ?_⟩
  · rw [div_le_div_iff₀ hd hd']
    have := hn err
    nlinarith
  · rw [div_lt_div_iff₀ hd hd']
    have := hn err
    nlinarith

/-- A case of the two theorems: the default parameters, error norms 1 and 2. -/
example : ∃ m m' : ℝ, improvedMeasure (fun x : ℝ => |x|) 1e-6 1e-6 1 3 = some m ∧
    improvedMeasure (fun x : ℝ => |x|) 1e-6 1e-6 2 3 = some m' ∧ m = 1 / 4 ∧ m < m' := by
  refine ⟨1 / 4, 1 / 2, ?_, ?_, rfl, by norm_num⟩
  · norm_num [improvedMeasure]
  · norm_num [improvedMeasure]

/-- C49. What happens outside of positive parameters: the measure fails exactly for `eps = 0` and for a
vanishing denominator. In particular a zero state norm with `eta = 0` fails. -/
theorem C49_improved_fails_iff {S : Type} (norm : S → ℝ) (eta eps : ℝ) (err state : S) :
    improvedMeasure norm eta eps err state = none ↔
      eps = 0 ∨ norm state * eps = - eta := by
  unfold improvedMeasure
  by_cases h : eps = 0
  · simp [h]
  · have hiff : norm state + eta / eps = 0 ↔ norm state * eps = - eta := by
      rw [← mul_left_inj' h, add_mul, div_mul_cancel₀ _ h, zero_mul]
      constructor <;> intro h' <;> linarith
    rw [if_neg h]
    by_cases h2 : norm state + eta / eps = 0
    · simp [h2, hiff.mp h2]
    · rw [if_neg h2]
      simp only [reduceCtorEq, h, false_or, false_iff]
      exact fun h' => h2 (hiff.mpr h')

/-- C49. With the norm of the backend: over all ranks, the improved measure is zero exactly if all
entries of the error estimate that are not excluded are zero. -/
theorem C49_zero_only_for_zero_error {P : Problem} {n : ℕ} {req ind : List String}
    {ms : List Meta} (h : setup P n req ind = .ok ms) {xs ys : List (ℕ → ℝ)}
    (hx : xs.length = ms.length) (hy : ys.length = ms.length)
    {G G' : List (String × List ℝ)} (hG : Stored (ms.zip xs) G) (hG' : Stored (ms.zip ys) G')
    (em : Option ℝ) {p : ℝ} (hp : 0 < p) (excl : List String) {r : ℕ} (hr : r < ms.length)
    {eta eps : ℝ} (he : 0 < eta) (hs : 0 < eps) :
    improvedMeasure (fun zs => (stateNorm em excl (.fin p) (ms.zip zs) r).getD 0) eta eps xs ys
      = some 0 ↔ ∀ g ∈ G, g.1 ∉ excl → ∀ a ∈ g.2, a = 0 := by
  rw [← C48_zero h hx hG em hp excl hr]
  have h1 := stateNorm_fin (em := em) h hx hG hp excl hr
  have h2 := stateNorm_fin (em := em) h hy hG' hp excl hr
  have hnn : ∀ l : List ℝ, 0 ≤ pNorm p l := fun l => Real.rpow_nonneg (powSum_nonneg p l) _
  have hq : 0 < eta / eps := div_pos he hs
  have hd : 0 < pNorm p (kept excl G') + eta / eps := by
    have := hnn (kept excl G'); linarith
  unfold improvedMeasure
  simp only [h1, h2, Option.getD_some]
  rw [if_neg hs.ne', if_neg hd.ne', Option.some.injEq, Option.some.injEq, div_eq_zero_iff]
  constructor
  · rintro (h | h)
    · exact h
    · exact absurd h hd.ne'
  · exact Or.inl

example : ¬ improvedMeasure (fun zs => (stateNorm none [] (.fin 2) (normMetas.zip zs) 1).getD 0)
    1e-6 1e-6 normStates normStates = some 0 := by
  rw [C49_zero_only_for_zero_error normProblem_setup rfl rfl normStored normStored none
    (by norm_num) [] (by decide) (by norm_num) (by norm_num)]
  simp

end Verif.Props
