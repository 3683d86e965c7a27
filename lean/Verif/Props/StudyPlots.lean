/-
C95 and C96: data for the plots of the convergence study, check for missing files.
-/
import Verif.Problems.Study
import Verif.Props.FileWriter

namespace Verif.Props

open Verif.Problems

/-! ### C95 -/

section

open Verif.File

theorem items_at {α : Type} {ks : List ℕ} {g : ℕ → α} {k : ℕ} (hk : k ∈ ks) :
    Items.at' (ks.map fun k => (k, g k)) k = .ok (g k) := by
  unfold Items.at'
  have h : (ks.map fun k => (k, g k)).find? (fun e => decide (e.1 = k)) = some (k, g k) := by
    induction ks with
    | nil => cases hk
    | cons a ks ih =>
      rw [List.map_cons, List.find?_cons]
      by_cases ha : a = k
      · subst ha; simp
      · simp only [ha, decide_false]
        exact ih ((List.mem_cons.mp hk).resolve_left fun e => ha e.symm)
  rw [h]

theorem mapM_ok_eq {α β : Type} {e : Type} {f : α → Except e β} {g : α → β} :
    ∀ (l : List α), (∀ a ∈ l, f a = .ok (g a)) → l.mapM f = .ok (l.map g)
  | [], _ => rfl
  | a :: l, h => by
    rw [List.mapM_cons, h a (by simp), mapM_ok_eq l fun b hb => h b (List.mem_cons_of_mem _ hb)]
    rfl

/-- Sorting the items of a dictionary with the keys `0, ..., n` in any order. -/
theorem sort_items {α : Type} {ks : List ℕ} {n : ℕ} (hks : ks.Perm (List.range n)) (g : ℕ → α) :
    Items.sort (ks.map fun k => (k, g k)) = (List.range n).map fun k => (k, g k) := by
  have hp : (Items.sort (ks.map fun k => (k, g k))).Perm ((List.range n).map fun k => (k, g k)) :=
    (List.mergeSort_perm _ _).trans (hks.map _)
  have hs : (Items.sort (ks.map fun k => (k, g k))).Pairwise fun a b => decide (a.1 ≤ b.1) = true :=
    List.pairwise_mergeSort
      (fun a b c hab hbc => by
        simp only [decide_eq_true_eq] at hab hbc ⊢
        exact hab.trans hbc)
      (fun a b => by
        simp only [Bool.or_eq_true, decide_eq_true_eq]
        exact le_total _ _) _
  refine hp.eq_of_pairwise (le := fun a b => a.1 ≤ b.1) ?_ ?_ ?_
  · intro a b ha hb hab hba
    obtain ⟨i, -, rfl⟩ := List.mem_map.mp (hp.mem_iff.mp ha)
    obtain ⟨j, -, rfl⟩ := List.mem_map.mp hb
    have : i = j := le_antisymm hab hba
    rw [this]
  · exact hs.imp fun h => of_decide_eq_true h
  · rw [List.pairwise_map]
    exact List.pairwise_le_range.imp fun h => h

theorem itemsOf_eq {α : Type} {ks : List ℕ} {d : Dict α} {g : ℕ → α}
    (h : ∀ k ∈ ks, d k = some (g k)) : itemsOf ks d = ks.map fun k => (k, g k) := by
  unfold itemsOf
  induction ks with
  | nil => rfl
  | cons a ks ih =>
    rw [List.filterMap_cons, h a (by simp), List.map_cons,
      ih fun k hk => h k (List.mem_cons_of_mem _ hk)]
    rfl

theorem stepSizes_range {n : ℕ} (t : ℕ → ℝ) :
    stepSizes ((List.range (n + 2)).map fun k => (k, t k))
      = .ok ((List.range (n + 1)).map (fun k => t (k + 1) - t k) ++ [t (n + 1) - t n]) := by
  unfold stepSizes
  have h : ((List.range (((List.range (n + 2)).map fun k => (k, t k)).length - 1)).mapM fun i => do
      let b ← Items.at' ((List.range (n + 2)).map fun k => (k, t k)) (i + 1)
      let a ← Items.at' ((List.range (n + 2)).map fun k => (k, t k)) i
      (.ok (b - a) : Except StudyErr ℝ)) = .ok ((List.range (n + 1)).map fun k => t (k + 1) - t k) := by
    rw [List.length_map, List.length_range]
    refine mapM_ok_eq _ fun i hi => ?_
    have hi' := List.mem_range.mp hi
    rw [items_at (List.mem_range.mpr (by omega)), items_at (List.mem_range.mpr (by omega))]
    rfl
  rw [h]
  simp only [bind, Except.bind]
  rw [List.range_succ, List.map_append, List.map_cons, List.map_nil, List.getLast?_concat]

variable {names : List String} {shape : String → List ℕ} {f : File} {t : ℕ → ℝ}
  {G : ℕ → String → ℕ → ℝ} {e : ℕ → Option ℝ}

theorem readKeys_perm {ks : List ℕ} (h : FileHolds names shape f ks t G e) (hn : ks.Nodup) :
    (readKeys f).Perm ks := by
  have hp := sorted_keys h
  have hnd : ((sortedItems f).map fun a => parseKey a.1).reverse.Nodup :=
    List.nodup_reverse.mpr (hp.nodup_iff.mpr hn)
  unfold readKeys
  rw [hnd.dedup, List.reverse_reverse]
  exact hp

theorem readFile_times {ks : List ℕ} (h : FileHolds names shape f ks t G e) (hn : ks.Nodup)
    {sol : Solution} {qs : List String} {time : Dict ℝ} {data : List (Dict (List ℝ) × Dict (List ℝ))}
    (hr : readFile sol qs f = .ok (time, data)) : ∀ k, time k = if k ∈ ks then some (t k) else none := by
  obtain ⟨d, h1, h2⟩ := readTimes_ok h hn
  unfold readFile at hr
  rw [h1] at hr
  simp only [bind, Except.bind] at hr
  split at hr
  · cases hr
  · cases hr; exact h2

/-- C95: for the file of a run of `N + 1` steps the plots show the times in the order of the steps,
and the step size that begins at each of them; the last step size is shown twice. Errors and values
are those of the steps, in the same order. -/
theorem C95_step_sizes {N : ℕ} (h : FileHolds names shape f (List.range (N + 2)) t G e)
    {sol : Solution} {qs : List String} {time : Dict ℝ} {data : List (Dict (List ℝ) × Dict (List ℝ))}
    (hr : readFile sol qs f = .ok (time, data)) :
    ∃ d, extractAdaptive sol qs f = .ok d ∧
      d.time = (List.range (N + 2)).map (fun k => (k, t k)) ∧
      d.steps = (List.range (N + 1)).map (fun k => t (k + 1) - t k) ++ [t (N + 1) - t N] ∧
      ∀ (i : ℕ) (er res : Dict (List ℝ)), data[i]? = some (er, res) →
        (∀ g : ℕ → List ℝ, (∀ k < N + 2, er k = some (g k)) →
          d.error[i]? = some ((List.range (N + 2)).map fun k => (k, g k))) ∧
        ∀ g : ℕ → List ℝ, (∀ k < N + 2, res k = some (g k)) →
          d.result[i]? = some ((List.range (N + 2)).map fun k => (k, g k)) := by
  have hp := readKeys_perm h List.nodup_range
  have hmem : ∀ k, k ∈ readKeys f ↔ k < N + 2 := fun k => by rw [hp.mem_iff, List.mem_range]
  have ht := readFile_times h List.nodup_range hr
  have e1 : itemsOf (readKeys f) time = (readKeys f).map fun k => (k, t k) :=
    itemsOf_eq fun k hk => by rw [ht, if_pos (List.mem_range.mpr ((hmem k).mp hk))]
  have e2 : extractAdaptive sol qs f = sortDicts (itemsOf (readKeys f) time)
      (data.map fun d => itemsOf (readKeys f) d.1) (data.map fun d => itemsOf (readKeys f) d.2) := by
    unfold extractAdaptive
    rw [hr]
  rw [e2]
  unfold sortDicts
  rw [e1, sort_items hp, stepSizes_range]
  refine ⟨_, rfl, rfl, rfl, fun i er res hi => ⟨fun g hg => ?_, fun g hg => ?_⟩⟩
  · dsimp only
    rw [List.getElem?_map, List.getElem?_map, hi]
    simp only [Option.map_some]
    rw [itemsOf_eq fun k hk => hg k ((hmem k).mp hk), sort_items hp]
  · dsimp only
    rw [List.getElem?_map, List.getElem?_map, hi]
    simp only [Option.map_some]
    rw [itemsOf_eq fun k hk => hg k ((hmem k).mp hk), sort_items hp]

theorem sum_steps (t : ℕ → ℝ) (n : ℕ) :
    ((List.range n).map fun k => t (k + 1) - t k).sum = t n - t 0 := by
  induction n with
  | zero => simp
  | succ n ih => rw [List.range_succ, List.map_append, List.sum_append, ih]; simp

/-- C95, the part that holds: the dashed line is at the average step size of the run, the covered
time by the number of steps, exactly if the last step has that size. -/
theorem C95_average_partial {N : ℕ} (h : FileHolds names shape f (List.range (N + 2)) t G e)
    {sol : Solution} {qs : List String} {time : Dict ℝ} {data : List (Dict (List ℝ) × Dict (List ℝ))}
    (hr : readFile sol qs f = .ok (time, data)) :
    ∃ d, extractAdaptive sol qs f = .ok d ∧
      (averageLine d = (t (N + 1) - t 0) / (N + 1) ↔
        t (N + 1) - t N = (t (N + 1) - t 0) / (N + 1)) := by
  obtain ⟨d, h1, -, h3, -⟩ := C95_step_sizes h hr
  refine ⟨d, h1, ?_⟩
  unfold averageLine
  rw [h3, List.sum_append, sum_steps, List.length_append, List.length_map, List.length_range]
  simp only [List.sum_singleton, List.length_singleton]
  push_cast
  have hN : (0 : ℝ) < N + 1 := by positivity
  have hN2 : (0 : ℝ) < N + 1 + 1 := by positivity
  rw [div_eq_div_iff hN2.ne' hN.ne', eq_div_iff hN.ne']
  constructor <;> intro hh <;> linarith

/-- The times 0, 1, 3/2 of a run of two steps. -/
noncomputable def twoTimes (k : ℕ) : ℝ := if k = 0 then 0 else if k = 1 then 1 else 3 / 2

/-- The file of a run of two steps. -/
noncomputable def twoSteps : File :=
  [("0", [("time", ⟨[1], fun _ => 0⟩), ("x", ⟨[1], fun _ => 1⟩)]),
   ("1", [("time", ⟨[1], fun _ => 1⟩), ("x", ⟨[1], fun _ => 1⟩)]),
   ("2", [("time", ⟨[1], fun _ => 3 / 2⟩), ("x", ⟨[1], fun _ => 1⟩)])]

theorem twoSteps_holds : FileHolds ["x"] (fun _ => [1]) twoSteps (List.range 3) twoTimes
    (fun _ _ _ => 1) (fun _ => none) := by
  have key : ∀ (a : ℝ) (k : ℕ), a = twoTimes k →
      Holds ["x"] (fun _ => [1]) [("time", ⟨[1], fun _ => a⟩), ("x", ⟨[1], fun _ => 1⟩)] (twoTimes k)
        (fun _ _ => 1) none := by
    intro a k ha
    refine ⟨rfl, ⟨_, rfl, rfl, ha⟩, ?_, fun x hx => by cases hx⟩
    intro nm hnm
    rw [List.mem_singleton] at hnm
    subst hnm
    exact ⟨_, rfl, rfl, fun idx _ => rfl⟩
  refine ⟨rfl, ?_⟩
  intro k hk
  rw [List.mem_range] at hk
  have : k = 0 ∨ k = 1 ∨ k = 2 := by omega
  rcases this with rfl | rfl | rfl
  · exact ⟨_, rfl, key _ _ (by simp [twoTimes])⟩
  · exact ⟨_, rfl, key _ _ (by simp [twoTimes])⟩
  · exact ⟨_, rfl, key _ _ (by simp [twoTimes])⟩

/-- C95 does not hold for the dashed line: steps of size 1 and 1/2 have the average 3/4, the line is
at 2/3. -/
theorem C95_average_violated (sol : Solution) :
    ∃ d, extractAdaptive sol ["x"] twoSteps = .ok d ∧ d.steps = [1, 1 / 2, 1 / 2] ∧
      averageLine d = 2 / 3 := by
  obtain ⟨time, er, res, h1, -⟩ := C43_single_partial twoSteps_holds (by decide) (by decide)
    (nm := "x") (by simp) (by simp) sol
  obtain ⟨d, h2, -, h3, -⟩ := C95_step_sizes twoSteps_holds h1
  have h4 : d.steps = [1, 1 / 2, 1 / 2] := by
    rw [h3]
    norm_num [twoTimes, List.range_succ]
  refine ⟨d, h2, h4, ?_⟩
  unfold averageLine
  rw [h4]
  norm_num

end

/-! ### C96 -/

/-- Where the file of a run is, as it is asked for. -/
def Located (folder : Path) (butcher : Str) (k : Kind) (p : Path) : Prop :=
  ∃ name, getFilePath folder butcher k = .ok (name, p)

/-- The runs whose files are needed for the plots of a study: for every scheme one for every step
size, the adaptive one and the one with its average step size. -/
inductive Needed (tableaux : List Str) (steps : List ℚ) : Str → Kind → Prop
  | step {bt h} (hbt : bt ∈ tableaux) (hh : h ∈ steps) : Needed tableaux steps bt (.num h)
  | adaptive {bt} (hbt : bt ∈ tableaux) : Needed tableaux steps bt (.str sAdaptive)
  | average {bt} (hbt : bt ∈ tableaux) : Needed tableaux steps bt (.str sAverage)

/-- The path in a line of the message. -/
def Line.path : Line → Option Path
  | .stepFile _ _ p => some p
  | .specialFile _ _ p => some p
  | _ => none

theorem located_num (folder : Path) (bt : Str) (h : ℚ) : ∃ r, getFilePath folder bt (.num h) = .ok r :=
  ⟨_, rfl⟩

theorem located_special (folder : Path) (bt : Str) {k : Str} (hk : k ∈ [sAverage, sAdaptive]) :
    ∃ r, getFilePath folder bt (.str k) = .ok r := by
  simp only [List.mem_cons, List.not_mem_nil, or_false] at hk
  rcases hk with rfl | rfl
  · exact ⟨_, by unfold getFilePath; exact if_neg (by simp)⟩
  · exact ⟨_, by unfold getFilePath; exact if_neg (by simp)⟩

theorem missingLine_eq {isFile : Path → Bool} {folder : Path} {bt : Str} {k : Kind}
    {line : Path → Line} {r : Str × Path} (h : getFilePath folder bt k = .ok r) :
    missingLine isFile folder bt k line = .ok (if isFile r.2 then [] else [line r.2]) := by
  unfold missingLine fileExists
  rw [h]
  simp only [bind, Except.bind]
  split_ifs <;> rfl

/-- The path of a run, for the proofs. -/
def pathOf (folder : Path) (bt : Str) (k : Kind) : Path :=
  match getFilePath folder bt k with
  | .ok r => r.2
  | .error _ => []

theorem pathOf_eq {folder : Path} {bt : Str} {k : Kind} {r : Str × Path}
    (h : getFilePath folder bt k = .ok r) : r.2 = pathOf folder bt k := by
  unfold pathOf; rw [h]

theorem missingSteps_eq (isFile : Path → Bool) (folder : Path) (tabs : List Str) (steps : List ℚ) :
    missingSteps isFile folder tabs steps = .ok (tabs.map fun bt => steps.map fun h =>
      if isFile (pathOf folder bt (.num h)) then [] else
        [Line.stepFile bt h (pathOf folder bt (.num h))]).flatten.flatten := by
  unfold missingSteps
  rw [mapM_ok_eq (g := fun bt => steps.map fun h =>
      if isFile (pathOf folder bt (.num h)) then [] else
        [Line.stepFile bt h (pathOf folder bt (.num h))])]
  · rfl
  · intro bt _
    refine mapM_ok_eq _ fun h _ => ?_
    obtain ⟨r, hr⟩ := located_num folder bt h
    rw [missingLine_eq hr, pathOf_eq hr]

theorem missingTypes_eq (isFile : Path → Bool) (folder : Path) (tabs : List Str) :
    missingTypes isFile folder tabs = .ok (tabs.map fun bt => [sAverage, sAdaptive].map fun k =>
      if isFile (pathOf folder bt (.str k)) then [] else
        [Line.specialFile k bt (pathOf folder bt (.str k))]).flatten.flatten := by
  unfold missingTypes
  rw [mapM_ok_eq (g := fun bt => [sAverage, sAdaptive].map fun k =>
      if isFile (pathOf folder bt (.str k)) then [] else
        [Line.specialFile k bt (pathOf folder bt (.str k))])]
  · rfl
  · intro bt _
    refine mapM_ok_eq _ fun k hk => ?_
    obtain ⟨r, hr⟩ := located_special folder bt hk
    rw [missingLine_eq hr, pathOf_eq hr]

theorem located_iff {folder : Path} {bt : Str} {k : Kind} {r : Str × Path}
    (h : getFilePath folder bt k = .ok r) (p : Path) : Located folder bt k p ↔ p = pathOf folder bt k := by
  unfold Located
  rw [← pathOf_eq h, h]
  constructor
  · rintro ⟨name, hn⟩; cases hn; rfl
  · rintro rfl; exact ⟨r.1, rfl⟩

/-- C96: the check never raises another exception; if it passes, the files of all runs that are
needed exist, and if it does not, the message names exactly those that do not. -/
theorem C96_check (isFile : Path → Bool) (folder : Path) (tabs : List Str) (steps : List ℚ) :
    ∃ r, checkFiles isFile folder tabs steps = .ok r ∧
      (r = none ↔ ∀ bt k p, Needed tabs steps bt k → Located folder bt k p → isFile p = true) ∧
      ∀ ls, r = some ls → ∀ p, some p ∈ ls.map Line.path ↔
        isFile p = false ∧ ∃ bt k, Needed tabs steps bt k ∧ Located folder bt k p := by
  set ms := (tabs.map fun bt => steps.map fun h =>
      if isFile (pathOf folder bt (.num h)) then [] else
        [Line.stepFile bt h (pathOf folder bt (.num h))]).flatten.flatten with hms
  set mt := (tabs.map fun bt => [sAverage, sAdaptive].map fun k =>
      if isFile (pathOf folder bt (.str k)) then [] else
        [Line.specialFile k bt (pathOf folder bt (.str k))]).flatten.flatten with hmt
  have m1 : ∀ x, x ∈ ms ↔ ∃ bt ∈ tabs, ∃ h ∈ steps, isFile (pathOf folder bt (.num h)) = false ∧
      x = .stepFile bt h (pathOf folder bt (.num h)) := by
    intro x
    simp only [hms, List.mem_flatten, List.mem_map]
    constructor
    · rintro ⟨_, ⟨_, ⟨bt, hbt, rfl⟩, hl⟩, hx⟩
      obtain ⟨h, hh, rfl⟩ := List.mem_map.mp hl
      split_ifs at hx with hc
      · cases hx
      · exact ⟨bt, hbt, h, hh, by simpa using hc, List.mem_singleton.mp hx⟩
    · rintro ⟨bt, hbt, h, hh, hc, rfl⟩
      exact ⟨_, ⟨_, ⟨bt, hbt, rfl⟩, List.mem_map.mpr ⟨h, hh, rfl⟩⟩, by rw [hc]; simp⟩
  have m2 : ∀ x, x ∈ mt ↔ ∃ bt ∈ tabs, ∃ k ∈ [sAverage, sAdaptive],
      isFile (pathOf folder bt (.str k)) = false ∧ x = .specialFile k bt (pathOf folder bt (.str k)) := by
    intro x
    simp only [hmt, List.mem_flatten, List.mem_map (l := tabs)]
    constructor
    · rintro ⟨_, ⟨_, ⟨bt, hbt, rfl⟩, hl⟩, hx⟩
      obtain ⟨h, hh, rfl⟩ := List.mem_map.mp hl
      split_ifs at hx with hc
      · cases hx
      · exact ⟨bt, hbt, h, hh, by simpa using hc, List.mem_singleton.mp hx⟩
    · rintro ⟨bt, hbt, h, hh, hc, rfl⟩
      exact ⟨_, ⟨_, ⟨bt, hbt, rfl⟩, List.mem_map.mpr ⟨h, hh, rfl⟩⟩, by rw [hc]; simp⟩
  -- what is missing, by runs
  have key : ∀ p, (some p ∈ ms.map Line.path ∨ some p ∈ mt.map Line.path) ↔
      isFile p = false ∧ ∃ bt k, Needed tabs steps bt k ∧ Located folder bt k p := by
    intro p
    simp only [List.mem_map, m1, m2]
    constructor
    · rintro (⟨_, ⟨bt, hbt, h, hh, hc, rfl⟩, hp⟩ | ⟨_, ⟨bt, hbt, k, hk, hc, rfl⟩, hp⟩)
      · cases hp
        exact ⟨hc, bt, _, .step hbt hh, (located_iff (located_num folder bt h).choose_spec _).mpr rfl⟩
      · cases hp
        refine ⟨hc, bt, .str k, ?_, (located_iff (located_special folder bt hk).choose_spec _).mpr rfl⟩
        simp only [List.mem_cons, List.not_mem_nil, or_false] at hk
        rcases hk with rfl | rfl
        · exact .average hbt
        · exact .adaptive hbt
    · rintro ⟨hc, bt, k, hn, hl⟩
      cases hn with
      | @step h hbt hh =>
        rw [located_iff (located_num folder bt h).choose_spec] at hl
        subst hl
        exact .inl ⟨_, ⟨bt, hbt, h, hh, hc, rfl⟩, rfl⟩
      | adaptive hbt =>
        rw [located_iff (located_special folder bt (k := sAdaptive) (by simp)).choose_spec] at hl
        subst hl
        exact .inr ⟨_, ⟨bt, hbt, sAdaptive, by simp, hc, rfl⟩, rfl⟩
      | average hbt =>
        rw [located_iff (located_special folder bt (k := sAverage) (by simp)).choose_spec] at hl
        subst hl
        exact .inr ⟨_, ⟨bt, hbt, sAverage, by simp, hc, rfl⟩, rfl⟩
  have hpath : ∀ x ∈ ms ++ mt, ∃ p, Line.path x = some p := by
    intro x hx
    rcases List.mem_append.mp hx with hx | hx
    · obtain ⟨bt, -, h, -, -, rfl⟩ := (m1 x).mp hx
      exact ⟨_, rfl⟩
    · obtain ⟨bt, -, h, -, -, rfl⟩ := (m2 x).mp hx
      exact ⟨_, rfl⟩
  unfold checkFiles
  rw [missingSteps_eq, missingTypes_eq, ← hms, ← hmt]
  simp only [bind, Except.bind]
  by_cases hne : ms ≠ [] ∨ mt ≠ []
  · rw [if_pos hne]
    refine ⟨_, rfl, ?_, ?_⟩
    · simp only [reduceCtorEq, false_iff]
      intro hall
      obtain ⟨x, hx⟩ : ∃ x, x ∈ ms ++ mt := by
        apply List.exists_mem_of_ne_nil
        intro h
        rw [List.append_eq_nil_iff] at h
        exact hne.elim (fun h' => h' h.1) fun h' => h' h.2
      obtain ⟨p, hp⟩ := hpath x hx
      obtain ⟨hc, bt, k, hn, hl⟩ := (key p).mp (by
        rw [← List.mem_append, ← List.map_append]
        exact List.mem_map.mpr ⟨x, hx, hp⟩)
      rw [hall bt k p hn hl] at hc
      cases hc
    · rintro ls hls p
      cases hls
      rw [← key p, List.map_append, List.map_append, List.mem_append, List.mem_append]
      have e1 : some p ∈ (if ms ≠ [] then Line.stepHeader :: ms else []).map Line.path ↔
          some p ∈ ms.map Line.path := by
        split_ifs with h
        · simp [Line.path]
        · rw [not_not.mp h]
      have e2 : some p ∈ (if mt ≠ [] then Line.specialHeader :: mt else []).map Line.path ↔
          some p ∈ mt.map Line.path := by
        split_ifs with h
        · simp [Line.path]
        · rw [not_not.mp h]
      rw [e1, e2]
      simp [Line.path]
  · rw [if_neg hne]
    rw [not_or, not_not, not_not] at hne
    refine ⟨_, rfl, ?_, by simp⟩
    simp only [true_iff]
    intro bt k p hn hl
    by_contra hc
    rw [Bool.not_eq_true] at hc
    have := (key p).mpr ⟨hc, bt, k, hn, hl⟩
    rw [hne.1, hne.2] at this
    simp at this

/-- C96: if the check passes, every file that is opened for the plots exists. -/
theorem C96_reading (isFile : Path → Bool) (folder : Path) (tabs : List Str) (steps : List ℚ)
    (h : checkFiles isFile folder tabs steps = .ok none) :
    ∃ ps, filesRead folder tabs steps = .ok ps ∧ ∀ p ∈ ps, isFile p = true := by
  obtain ⟨r, h1, h2, -⟩ := C96_check isFile folder tabs steps
  rw [h] at h1
  cases h1
  have hall := h2.mp rfl
  have e : filesRead folder tabs steps = .ok (tabs.map fun bt =>
      (steps.map fun h => pathOf folder bt (.num h)) ++
        [pathOf folder bt (.str sAdaptive), pathOf folder bt (.str sAverage)]).flatten := by
    unfold filesRead
    rw [mapM_ok_eq (g := fun bt => (steps.map fun h => pathOf folder bt (.num h)) ++
        [pathOf folder bt (.str sAdaptive), pathOf folder bt (.str sAverage)])]
    · rfl
    · intro bt _
      obtain ⟨a, ha⟩ := located_special folder bt (k := sAdaptive) (by simp)
      obtain ⟨b, hb⟩ := located_special folder bt (k := sAverage) (by simp)
      rw [mapM_ok_eq (f := fun h => getFilePath folder bt (.num h))
        (g := fun h => ((located_num folder bt h).choose)) steps
        fun h _ => (located_num folder bt h).choose_spec, ha, hb]
      simp only [bind, Except.bind, pathOf_eq ha, pathOf_eq hb, List.map_map]
      congr 2
      refine List.map_congr_left fun h _ => ?_
      exact pathOf_eq (located_num folder bt h).choose_spec
  refine ⟨_, e, ?_⟩
  intro p hp
  obtain ⟨l, hl, hp⟩ := List.mem_flatten.mp hp
  obtain ⟨bt, hbt, rfl⟩ := List.mem_map.mp hl
  rcases List.mem_append.mp hp with hp | hp
  · obtain ⟨h, hh, rfl⟩ := List.mem_map.mp hp
    exact hall bt _ _ (.step hbt hh) ((located_iff (located_num folder bt h).choose_spec _).mpr rfl)
  · simp only [List.mem_cons, List.not_mem_nil, or_false] at hp
    rcases hp with rfl | rfl
    · exact hall bt _ _ (.adaptive hbt)
        ((located_iff (located_special folder bt (k := sAdaptive) (by simp)).choose_spec _).mpr rfl)
    · exact hall bt _ _ (.average hbt)
        ((located_iff (located_special folder bt (k := sAverage) (by simp)).choose_spec _).mpr rfl)

-- only the adaptive run is missing
example : checkFiles (fun p => decide (["adaptive".toList, "bdf.h5".toList].isSuffixOf p = false))
    [] ["BDF".toList] [1 / 10] = .ok (some [.specialHeader,
      .specialFile sAdaptive "BDF".toList ["adaptive".toList, "bdf.h5".toList], .hint]) := by
  decide +kernel

-- nothing is missing
example : checkFiles (fun _ => true) ["data".toList] ["BDF".toList] [1 / 10, 1 / 20] = .ok none := by
  decide +kernel

end Verif.Props
