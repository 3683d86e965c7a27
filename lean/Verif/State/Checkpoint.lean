/-
Checkpoints in the memory model: sequences of saving, loading and assignments, and what loading does.

Source: /repo/src/rkopenmdao/checkpoint_interface/runge_kutta_integrator_pyrevolve_classes.py
-/
import Verif.State.Lemmas

namespace Verif.State

variable {K : Type}

/-- Memory together with the slots of the revolver. -/
structure Mem (K : Type) where
  heap : Heap K
  slots : ℕ → Option (List (Arr K))

/-- What happens to memory: saving to a slot, loading from it, or an assignment through some
reference (the assignments of the steps, callbacks and so on; they keep the shape of arrays). -/
inductive Op (K : Type) where
  | save (j : ℕ)
  | load (j : ℕ)
  | assign (v : View) (x : Arr K)

/-- One operation, where `d` is the dictionary of the live state (`_symbols`,
...pyrevolve_classes.py L29-31). `save` stores `get_data`, `load` copies to `get_data_location`.
An assignment that fails leaves memory unchanged, and so does loading from an empty slot
(pyrevolve does not do this). -/
def Mem.step (d : Dict) (m : Mem K) : Op K → Mem K
  | .save j => { m with slots := Function.update m.slots j (some (getData m.heap d)) }
  | .load j => match m.slots j with
    | none => m
    | some xs => { m with heap := loadData m.heap (locations m.heap d) xs }
  | .assign v x => match v.assign m.heap x with
    | .error _ => m
    | .ok h => { m with heap := h }

/-- A sequence of operations. -/
def Mem.run (d : Dict) (m : Mem K) (ops : List (Op K)) : Mem K := ops.foldl (Mem.step d) m

/-! ### Loading -/

/-- The address of a reference. -/
def View.base : View → ℕ
  | .whole a => a
  | .row a _ => a

/-- Two references that show different parts of memory. -/
def View.sep : View → View → Prop
  | .row a i, .row b j => a ≠ b ∨ i ≠ j
  | v, w => v.base ≠ w.base

theorem View.read_write_sep (h : Heap K) (v w : View) (x : Arr K) (hs : v.sep w) :
    w.read (v.write h x) = w.read h := by
  cases v with
  | whole a =>
    cases w with
    | whole b =>
      have : b ≠ a := fun e => hs e.symm
      simp [View.read, View.write, Function.update_of_ne this]
    | row b j =>
      have : b ≠ a := fun e => hs e.symm
      simp [View.read, View.write, Function.update_of_ne this]
  | row a i =>
    cases w with
    | whole b =>
      have : b ≠ a := fun e => hs e.symm
      simp [View.read, View.write, Function.update_of_ne this]
    | row b j =>
      by_cases hba : b = a
      · subst hba
        have hij : i ≠ j := by
          rcases hs with h | h
          · exact absurd rfl h
          · exact h
        simp [View.read, View.write, List.getElem?_set_ne hij]
      · simp [View.read, View.write, Function.update_of_ne hba]

/-- The row of a reference exists. -/
def View.inRange (h : Heap K) : View → Prop
  | .whole _ => True
  | .row a i => i < (h.cells a).length

theorem View.read_write_self (h h' : Heap K) (v : View) (hr : v.inRange h) :
    v.read (v.write h (v.read h')) = v.read h' := by
  cases v with
  | whole a => simp [View.read, View.write]
  | row a i =>
    have : i < (h.cells a).length := hr
    simp [View.read, View.write, this]

theorem View.write_other (h : Heap K) (v : View) (x : Arr K) (id : ℕ) (hid : id ≠ v.base) :
    (v.write h x).cells id = h.cells id := by
  cases v <;> simp [View.write, View.base] at * <;> simp [Function.update_of_ne hid]

theorem View.write_shape (h : Heap K) (v : View) (x : Arr K) (hs : shape (v.read h) = shape x)
    (id : ℕ) : shape ((v.write h x).cells id) = shape (h.cells id) := by
  by_cases hid : id = v.base
  · subst hid
    cases v with
    | whole a => simpa [View.write, View.read, View.base] using hs.symm
    | row a i =>
      simp only [View.write, View.base, Function.update_self, shape, List.map_set]
      by_cases hi : i < (h.cells a).length
      · simp only [View.read, shape, List.map_cons, List.map_nil] at hs
        obtain ⟨r, rfl⟩ : ∃ r, x = [r] := by
          cases x with
          | nil => simp at hs
          | cons r t => cases t with
            | nil => exact ⟨r, rfl⟩
            | cons _ _ => simp at hs
        simp only [List.map_cons, List.map_nil, List.cons.injEq, and_true] at hs
        rw [getD_of_lt _ _ _ hi] at hs
        apply List.ext_getElem (by simp)
        intro k h1 h2
        rw [List.getElem_set]
        split
        · rename_i e; subst e; simp [← hs]
        · rfl
      · rw [List.set_eq_of_length_le (by simp; omega)]
  · rw [View.write_other _ _ _ _ hid]

/-- Equal shapes of all arrays. -/
def SameShape (h h' : Heap K) : Prop := ∀ id, shape (h.cells id) = shape (h'.cells id)

theorem SameShape.read {h h' : Heap K} (hs : SameShape h h') (v : View) :
    shape (v.read h) = shape (v.read h') := by
  cases v with
  | whole a => exact hs a
  | row a i =>
    have := hs a
    have hl := congrArg List.length this
    simp only [shape, List.length_map] at hl
    simp only [View.read, shape, List.map_cons, List.map_nil, List.cons.injEq, and_true]
    by_cases hi : i < (h.cells a).length
    · rw [getD_of_lt _ _ _ hi, getD_of_lt _ _ _ (hl ▸ hi)]
      have := congrArg (fun l => l[i]?) this
      simp only [shape, List.getElem?_map, List.getElem?_eq_getElem hi,
        List.getElem?_eq_getElem (hl ▸ hi), Option.map_some, Option.some.injEq] at this
      exact this
    · rw [List.getD_eq_getElem?_getD, List.getD_eq_getElem?_getD,
        List.getElem?_eq_none (by omega), List.getElem?_eq_none (by omega)]

theorem SameShape.inRange {h h' : Heap K} (hs : SameShape h h') (v : View) (hr : v.inRange h) :
    v.inRange h' := by
  cases v with
  | whole a => trivial
  | row a i =>
    have := congrArg List.length (hs a)
    simp only [shape, List.length_map] at this
    simp only [View.inRange] at hr ⊢
    omega

theorem SameShape.symm {h h' : Heap K} (hs : SameShape h h') : SameShape h' h :=
  fun id => (hs id).symm

theorem SameShape.trans {h h' h'' : Heap K} (a : SameShape h h') (b : SameShape h' h'') :
    SameShape h h'' := fun id => (a id).trans (b id)

/-- Loading what was saved: every reference shows the saved content, separate ones are unchanged. -/
theorem loadData_spec (h1 : Heap K) (vs : List View) (h2 : Heap K) (hs : SameShape h2 h1)
    (hr : ∀ v ∈ vs, v.inRange h2) (hsep : ∀ v ∈ vs, ∀ w ∈ vs, v ≠ w → v.sep w) :
    SameShape (loadData h2 vs (vs.map (View.read h1))) h1 ∧
    (∀ v ∈ vs, v.read (loadData h2 vs (vs.map (View.read h1))) = v.read h1) ∧
    (∀ w, (∀ v ∈ vs, v.sep w) → w.read (loadData h2 vs (vs.map (View.read h1))) = w.read h2) ∧
    (∀ id, id ∉ vs.map View.base →
      (loadData h2 vs (vs.map (View.read h1))).cells id = h2.cells id) := by
  induction vs generalizing h2 with
  | nil => exact ⟨hs, by simp, fun _ _ => rfl, fun _ _ => rfl⟩
  | cons v vs ih =>
    have hs' : SameShape (v.write h2 (v.read h1)) h1 := fun id => by
      rw [View.write_shape _ _ _ (hs.read v), hs id]
    have h22 : SameShape h2 (v.write h2 (v.read h1)) := hs.trans hs'.symm
    obtain ⟨g1, g2, g3, g4⟩ := ih (v.write h2 (v.read h1)) hs'
      (fun w hw => h22.inRange w (hr w (by simp [hw])))
      (fun a ha b hb => hsep a (by simp [ha]) b (by simp [hb]))
    have e : loadData h2 (v :: vs) ((v :: vs).map (View.read h1))
        = loadData (v.write h2 (v.read h1)) vs (vs.map (View.read h1)) := rfl
    rw [e]
    refine ⟨g1, ?_, ?_, ?_⟩
    · intro w hw
      by_cases hwv : w ∈ vs
      · exact g2 w hwv
      · obtain rfl : w = v := by
          rcases List.mem_cons.mp hw with h | h
          · exact h
          · exact absurd h hwv
        rw [g3 w (fun u hu => hsep u (by simp [hu]) w (by simp)
          (fun e => hwv (e ▸ hu)))]
        exact View.read_write_self _ _ _ (hr w (by simp))
    · intro w hw
      rw [g3 w (fun u hu => hw u (by simp [hu]))]
      exact View.read_write_sep _ _ _ _ (hw v (by simp))
    · intro id hid
      simp only [List.map_cons, List.mem_cons, not_or] at hid
      rw [g4 id hid.2]
      exact View.write_other _ _ _ _ hid.1

theorem eq_of_size_zero {a b : Arr K} (hs : shape a = shape b) (h0 : size b = 0) : a = b := by
  induction a generalizing b with
  | nil => cases b with
    | nil => rfl
    | cons _ _ => simp [shape] at hs
  | cons r a ih => cases b with
    | nil => simp [shape] at hs
    | cons q b =>
      simp only [shape, List.map_cons, List.cons.injEq] at hs
      simp only [size, shape, List.map_cons, List.sum_cons, Nat.add_eq_zero_iff] at h0
      rw [ih (b := b) (by simpa [shape] using hs.2) (by simpa [size, shape] using h0.2)]
      have hq : q = [] := List.length_eq_zero_iff.mp h0.1
      have hr : r = [] := List.length_eq_zero_iff.mp (by rw [hs.1, h0.1])
      rw [hq, hr]

/-- All references in a dictionary, also those to empty arrays. -/
def allViews (W : List ℕ) (R : List ℕ) (s : ℕ) (vs : List View) : Prop :=
  (∀ v ∈ vs, (∃ a ∈ W, v = .whole a) ∨ ∃ a ∈ R, ∃ i < s, v = .row a i) ∧
  (∀ a ∈ W, .whole a ∈ vs) ∧ ∀ a ∈ R, ∀ i < s, .row a i ∈ vs

/-- Loading with the empty arrays left out. -/
theorem loadData_filter (h1 h2 : Heap K) (W R : List ℕ) (s : ℕ) (vs : List View)
    (hvs : allViews W R s vs) (hWR : W.Disjoint R) (hR : ∀ a ∈ R, (h1.cells a).length = s)
    (hs : SameShape h2 h1) :
    let fs := vs.filter (fun v => size (v.read h1) > 0)
    SameShape (loadData h2 fs (fs.map (View.read h1))) h1 ∧
    (∀ a ∈ W ++ R, (loadData h2 fs (fs.map (View.read h1))).cells a = h1.cells a) ∧
    (∀ id, id ∉ W ++ R → (loadData h2 fs (fs.map (View.read h1))).cells id = h2.cells id) := by
  intro fs
  obtain ⟨q1, q2, q3⟩ := hvs
  have sep : ∀ v ∈ vs, ∀ w ∈ vs, v ≠ w → v.sep w := by
    intro v hv w hw hne
    rcases q1 v hv with ⟨a, ha, rfl⟩ | ⟨a, ha, i, hi, rfl⟩ <;>
    rcases q1 w hw with ⟨b, hb, rfl⟩ | ⟨b, hb, j, hj, rfl⟩
    · exact fun e => hne (congrArg View.whole e)
    · exact fun e => hWR ha ((show a = b from e) ▸ hb)
    · exact fun e => hWR hb ((show a = b from e) ▸ ha)
    · by_cases e : a = b
      · right; intro e'; exact hne (by rw [e, e'])
      · exact Or.inl e
  have hl2 : ∀ a ∈ R, (h2.cells a).length = s := by
    intro a ha
    have := congrArg List.length (hs a)
    simp only [shape, List.length_map] at this
    rw [this, hR a ha]
  have sub : ∀ v ∈ fs, v ∈ vs := fun v hv => (List.mem_filter.mp hv).1
  obtain ⟨g1, g2, g3, g4⟩ := loadData_spec h1 fs h2 hs
    (by
      intro v hv
      rcases q1 v (sub v hv) with ⟨a, ha, rfl⟩ | ⟨a, ha, i, hi, rfl⟩
      · trivial
      · simp only [View.inRange, hl2 a ha]; exact hi)
    (fun v hv w hw => sep v (sub v hv) w (sub w hw))
  have all : ∀ v ∈ vs, v.read (loadData h2 fs (fs.map (View.read h1))) = v.read h1 := by
    intro v hv
    by_cases h0 : size (v.read h1) > 0
    · exact g2 v (List.mem_filter.mpr ⟨hv, by simpa using h0⟩)
    · exact eq_of_size_zero (g1.read v) (by omega)
  refine ⟨g1, ?_, ?_⟩
  · intro a ha
    rcases List.mem_append.mp ha with ha | ha
    · exact all _ (q2 a ha)
    · have l1 := hR a ha
      have l2 : ((loadData h2 fs (fs.map (View.read h1))).cells a).length = s := by
        have := congrArg List.length (g1 a)
        simp only [shape, List.length_map] at this
        rw [this, l1]
      apply List.ext_getElem (by rw [l1, l2])
      intro i hi1 hi2
      have := all _ (q3 a ha i (by omega))
      simp only [View.read, List.cons.injEq, and_true] at this
      rwa [getD_of_lt _ _ _ hi1, getD_of_lt _ _ _ hi2] at this
  · intro id hid
    apply g4
    intro hmem
    obtain ⟨v, hv, rfl⟩ := List.mem_map.mp hmem
    rcases q1 v (sub v hv) with ⟨a, ha, rfl⟩ | ⟨a, ha, i, hi, rfl⟩ <;>
    exact hid (by simp [View.base, ha])

/-! ### The references of the dictionary of an integration state -/

/-- The arrays saved whole. -/
def TObj.wholes (t : TObj K) (a : ℕ) : List ℕ :=
  [t.disc.startState, t.disc.startTime, t.disc.stageTimes, t.disc.finalState,
    t.disc.independentInputs, t.disc.finalIndependentOutputs, t.disc.finalTime,
    t.disc.linearizationPoints] ++ t.disc.embIds ++ [a, t.stepHist, t.errHist]

/-- The arrays saved by rows. -/
def TObj.byRows (t : TObj K) : List ℕ :=
  [t.disc.stageStates, t.disc.stageUpdates, t.disc.stageIndependentOutputs]

/-- The references of the dictionary in order. -/
def TObj.views (t : TObj K) (a s : ℕ) : List View :=
  [.whole t.disc.startState, .whole t.disc.startTime, .whole t.disc.stageTimes]
  ++ (List.range s).flatMap (fun i => [.row t.disc.stageStates i, .row t.disc.stageUpdates i,
    .row t.disc.stageIndependentOutputs i])
  ++ [.whole t.disc.finalState, .whole t.disc.independentInputs,
    .whole t.disc.finalIndependentOutputs, .whole t.disc.finalTime,
    .whole t.disc.linearizationPoints] ++ t.disc.embIds.map .whole
  ++ [.whole a, .whole t.stepHist, .whole t.errHist]

theorem TObj.views_all (t : TObj K) (a s : ℕ) : allViews (t.wholes a) t.byRows s (t.views a s) := by
  refine ⟨?_, ?_, ?_⟩
  · intro v hv
    simp only [TObj.views, List.mem_append, List.mem_cons, List.not_mem_nil, or_false,
      List.mem_flatMap, List.mem_range, List.mem_map] at hv
    simp only [TObj.wholes, TObj.byRows, List.mem_append, List.mem_cons, List.not_mem_nil, or_false]
    rcases hv with (((h | ⟨i, hi, h⟩) | h) | ⟨x, hx, rfl⟩) | h
    · rcases h with rfl | rfl | rfl <;> simp
    · rcases h with rfl | rfl | rfl <;> simp [hi]
    · rcases h with rfl | rfl | rfl | rfl | rfl <;> simp
    · left; exact ⟨x, by simp [hx], rfl⟩
    · rcases h with rfl | rfl | rfl <;> simp
  · intro b hb
    simp only [TObj.wholes, List.mem_append, List.mem_cons, List.not_mem_nil, or_false] at hb
    simp only [TObj.views, List.mem_append, List.mem_cons, List.not_mem_nil, or_false,
      List.mem_map, View.whole.injEq, exists_eq_right]
    tauto
  · intro b hb i hi
    simp only [TObj.byRows, List.mem_cons, List.not_mem_nil, or_false] at hb
    simp only [TObj.views, List.mem_append, List.mem_flatMap, List.mem_range]
    refine Or.inl (Or.inl (Or.inl (Or.inr ⟨i, hi, ?_⟩)))
    rcases hb with rfl | rfl | rfl <;> simp

theorem locationsList_append (h : Heap K) (xs ys : List (Key × Dict)) :
    locationsList h (xs ++ ys) = locationsList h xs ++ locationsList h ys := by
  induction xs with
  | nil => simp [locationsList]
  | cons x xs ih => simp [locationsList, ih]

theorem locationsList_stages (h : Heap K) (o : RKObj) (l : List ℕ) :
    locationsList h (l.map (stageEntry o))
      = (l.flatMap (fun i => [View.row o.stageStates i, .row o.stageUpdates i,
        .row o.stageIndependentOutputs i])).filter (fun v => size (v.read h) > 0) := by
  induction l with
  | nil => simp [locationsList]
  | cons i l ih =>
    simp only [List.map_cons, locationsList, ih, List.flatMap_cons, List.filter_append]
    congr 1
    simp only [stageEntry, locations, locationsList, List.filter_cons, List.filter_nil]
    by_cases h1 : size ((View.row o.stageStates i).read h) > 0 <;>
    by_cases h2 : size ((View.row o.stageUpdates i).read h) > 0 <;>
    by_cases h3 : size ((View.row o.stageIndependentOutputs i).read h) > 0 <;>
    simp [h1, h2, h3]

theorem locationsList_wholes (h : Heap K) (es : List (Key × ℕ)) :
    locationsList h (es.map (fun e => (e.1, .arr (.whole e.2))))
      = (es.map (fun e => View.whole e.2)).filter (fun v => size (v.read h) > 0) := by
  induction es with
  | nil => simp [locationsList]
  | cons e es ih =>
    simp only [List.map_cons, locationsList, ih, locations, List.filter_cons]
    by_cases h1 : size ((View.whole e.2).read h) > 0 <;> simp [h1]

theorem TObj.locations_eq (t : TObj K) (a : ℕ) (h0 h : Heap K) :
    locations h (t.toDict h0 a)
      = (t.views a (h0.cells t.disc.stageStates).length).filter
          (fun v => size (v.read h) > 0) := by
  have l1 := locationsList_wholes h [(.startState, t.disc.startState), (.startTime, t.disc.startTime),
    (.stageTimes, t.disc.stageTimes)]
  have l2 := locationsList_wholes h [(.finalState, t.disc.finalState),
    (.independentInput, t.disc.independentInputs),
    (.finalIndependentOutput, t.disc.finalIndependentOutputs), (.finalTime, t.disc.finalTime),
    (.linearizationPoints, t.disc.linearizationPoints)]
  have l3 := locationsList_wholes h [(.stepSizeSuggestion, a), (.stepSizeHistory, t.stepHist),
    (.errorHistory, t.errHist)]
  have l4 : locationsList h t.disc.embEntries
      = (t.disc.embIds.map View.whole).filter (fun v => size (v.read h) > 0) := by
    cases he : t.disc.emb with
    | none => simp [Obj.embIds, Obj.embEntries, he, locationsList]
    | some p =>
      have := locationsList_wholes h [(.embeddedState, p.1), (.errorEstimate, p.2)]
      simpa [Obj.embIds, Obj.embEntries, he] using this
  simp only [List.map_cons, List.map_nil] at l1 l2 l3
  have e : locations h (t.toDict h0 a)
      = locationsList h (t.disc.entries (h0.cells t.disc.stageStates).length ++ t.disc.embEntries)
        ++ locationsList h [(.stepSizeSuggestion, .arr (.whole a)),
          (.stepSizeHistory, .arr (.whole t.stepHist)), (.errorHistory, .arr (.whole t.errHist))] := by
    simp only [TObj.toDict, Obj.toDict, locations, locationsList]
  rw [e, l3, locationsList_append, l4, RKObj.entries, locationsList_append, locationsList_append,
    locationsList_stages, l1, l2]
  simp only [TObj.views, List.filter_append]

end Verif.State
