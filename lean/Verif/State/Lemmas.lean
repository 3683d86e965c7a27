/-
Lemmas about the memory model of the states.
-/
import Verif.State.Model
import Mathlib.Tactic.Common
import Mathlib.Data.List.Range

namespace Verif.State

variable {K : Type}

@[simp] theorem write_whole_cells (h : Heap K) (a : ℕ) (x : Arr K) :
    ((View.whole a).write h x).cells = Function.update h.cells a x := rfl

theorem copyArray_ok {h : Heap K} {p : ℕ × ℕ} (hs : shape (h.cells p.1) = shape (h.cells p.2)) :
    copyArray h p = .ok { h with cells := Function.update h.cells p.1 (h.cells p.2) } := by
  simp [copyArray, View.assign, View.read, View.write, hs]

/-- Copying arrays to others: the targets get the contents, nothing else changes. -/
theorem copyAll_ok (ps : List (ℕ × ℕ)) (h : Heap K) (hn : (ps.map Prod.fst).Nodup)
    (hd : ∀ p ∈ ps, p.2 ∉ ps.map Prod.fst)
    (hs : ∀ p ∈ ps, shape (h.cells p.1) = shape (h.cells p.2)) :
    ∃ h', copyAll h ps = .ok h' ∧ h'.next = h.next ∧
      (∀ p ∈ ps, h'.cells p.1 = h.cells p.2) ∧
      (∀ id, id ∉ ps.map Prod.fst → h'.cells id = h.cells id) := by
  induction ps generalizing h with
  | nil => exact ⟨h, rfl, rfl, by simp, fun _ _ => rfl⟩
  | cons p ps ih =>
    simp only [List.map_cons, List.nodup_cons] at hn
    have hp := copyArray_ok (hs p (by simp))
    obtain ⟨h', g1, g2, g3, g4⟩ := ih
      { h with cells := Function.update h.cells p.1 (h.cells p.2) } hn.2
      (fun q hq hmem => hd q (by simp [hq]) (List.mem_cons_of_mem _ hmem))
      (by
        intro q hq
        have h1 : q.1 ≠ p.1 := fun e => hn.1 (e ▸ List.mem_map_of_mem hq)
        have h2 : q.2 ≠ p.1 := fun e => hd q (by simp [hq]) (by simp [e])
        simp only [Function.update_of_ne h1, Function.update_of_ne h2]
        exact hs q (by simp [hq]))
    refine ⟨h', by simp only [copyAll, hp]; exact g1, g2, ?_, ?_⟩
    · intro q hq
      rcases List.mem_cons.mp hq with rfl | hq
      · rw [g4 _ hn.1]
        simp
      · rw [g3 q hq]
        have h2 : q.2 ≠ p.1 := fun e => hd q (by simp [hq]) (by simp [e])
        simp only [Function.update_of_ne h2]
    · intro id hid
      simp only [List.map_cons, List.mem_cons, not_or] at hid
      rw [g4 id hid.2]
      simp only [Function.update_of_ne hid.1]

/-- Later assignments: arbitrary new contents for some arrays. -/
def writes (h : Heap K) (ws : List (ℕ × Arr K)) : Heap K :=
  ws.foldl (fun h w => (View.whole w.1).write h w.2) h

theorem writes_other (ws : List (ℕ × Arr K)) (h : Heap K) (id : ℕ) (hid : id ∉ ws.map Prod.fst) :
    (writes h ws).cells id = h.cells id := by
  induction ws generalizing h with
  | nil => rfl
  | cons w ws ih =>
    simp only [List.map_cons, List.mem_cons, not_or] at hid
    have := ih ((View.whole w.1).write h w.2) hid.2
    simp only [writes, List.foldl_cons] at this ⊢
    rw [this]
    simp only [write_whole_cells, Function.update_of_ne hid.1]

/-- The content only depends on the arrays of the object. -/
theorem value_congr (o : RKObj) {h h' : Heap K} (hc : ∀ id ∈ o.ids, h'.cells id = h.cells id) :
    o.value h' = o.value h := by
  simp only [RKObj.ids, List.mem_cons, List.not_mem_nil, or_false] at hc
  simp only [RKObj.value]
  congr 1 <;> apply hc <;> simp

/-- The pairs of arrays `set` copies. -/
def setPairs (a b : RKObj) : List (ℕ × ℕ) := a.ids.zip b.ids

theorem set_eq (h : Heap K) (a b : Obj) : a.set h b = copyAll h (setPairs a.toRKObj b.toRKObj) := rfl

theorem setPairs_fst (a b : RKObj) : (setPairs a b).map Prod.fst = a.ids := by
  simp [setPairs, RKObj.ids]

theorem setPairs_snd (a b : RKObj) : (setPairs a b).map Prod.snd = b.ids := by
  simp [setPairs, RKObj.ids]

theorem set_ok (h : Heap K) (a b : Obj) (hn : a.ids.Nodup) (hd : a.ids.Disjoint b.ids)
    (hs : a.ids.map (fun i => shape (h.cells i)) = b.ids.map (fun i => shape (h.cells i))) :
    ∃ h', a.set h b = .ok h' ∧ h'.next = h.next ∧ a.value h' = b.value h ∧
      (∀ id, id ∉ a.ids → h'.cells id = h.cells id) := by
  rw [set_eq]
  obtain ⟨h', g1, g2, g3, g4⟩ := copyAll_ok (setPairs a.toRKObj b.toRKObj) h
    (by rw [setPairs_fst]; exact hn)
    (by
      intro p hp
      rw [setPairs_fst]
      have : p.2 ∈ b.ids := by rw [← setPairs_snd a.toRKObj]; exact List.mem_map_of_mem hp
      exact fun hmem => hd hmem this)
    (by
      simp only [RKObj.ids, List.map_cons, List.map_nil, List.cons.injEq, and_true] at hs
      simp only [setPairs, RKObj.ids, List.zip_cons_cons, List.zip_nil_right, List.mem_cons,
        List.not_mem_nil, or_false]
      rintro p (rfl | rfl | rfl | rfl | rfl | rfl | rfl | rfl | rfl | rfl | rfl | rfl) <;> simp [hs])
  rw [setPairs_fst] at g4
  refine ⟨h', g1, g2, ?_, g4⟩
  simp only [setPairs, RKObj.ids, List.zip_cons_cons, List.zip_nil_right, List.mem_cons,
    List.not_mem_nil, or_false, forall_eq_or_imp, forall_eq] at g3
  simp only [RKObj.value]
  congr 1 <;> simp [g3]

/-! ### Dictionaries -/

theorem find_range (o : RKObj) (k : Key) (s : ℕ) (hk : ∀ i, k ≠ .stage i) :
    ((List.range s).map (stageEntry o)).find? (fun e => e.1 = k) = none := by
  rw [List.find?_eq_none]
  intro e he
  obtain ⟨i, -, rfl⟩ := List.mem_map.mp he
  exact fun h => hk i (of_decide_eq_true h).symm

theorem find_stage (o : RKObj) (s i : ℕ) (hi : i < s) :
    ((List.range s).map (stageEntry o)).find? (fun e => e.1 = .stage i) = some (stageEntry o i) := by
  induction s with
  | zero => omega
  | succ s ih =>
    rw [List.range_succ, List.map_append, List.find?_append]
    by_cases h : i < s
    · rw [ih h]; rfl
    · obtain rfl : i = s := by omega
      have : ((List.range i).map (stageEntry o)).find? (fun e => e.1 = .stage i) = none := by
        rw [List.find?_eq_none]
        intro e he
        obtain ⟨j, hj, rfl⟩ := List.mem_map.mp he
        simp only [stageEntry, decide_eq_true_eq, Key.stage.injEq]
        have := List.mem_range.mp hj
        omega
      rw [this]
      simp [stageEntry]

section get
variable (o : RKObj) (s : ℕ) (rest : List (Key × Dict))

theorem get_startState : (Dict.dict (o.entries s ++ rest)).get .startState
    = .ok (.arr (.whole o.startState)) := by
  simp [Dict.get, RKObj.entries]

theorem get_startTime : (Dict.dict (o.entries s ++ rest)).get .startTime
    = .ok (.arr (.whole o.startTime)) := by
  simp [Dict.get, RKObj.entries]

theorem get_stageTimes : (Dict.dict (o.entries s ++ rest)).get .stageTimes
    = .ok (.arr (.whole o.stageTimes)) := by
  simp [Dict.get, RKObj.entries]

theorem get_stage (i : ℕ) (hi : i < s) : (Dict.dict (o.entries s ++ rest)).get (.stage i)
    = .ok (stageEntry o i).2 := by
  simp only [Dict.get, RKObj.entries, List.append_assoc, List.find?_append, find_stage o s i hi]
  simp

theorem get_tail (k : Key) (hk : ∀ i, k ≠ .stage i) (h1 : k ≠ .startState) (h2 : k ≠ .startTime)
    (h3 : k ≠ .stageTimes) : (Dict.dict (o.entries s ++ rest)).get k
      = (Dict.dict ([(.finalState, .arr (.whole o.finalState)),
      (.independentInput, .arr (.whole o.independentInputs)),
      (.finalIndependentOutput, .arr (.whole o.finalIndependentOutputs)),
      (.finalTime, .arr (.whole o.finalTime)),
      (.linearizationPoints, .arr (.whole o.linearizationPoints))] ++ rest)).get k := by
  have e : List.find? (fun e => decide (e.1 = k)) [(Key.startState, Dict.arr (.whole o.startState)),
      (.startTime, .arr (.whole o.startTime)), (.stageTimes, .arr (.whole o.stageTimes))] = none := by
    simp [h1.symm, h2.symm, h3.symm]
  simp only [Dict.get, RKObj.entries, List.append_assoc, List.find?_append, find_range o k s hk, e,
    Option.none_or]

theorem get_finalState : (Dict.dict (o.entries s ++ rest)).get .finalState
    = .ok (.arr (.whole o.finalState)) := by
  rw [get_tail _ _ _ _ (by simp) (by simp) (by simp) (by simp)]; simp [Dict.get]

theorem get_independentInput : (Dict.dict (o.entries s ++ rest)).get .independentInput
    = .ok (.arr (.whole o.independentInputs)) := by
  rw [get_tail _ _ _ _ (by simp) (by simp) (by simp) (by simp)]; simp [Dict.get]

theorem get_finalIndependentOutput : (Dict.dict (o.entries s ++ rest)).get .finalIndependentOutput
    = .ok (.arr (.whole o.finalIndependentOutputs)) := by
  rw [get_tail _ _ _ _ (by simp) (by simp) (by simp) (by simp)]; simp [Dict.get]

theorem get_finalTime : (Dict.dict (o.entries s ++ rest)).get .finalTime
    = .ok (.arr (.whole o.finalTime)) := by
  rw [get_tail _ _ _ _ (by simp) (by simp) (by simp) (by simp)]; simp [Dict.get]

theorem get_linearizationPoints : (Dict.dict (o.entries s ++ rest)).get .linearizationPoints
    = .ok (.arr (.whole o.linearizationPoints)) := by
  rw [get_tail _ _ _ _ (by simp) (by simp) (by simp) (by simp)]; simp [Dict.get]

end get

/-- The shapes the constructor gives to the arrays (runge_kutta_discretization_state.py L76-96), for
`s` stages, state size `n`, `oo` independent outputs and linearization points of size `l`. -/
structure WellFormed (h : Heap K) (o : RKObj) (n m oo s l : ℕ) : Prop where
  startState : shape (h.cells o.startState) = [n]
  stageStates : shape (h.cells o.stageStates) = List.replicate s n
  stageUpdates : shape (h.cells o.stageUpdates) = List.replicate s n
  finalState : shape (h.cells o.finalState) = [n]
  independentInputs : shape (h.cells o.independentInputs) = [m]
  stageIndependentOutputs : shape (h.cells o.stageIndependentOutputs) = List.replicate s oo
  finalIndependentOutputs : shape (h.cells o.finalIndependentOutputs) = [oo]
  startTime : shape (h.cells o.startTime) = [1]
  stageTimes : shape (h.cells o.stageTimes) = [s]
  finalTime : shape (h.cells o.finalTime) = [1]
  stepSize : shape (h.cells o.stepSize) = [1]
  linearizationPoints : shape (h.cells o.linearizationPoints) = List.replicate s l
  fresh : ∀ id ∈ o.ids, id < h.next

theorem shape_rows {a : Arr K} {s n : ℕ} (h : shape a = List.replicate s n) : a.length = s := by
  have := congrArg List.length h
  simpa [shape] using this

theorem shape_row {a : Arr K} {s n : ℕ} (h : shape a = List.replicate s n) {i : ℕ} (hi : i < s) :
    (a.getD i []).length = n := by
  have hl := shape_rows h
  have : (shape a)[i]'(by simp [shape]; omega) = n := by
    simp [h]
  simp only [shape, List.getElem_map] at this
  rw [List.getD_eq_getElem?_getD, List.getElem?_eq_getElem (by omega)]
  exact this

/-! ### `from_dict` -/

theorem take_drop_set {α : Type} (x y : List α) (k : ℕ) (e : α) (hx : k < x.length)
    (hy : k < y.length) (he : x[k] = e) :
    (x.take k ++ y.drop k).set k e = x.take (k + 1) ++ y.drop (k + 1) := by
  have hl : (x.take k).length = k := by simp; omega
  rw [List.set_append_right _ _ (by omega), hl, Nat.sub_self]
  rw [List.drop_eq_getElem_cons hy, List.set_cons_zero, List.take_succ_eq_append_getElem hx, he]
  simp

theorem getD_of_lt {α : Type} (x : List α) (k : ℕ) (d : α) (h : k < x.length) :
    x.getD k d = x[k] := by
  rw [List.getD_eq_getElem?_getD, List.getElem?_eq_getElem h]; rfl

theorem copyStage_ok (d e : Dict) (target src : ℕ) (key : Key) (h : Heap K) (i : ℕ)
    (h1 : d.get (.stage i) = .ok e) (h2 : e.get key = .ok (.arr (.row src i)))
    (hs : ((h.cells target).getD i []).length = ((h.cells src).getD i []).length) :
    copyStage d target key h i = .ok ⟨Function.update h.cells target
      ((h.cells target).set i ((h.cells src).getD i [])), h.next⟩ := by
  simp only [List.getD_eq_getElem?_getD] at hs
  simp [copyStage, h1, h2, Dict.asView, View.assign, View.read, View.write, shape, bind, Except.bind,
    hs]

theorem stageEntry_get (o : RKObj) (i : ℕ) :
    (stageEntry o i).2.get .state = .ok (.arr (.row o.stageStates i)) ∧
    (stageEntry o i).2.get .update = .ok (.arr (.row o.stageUpdates i)) ∧
    (stageEntry o i).2.get .independentOutput = .ok (.arr (.row o.stageIndependentOutputs i)) := by
  simp [stageEntry, Dict.get]

/-- The loop over the stages copies the rows one after the other. -/
theorem fold_stages (d : Dict) (o o' : RKObj) (h1 : Heap K) (s n oo : ℕ)
    (hget : ∀ i < s, d.get (.stage i) = .ok (stageEntry o i).2)
    (hn : [o'.stageStates, o'.stageUpdates, o'.stageIndependentOutputs].Nodup)
    (hd : ∀ id ∈ [o.stageStates, o.stageUpdates, o.stageIndependentOutputs],
      id ∉ [o'.stageStates, o'.stageUpdates, o'.stageIndependentOutputs])
    (a1 : shape (h1.cells o.stageStates) = List.replicate s n)
    (a2 : shape (h1.cells o.stageUpdates) = List.replicate s n)
    (a3 : shape (h1.cells o.stageIndependentOutputs) = List.replicate s oo)
    (b1 : shape (h1.cells o'.stageStates) = List.replicate s n)
    (b2 : shape (h1.cells o'.stageUpdates) = List.replicate s n)
    (b3 : shape (h1.cells o'.stageIndependentOutputs) = List.replicate s oo)
    (k : ℕ) (hk : k ≤ s) :
    ∃ h', (List.range k).foldlM (copyStageAll d o') h1 = .ok h' ∧ h'.next = h1.next ∧
      h'.cells o'.stageStates
        = (h1.cells o.stageStates).take k ++ (h1.cells o'.stageStates).drop k ∧
      h'.cells o'.stageUpdates
        = (h1.cells o.stageUpdates).take k ++ (h1.cells o'.stageUpdates).drop k ∧
      h'.cells o'.stageIndependentOutputs
        = (h1.cells o.stageIndependentOutputs).take k
          ++ (h1.cells o'.stageIndependentOutputs).drop k ∧
      ∀ id, id ∉ [o'.stageStates, o'.stageUpdates, o'.stageIndependentOutputs] →
        h'.cells id = h1.cells id := by
  induction k with
  | zero => exact ⟨h1, rfl, rfl, by simp, by simp, by simp, fun _ _ => rfl⟩
  | succ k ih =>
    obtain ⟨h2, g1, g2, g3, g4, g5, g6⟩ := ih (by omega)
    simp only [List.mem_cons, List.not_mem_nil, or_false, not_or, forall_eq_or_imp, forall_eq] at hd
    obtain ⟨⟨d11, d12, d13⟩, ⟨d21, d22, d23⟩, ⟨d31, d32, d33⟩⟩ := hd
    simp only [List.nodup_cons, List.mem_cons, List.not_mem_nil, or_false, not_or,
      not_false_eq_true, List.nodup_nil, and_true] at hn
    obtain ⟨⟨n12, n13⟩, n23⟩ := hn
    have hks : k < s := by omega
    obtain ⟨e1, e2, e3⟩ := stageEntry_get o k
    have c1 : h2.cells o.stageStates = h1.cells o.stageStates := g6 _ (by simp [d11, d12, d13])
    have c2 : h2.cells o.stageUpdates = h1.cells o.stageUpdates := g6 _ (by simp [d21, d22, d23])
    have c3 : h2.cells o.stageIndependentOutputs = h1.cells o.stageIndependentOutputs :=
      g6 _ (by simp [d31, d32, d33])
    have row : ∀ (x y : Arr K) (m : ℕ), shape x = List.replicate s m → shape y = List.replicate s m →
        ((x.take k ++ y.drop k).getD k []).length = (x.getD k []).length ∧
        (x.take k ++ y.drop k).set k (x.getD k []) = x.take (k + 1) ++ y.drop (k + 1) := by
      intro x y m hx hy
      have lx := shape_rows hx
      have ly := shape_rows hy
      constructor
      · have : (x.take k ++ y.drop k).getD k [] = y.getD k [] := by
          rw [List.getD_eq_getElem?_getD, List.getD_eq_getElem?_getD,
            List.getElem?_append_right (List.length_take_le _ _), List.getElem?_drop,
            List.length_take]
          congr 2
          omega
        rw [this, shape_row hx hks, shape_row hy hks]
      · exact take_drop_set _ _ _ _ (by omega) (by omega) (getD_of_lt _ _ _ (by omega)).symm
    have r1 := row _ _ n a1 b1
    have r2 := row _ _ n a2 b2
    have r3 := row _ _ oo a3 b3
    have s1 := copyStage_ok d _ o'.stageStates o.stageStates .state h2 k (hget k hks) e1
      (by rw [g3, c1]; exact r1.1)
    rw [g3, c1, r1.2] at s1
    have s2 := copyStage_ok d _ o'.stageUpdates o.stageUpdates .update
      ⟨Function.update h2.cells o'.stageStates
        ((h1.cells o.stageStates).take (k + 1) ++ (h1.cells o'.stageStates).drop (k + 1)), h2.next⟩ k
      (hget k hks) e2
      (by simp only [Function.update_of_ne (Ne.symm n12), Function.update_of_ne d21]
          rw [g4, c2]; exact r2.1)
    simp only [Function.update_of_ne (Ne.symm n12), Function.update_of_ne d21, g4, c2, r2.2] at s2
    have s3 := copyStage_ok d _ o'.stageIndependentOutputs o.stageIndependentOutputs
      .independentOutput
      ⟨Function.update (Function.update h2.cells o'.stageStates
        ((h1.cells o.stageStates).take (k + 1) ++ (h1.cells o'.stageStates).drop (k + 1)))
        o'.stageUpdates
        ((h1.cells o.stageUpdates).take (k + 1) ++ (h1.cells o'.stageUpdates).drop (k + 1)),
        h2.next⟩ k
      (hget k hks) e3
      (by simp only [Function.update_of_ne (Ne.symm n13), Function.update_of_ne (Ne.symm n23),
            Function.update_of_ne d31, Function.update_of_ne d32]
          rw [g5, c3]; exact r3.1)
    simp only [Function.update_of_ne (Ne.symm n13), Function.update_of_ne (Ne.symm n23),
      Function.update_of_ne d31, Function.update_of_ne d32, g5, c3, r3.2] at s3
    refine ⟨⟨Function.update (Function.update (Function.update h2.cells o'.stageStates
        ((h1.cells o.stageStates).take (k + 1) ++ (h1.cells o'.stageStates).drop (k + 1)))
        o'.stageUpdates
        ((h1.cells o.stageUpdates).take (k + 1) ++ (h1.cells o'.stageUpdates).drop (k + 1)))
        o'.stageIndependentOutputs ((h1.cells o.stageIndependentOutputs).take (k + 1)
          ++ (h1.cells o'.stageIndependentOutputs).drop (k + 1)), h2.next⟩, ?_, g2, ?_, ?_, ?_, ?_⟩
    · rw [List.range_succ, List.foldlM_append, g1]
      simp only [bind, Except.bind, List.foldlM_cons, List.foldlM_nil, copyStageAll, s1, s2, s3]
      rfl
    · simp [Function.update_of_ne n12, Function.update_of_ne n13]
    · simp [Function.update_of_ne n23]
    · simp
    · intro id hid
      simp only [List.mem_cons, List.not_mem_nil, or_false, not_or] at hid
      simp only [Function.update_of_ne hid.1, Function.update_of_ne hid.2.1,
        Function.update_of_ne hid.2.2]
      exact g6 id (by simp [hid])

theorem newRK_spec [Zero K] (h : Heap K) (n oo s l : ℕ) :
    ∃ h1, newRK h n oo s l = (⟨h.next, h.next + 1, h.next + 2, h.next + 3, h.next + 4, h.next + 5,
      h.next + 6, h.next + 7, h.next + 8, h.next + 9, h.next + 10, h.next + 11⟩, h1) ∧
      h1.next = h.next + 12 ∧ (∀ id < h.next, h1.cells id = h.cells id) ∧
      h1.cells (h.next + 1) = zeros s n ∧ h1.cells (h.next + 2) = zeros s n ∧
      h1.cells (h.next + 5) = zeros s oo ∧ h1.cells (h.next + 10) = zeros 1 1 := by
  refine ⟨_, rfl, rfl, ?_, ?_, ?_, ?_, ?_⟩
  · intro id hid
    dsimp only
    repeat rw [Function.update_of_ne (by omega)]
  all_goals
    dsimp only
    repeat first
      | rw [Function.update_of_ne (by omega)]
      | exact Function.update_self _ _ _

theorem shape_zeros [Zero K] (r c : ℕ) : shape (zeros r c : Arr K) = List.replicate r c := by
  simp [shape, zeros]

theorem size_eq {a : Arr K} {n : ℕ} (h : shape a = [n]) : size a = n := by simp [size, h]

/-- The state `from_dict` makes from the dictionary of `o`. -/
def rebuilt (h : Heap K) (o : RKObj) : RKObj :=
  { o with stageStates := h.next + 1, stageUpdates := h.next + 2,
           stageIndependentOutputs := h.next + 5, stepSize := h.next + 10 }

/-- `from_dict` of the plain class for the dictionary of a state with at least one stage: it fails
if there are independent inputs, and otherwise makes a state that shares nine arrays, has copies of
the three arrays of stages, and a step size of zero. -/
theorem fromDictRK_spec [Zero K] (h : Heap K) (o : RKObj) (rest : List (Key × Dict))
    (n m oo s l : ℕ) (w : WellFormed h o n m oo s l) (hs : 0 < s) :
    (0 < m → fromDictRK h (.dict (o.entries s ++ rest)) = .error .type) ∧
    (m = 0 → ∃ h', fromDictRK h (.dict (o.entries s ++ rest))
        = .ok (rebuilt h o, h') ∧
      h'.next = h.next + 12 ∧
      h'.cells (h.next + 1) = h.cells o.stageStates ∧
      h'.cells (h.next + 2) = h.cells o.stageUpdates ∧
      h'.cells (h.next + 5) = h.cells o.stageIndependentOutputs ∧
      h'.cells (h.next + 10) = zeros 1 1 ∧ ∀ id < h.next, h'.cells id = h.cells id) := by
  obtain ⟨-, -, e3⟩ := stageEntry_get o 0
  have hii : size (h.cells o.independentInputs) = m := size_eq w.independentInputs
  have hlin : (h.cells o.linearizationPoints).length = s := shape_rows w.linearizationPoints
  constructor
  · intro hm
    unfold fromDictRK
    simp only [get_linearizationPoints, get_finalState, get_independentInput,
      get_stage o s rest 0 hs, e3, bind, Except.bind, Dict.asArray, Dict.asView, hii]
    rw [if_pos (by omega)]
  · intro hm
    obtain ⟨h1, k1, k2, k3, k4, k5, k6, k7⟩ := newRK_spec h n oo s
      (((h.cells o.linearizationPoints).getD 0 []).length)
    have fr : ∀ id ∈ o.ids, id < h.next := w.fresh
    simp only [RKObj.ids, List.mem_cons, List.not_mem_nil, or_false, forall_eq_or_imp,
      forall_eq] at fr
    obtain ⟨f1, f2, f3, f4, f5, f6, f7, f8, f9, f10, f11, f12⟩ := fr
    have hn : size (h.cells o.finalState) = n := size_eq w.finalState
    have ho : size ((View.row o.stageIndependentOutputs 0).read h) = oo := by
      simp only [View.read, size, shape, List.map_cons, List.map_nil, List.sum_cons, List.sum_nil,
        Nat.add_zero]
      exact shape_row w.stageIndependentOutputs hs
    obtain ⟨h', g1, g2, g3, g4, g5, g6⟩ := fold_stages (.dict (o.entries s ++ rest)) o
      ⟨o.startState, h.next + 1, h.next + 2, h.next + 3, h.next + 4, h.next + 5,
      h.next + 6, o.startTime, o.stageTimes, h.next + 9, h.next + 10, h.next + 11⟩ h1 s n oo
      (fun i hi => get_stage o s rest i hi) (by simp) (by simp; omega)
      (by rw [k3 _ f2]; exact w.stageStates) (by rw [k3 _ f3]; exact w.stageUpdates)
      (by rw [k3 _ f6]; exact w.stageIndependentOutputs)
      (by rw [k4]; exact shape_zeros _ _) (by rw [k5]; exact shape_zeros _ _)
      (by rw [k6]; exact shape_zeros _ _) s (Nat.le_refl _)
    have full : ∀ (x y : Arr K) (c : ℕ), shape x = List.replicate s c →
        shape y = List.replicate s c → x.take s ++ y.drop s = x := by
      intro x y c hx hy
      rw [List.take_of_length_le (by rw [shape_rows hx]), List.drop_of_length_le
        (by rw [shape_rows hy]), List.append_nil]
    refine ⟨h', ?_, by rw [g2, k2], ?_, ?_, ?_, ?_, ?_⟩
    · unfold fromDictRK
      simp only [get_linearizationPoints, get_finalState, get_independentInput, get_startState,
        get_startTime, get_stageTimes, get_finalIndependentOutput, get_finalTime,
        get_stage o s rest 0 hs, e3, bind, Except.bind, Dict.asArray, Dict.asView, hii, hm, hn, ho,
        hlin, k1, g1, rebuilt]
      simp
    · rw [g3, k3 _ f2]
      exact full _ _ n w.stageStates (by rw [k4]; exact shape_zeros _ _)
    · rw [g4, k3 _ f3]
      exact full _ _ n w.stageUpdates (by rw [k5]; exact shape_zeros _ _)
    · rw [g5, k3 _ f6]
      exact full _ _ oo w.stageIndependentOutputs (by rw [k6]; exact shape_zeros _ _)
    · rw [g6 _ (by simp), k7]
    · intro id hid
      rw [g6 _ (by simp; omega), k3 _ hid]

end Verif.State
