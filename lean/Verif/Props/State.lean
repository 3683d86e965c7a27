/-
Properties of the state objects: setting (C38), dictionaries (C37), checkpoints (C39), and of the
option dictionary of the checkpointer (C61).
-/
import Verif.State.Checkpoint
import Verif.State.Options
import Verif.Integrator.PyrevolveRK

namespace Verif.Props

open Verif.State

variable {K : Type}

/-! ### C38: setting copies -/

/-- C38: `a.set(b)` of two plain states with separate arrays of equal shapes makes all twelve arrays
of `a` equal to those of `b`, `a` keeps its own arrays (the call changes contents only, nothing
outside of `a`), `b` is unchanged, and no later assignment to arrays other than those of `a` changes
`a`. -/
theorem C38_set_copies (h : Heap K) (a b : Obj) (hn : a.ids.Nodup) (hd : a.ids.Disjoint b.ids)
    (hs : a.ids.map (fun i => shape (h.cells i)) = b.ids.map (fun i => shape (h.cells i))) :
    ∃ h', a.set h b = .ok h' ∧ a.value h' = b.value h ∧ b.value h' = b.value h ∧
      (∀ id, id ∉ a.ids → h'.cells id = h.cells id) ∧
      ∀ ws : List (ℕ × Arr K), (∀ w ∈ ws, w.1 ∉ a.ids) → a.value (writes h' ws) = b.value h := by
  obtain ⟨h', g1, -, g2, g3⟩ := set_ok h a b hn hd hs
  refine ⟨h', g1, g2, ?_, g3, ?_⟩
  · exact value_congr _ fun id hid => g3 id (fun hmem => hd hmem hid)
  · intro ws hws
    rw [← g2]
    refine value_congr _ fun id hid => writes_other _ _ _ ?_
    intro hmem
    obtain ⟨w, hw, rfl⟩ := List.mem_map.mp hmem
    exact hws w hw hid

/-- C38: setting a state to itself changes nothing (the checkpointer does this,
pyrevolve_checkpointer.py L162). -/
theorem C38_set_self (h : Heap K) (a : Obj) : a.set h a = .ok h := by
  have : ∀ ids : List ℕ, copyAll h (ids.zip ids) = .ok h := by
    intro ids
    induction ids with
    | nil => rfl
    | cons i ids ih =>
      simp only [List.zip_cons_cons, copyAll]
      rw [copyArray_ok rfl]
      simpa using ih
  exact this a.ids

/-- C38: the same for integration states: also the suggested step size and both histories. -/
theorem C38_integration_state_set (h : Heap K) (t u : TObj K) (a b : ℕ) (ha : t.sugg = .array a)
    (hb : u.sugg = .array b) (hn : (t.disc.ids ++ [a, t.stepHist, t.errHist]).Nodup)
    (hd : (t.disc.ids ++ [a, t.stepHist, t.errHist]).Disjoint
      (u.disc.ids ++ [b, u.stepHist, u.errHist]))
    (hs : (t.disc.ids ++ [a, t.stepHist, t.errHist]).map (fun i => shape (h.cells i))
      = (u.disc.ids ++ [b, u.stepHist, u.errHist]).map (fun i => shape (h.cells i))) :
    ∃ h', t.set h u = .ok h' ∧ t.disc.value h' = u.disc.value h ∧
      h'.cells a = h.cells b ∧ h'.cells t.stepHist = h.cells u.stepHist ∧
      h'.cells t.errHist = h.cells u.errHist ∧
      (∀ id, id ∉ t.disc.ids ++ [a, t.stepHist, t.errHist] → h'.cells id = h.cells id) := by
  rw [List.map_append, List.map_append] at hs
  obtain ⟨hs1, hs2⟩ := List.append_inj hs (by simp [RKObj.ids])
  rw [List.nodup_append] at hn
  obtain ⟨n1, n2, n3⟩ := hn
  rw [List.disjoint_append_left, List.disjoint_append_right, List.disjoint_append_right] at hd
  obtain ⟨⟨d11, d12⟩, d21, d22⟩ := hd
  obtain ⟨h1, g1, -, g2, g3⟩ := set_ok h t.disc u.disc n1 d11 hs1
  have c1 : ∀ x ∈ [a, t.stepHist, t.errHist], h1.cells x = h.cells x := fun x hx =>
    g3 x (fun hm => n3 x hm x hx rfl)
  have c2 : ∀ x ∈ [b, u.stepHist, u.errHist], h1.cells x = h.cells x := fun x hx =>
    g3 x (fun hm => d12 hm hx)
  obtain ⟨h2, k1, -, k2, k3⟩ := copyAll_ok [(a, b), (t.stepHist, u.stepHist), (t.errHist, u.errHist)]
    h1 (by simpa using n2)
    (by
      intro p hp hm
      have h1 : p.2 ∈ [b, u.stepHist, u.errHist] := by
        have := List.mem_map_of_mem (f := Prod.snd) hp
        simpa using this
      exact d22 (by simpa using hm) h1)
    (by
      simp only [List.map_cons, List.map_nil, List.cons.injEq, and_true] at hs2
      simp only [List.mem_cons, List.not_mem_nil, or_false]
      rintro p (rfl | rfl | rfl) <;>
      · dsimp only
        rw [c1 _ (by simp), c2 _ (by simp)]
        simp [hs2])
  have off : ∀ id, id ∉ [a, t.stepHist, t.errHist] → h2.cells id = h1.cells id := by
    intro id hid; exact k3 id (by simpa using hid)
  refine ⟨h2, ?_, ?_, ?_, ?_, ?_, ?_⟩
  · simp only [TObj.set, g1, bind, Except.bind, ha, hb]
    exact k1
  · rw [← g2]
    exact value_congr _ fun id hid => off id (fun hm => n3 id hid id hm rfl)
  · rw [k2 (a, b) (by simp), c2 _ (by simp)]
  · rw [k2 (t.stepHist, u.stepHist) (by simp), c2 _ (by simp)]
  · rw [k2 (t.errHist, u.errHist) (by simp), c2 _ (by simp)]
  · intro id hid
    simp only [List.mem_append, not_or] at hid
    rw [off id hid.2, g3 id hid.1]

/-- C38 fails for embedded states: `set` is inherited and leaves `embedded_state` and
`error_estimate` as they are, so they differ from those of `b` whenever they did before. -/
theorem C38_embedded_set_violated (h : Heap K) (a b : Obj) (ea eb : ℕ × ℕ) (ha : a.emb = some ea)
    (hb : b.emb = some eb) (hn : a.ids.Nodup) (hd : a.ids.Disjoint b.ids)
    (hea : ea.1 ∉ a.ids ∧ ea.2 ∉ a.ids) (heb : eb.1 ∉ a.ids ∧ eb.2 ∉ a.ids)
    (hs : a.ids.map (fun i => shape (h.cells i)) = b.ids.map (fun i => shape (h.cells i)))
    (hdiff : a.embValue h ≠ b.embValue h) :
    ∃ h', a.set h b = .ok h' ∧ a.value h' = b.value h ∧ a.embValue h' = a.embValue h ∧
      a.embValue h' ≠ b.embValue h' := by
  obtain ⟨h', g1, -, g2, g3⟩ := set_ok h a b hn hd hs
  have e1 : a.embValue h' = a.embValue h := by
    simp only [Obj.embValue, ha, Option.map_some, g3 _ hea.1, g3 _ hea.2]
  have e2 : b.embValue h' = b.embValue h := by
    simp only [Obj.embValue, hb, Option.map_some, g3 _ heb.1, g3 _ heb.2]
  exact ⟨h', g1, g2, e1, by rw [e1, e2]; exact hdiff⟩

/-- C38 (partial: only the twelve arrays of the plain class, not `embedded_state` and
`error_estimate`, see `C38_embedded_set_violated`): embedded states. -/
theorem C38_embedded_set_partial (h : Heap K) (a b : Obj) (hn : a.ids.Nodup)
    (hd : a.ids.Disjoint b.ids) (_ha : a.emb.isSome) (_hb : b.emb.isSome)
    (hs : a.ids.map (fun i => shape (h.cells i)) = b.ids.map (fun i => shape (h.cells i))) :
    ∃ h', a.set h b = .ok h' ∧ a.value h' = b.value h ∧
      ∀ ws : List (ℕ × Arr K), (∀ w ∈ ws, w.1 ∉ a.ids) → a.value (writes h' ws) = b.value h := by
  obtain ⟨h', g1, g2, -, -, g3⟩ := C38_set_copies h a b hn hd hs
  exact ⟨h', g1, g2, g3⟩

/-- Entry `j` of row `i`. -/
def entry [Zero K] (a : Arr K) (i j : ℕ) : K := (a.getD i []).getD j 0

/-- The content of the arrays of an object as state of the integrator model. -/
def stateOf [Zero K] {s n m o l : ℕ} (v : RKVal K) : RK.RKState K s n m o l where
  startState := fun x => entry v.startState 0 x
  stageStates := fun i x => entry v.stageStates i x
  stageUpdates := fun i x => entry v.stageUpdates i x
  finalState := fun x => entry v.finalState 0 x
  independentInputs := fun x => entry v.independentInputs 0 x
  stageIndependentOutputs := fun i x => entry v.stageIndependentOutputs i x
  finalIndependentOutputs := fun x => entry v.finalIndependentOutputs 0 x
  startTime := entry v.startTime 0 0
  stageTimes := fun i => entry v.stageTimes 0 i
  finalTime := entry v.finalTime 0 0
  stepSize := entry v.stepSize 0 0
  linearizationPoints := fun i x => entry v.linearizationPoints i x

/-- The same for embedded states. -/
def embStateOf [Zero K] {s n m o l : ℕ} (v : RKVal K) (e : Option (Arr K × Arr K)) :
    RK.EmbRKState K s n m o l :=
  ⟨stateOf v, fun x => entry (e.getD ([], [])).1 0 x, fun x => entry (e.getD ([], [])).2 0 x⟩

/-- C38: what `set` does in memory is what the integrator model does with its states, for plain and
for embedded states. -/
theorem C38_set_refines [Zero K] {s n m o l : ℕ} (h : Heap K) (a b : Obj) (hn : a.ids.Nodup)
    (hd : a.ids.Disjoint b.ids) (he : a.embIds.Disjoint a.ids)
    (hs : a.ids.map (fun i => shape (h.cells i)) = b.ids.map (fun i => shape (h.cells i))) :
    ∃ h', a.set h b = .ok h' ∧
      (stateOf (a.value h') : RK.RKState K s n m o l)
        = (stateOf (a.value h)).set (stateOf (b.value h)) ∧
      (embStateOf (a.value h') (a.embValue h') : RK.EmbRKState K s n m o l)
        = (embStateOf (a.value h) (a.embValue h)).set (embStateOf (b.value h) (b.embValue h)) := by
  obtain ⟨h', g1, -, g2, g3⟩ := set_ok h a b hn hd hs
  have e1 : a.embValue h' = a.embValue h := by
    rcases ha : a.emb with _ | ⟨x, y⟩
    · simp [Obj.embValue, ha]
    · simp only [Obj.embIds, ha] at he
      simp only [Obj.embValue, ha, Option.map_some, g3 x (he (by simp)), g3 y (he (by simp))]
  exact ⟨h', g1, by rw [g2]; rfl, by rw [g2, e1]; rfl⟩

/-! ### C37: dictionaries -/

/-- C37 (partial: without independent inputs, with at least one stage; the step size is lost): for a
plain state, `from_dict(to_dict())` succeeds and gives a state equal to the first in all arrays but
the step size, which is zero; the first is unchanged. -/
theorem C37_plain_roundtrip_partial [Zero K] (h : Heap K) (o : Obj) (n oo s l : ℕ)
    (he : o.emb = none) (w : WellFormed h o.toRKObj n 0 oo s l) (hs : 0 < s) :
    ∃ o' h', fromDict false h (o.toDict h) = .ok (some o', h') ∧
      o'.value h' = { o.value h with stepSize := [[0]] } ∧ o.value h' = o.value h := by
  have hst : (h.cells o.stageStates).length = s := shape_rows w.stageStates
  obtain ⟨-, hok⟩ := fromDictRK_spec h o.toRKObj [] n 0 oo s l w hs
  obtain ⟨h', g1, -, g2, g3, g4, g5, g6⟩ := hok rfl
  have fr := w.fresh
  refine ⟨⟨rebuilt h o.toRKObj, none⟩, h', ?_, ?_, ?_⟩
  · simp only [fromDict, Obj.toDict, Obj.embEntries, he, hst, g1, bind, Except.bind]
    rfl
  · simp only [RKObj.ids, List.mem_cons, List.not_mem_nil, or_false, forall_eq_or_imp,
      forall_eq] at fr
    obtain ⟨f1, f2, f3, f4, f5, f6, f7, f8, f9, f10, f11, f12⟩ := fr
    simp only [RKObj.value, rebuilt, g2, g3, g4, g5, g6 _ f1, g6 _ f4, g6 _ f5, g6 _ f7, g6 _ f8, g6 _ f9,
      g6 _ f10, g6 _ f12, zeros]
    rfl
  · exact value_congr _ fun id hid => g6 id (fr id hid)

/-- C37 fails: a state with a step size other than zero is not given back (this is every state after
a step). -/
theorem C37_step_size_violated [Zero K] (h : Heap K) (o : Obj) (n oo s l : ℕ)
    (he : o.emb = none) (w : WellFormed h o.toRKObj n 0 oo s l) (hs : 0 < s)
    (hstep : h.cells o.stepSize ≠ [[0]]) :
    ∃ o' h', fromDict false h (o.toDict h) = .ok (some o', h') ∧ o'.value h' ≠ o.value h := by
  obtain ⟨o', h', g1, g2, -⟩ := C37_plain_roundtrip_partial h o n oo s l he w hs
  refine ⟨o', h', g1, ?_⟩
  rw [g2]
  intro e
  exact hstep (congrArg RKVal.stepSize e).symm

/-- C37 fails: with independent inputs `from_dict` raises TypeError, for both classes. -/
theorem C37_independent_inputs_violated [Zero K] (h : Heap K) (o : Obj) (n m oo s l : ℕ)
    (w : WellFormed h o.toRKObj n m oo s l) (hs : 0 < s) (hm : 0 < m) (embedded : Bool) :
    fromDict embedded h (o.toDict h) = .error .type := by
  have hst : (h.cells o.stageStates).length = s := shape_rows w.stageStates
  have := (fromDictRK_spec h o.toRKObj o.embEntries
    n m oo s l w hs).1 hm
  simp only [fromDict, Obj.toDict, hst, this, bind, Except.bind]

/-- C37 fails: an embedded state is never given back; `from_dict` raises an error for every one of
them. -/
theorem C37_embedded_violated [Zero K] (h : Heap K) (o : Obj) (e : ℕ × ℕ) (n m oo s l : ℕ)
    (he : o.emb = some e) (w : WellFormed h o.toRKObj n m oo s l) (hs : 0 < s) :
    fromDict true h (o.toDict h) = .error .key ∨ fromDict true h (o.toDict h) = .error .type := by
  rcases Nat.eq_zero_or_pos m with rfl | hm
  · left
    have hst : (h.cells o.stageStates).length = s := shape_rows w.stageStates
    obtain ⟨-, hok⟩ := fromDictRK_spec h o.toRKObj
      [(.embeddedState, .arr (.whole e.1)), (.errorEstimate, .arr (.whole e.2))] n 0 oo s l w hs
    obtain ⟨h', g1, -⟩ := hok rfl
    have hk : (Dict.dict (o.entries s ++
      [(.embeddedState, .arr (.whole e.1)), (.errorEstimate, .arr (.whole e.2))])).get .embeddedDict
        = .error .key := by
      rw [get_tail _ _ _ _ (by simp) (by simp) (by simp) (by simp)]; simp [Dict.get]
    simp only [fromDict, Obj.toDict, Obj.embEntries, he, hst, g1, bind, Except.bind, hk]
    rfl
  · exact Or.inr (C37_independent_inputs_violated h o n m oo s l w hs hm true)

/-- C37 fails: not even a dictionary written by hand makes `from_dict` of the embedded class give a
state: if it does not raise, it returns nothing. -/
theorem C37_embedded_nothing_violated [Zero K] (h h' : Heap K) (d : Dict) (o : Option Obj)
    (e : fromDict true h d = .ok (o, h')) : o = none := by
  simp only [fromDict, bind, Except.bind] at e
  split at e
  · cases e
  · simp only [↓reduceIte] at e
    split at e
    · cases e
    · split at e
      · cases e
      · cases e; rfl

/-- C37 fails: an integration state given back by `from_dict` has a number as suggestion instead of
an array, so it is not equal to the first, and no `set` to or from it works. -/
theorem C37_integration_state_violated [Zero K] (h : Heap K) (t : TObj K) (a n oo s l : ℕ) (x : K)
    (_ha : t.sugg = .array a) (w : WellFormed h t.disc.toRKObj n 0 oo s l) (hs : 0 < s)
    (hx : h.cells a = [[x]]) (hfa : a < h.next) :
    ∃ t' h', TObj.fromDict h (t.toDict h a) = .ok (t', h') ∧ t'.sugg = .number x ∧
      (∀ h'' h3 u, t'.set h'' u ≠ .ok h3) ∧ (∀ h'' h3 u, TObj.set h'' u t' ≠ .ok h3) := by
  have hst : (h.cells t.disc.stageStates).length = s := shape_rows w.stageStates
  obtain ⟨-, hok⟩ := fromDictRK_spec h t.disc.toRKObj t.disc.embEntries
    n 0 oo s l w hs
  obtain ⟨h', g1, -, -, -, -, -, g6⟩ := hok rfl
  refine ⟨⟨⟨rebuilt h t.disc.toRKObj, none⟩, .number x, t.stepHist, t.errHist⟩, h', ?_, rfl, ?_, ?_⟩
  · have e1 : (t.toDict h a).get .discretizationState = .ok (t.disc.toDict h) := by
      simp [TObj.toDict, Dict.get]
    have e2 : (t.toDict h a).get .stepSizeSuggestion = .ok (.arr (.whole a)) := by
      simp [TObj.toDict, Dict.get]
    have e3 : (t.toDict h a).get .stepSizeHistory = .ok (.arr (.whole t.stepHist)) := by
      simp [TObj.toDict, Dict.get]
    have e4 : (t.toDict h a).get .errorHistory = .ok (.arr (.whole t.errHist)) := by
      simp [TObj.toDict, Dict.get]
    have e5 : fromDictRK h (t.disc.toDict h) = .ok (rebuilt h t.disc.toRKObj, h') := by
      simp only [Obj.toDict, hst]; exact g1
    have e6 : h'.cells a = [[x]] := by rw [g6 a hfa, hx]
    simp only [TObj.fromDict, e1, e2, e3, e4, e5, bind, Except.bind, Dict.asArray, e6]
    rfl
  · intro h'' h3 u e
    simp only [TObj.set, bind, Except.bind] at e
    split at e <;> cases e
  · intro h'' h3 u e
    simp only [TObj.set, bind, Except.bind] at e
    split at e
    · cases e
    · cases hu : u.sugg <;> simp [hu] at e

/-! ### C39: checkpoints -/

/-- The array contents of an integration state whose suggestion is the array `a`. -/
structure TVal (K : Type) where
  rk : RKVal K
  emb : Option (Arr K × Arr K)
  sugg : Arr K
  stepHist : Arr K
  errHist : Arr K

/-- The content of an integration state. -/
def tval (t : TObj K) (a : ℕ) (h : Heap K) : TVal K :=
  ⟨t.disc.value h, t.disc.embValue h, h.cells a, h.cells t.stepHist, h.cells t.errHist⟩

/-- An operation other than saving to slot `j`. -/
def NotSave (j : ℕ) : Op K → Prop
  | .save i => i ≠ j
  | _ => True

/-- The live state in memory: arrays of stages are separate from the others and have one row per
stage, the step size is not shared. -/
structure Live (h : Heap K) (t : TObj K) (a : ℕ) : Prop where
  disjoint : (t.wholes a).Disjoint t.byRows
  rows : ∀ x ∈ t.byRows, (h.cells x).length = (h.cells t.disc.stageStates).length
  step : t.disc.stepSize ∉ t.wholes a ++ t.byRows

/-- The slots contain data saved from the live state. -/
private def Inv (h0 : Heap K) (d : Dict) (m : Mem K) : Prop :=
  SameShape m.heap h0 ∧ ∀ j xs, m.slots j = some xs → ∃ hs, SameShape hs h0 ∧ xs = getData hs d

private theorem filter_eq {h h' : Heap K} (hs : SameShape h h') (vs : List View) :
    vs.filter (fun v => size (v.read h) > 0) = vs.filter (fun v => size (v.read h') > 0) := by
  apply List.filter_congr
  intro v _
  have := hs.read v
  simp [size, this]

private theorem load_spec (h0 : Heap K) (t : TObj K) (a : ℕ) (L : Live h0 t a) (hs h2 : Heap K)
    (g1 : SameShape hs h0) (g2 : SameShape h2 h0) :
    SameShape (loadData h2 (locations h2 (t.toDict h0 a)) (getData hs (t.toDict h0 a))) h0 ∧
    (∀ x ∈ t.wholes a ++ t.byRows,
      (loadData h2 (locations h2 (t.toDict h0 a)) (getData hs (t.toDict h0 a))).cells x
        = hs.cells x) ∧
    (∀ x, x ∉ t.wholes a ++ t.byRows →
      (loadData h2 (locations h2 (t.toDict h0 a)) (getData hs (t.toDict h0 a))).cells x
        = h2.cells x) := by
  have := loadData_filter hs h2 (t.wholes a) t.byRows (h0.cells t.disc.stageStates).length
    (t.views a (h0.cells t.disc.stageStates).length) (t.views_all a _) L.disjoint
    (by
      intro x hx
      have := congrArg List.length (g1 x)
      simp only [shape, List.length_map] at this
      rw [this, L.rows x hx])
    (g2.trans g1.symm)
  simp only [getData, TObj.locations_eq]
  rw [filter_eq (g2.trans g1.symm)]
  exact ⟨this.1.trans g1, this.2⟩

private theorem step_inv (h0 : Heap K) (t : TObj K) (a : ℕ) (L : Live h0 t a) (m : Mem K) (op : Op K)
    (hi : Inv h0 (t.toDict h0 a) m) : Inv h0 (t.toDict h0 a) (m.step (t.toDict h0 a) op) := by
  cases op with
  | save j =>
    refine ⟨hi.1, ?_⟩
    intro i xs hx
    simp only [Mem.step] at hx
    by_cases hij : i = j
    · subst hij
      simp only [Function.update_self, Option.some.injEq] at hx
      exact ⟨m.heap, hi.1, hx.symm⟩
    · rw [Function.update_of_ne hij] at hx
      exact hi.2 i xs hx
  | load j =>
    simp only [Mem.step]
    split
    · exact hi
    · rename_i xs hx
      obtain ⟨hs, g1, rfl⟩ := hi.2 j xs hx
      exact ⟨(load_spec h0 t a L hs m.heap g1 hi.1).1, hi.2⟩
  | assign v x =>
    simp only [Mem.step, View.assign]
    by_cases hsh : shape (v.read m.heap) = shape x
    · rw [if_pos hsh]
      exact ⟨fun id => (View.write_shape _ _ _ hsh id).trans (hi.1 id), hi.2⟩
    · rw [if_neg hsh]
      exact hi

private theorem run_inv (h0 : Heap K) (t : TObj K) (a : ℕ) (L : Live h0 t a) (ops : List (Op K))
    (m : Mem K) (hi : Inv h0 (t.toDict h0 a) m) :
    Inv h0 (t.toDict h0 a) (m.run (t.toDict h0 a) ops) := by
  induction ops generalizing m with
  | nil => exact hi
  | cons op ops ih => exact ih _ (step_inv h0 t a L m op hi)

private theorem step_slot (d : Dict) (m : Mem K) (op : Op K) (j : ℕ) (h : NotSave j op) :
    (m.step d op).slots j = m.slots j := by
  cases op with
  | save i => simp only [Mem.step]; rw [Function.update_of_ne (Ne.symm h)]
  | load i => simp only [Mem.step]; split <;> rfl
  | assign v x => simp only [Mem.step]; split <;> rfl

private theorem run_slot (d : Dict) (ops : List (Op K)) (m : Mem K) (j : ℕ)
    (h : ∀ op ∈ ops, NotSave j op) : (m.run d ops).slots j = m.slots j := by
  induction ops generalizing m with
  | nil => rfl
  | cons op ops ih =>
    have := ih (m.step d op) (fun o ho => h o (by simp [ho]))
    simp only [Mem.run, List.foldl_cons] at this ⊢
    rw [this, step_slot d m op j (h op (by simp))]

/-- C39 (partial: what controllers remember is not part of the state, see
`C39_controller_memory_violated`): take any sequence of operations from the start (empty slots), then save to slot `j`, then
any sequence of operations that does not save to slot `j` again (saving to and loading from other
slots, loading from this one, assignments to any arrays, so whatever steps do), then load slot `j`.
Every array of the live integration state, also the embedded arrays, the suggested step size and the
histories, has the content from the time of saving, except `step_size`, which keeps its content;
nothing else in memory and no slot is changed by loading. (`step_size` is not used by the following
steps and adjoint steps, see `C39_plain_following_steps` and `C39_embedded_following_steps`.) -/
theorem C39_restore_partial (h0 : Heap K) (t : TObj K) (a : ℕ) (L : Live h0 t a) (before after : List (Op K))
    (j : ℕ) (hj : ∀ op ∈ after, NotSave j op) :
    let d := t.toDict h0 a
    let saved := Mem.run d ⟨h0, fun _ => none⟩ before
    let live := Mem.run d (saved.step d (.save j)) after
    let loaded := live.step d (.load j)
    tval t a loaded.heap = { tval t a saved.heap with
      rk := { t.disc.value saved.heap with stepSize := live.heap.cells t.disc.stepSize } } ∧
    (∀ x, x ∉ t.wholes a ++ t.byRows → loaded.heap.cells x = live.heap.cells x) ∧
    loaded.slots = live.slots := by
  intro d saved live loaded
  have i1 : Inv h0 d saved := run_inv h0 t a L before _ ⟨fun _ => rfl, by simp⟩
  have i2 : Inv h0 d live := run_inv h0 t a L after _ (step_inv h0 t a L _ _ i1)
  have hslot : live.slots j = some (getData saved.heap d) := by
    rw [show live = Mem.run d (saved.step d (.save j)) after from rfl, run_slot d after _ j hj]
    simp [Mem.step]
  have hl : loaded = ⟨loadData live.heap (locations live.heap d) (getData saved.heap d),
      live.slots⟩ := by
    simp only [loaded, Mem.step, hslot]
  obtain ⟨-, g1, g2⟩ := load_spec h0 t a L saved.heap live.heap i1.1 i2.1
  have hh : loaded.heap = loadData live.heap (locations live.heap d) (getData saved.heap d) := by
    rw [hl]
  refine ⟨?_, ?_, by rw [hl]⟩
  · rw [hh]
    have hst := g2 _ L.step
    simp only [tval, RKObj.value]
    have m1 : ∀ x ∈ [t.disc.startState, t.disc.startTime, t.disc.stageTimes, t.disc.finalState,
        t.disc.independentInputs, t.disc.finalIndependentOutputs, t.disc.finalTime,
        t.disc.linearizationPoints, t.disc.stageStates, t.disc.stageUpdates,
        t.disc.stageIndependentOutputs, a, t.stepHist, t.errHist], x ∈ t.wholes a ++ t.byRows := by
      intro x hx
      simp only [List.mem_cons, List.not_mem_nil, or_false] at hx
      rcases hx with rfl | rfl | rfl | rfl | rfl | rfl | rfl | rfl | rfl | rfl | rfl | rfl | rfl | rfl
        <;> simp [TObj.wholes, TObj.byRows]
    have m2 : t.disc.embValue (loadData live.heap (locations live.heap d) (getData saved.heap d))
        = t.disc.embValue saved.heap := by
      cases he : t.disc.emb with
      | none => simp [Obj.embValue, he]
      | some p =>
        simp only [Obj.embValue, he, Option.map_some]
        rw [g1 p.1 (by simp [TObj.wholes, Obj.embIds, he]),
          g1 p.2 (by simp [TObj.wholes, Obj.embIds, he])]
    rw [m2, hst]
    simp only [List.mem_cons, List.not_mem_nil, or_false, forall_eq_or_imp, forall_eq] at m1
    obtain ⟨e1, e2, e3, e4, e5, e6, e7, e8, e9, e10, e11, e12, e13, e14⟩ := m1
    simp only [d, g1 _ e1, g1 _ e2, g1 _ e3, g1 _ e4, g1 _ e5, g1 _ e6, g1 _ e7, g1 _ e8, g1 _ e9,
      g1 _ e10, g1 _ e11, g1 _ e12, g1 _ e13, g1 _ e14]
  · intro x hx
    rw [hh]
    exact g2 x hx

/-- C39: saving to a slot changes neither memory nor any other slot. -/
theorem C39_other_checkpoints (d : Dict) (m : Mem K) (j : ℕ) :
    (m.step d (.save j)).heap = m.heap ∧
    ∀ i, i ≠ j → (m.step d (.save j)).slots i = m.slots i :=
  ⟨rfl, fun i hi => by simp only [Mem.step]; rw [Function.update_of_ne hi]⟩

open Verif.Integrator Verif.RK in
/-- C39: a plain state restored as in `C39_restore_partial` (everything but the step size) leads to the same
steps, derivative steps and adjoint steps as the state that was saved, whatever is in the live state. -/
theorem C39_plain_following_steps {s n m o l : ℕ} (E : Env s n m o l)
    (live saved : RKState ℝ s n m o l) (h : Verif.XReal) (p : RKState ℝ s n m o l) :
    (rkBackend E).step { saved with stepSize := live.stepSize } h = (rkBackend E).step saved h ∧
    (rkBackend E).deriv { saved with stepSize := live.stepSize } p h
      = (rkBackend E).deriv saved p h ∧
    (rkBackend E).adj { saved with stepSize := live.stepSize } p h = (rkBackend E).adj saved p h :=
  ⟨rfl, rfl, rfl⟩

open Verif.Integrator Verif.RK in
/-- C39: the same for embedded states. -/
theorem C39_embedded_following_steps {s n m o l : ℕ} (E : Env s n m o l) (bhat : Fin s → ℝ)
    (live saved : EmbRKState ℝ s n m o l) (h : Verif.XReal) (p : EmbRKState ℝ s n m o l) :
    (embBackend E bhat).step { saved with stepSize := live.stepSize } h
      = (embBackend E bhat).step saved h ∧
    (embBackend E bhat).measure { saved with stepSize := live.stepSize }
      = (embBackend E bhat).measure saved ∧
    (embBackend E bhat).deriv { saved with stepSize := live.stepSize } p h
      = (embBackend E bhat).deriv saved p h ∧
    (embBackend E bhat).adj { saved with stepSize := live.stepSize } p h
      = (embBackend E bhat).adj saved p h :=
  ⟨rfl, rfl, rfl, rfl⟩

/-! ### C61: options -/

open Verif.Options in
/-- C61 fails: the dictionary of options handed to the pyrevolve checkpointer never stays as it was. -/
theorem C61_pyrevolve_options_violated (id : ℕ) (ty : RevType) (N : ℕ) (d d' : OptionDict)
    (hd : lookup d "fwd_operator" = none) (h : postInit id ty N d = .ok d') : d' ≠ d := by
  intro e
  obtain ⟨c, hc⟩ : ∃ c, convertAll id ty d = .ok c := by
    cases hc : convertAll id ty d with
    | error x => simp [postInit, hc] at h
    | ok c => exact ⟨c, rfl⟩
  have := postInit_lookup id ty N d c d' "fwd_operator" hc h
  rw [e, hd] at this
  simp at this

open Verif.Options in
/-- C61 fails: options with storages for the multi-level revolver can be used once; every further use
raises an error. -/
theorem C61_storages_violated (id id' : ℕ) (N N' : ℕ) (l : List (String × ℕ)) (d d' : OptionDict)
    (hd : lookup d "storage_list" = some (.storages l)) (h : postInit id .multiLevel N d = .ok d') :
    postInit id' .multiLevel N' d' = .error .attribute := by
  obtain ⟨c, hc⟩ : ∃ c, convertAll id .multiLevel d = .ok c := by
    cases hc : convertAll id .multiLevel d with
    | error x => simp [postInit, hc] at h
    | ok c => exact ⟨c, rfl⟩
  obtain ⟨l', hcl⟩ : ∃ l', lookup c "storage_list" = some (.storageObjects id l') := by
    clear h
    induction d generalizing c with
    | nil => simp [lookup] at hd
    | cons e es ih =>
      simp only [convertAll] at hc
      cases hce : convert id .multiLevel e with
      | error x => simp [hce] at hc
      | ok e' =>
        cases ha : convertAll id .multiLevel es with
        | error x => simp [hce, ha] at hc
        | ok es' =>
          simp only [hce, ha, Except.ok.injEq] at hc
          subst hc
          by_cases he : e.1 = "storage_list"
          · have hv : e.2 = .storages l := by simpa [lookup, he] using hd
            simp only [convert, he, and_self, ↓reduceIte, hv, Except.ok.injEq] at hce
            subst hce
            exact ⟨_, by simp [lookup]; rfl⟩
          · have : e' = e := by
              simp only [convert, he, and_false, ↓reduceIte, Except.ok.injEq] at hce
              exact hce.symm
            subst this
            simp only [lookup, List.find?_cons, he, decide_false] at hd ⊢
            exact ih hd _ ha
  have hl := postInit_lookup id .multiLevel N d c d' "storage_list" hc h
  simp only [String.reduceEq, ↓reduceIte, false_and, hcl] at hl
  have : ∀ es : OptionDict, lookup es "storage_list" = some (.storageObjects id l') →
      convertAll id' .multiLevel es = .error .attribute := by
    intro es hes
    induction es with
    | nil => simp [lookup] at hes
    | cons e es ih =>
      by_cases he : e.1 = "storage_list"
      · have hv : e.2 = .storageObjects id l' := by simpa [lookup, he] using hes
        simp [convertAll, convert, he, hv]
      · simp only [lookup, List.find?_cons, he, decide_false] at hes
        simp [convertAll, convert, he, ih hes]
  simp only [postInit, this d' hl]

open Verif.Options in
/-- C61 fails: the number of checkpoints chosen for an instance with one step stays in the options,
so that the next instance does not get its own default. -/
theorem C61_number_of_checkpoints_violated (id id' N : ℕ) (ty : RevType) (hty : ty ≠ .multiLevel)
    (hty' : ty ≠ .base) (hN : N ≠ 1) (d d' d'' : OptionDict)
    (hd : lookup d "n_checkpoints" = none) (h : postInit id ty 1 d = .ok d')
    (h' : postInit id' ty N d' = .ok d'') :
    lookup d'' "n_checkpoints" = some (.number 1) ∧
    ∀ f, postInit id' ty N d = .ok f → lookup f "n_checkpoints" = some .none := by
  have c1 := postInit_lookup id ty 1 d d d' "n_checkpoints" (convertAll_other id ty hty d) h
  have c2 := postInit_lookup id' ty N d' d' d'' "n_checkpoints" (convertAll_other id' ty hty d') h'
  simp only [hd, hty, hty', ne_eq, not_false_eq_true, and_self, String.reduceEq, ↓reduceIte] at c1
  simp only [c1, String.reduceEq, ↓reduceIte, reduceCtorEq, false_and, and_false] at c2
  refine ⟨c2, ?_⟩
  intro f hf
  have c3 := postInit_lookup id' ty N d d f "n_checkpoints" (convertAll_other id' ty hty d) hf
  simpa [hd, hty, hty', hN] using c3

open Verif.Options in
/-- C61 (partial: only keys the checkpointer does not write itself): however often the dictionary is
used, all other entries stay as the user gave them. -/
theorem C61_other_keys_partial (ty : RevType) (Ns : List ℕ) (id : ℕ) (d d' : OptionDict)
    (h : reuse ty id Ns d = .ok d') (k : String) (hk : k ∉ ownKeys) : lookup d' k = lookup d k := by
  induction Ns generalizing id d with
  | nil => cases h; rfl
  | cons N Ns ih =>
    simp only [reuse] at h
    cases hp : postInit id ty N d with
    | error x => simp [hp] at h
    | ok e =>
      simp only [hp] at h
      rw [ih (id + 1) e h]
      obtain ⟨c, hc⟩ : ∃ c, convertAll id ty d = .ok c := by
        cases hc : convertAll id ty d with
        | error x => simp [postInit, hc] at hp
        | ok c => exact ⟨c, rfl⟩
      have := postInit_lookup id ty N d c e k hc hp
      simp only [ownKeys, List.mem_cons, List.not_mem_nil, or_false, not_or] at hk
      rw [this, if_neg hk.2.2.2.2.1, if_neg hk.2.2.2.1, if_neg (fun h => hk.2.2.1 h.1),
        if_neg hk.2.1, if_neg hk.1]
      exact convertAll_lookup id ty d c k hk.2.2.2.2.2 hc

open Verif.Options in
/-- C61 (partial: no multi-level revolver, and the number of checkpoints is given or not needed, or
the instances agree on having one step): an instance that gets options used before by another
instance hands the same arguments to the revolver as with fresh options. -/
theorem C61_reuse_partial (ty : RevType) (id id' N N' : ℕ) (d d' d'' f : OptionDict)
    (hty : ty ≠ .multiLevel)
    (hn : lookup d "n_checkpoints" ≠ none ∨ ty = .base ∨ (N = 1 ↔ N' = 1))
    (h : postInit id ty N d = .ok d') (h' : postInit id' ty N' d' = .ok d'')
    (hf : postInit id' ty N' d = .ok f) (k : String) : lookup d'' k = lookup f k := by
  have c1 := fun k => postInit_lookup id ty N d d d' k (convertAll_other id ty hty d) h
  have c2 := postInit_lookup id' ty N' d' d' d'' k (convertAll_other id' ty hty d') h'
  have c3 := postInit_lookup id' ty N' d d f k (convertAll_other id' ty hty d) hf
  rw [c2, c3]
  by_cases h1 : k = "rev_operator"
  · simp [h1]
  by_cases h2 : k = "fwd_operator"
  · simp [h2]
  rw [if_neg h1, if_neg h2, if_neg h1, if_neg h2]
  by_cases h3 : k = "n_checkpoints"
  · subst h3
    rw [c1]
    by_cases hb : ty = .base
    · simp [hb]
    · cases hl : lookup d "n_checkpoints" with
      | some v => simp
      | none =>
        have hN : N = 1 ↔ N' = 1 := by
          rcases hn with h | h | h
          · exact absurd hl h
          · exact absurd h hb
          · exact h
        simp [hty, hb, hN]
  · rw [c1 k]
    simp only [h3, false_and, ↓reduceIte, h1, h2]
    by_cases h4 : k = "n_timesteps"
    · simp only [h4, ↓reduceIte]
    by_cases h5 : k = "checkpoint"
    · simp only [h5, ↓reduceIte]
    simp only [h4, h5, ↓reduceIte]

/-! ### Examples -/

section examples

/-- Memory with two embedded states of two stages, state size 2, no inputs, one independent output,
and two integration states around them: arrays 0 to 13 and 20 to 33, suggestions and histories 14 to
16 and 34 to 36. -/
def exHeap : Heap ℤ where
  cells := fun i =>
    let v : ℤ := i
    match (i % 20 : ℕ) with
    | 0 => [[v, v + 1]]
    | 1 => [[v, 2], [3, 4]]
    | 2 => [[v, 6], [7, 8]]
    | 3 => [[v, 10]]
    | 4 => [[]]
    | 5 => [[v], [12]]
    | 6 => [[v]]
    | 7 => [[v]]
    | 8 => [[v, 15]]
    | 9 => [[v]]
    | 10 => [[v + 1]]
    | 11 => [[v, 1, 2], [3, 4, 5]]
    | 12 => [[v, 20]]
    | 13 => [[v, 21]]
    | 14 => [[v]]
    | 15 => [[v, 31]]
    | 16 => [[v, 32]]
    | _ => []
  next := 100

/-- A state with its arrays from address `k` on. -/
def exObj (k : ℕ) (e : Bool) : Obj :=
  ⟨⟨k, k + 1, k + 2, k + 3, k + 4, k + 5, k + 6, k + 7, k + 8, k + 9, k + 10, k + 11⟩,
    if e then some (k + 12, k + 13) else none⟩

/-- An integration state with its arrays from address `k` on. -/
def exT (k : ℕ) : TObj ℤ := ⟨exObj k true, .array (k + 14), k + 15, k + 16⟩

theorem ex_wf (e : Bool) : WellFormed exHeap (exObj 0 e).toRKObj 2 0 1 2 3 :=
  ⟨rfl, rfl, rfl, rfl, rfl, rfl, rfl, rfl, rfl, rfl, rfl, rfl, by cases e <;> decide⟩

example : (exObj 0 false).ids.Nodup ∧ (exObj 0 false).ids.Disjoint (exObj 20 false).ids ∧
    (exObj 0 false).ids.map (fun i => shape (exHeap.cells i))
      = (exObj 20 false).ids.map (fun i => shape (exHeap.cells i)) ∧
    (exObj 0 false).value exHeap ≠ (exObj 20 false).value exHeap := by
  refine ⟨by decide, List.disjoint_left.mpr (by decide), rfl, ?_⟩
  intro e
  have := congrArg RKVal.startState e
  revert this
  decide

example : ((exT 0).disc.ids ++ [14, 15, 16]).Nodup ∧
    ((exT 0).disc.ids ++ [14, 15, 16]).Disjoint ((exT 20).disc.ids ++ [34, 35, 36]) ∧
    ((exT 0).disc.ids ++ [14, 15, 16]).map (fun i => shape (exHeap.cells i))
      = ((exT 20).disc.ids ++ [34, 35, 36]).map (fun i => shape (exHeap.cells i)) :=
  ⟨by decide, List.disjoint_left.mpr (by decide), rfl⟩

/-- The embedded arrays are not set: a concrete case. -/
example : ∃ h', (exObj 0 true).set exHeap (exObj 20 true) = .ok h' ∧
    (exObj 0 true).embValue h' = some ([[12, 20]], [[13, 21]]) ∧
    (exObj 20 true).embValue h' = some ([[32, 20]], [[33, 21]]) :=
  ⟨_, rfl, rfl, rfl⟩

example : (exObj 0 true).embValue exHeap ≠ (exObj 20 true).embValue exHeap := by decide

example : exHeap.cells (exObj 0 false).stepSize ≠ [[0]] := by decide

/-- A dictionary with the key `embedded_dict` added by hand: nothing is returned. -/
example : ∃ h', fromDict true exHeap (.dict ((exObj 0 false).entries 2 ++
    [(.embeddedDict, .arr (.whole 12)), (.errorEstimate, .arr (.whole 13))])) = .ok (none, h') :=
  ⟨_, rfl⟩

/-- A state with one independent input. -/
example : WellFormed { exHeap with cells := Function.update exHeap.cells 4 [[7]] }
    (exObj 0 true).toRKObj 2 1 1 2 3 :=
  ⟨rfl, rfl, rfl, rfl, rfl, rfl, rfl, rfl, rfl, rfl, rfl, rfl, by decide⟩

example : exHeap.cells 14 = [[14]] ∧ 14 < exHeap.next := ⟨rfl, by decide⟩

/-- The live state of the example satisfies the hypotheses of `C39_restore_partial`. -/
theorem ex_live : Live exHeap (exT 0) 14 := ⟨List.disjoint_left.mpr (by decide), by decide, by decide⟩

/-- Two steps between saving and loading, with another checkpoint and a load of it in between; the
first assignment of `after` overwrites a row of the stage states. -/
example : ∀ op ∈ [Op.assign (.row 1 0) [[100, 200]], .save 7, .assign (.whole 11) [[0, 0, 0], [9, 9, 9]],
    .assign (.whole 10) [[77]], .load 7, .assign (.whole 14) [[5]]], NotSave (K := ℤ) 3 op := by
  simp [NotSave]

open Verif.Options in
example : ∃ d', postInit 1 .memory 1 [("bla", .user 3)] = .ok d' ∧
    ∃ d'', postInit 2 .memory 10 d' = .ok d'' ∧
      lookup d'' "n_checkpoints" = some (.number 1) ∧ lookup d'' "bla" = some (.user 3) :=
  ⟨_, rfl, _, rfl, rfl, rfl⟩

open Verif.Options in
example : ∃ d', postInit 1 .multiLevel 5 [("storage_list", .storages [("Numpy", 3)])] = .ok d' ∧
    postInit 2 .multiLevel 5 d' = .error .attribute :=
  ⟨_, rfl, rfl⟩

open Verif.Options in
example : ∃ d', reuse .disk 0 [3, 4, 5] [("filename", .user 3)] = .ok d' ∧
    lookup d' "filename" = some (.user 3) ∧ "filename" ∉ ownKeys :=
  ⟨_, rfl, rfl, by decide⟩

open Verif.Options in
example : ∃ d' d'' f, postInit 0 .memory 4 [("n_checkpoints", .user 3)] = .ok d' ∧
    postInit 1 .memory 1 d' = .ok d'' ∧ postInit 1 .memory 1 [("n_checkpoints", .user 3)] = .ok f ∧
    lookup d'' "n_checkpoints" = some (.user 3) ∧ lookup f "n_checkpoints" = some (.user 3) :=
  ⟨_, _, _, rfl, rfl, rfl, rfl, rfl⟩

example : (exObj 0 true).embIds.Disjoint (exObj 0 true).ids :=
  List.disjoint_left.mpr (by decide)

end examples

end Verif.Props
