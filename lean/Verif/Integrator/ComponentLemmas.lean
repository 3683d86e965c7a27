/-
Lemmas about the variables of the component: what `declare` accepts, the translation between
vectors and arrays, and that the integrator with vectors does what the integrator with arrays does.
-/
import Verif.Integrator.Component
import Verif.OpenMDAO.Lemmas
import Verif.Integrator.Path
import Mathlib.Data.List.Nodup

namespace Verif.Component

open Verif.Metadata Verif.OM Verif.Control Verif.Integrator Verif.RK

/-! ### Declarations -/

/-- The input of a quantity. -/
def initDecl (stage : String → List ℝ) (q : Quantity) : Decl :=
  ⟨q.name ++ "_initial", .input, q.arr.shape,
    if q.arr.isLocal then some (match q.stepInput with
      | some s => stage s
      | none => List.replicate q.arr.shape.prod 0) else none, q.arr.distributed⟩

/-- The output of a quantity. -/
def finDecl (q : Quantity) : Decl :=
  ⟨q.name ++ "_final", .output, q.arr.shape, none, q.arr.distributed⟩

/-- The input for an independent input. -/
def indepDecl (stage : String → List ℝ) (q : Quantity) : Decl :=
  ⟨q.name, .input, q.arr.shape, q.independentInput.map stage, q.arr.distributed⟩

/-- The stage problem has values of the right size for a quantity. -/
def HasValues (stage : String → List ℝ) (q : Quantity) : Prop :=
  q.arr.isLocal = true → ∀ s, q.stepInput = some s → (stage s).length = q.arr.shape.prod

/-- The stage problem has values of the right size for an independent input. -/
def HasIndependent (stage : String → List ℝ) (q : Quantity) : Prop :=
  ∃ s, q.independentInput = some s ∧ (stage s).length = q.arr.shape.prod

theorem addVar_ok {ds ds' : List Decl} {d : Decl} :
    addVar ds d = .ok ds' ↔ d.name ∉ ds.map Decl.name ∧ ds' = ds ++ [d] := by
  unfold addVar
  split_ifs with h
  · simp only [List.any_eq_true, beq_iff_eq] at h
    constructor
    · intro h'; cases h'
    · rintro ⟨h1, -⟩
      obtain ⟨e, he, hn⟩ := h
      exact (h1 (List.mem_map.mpr ⟨e, he, hn⟩)).elim
  · simp only [List.any_eq_true, beq_iff_eq, not_exists, not_and] at h
    constructor
    · intro h'
      cases h'
      refine ⟨?_, rfl⟩
      rw [List.mem_map]
      rintro ⟨e, he, hn⟩
      exact h e he hn
    · rintro ⟨-, rfl⟩
      rfl

theorem initial_ne_final (a b : String) : a ++ "_initial" ≠ b ++ "_final" := by
  intro h
  have h' := congrArg (fun s => s.toList.reverse) h
  simp only [String.toList_append, List.reverse_append] at h'
  have h3 := congrArg (fun l => l[2]?) h'
  have e1 : "_initial".toList.reverse = ['l', 'a', 'i', 't', 'i', 'n', 'i', '_'] := by decide
  have e2 : "_final".toList.reverse = ['l', 'a', 'n', 'i', 'f', '_'] := by decide
  rw [e1, e2] at h3
  simp at h3

theorem addInitial_ok {stage : String → List ℝ} {ds ds' : List Decl} {q : Quantity} :
    addInitial stage ds q = .ok ds' ↔ HasValues stage q ∧
      q.name ++ "_initial" ∉ ds.map Decl.name ∧ ds' = ds ++ [initDecl stage q] := by
  unfold addInitial HasValues initDecl
  cases hl : q.arr.isLocal
  · simp only [Bool.false_eq_true, if_false, addVar_ok, false_implies, true_and]
  · simp only [if_true, forall_const]
    unfold initialValue
    cases hs : q.stepInput with
    | none =>
      simp only [addVar_ok, reduceCtorEq, false_implies, implies_true, true_and]
    | some s =>
      simp only [Option.some.injEq, forall_eq']
      split_ifs with h
      · simp only [addVar_ok, h, true_and]
      · simp only [h, false_and]

theorem addQuantity_ok {stage : String → List ℝ} {ds ds' : List Decl} {q : Quantity} :
    addQuantity stage ds q = .ok ds' ↔ HasValues stage q ∧
      q.name ++ "_initial" ∉ ds.map Decl.name ∧ q.name ++ "_final" ∉ ds.map Decl.name ∧
      ds' = ds ++ [initDecl stage q, finDecl q] := by
  unfold addQuantity
  cases h : addInitial stage ds q with
  | error e =>
    simp only [reduceCtorEq, false_iff]
    rintro ⟨h1, h2, -⟩
    rw [addInitial_ok.mpr ⟨h1, h2, rfl⟩] at h
    cases h
  | ok d =>
    obtain ⟨h1, h2, rfl⟩ := addInitial_ok.mp h
    simp only [addVar_ok, h1, h2, not_false_eq_true, true_and, finDecl, List.map_append,
      List.mem_append, not_or, List.append_assoc, List.map_cons, List.map_nil, List.mem_singleton,
      initDecl, List.cons_append, List.nil_append]
    exact ⟨fun h => ⟨h.1.1, h.2⟩, fun h => ⟨⟨h.1, (initial_ne_final _ _).symm⟩, h.2⟩⟩

/-- The names a list of quantities needs. -/
def quantityNames (qs : List Quantity) : List String :=
  qs.flatMap fun q => [q.name ++ "_initial", q.name ++ "_final"]

theorem addQuantities_ok {stage : String → List ℝ} : ∀ {qs : List Quantity} {ds ds' : List Decl},
    (ds.map Decl.name).Nodup →
    (qs.foldlM (addQuantity stage) ds = .ok ds' ↔ (∀ q ∈ qs, HasValues stage q) ∧
      (ds.map Decl.name ++ quantityNames qs).Nodup ∧
      ds' = ds ++ qs.flatMap fun q => [initDecl stage q, finDecl q])
  | [], ds, ds', hn => by
      simp only [List.foldlM_nil, quantityNames, List.flatMap_nil, List.append_nil, List.not_mem_nil,
        false_implies, implies_true, hn, true_and]
      exact ⟨fun h => by cases h; rfl, fun h => by rw [h]; rfl⟩
  | q :: qs, ds, ds', hn => by
      have key : (ds.map Decl.name ++ quantityNames (q :: qs)).Nodup ↔
          q.name ++ "_initial" ∉ ds.map Decl.name ∧ q.name ++ "_final" ∉ ds.map Decl.name ∧
          ((ds ++ [initDecl stage q, finDecl q]).map Decl.name ++ quantityNames qs).Nodup := by
        have e : ds.map Decl.name ++ quantityNames (q :: qs) =
            (ds ++ [initDecl stage q, finDecl q]).map Decl.name ++ quantityNames qs := by
          simp [quantityNames, initDecl, finDecl]
        rw [← e]
        refine ⟨fun h => ⟨?_, ?_, h⟩, fun h => h.2.2⟩
        · exact fun h' => (List.nodup_append.mp h).2.2 _ h' _ (by simp [quantityNames]) rfl
        · exact fun h' => (List.nodup_append.mp h).2.2 _ h' _ (by simp [quantityNames]) rfl
      rw [List.foldlM_cons]
      constructor
      · intro h
        cases hq : addQuantity stage ds q with
        | error e => rw [hq] at h; cases h
        | ok d =>
          rw [hq] at h
          obtain ⟨h1, h2, h3, rfl⟩ := addQuantity_ok.mp hq
          have hn' : ((ds ++ [initDecl stage q, finDecl q]).map Decl.name).Nodup := by
            rw [List.map_append, List.nodup_append]
            refine ⟨hn, by simp [initDecl, finDecl], ?_⟩
            intro a ha b hb
            simp only [List.map_cons, List.map_nil, List.mem_cons, List.not_mem_nil, or_false] at hb
            rcases hb with rfl | rfl
            · exact fun h => h2 (by rw [h] at ha; exact ha)
            · exact fun h => h3 (by rw [h] at ha; exact ha)
          obtain ⟨i1, i2, i3⟩ := (addQuantities_ok hn').mp h
          refine ⟨?_, key.mpr ⟨h2, h3, i2⟩, by rw [i3]; simp⟩
          intro x hx
          rcases List.mem_cons.mp hx with rfl | hx
          · exact h1
          · exact i1 x hx
      · rintro ⟨h1, h2, h3⟩
        obtain ⟨k1, k2, k3⟩ := key.mp h2
        rw [addQuantity_ok.mpr ⟨h1 q List.mem_cons_self, k1, k2, rfl⟩]
        refine (addQuantities_ok ?_).mpr ⟨fun x hx => h1 x (List.mem_cons_of_mem _ hx), k3, ?_⟩
        · exact (List.nodup_append.mp k3).1
        · rw [h3]; simp

theorem addIndependentInput_ok {stage : String → List ℝ} {ds ds' : List Decl} {q : Quantity} :
    addIndependentInput stage ds q = .ok ds' ↔ HasIndependent stage q ∧
      q.name ∉ ds.map Decl.name ∧ ds' = ds ++ [indepDecl stage q] := by
  unfold addIndependentInput HasIndependent indepDecl
  cases hs : q.independentInput with
  | none => simp
  | some s =>
    simp only [Option.some.injEq, exists_eq_left', Option.map_some]
    split_ifs with h
    · simp only [addVar_ok, h, true_and]
    · simp only [h, false_and]

theorem addIndependents_ok {stage : String → List ℝ} : ∀ {qs : List Quantity} {ds ds' : List Decl},
    (ds.map Decl.name).Nodup →
    (qs.foldlM (addIndependentInput stage) ds = .ok ds' ↔ (∀ q ∈ qs, HasIndependent stage q) ∧
      (ds.map Decl.name ++ qs.map Quantity.name).Nodup ∧ ds' = ds ++ qs.map (indepDecl stage))
  | [], ds, ds', hn => by
      simp only [List.foldlM_nil, List.map_nil, List.append_nil, List.not_mem_nil,
        false_implies, implies_true, hn, true_and]
      exact ⟨fun h => by cases h; rfl, fun h => by rw [h]; rfl⟩
  | q :: qs, ds, ds', hn => by
      have key : (ds.map Decl.name ++ (q :: qs).map Quantity.name).Nodup ↔
          q.name ∉ ds.map Decl.name ∧
          ((ds ++ [indepDecl stage q]).map Decl.name ++ qs.map Quantity.name).Nodup := by
        have e : ds.map Decl.name ++ (q :: qs).map Quantity.name =
            (ds ++ [indepDecl stage q]).map Decl.name ++ qs.map Quantity.name := by
          simp [indepDecl]
        rw [← e]
        refine ⟨fun h => ⟨?_, h⟩, fun h => h.2⟩
        exact fun h' => (List.nodup_append.mp h).2.2 _ h' _ (by simp) rfl
      rw [List.foldlM_cons]
      constructor
      · intro h
        cases hq : addIndependentInput stage ds q with
        | error e => rw [hq] at h; cases h
        | ok d =>
          rw [hq] at h
          obtain ⟨h1, h2, rfl⟩ := addIndependentInput_ok.mp hq
          have hn' : ((ds ++ [indepDecl stage q]).map Decl.name).Nodup := by
            rw [List.map_append, List.nodup_append]
            refine ⟨hn, by simp, ?_⟩
            intro a ha b hb
            simp only [List.map_cons, List.map_nil, List.mem_cons, List.not_mem_nil, or_false] at hb
            subst hb
            exact fun h => h2 (by rw [h] at ha; exact ha)
          obtain ⟨i1, i2, i3⟩ := (addIndependents_ok hn').mp h
          refine ⟨?_, key.mpr ⟨h2, i2⟩, by rw [i3]; simp⟩
          intro x hx
          rcases List.mem_cons.mp hx with rfl | hx
          · exact h1
          · exact i1 x hx
      · rintro ⟨h1, h2, h3⟩
        obtain ⟨k1, k2⟩ := key.mp h2
        rw [addIndependentInput_ok.mpr ⟨h1 q List.mem_cons_self, k1, rfl⟩]
        refine (addIndependents_ok ?_).mpr ⟨fun x hx => h1 x (List.mem_cons_of_mem _ hx), k2, ?_⟩
        · exact (List.nodup_append.mp k2).1
        · rw [h3]; simp

/-- All names the component needs. -/
def variableNames (info : Meta) : List String :=
  ["time_initial", "time_final"] ++ quantityNames info.quantities ++
    info.independents.map Quantity.name

theorem declare_ok {info : Meta} {stage : String → List ℝ} {ds : List Decl} :
    declare info stage = .ok ds ↔ (∀ q ∈ info.quantities, HasValues stage q) ∧
      (∀ q ∈ info.independents, HasIndependent stage q) ∧ (variableNames info).Nodup ∧
      ds = [⟨"time_initial", .input, [1], some [0], false⟩,
          ⟨"time_final", .output, [1], none, false⟩] ++
        (info.quantities.flatMap fun q => [initDecl stage q, finDecl q]) ++
        info.independents.map (indepDecl stage) := by
  have e1 : addVar [] ⟨"time_initial", .input, [1], some [0], false⟩ =
      .ok [⟨"time_initial", .input, [1], some [0], false⟩] := addVar_ok.mpr ⟨by simp, rfl⟩
  have e2 : addVar [⟨"time_initial", .input, [1], some [0], false⟩]
      ⟨"time_final", .output, [1], none, false⟩ =
      .ok [⟨"time_initial", .input, [1], some [0], false⟩,
        ⟨"time_final", .output, [1], none, false⟩] := addVar_ok.mpr ⟨by simp, rfl⟩
  have hn : (([⟨"time_initial", .input, [1], some [0], false⟩,
      ⟨"time_final", .output, [1], none, false⟩] : List Decl).map Decl.name).Nodup := by simp
  have hnames : ∀ qs : List Quantity,
      (qs.flatMap fun q => [initDecl stage q, finDecl q]).map Decl.name = quantityNames qs := by
    intro qs
    simp [quantityNames, List.map_flatMap, initDecl, finDecl]
  unfold declare
  rw [e1]
  dsimp only
  rw [e2]
  dsimp only
  constructor
  · intro h
    cases hq : info.quantities.foldlM (addQuantity stage)
        [⟨"time_initial", .input, [1], some [0], false⟩,
          ⟨"time_final", .output, [1], none, false⟩] with
    | error e => rw [hq] at h; cases h
    | ok d =>
      rw [hq] at h
      obtain ⟨h1, h2, rfl⟩ := (addQuantities_ok hn).mp hq
      have hn2 := h2
      rw [← hnames, ← List.map_append] at hn2
      obtain ⟨h3, h4, rfl⟩ := (addIndependents_ok hn2).mp h
      refine ⟨h1, h3, ?_, rfl⟩
      rw [List.map_append, hnames] at h4
      exact h4
  · rintro ⟨h1, h2, h3, rfl⟩
    unfold variableNames at h3
    have h4 := (List.nodup_append.mp h3).1
    rw [(addQuantities_ok hn).mpr ⟨h1, h4, rfl⟩]
    refine (addIndependents_ok ?_).mpr ⟨h2, ?_, rfl⟩
    · rw [List.map_append, hnames]; exact h4
    · rw [List.map_append, hnames]; exact h3

/-! ### Translation -/

theorem getVar_empty {K : Type} (y : Flat K) (x : Vec K) (n : String) : getVar y x n 0 0 = y := by
  funext i
  simp [getVar]

/-- Reading the variables of a list of quantities by the names `nm`. -/
def readNamed (nm : Quantity → String) (qs : List Quantity) (x : Vec ℝ) (y : Flat ℝ) : Flat ℝ :=
  qs.foldl (fun y q => getVar y x (nm q) q.arr.start q.arr.stop) y

theorem readNamed_eq (nm : Quantity → String) (x : Vec ℝ) : ∀ (qs : List Quantity) (s s' : ℕ)
    (y : Flat ℝ), Laid s qs s' → readNamed nm qs x y = qs.foldl (readBy (fun q => some (nm q)) x) y
  | [], _, _, _, _ => rfl
  | q :: qs, s, s', y, h => by
      have ih := fun y t => readNamed_eq nm x qs t s' y
      unfold readNamed at ih ⊢
      rw [List.foldl_cons, List.foldl_cons]
      rcases h with ⟨h1, h2, h3, h4⟩ | ⟨h1, h2, h3, h4⟩
      · rw [ih _ _ h4]
        simp only [readBy, h1, if_true]
      · rw [ih _ _ h4, h2, h3, getVar_empty]
        simp only [readBy, h1]
        rfl

theorem readNamed_at {nm : Quantity → String} {qs : List Quantity} {n : ℕ} (h : Laid 0 qs n)
    (x : Vec ℝ) (y : Flat ℝ) {q : Quantity} (hq : q ∈ qs) (hl : q.arr.isLocal = true) {k : ℕ}
    (hk : k < q.arr.shape.prod) : readNamed nm qs x y (q.arr.start + k) = x (nm q) k := by
  rw [readNamed_eq nm x qs _ _ y h]
  rcases Laid.bound h q hq with ⟨-, -, h3, -⟩ | ⟨h0, -⟩
  · rw [fold_readBy_covered _ x qs _ _ y h q hq hl (nm q) rfl _ (by omega) (by omega),
      Nat.add_sub_cancel_left]
  · rw [hl] at h0; cases h0

/-- Every index below the size is an entry of a quantity. -/
theorem laid_cover {qs : List Quantity} {n : ℕ} (h : Laid 0 qs n) {i : ℕ} (hi : i < n) :
    ∃ q ∈ qs, q.arr.isLocal = true ∧ ∃ k, k < q.arr.shape.prod ∧ i = q.arr.start + k := by
  obtain ⟨j, ⟨q, hq, h1, h2⟩, -⟩ := Laid.unique h i (Nat.zero_le _) hi
  have hm := List.mem_of_getElem? hq
  rcases Laid.bound h q hm with ⟨h0, -, h3, -⟩ | ⟨-, h3, h4⟩
  · exact ⟨q, hm, h0, i - q.arr.start, by omega, by omega⟩
  · omega

theorem readNamed_old {nm : Quantity → String} {qs : List Quantity} {n : ℕ} (h : Laid 0 qs n)
    (x : Vec ℝ) (y z : Flat ℝ) {i : ℕ} (hi : i < n) :
    readNamed nm qs x y i = readNamed nm qs x z i := by
  obtain ⟨q, hq, hl, k, hk, rfl⟩ := laid_cover h hi
  rw [readNamed_at h x y hq hl hk, readNamed_at h x z hq hl hk]

/-- Writing the variables of a list of quantities by the names `nm`. -/
def writeNamed (nm : Quantity → String) (qs : List Quantity) (y : Flat ℝ) (x : Vec ℝ) : Vec ℝ :=
  qs.foldl (fun x q => setVar x (nm q) 1 y q.arr.start) x

theorem writeNamed_other {nm : Quantity → String} : ∀ {qs : List Quantity} {y : Flat ℝ} {x : Vec ℝ}
    {n : String}, n ∉ qs.map nm → writeNamed nm qs y x n = x n
  | [], _, _, _, _ => rfl
  | q :: qs, y, x, n, h => by
      rw [List.map_cons, List.mem_cons, not_or] at h
      change writeNamed nm qs y (setVar x (nm q) 1 y q.arr.start) n = x n
      rw [writeNamed_other h.2, setVar, Function.update_of_ne h.1]

theorem writeNamed_at {nm : Quantity → String} : ∀ {qs : List Quantity} {y : Flat ℝ} {x : Vec ℝ},
    (qs.map nm).Nodup → ∀ {q : Quantity}, q ∈ qs → ∀ k,
    writeNamed nm qs y x (nm q) k = y (q.arr.start + k)
  | [], _, _, _, q, hq, _ => by cases hq
  | a :: qs, y, x, hn, q, hq, k => by
      rw [List.map_cons, List.nodup_cons] at hn
      change writeNamed nm qs y (setVar x (nm a) 1 y a.arr.start) (nm q) k = _
      rcases List.mem_cons.mp hq with rfl | hq
      · rw [writeNamed_other hn.1, setVar, Function.update_self, one_mul]
      · exact writeNamed_at hn.2 hq k

theorem flat_lt {n : ℕ} (y : Fin n → ℝ) {i : ℕ} (h : i < n) : flat y i = y ⟨i, h⟩ := by
  simp [flat, h]

variable {D : Type} {info : Meta}

/-- The inputs as arrays. -/
def inputsOf (info : Meta) (x : Vec ℝ) : StartingValues ℝ info.arraySize info.independentSize :=
  readInputs info ⟨0, 0, 0⟩ x

/-- Seeds of the outputs as arrays. -/
def outputsOf (info : Meta) (x : Vec ℝ) : Outputs info.arraySize := readOutputs info 0 x

theorem readInputs_old (h : info.Sound)
    (old : StartingValues ℝ info.arraySize info.independentSize) (x : Vec ℝ) :
    readInputs info old x = inputsOf info x := by
  unfold inputsOf readInputs
  congr 1
  · funext i
    exact readNamed_old (nm := fun q => q.name ++ "_initial") h.laid x _ _ i.2
  · funext i
    exact readNamed_old (nm := fun q => q.name) h.laidIndep x _ _ i.2

theorem readOutputs_old (h : info.Sound) (old : Fin info.arraySize → ℝ) (x : Vec ℝ) :
    readOutputs info old x = outputsOf info x := by
  unfold outputsOf readOutputs
  congr 1
  funext i
  exact readNamed_old (nm := fun q => q.name ++ "_final") h.laid x _ _ i.2

/-! ### The integrator with vectors -/

variable {B : Backend D (StartingValues ℝ info.arraySize info.independentSize)
    (Outputs info.arraySize)} {cur : D → StartingValues ℝ info.arraySize info.independentSize}
    {out : Vec ℝ} {opt : Options}

theorem named_iterate (f : ℕ) (c : Ctrl) (x : IState D) :
    iterateOnStep (named info B cur out) opt f c x = iterateOnStep B opt f c x := by
  induction f generalizing c x with
  | zero => rfl
  | succ f ih => simp only [iterateOnStep, named]; simp only [named] at ih; simp only [ih]

theorem named_runStep (it : ℕ) (c : Ctrl) (x : IState D) :
    runStep (named info B cur out) opt it c x = runStep B opt it c x := by
  simp only [runStep, named_iterate]

theorem named_noForward (f it : ℕ) (c : Ctrl) (x : IState D) :
    noForward (named info B cur out) opt f it c x = noForward B opt f it c x := by
  induction f generalizing it c x with
  | zero => rfl
  | succ f ih => simp only [noForward, named_runStep, ih]; rfl

theorem named_allForward (f it : ℕ) (st : List (IState D)) (c : Ctrl) (x : IState D) :
    allForward (named info B cur out) opt f it st c x = allForward B opt f it st c x := by
  induction f generalizing it st c x with
  | zero => rfl
  | succ f ih => simp only [allForward, named_runStep, ih]; rfl

theorem named_allReverse : ∀ (l : List (IState D)) (p : D),
    allReverse (named info B cur out) opt l p = allReverse B opt l p
  | [], _ => rfl
  | x :: l, p => by
      simp only [allReverse]
      rw [named_allReverse l]
      rfl

theorem named_ck (ch : Choice) : ch.ck (named info B cur out) opt = ch.ck B opt := by
  cases ch with
  | no =>
    simp only [Choice.ck, noCk]
    congr 1
    funext fuel _ c x
    rw [named_noForward]
  | all =>
    simp only [Choice.ck, allCk]
    congr 1
    · funext fuel st c x
      rw [named_allForward]
    · funext st c x p
      rw [named_allReverse]

theorem named_fwdLoop (f it : ℕ) (c : Ctrl) (x : IState D) (p : D) :
    fwdLoop (named info B cur out) opt f it c x p = fwdLoop B opt f it c x p := by
  induction f generalizing it c x p with
  | zero => rfl
  | succ f ih => simp only [fwdLoop, runStepFwd, named_iterate, ih]; rfl

theorem named_compute (h : info.Sound) (ch : Choice) (fuel : ℕ) (w : World D (ch.Data D))
    (x : Vec ℝ) :
    compute (named info B cur out) opt (ch.ck (named info B cur out) opt) fuel w x =
      ((compute B opt (ch.ck B opt) fuel w (inputsOf info x)).1,
        (compute B opt (ch.ck B opt) fuel w (inputsOf info x)).2.map
          fun v => writeOutputs info v out) := by
  rw [named_ck]
  have hl : (named info B cur out).load w.tis.disc x = B.load w.tis.disc (inputsOf info x) := by
    change B.load _ (readInputs info (cur w.tis.disc) x) = _
    rw [readInputs_old h]
  simp only [compute, hl]
  generalize hr : (ch.ck B opt).forward fuel ((ch.ck B opt).create w.ck) w.ctrl
    { resetErrorControl opt w.ctrl { w.tis with disc := B.load w.tis.disc (inputsOf info x) } with
      disc := B.clearLin (resetErrorControl opt w.ctrl
        { w.tis with disc := B.load w.tis.disc (inputsOf info x) }).disc } = r
  have hr' : (ch.ck B opt).forward fuel ((ch.ck B opt).create w.ck) w.ctrl
    { resetErrorControl opt w.ctrl { w.tis with disc := B.load w.tis.disc (inputsOf info x) } with
      disc := (named info B cur out).clearLin (resetErrorControl opt w.ctrl
        { w.tis with disc := B.load w.tis.disc (inputsOf info x) }).disc } = r := hr
  rw [hr']
  rcases r.2.out with e | ⟨⟩ <;> rfl

theorem named_fwd {σ : Type} (h : info.Sound) (fuel : ℕ) (w : World D σ) (x dx dO : Vec ℝ) :
    fwd (named info B cur out) opt fuel w x dx dO =
      ((fwd B opt fuel w (inputsOf info x) (inputsOf info dx) (outputsOf info dO)).1,
        (fwd B opt fuel w (inputsOf info x) (inputsOf info dx) (outputsOf info dO)).2.map
          fun v => writeOutputs info v dO) := by
  have hl : ∀ d y, (named info B cur out).load d y = B.load d (inputsOf info y) := by
    intro d y
    change B.load _ (readInputs info (cur d) y) = _
    rw [readInputs_old h]
  simp only [fwd, hl, named_fwdLoop]
  rcases (fwdLoop B opt fuel 0 w.ctrl (resetErrorControl opt w.ctrl
    { w.tis with disc := B.load w.tis.disc (inputsOf info x) }) (B.load w.pert
      (inputsOf info dx))).1.out with e | ⟨⟩ <;> rfl

theorem named_revPrep (h : info.Sound) (ch : Choice) (fuel : ℕ) (w : World D (ch.Data D))
    (x : Vec ℝ) :
    revPrep (named info B cur out) opt (ch.ck (named info B cur out) opt) fuel w x =
      revPrep B opt (ch.ck B opt) fuel w (inputsOf info x) := by
  have hc : cacheOk (named info B cur out) w x = cacheOk B w (inputsOf info x) := by
    unfold cacheOk
    cases w.cached <;> rfl
  simp only [revPrep, hc, named_compute h]
  split_ifs
  · rfl
  · rcases compute B opt (ch.ck B opt) fuel w (inputsOf info x) with ⟨w', e | v⟩ <;> rfl

theorem named_rev (h : info.Sound) (ch : Choice) (fuel : ℕ) (w : World D (ch.Data D))
    (x dO dI : Vec ℝ) :
    rev (named info B cur out) opt (ch.ck (named info B cur out) opt) fuel w x dO dI =
      ((rev B opt (ch.ck B opt) fuel w (inputsOf info x) (outputsOf info dO) (inputsOf info dI)).1,
        (rev B opt (ch.ck B opt) fuel w (inputsOf info x) (outputsOf info dO)
          (inputsOf info dI)).2.map fun v => writeInputs info v dI) := by
  have hs : ∀ d y, (named info B cur out).seed d y = B.seed d (outputsOf info y) := by
    intro d y
    change B.seed _ (readOutputs info (cur d).initialValues y) = _
    rw [readOutputs_old h]
  have hp := named_revPrep (B := B) (cur := cur) (out := out) (opt := opt) h ch fuel w x
  rw [named_ck] at hp
  simp only [rev, named_ck, hs, hp]
  rcases revPrep B opt (ch.ck B opt) fuel w (inputsOf info x) with ⟨w', e | ⟨⟩⟩
  · rfl
  · dsimp only
    rcases ((ch.ck B opt).reverse w'.ck w'.ctrl w'.tis
      (B.seed w'.pert (outputsOf info dO))).2.1.out with e | ⟨⟩ <;> rfl

end Verif.Component
