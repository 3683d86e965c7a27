/-
C76, C77: the variables of the component. What `setup` declares and when it fails, and that values
and derivatives go to and come from the variables of the right names.
-/
import Verif.Integrator.ComponentLemmas
import Verif.Props.OpenMDAO
import Verif.Props.Deriv
import Mathlib.Analysis.Calculus.Deriv.Comp
import Mathlib.Analysis.Calculus.Deriv.Mul
import Mathlib.Analysis.Calculus.Deriv.Add
import Mathlib.Analysis.Calculus.Deriv.Prod

namespace Verif.Props

open Verif.Metadata Verif.OM Verif.Control Verif.XReal Verif.Integrator Verif.RK Verif.RK.Spec
open Verif.Component Finset
open Classical

/-! ### C76: declared variables -/

/-- The documented variables of the component for given metadata and values of the stage
problem. -/
inductive Documented (info : Meta) (stage : String → List ℝ) : Decl → Prop
  | timeInitial : Documented info stage ⟨"time_initial", .input, [1], some [0], false⟩
  | timeFinal : Documented info stage ⟨"time_final", .output, [1], none, false⟩
  /-- A quantity with a step input starts from the value the stage problem has there. -/
  | initial (q : Quantity) (s : String) : q ∈ info.quantities → q.arr.isLocal = true →
      q.stepInput = some s → Documented info stage
        ⟨q.name ++ "_initial", .input, q.arr.shape, some (stage s), q.arr.distributed⟩
  /-- A quantity without step input starts from zero. -/
  | initialZero (q : Quantity) : q ∈ info.quantities → q.arr.isLocal = true →
      q.stepInput = none → Documented info stage
        ⟨q.name ++ "_initial", .input, q.arr.shape, some (List.replicate q.arr.shape.prod 0),
          q.arr.distributed⟩
  | initialRemote (q : Quantity) : q ∈ info.quantities → q.arr.isLocal = false →
      Documented info stage ⟨q.name ++ "_initial", .input, q.arr.shape, none, q.arr.distributed⟩
  | final (q : Quantity) : q ∈ info.quantities →
      Documented info stage ⟨q.name ++ "_final", .output, q.arr.shape, none, q.arr.distributed⟩
  | independent (q : Quantity) (s : String) : q ∈ info.independents →
      q.independentInput = some s →
      Documented info stage ⟨q.name, .input, q.arr.shape, some (stage s), q.arr.distributed⟩

/-- The names of quantities and independent inputs do not lead to equal names of variables. -/
structure NamesOk (info : Meta) : Prop where
  quantities : (info.quantities.map Quantity.name).Nodup
  notTime : ∀ q ∈ info.quantities, q.name ≠ "time"
  independents : (info.independents.map Quantity.name).Nodup
  notTimes : ∀ p ∈ info.independents, p.name ≠ "time_initial" ∧ p.name ≠ "time_final"
  apart : ∀ p ∈ info.independents, ∀ q ∈ info.quantities,
    p.name ≠ q.name ++ "_initial" ∧ p.name ≠ q.name ++ "_final"

theorem mem_quantityNames {qs : List Quantity} {n : String} : n ∈ quantityNames qs ↔
    ∃ q ∈ qs, n = q.name ++ "_initial" ∨ n = q.name ++ "_final" := by
  simp [quantityNames, List.mem_flatMap]

theorem quantityNames_nodup : ∀ qs : List Quantity,
    (quantityNames qs).Nodup ↔ (qs.map Quantity.name).Nodup
  | [] => by simp [quantityNames]
  | q :: qs => by
      have e : quantityNames (q :: qs) =
          (q.name ++ "_initial") :: (q.name ++ "_final") :: quantityNames qs := rfl
      rw [e, List.nodup_cons, List.nodup_cons, List.map_cons, List.nodup_cons,
        quantityNames_nodup qs, List.mem_cons, mem_quantityNames, mem_quantityNames, List.mem_map]
      constructor
      · rintro ⟨h1, -, h3⟩
        refine ⟨?_, h3⟩
        rintro ⟨x, hx, he⟩
        exact h1 (Or.inr ⟨x, hx, Or.inl (by rw [he])⟩)
      · rintro ⟨h1, h2⟩
        refine ⟨?_, ?_, h2⟩
        · rintro (h | ⟨x, hx, h | h⟩)
          · exact initial_ne_final _ _ h
          · exact h1 ⟨x, hx, ((String.append_left_inj _).mp h).symm⟩
          · exact initial_ne_final _ _ h
        · rintro ⟨x, hx, h | h⟩
          · exact initial_ne_final _ _ h.symm
          · exact h1 ⟨x, hx, ((String.append_left_inj _).mp h).symm⟩

theorem namesOk_iff (info : Meta) : (variableNames info).Nodup ↔ NamesOk info := by
  have t1 : "time_initial" = "time" ++ "_initial" := by decide
  have t2 : "time_final" = "time" ++ "_final" := by decide
  unfold variableNames
  rw [List.nodup_append, List.nodup_append, quantityNames_nodup]
  constructor
  · rintro ⟨⟨-, h2, h3⟩, h4, h5⟩
    refine ⟨h2, fun q hq h => ?_, h4, fun p hp => ⟨fun h => ?_, fun h => ?_⟩,
      fun p hp q hq => ⟨fun h => ?_, fun h => ?_⟩⟩
    · exact h3 "time_initial" (by simp) _ (mem_quantityNames.mpr ⟨q, hq, Or.inl rfl⟩) (by rw [h, t1])
    · exact h5 "time_initial" (by simp) _ (List.mem_map_of_mem hp) h.symm
    · exact h5 "time_final" (by simp) _ (List.mem_map_of_mem hp) h.symm
    · exact h5 _ (List.mem_append_right _ (mem_quantityNames.mpr ⟨q, hq, Or.inl rfl⟩)) _
        (List.mem_map_of_mem hp) h.symm
    · exact h5 _ (List.mem_append_right _ (mem_quantityNames.mpr ⟨q, hq, Or.inr rfl⟩)) _
        (List.mem_map_of_mem hp) h.symm
  · rintro ⟨h1, h2, h3, h4, h5⟩
    refine ⟨⟨by simp, h1, ?_⟩, h3, ?_⟩
    · intro a ha b hb h
      obtain ⟨q, hq, hb⟩ := mem_quantityNames.mp hb
      simp only [List.mem_cons, List.not_mem_nil, or_false] at ha
      subst h
      rcases ha with rfl | rfl <;> rcases hb with hb | hb
      · rw [t1] at hb; exact h2 q hq ((String.append_left_inj _).mp hb).symm
      · rw [t1] at hb; exact initial_ne_final _ _ hb
      · rw [t2] at hb; exact initial_ne_final _ _ hb.symm
      · rw [t2] at hb; exact h2 q hq ((String.append_left_inj _).mp hb).symm
    · intro a ha b hb h
      obtain ⟨p, hp, rfl⟩ := List.mem_map.mp hb
      subst h
      rcases List.mem_append.mp ha with ha | ha
      · simp only [List.mem_cons, List.not_mem_nil, or_false] at ha
        rcases ha with ha | ha
        · exact (h4 p hp).1 ha
        · exact (h4 p hp).2 ha
      · obtain ⟨q, hq, ha | ha⟩ := mem_quantityNames.mp ha
        · exact (h5 p hp q hq).1 ha
        · exact (h5 p hp q hq).2 ha

/-- C76: a successful setup declares the documented variables and nothing else, each once. -/
theorem C76_declares {info : Meta} {stage : String → List ℝ} {ds : List Decl}
    (h : declare info stage = .ok ds) :
    (ds.map Decl.name).Nodup ∧ ∀ d, d ∈ ds ↔ Documented info stage d := by
  obtain ⟨-, h2, h3, rfl⟩ := declare_ok.mp h
  constructor
  · convert h3 using 1
    simp [variableNames, quantityNames, List.map_flatMap, initDecl, finDecl, indepDecl,
      Function.comp_def]
  · intro d
    simp only [List.mem_append, List.mem_cons, List.not_mem_nil, or_false, List.mem_flatMap,
      List.mem_map]
    constructor
    · rintro (((rfl | rfl) | ⟨q, hq, rfl | rfl⟩) | ⟨q, hq, rfl⟩)
      · exact .timeInitial
      · exact .timeFinal
      · unfold initDecl
        cases hl : q.arr.isLocal
        · simpa using Documented.initialRemote q hq hl
        · simp only [if_true]
          cases hs : q.stepInput with
          | none => exact .initialZero q hq hl hs
          | some s => exact .initial q s hq hl hs
      · exact .final q hq
      · obtain ⟨s, hs, -⟩ := h2 q hq
        have := Documented.independent (info := info) (stage := stage) q s hq hs
        simpa [indepDecl, hs] using this
    · intro hd
      cases hd with
      | timeInitial => exact Or.inl (Or.inl (Or.inl rfl))
      | timeFinal => exact Or.inl (Or.inl (Or.inr rfl))
      | initial q s hq hl hs =>
        exact Or.inl (Or.inr ⟨q, hq, Or.inl (by simp [initDecl, hl, hs])⟩)
      | initialZero q hq hl hs =>
        exact Or.inl (Or.inr ⟨q, hq, Or.inl (by simp [initDecl, hl, hs])⟩)
      | initialRemote q hq hl =>
        exact Or.inl (Or.inr ⟨q, hq, Or.inl (by simp [initDecl, hl])⟩)
      | final q hq => exact Or.inl (Or.inr ⟨q, hq, Or.inr rfl⟩)
      | independent q s hq hs => exact Or.inr ⟨q, hq, by simp [indepDecl, hs]⟩

/-- C76: setup succeeds if no two variables get the same name, the values the stage problem has
for a quantity fit, every independent input is on the rank, the tableau knows its orders and there
is a controller. Under other circumstances it raises. Missing for the full property: names that
clash, independent inputs on other ranks. -/
theorem C76_accepts_partial {α : Type} (info : Meta) (stage : String → List ℝ) (o : SetupOptions α)
    (rank : ℕ) (logging clock : Kind → α) :
    (∃ r, setupComponent info stage o rank logging clock = .ok r) ↔
      NamesOk info ∧
      (∀ q ∈ info.quantities, q.arr.isLocal = true → ∀ s, q.stepInput = some s →
        (stage s).length = q.arr.shape.prod) ∧
      (∀ q ∈ info.independents, ∃ s, q.independentInput = some s ∧
        (stage s).length = q.arr.shape.prod) ∧
      o.order ≠ none ∧ o.factories ≠ [] := by
  have hchain : ∀ p, buildChain p o.config o.factories = none ↔ o.factories = [] := by
    intro p
    unfold buildChain
    rcases o.factories.eq_nil_or_concat with h | ⟨l, f, h⟩
    · simp [h]
    · simp [h]
  unfold setupComponent
  constructor
  · rintro ⟨r, h⟩
    cases hd : declare info stage with
    | error e => rw [hd] at h; cases h
    | ok ds =>
      rw [hd] at h
      dsimp only at h
      obtain ⟨h1, h2, h3, -⟩ := declare_ok.mp hd
      cases ho : o.order with
      | none => rw [ho] at h; cases h
      | some p =>
        rw [ho] at h
        dsimp only at h
        refine ⟨(namesOk_iff info).mp h3, h1, h2, by simp, fun hf => ?_⟩
        rw [(hchain p).mpr hf] at h
        cases h
  · rintro ⟨h1, h2, h3, h4, h5⟩
    rw [declare_ok.mpr ⟨h2, h3, (namesOk_iff info).mpr h1, rfl⟩]
    dsimp only
    cases ho : o.order with
    | none => exact absurd ho h4
    | some p =>
      dsimp only
      cases hc : buildChain p o.config o.factories with
      | none => exact absurd ((hchain p).mp hc) h5
      | some c => exact ⟨_, rfl⟩

/-- C76: the controller and the callbacks after a successful setup: the controllers in the order of
the option around each other; the callbacks that were given, otherwise two on the first rank and
none on others. -/
theorem C76_controller_and_callbacks {α : Type} {info : Meta} {stage : String → List ℝ}
    {o : SetupOptions α} {rank : ℕ} {logging clock : Kind → α} {r : Ready α}
    (h : setupComponent info stage o rank logging clock = .ok r) :
    (∃ p, o.order = some p ∧ buildChain p o.config o.factories = some r.ctrl) ∧
    r.embedded = o.embedded ∧
    ∀ k, (∀ l, o.callbacks k = some l → r.callbacks k = l) ∧
      (o.callbacks k = none → rank = 0 → r.callbacks k = [logging k, clock k]) ∧
      (o.callbacks k = none → rank ≠ 0 → r.callbacks k = []) := by
  unfold setupComponent at h
  cases hd : declare info stage with
  | error e => rw [hd] at h; cases h
  | ok ds =>
    rw [hd] at h
    dsimp only at h
    cases ho : o.order with
    | none => rw [ho] at h; cases h
    | some p =>
      rw [ho] at h
      dsimp only at h
      cases hc : buildChain p o.config o.factories with
      | none => rw [hc] at h; cases h
      | some c =>
        rw [hc] at h
        cases h
        refine ⟨⟨p, rfl, hc⟩, rfl, fun k => ⟨fun l hl => ?_, fun hl hr => ?_, fun hl hr => ?_⟩⟩
        · simp [callbacksFor, hl]
        · simp [callbacksFor, hl, hr]
        · simp [callbacksFor, hl, hr]

/-- The example problem of C51 can be set up. -/
example : NamesOk serialMeta ∧ ∃ ds, declare serialMeta
      (fun s => if s = "x_old" then [3] else [1, 2]) = .ok ds ∧ ds.length = 7 := by
  have hn : NamesOk serialMeta := by
    constructor <;> simp [serialMeta]
  refine ⟨hn, _, declare_ok.mpr ⟨?_, ?_, (namesOk_iff _).mpr hn, rfl⟩, rfl⟩
  · intro q hq hl s hs
    simp only [serialMeta, List.mem_cons, List.not_mem_nil, or_false] at hq
    rcases hq with rfl | rfl
    · cases hs; rfl
    · cases hs
  · intro q hq
    simp only [serialMeta, List.mem_cons, List.not_mem_nil, or_false] at hq
    subst hq
    exact ⟨"p_in", rfl, by simp⟩

/-- C76 is violated by a quantity that is called `time`: all tags of the stage problem are valid, but
`time_initial` is wanted twice and the setup raises. -/
theorem C76_time_quantity_violated : ∃ (P : Problem) (m : Meta),
    setup P 1 ["time"] [] = .ok [m] ∧
    ∀ stage, (∀ s, (stage s).length = 1) → declare m stage = .error (.duplicate "time_initial") := by
  refine ⟨⟨[⟨"t_old", .input, ["time", "step_input_var"], [1], [some [1]]⟩,
      ⟨"t_acc", .input, ["time", "accumulated_stage_var"], [1], [some [1]]⟩,
      ⟨"t_up", .output, ["time", "stage_output_var"], [1], [some [1]]⟩], false⟩,
    ⟨none, 1, 0, [⟨"time", ⟨[1], [1], true, false, 0, 1, 0, 1⟩, some "t_old", some "t_acc",
      some "t_up", none⟩], []⟩, by decide +kernel, fun stage hs => ?_⟩
  simp [declare, addVar, addQuantity, addInitial, initialValue, hs, bind, Except.bind]

/-- C76 is violated by an independent input that lives on another rank only: its metadata are
accepted, but the rank without the variable raises. -/
theorem C76_remote_independent_violated : ∃ (P : Problem) (m0 m1 : Meta),
    setup P 2 ["x"] ["p"] = .ok [m0, m1] ∧
    ∀ stage, (∀ s, (stage s).length = 1) → (∃ ds, declare m0 stage = .ok ds) ∧
      declare m1 stage = .error (.noVariable "p") := by
  let q : Quantity := ⟨"x", ⟨[1], [1], true, false, 0, 1, 0, 1⟩, none, none, some "x_up", none⟩
  refine ⟨⟨[⟨"p_in", .input, ["p", "time_independent_input_var"], [1], [some [1], none]⟩,
      ⟨"x_up", .output, ["x", "stage_output_var"], [1], [some [1], some [1]]⟩], false⟩,
    ⟨none, 1, 1, [q], [⟨"p", ⟨[1], [1], true, true, 0, 1, 0, 1⟩, none, none, none, some "p_in"⟩]⟩,
    ⟨none, 1, 0, [q], [⟨"p", ⟨[0], [1], false, true, 0, 0, 0, 0⟩, none, none, none, none⟩]⟩,
    by decide +kernel, fun stage hs => ⟨?_, ?_⟩⟩
  · simp [declare, addVar, addQuantity, addInitial, initialValue, hs, bind, Except.bind, q, pure,
      Except.pure, addIndependentInput]
  · simp [declare, addVar, addQuantity, addInitial, initialValue, bind, Except.bind, q, pure,
      Except.pure, addIndependentInput]

/-! ### C77: values and derivatives by name -/

variable {D : Type} {info : Meta}

/-- Arrays of the time integration agree with the inputs of the component, variable by variable. -/
structure InputsAgree (info : Meta) (x : Vec ℝ)
    (u : StartingValues ℝ info.arraySize info.independentSize) : Prop where
  time : u.initialTime = x "time_initial" 0
  values : ∀ q ∈ info.quantities, q.arr.isLocal = true → ∀ k < q.arr.shape.prod,
    ∀ i : Fin info.arraySize, i.1 = q.arr.start + k →
      u.initialValues i = x (q.name ++ "_initial") k
  independents : ∀ q ∈ info.independents, q.arr.isLocal = true → ∀ k < q.arr.shape.prod,
    ∀ i : Fin info.independentSize, i.1 = q.arr.start + k → u.independentInputs i = x q.name k

/-- Arrays of the time integration agree with the outputs of the component, variable by variable. -/
structure OutputsAgree (info : Meta) (x : Vec ℝ) (v : Outputs info.arraySize) : Prop where
  time : v.time = x "time_final" 0
  values : ∀ q ∈ info.quantities, q.arr.isLocal = true → ∀ k < q.arr.shape.prod,
    ∀ i : Fin info.arraySize, i.1 = q.arr.start + k → v.values i = x (q.name ++ "_final") k

theorem inputsOf_agree (h : info.Sound) (x : Vec ℝ) : InputsAgree info x (inputsOf info x) := by
  refine ⟨rfl, fun q hq hl k hk i hi => ?_, fun q hq hl k hk i hi => ?_⟩
  · change readNamed (fun q => q.name ++ "_initial") info.quantities x _ i.1 = _
    rw [hi, readNamed_at h.laid x _ hq hl hk]
  · change readNamed (fun q => q.name) info.independents x _ i.1 = _
    rw [hi, readNamed_at h.laidIndep x _ hq hl hk]

theorem outputsOf_agree (h : info.Sound) (x : Vec ℝ) : OutputsAgree info x (outputsOf info x) := by
  refine ⟨rfl, fun q hq hl k hk i hi => ?_⟩
  change readNamed (fun q => q.name ++ "_final") info.quantities x _ i.1 = _
  rw [hi, readNamed_at h.laid x _ hq hl hk]

theorem InputsAgree.unique (h : info.Sound) {x : Vec ℝ}
    {u v : StartingValues ℝ info.arraySize info.independentSize} (hu : InputsAgree info x u)
    (hv : InputsAgree info x v) : u = v := by
  obtain ⟨t, a, b⟩ := u
  obtain ⟨t', a', b'⟩ := v
  have e1 : t = t' := hu.time.trans hv.time.symm
  have e2 : a = a' := by
    funext i
    obtain ⟨q, hq, hl, k, hk, hi⟩ := laid_cover h.laid i.2
    exact (hu.values q hq hl k hk i hi).trans (hv.values q hq hl k hk i hi).symm
  have e3 : b = b' := by
    funext i
    obtain ⟨q, hq, hl, k, hk, hi⟩ := laid_cover h.laidIndep i.2
    exact (hu.independents q hq hl k hk i hi).trans (hv.independents q hq hl k hk i hi).symm
  rw [e1, e2, e3]

theorem OutputsAgree.unique (h : info.Sound) {x : Vec ℝ} {u v : Outputs info.arraySize}
    (hu : OutputsAgree info x u) (hv : OutputsAgree info x v) : u = v := by
  obtain ⟨t, a⟩ := u
  obtain ⟨t', a'⟩ := v
  have e1 : t = t' := hu.time.trans hv.time.symm
  have e2 : a = a' := by
    funext i
    obtain ⟨q, hq, hl, k, hk, hi⟩ := laid_cover h.laid i.2
    exact (hu.values q hq hl k hk i hi).trans (hv.values q hq hl k hk i hi).symm
  rw [e1, e2]

/-- Only the outputs of the component differ. -/
def OnlyOutputs (info : Meta) (y z : Vec ℝ) : Prop :=
  ∀ n, n ≠ "time_final" → (∀ q ∈ info.quantities, n ≠ q.name ++ "_final") → y n = z n

/-- Only the inputs of the component differ. -/
def OnlyInputs (info : Meta) (y z : Vec ℝ) : Prop :=
  ∀ n, n ≠ "time_initial" → (∀ q ∈ info.quantities, n ≠ q.name ++ "_initial") →
    (∀ q ∈ info.independents, n ≠ q.name) → y n = z n

theorem nodup_suffix {qs : List Quantity} (h : (qs.map Quantity.name).Nodup) (t : String) :
    (qs.map fun q => q.name ++ t).Nodup := by
  have : (qs.map fun q => q.name ++ t) = (qs.map Quantity.name).map (· ++ t) := by
    rw [List.map_map]; rfl
  rw [this]
  exact h.map fun a b h => (String.append_left_inj t).mp h

theorem writeOutputs_agree (h : info.Sound) (hn : NamesOk info) (v : Outputs info.arraySize)
    (x : Vec ℝ) : OutputsAgree info (writeOutputs info v x) v ∧
      OnlyOutputs info (writeOutputs info v x) x := by
  have t2 : "time_final" = "time" ++ "_final" := by decide
  refine ⟨⟨?_, fun q hq hl k hk i hi => ?_⟩, fun n h1 h2 => ?_⟩
  · simp [writeOutputs]
  · have hne : q.name ++ "_final" ≠ "time_final" := by
      rw [t2]
      exact fun h => hn.notTime q hq ((String.append_left_inj _).mp h)
    simp only [writeOutputs]
    rw [Function.update_of_ne hne]
    change _ = writeNamed (fun q => q.name ++ "_final") info.quantities (flat v.values) x
      ((fun q : Quantity => q.name ++ "_final") q) k
    rw [writeNamed_at (nodup_suffix hn.quantities _) hq, ← hi, flat_lt _ i.2]
  · simp only [writeOutputs]
    rw [Function.update_of_ne h1]
    refine writeNamed_other (nm := fun q => q.name ++ "_final") ?_
    rw [List.mem_map]
    rintro ⟨q, hq, rfl⟩
    exact h2 q hq rfl

theorem writeInputs_agree (h : info.Sound) (hn : NamesOk info)
    (v : StartingValues ℝ info.arraySize info.independentSize) (x : Vec ℝ) :
    InputsAgree info (writeInputs info v x) v ∧ OnlyInputs info (writeInputs info v x) x := by
  have t1 : "time_initial" = "time" ++ "_initial" := by decide
  refine ⟨⟨?_, fun q hq hl k hk i hi => ?_, fun q hq hl k hk i hi => ?_⟩, fun n h1 h2 h3 => ?_⟩
  · simp [writeInputs]
  · have hne : q.name ++ "_initial" ≠ "time_initial" := by
      rw [t1]
      exact fun h => hn.notTime q hq ((String.append_left_inj _).mp h)
    simp only [writeInputs]
    rw [Function.update_of_ne hne]
    change _ = writeNamed (fun q => q.name) info.independents (flat v.independentInputs)
      (writeNamed (fun q => q.name ++ "_initial") info.quantities (flat v.initialValues) x)
      ((fun q : Quantity => q.name ++ "_initial") q) k
    rw [writeNamed_other, writeNamed_at (nodup_suffix hn.quantities _) hq, ← hi, flat_lt _ i.2]
    rw [List.mem_map]
    rintro ⟨p, hp, he⟩
    exact (hn.apart p hp q hq).1 he
  · simp only [writeInputs]
    rw [Function.update_of_ne (hn.notTimes q hq).1]
    change _ = writeNamed (fun q => q.name) info.independents (flat v.independentInputs)
      (writeNamed (fun q => q.name ++ "_initial") info.quantities (flat v.initialValues) x)
      ((fun q : Quantity => q.name) q) k
    rw [writeNamed_at hn.independents hq, ← hi, flat_lt _ i.2]
  · simp only [writeInputs]
    rw [Function.update_of_ne h1]
    change writeNamed (fun q => q.name) info.independents (flat v.independentInputs)
      (writeNamed (fun q => q.name ++ "_initial") info.quantities (flat v.initialValues) x) n = _
    rw [writeNamed_other, writeNamed_other]
    · rw [List.mem_map]
      rintro ⟨q, hq, he⟩
      exact h2 q hq he.symm
    · rw [List.mem_map]
      rintro ⟨q, hq, he⟩
      exact h3 q hq he.symm

variable {B : Backend D (StartingValues ℝ info.arraySize info.independentSize)
    (Outputs info.arraySize)} {cur : D → StartingValues ℝ info.arraySize info.independentSize}
    {out : Vec ℝ} {opt : Options}

theorem declared_names {stage : String → List ℝ} {ds : List Decl}
    (h : declare info stage = .ok ds) : NamesOk info :=
  (namesOk_iff info).mp (declare_ok.mp h).2.2.1

/-- C77: for a component that was set up, `compute` is the time integration from the values of its
inputs (there is exactly one set of arrays that agrees with them), and its outputs are the result of
that, variable by variable; nothing else is written. Exceptions are the same. -/
theorem C77_compute {source : String → String} (hB : Built ⟨info, source⟩)
    {stage : String → List ℝ} {ds : List Decl} (hd : declare info stage = .ok ds) (ch : Choice)
    (fuel : ℕ) (w : World D (ch.Data D)) (x : Vec ℝ) :
    ∃! u, InputsAgree info x u ∧
      (compute (named info B cur out) opt (ch.ck (named info B cur out) opt) fuel w x).1 =
        (compute B opt (ch.ck B opt) fuel w u).1 ∧
      (∀ e, (compute B opt (ch.ck B opt) fuel w u).2 = .error e →
        (compute (named info B cur out) opt (ch.ck (named info B cur out) opt) fuel w x).2
          = .error e) ∧
      ∀ v, (compute B opt (ch.ck B opt) fuel w u).2 = .ok v → ∃ y,
        (compute (named info B cur out) opt (ch.ck (named info B cur out) opt) fuel w x).2 = .ok y ∧
        OutputsAgree info y v ∧ OnlyOutputs info y out := by
  have hs : info.Sound := built_sound hB
  rw [named_compute hs]
  refine ⟨inputsOf info x, ⟨inputsOf_agree hs x, rfl, fun e he => ?_, fun v hv => ?_⟩,
    fun u hu => hu.1.unique hs (inputsOf_agree hs x)⟩
  · dsimp only; rw [he]; rfl
  · dsimp only
    rw [hv]
    exact ⟨_, rfl, writeOutputs_agree hs (declared_names hd) v out⟩

/-- C77: the forward product of a component that was set up is the forward product of the time
integration with the seeds of its inputs, variable by variable. -/
theorem C77_forward {source : String → String} (hB : Built ⟨info, source⟩)
    {stage : String → List ℝ} {ds : List Decl} (hd : declare info stage = .ok ds) {σ : Type}
    (fuel : ℕ) (w : World D σ) (x dx dO : Vec ℝ)
    {u du : StartingValues ℝ info.arraySize info.independentSize} {o : Outputs info.arraySize}
    (hu : InputsAgree info x u) (hdu : InputsAgree info dx du) (ho : OutputsAgree info dO o) :
    (fwd (named info B cur out) opt fuel w x dx dO).1 = (fwd B opt fuel w u du o).1 ∧
    (∀ e, (fwd B opt fuel w u du o).2 = .error e →
      (fwd (named info B cur out) opt fuel w x dx dO).2 = .error e) ∧
    ∀ v, (fwd B opt fuel w u du o).2 = .ok v → ∃ y,
      (fwd (named info B cur out) opt fuel w x dx dO).2 = .ok y ∧ OutputsAgree info y v ∧
      OnlyOutputs info y dO := by
  have hs : info.Sound := built_sound hB
  rw [named_fwd hs, ← hu.unique hs (inputsOf_agree hs x), ← hdu.unique hs (inputsOf_agree hs dx),
    ← ho.unique hs (outputsOf_agree hs dO)]
  refine ⟨rfl, fun e he => ?_, fun v hv => ?_⟩
  · dsimp only; rw [he]; rfl
  · dsimp only
    rw [hv]
    exact ⟨_, rfl, writeOutputs_agree hs (declared_names hd) v dO⟩

/-- C77: the reverse product of a component that was set up is the reverse product of the time
integration with the seeds of its outputs, variable by variable. -/
theorem C77_reverse {source : String → String} (hB : Built ⟨info, source⟩)
    {stage : String → List ℝ} {ds : List Decl} (hd : declare info stage = .ok ds) (ch : Choice)
    (fuel : ℕ) (w : World D (ch.Data D)) (x dO dI : Vec ℝ)
    {u dIu : StartingValues ℝ info.arraySize info.independentSize} {o : Outputs info.arraySize}
    (hu : InputsAgree info x u) (ho : OutputsAgree info dO o) (hdI : InputsAgree info dI dIu) :
    (rev (named info B cur out) opt (ch.ck (named info B cur out) opt) fuel w x dO dI).1 =
      (rev B opt (ch.ck B opt) fuel w u o dIu).1 ∧
    (∀ e, (rev B opt (ch.ck B opt) fuel w u o dIu).2 = .error e →
      (rev (named info B cur out) opt (ch.ck (named info B cur out) opt) fuel w x dO dI).2
        = .error e) ∧
    ∀ g, (rev B opt (ch.ck B opt) fuel w u o dIu).2 = .ok g → ∃ y,
      (rev (named info B cur out) opt (ch.ck (named info B cur out) opt) fuel w x dO dI).2 = .ok y ∧
      InputsAgree info y g ∧ OnlyInputs info y dI := by
  have hs : info.Sound := built_sound hB
  rw [named_rev hs, ← hu.unique hs (inputsOf_agree hs x), ← hdI.unique hs (inputsOf_agree hs dI),
    ← ho.unique hs (outputsOf_agree hs dO)]
  refine ⟨rfl, fun e he => ?_, fun g hg => ?_⟩
  · dsimp only; rw [he]; rfl
  · dsimp only
    rw [hg]
    exact ⟨_, rfl, writeInputs_agree hs (declared_names hd) g dI⟩

/-! #### Consequences in terms of the variables -/

/-- Sum over the entries of the variables with a suffix. -/
def sumOver (qs : List Quantity) (nm : Quantity → String) (x y : Vec ℝ) : ℝ :=
  ((qs.filter fun q => q.arr.isLocal).map fun q =>
    ∑ k ∈ range q.arr.shape.prod, x (nm q) k * y (nm q) k).sum

theorem sum_laid (f : ℕ → ℝ) : ∀ (qs : List Quantity) (s s' : ℕ), Laid s qs s' →
    ∑ i ∈ Ico s s', f i = ((qs.filter fun q => q.arr.isLocal).map fun q =>
      ∑ k ∈ range q.arr.shape.prod, f (q.arr.start + k)).sum
  | [], s, s', h => by
      have e : s = s' := h
      simp [e]
  | q :: qs, s, s', h => by
      rcases h with ⟨h1, h2, h3, h4⟩ | ⟨h1, h2, h3, h4⟩
      · rw [List.filter_cons_of_pos (by simpa using h1), List.map_cons, List.sum_cons,
          ← sum_laid f qs _ _ h4, ← sum_Ico_consecutive f (n := q.arr.stop) (by omega) h4.le, h3,
          sum_Ico_eq_sum_range, h2]
        simp
      · rw [List.filter_cons_of_neg (by simp [h1]), sum_laid f qs _ _ h4]

theorem dot_names {qs : List Quantity} {n : ℕ} (h : Laid 0 qs n) (nm : Quantity → String)
    {x y : Vec ℝ} {a b : Fin n → ℝ}
    (ha : ∀ q ∈ qs, q.arr.isLocal = true → ∀ k < q.arr.shape.prod, ∀ i : Fin n,
      i.1 = q.arr.start + k → a i = x (nm q) k)
    (hb : ∀ q ∈ qs, q.arr.isLocal = true → ∀ k < q.arr.shape.prod, ∀ i : Fin n,
      i.1 = q.arr.start + k → b i = y (nm q) k) : dot a b = sumOver qs nm x y := by
  have e : dot a b = ∑ i ∈ Ico 0 n, flat a i * flat b i := by
    rw [← range_eq_Ico, Finset.sum_range, dot]
    refine sum_congr rfl fun i _ => ?_
    rw [flat_lt a i.2, flat_lt b i.2]
  rw [e, sum_laid _ qs _ _ h, sumOver]
  congr 1
  refine List.map_congr_left fun q hq => sum_congr rfl fun k hk => ?_
  rw [List.mem_filter] at hq
  have hk := mem_range.mp hk
  have hlt : q.arr.start + k < n := by
    rcases Laid.bound h q hq.1 with ⟨-, -, h3, h4⟩ | ⟨h0, -⟩
    · omega
    · rw [h0] at hq; simp at hq
  rw [flat_lt a hlt, flat_lt b hlt, ha q hq.1 hq.2 k hk ⟨_, hlt⟩ rfl,
    hb q hq.1 hq.2 k hk ⟨_, hlt⟩ rfl]

/-- C77: without steps every final value is the initial value of the same quantity. -/
theorem C77_no_steps {s o l : ℕ} {source : String → String} (hB : Built ⟨info, source⟩)
    {stage : String → List ℝ} {ds : List Decl} (hd : declare info stage = .ok ds)
    (E : Env s info.arraySize info.independentSize o l) (hc : opt.crit = .steps 0)
    {cur : RKState ℝ s info.arraySize info.independentSize o l →
      StartingValues ℝ info.arraySize info.independentSize} (ch : Choice) {fuel : ℕ} (hf : 0 < fuel)
    (w : World (RKState ℝ s info.arraySize info.independentSize o l) (ch.Data _)) (x : Vec ℝ) :
    ∃ y, (compute (named info (rkBackend E) cur out) opt
        (ch.ck (named info (rkBackend E) cur out) opt) fuel w x).2 = .ok y ∧
      y "time_final" 0 = x "time_initial" 0 ∧
      ∀ q ∈ info.quantities, q.arr.isLocal = true → ∀ k < q.arr.shape.prod,
        y (q.name ++ "_final") k = x (q.name ++ "_initial") k := by
  have hs : info.Sound := built_sound hB
  obtain ⟨u, ⟨hu, -, -, hok⟩, -⟩ := C77_compute (B := rkBackend E) (cur := cur) (out := out)
    (opt := opt) hB hd ch fuel w x
  have hcomp : (compute (rkBackend E) opt (ch.ck (rkBackend E) opt) fuel w u).2
      = .ok ⟨u.initialTime, u.initialValues⟩ := by
    obtain ⟨f, rfl⟩ : ∃ f, fuel = f + 1 := ⟨fuel - 1, by omega⟩
    have e := choice_forward (B := rkBackend E) (opt := opt) ch (f + 1)
      ((ch.ck (rkBackend E) opt).create w.ck) w.ctrl
      (startOf (rkBackend E) opt w.ctrl w.tis.disc u)
    simp only [compute, resetErrorControl]
    simp only [startOf] at e
    rw [e]
    simp only [noForward, hc, Crit.finished, le_refl, if_true]
    rfl
  obtain ⟨y, hy, ha, -⟩ := hok _ hcomp
  refine ⟨y, hy, ha.time.symm.trans hu.time, fun q hq hl k hk => ?_⟩
  have hlt : q.arr.start + k < info.arraySize := by
    rcases Laid.bound hs.laid q hq with ⟨-, -, h3, h4⟩ | ⟨h0, -⟩
    · omega
    · rw [h0] at hl; cases hl
  exact (ha.values q hq hl k hk ⟨_, hlt⟩ rfl).symm.trans (hu.values q hq hl k hk ⟨_, hlt⟩ rfl)

/-- From arrays to variables, for any backend. -/
theorem transpose_names {source : String → String} (hB : Built ⟨info, source⟩)
    {stage : String → List ℝ} {ds : List Decl} (hd : declare info stage = .ok ds)
    {σ : Type} {fuel fuel' fuel'' : ℕ} {wf wf' : World D σ}
    {w0 wr wr' : World D (Choice.all.Data D)} {x dx dI g dO dO0 v y : Vec ℝ}
    (hcomp : compute (named info B cur out) opt
      (Choice.all.ck (named info B cur out) opt) fuel w0 x = (wr, .ok y))
    (hf : fwd (named info B cur out) opt fuel' wf x dx dO0 = (wf', .ok v))
    (hr : rev (named info B cur out) opt
      (Choice.all.ck (named info B cur out) opt) fuel'' wr x dO dI = (wr', .ok g))
    (key : ∀ {i di dI' g' : StartingValues ℝ info.arraySize info.independentSize}
      {dO' o' v' y' : Outputs info.arraySize},
      compute B opt (allCk B opt) fuel w0 i = (wr, .ok y') →
      fwd B opt fuel' wf i di o' = (wf', .ok v') →
      rev B opt (allCk B opt) fuel'' wr i dO' dI' = (wr', .ok g') →
      dot dO'.values v'.values + dO'.time * (v'.time - o'.time)
        = dot g'.initialValues di.initialValues + (g'.initialTime - dI'.initialTime) * di.initialTime
          + dot g'.independentInputs di.independentInputs) :
    sumOver info.quantities (fun q => q.name ++ "_final") dO v +
        dO "time_final" 0 * (v "time_final" 0 - dO0 "time_final" 0) =
      sumOver info.quantities (fun q => q.name ++ "_initial") g dx +
        (g "time_initial" 0 - dI "time_initial" 0) * dx "time_initial" 0 +
        sumOver info.independents (fun q => q.name) g dx := by
  have hs : info.Sound := built_sound hB
  have hn := declared_names hd
  rw [named_compute hs] at hcomp
  rw [named_fwd hs] at hf
  rw [named_rev hs] at hr
  simp only [Prod.mk.injEq] at hcomp hf hr
  obtain ⟨hc1, hc2⟩ := hcomp
  obtain ⟨hf1, hf2⟩ := hf
  obtain ⟨hr1, hr2⟩ := hr
  cases hc3 : (compute B opt (Choice.all.ck B opt) fuel w0 (inputsOf info x)).2 with
  | error e => rw [hc3] at hc2; cases hc2
  | ok y' =>
  cases hf3 : (fwd B opt fuel' wf (inputsOf info x) (inputsOf info dx) (outputsOf info dO0)).2 with
  | error e => rw [hf3] at hf2; cases hf2
  | ok v' =>
  cases hr3 : (rev B opt (Choice.all.ck B opt) fuel'' wr (inputsOf info x)
    (outputsOf info dO) (inputsOf info dI)).2 with
  | error e => rw [hr3] at hr2; cases hr2
  | ok g' =>
  rw [hf3] at hf2
  rw [hr3] at hr2
  have hv : v = writeOutputs info v' dO0 := by injection hf2 with h; exact h.symm
  have hg : g = writeInputs info g' dI := by injection hr2 with h; exact h.symm
  have hva := (writeOutputs_agree hs hn v' dO0).1
  have hga := (writeInputs_agree hs hn g' dI).1
  rw [← hv] at hva
  rw [← hg] at hga
  have key := key (Prod.ext hc1 hc3) (Prod.ext hf1 hf3) (Prod.ext hr1 hr3)
  have hdO := outputsOf_agree hs dO
  have hdO0 := outputsOf_agree hs dO0
  have hdx := inputsOf_agree hs dx
  have hdI := inputsOf_agree hs dI
  rw [dot_names hs.laid (fun q => q.name ++ "_final") hdO.values hva.values,
    dot_names hs.laid (fun q => q.name ++ "_initial") hga.values hdx.values,
    dot_names hs.laidIndep (fun q => q.name) hga.independents hdx.independents,
    hdO.time, hva.time, hdO0.time, hga.time, hdx.time, hdI.time] at key
  exact key

/-- C77: the reverse product is the transpose of the forward product in terms of the variables of
the component: the products of seeds and derivatives, summed over all entries of all variables,
agree (plain schemes, fixed or adaptive steps, products after `compute` at the same inputs). -/
theorem C77_transpose {s o l : ℕ} {source : String → String} (hB : Built ⟨info, source⟩)
    {stage : String → List ℝ} {ds : List Decl} (hd : declare info stage = .ok ds)
    (E : Env s info.arraySize info.independentSize o l) (hz : NoStageState E.ode)
    (hadj : ∀ lin h i, AdjointPair E.ode lin h (E.T.A i i))
    {cur : RKState ℝ s info.arraySize info.independentSize o l →
      StartingValues ℝ info.arraySize info.independentSize}
    {σ : Type} {fuel fuel' fuel'' : ℕ}
    {wf wf' : World (RKState ℝ s info.arraySize info.independentSize o l) σ}
    {w0 wr wr' : World (RKState ℝ s info.arraySize info.independentSize o l) (Choice.all.Data _)}
    {x dx dI g dO dO0 v y : Vec ℝ} (hctrl : wf.ctrl = w0.ctrl)
    (hcomp : compute (named info (rkBackend E) cur out) opt
      (Choice.all.ck (named info (rkBackend E) cur out) opt) fuel w0 x = (wr, .ok y))
    (hf : fwd (named info (rkBackend E) cur out) opt fuel' wf x dx dO0 = (wf', .ok v))
    (hr : rev (named info (rkBackend E) cur out) opt
      (Choice.all.ck (named info (rkBackend E) cur out) opt) fuel'' wr x dO dI = (wr', .ok g)) :
    sumOver info.quantities (fun q => q.name ++ "_final") dO v +
        dO "time_final" 0 * (v "time_final" 0 - dO0 "time_final" 0) =
      sumOver info.quantities (fun q => q.name ++ "_initial") g dx +
        (g "time_initial" 0 - dI "time_initial" 0) * dx "time_initial" 0 +
        sumOver info.independents (fun q => q.name) g dx :=
  transpose_names hB hd hcomp hf hr fun h1 h2 h3 =>
    C14_reverse_after_compute_is_transpose_partial E hz hadj hctrl h1 h2 h3

/-- C77: the reverse product is the transpose of the forward product in terms of the variables of
the component: the products of seeds and derivatives, summed over all entries of all variables,
agree (embedded schemes, fixed or adaptive steps, products after `compute` at the same inputs). -/
theorem C77_transpose_embedded {s o l : ℕ} {source : String → String} (hB : Built ⟨info, source⟩)
    {stage : String → List ℝ} {ds : List Decl} (hd : declare info stage = .ok ds)
    (E : Env s info.arraySize info.independentSize o l) (bhat : Fin s → ℝ) (hz : NoStageState E.ode)
    (hadj : ∀ lin h i, AdjointPair E.ode lin h (E.T.A i i))
    {cur : EmbRKState ℝ s info.arraySize info.independentSize o l →
      StartingValues ℝ info.arraySize info.independentSize}
    {σ : Type} {fuel fuel' fuel'' : ℕ}
    {wf wf' : World (EmbRKState ℝ s info.arraySize info.independentSize o l) σ}
    {w0 wr wr' : World (EmbRKState ℝ s info.arraySize info.independentSize o l) (Choice.all.Data _)}
    {x dx dI g dO dO0 v y : Vec ℝ} (hctrl : wf.ctrl = w0.ctrl)
    (hcomp : compute (named info (embBackend E bhat) cur out) opt
      (Choice.all.ck (named info (embBackend E bhat) cur out) opt) fuel w0 x = (wr, .ok y))
    (hf : fwd (named info (embBackend E bhat) cur out) opt fuel' wf x dx dO0 = (wf', .ok v))
    (hr : rev (named info (embBackend E bhat) cur out) opt
      (Choice.all.ck (named info (embBackend E bhat) cur out) opt) fuel'' wr x dO dI = (wr', .ok g)) :
    sumOver info.quantities (fun q => q.name ++ "_final") dO v +
        dO "time_final" 0 * (v "time_final" 0 - dO0 "time_final" 0) =
      sumOver info.quantities (fun q => q.name ++ "_initial") g dx +
        (g "time_initial" 0 - dI "time_initial" 0) * dx "time_initial" 0 +
        sumOver info.independents (fun q => q.name) g dx :=
  transpose_names hB hd hcomp hf hr fun h1 h2 h3 =>
    C14_embedded_after_compute_is_transpose_partial E bhat hz hadj hctrl h1 h2 h3

/-- Inputs of the component moved along a direction. -/
def along (x dx : Vec ℝ) (ε : ℝ) : Vec ℝ := fun n k => x n k + ε * dx n k

/-- C77: the forward product holds the directional derivatives of the outputs with respect to the
inputs, variable by variable: fixed steps, differentiable stage problem, `compute` and the product
with any history of the component. -/
theorem C77_directional {s o l : ℕ} {source : String → String} (hB : Built ⟨info, source⟩)
    {stage : String → List ℝ} {ds : List Decl} (hd : declare info stage = .ok ds)
    {E : Env s info.arraySize info.independentSize o l} (C : RKCore B E) {dt : ℝ} {N : ℕ}
    (hstep : ∀ d, ∃ e, B.step d (fin dt) = .ok e) (hdiff : ∀ i, DifferentiableBackend E.ode dt (E.T.A i i))
    (ha : opt.adaptive = false) (hc : opt.crit = .steps N) (hi : opt.initialStep = fin dt)
    (hl : opt.recursionLimit ≠ 0)
    {ch : Choice} {σ : Type} (w : World D (ch.Data D)) (w2 : World D σ) {fuel : ℕ} (hf : N < fuel)
    (x dx dO : Vec ℝ) :
    ∃ (y : ℝ → Vec ℝ) (v : Vec ℝ),
      (∀ ε, (compute (named info B cur out) opt
        (ch.ck (named info B cur out) opt) fuel w (along x dx ε)).2 = .ok (y ε)) ∧
      (fwd (named info B cur out) opt fuel w2 x dx dO).2 = .ok v ∧
      HasDerivAt (fun ε => y ε "time_final" 0) (v "time_final" 0 - dO "time_final" 0) 0 ∧
      ∀ q ∈ info.quantities, q.arr.isLocal = true → ∀ k < q.arr.shape.prod,
        HasDerivAt (fun ε => y ε (q.name ++ "_final") k) (v (q.name ++ "_final") k) 0 := by
  have hs : info.Sound := built_sound hB
  have hn := declared_names hd
  obtain ⟨Φ, h1, h2⟩ := C15_forward_mode_is_derivative C (opt := opt) (ch := ch) hstep hdiff ha hc hi hl w w2 hf
  let pub : Vec ℝ → Pub info.arraySize info.independentSize := fun z =>
    ((inputsOf info z).initialValues, (inputsOf info z).independentInputs,
      (inputsOf info z).initialTime)
  have hpub : ∀ z, inputsOf info z = inOf (pub z) := fun z => rfl
  have hlin : ∀ ε, pub (along x dx ε) = pub x + ε • pub dx := by
    intro ε
    refine Prod.ext ?_ (Prod.ext ?_ ?_)
    · funext i
      obtain ⟨q, hq, hql, k, hk, hik⟩ := laid_cover hs.laid i.2
      change (inputsOf info _).initialValues i =
        (inputsOf info x).initialValues i + ε * (inputsOf info dx).initialValues i
      rw [(inputsOf_agree hs _).values q hq hql k hk i hik,
        (inputsOf_agree hs _).values q hq hql k hk i hik,
        (inputsOf_agree hs _).values q hq hql k hk i hik]
      rfl
    · funext i
      obtain ⟨q, hq, hql, k, hk, hik⟩ := laid_cover hs.laidIndep i.2
      change (inputsOf info _).independentInputs i =
        (inputsOf info x).independentInputs i + ε * (inputsOf info dx).independentInputs i
      rw [(inputsOf_agree hs _).independents q hq hql k hk i hik,
        (inputsOf_agree hs _).independents q hq hql k hk i hik,
        (inputsOf_agree hs _).independents q hq hql k hk i hik]
      rfl
    · rfl
  obtain ⟨L, hL, hfwd⟩ := h2 (pub x)
  choose V hV hVΦ using h1
  have hline : HasDerivAt (fun ε : ℝ => Φ (pub x + ε • pub dx)) (L (pub dx)) 0 := by
    have hline0 : HasDerivAt (fun ε : ℝ => pub x + ε • pub dx) (pub dx) 0 := by
      exact ((hasDerivAt_const (0 : ℝ) (pub x)).add
        ((hasDerivAt_id (0 : ℝ)).smul_const (pub dx))).congr_deriv (by simp)
    have e : pub x + (0 : ℝ) • pub dx = pub x := by simp
    exact HasFDerivAt.comp_hasDerivAt (0 : ℝ) (by rw [e]; exact hL) hline0
  refine ⟨fun ε => writeOutputs info (V (pub (along x dx ε))) out,
    writeOutputs info ⟨(outputsOf info dO).time + (L (pub dx)).2, (L (pub dx)).1⟩ dO,
    fun ε => ?_, ?_, ?_, fun q hq hql k hk => ?_⟩
  · rw [named_compute hs]
    dsimp only
    rw [hpub, hV]
    rfl
  · rw [named_fwd hs]
    dsimp only
    rw [hpub, hpub, hfwd]
    rfl
  · have e : ∀ ε : ℝ, writeOutputs info (V (pub (along x dx ε))) out "time_final" 0 =
        (Φ (pub x + ε • pub dx)).2 := by
      intro ε
      rw [← (writeOutputs_agree hs hn _ out).1.time, ← hlin, ← hVΦ]
      rfl
    simp only [e]
    rw [← (writeOutputs_agree hs hn _ dO).1.time, ← (outputsOf_agree hs dO).time]
    have := ((ContinuousLinearMap.snd ℝ (Fin info.arraySize → ℝ) ℝ).hasFDerivAt).comp_hasDerivAt
      (0 : ℝ) hline
    simpa [Function.comp_def] using this
  · have hlt : q.arr.start + k < info.arraySize := by
      rcases Laid.bound hs.laid q hq with ⟨-, -, h3, h4⟩ | ⟨h0, -⟩
      · omega
      · rw [h0] at hql; cases hql
    have e : ∀ ε : ℝ, writeOutputs info (V (pub (along x dx ε))) out (q.name ++ "_final") k =
        (Φ (pub x + ε • pub dx)).1 ⟨_, hlt⟩ := by
      intro ε
      rw [← (writeOutputs_agree hs hn _ out).1.values q hq hql k hk ⟨_, hlt⟩ rfl, ← hlin, ← hVΦ]
      rfl
    simp only [e]
    rw [← (writeOutputs_agree hs hn _ dO).1.values q hq hql k hk ⟨_, hlt⟩ rfl]
    have := ((ContinuousLinearMap.fst ℝ (Fin info.arraySize → ℝ) ℝ).hasFDerivAt).comp_hasDerivAt
      (0 : ℝ) hline
    exact hasDerivAt_pi.mp this ⟨_, hlt⟩

/-! #### An example -/

/-- One quantity `x` and one independent input `p`, both of size one. -/
abbrev oneMeta : Meta :=
  ⟨none, 1, 1,
    [⟨"x", ⟨[1], [1], true, false, 0, 1, 0, 1⟩, some "x_old", some "x_acc", some "x_up", none⟩],
    [⟨"p", ⟨[1], [1], true, false, 0, 1, 0, 1⟩, none, none, none, some "p_in"⟩]⟩

theorem one_built : Built ⟨oneMeta, id⟩ :=
  ⟨⟨[⟨"x_old", .input, ["x", "step_input_var"], [1], [some [1]]⟩,
      ⟨"x_acc", .input, ["x", "accumulated_stage_var"], [1], [some [1]]⟩,
      ⟨"p_in", .input, ["p", "time_independent_input_var"], [1], [some [1]]⟩,
      ⟨"x_up", .output, ["x", "stage_output_var"], [1], [some [1]]⟩], false⟩,
    1, ["x"], ["p"], [oneMeta], 0, by decide +kernel, rfl⟩

theorem one_declared : ∃ ds, declare oneMeta (fun _ => [3]) = .ok ds := by
  refine ⟨_, declare_ok.mpr ⟨?_, ?_, (namesOk_iff _).mpr (by constructor <;> simp), rfl⟩⟩
  · intro q hq hl s hs
    simp only [List.mem_cons, List.not_mem_nil, or_false] at hq
    subst hq
    rfl
  · intro q hq
    simp only [List.mem_cons, List.not_mem_nil, or_false] at hq
    subst hq
    exact ⟨"p_in", rfl, rfl⟩

/-- Setup with two nested controllers, callbacks given for `compute` only, on the first rank. -/
example : ∃ r, setupComponent oneMeta (fun _ => [3])
      ⟨true, some 1, Config.default, [integral, pseudo],
        fun k => if k = .compute then some [7] else none⟩ 0 (fun _ => 1) (fun _ => 2) = .ok r ∧
    r.callbacks .compute = [7] ∧ r.callbacks .rev = [1, 2] := by
  obtain ⟨ds, hd⟩ := one_declared
  refine ⟨_, by simp only [setupComponent, hd, buildChain]; rfl, ?_, ?_⟩ <;> simp [callbacksFor]

theorem along_zero (x dx : Vec ℝ) : along x dx 0 = x := by
  funext n k
  simp [along]

theorem one_differentiable (i : Fin 1) :
    DifferentiableBackend Ex.env.ode (1 / 2) (Ex.env.T.A i i) := by
  intro z0
  let F : InSpace 1 1 →ₗ[ℝ] (Fin 1 → ℝ) :=
    { toFun := fun d x => (d.2.2.1 x + d.2.2.2 - d.1 x - 1 / 2 * d.2.1 x)
        / (1 + 1 / 2 * Integrator.Ex.env.T.A i i)
      map_add' := fun u v => by funext x; simp only [Prod.fst_add, Prod.snd_add, Pi.add_apply]; ring
      map_smul' := fun c u => by
        funext x
        simp only [Prod.smul_fst, Prod.smul_snd, Pi.smul_apply, smul_eq_mul, RingHom.id_apply]
        ring }
  exact ⟨LinearMap.toContinuousLinearMap F,
    (LinearMap.toContinuousLinearMap F).hasFDerivAt, fun d => rfl⟩

/-- Three Euler steps for `x' = -x + p + t`: the component computes, its forward product holds the
directional derivatives, and its reverse product is the transpose. -/
example (x dx dO dI z : Vec ℝ) (cur : RKState ℝ 1 1 1 0 0 → StartingValues ℝ 1 1) :
    let B := named oneMeta (rkBackend Ex.env) cur z
    ∃ (y : ℝ → Vec ℝ) (v : Vec ℝ) (wr wr' : World (RKState ℝ 1 1 1 0 0) (Choice.all.Data _))
        (g : Vec ℝ),
      (∀ ε, (compute B Ex.opt3 (Choice.all.ck B Ex.opt3) 4 (Ex.fresh Ex.opt3 .all)
        (along x dx ε)).2 = .ok (y ε)) ∧
      HasDerivAt (fun ε => y ε "x_final" 0) (v "x_final" 0) 0 ∧
      compute B Ex.opt3 (Choice.all.ck B Ex.opt3) 4 (Ex.fresh Ex.opt3 .all) x = (wr, .ok (y 0)) ∧
      rev B Ex.opt3 (Choice.all.ck B Ex.opt3) 4 wr x dO dI = (wr', .ok g) ∧
      dO "x_final" 0 * v "x_final" 0 + dO "time_final" 0 * (v "time_final" 0 - dO "time_final" 0) =
        g "x_initial" 0 * dx "x_initial" 0 +
        (g "time_initial" 0 - dI "time_initial" 0) * dx "time_initial" 0 + g "p" 0 * dx "p" 0 := by
  intro B
  obtain ⟨ds, hd⟩ := one_declared
  have hs : Meta.Sound oneMeta := built_sound one_built
  obtain ⟨y, v, h1, h2, -, h4⟩ := C77_directional (info := oneMeta) (out := z) (opt := Ex.opt3)
    one_built hd (rkCore Ex.env) (dt := 1 / 2) (N := 3) (fun d => ⟨_, rfl⟩) one_differentiable rfl rfl rfl
    (by simp [Ex.opt3]) (cur := cur) (ch := .all) (Ex.fresh Ex.opt3 .all) (Ex.fresh Ex.opt3 .all)
    (fuel := 4) (by norm_num) x dx dO
  have hc := h1 0
  rw [along_zero] at hc
  let wr := (compute B Ex.opt3 (Choice.all.ck B Ex.opt3) 4 (Ex.fresh Ex.opt3 .all) x).1
  have hcomp : compute B Ex.opt3 (Choice.all.ck B Ex.opt3) 4 (Ex.fresh Ex.opt3 .all) x
    = (wr, .ok (y 0)) := Prod.ext rfl hc
  obtain ⟨wr', g, hr⟩ : ∃ wr' g,
      rev B Ex.opt3 (Choice.all.ck B Ex.opt3) 4 wr x dO dI = (wr', .ok g) := by
    obtain ⟨tr, htr, -, -, -, -, -, hca, hp⟩ := compute_run (ch := .all) hcomp
    have hok : cacheOk B wr x = true := by
      simp only [cacheOk, hca]
      simp [B, named, rkBackend, rkCacheHit, rkLoad, readInputs_old hs]
    simp only [rev, revPrep, hok, if_true, allCk, Choice.ck]
    exact ⟨_, _, rfl⟩
  refine ⟨y, v, wr, wr', g, h1, h4 _ (List.mem_singleton_self _) rfl 0 (by decide), hcomp, hr, ?_⟩
  have := C77_transpose (info := oneMeta) (out := z) one_built hd Ex.env Ex.env_noStageState
    (fun lin h i => Ex.linOde_adjoint _ _ _) (cur := cur)
    (wf := Ex.fresh Ex.opt3 .all) rfl hcomp (Prod.ext rfl h2) hr
  simpa [sumOver] using this

end Verif.Props
