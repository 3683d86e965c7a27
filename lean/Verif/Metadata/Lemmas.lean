/-
Helper lemmas about the metadata extraction: the folds, the running index, the rank tables.
-/
import Verif.Metadata.Model
import Mathlib.Data.List.Forall2
import Mathlib.Algebra.Order.BigOperators.Group.List
import Mathlib.Tactic.Linarith
import Mathlib.Tactic.SplitIfs

namespace Verif.Metadata

/-! ### Folds in `Except` -/

theorem foldlM_cons_ok {α β ε : Type} {f : β → α → Except ε β} {a : α} {l : List α} {b c : β}
    (h : (a :: l).foldlM f b = .ok c) : ∃ b', f b a = .ok b' ∧ l.foldlM f b' = .ok c := by
  rw [List.foldlM_cons] at h
  cases hb : f b a with
  | error e => rw [hb] at h; cases h
  | ok b' => rw [hb] at h; exact ⟨b', rfl, h⟩

theorem foldlM_cons_error {α β ε : Type} {f : β → α → Except ε β} {a : α} {l : List α} {b : β}
    {e : ε} (h : (a :: l).foldlM f b = .error e) :
    f b a = .error e ∨ ∃ b', f b a = .ok b' ∧ l.foldlM f b' = .error e := by
  rw [List.foldlM_cons] at h
  cases hb : f b a with
  | error e' => rw [hb] at h; left; exact h
  | ok b' => rw [hb] at h; right; exact ⟨b', rfl, h⟩

theorem mapM_ok {α β ε : Type} {f : α → Except ε β} :
    ∀ {l : List α} {r : List β}, l.mapM f = .ok r → List.Forall₂ (fun a b => f a = .ok b) l r
  | [], r, h => by
      rw [List.mapM_nil] at h
      cases h
      exact .nil
  | a :: l, r, h => by
      rw [List.mapM_cons] at h
      cases ha : f a with
      | error e => rw [ha] at h; cases h
      | ok b =>
        rw [ha] at h
        cases hl : l.mapM f with
        | error e => rw [hl] at h; cases h
        | ok r' =>
          rw [hl] at h
          cases h
          exact .cons ha (mapM_ok hl)

theorem forall2_getElem? {α β : Type} {R : α → β → Prop} :
    ∀ {l : List α} {r : List β}, List.Forall₂ R l r → ∀ (i : ℕ) (b : β), r[i]? = some b →
      ∃ a, l[i]? = some a ∧ R a b
  | _, _, .nil, i, b, h => by simp at h
  | _, _, .cons (a := a) hab hl, 0, b, h => by
      simp only [List.getElem?_cons_zero, Option.some.injEq] at h
      subst h
      exact ⟨a, rfl, hab⟩
  | _, _, .cons hab hl, i + 1, b, h => by
      simp only [List.getElem?_cons_succ] at h ⊢
      exact forall2_getElem? hl i b h

/-! ### Queries -/

theorem mem_ioMetadata_single {P : Problem} {io : Option IOType} {q : String} {r : ℕ} {v : Var} :
    v ∈ ioMetadata P io [q] (some r) ↔
      v ∈ P.vars ∧ (∀ t, io = some t → v.io = t) ∧ q ∈ v.tags ∧ (v.shapeAt r).isSome = true := by
  unfold ioMetadata
  cases io <;> simp [List.mem_filter, and_assoc]

theorem mem_ioMetadata_none {P : Problem} {io : IOType} {l : List String} {v : Var} :
    v ∈ ioMetadata P (some io) l none ↔
      v ∈ P.vars ∧ v.io = io ∧
        ((P.emptyTagsMatchAll = true ∧ l = []) ∨ ∃ t ∈ l, t ∈ v.tags) := by
  unfold ioMetadata
  simp [List.mem_filter]

theorem mem_ioMetadata_some {P : Problem} {io : IOType} {l : List String} {r : ℕ} {v : Var} :
    v ∈ ioMetadata P (some io) l (some r) ↔
      v ∈ ioMetadata P (some io) l none ∧ (v.shapeAt r).isSome = true := by
  unfold ioMetadata
  simp [List.mem_filter, and_assoc]

/-! ### Variables of one quantity -/

/-- A variable is counted as stage output. -/
def isOut (v : Var) : Bool := v.tags.contains "stage_output_var"
/-- A variable is counted as step input: the branch `elif` comes second. -/
def isStep (v : Var) : Bool := !isOut v && v.tags.contains "step_input_var"
/-- A variable is counted as accumulated stage: third branch. -/
def isAcc (v : Var) : Bool :=
  !isOut v && !v.tags.contains "step_input_var" && v.tags.contains "accumulated_stage_var"

theorem createLocal_ok {P : Problem} {r a b : ℕ} {v : Var} {s : List ℕ} {m : ArrayMeta}
    (h : createLocal P r a b v s = .ok m) :
    m.shape = s ∧ m.globalShape = v.globalShape ∧ m.isLocal = true ∧ m.start = a ∧ m.stop = b := by
  unfold createLocal at h
  split_ifs at h
  · cases ho : outputSizes P (varIndex P v) with
    | error e => rw [ho] at h; cases h
    | ok sizes => rw [ho] at h; cases h; exact ⟨rfl, rfl, rfl, rfl, rfl⟩
  · cases h; exact ⟨rfl, rfl, rfl, rfl, rfl⟩

theorem visit_ok {P : Problem} {r : ℕ} {f f' : Found} {v : Var} (h : visit P r f v = .ok f') :
    f'.outs = f.outs + (if isOut v then 1 else 0) ∧
    f'.steps = f.steps + (if isStep v then 1 else 0) ∧
    f'.accs = f.accs + (if isAcc v then 1 else 0) ∧
    (isOut v = false → f'.size = f.size ∧ f'.arr = f.arr ∧ f'.stageOutput = f.stageOutput) ∧
    (isOut v = true → ∃ a, createLocal P r f.size f'.size v ((v.shapeAt r).getD []) = .ok a ∧
      f'.arr = some a ∧ f'.stageOutput = some v.name ∧
      f'.size = f.size + ((v.shapeAt r).getD []).prod) ∧
    f'.stepInput = (if isStep v then some v.name else f.stepInput) ∧
    f'.accumulated = (if isAcc v then some v.name else f.accumulated) := by
  unfold visit at h
  by_cases h1 : v.tags.contains "stage_output_var" = true
  · rw [if_pos h1] at h
    cases hc : createLocal P r f.size (f.size + ((v.shapeAt r).getD []).prod) v
        ((v.shapeAt r).getD []) with
    | error e => simp only [hc] at h; cases h
    | ok a =>
      simp only [hc] at h
      cases h
      simp only [isOut, isStep, isAcc, h1]
      simp [hc]
  · rw [if_neg h1] at h
    simp only [Bool.not_eq_true] at h1
    by_cases h2 : v.tags.contains "step_input_var" = true
    · rw [if_pos h2] at h
      cases h
      simp only [isOut, isStep, isAcc, h1, h2]
      simp
    · rw [if_neg h2] at h
      simp only [Bool.not_eq_true] at h2
      by_cases h3 : v.tags.contains "accumulated_stage_var" = true
      · rw [if_pos h3] at h
        cases h
        simp only [isOut, isStep, isAcc, h1, h2, h3]
        simp
      · rw [if_neg h3] at h
        simp only [Bool.not_eq_true] at h3
        cases h
        simp only [isOut, isStep, isAcc, h1, h2, h3]
        simp

/-- The loop over the variables of a quantity. -/
theorem fold_visit {P : Problem} {r : ℕ} :
    ∀ {vs : List Var} {f f' : Found}, vs.foldlM (visit P r) f = .ok f' →
      f'.outs = f.outs + vs.countP isOut ∧
      f'.steps = f.steps + vs.countP isStep ∧
      f'.accs = f.accs + vs.countP isAcc ∧
      (vs.countP isOut = 0 → f'.size = f.size ∧ f'.arr = f.arr ∧ f'.stageOutput = f.stageOutput) ∧
      (vs.countP isOut = 1 → ∃ v ∈ vs, isOut v = true ∧ ∃ a,
        createLocal P r f.size f'.size v ((v.shapeAt r).getD []) = .ok a ∧
        f'.arr = some a ∧ f'.stageOutput = some v.name ∧
        f'.size = f.size + ((v.shapeAt r).getD []).prod) ∧
      (vs.countP isStep = 0 → f'.stepInput = f.stepInput) ∧
      (vs.countP isStep ≠ 0 → ∃ v ∈ vs, isStep v = true ∧ f'.stepInput = some v.name) ∧
      (vs.countP isAcc = 0 → f'.accumulated = f.accumulated) ∧
      (vs.countP isAcc ≠ 0 → ∃ v ∈ vs, isAcc v = true ∧ f'.accumulated = some v.name)
  | [], f, f', h => by
      rw [List.foldlM_nil] at h
      cases h
      simp
  | v :: vs, f, f', h => by
      obtain ⟨g, hg, hl⟩ := foldlM_cons_ok h
      obtain ⟨o, s, a, n1, n2, n3, n4⟩ := visit_ok hg
      obtain ⟨io, is, ia, i0, i1, i2, i3, i4, i5⟩ := fold_visit hl
      refine ⟨?_, ?_, ?_, ?_, ?_, ?_, ?_, ?_, ?_⟩
      · rw [io, o, List.countP_cons]; omega
      · rw [is, s, List.countP_cons]; omega
      · rw [ia, a, List.countP_cons]; omega
      · intro hc
        rw [List.countP_cons] at hc
        by_cases hv : isOut v = true
        · rw [if_pos hv] at hc; omega
        · simp only [Bool.not_eq_true] at hv
          obtain ⟨p1, p2, p3⟩ := n1 hv
          obtain ⟨q1, q2, q3⟩ := i0 (by omega)
          exact ⟨q1.trans p1, q2.trans p2, q3.trans p3⟩
      · intro hc
        rw [List.countP_cons] at hc
        by_cases hv : isOut v = true
        · rw [if_pos hv] at hc
          obtain ⟨q1, q2, q3⟩ := i0 (by omega)
          obtain ⟨x, x1, x2, x3, x4⟩ := n2 hv
          refine ⟨v, List.mem_cons_self, hv, x, ?_, q2.trans x2, q3.trans x3, q1.trans x4⟩
          rw [q1]; exact x1
        · have hv' := hv
          simp only [Bool.not_eq_true] at hv
          rw [if_neg hv'] at hc
          obtain ⟨p1, _, _⟩ := n1 hv
          obtain ⟨w, hw, hwo, x, x1, x2, x3, x4⟩ := i1 (by omega)
          refine ⟨w, List.mem_cons_of_mem _ hw, hwo, x, ?_, x2, x3, ?_⟩
          · rw [← p1]; exact x1
          · rw [x4, p1]
      · intro hc
        rw [List.countP_cons] at hc
        by_cases hv : isStep v = true
        · rw [if_pos hv] at hc; omega
        · rw [i2 (by omega), n3, if_neg hv]
      · intro hc
        by_cases h0 : vs.countP isStep = 0
        · have hv : isStep v = true := by
            by_contra hv
            rw [List.countP_cons, if_neg hv] at hc
            omega
          refine ⟨v, List.mem_cons_self, hv, ?_⟩
          rw [i2 h0, n3, if_pos hv]
        · obtain ⟨w, hw, hwo, hwe⟩ := i3 h0
          exact ⟨w, List.mem_cons_of_mem _ hw, hwo, hwe⟩
      · intro hc
        rw [List.countP_cons] at hc
        by_cases hv : isAcc v = true
        · rw [if_pos hv] at hc; omega
        · rw [i4 (by omega), n4, if_neg hv]
      · intro hc
        by_cases h0 : vs.countP isAcc = 0
        · have hv : isAcc v = true := by
            by_contra hv
            rw [List.countP_cons, if_neg hv] at hc
            omega
          refine ⟨v, List.mem_cons_self, hv, ?_⟩
          rw [i4 h0, n4, if_pos hv]
        · obtain ⟨w, hw, hwo, hwe⟩ := i5 h0
          exact ⟨w, List.mem_cons_of_mem _ hw, hwo, hwe⟩

/-- The size table knows every output. -/
theorem outputSizes_ok {P : Problem} {v : Var} (hv : v ∈ P.vars) (hio : v.io = .output) :
    ∃ s, outputSizes P (varIndex P v) = .ok s := by
  have hmem : v ∈ P.vars.filter fun w => w.io == .output := by
    simp [List.mem_filter, hv, hio]
  have hlt : varIndex P v < (P.vars.filter fun w => w.io == .output).length := by
    unfold varIndex
    rw [hio]
    exact List.findIdx_lt_length_of_exists ⟨v, hmem, by simp⟩
  unfold outputSizes
  rw [List.getElem?_eq_getElem hlt]
  exact ⟨_, rfl⟩

/-- With distinct names the size table has the sizes of the variable itself. -/
theorem outputSizes_eq {P : Problem} {v : Var} (hv : v ∈ P.vars) (hio : v.io = .output)
    (hn : ∀ w ∈ P.vars, w.name = v.name → w = v) :
    outputSizes P (varIndex P v) = .ok v.sizes := by
  have hmem : v ∈ P.vars.filter fun w => w.io == .output := by
    simp [List.mem_filter, hv, hio]
  have hlt : varIndex P v < (P.vars.filter fun w => w.io == .output).length := by
    unfold varIndex
    rw [hio]
    exact List.findIdx_lt_length_of_exists ⟨v, hmem, by simp⟩
  have hget : (P.vars.filter fun w => w.io == .output)[varIndex P v] = v := by
    have h1 : (P.vars.filter fun w => w.io == .output)[varIndex P v] ∈ P.vars :=
      List.mem_of_mem_filter (List.getElem_mem hlt)
    refine hn _ h1 ?_
    have h2 := List.findIdx_getElem (xs := P.vars.filter fun w => w.io == .output)
      (p := fun w => w.name == v.name) (w := by
        unfold varIndex at hlt
        rw [hio] at hlt
        exact hlt)
    have h3 : varIndex P v =
        (P.vars.filter fun w => w.io == .output).findIdx fun w => w.name == v.name := by
      unfold varIndex
      rw [hio]
    simp only [h3]
    exact eq_of_beq h2
  unfold outputSizes
  rw [List.getElem?_eq_getElem hlt, hget]

theorem createLocal_total {P : Problem} {v : Var} (hv : v ∈ P.vars) (hio : v.io = .output)
    (r a b : ℕ) (s : List ℕ) : ∃ m, createLocal P r a b v s = .ok m := by
  unfold createLocal
  split_ifs
  · obtain ⟨z, hz⟩ := outputSizes_ok hv hio
    rw [hz]
    exact ⟨_, rfl⟩
  · exact ⟨_, rfl⟩

/-- The loop over the variables of a quantity raises nothing if only outputs are tagged as stage
output. -/
theorem fold_visit_total {P : Problem} {r : ℕ} :
    ∀ {vs : List Var}, (∀ v ∈ vs, v ∈ P.vars ∧ (isOut v = true → v.io = .output)) →
      ∀ f : Found, ∃ f', vs.foldlM (visit P r) f = .ok f'
  | [], _, f => ⟨f, rfl⟩
  | v :: vs, h, f => by
      have hstep : ∃ g, visit P r f v = .ok g := by
        unfold visit
        by_cases h1 : v.tags.contains "stage_output_var" = true
        · rw [if_pos h1]
          obtain ⟨hv, ho⟩ := h v List.mem_cons_self
          obtain ⟨m, hm⟩ := createLocal_total hv (ho h1) r f.size
            (f.size + ((v.shapeAt r).getD []).prod) ((v.shapeAt r).getD [])
          simp only [hm]
          exact ⟨_, rfl⟩
        · rw [if_neg h1]
          split_ifs <;> exact ⟨_, rfl⟩
      obtain ⟨g, hg⟩ := hstep
      obtain ⟨f', hf'⟩ := fold_visit_total (fun w hw => h w (List.mem_cons_of_mem _ hw)) g
      refine ⟨f', ?_⟩
      rw [List.foldlM_cons, hg]
      exact hf'

/-- The result of the extraction of a quantity. -/
theorem extractQuantity_ok {P : Problem} {r : ℕ} {q : String} {s s' : ℕ} {Q : Quantity}
    (h : extractQuantity P r q s = .ok (s', Q)) :
    Q.name = q ∧ Q.arr.isLocal = true ∧ Q.arr.start = s ∧ Q.arr.stop = s' ∧
      s' = s + Q.arr.shape.prod ∧
      (∃ v ∈ P.vars, q ∈ v.tags ∧ isOut v = true ∧ Q.stageOutput = some v.name ∧
        v.shapeAt r = some Q.arr.shape ∧
        createLocal P r s s' v Q.arr.shape = .ok Q.arr) ∧
      ((Q.stepInput = none ∧ Q.accumulated = none) ∨
        ∃ v ∈ P.vars, ∃ w ∈ P.vars, q ∈ v.tags ∧ q ∈ w.tags ∧ isStep v = true ∧ isAcc w = true ∧
          Q.stepInput = some v.name ∧ Q.accumulated = some w.name) ∧
      Q.independentInput = none := by
  unfold extractQuantity at h
  cases hf : (ioMetadata P none [q] (some r)).foldlM (visit P r) { size := s } with
  | error e => rw [hf] at h; cases h
  | ok f =>
    rw [hf] at h
    obtain ⟨c1, c2, c3, _, c5, c6, c7, c8, c9⟩ := fold_visit hf
    change conclude q f = .ok (s', Q) at h
    unfold conclude at h
    by_cases h1 : f.outs > 1
    · rw [if_pos h1] at h; cases h
    rw [if_neg h1] at h
    by_cases h2 : f.steps > 1
    · rw [if_pos h2] at h; cases h
    rw [if_neg h2] at h
    by_cases h3 : f.accs > 1
    · rw [if_pos h3] at h; cases h
    rw [if_neg h3] at h
    by_cases h4 : f.outs < 1
    · rw [if_pos h4] at h; cases h
    rw [if_neg h4] at h
    by_cases h5 : ¬ ((f.steps, f.accs) ∈ [(0, 0), (1, 1)])
    · rw [if_pos h5] at h; cases h
    rw [if_neg h5] at h
    cases h
    simp only [Nat.zero_add] at c1 c2 c3
    obtain ⟨v, hv, hvo, a, ha, ha1, ha2, ha3⟩ := c5 (by omega)
    obtain ⟨hvP, _, hvq, hvl⟩ := mem_ioMetadata_single.mp hv
    obtain ⟨sh, hsh⟩ := Option.isSome_iff_exists.mp hvl
    rw [hsh] at ha ha3
    simp only [Option.getD_some] at ha ha3
    obtain ⟨e1, e2, e3, e4, e5⟩ := createLocal_ok ha
    refine ⟨rfl, ?_, ?_, ?_, ?_, ⟨v, hvP, hvq, hvo, ha2, ?_, ?_⟩, ?_, rfl⟩
    · simp [ha1, e3]
    · simp [ha1, e4]
    · simp [ha1, e5]
    · simp [ha1, e1, ha3]
    · simp [ha1, e1, hsh]
    · simp only [ha1, Option.getD_some, e1]; exact ha
    · simp only [List.mem_cons, Prod.mk.injEq, List.not_mem_nil, or_false, not_not] at h5
      rcases h5 with ⟨h5, h6⟩ | ⟨h5, h6⟩
      · left
        exact ⟨c6 (by omega), c8 (by omega)⟩
      · right
        obtain ⟨x, hx, hx1, hx2⟩ := c7 (by omega)
        obtain ⟨y, hy, hy1, hy2⟩ := c9 (by omega)
        obtain ⟨hxP, _, hxq, _⟩ := mem_ioMetadata_single.mp hx
        obtain ⟨hyP, _, hyq, _⟩ := mem_ioMetadata_single.mp hy
        exact ⟨x, hxP, y, hyP, hxq, hyq, hx1, hy1, hx2, hy2⟩

/-! ### Variables of one independent input -/

/-- A variable is counted as independent input. -/
def isIndep (v : Var) : Bool := v.tags.contains "time_independent_input_var"

theorem fold_visitIndep {P : Problem} {r : ℕ} :
    ∀ {vs : List Var} {f f' : FoundIndep}, vs.foldlM (visitIndep P r) f = .ok f' →
      f'.count = f.count + vs.countP isIndep ∧
      (vs.countP isIndep = 0 → f'.size = f.size ∧ f'.arr = f.arr ∧ f'.var = f.var) ∧
      (vs.countP isIndep = 1 → ∃ v ∈ vs, isIndep v = true ∧ ∃ a,
        createLocal P r f.size f'.size v ((v.shapeAt r).getD []) = .ok a ∧
        f'.arr = some a ∧ f'.var = some v.name ∧
        f'.size = f.size + ((v.shapeAt r).getD []).prod)
  | [], f, f', h => by
      rw [List.foldlM_nil] at h
      cases h
      simp
  | v :: vs, f, f', h => by
      obtain ⟨g, hg, hl⟩ := foldlM_cons_ok h
      obtain ⟨io, i0, i1⟩ := fold_visitIndep hl
      unfold visitIndep at hg
      by_cases h1 : v.tags.contains "time_independent_input_var" = true
      · rw [if_pos h1] at hg
        have hv : isIndep v = true := h1
        cases hc : createLocal P r f.size (f.size + ((v.shapeAt r).getD []).prod) v
            ((v.shapeAt r).getD []) with
        | error e => simp only [hc] at hg; cases hg
        | ok a =>
          simp only [hc] at hg
          cases hg
          simp only at io i0 i1
          rw [List.countP_cons, if_pos hv]
          refine ⟨by omega, fun hc => by omega, fun hc1 => ?_⟩
          obtain ⟨q1, q2, q3⟩ := i0 (by omega)
          refine ⟨v, List.mem_cons_self, hv, a, ?_, q2, q3, q1⟩
          rw [q1]; exact hc
      · rw [if_neg h1] at hg
        have hv : ¬ isIndep v = true := h1
        cases hg
        rw [List.countP_cons, if_neg hv]
        refine ⟨by omega, fun hc => i0 (by omega), fun hc1 => ?_⟩
        obtain ⟨w, hw, hwo, x⟩ := i1 (by omega)
        exact ⟨w, List.mem_cons_of_mem _ hw, hwo, x⟩

theorem extractIndependent_ok {P : Problem} {r : ℕ} {q : String} {s s' : ℕ} {Q : Quantity}
    (h : extractIndependent P r q s = .ok (s', Q)) :
    Q.name = q ∧ Q.arr.isLocal = true ∧ Q.arr.start = s ∧ Q.arr.stop = s' ∧
      s' = s + Q.arr.shape.prod ∧
      (∃ v ∈ P.vars, q ∈ v.tags ∧ isIndep v = true ∧ Q.independentInput = some v.name ∧
        v.shapeAt r = some Q.arr.shape ∧
        createLocal P r s s' v Q.arr.shape = .ok Q.arr) := by
  unfold extractIndependent at h
  cases hf : (ioMetadata P none [q] (some r)).foldlM (visitIndep P r) { size := s } with
  | error e => rw [hf] at h; cases h
  | ok f =>
    rw [hf] at h
    obtain ⟨c1, _, c5⟩ := fold_visitIndep hf
    change concludeIndep q f = .ok (s', Q) at h
    unfold concludeIndep at h
    by_cases h1 : f.count > 1
    · rw [if_pos h1] at h; cases h
    rw [if_neg h1] at h
    by_cases h4 : f.count < 1
    · rw [if_pos h4] at h; cases h
    rw [if_neg h4] at h
    cases h
    simp only [Nat.zero_add] at c1
    obtain ⟨v, hv, hvo, a, ha, ha1, ha2, ha3⟩ := c5 (by omega)
    obtain ⟨hvP, _, hvq, hvl⟩ := mem_ioMetadata_single.mp hv
    obtain ⟨sh, hsh⟩ := Option.isSome_iff_exists.mp hvl
    rw [hsh] at ha ha3
    simp only [Option.getD_some] at ha ha3
    obtain ⟨e1, e2, e3, e4, e5⟩ := createLocal_ok ha
    refine ⟨rfl, ?_, ?_, ?_, ?_, ⟨v, hvP, hvq, hvo, ha2, ?_, ?_⟩⟩
    · simp [ha1, e3]
    · simp [ha1, e4]
    · simp [ha1, e5]
    · simp [ha1, e1, ha3]
    · simp [ha1, e1, hsh]
    · simp only [ha1, Option.getD_some, e1]; exact ha

/-! ### The running index -/

/-- The ranges of a list of quantities are laid out one after the other from `s` to `s'`. -/
def Laid : ℕ → List Quantity → ℕ → Prop
  | s, [], s' => s = s'
  | s, q :: qs, s' =>
    (q.arr.isLocal = true ∧ q.arr.start = s ∧ q.arr.stop = s + q.arr.shape.prod ∧
      Laid q.arr.stop qs s') ∨
    (q.arr.isLocal = false ∧ q.arr.start = 0 ∧ q.arr.stop = 0 ∧ Laid s qs s')

theorem Laid.le : ∀ {qs : List Quantity} {s s' : ℕ}, Laid s qs s' → s ≤ s'
  | [], _, _, h => Nat.le_of_eq h
  | q :: qs, s, s', h => by
      rcases h with ⟨_, _, h2, h3⟩ | ⟨_, _, _, h3⟩
      · have := Laid.le h3; omega
      · exact Laid.le h3

theorem Laid.bound : ∀ {qs : List Quantity} {s s' : ℕ}, Laid s qs s' → ∀ q ∈ qs,
    (q.arr.isLocal = true ∧ s ≤ q.arr.start ∧ q.arr.stop = q.arr.start + q.arr.shape.prod ∧
      q.arr.stop ≤ s') ∨
    (q.arr.isLocal = false ∧ q.arr.start = 0 ∧ q.arr.stop = 0)
  | [], _, _, _, q, hq => by cases hq
  | q :: qs, s, s', h, x, hx => by
      rcases h with ⟨h0, h1, h2, h3⟩ | ⟨h0, h1, h2, h3⟩
      · rcases List.mem_cons.mp hx with rfl | hx
        · left
          have := Laid.le h3
          exact ⟨h0, by omega, by omega, by omega⟩
        · rcases Laid.bound h3 x hx with ⟨a, b, c, d⟩ | h
          · left; exact ⟨a, by omega, c, d⟩
          · right; exact h
      · rcases List.mem_cons.mp hx with rfl | hx
        · right; exact ⟨h0, h1, h2⟩
        · exact Laid.bound h3 x hx

/-- Every index belongs to exactly one quantity. -/
theorem Laid.unique : ∀ {qs : List Quantity} {s s' : ℕ}, Laid s qs s' → ∀ i, s ≤ i → i < s' →
    ∃! j : ℕ, ∃ q : Quantity, qs[j]? = some q ∧ q.arr.start ≤ i ∧ i < q.arr.stop
  | [], _, _, h, i, h1, h2 => by
      have : _ = _ := h
      omega
  | q :: qs, s, s', h, i, h1, h2 => by
      rcases h with ⟨h0, h3, h4, h5⟩ | ⟨h0, h3, h4, h5⟩
      · by_cases hi : i < q.arr.stop
        · refine ⟨0, ⟨q, rfl, by omega, hi⟩, ?_⟩
          rintro (_ | j) ⟨x, hx, hx1, hx2⟩
          · rfl
          · exfalso
            rw [List.getElem?_cons_succ] at hx
            rcases Laid.bound h5 x (List.mem_of_getElem? hx) with ⟨_, b, _, _⟩ | ⟨_, b, c⟩ <;> omega
        · obtain ⟨j, ⟨x, hx, hx1, hx2⟩, huniq⟩ := Laid.unique h5 i (by omega) h2
          refine ⟨j + 1, ⟨x, by rw [List.getElem?_cons_succ]; exact hx, hx1, hx2⟩, ?_⟩
          rintro (_ | k) ⟨y, hy, hy1, hy2⟩
          · exfalso
            rw [List.getElem?_cons_zero, Option.some.injEq] at hy
            subst hy
            omega
          · rw [List.getElem?_cons_succ] at hy
            rw [huniq k ⟨y, hy, hy1, hy2⟩]
      · obtain ⟨j, ⟨x, hx, hx1, hx2⟩, huniq⟩ := Laid.unique h5 i h1 h2
        refine ⟨j + 1, ⟨x, by rw [List.getElem?_cons_succ]; exact hx, hx1, hx2⟩, ?_⟩
        rintro (_ | k) ⟨y, hy, hy1, hy2⟩
        · exfalso
          rw [List.getElem?_cons_zero, Option.some.injEq] at hy
          subst hy
          omega
        · rw [List.getElem?_cons_succ] at hy
          rw [huniq k ⟨y, hy, hy1, hy2⟩]

/-- Later quantities lie behind earlier ones. -/
theorem Laid.ordered : ∀ {qs : List Quantity} {s s' : ℕ}, Laid s qs s' → ∀ (j k : ℕ)
    (x y : Quantity), j < k → qs[j]? = some x → qs[k]? = some y → x.arr.isLocal = true →
    y.arr.isLocal = true → x.arr.stop ≤ y.arr.start
  | [], _, _, _, j, k, x, y, _, hx, _, _, _ => by simp at hx
  | q :: qs, s, s', h, 0, 0, x, y, hjk, _, _, _, _ => by omega
  | q :: qs, s, s', h, j + 1, 0, x, y, hjk, _, _, _, _ => by omega
  | q :: qs, s, s', h, 0, k + 1, x, y, _, hx, hy, hx1, hy1 => by
      rw [List.getElem?_cons_zero, Option.some.injEq] at hx
      rw [List.getElem?_cons_succ] at hy
      subst hx
      rcases h with ⟨_, _, _, h5⟩ | ⟨h0, _, _, _⟩
      · rcases Laid.bound h5 y (List.mem_of_getElem? hy) with ⟨_, b, _, _⟩ | ⟨b, _, _⟩
        · exact b
        · rw [b] at hy1; cases hy1
      · rw [h0] at hx1; cases hx1
  | q :: qs, s, s', h, j + 1, k + 1, x, y, hjk, hx, hy, hx1, hy1 => by
      rw [List.getElem?_cons_succ] at hx hy
      rcases h with ⟨_, _, _, h5⟩ | ⟨_, _, _, h5⟩
      · exact Laid.ordered h5 j k x y (by omega) hx hy hx1 hy1
      · exact Laid.ordered h5 j k x y (by omega) hx hy hx1 hy1

/-- What the loops over the variables of all ranks need of the extraction. -/
def Extracts (ext : String → ℕ → Except Err (ℕ × Quantity)) : Prop :=
  ∀ q s s' Q, ext q s = .ok (s', Q) →
    Q.name = q ∧ Q.arr.isLocal = true ∧ Q.arr.start = s ∧ Q.arr.stop = s' ∧
      s' = s + Q.arr.shape.prod

/-- What is recorded for a variable: the extraction, or the default of a remote quantity. -/
def Records (P : Problem) (rank : ℕ) (io : IOType) (requested : List String)
    (ext : String → ℕ → Except Err (ℕ × Quantity)) (v : Var) (Q : Quantity) : Prop :=
  requested.dedup.filter (fun t => v.tags.contains t) = [Q.name] ∧
  (((ioMetadata P (some io) requested (some rank)).any (fun w => w.name == v.name) = true ∧
      ∃ s s', ext Q.name s = .ok (s', Q)) ∨
   ((ioMetadata P (some io) requested (some rank)).any (fun w => w.name == v.name) = false ∧
      Q = { name := Q.name, arr := { globalShape := v.globalShape } }))

theorem collectOne_ok {P : Problem} {rank : ℕ} {io : IOType} {requested : List String}
    {ext : String → ℕ → Except Err (ℕ × Quantity)} (hE : Extracts ext)
    {acc acc' : ℕ × List Quantity} {v : Var}
    (h : collectOne P rank io requested ext acc v = .ok acc') :
    ∃ Q, acc'.2 = acc.2 ++ [Q] ∧ Laid acc.1 [Q] acc'.1 ∧ Records P rank io requested ext v Q := by
  unfold collectOne at h
  generalize hl : requested.dedup.filter (fun t => v.tags.contains t) = l at h
  match l, hl, h with
  | [], _, h => cases h
  | [q], hl, h =>
    simp only at h
    by_cases hloc : (ioMetadata P (some io) requested (some rank)).any
        (fun w => w.name == v.name) = true
    · rw [if_pos hloc] at h
      cases he : ext q acc.1 with
      | error e => rw [he] at h; cases h
      | ok p =>
        obtain ⟨s', Q⟩ := p
        rw [he] at h
        cases h
        obtain ⟨e1, e2, e3, e4, e5⟩ := hE _ _ _ _ he
        refine ⟨Q, rfl, Or.inl ⟨e2, e3, by rw [e4, e5], e4⟩, ?_, Or.inl ⟨hloc, acc.1, s', ?_⟩⟩
        · rw [e1]; exact hl
        · rw [e1]; exact he
    · rw [if_neg hloc] at h
      cases h
      refine ⟨_, rfl, Or.inr ⟨rfl, rfl, rfl, rfl⟩, hl, Or.inr ⟨?_, rfl⟩⟩
      simpa using hloc
  | _ :: _ :: _, _, h => cases h

theorem Laid.append : ∀ {qs rs : List Quantity} {s t u : ℕ}, Laid s qs t → Laid t rs u →
    Laid s (qs ++ rs) u
  | [], _, _, _, _, h, h' => by
      have e : _ = _ := h
      subst e
      exact h'
  | q :: qs, rs, s, t, u, h, h' => by
      rcases h with ⟨a, b, c, d⟩ | ⟨a, b, c, d⟩
      · exact Or.inl ⟨a, b, c, Laid.append d h'⟩
      · exact Or.inr ⟨a, b, c, Laid.append d h'⟩

theorem fold_collect {P : Problem} {rank : ℕ} {io : IOType} {requested : List String}
    {ext : String → ℕ → Except Err (ℕ × Quantity)} (hE : Extracts ext) :
    ∀ {vs : List Var} {acc acc' : ℕ × List Quantity},
      vs.foldlM (collectOne P rank io requested ext) acc = .ok acc' →
      ∃ qs, acc'.2 = acc.2 ++ qs ∧ Laid acc.1 qs acc'.1 ∧
        List.Forall₂ (Records P rank io requested ext) vs qs
  | [], acc, acc', h => by
      rw [List.foldlM_nil] at h
      cases h
      exact ⟨[], by simp, rfl, .nil⟩
  | v :: vs, acc, acc', h => by
      obtain ⟨b, hb, hl⟩ := foldlM_cons_ok h
      obtain ⟨Q, q1, q2, q3⟩ := collectOne_ok hE hb
      obtain ⟨qs, r1, r2, r3⟩ := fold_collect hE hl
      exact ⟨Q :: qs, by rw [r1, q1]; simp, Laid.append q2 r2, .cons q3 r3⟩

theorem extracts_quantity (P : Problem) (r : ℕ) : Extracts (extractQuantity P r) :=
  fun _ _ _ _ h => by
    obtain ⟨a, b, c, d, e, _⟩ := extractQuantity_ok h
    exact ⟨a, b, c, d, e⟩

theorem extracts_independent (P : Problem) (r : ℕ) : Extracts (extractIndependent P r) :=
  fun _ _ _ _ h => by
    obtain ⟨a, b, c, d, e, _⟩ := extractIndependent_ok h
    exact ⟨a, b, c, d, e⟩

/-- `extract_time_integration_metadata`, if it returns. -/
theorem extractMetadata_ok {P : Problem} {r : ℕ} {req : List String} {m : Meta}
    (h : extractMetadata P r req = .ok m) :
    Laid 0 m.quantities m.arraySize ∧
      List.Forall₂ (Records P r .output req (extractQuantity P r))
        (ioMetadata P (some .output) req none) m.quantities ∧
      searchTime P r = .ok m.timeVariable ∧ m.independentSize = 0 ∧ m.independents = [] := by
  unfold extractMetadata at h
  cases hc : collect P r .output req (extractQuantity P r) (0, []) with
  | error e => rw [hc] at h; cases h
  | ok p =>
    obtain ⟨size, qs⟩ := p
    rw [hc] at h
    simp only at h
    cases ht : searchTime P r with
    | error e => rw [ht] at h; cases h
    | ok t =>
      rw [ht] at h
      cases h
      obtain ⟨qs', h1, h2, h3⟩ := fold_collect (extracts_quantity P r) hc
      simp only [List.nil_append] at h1
      subst h1
      exact ⟨h2, h3, rfl, rfl, rfl⟩

theorem addIndependent_ok {P : Problem} {r : ℕ} {req : List String} {m m' : Meta}
    (h0 : m.independentSize = 0) (h1 : m.independents = [])
    (h : addIndependent P r req m = .ok m') :
    Laid 0 m'.independents m'.independentSize ∧
      List.Forall₂ (Records P r .input req (extractIndependent P r))
        (ioMetadata P (some .input) req none) m'.independents ∧
      m'.quantities = m.quantities ∧ m'.arraySize = m.arraySize ∧
      m'.timeVariable = m.timeVariable := by
  unfold addIndependent at h
  rw [h0, h1] at h
  cases hc : collect P r .input req (extractIndependent P r) (0, []) with
  | error e => rw [hc] at h; cases h
  | ok p =>
    obtain ⟨size, qs⟩ := p
    rw [hc] at h
    cases h
    obtain ⟨qs', h1, h2, h3⟩ := fold_collect (extracts_independent P r) hc
    simp only [List.nil_append] at h1
    subst h1
    exact ⟨h2, h3, rfl, rfl, rfl⟩

/-- Everything about the metadata of one rank. -/
theorem rankMetadata_ok {P : Problem} {r : ℕ} {req ind : List String} {m : Meta}
    (h : rankMetadata P r req ind = .ok m) :
    Laid 0 m.quantities m.arraySize ∧
      List.Forall₂ (Records P r .output req (extractQuantity P r))
        (ioMetadata P (some .output) req none) m.quantities ∧
      searchTime P r = .ok m.timeVariable ∧
      Laid 0 m.independents m.independentSize ∧
      (ind ≠ [] → List.Forall₂ (Records P r .input ind (extractIndependent P r))
        (ioMetadata P (some .input) ind none) m.independents) ∧
      (ind = [] → m.independents = []) := by
  unfold rankMetadata at h
  cases hm : extractMetadata P r req with
  | error e => rw [hm] at h; cases h
  | ok m0 =>
    rw [hm] at h
    obtain ⟨a, b, c, d, e⟩ := extractMetadata_ok hm
    simp only at h
    by_cases hi : ind = []
    · subst hi
      simp only [List.isEmpty_nil, if_true] at h
      cases h
      refine ⟨a, b, c, ?_, fun h => absurd rfl h, fun _ => e⟩
      rw [d, e]
      rfl
    · have hi' : ind.isEmpty = false := by simpa using hi
      rw [hi'] at h
      simp only [Bool.false_eq_true, if_false] at h
      obtain ⟨a', b', c', d', e'⟩ := addIndependent_ok d e h
      rw [c', d', e']
      exact ⟨a, b, c, a', fun _ => b', fun h => absurd h hi⟩

/-! ### All ranks -/

theorem setup_ok {P : Problem} {n : ℕ} {req ind : List String} {ms : List Meta}
    (h : setup P n req ind = .ok ms) :
    ∃ ms0, (List.range n).mapM (fun r => rankMetadata P r req ind) = .ok ms0 ∧
      ms = addDistributivity ms0 ∧ ms0.length = n ∧
      ∀ r m0, ms0[r]? = some m0 → rankMetadata P r req ind = .ok m0 := by
  unfold setup at h
  cases hc : (List.range n).mapM (fun r => rankMetadata P r req ind) with
  | error e => rw [hc] at h; cases h
  | ok ms0 =>
    rw [hc] at h
    cases h
    have hf := mapM_ok hc
    refine ⟨ms0, rfl, rfl, ?_, fun r m0 hr => ?_⟩
    · rw [← hf.length_eq]; simp
    · obtain ⟨a, ha, hR⟩ := forall2_getElem? hf r m0 hr
      have har : a = r := by
        rw [List.getElem?_range] at ha
        · exact (Option.some.inj ha).symm
        · by_contra hlt
          rw [List.getElem?_eq_none (by simpa using hlt)] at ha
          cases ha
      subst har
      exact hR

/-- Without the flag. -/
def unflag (q : Quantity) : Quantity := { q with arr := { q.arr with distributed := false } }

theorem setFlags_getElem? (ls : List (List Quantity)) (qs : List Quantity) (j : ℕ) :
    (setFlags ls qs)[j]? = qs[j]?.map
      (fun q => { q with arr := { q.arr with distributed := distributedFlag ls j } }) := by
  unfold setFlags
  rw [List.getElem?_mapIdx]

theorem laid_setFlags (ls : List (List Quantity)) : ∀ (qs : List Quantity) (s s' : ℕ),
    Laid s qs s' → ∀ g : ℕ → Bool,
      Laid s (qs.mapIdx fun j q => { q with arr := { q.arr with distributed := g j } }) s'
  | [], s, s', h, g => by simpa using h
  | q :: qs, s, s', h, g => by
      rw [List.mapIdx_cons]
      rcases h with ⟨a, b, c, d⟩ | ⟨a, b, c, d⟩
      · exact Or.inl ⟨a, b, c, laid_setFlags ls qs _ _ d fun j => g (j + 1)⟩
      · exact Or.inr ⟨a, b, c, laid_setFlags ls qs _ _ d fun j => g (j + 1)⟩

/-- Everything about the metadata of one rank after the setup on all ranks: it is that of the rank
with the flags set. -/
theorem setup_rank {P : Problem} {n : ℕ} {req ind : List String} {ms : List Meta}
    (h : setup P n req ind = .ok ms) {r : ℕ} {m : Meta} (hr : ms[r]? = some m) :
    ∃ m0, rankMetadata P r req ind = .ok m0 ∧ r < n ∧ m.arraySize = m0.arraySize ∧
      m.independentSize = m0.independentSize ∧ m.timeVariable = m0.timeVariable ∧
      (∃ g : ℕ → Bool, m.quantities =
        m0.quantities.mapIdx fun j q => { q with arr := { q.arr with distributed := g j } }) ∧
      ∃ g : ℕ → Bool, m.independents =
        m0.independents.mapIdx fun j q => { q with arr := { q.arr with distributed := g j } } := by
  obtain ⟨ms0, _, rfl, hlen, hall⟩ := setup_ok h
  unfold addDistributivity at hr
  rw [List.getElem?_map] at hr
  cases hm : ms0[r]? with
  | none => rw [hm] at hr; cases hr
  | some m0 =>
    rw [hm] at hr
    simp only [Option.map_some, Option.some.injEq] at hr
    subst hr
    refine ⟨m0, hall r m0 hm, ?_, rfl, rfl, rfl,
      ⟨distributedFlag (ms0.map Meta.quantities), rfl⟩,
      ⟨distributedFlag (ms0.map Meta.independents), rfl⟩⟩
    rw [← hlen]
    exact (List.getElem?_eq_some_iff.mp hm).1

theorem mem_mapIdx_flag {qs : List Quantity} {g : ℕ → Bool} {q : Quantity}
    (h : q ∈ qs.mapIdx fun j q => { q with arr := { q.arr with distributed := g j } }) :
    ∃ q0 ∈ qs, ∃ b, q = { q0 with arr := { q0.arr with distributed := b } } := by
  obtain ⟨i, hi, rfl⟩ := List.mem_mapIdx.mp h
  exact ⟨qs[i], List.getElem_mem _, g i, rfl⟩

/-! ### Prefix sums -/

/-- In a list of sizes every index below the sum belongs to exactly one block. -/
theorem prefix_unique : ∀ (l : List ℕ) (g : ℕ), g < l.sum →
    ∃! r, r < l.length ∧ (l.take r).sum ≤ g ∧ g < (l.take r).sum + l.getD r 0
  | [], g, h => by simp at h
  | a :: l, g, h => by
      rw [List.sum_cons] at h
      by_cases hg : g < a
      · refine ⟨0, ⟨by simp, by simp, by simpa using hg⟩, ?_⟩
        rintro (_ | r) ⟨_, h2, _⟩
        · rfl
        · exfalso
          rw [List.take_succ_cons, List.sum_cons] at h2
          omega
      · obtain ⟨r, ⟨h1, h2, h3⟩, huniq⟩ := prefix_unique l (g - a) (by omega)
        refine ⟨r + 1, ⟨by simpa using h1, ?_, ?_⟩, ?_⟩
        · rw [List.take_succ_cons, List.sum_cons]; omega
        · rw [List.take_succ_cons, List.sum_cons, List.getD_cons_succ]; omega
        · rintro (_ | k) ⟨k1, k2, k3⟩
          · exfalso
            simp at k3
            omega
          · rw [List.take_succ_cons, List.sum_cons] at k2 k3
            rw [List.getD_cons_succ] at k3
            rw [huniq k ⟨by simpa using k1, by omega, by omega⟩]

theorem getD_le_sum : ∀ (l : List ℕ) (r : ℕ), (l.take r).sum + l.getD r 0 ≤ l.sum
  | [], r => by simp
  | a :: l, 0 => by simp
  | a :: l, r + 1 => by
      have := getD_le_sum l r
      rw [List.take_succ_cons, List.sum_cons, List.sum_cons, List.getD_cons_succ]
      omega

/-! ### What the backend needs of the metadata -/

/-- Metadata of one rank as the setup leaves it. -/
structure Meta.Sound (m : Meta) : Prop where
  laid : Laid 0 m.quantities m.arraySize
  laidIndep : Laid 0 m.independents m.independentSize
  paired : ∀ q ∈ m.quantities, q.stepInput.isSome = q.accumulated.isSome
  output : ∀ q ∈ m.quantities, q.arr.isLocal = true → q.stageOutput.isSome = true
  indep : ∀ q ∈ m.independents, q.arr.isLocal = true → q.independentInput.isSome = true

theorem setup_sound {P : Problem} {n : ℕ} {req ind : List String} {ms : List Meta}
    (h : setup P n req ind = .ok ms) {r : ℕ} {m : Meta} (hr : ms[r]? = some m) : m.Sound := by
  obtain ⟨m0, hm0, _, ha, hb, _, ⟨g, hg⟩, ⟨g', hg'⟩⟩ := setup_rank h hr
  obtain ⟨l0, recs, _, l1, recs', none'⟩ := rankMetadata_ok hm0
  refine ⟨?_, ?_, fun q hq => ?_, fun q hq hl => ?_, fun q hq hl => ?_⟩
  · rw [ha, hg]; exact laid_setFlags [] _ _ _ l0 g
  · rw [hb, hg']; exact laid_setFlags [] _ _ _ l1 g'
  · rw [hg] at hq
    obtain ⟨q0, hq0, b, rfl⟩ := mem_mapIdx_flag hq
    obtain ⟨i, hi⟩ := List.mem_iff_getElem?.mp hq0
    obtain ⟨v, _, _, hv⟩ := forall2_getElem? recs i q0 hi
    change q0.stepInput.isSome = q0.accumulated.isSome
    rcases hv with ⟨_, s, s', he⟩ | ⟨_, he⟩
    · obtain ⟨_, _, _, _, _, _, hp, _⟩ := extractQuantity_ok he
      rcases hp with ⟨h1, h2⟩ | ⟨_, _, _, _, _, _, _, _, h1, h2⟩
      · rw [h1, h2]
      · rw [h1, h2]; rfl
    · rw [he]
  · rw [hg] at hq
    obtain ⟨q0, hq0, b, rfl⟩ := mem_mapIdx_flag hq
    obtain ⟨i, hi⟩ := List.mem_iff_getElem?.mp hq0
    obtain ⟨v, _, _, hv⟩ := forall2_getElem? recs i q0 hi
    change q0.stageOutput.isSome = true
    change q0.arr.isLocal = true at hl
    rcases hv with ⟨_, s, s', he⟩ | ⟨_, he⟩
    · obtain ⟨_, _, _, _, _, ⟨w, _, _, _, hw, _⟩, _⟩ := extractQuantity_ok he
      rw [hw]; rfl
    · rw [he] at hl; cases hl
  · rw [hg'] at hq
    obtain ⟨q0, hq0, b, rfl⟩ := mem_mapIdx_flag hq
    change q0.independentInput.isSome = true
    change q0.arr.isLocal = true at hl
    have hne : ind ≠ [] := by
      intro h0
      rw [none' h0] at hq0
      cases hq0
    obtain ⟨i, hi⟩ := List.mem_iff_getElem?.mp hq0
    obtain ⟨v, _, _, hv⟩ := forall2_getElem? (recs' hne) i q0 hi
    rcases hv with ⟨_, s, s', he⟩ | ⟨_, he⟩
    · obtain ⟨_, _, _, _, _, ⟨w, _, _, _, hw, _⟩⟩ := extractIndependent_ok he
      rw [hw]; rfl
    · rw [he] at hl; cases hl

end Verif.Metadata
