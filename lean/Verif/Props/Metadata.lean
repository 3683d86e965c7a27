/-
Properties C44-C47: metadata extraction from the stage problem.
-/
import Verif.Metadata.Lemmas
import Mathlib.Data.List.Perm.Basic
import Mathlib.Data.List.Count

namespace Verif.Props

open Verif.Metadata

/-! ### Specification -/

/-- The variables on a rank that carry two given tags. -/
def carriers (P : Problem) (rank : ℕ) (q role : String) : List Var :=
  P.vars.filter fun v => v.tags.contains q && v.tags.contains role && (v.shapeAt rank).isSome

/-- The variables of one type on all ranks with a given tag. -/
def tagged (P : Problem) (io : IOType) (t : String) : List Var :=
  P.vars.filter fun v => decide (v.io = io) && v.tags.contains t

/-- No variable of the quantity has two roles. -/
def ExclusiveRoles (P : Problem) (q : String) : Prop :=
  ∀ v ∈ P.vars, q ∈ v.tags →
    ("stage_output_var" ∈ v.tags → "step_input_var" ∉ v.tags) ∧
    ("stage_output_var" ∈ v.tags → "accumulated_stage_var" ∉ v.tags) ∧
    ("step_input_var" ∈ v.tags → "accumulated_stage_var" ∉ v.tags)

/-- Only outputs are tagged as stage output. -/
def OutputsAreOutputs (P : Problem) : Prop :=
  ∀ v ∈ P.vars, "stage_output_var" ∈ v.tags → v.io = .output

/-- A range of a list of quantities covers an index. -/
def Covers (qs : List Quantity) (j i : ℕ) : Prop :=
  ∃ q, qs[j]? = some q ∧ q.arr.start ≤ i ∧ i < q.arr.stop

/-! ### C44: index ranges -/

theorem covers_unique {qs : List Quantity} {n i : ℕ} (h : Laid 0 qs n) (hi : i < n) :
    ∃! j, Covers qs j i := Laid.unique h i (Nat.zero_le _) hi

/-- After the setup, on every rank every index of the state array belongs to exactly one quantity;
the range of a quantity that is on the rank has the size of the local shape of its stage output;
quantities that are not on the rank have an empty range; all ranges end within the array and follow
each other in the order of the list. -/
theorem C44_state_ranges {P : Problem} {n : ℕ} {req ind : List String} {ms : List Meta}
    (h : setup P n req ind = .ok ms) {r : ℕ} {m : Meta} (hr : ms[r]? = some m) :
    (∀ i < m.arraySize, ∃! j, Covers m.quantities j i) ∧
    (∀ q ∈ m.quantities, q.arr.stop ≤ m.arraySize ∧
      (q.arr.isLocal = true → q.arr.stop = q.arr.start + q.arr.shape.prod ∧
        ∃ v ∈ P.vars, q.name ∈ v.tags ∧ "stage_output_var" ∈ v.tags ∧
          q.stageOutput = some v.name ∧ v.shapeAt r = some q.arr.shape) ∧
      (q.arr.isLocal = false → q.arr.start = q.arr.stop)) ∧
    (∀ (j k : ℕ) (x y : Quantity), j < k → m.quantities[j]? = some x → m.quantities[k]? = some y →
      x.arr.isLocal = true → y.arr.isLocal = true → x.arr.stop ≤ y.arr.start) := by
  obtain ⟨m0, hm0, _, ha, _, _, ⟨g, hg⟩, _⟩ := setup_rank h hr
  obtain ⟨l0, recs, _, _, _, _⟩ := rankMetadata_ok hm0
  have l1 : Laid 0 m.quantities m.arraySize := by
    rw [ha, hg]
    exact laid_setFlags [] _ _ _ l0 g
  refine ⟨fun i hi => covers_unique l1 hi, fun q hq => ?_, fun j k x y => Laid.ordered l1 j k x y⟩
  rw [hg] at hq
  obtain ⟨q0, hq0, b, rfl⟩ := mem_mapIdx_flag hq
  have hb := Laid.bound l0 q0 hq0
  rw [ha]
  refine ⟨?_, fun hl => ⟨?_, ?_⟩, fun hl => ?_⟩
  · rcases hb with ⟨_, _, _, h4⟩ | ⟨_, _, h4⟩
    · exact h4
    · change q0.arr.stop ≤ _
      omega
  · rcases hb with ⟨_, _, h3, _⟩ | ⟨h3, _, _⟩
    · exact h3
    · change q0.arr.isLocal = true at hl
      rw [h3] at hl; cases hl
  · change q0.arr.isLocal = true at hl
    obtain ⟨i, hi⟩ := List.mem_iff_getElem?.mp hq0
    obtain ⟨v, _, _, hv⟩ := forall2_getElem? recs i q0 hi
    rcases hv with ⟨_, s, s', he⟩ | ⟨_, he⟩
    · obtain ⟨e1, _, _, _, _, ⟨w, hw, hwq, hwo, hws, hwsh, _⟩, _⟩ := extractQuantity_ok he
      exact ⟨w, hw, hwq, by simpa [isOut] using hwo, hws, hwsh⟩
    · rw [he] at hl; cases hl
  · rcases hb with ⟨h3, _, _, _⟩ | ⟨_, h3, h4⟩
    · change q0.arr.isLocal = false at hl
      rw [h3] at hl; cases hl
    · change q0.arr.start = q0.arr.stop
      rw [h3, h4]

/-- The same for the independent inputs. -/
theorem C44_independent_ranges {P : Problem} {n : ℕ} {req ind : List String} {ms : List Meta}
    (h : setup P n req ind = .ok ms) {r : ℕ} {m : Meta} (hr : ms[r]? = some m) :
    (∀ i < m.independentSize, ∃! j, Covers m.independents j i) ∧
    (∀ q ∈ m.independents, q.arr.stop ≤ m.independentSize ∧
      (q.arr.isLocal = true → q.arr.stop = q.arr.start + q.arr.shape.prod ∧
        ∃ v ∈ P.vars, q.name ∈ v.tags ∧ "time_independent_input_var" ∈ v.tags ∧
          q.independentInput = some v.name ∧ v.shapeAt r = some q.arr.shape) ∧
      (q.arr.isLocal = false → q.arr.start = q.arr.stop)) ∧
    (∀ (j k : ℕ) (x y : Quantity), j < k → m.independents[j]? = some x → m.independents[k]? = some y →
      x.arr.isLocal = true → y.arr.isLocal = true → x.arr.stop ≤ y.arr.start) := by
  obtain ⟨m0, hm0, _, _, ha, _, _, ⟨g, hg⟩⟩ := setup_rank h hr
  obtain ⟨_, _, _, l0, recs, none⟩ := rankMetadata_ok hm0
  have l1 : Laid 0 m.independents m.independentSize := by
    rw [ha, hg]
    exact laid_setFlags [] _ _ _ l0 g
  refine ⟨fun i hi => covers_unique l1 hi, fun q hq => ?_, fun j k x y => Laid.ordered l1 j k x y⟩
  rw [hg] at hq
  obtain ⟨q0, hq0, b, rfl⟩ := mem_mapIdx_flag hq
  have hb := Laid.bound l0 q0 hq0
  rw [ha]
  refine ⟨?_, fun hl => ⟨?_, ?_⟩, fun hl => ?_⟩
  · rcases hb with ⟨_, _, _, h4⟩ | ⟨_, _, h4⟩
    · exact h4
    · change q0.arr.stop ≤ _
      omega
  · rcases hb with ⟨_, _, h3, _⟩ | ⟨h3, _, _⟩
    · exact h3
    · change q0.arr.isLocal = true at hl
      rw [h3] at hl; cases hl
  · change q0.arr.isLocal = true at hl
    have hne : ind ≠ [] := by
      intro h0
      rw [none h0] at hq0
      cases hq0
    obtain ⟨i, hi⟩ := List.mem_iff_getElem?.mp hq0
    obtain ⟨v, _, _, hv⟩ := forall2_getElem? (recs hne) i q0 hi
    rcases hv with ⟨_, s, s', he⟩ | ⟨_, he⟩
    · obtain ⟨e1, _, _, _, _, ⟨w, hw, hwq, hwo, hws, hwsh, _⟩⟩ := extractIndependent_ok he
      exact ⟨w, hw, by rw [e1] at hwq ⊢; exact hwq, by simpa [isIndep] using hwo, hws, hwsh⟩
    · rw [he] at hl; cases hl
  · rcases hb with ⟨h3, _, _, _⟩ | ⟨_, h3, h4⟩
    · change q0.arr.isLocal = false at hl
      rw [h3] at hl; cases hl
    · change q0.arr.start = q0.arr.stop
      rw [h3, h4]

/-- `v` is the only output of the quantity `q`, it is its stage output, and names identify
variables. -/
structure Ordinary (P : Problem) (q : String) (v : Var) : Prop where
  mem : v ∈ P.vars
  out : v.io = .output
  tag : q ∈ v.tags
  role : "stage_output_var" ∈ v.tags
  onlyOutput : ∀ w ∈ P.vars, w.io = .output → q ∈ w.tags → w = v
  onlyRole : ∀ w ∈ P.vars, q ∈ w.tags → "stage_output_var" ∈ w.tags → w = v
  names : ∀ w ∈ P.vars, w.name = v.name → w = v

/-- The range of an ordinary quantity within the global array, on any rank: the entries of the
ranks before, then the own ones. -/
theorem quantity_global {P : Problem} {r : ℕ} {req ind : List String} {m0 : Meta}
    (hm0 : rankMetadata P r req ind = .ok m0) {j : ℕ} {Q : Quantity}
    (hj : m0.quantities[j]? = some Q) {v : Var} (hv : Ordinary P Q.name v)
    (hsum : v.sizes.sum = v.globalShape.prod) :
    (∀ g, (Q.arr.globalStart ≤ g ∧ g < Q.arr.globalStop) ↔
      ((v.sizes.take r).sum ≤ g ∧ g < (v.sizes.take r).sum + v.sizes.getD r 0)) ∧
    Q.arr.globalStop = Q.arr.globalStart + v.sizes.getD r 0 ∧
    (Q.arr.isLocal = true → Q.arr.globalStart = (v.sizes.take r).sum ∧
      v.shapeAt r = some Q.arr.shape) ∧ Q.arr.globalShape = v.globalShape := by
  obtain ⟨_, recs, _⟩ := rankMetadata_ok hm0
  obtain ⟨w, hw, hone, hv'⟩ := forall2_getElem? recs j Q hj
  have hwmem := List.mem_of_getElem? hw
  obtain ⟨hwP, hwio, hwt⟩ := mem_ioMetadata_none.mp hwmem
  have hQw : Q.name ∈ w.tags := by
    have : Q.name ∈ req.dedup.filter (fun t => w.tags.contains t) := by rw [hone]; simp
    simpa using (List.mem_filter.mp this).2
  have hQr : Q.name ∈ req := by
    have : Q.name ∈ req.dedup.filter (fun t => w.tags.contains t) := by rw [hone]; simp
    exact List.mem_dedup.mp (List.mem_filter.mp this).1
  have hwv : w = v := hv.onlyOutput w hwP hwio hQw
  subst hwv
  have hsz : w.sizes.getD r 0 = entries (w.shapeAt r) := by
    unfold Var.sizes Var.shapeAt
    by_cases hlt : r < w.shapes.length
    · simp [List.getD_eq_getElem?_getD, hlt]
    · simp [List.getD_eq_getElem?_getD, List.getElem?_eq_none (not_lt.mp hlt), entries]
  have hle := getD_le_sum w.sizes r
  rcases hv' with ⟨hloc, s, s', he⟩ | ⟨hloc, he⟩
  · obtain ⟨_, hl, _, _, _, ⟨x, hx, hxq, hxo, hxs, hxsh, hxc⟩, _⟩ := extractQuantity_ok he
    have hxv : x = w := hv.onlyRole x hx hxq (by simpa [isOut] using hxo)
    subst hxv
    have hgs := (createLocal_ok hxc).2.1
    rw [hxsh] at hsz
    simp only [entries] at hsz
    unfold createLocal at hxc
    by_cases hs : Q.arr.shape ≠ x.globalShape
    · rw [if_pos hs, outputSizes_eq hx hv.out hv.names] at hxc
      simp only [Except.ok.injEq] at hxc
      have h1 : Q.arr.globalStart = (x.sizes.take r).sum := by rw [← hxc]
      have h2 : Q.arr.globalStop = (x.sizes.take r).sum + x.sizes.getD r 0 := by rw [← hxc]
      rw [h1, h2]
      exact ⟨fun g => Iff.rfl, rfl, fun _ => ⟨rfl, hxsh⟩, hgs⟩
    · rw [if_neg hs] at hxc
      simp only [Except.ok.injEq] at hxc
      have hs' : Q.arr.shape = x.globalShape := not_not.mp hs
      have h1 : Q.arr.globalStart = 0 := by rw [← hxc]
      have h2 : Q.arr.globalStop = Q.arr.shape.prod := by rw [← hxc]
      rw [hs'] at h2 hsz
      have hz : (x.sizes.take r).sum = 0 := by omega
      rw [h1, h2, hz, hsz]
      simp [hxsh, hgs]
  · have hnone : w.shapeAt r = none := by
      by_contra hne
      have hsome : (w.shapeAt r).isSome = true := by
        cases hs : w.shapeAt r with
        | none => exact absurd hs hne
        | some _ => rfl
      have : (ioMetadata P (some .output) req (some r)).any (fun x => x.name == w.name) = true :=
        List.any_eq_true.mpr ⟨w, mem_ioMetadata_some.mpr ⟨hwmem, hsome⟩, by simp⟩
      rw [this] at hloc
      cases hloc
    rw [hnone] at hsz
    simp only [entries] at hsz
    have h1 : Q.arr.globalStart = 0 := by rw [he]
    have h2 : Q.arr.globalStop = 0 := by rw [he]
    have h3 : Q.arr.isLocal = false := by rw [he]
    have h4 : Q.arr.globalShape = w.globalShape := by rw [he]
    rw [h1, h2, hsz, h3]
    simp [h4]

/-- For a quantity whose entries are spread over the ranks (sizes add up to the global size), every
index of the global array belongs to the range of exactly one rank, and the ranges have the sizes
of the local shapes. -/
theorem C44_global_ranges_partial {P : Problem} {n : ℕ} {req ind : List String} {ms : List Meta}
    (h : setup P n req ind = .ok ms) {q : String} {v : Var} (hv : Ordinary P q v)
    (hn : v.shapes.length = n) (hsum : v.sizes.sum = v.globalShape.prod) {j : ℕ}
    {Q : ℕ → Quantity}
    (hQ : ∀ r < n, (Q r).name = q ∧ ∃ m, ms[r]? = some m ∧ m.quantities[j]? = some (Q r)) :
    (∀ g < v.globalShape.prod,
      ∃! r, r < n ∧ (Q r).arr.globalStart ≤ g ∧ g < (Q r).arr.globalStop) ∧
    ∀ r < n, (Q r).arr.globalStop = (Q r).arr.globalStart + entries (v.shapeAt r) := by
  have key : ∀ r < n,
      (∀ g, ((Q r).arr.globalStart ≤ g ∧ g < (Q r).arr.globalStop) ↔
        ((v.sizes.take r).sum ≤ g ∧ g < (v.sizes.take r).sum + v.sizes.getD r 0)) ∧
      (Q r).arr.globalStop = (Q r).arr.globalStart + v.sizes.getD r 0 := by
    intro r hr
    obtain ⟨hname, m, hm, hmj⟩ := hQ r hr
    obtain ⟨m0, hm0, _, _, _, _, ⟨g, hg⟩, _⟩ := setup_rank h hm
    rw [hg, List.getElem?_mapIdx] at hmj
    cases hq0 : m0.quantities[j]? with
    | none => rw [hq0] at hmj; cases hmj
    | some Q0 =>
      rw [hq0] at hmj
      simp only [Option.map_some, Option.some.injEq] at hmj
      rw [← hmj] at hname ⊢
      have := quantity_global hm0 hq0 (v := v) (by rw [← hname] at hv; exact hv) hsum
      exact ⟨this.1, this.2.1⟩
  have hlen : v.sizes.length = n := by unfold Var.sizes; simpa using hn
  constructor
  · intro g hg
    rw [← hsum] at hg
    obtain ⟨r, ⟨h1, h2⟩, huniq⟩ := prefix_unique v.sizes g hg
    rw [hlen] at h1
    refine ⟨r, ⟨h1, ((key r h1).1 g).mpr h2⟩, fun k hk => huniq k ⟨?_, ?_⟩⟩
    · rw [hlen]; exact hk.1
    · exact ((key k hk.1).1 g).mp hk.2
  · intro r hr
    rw [(key r hr).2]
    congr 1
    unfold Var.sizes Var.shapeAt
    rw [List.getD_eq_getElem?_getD, List.getD_eq_getElem?_getD, List.getElem?_map]
    cases v.shapes[r]? <;> rfl

/-- A problem on two ranks: a distributed quantity `x` with two and three entries, one that lives
on the second rank only, a distributed input `p` and the time. -/
def exampleProblem : Problem :=
  { vars := [
      ⟨"t", .input, ["time_variable"], [1], [some [1], some [1]]⟩,
      ⟨"x_old", .input, ["x", "step_input_var"], [5], [some [2], some [3]]⟩,
      ⟨"x_acc", .input, ["x", "accumulated_stage_var"], [5], [some [2], some [3]]⟩,
      ⟨"p_in", .input, ["p", "time_independent_input_var"], [4], [some [1], some [3]]⟩,
      ⟨"x_up", .output, ["x", "stage_output_var"], [5], [some [2], some [3]]⟩,
      ⟨"y_up", .output, ["y", "stage_output_var"], [2, 2], [none, some [2, 2]]⟩],
    emptyTagsMatchAll := false }

-- the setup succeeds, and the second rank has the array size 3 + 4
example : ((setup exampleProblem 2 ["x", "y"] []).toOption.bind (·[1]?)).map
    (fun m => (m.arraySize, m.quantities.map fun q => (q.arr.start, q.arr.stop))) =
      some (7, [(0, 3), (3, 7)]) := by decide +kernel

example : Ordinary exampleProblem "x"
    ⟨"x_up", .output, ["x", "stage_output_var"], [5], [some [2], some [3]]⟩ := by
  constructor <;> decide

/-- The global ranges of distributed *independent inputs* are read from the size table of the
outputs: here the input `p` with one and three entries is given the ranges `0..2` and `2..5` of an
output, or the setup fails with an `IndexError`. -/
theorem C44_independent_global_violated :
    (∃ (P : Problem) (ms : List Meta), (∀ v ∈ P.vars, v.sizes.sum = v.globalShape.prod) ∧
      (P.vars.map Var.name).Nodup ∧ setup P 2 ["x"] ["p"] = .ok ms ∧
      ∃ v ∈ P.vars, v.name = "p_in" ∧ v.sizes = [1, 3] ∧
        ms.map (fun m => m.independents.map fun q =>
          (q.name, q.independentInput, q.arr.globalStart, q.arr.globalStop)) =
            [[("p", some "p_in", 0, 2)], [("p", some "p_in", 2, 5)]]) ∧
    setup { exampleProblem with vars := exampleProblem.vars.eraseIdx 5 } 2 ["x"] ["p"] =
      .error .index := by
  constructor
  · refine ⟨⟨[
      ⟨"p_in", .input, ["p", "time_independent_input_var"], [4], [some [1], some [3]]⟩,
      ⟨"x_up", .output, ["x", "stage_output_var"], [5], [some [2], some [3]]⟩], false⟩,
      ((setup ⟨[
      ⟨"p_in", .input, ["p", "time_independent_input_var"], [4], [some [1], some [3]]⟩,
      ⟨"x_up", .output, ["x", "stage_output_var"], [5], [some [2], some [3]]⟩], false⟩
        2 ["x"] ["p"]).toOption.getD []), ?_, ?_, ?_, ?_⟩
    · decide
    · decide
    · decide +kernel
    · decide +kernel
  · decide +kernel

/-! ### C45: roles -/

theorem countP_isOut (P : Problem) (rank : ℕ) (q : String) :
    (ioMetadata P none [q] (some rank)).countP isOut =
      (carriers P rank q "stage_output_var").length := by
  unfold ioMetadata carriers isOut
  rw [List.countP_filter, List.countP_eq_length_filter]
  congr 1
  refine List.filter_congr fun v _ => ?_
  rw [Bool.eq_iff_iff]
  simp
  tauto

theorem countP_isStep {P : Problem} {rank : ℕ} {q : String} (hex : ExclusiveRoles P q) :
    (ioMetadata P none [q] (some rank)).countP isStep =
      (carriers P rank q "step_input_var").length := by
  unfold ioMetadata carriers isStep isOut
  rw [List.countP_filter, List.countP_eq_length_filter]
  congr 1
  refine List.filter_congr fun v hv => ?_
  have := hex v hv
  rw [Bool.eq_iff_iff]
  simp
  tauto

theorem countP_isAcc {P : Problem} {rank : ℕ} {q : String} (hex : ExclusiveRoles P q) :
    (ioMetadata P none [q] (some rank)).countP isAcc =
      (carriers P rank q "accumulated_stage_var").length := by
  unfold ioMetadata carriers isAcc isOut
  rw [List.countP_filter, List.countP_eq_length_filter]
  congr 1
  refine List.filter_congr fun v hv => ?_
  have := hex v hv
  rw [Bool.eq_iff_iff]
  simp
  tauto

/-- If no variable has two roles and only outputs are tagged as stage output, the extraction of a
quantity succeeds exactly when on the rank there is one stage output and one or none of both step
input and accumulated stage variable; otherwise it raises `SetupError`. -/
theorem C45_roles_partial {P : Problem} {rank : ℕ} {q : String} (size : ℕ)
    (hex : ExclusiveRoles P q) (hout : OutputsAreOutputs P) :
    ((∃ r, extractQuantity P rank q size = .ok r) ↔
      (carriers P rank q "stage_output_var").length = 1 ∧
      (((carriers P rank q "step_input_var").length = 0 ∧
          (carriers P rank q "accumulated_stage_var").length = 0) ∨
       ((carriers P rank q "step_input_var").length = 1 ∧
          (carriers P rank q "accumulated_stage_var").length = 1))) ∧
    ∀ e, extractQuantity P rank q size = .error e → e.isSetupError = true := by
  obtain ⟨f, hf⟩ := fold_visit_total (P := P) (r := rank) (vs := ioMetadata P none [q] (some rank))
    (fun v hv => by
      obtain ⟨h1, _⟩ := mem_ioMetadata_single.mp hv
      exact ⟨h1, fun h => hout v h1 (by simpa [isOut] using h)⟩) { size := size }
  obtain ⟨c1, c2, c3, _⟩ := fold_visit hf
  simp only [Nat.zero_add] at c1 c2 c3
  rw [countP_isOut] at c1
  rw [countP_isStep hex] at c2
  rw [countP_isAcc hex] at c3
  rw [← c1, ← c2, ← c3]
  unfold extractQuantity
  rw [hf]
  change ((∃ r, conclude q f = .ok r) ↔ _) ∧ ∀ e, conclude q f = .error e → _
  unfold conclude
  constructor
  · constructor
    · rintro ⟨r, h⟩
      split_ifs at h with h1 h2 h3 h4 h5
      simp only [List.mem_cons, Prod.mk.injEq, List.not_mem_nil, or_false] at h5
      exact ⟨by omega, h5⟩
    · rintro ⟨h1, h2⟩
      have e1 : ¬ f.outs > 1 := by omega
      have e2 : ¬ f.steps > 1 := by omega
      have e3 : ¬ f.accs > 1 := by omega
      have e4 : ¬ f.outs < 1 := by omega
      have e5 : ¬ ¬ ((f.steps, f.accs) ∈ [(0, 0), (1, 1)]) := by simp; omega
      rw [if_neg e1, if_neg e2, if_neg e3, if_neg e4, if_neg e5]
      exact ⟨_, rfl⟩
  · intro e he
    split_ifs at he <;> cases he <;> rfl

-- the hypotheses hold for the example, whose quantity `x` has all three roles
example : ExclusiveRoles exampleProblem "x" ∧ OutputsAreOutputs exampleProblem ∧
    (carriers exampleProblem 0 "x" "stage_output_var").length = 1 ∧
    (carriers exampleProblem 0 "x" "step_input_var").length = 1 := by
  refine ⟨?_, ?_, ?_, ?_⟩
  · unfold ExclusiveRoles; decide
  · unfold OutputsAreOutputs; decide
  · decide
  · decide

/-- A variable with two role tags is only counted for the first: a quantity that has a step input
and no accumulated stage variable is accepted, and one that has one of each is refused. -/
theorem C45_two_roles_violated :
    (∃ P : Problem, OutputsAreOutputs P ∧
      (carriers P 0 "x" "step_input_var").length = 1 ∧
      (carriers P 0 "x" "accumulated_stage_var").length = 0 ∧
      ∃ r, extractQuantity P 0 "x" 0 = .ok r) ∧
    ∃ P : Problem, OutputsAreOutputs P ∧
      (carriers P 0 "x" "stage_output_var").length = 1 ∧
      (carriers P 0 "x" "step_input_var").length = 1 ∧
      (carriers P 0 "x" "accumulated_stage_var").length = 1 ∧
      extractQuantity P 0 "x" 0 = .error (.unpaired "x") := by
  constructor
  · refine ⟨⟨[⟨"x_up", .output, ["x", "stage_output_var", "step_input_var"], [2], [some [2]]⟩],
      false⟩, ?_, ?_, ?_, ?_⟩
    · unfold OutputsAreOutputs; decide
    · decide
    · decide
    · exact ⟨(2, ⟨"x", ⟨[2], [2], true, false, 0, 2, 0, 2⟩, none, none, some "x_up", none⟩),
        by decide +kernel⟩
  · refine ⟨⟨[⟨"x_up", .output, ["x", "stage_output_var", "step_input_var"], [2], [some [2]]⟩,
      ⟨"x_acc", .input, ["x", "accumulated_stage_var"], [2], [some [2]]⟩],
      false⟩, ?_, ?_, ?_, ?_, ?_⟩
    · unfold OutputsAreOutputs; decide
    · decide
    · decide
    · decide
    · decide +kernel

/-- An input tagged as stage output can lead to an `IndexError` instead of a `SetupError`. -/
theorem C45_index_error_violated :
    ∃ P : Problem, ExclusiveRoles P "x" ∧ extractQuantity P 0 "x" 0 = .error .index := by
  refine ⟨⟨[⟨"x_up", .input, ["x", "stage_output_var"], [5], [some [2], some [3]]⟩], false⟩,
    ?_, ?_⟩
  · unfold ExclusiveRoles; decide
  · decide +kernel

/-! ### C46: list of quantities -/

/-- In a list recorded for the variables of all ranks every requested quantity appears as often as
there are variables of that type tagged with it, and nothing else appears. -/
theorem records_count {P : Problem} {rank : ℕ} {io : IOType} {req : List String}
    {ext : String → ℕ → Except Err (ℕ × Quantity)} (t : String) :
    ∀ {vs : List Var} {qs : List Quantity},
      List.Forall₂ (Records P rank io req ext) vs qs →
      (qs.map Quantity.name).count t =
        if t ∈ req then (vs.filter fun v => v.tags.contains t).length else 0
  | [], _, .nil => by simp
  | v :: vs, _, .cons (b := Q) h hs => by
      have ih := records_count t hs
      rw [List.map_cons, List.count_cons, ih]
      have hm : ∀ s, (s ∈ req ∧ s ∈ v.tags) ↔ s = Q.name := by
        intro s
        have : s ∈ req.dedup.filter (fun t => v.tags.contains t) ↔ s ∈ [Q.name] := by rw [h.1]
        simpa using this
      have ht := hm t
      have hQ := (hm Q.name).mpr rfl
      by_cases hr : t ∈ req
      · rw [if_pos hr, if_pos hr, List.filter_cons]
        by_cases hv : t ∈ v.tags
        · have he : t = Q.name := ht.mp ⟨hr, hv⟩
          rw [he] at hv
          simp [hv, he]
        · have he : ¬ Q.name = t := fun he => hv (ht.mpr he.symm).2
          simp [hv, he]
      · rw [if_neg hr, if_neg hr]
        have he : ¬ Q.name = t := fun he => hr (he ▸ hQ.1)
        simp [he]

theorem filter_ioMetadata {P : Problem} {io : IOType} {req : List String} {t : String}
    (ht : t ∈ req) :
    (ioMetadata P (some io) req none).filter (fun v => v.tags.contains t) = tagged P io t := by
  unfold ioMetadata tagged
  rw [List.filter_filter]
  refine List.filter_congr fun v _ => ?_
  rw [Bool.eq_iff_iff]
  simp
  constructor
  · rintro ⟨a, b, _⟩; exact ⟨b, a⟩
  · rintro ⟨a, b⟩; exact ⟨b, a, Or.inr ⟨t, ht, b⟩⟩

/-- If the setup succeeds, on every rank each requested quantity is listed as often as there are
output variables (on any rank) tagged with it, and no other quantity is listed; in particular the
list has each requested quantity once exactly if each one has exactly one output variable. The same
for the independent inputs with input variables. -/
theorem C46_listed_partial {P : Problem} {n : ℕ} {req ind : List String} {ms : List Meta}
    (h : setup P n req ind = .ok ms) {r : ℕ} {m : Meta} (hr : ms[r]? = some m) :
    (∀ t, (m.quantities.map Quantity.name).count t =
      if t ∈ req then (tagged P .output t).length else 0) ∧
    (∀ t, (m.independents.map Quantity.name).count t =
      if t ∈ ind then (tagged P .input t).length else 0) ∧
    ((m.quantities.map Quantity.name).Perm req.dedup ↔
      ∀ t ∈ req, (tagged P .output t).length = 1) ∧
    ((m.independents.map Quantity.name).Perm ind.dedup ↔
      ∀ t ∈ ind, (tagged P .input t).length = 1) := by
  obtain ⟨m0, hm0, _, _, _, _, ⟨g, hg⟩, ⟨g', hg'⟩⟩ := setup_rank h hr
  obtain ⟨_, recs, _, _, recs', none'⟩ := rankMetadata_ok hm0
  have names : ∀ (qs : List Quantity) (g : ℕ → Bool),
      (qs.mapIdx fun j q => { q with arr := { q.arr with distributed := g j } }).map
        Quantity.name = qs.map Quantity.name := by
    intro qs g
    apply List.ext_getElem
    · simp
    · intro i h1 h2
      simp
  have c1 : ∀ t, (m.quantities.map Quantity.name).count t =
      if t ∈ req then (tagged P .output t).length else 0 := by
    intro t
    rw [hg, names, records_count t recs]
    by_cases ht : t ∈ req
    · rw [if_pos ht, if_pos ht, filter_ioMetadata ht]
    · rw [if_neg ht, if_neg ht]
  have c2 : ∀ t, (m.independents.map Quantity.name).count t =
      if t ∈ ind then (tagged P .input t).length else 0 := by
    intro t
    rw [hg', names]
    by_cases hi : ind = []
    · rw [none' hi, hi]; simp
    · rw [records_count t (recs' hi)]
      by_cases ht : t ∈ ind
      · rw [if_pos ht, if_pos ht, filter_ioMetadata ht]
      · rw [if_neg ht, if_neg ht]
  have perm : ∀ (l : List String) (names : List String) (c : String → ℕ),
      (∀ t, names.count t = if t ∈ l then c t else 0) →
      (names.Perm l.dedup ↔ ∀ t ∈ l, c t = 1) := by
    intro l names c hc
    rw [List.perm_iff_count]
    constructor
    · intro hp t ht
      have := hp t
      rw [hc t, if_pos ht, List.count_eq_one_of_mem (List.nodup_dedup l)
        (List.mem_dedup.mpr ht)] at this
      exact this
    · intro hp t
      rw [hc t]
      by_cases ht : t ∈ l
      · rw [if_pos ht, hp t ht, List.count_eq_one_of_mem (List.nodup_dedup l)
          (List.mem_dedup.mpr ht)]
      · rw [if_neg ht, List.count_eq_zero_of_not_mem (fun h => ht (List.mem_dedup.mp h))]
  exact ⟨c1, c2, perm _ _ _ c1, perm _ _ _ c2⟩

/-- A requested quantity without output variable is silently missing. -/
theorem C46_missing_violated :
    ∃ ms m, setup exampleProblem 1 ["y", "z"] [] = .ok ms ∧ ms[0]? = some m ∧
      "z" ∉ m.quantities.map Quantity.name := by
  refine ⟨(setup exampleProblem 1 ["y", "z"] []).toOption.getD [],
    ((setup exampleProblem 1 ["y", "z"] []).toOption.getD [])[0]?.getD {}, ?_, ?_, ?_⟩
  · decide +kernel
  · decide +kernel
  · decide +kernel

/-- A quantity with a further output variable is listed twice, with twice the space in the state
array. -/
theorem C46_twice_violated :
    ∃ (P : Problem) (ms : List Meta) (m : Meta), setup P 1 ["x"] [] = .ok ms ∧ ms[0]? = some m ∧
      m.quantities.map Quantity.name = ["x", "x"] ∧ m.arraySize = 4 ∧
      (carriers P 0 "x" "stage_output_var").map (fun v => v.sizes) = [[2]] := by
  refine ⟨⟨[⟨"x_up", .output, ["x", "stage_output_var"], [2], [some [2]]⟩,
      ⟨"x_log", .output, ["x"], [1], [some [1]]⟩], false⟩,
    (setup ⟨[⟨"x_up", .output, ["x", "stage_output_var"], [2], [some [2]]⟩,
      ⟨"x_log", .output, ["x"], [1], [some [1]]⟩], false⟩ 1 ["x"] []).toOption.getD [],
    ((setup ⟨[⟨"x_up", .output, ["x", "stage_output_var"], [2], [some [2]]⟩,
      ⟨"x_log", .output, ["x"], [1], [some [1]]⟩], false⟩ 1 ["x"] []).toOption.getD [])[0]?.getD {},
    ?_, ?_, ?_, ?_, ?_⟩ <;> decide +kernel

/-! ### C47: time variable -/

theorem searchTime_eq (P : Problem) (rank : ℕ) :
    searchTime P rank =
      match tagged P .input "time_variable" with
      | [] => .ok none
      | [v] => if (v.shapeAt rank).isSome then
          (if v.globalShape.prod = 1 then .ok (some v.name) else .error .timeNotScalar)
          else .error .manyTimeVariables
      | _ => .error .manyTimeVariables := by
  have h1 : ioMetadata P (some .input) ["time_variable"] none = tagged P .input "time_variable" := by
    unfold ioMetadata tagged
    refine List.filter_congr fun v _ => ?_
    rw [Bool.eq_iff_iff]
    simp
  have h2 : ioMetadata P (some .input) ["time_variable"] (some rank) =
      (tagged P .input "time_variable").filter fun v => (v.shapeAt rank).isSome := by
    unfold ioMetadata tagged
    rw [List.filter_filter]
    refine List.filter_congr fun v _ => ?_
    rw [Bool.eq_iff_iff]
    simp
    tauto
  unfold searchTime
  rw [h1, h2]
  match tagged P .input "time_variable" with
  | [] => rfl
  | [v] =>
    by_cases hv : (v.shapeAt rank).isSome = true
    · simp only [List.filter_cons, hv, List.filter_nil]
      by_cases hp : v.globalShape.prod = 1
      · simp [hp]
      · simp [hp]
    · simp only [Bool.not_eq_true] at hv
      simp only [List.filter_cons, hv, List.filter_nil]
      simp
  | a :: b :: l =>
    simp only
    split <;> simp_all

/-- Without tagged input there is no time variable, and only then; a variable is used exactly if it
is the only tagged input of all ranks, is a scalar and is on the rank; everything else raises
`SetupError`. (A time variable that is on another rank is an error, too.) -/
theorem C47_time_variable_partial (P : Problem) (rank : ℕ) :
    (searchTime P rank = .ok none ↔ tagged P .input "time_variable" = []) ∧
    (∀ name, searchTime P rank = .ok (some name) ↔
      ∃ v, tagged P .input "time_variable" = [v] ∧ v.name = name ∧ v.globalShape.prod = 1 ∧
        (v.shapeAt rank).isSome = true) ∧
    ∀ e, searchTime P rank = .error e → e.isSetupError = true := by
  rw [searchTime_eq]
  match tagged P .input "time_variable" with
  | [] => simp
  | [v] =>
    by_cases hv : (v.shapeAt rank).isSome = true
    · by_cases hp : v.globalShape.prod = 1
      · simp [hv, hp]
      · simp [hv, hp, Err.isSetupError]
    · simp [hv, Err.isSetupError]
  | a :: b :: l => simp [Err.isSetupError]

example : searchTime exampleProblem 1 = .ok (some "t") := by decide +kernel

/-- The only scalar time variable of the problem is on the first rank: the setup of the second rank
is refused because of "more than one" time variable. -/
theorem C47_remote_violated :
    ∃ P : Problem, (tagged P .input "time_variable").length = 1 ∧
      (∀ v ∈ tagged P .input "time_variable", v.globalShape.prod = 1) ∧
      searchTime P 0 = .ok (some "t") ∧ searchTime P 1 = .error .manyTimeVariables :=
  ⟨⟨[⟨"t", .input, ["time_variable"], [1], [some [1], none]⟩], false⟩,
    by decide +kernel, by decide +kernel, by decide +kernel, by decide +kernel⟩

end Verif.Props
