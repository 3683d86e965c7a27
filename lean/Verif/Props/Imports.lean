/-
C117: names of the shipped tableaux, and the scripts of the convergence study.
-/
import Verif.Problems.Imports

namespace Verif.Props

open Verif.Tableau Verif.Problems

/-- C117: an import succeeds if and only if all names are bound, and then binds every alias to the value
of its name, in the order of the import. -/
theorem C117_import_ok {α : Type} (bindings : List (String × α)) (names : List (String × String))
    (r : List (String × α)) :
    importFrom bindings names = .ok r ↔
      List.Forall₂ (fun n v => v.1 = n.2 ∧ bindings.lookup n.1 = some v.2) names r := by
  induction names generalizing r with
  | nil => cases r <;> simp [importFrom]
  | cons n ns ih =>
    obtain ⟨n, a⟩ := n
    rw [importFrom]
    cases h : bindings.lookup n with
    | none => simp only [reduceCtorEq, false_iff]; rintro (_ | ⟨⟨_, h'⟩, _⟩); simp [h] at h'
    | some v =>
      cases h2 : importFrom bindings ns with
      | error e =>
        simp only [reduceCtorEq, false_iff]
        rintro (_ | @⟨_, _, _, rs, _, ht⟩)
        rw [← ih, h2] at ht
        cases ht
      | ok vs =>
        simp only [Except.ok.injEq]
        constructor
        · rintro rfl
          exact .cons ⟨rfl, h⟩ ((ih vs).1 h2)
        · rintro (_ | @⟨_, w, _, rs, ⟨h1, h3⟩, ht⟩)
          rw [← ih, h2] at ht
          cases ht
          rw [h] at h3
          cases h3
          cases w
          cases h1
          rfl

/-- C117: an import raises if and only if a name is not bound, and the exception has the first such
name. -/
theorem C117_import_error {α : Type} (bindings : List (String × α)) (names : List (String × String))
    (e : String) :
    importFrom bindings names = .error e ↔
      ∃ pre loc post, names = pre ++ (e, loc) :: post ∧ bindings.lookup e = none ∧
        ∀ n ∈ pre, bindings.lookup n.1 ≠ none := by
  induction names with
  | nil => simp [importFrom]
  | cons n ns ih =>
    obtain ⟨n, a⟩ := n
    rw [importFrom]
    cases h : bindings.lookup n with
    | none =>
      simp only [Except.error.injEq]
      constructor
      · rintro rfl
        exact ⟨[], a, ns, rfl, h, by simp⟩
      · rintro ⟨_ | ⟨p, ps⟩, loc, post, heq, h1, h2⟩
        · simp only [List.nil_append, List.cons.injEq, Prod.mk.injEq] at heq
          exact heq.1.1
        · simp only [List.cons_append, List.cons.injEq] at heq
          exact absurd h (by simpa [← heq.1] using h2 p (by simp))
    | some v =>
      have : (∃ pre loc post, (n, a) :: ns = pre ++ (e, loc) :: post ∧
          bindings.lookup e = none ∧ ∀ n ∈ pre, bindings.lookup n.1 ≠ none) ↔
          ∃ pre loc post, ns = pre ++ (e, loc) :: post ∧ bindings.lookup e = none ∧
            ∀ n ∈ pre, bindings.lookup n.1 ≠ none := by
        constructor
        · rintro ⟨_ | ⟨p, ps⟩, loc, post, heq, h1, h2⟩
          · simp only [List.nil_append, List.cons.injEq, Prod.mk.injEq] at heq
            rw [heq.1.1, h1] at h
            cases h
          · simp only [List.cons_append, List.cons.injEq] at heq
            exact ⟨ps, loc, post, heq.2, h1, fun m hm => h2 m (by simp [hm])⟩
        · rintro ⟨pre, loc, post, rfl, h1, h2⟩
          refine ⟨(n, a) :: pre, loc, post, rfl, h1, ?_⟩
          intro m hm
          rcases List.mem_cons.1 hm with rfl | hm
          · simp [h]
          · exact h2 m hm
      rw [this, ← ih]
      cases importFrom bindings ns <;> simp

/-- C117: every name of `__all__` is bound, once, to a tableau; what `from butcher_tableaux import *`
binds are the shipped tableaux that the properties of the shipped tableaux are about, the plain ones
before the embedded ones. -/
theorem C117_all : tableauxAll.Nodup ∧ (tableauxBindings.map Prod.fst).Nodup ∧
    ∃ r, importStar tableauxBindings tableauxAll = .ok r ∧ r.map Prod.fst = tableauxAll ∧
      r.map Prod.snd = plainShipped.map (fun e => Bound.plain e.tab) ++
        embShipped.map (fun e => Bound.emb e.tab) := by
  refine ⟨by decide, by simp [tableauxBindings], ?_⟩
  refine ⟨_, rfl, rfl, rfl⟩

/-- C117 is violated for the scripts of the study: constants.py imports a name that does not exist. All
of them end in `ImportError` for this name before they run or draw anything, whatever they do. -/
theorem C117_study_violated {β : Type} (body : List (String × Bound) → Except String β) :
    studyScript tableauxBindings (studyImports "embedded_third_order_three_stage_sdirk") body =
      .error "embedded_third_order_three_stage_sdirk" := rfl

/-- C117: with a name that exists the scripts get a tableau for every key of `BUTCHER_TABLEAUX`, in the
order of the keys. -/
theorem C117_study {β : Type} (third : String) (v : Bound)
    (h : tableauxBindings.lookup third = some v)
    (body : List (String × Bound) → Except String β) :
    studyScript tableauxBindings (studyImports third) body = body [
      ("SDIRK2", .emb (embeddedSecondOrderTwoStageSdirk.map embQ2)),
      ("ESDIRK2", .emb (embeddedSecondOrderThreeStageEsdirk.map embQ2)),
      ("SDIRK3", v),
      ("ESDIRK3", .emb (embeddedThirdOrderFourStageEsdirk.map (Rat.castHom ℝ))),
      ("SDIRK4", .emb (embeddedFourthOrderFourStageSdirk.map (Rat.castHom ℝ))),
      ("ESDIRK4", .emb (embeddedFourthOrderFiveStageEsdirk.map (Rat.castHom ℝ)))] := by
  have : importFrom tableauxBindings (studyImports third) = .ok [
      ("second_order_sdirk", .emb (embeddedSecondOrderTwoStageSdirk.map embQ2)),
      ("second_order_esdirk", .emb (embeddedSecondOrderThreeStageEsdirk.map embQ2)),
      ("third_order_sdirk", v),
      ("third_order_esdirk", .emb (embeddedThirdOrderFourStageEsdirk.map (Rat.castHom ℝ))),
      ("fourth_order_sdirk", .emb (embeddedFourthOrderFourStageSdirk.map (Rat.castHom ℝ))),
      ("fourth_order_esdirk",
        .emb (embeddedFourthOrderFiveStageEsdirk.map (Rat.castHom ℝ)))] := by
    rw [C117_import_ok]
    exact .cons ⟨rfl, rfl⟩ (.cons ⟨rfl, rfl⟩ (.cons ⟨rfl, h⟩ (.cons ⟨rfl, rfl⟩ (.cons ⟨rfl, rfl⟩
      (.cons ⟨rfl, rfl⟩ .nil)))))
  rw [studyScript, this]
  rfl

/-- C117: both three stage SDIRK schemes of order three that exist repair the scripts: they then have
embedded schemes of the orders the keys say, with different names, so that the files of the study are
different. -/
theorem C117_study_repaired (third : String)
    (h : third = "embedded_third_order_three_stage_sdirk1" ∨
      third = "embedded_third_order_three_stage_sdirk2") :
    ∃ d : List (String × EmbTableau ℝ),
      (∀ {β : Type} (body : List (String × Bound) → Except String β),
        studyScript tableauxBindings (studyImports third) body =
          body (d.map fun e => (e.1, .emb e.2))) ∧
      d.map (fun e => (e.1, e.2.p)) = [("SDIRK2", some 2), ("ESDIRK2", some 2), ("SDIRK3", some 3),
        ("ESDIRK3", some 3), ("SDIRK4", some 4), ("ESDIRK4", some 4)] ∧
      (d.map fun e => e.2.name).Nodup ∧
      ∀ e ∈ d, ∃ s ∈ embShipped, s.tab = e.2 := by
  obtain ⟨T, hT, hp, hn, hs⟩ : ∃ T : EmbTableau ℝ, tableauxBindings.lookup third = some (.emb T) ∧
      T.p = some 3 ∧ T.name = "SDIRK 3-stage, 3rd order" ∧ ∃ s ∈ embShipped, s.tab = T := by
    rcases h with rfl | rfl
    · exact ⟨_, rfl, rfl, rfl, by
        simp only [embShipped, List.mem_cons, exists_eq_or_imp, true_or, or_true]⟩
    · exact ⟨_, rfl, rfl, rfl, by
        simp only [embShipped, List.mem_cons, exists_eq_or_imp, true_or, or_true]⟩
  refine ⟨[
      ("SDIRK2", (embeddedSecondOrderTwoStageSdirk.map embQ2)),
      ("ESDIRK2", (embeddedSecondOrderThreeStageEsdirk.map embQ2)),
      ("SDIRK3", T),
      ("ESDIRK3", (embeddedThirdOrderFourStageEsdirk.map (Rat.castHom ℝ))),
      ("SDIRK4", (embeddedFourthOrderFourStageSdirk.map (Rat.castHom ℝ))),
      ("ESDIRK4", (embeddedFourthOrderFiveStageEsdirk.map (Rat.castHom ℝ)))], ?_, ?_, ?_, ?_⟩
  · intro β body
    rw [C117_study third _ hT]
    rfl
  · simp only [List.map_cons, List.map_nil, hp]
    rfl
  · simp only [List.map_cons, List.map_nil, hn]
    simp only [EmbTableau.map, Tableau.map, embeddedSecondOrderTwoStageSdirk,
      embeddedSecondOrderThreeStageEsdirk, embeddedThirdOrderFourStageEsdirk,
      embeddedFourthOrderFourStageSdirk, embeddedFourthOrderFiveStageEsdirk]
    decide
  · simp only [List.forall_mem_cons, List.not_mem_nil, false_imp_iff, implies_true, and_true]
    refine ⟨?_, ?_, hs, ?_, ?_, ?_⟩ <;>
    simp only [embShipped, List.mem_cons, exists_eq_or_imp, true_or, or_true]

/-- The names exist. -/
example : tableauxBindings.lookup "embedded_third_order_three_stage_sdirk1" =
    some (.emb (embeddedThirdOrderThreeStageSdirk1.map (Rat.castHom ℝ))) := rfl

end Verif.Props
