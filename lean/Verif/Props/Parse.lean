/-
C121: the command line of the convergence study selects the problem.
-/
import Verif.Problems.Parse

namespace Verif.Props

open Verif.Problems

namespace Parse

/-- The words of a command line. -/
def wordsOf (ts : List Token) : List String :=
  ts.filterMap fun | .word w => some w | _ => none

/-- The values of `--stiffness` on a command line. -/
def valuesOf (ts : List Token) : List ℝ :=
  ts.filterMap fun | .stiffness x => x | _ => none

/-- Nothing but words and numbers for the stiffness. -/
def Clean (ts : List Token) : Prop := ∀ t ∈ ts, t ≠ .other ∧ t ≠ .stiffness none

theorem parseFrom_some (w : String) (x : Option ℝ) (ts : List Token) (r : String × Option ℝ) :
    parseFrom (some w) x ts = .ok r ↔
      Clean ts ∧ wordsOf ts = [] ∧ r = (w, (valuesOf ts).getLast?.or x) := by
  induction ts generalizing x with
  | nil => simp [parseFrom, Clean, wordsOf, valuesOf, eq_comm]
  | cons t ts ih =>
    rcases t with v | (_ | y) | _
    · simp [parseFrom, wordsOf]
    · simp [parseFrom, Clean]
    · rw [parseFrom, ih]
      have : (valuesOf (Token.stiffness (some y) :: ts)).getLast?.or x
          = (valuesOf ts).getLast?.or (some y) := by
        show (y :: valuesOf ts).getLast?.or x = _
        rw [List.getLast?_cons]
        cases (valuesOf ts).getLast? <;> simp
      rw [this]
      simp [Clean, wordsOf]
    · simp [parseFrom, Clean]

theorem parseFrom_none (x : Option ℝ) (ts : List Token) (r : String × Option ℝ) :
    parseFrom none x ts = .ok r ↔
      Clean ts ∧ wordsOf ts = [r.1] ∧ r.2 = (valuesOf ts).getLast?.or x := by
  induction ts generalizing x with
  | nil => simp [parseFrom, wordsOf]
  | cons t ts ih =>
    rcases t with v | (_ | y) | _
    · rw [parseFrom, parseFrom_some]
      simp only [Clean, wordsOf, valuesOf, List.mem_cons, forall_eq_or_imp, List.filterMap_cons,
        List.cons.injEq, Prod.ext_iff]
      constructor
      · rintro ⟨h1, h2, h3, h4⟩; exact ⟨⟨by simp, h1⟩, ⟨h3.symm, h2⟩, h4⟩
      · rintro ⟨⟨-, h1⟩, ⟨h3, h2⟩, h4⟩; exact ⟨h1, h2, h3.symm, h4⟩
    · simp [parseFrom, Clean]
    · rw [parseFrom, ih]
      have : (valuesOf (Token.stiffness (some y) :: ts)).getLast?.or x
          = (valuesOf ts).getLast?.or (some y) := by
        show (y :: valuesOf ts).getLast?.or x = _
        rw [List.getLast?_cons]
        cases (valuesOf ts).getLast? <;> simp
      rw [this]
      simp [Clean, wordsOf]
    · simp [parseFrom, Clean]

theorem parseFrom_error (w : Option String) (x : Option ℝ) (ts : List Token) (e : ParseErr)
    (h : parseFrom w x ts = .error e) : e = .exit := by
  induction ts generalizing w x with
  | nil => cases w <;> simp [parseFrom] at h; exact h.symm
  | cons t ts ih =>
    rcases t with v | (_ | y) | _ <;> cases w <;> simp only [parseFrom] at h
    · exact ih _ _ h
    · cases h; rfl
    · cases h; rfl
    · cases h; rfl
    · exact ih _ _ h
    · exact ih _ _ h
    · cases h; rfl
    · cases h; rfl

end Parse

open Parse

/-- C121: exactly the command lines with one word that is the name of a problem, and otherwise only
numbers for the stiffness, give a problem: that of the name, with the last stiffness, or the default. -/
theorem C121_problem (ts : List Token) (P : Shipped) :
    parseProblem ts = .ok P ↔ Clean ts ∧
      ((wordsOf ts = ["prothero_robinson"] ∧ P = ⟨"prothero_robinson",
          [1 / 1000, 2 / 1000, 4 / 1000, 5 / 1000, 1 / 100], ["x"], 10,
          ("lambda_", (valuesOf ts).getLast?.getD (-100))⟩) ∨
        (wordsOf ts = ["kaps"] ∧ P = ⟨"kaps", [1 / 100, 2 / 100, 4 / 100, 5 / 100, 1 / 10],
          ["y_1", "y_2"], 1, ("epsilon", (valuesOf ts).getLast?.getD 1)⟩)) := by
  have hne : ("kaps" : String) ≠ "prothero_robinson" := by decide
  rw [parseProblem]
  rcases h : parseFrom none none ts with e | ⟨w, x⟩
  · simp only [reduceCtorEq, false_iff]
    rintro ⟨hc, h' | h'⟩
    · have := (parseFrom_none none ts ("prothero_robinson", (valuesOf ts).getLast?.or none)).2
        ⟨hc, h'.1, rfl⟩
      rw [h] at this; cases this
    · have := (parseFrom_none none ts ("kaps", (valuesOf ts).getLast?.or none)).2 ⟨hc, h'.1, rfl⟩
      rw [h] at this; cases this
  · obtain ⟨hc, hw, hx⟩ := (parseFrom_none none ts (w, x)).1 h
    simp only [Option.or_none] at hx hw
    subst hx
    rw [hw]
    dsimp only
    by_cases h1 : w = "prothero_robinson"
    · subst h1
      rw [if_pos rfl]
      rcases (valuesOf ts).getLast? with _ | l <;>
        simp [hc, protheroProblem, protheroSteps, protheroTime, eq_comm]
    · rw [if_neg h1]
      by_cases h2 : w = "kaps"
      · subst h2
        rw [if_pos rfl]
        rcases (valuesOf ts).getLast? with _ | l <;>
          simp [hc, hne, kapsProblem, kapsSteps, kapsTime, eq_comm]
      · rw [if_neg h2]
        simp [h1, h2]

/-- C121: another word raises `ValueError`. -/
theorem C121_value_error (ts : List Token) : parseProblem ts = .error .value ↔
    Clean ts ∧ ∃ w, wordsOf ts = [w] ∧ w ≠ "prothero_robinson" ∧ w ≠ "kaps" := by
  rw [parseProblem]
  rcases h : parseFrom none none ts with e | ⟨w, x⟩
  · have := parseFrom_error _ _ _ _ h
    subst this
    simp only [Except.error.injEq, reduceCtorEq, false_iff]
    rintro ⟨hc, w, hw, -⟩
    have := (parseFrom_none none ts (w, (valuesOf ts).getLast?.or none)).2 ⟨hc, hw, rfl⟩
    rw [h] at this; cases this
  · obtain ⟨hc, hw, -⟩ := (parseFrom_none none ts (w, x)).1 h
    dsimp only at hw ⊢
    rw [hw]
    by_cases h1 : w = "prothero_robinson"
    · rw [if_pos h1]; cases x <;> simp [h1]
    · rw [if_neg h1]
      by_cases h2 : w = "kaps"
      · rw [if_pos h2]; cases x <;> simp [h2]
      · rw [if_neg h2]; simp [hc, h1, h2]

/-- C121: the declared default of the problem is never used: without a word the program ends. -/
theorem C121_default_violated (ts : List Token) (h : wordsOf ts = []) :
    parseProblem ts = .error .exit := by
  rw [parseProblem]
  rcases h' : parseFrom none none ts with e | ⟨w, x⟩
  · rw [parseFrom_error _ _ _ _ h']
  · have := ((parseFrom_none none ts (w, x)).1 h').2.1
    rw [h] at this; cases this

example : Clean [.stiffness (some 2), .word "kaps", .stiffness (some 3)] ∧
    wordsOf [.stiffness (some 2), .word "kaps", .stiffness (some 3)] = ["kaps"] ∧
    valuesOf [.stiffness (some 2), .word "kaps", .stiffness (some 3)] = [2, 3] := by
  simp [Clean, wordsOf, valuesOf]

example : Clean [] ∧ wordsOf [] = [] := by simp [Clean, wordsOf]

end Verif.Props
