/-
C94: which runs of the convergence study raise, and with what. C114: the order in which the setup
refuses.
-/
import Verif.Props.Study
import Verif.Props.Misconfig

namespace Verif.Props

open Verif.Problems Verif.Fl Verif.Integrator Verif.Options Verif.Component Verif.Metadata

/-- C94: the number of steps is computed for every step size but zero. For zero, `int` is given NaN
if the time objective is zero too, and raises `ValueError`; otherwise it is given an infinity and
raises `OverflowError`. -/
theorem C94_raises (fl : ℝ → ℝ) (T h : ℝ) (e : StudyErr) :
    homogeneousRun fl T h = .error e ↔
      h = 0 ∧ ((T = 0 ∧ e = .value) ∨ (T ≠ 0 ∧ e = .overflow)) := by
  unfold homogeneousRun
  by_cases hh : h = 0 <;> by_cases hT : T = 0 <;> simp [hh, hT, eq_comm]

/-- Both cases. -/
example : homogeneousRun rnd 10 0 = .error .overflow ∧ homogeneousRun rnd 0 0 = .error .value :=
  ⟨(C94_raises _ _ _ _).mpr ⟨rfl, .inr ⟨by norm_num, rfl⟩⟩,
    (C94_raises _ _ _ _).mpr ⟨rfl, .inl ⟨rfl, rfl⟩⟩⟩

variable {α : Type} (info : Meta) (stage : String → List ℝ) (so : SetupOptions α) (crit : Crit)
  (rank : ℕ) (logging clock : Integrator.Kind → α) (id : ℕ)

/-- C114: what is wrong with the variables, the tableau or the controllers is raised first, whatever
the checkpointer is. -/
theorem C114_setup_first (ck : CkChoice) (e : SetupErr)
    (h : setupComponent info stage so rank logging clock = .error e) :
    setupAll info stage so crit rank logging clock id ck = .error (.setup e) := by
  unfold setupAll
  rw [h]

/-- C114: after that, setup succeeds with the two checkpointers that have no options, and with
pyrevolve it raises exactly what its checkpointer raises, else keeps the class and the options that
the checkpointer made. -/
theorem C114_setup_choice (r : Ready α)
    (h : setupComponent info stage so rank logging clock = .ok r) :
    setupAll info stage so crit rank logging clock id .no = .ok (r, none) ∧
    setupAll info stage so crit rank logging clock id .all = .ok (r, none) ∧
    (∀ name d e, setupAll info stage so crit rank logging clock id (.pyrevolve name d) = .error e ↔
      makePy id name crit d = .error e) ∧
    ∀ name d ty d', setupAll info stage so crit rank logging clock id (.pyrevolve name d)
      = .ok (r, some (ty, d')) ↔ makePy id name crit d = .ok (ty, d') := by
  unfold setupAll
  rw [h]
  refine ⟨rfl, rfl, fun name d e => ?_, fun name d ty d' => ?_⟩ <;>
    cases hm : makePy id name crit d <;> simp [hm]

/-- Setup that fails for the empty list of controllers, also with an unknown type of revolver; and
setup that succeeds up to the checkpointer. -/
example : setupAll oneMeta (fun _ => [3]) ⟨true, some 1, Control.Config.default, [], fun _ => none⟩
      (.steps 5) 0 (fun _ => 1) (fun _ => 2) 0 (.pyrevolve "Disc" []) = .error (.setup .attribute) ∧
    ∃ r, setupComponent oneMeta (fun _ => [3])
      ⟨true, some 1, Control.Config.default, [Control.integral], fun _ => none⟩
      0 (fun _ => 1) (fun _ => 2) = .ok r := by
  obtain ⟨ds, hd⟩ := one_declared
  refine ⟨C114_setup_first _ _ _ _ _ _ _ _ _ _ (by simp [setupComponent, hd, Control.buildChain]), ?_⟩
  exact ⟨_, by simp only [setupComponent, hd, Control.buildChain]; rfl⟩

end Verif.Props
