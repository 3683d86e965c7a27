/-
Model of the names that butcher_tableaux.py binds and of the imports of the convergence study.

Source: /repo/src/rkopenmdao/butcher_tableaux.py and
/repo/examples/convergence_study/{integration_scripts,visualization}/constants.py

Simplifications:
* the namespace of a module is the list of its bindings in the order of the code; every name is bound
  once, so that the order does not matter;
* what is not a tableau (functions, classes, `np`) is a single value `other`;
* there is no submodule of the name that is missing, which Python would try as well, because
  `rkopenmdao.butcher_tableaux` is no package;
* names of the form `__…__` that every module has are left out.
-/
import Verif.Tableau.Shipped

namespace Verif.Problems

open Verif.Tableau

/-- The value of a name of butcher_tableaux.py. -/
inductive Bound where
  | plain (T : Tableau ℝ)
  | emb (T : EmbTableau ℝ)
  | other

/-- `from module import name as alias, …`: the names are looked up one after another, the first that
is missing ends the import with `ImportError`; the bindings are those of the importing module. -/
def importFrom {α : Type} (bindings : List (String × α)) :
    List (String × String) → Except String (List (String × α))
  | [] => .ok []
  | (name, loc) :: rest =>
    match bindings.lookup name with
    | none => .error name
    | some v => match importFrom bindings rest with
      | .error e => .error e
      | .ok vs => .ok ((loc, v) :: vs)

/-- What butcher_tableaux.py binds, L20-L902. -/
noncomputable def tableauxBindings : List (String × Bound) := [
  ("np", .other),
  ("ButcherTableau", .other),
  ("EmbeddedButcherTableau", .other),
  ("explicit_euler", .plain (explicitEuler.map (Rat.castHom ℝ))),
  ("implicit_euler", .plain (implicitEuler.map (Rat.castHom ℝ))),
  ("implicit_midpoint", .plain (implicitMidpoint.map (Rat.castHom ℝ))),
  ("create_third_order_two_stage_sdirk", .other),
  ("third_order_two_stage_sdirk", .plain (thirdOrderTwoStageSdirk.map embQ3)),
  ("runge_kutta_four", .plain (rungeKuttaFour.map (Rat.castHom ℝ))),
  ("fifth_order_five_stage_sdirk", .plain (fifthOrderFiveStageSdirk.map (Rat.castHom ℝ))),
  ("embedded_heun_euler", .emb (embeddedHeunEuler.map (Rat.castHom ℝ))),
  ("create_second_order_two_stage_sdirk", .other),
  ("embedded_second_order_two_stage_sdirk", .emb (embeddedSecondOrderTwoStageSdirk.map embQ2)),
  ("create_second_order_three_stage_esdirk", .other),
  ("embedded_second_order_three_stage_esdirk",
    .emb (embeddedSecondOrderThreeStageEsdirk.map embQ2)),
  ("create_third_order_three_stage_sdirk", .other),
  ("embedded_third_order_three_stage_sdirk1",
    .emb (embeddedThirdOrderThreeStageSdirk1.map (Rat.castHom ℝ))),
  ("embedded_third_order_three_stage_sdirk2",
    .emb (embeddedThirdOrderThreeStageSdirk2.map (Rat.castHom ℝ))),
  ("create_third_order_three_stage_esdirk", .other),
  ("embedded_third_order_three_stage_esdirk",
    .emb (embeddedThirdOrderThreeStageEsdirk.map embQ3r)),
  ("create_third_order_four_stage_sdirk", .other),
  ("embedded_third_order_four_stage_sdirk",
    .emb (embeddedThirdOrderFourStageSdirk.map (Rat.castHom ℝ))),
  ("embedded_third_order_second_weak_stage_order_four_stage_dirk",
    .emb (embeddedThirdOrderSecondWeakStageOrderFourStageDirk.map (Rat.castHom ℝ))),
  ("embedded_third_order_third_weak_stage_order_four_stage_dirk",
    .emb (embeddedThirdOrderThirdWeakStageOrderFourStageDirk.map (Rat.castHom ℝ))),
  ("create_third_order_four_stage_esdirk", .other),
  ("embedded_third_order_four_stage_esdirk",
    .emb (embeddedThirdOrderFourStageEsdirk.map (Rat.castHom ℝ))),
  ("embedded_third_order_five_stage_esdirk", .emb (embeddedThirdOrderFiveStageEsdirk.map embQ2)),
  ("embedded_fourth_order_four_stage_sdirk",
    .emb (embeddedFourthOrderFourStageSdirk.map (Rat.castHom ℝ))),
  ("embedded_fourth_order_five_stage_sdirk", .emb (embeddedFourthOrderFiveStageSdirk.map embQ2)),
  ("create_fourth_order_five_stage_esdirk", .other),
  ("embedded_fourth_order_five_stage_esdirk",
    .emb (embeddedFourthOrderFiveStageEsdirk.map (Rat.castHom ℝ))),
  ("embedded_fourth_order_six_stage_esdirk", .emb (embeddedFourthOrderSixStageEsdirk.map embQ2)),
  ("embedded_fourth_order_third_weak_stage_order_six_stage_dirk",
    .emb (embeddedFourthOrderThirdWeakStageOrderSixStageDirk.map (Rat.castHom ℝ))),
  ("embedded_runge_kutta_fehlberg", .emb (embeddedRungeKuttaFehlberg.map (Rat.castHom ℝ))),
  ("embedded_fifth_order_six_stage_esdirk",
    .emb (embeddedFifthOrderSixStageEsdirk.map (Rat.castHom ℝ)))]

/-- `__all__`, butcher_tableaux.py L24-49. -/
def tableauxAll : List String := [
  "explicit_euler",
  "implicit_euler",
  "implicit_midpoint",
  "third_order_two_stage_sdirk",
  "runge_kutta_four",
  "fifth_order_five_stage_sdirk",
  "embedded_heun_euler",
  "embedded_second_order_two_stage_sdirk",
  "embedded_second_order_three_stage_esdirk",
  "embedded_third_order_three_stage_sdirk1",
  "embedded_third_order_three_stage_sdirk2",
  "embedded_third_order_three_stage_esdirk",
  "embedded_third_order_four_stage_sdirk",
  "embedded_third_order_second_weak_stage_order_four_stage_dirk",
  "embedded_third_order_third_weak_stage_order_four_stage_dirk",
  "embedded_third_order_four_stage_esdirk",
  "embedded_third_order_five_stage_esdirk",
  "embedded_fourth_order_four_stage_sdirk",
  "embedded_fourth_order_five_stage_sdirk",
  "embedded_fourth_order_five_stage_esdirk",
  "embedded_fourth_order_six_stage_esdirk",
  "embedded_fourth_order_third_weak_stage_order_six_stage_dirk",
  "embedded_runge_kutta_fehlberg",
  "embedded_fifth_order_six_stage_esdirk"]

/-- `from module import *` with the list `__all__` of the module. -/
def importStar {α : Type} (bindings : List (String × α)) (all : List String) :
    Except String (List (String × α)) :=
  importFrom bindings (all.map fun n => (n, n))

/-- The import of tableaux in constants.py of the study (L6-13, in both directories); the third name
is a parameter, in the code it is `embedded_third_order_three_stage_sdirk`. -/
def studyImports (third : String) : List (String × String) := [
  ("embedded_second_order_two_stage_sdirk", "second_order_sdirk"),
  ("embedded_second_order_three_stage_esdirk", "second_order_esdirk"),
  (third, "third_order_sdirk"),
  ("embedded_third_order_four_stage_esdirk", "third_order_esdirk"),
  ("embedded_fourth_order_four_stage_sdirk", "fourth_order_sdirk"),
  ("embedded_fourth_order_five_stage_esdirk", "fourth_order_esdirk")]

/-- Keys of `BUTCHER_TABLEAUX` with the local names of their values, constants.py
(integration_scripts L18-25, visualization L28-35). -/
def studyDict : List (String × String) := [
  ("SDIRK2", "second_order_sdirk"),
  ("ESDIRK2", "second_order_esdirk"),
  ("SDIRK3", "third_order_sdirk"),
  ("ESDIRK3", "third_order_esdirk"),
  ("SDIRK4", "fourth_order_sdirk"),
  ("ESDIRK4", "fourth_order_esdirk")]

/-- What a script of the study does: every one of them imports constants.py before it runs or draws
anything (integration_scripts/main.py L3-6, adaptive.py L10, avg_homogeneous.py L3, homogeneous.py L1,
visualization/main.py L10-13, plot_convergence.py L10, plot_errors.py), where the tableaux are imported
and collected in `BUTCHER_TABLEAUX`; the rest of the script is a parameter. The error of the dictionary
(`NameError`) has the name that is missing, like that of the import. -/
def studyScript {α β : Type} (bindings : List (String × α)) (imports : List (String × String))
    (body : List (String × α) → Except String β) : Except String β :=
  match importFrom bindings imports with
  | .error e => .error e
  | .ok loc => match importFrom loc (studyDict.map fun e => (e.2, e.1)) with
    | .error e => .error e
    | .ok d => body d

end Verif.Problems
