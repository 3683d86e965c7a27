/-
The HDF5 callback in a run of the integrator: the calls of the log (`Ev`) act on the file.

Source: /repo/src/rkopenmdao/runge_kutta_integrator.py L534-552 and
/repo/src/rkopenmdao/file_writer.py

Simplifications: the run is that of the whole state vector; `views` gives the parts of it the ranks
hold, and it is a parameter. An error measure that is not finite is written as zero (the model of the
file has real numbers only).
-/
import Verif.File.Lemmas
import Verif.Integrator.RK

namespace Verif.File

open Verif.Metadata Verif.Integrator Verif.Control Verif.RK

variable {D : Type}

/-- What a call of a callback does to the file if the callback number `j` of the list for `compute`
is the HDF5 callback, runge_kutta_integrator.py L537-551. -/
noncomputable def onEvent (period : ℕ) (ms : List Meta) (embedded : Bool)
    (views : IState D → List Snap) (j : ℕ) (f : Option File) : Ev D → Except Err (Option File)
  | .before .compute j' it _ =>
    if j' = j then (before period (ms.headD {}) embedded it f).map some else .ok f
  | .after .compute j' it x =>
    if j' = j then (after period ms it f (views x)).map some else .ok f
  | _ => .ok f

theorem foldlM_single {α β : Type} (g : β → α → Except Err β) (j : α) :
    ∀ (l : List α) (f : β), l.Nodup → j ∈ l → (∀ i ∈ l, i ≠ j → ∀ f, g f i = .ok f) →
      l.foldlM g f = g f j := by
  have skip : ∀ (l : List α) (f : β), (∀ i ∈ l, ∀ f, g f i = .ok f) → l.foldlM g f = .ok f := by
    intro l
    induction l with
    | nil => intro f _; rfl
    | cons a l ih =>
      intro f h
      rw [List.foldlM_cons, h a (by simp)]
      exact ih f fun i hi => h i (by simp [hi])
  intro l
  induction l with
  | nil => intro f _ h; simp at h
  | cons a l ih =>
    intro f hn hj h
    rw [List.foldlM_cons]
    rw [List.nodup_cons] at hn
    by_cases ha : a = j
    · subst ha
      cases hg : g f a with
      | error e => rfl
      | ok f' =>
        exact skip l f' fun i hi => h i (by simp [hi]) fun e => hn.1 (e ▸ hi)
    · rw [h a (by simp) ha]
      have hj' : j ∈ l := by
        rcases List.mem_cons.mp hj with e | e
        · exact absurd e.symm ha
        · exact e
      exact ih f hn.2 hj' fun i hi => h i (by simp [hi])

/-- The calls of one step. -/
theorem fold_step (period : ℕ) (ms : List Meta) (embedded : Bool) (views : IState D → List Snap)
    {j c : ℕ} (hj : j < c) (it : ℕ) (x x' : IState D) (f : Option File) :
    ((List.range c).map (fun j => Ev.before .compute j it x) ++
      (List.range c).map (fun j => Ev.after .compute j it x')).foldlM
        (onEvent period ms embedded views j) f
      = (stepFile period ms embedded it f (views x')).map some := by
  rw [List.foldlM_append, List.foldlM_map,
    foldlM_single _ j _ f List.nodup_range (List.mem_range.mpr hj)
      (fun i _ hi f => by simp [onEvent, hi])]
  simp only [stepFile, onEvent, ↓reduceIte]
  cases before period (ms.headD {}) embedded it f with
  | error e => rfl
  | ok f' =>
    simp only [Except.map, bind, Except.bind]
    rw [List.foldlM_map, foldlM_single _ j _ (some f') List.nodup_range (List.mem_range.mpr hj)
      (fun i _ hi f => by simp [onEvent, hi])]
    simp only [onEvent, ↓reduceIte]
    rfl

/-- The calls of a run. -/
theorem fold_run (period : ℕ) (ms : List Meta) (embedded : Bool) (views : IState D → List Snap)
    {j c : ℕ} (hj : j < c) : ∀ (states : List (IState D)) (x : IState D) (a : ℕ) (f : Option File),
    ((List.zip (List.range' a states.length) (List.zip (x :: states) states)).flatMap
      (fun q => (List.range c).map (fun j => Ev.before .compute j (q.1 + 1) q.2.1) ++
        (List.range c).map (fun j => Ev.after .compute j (q.1 + 1) q.2.2))).foldlM
        (onEvent period ms embedded views j) f
      = runFile period ms embedded (a + 1) f (states.map views) := by
  intro states
  induction states with
  | nil => intro x a f; rfl
  | cons y states ih =>
    intro x a f
    simp only [List.length_cons, List.range'_succ, List.zip_cons_cons, List.flatMap_cons,
      List.map_cons, runFile]
    rw [List.foldlM_append, fold_step period ms embedded views hj]
    cases stepFile period ms embedded (a + 1) f (views y) with
    | error e => rfl
    | ok f' => exact ih y (a + 1) (some f')

/-- The ranks see the times of the state and hold its start and final values (`glob v` are the
arrays of the quantities for the state vector `v`); `core` is the Runge-Kutta part of a
discretization state. -/
structure Views {s n m o l : ℕ} (core : D → RKState ℝ s n m o l) (ms : List Meta) (embedded : Bool)
    (glob : (Fin n → ℝ) → String → ℕ → ℝ) (views : IState D → List Snap) : Prop where
  startTime : ∀ x, ∀ a ∈ views x, a.startTime = (core x.disc).startTime
  finalTime : ∀ x, ∀ a ∈ views x, a.finalTime = (core x.disc).finalTime
  startState : ∀ x, Held ms ((views x).map Snap.startState) (glob (core x.disc).startState)
  finalState : ∀ x, Held ms ((views x).map Snap.finalState) (glob (core x.disc).finalState)
  err : ∀ x, ∀ a ∈ views x, a.err = if embedded then some (toReal x.errHist.1) else none

end Verif.File
