/-
Model of the default callbacks: what is printed while the integrator runs.

Source: /repo/src/rkopenmdao/callback.py L79-137
        /repo/src/rkopenmdao/runge_kutta_integrator.py L266-288

The callbacks of an operation are number 0 (`IterationLogging`) and number 1
(`WallClockMeasurement`); each of the three kinds of operations has instances of its own. Nobody else
reads the clock of the measurement. Simplification: only the lines of the callbacks are looked at, not
the messages of the integrator itself; numbers are printed exactly.
-/
import Verif.Integrator.Model

namespace Verif.Integrator

variable {D : Type}

/-- A printed line. -/
inductive Line where
  /-- `Starting step <it> of name.`, callback.py L99 -/
  | starting (it : ℕ) (name : String)
  /-- `Finishing step <it> of name.`, callback.py L108 -/
  | finishing (it : ℕ) (name : String)
  /-- `Iteration took t seconds.`, callback.py L137 -/
  | took (t : ℝ)

/-- The names the logging callbacks get, runge_kutta_integrator.py L266-284. -/
def Kind.name : Kind → String
  | .compute => "compute"
  | .fwd => "compute_jacvec_product_fwd"
  | .rev => "compute_jacvec_product_rev"

/-- How often the clock was read so far, and `_before_time` of the three measurements (callback.py
L116-117, initially 0). -/
structure Watch where
  reads : ℕ
  before : Kind → ℝ

/-- One call of a callback: the new state of the measurements and what is printed. `clock n` is the
result of the call number `n` of `perf_counter`. -/
def printOne (clock : ℕ → ℝ) (s : Watch) : Ev D → Watch × List Line
  -- `IterationLogging`, callback.py L92-108
  | .before k 0 it _ => (s, [.starting it k.name])
  | .after k 0 it _ => (s, [.finishing it k.name])
  -- `WallClockMeasurement`, callback.py L119-137
  | .before k 1 _ _ => (⟨s.reads + 1, fun k' => if k' = k then clock s.reads else s.before k'⟩, [])
  | .after k 1 _ _ => (⟨s.reads + 1, s.before⟩, [.took (clock s.reads - s.before k)])
  | .before _ _ _ _ => (s, [])
  | .after _ _ _ _ => (s, [])

/-- The lines printed by a sequence of calls. -/
def printAll (clock : ℕ → ℝ) : Watch → List (Ev D) → Watch × List Line
  | s, [] => (s, [])
  | s, e :: es =>
    let r := printOne clock s e
    let q := printAll clock r.1 es
    (q.1, r.2 ++ q.2)

theorem printAll_append (clock : ℕ → ℝ) (s : Watch) (a b : List (Ev D)) :
    (printAll clock s (a ++ b)).2
      = (printAll clock s a).2 ++ (printAll clock (printAll clock s a).1 b).2 ∧
    (printAll clock s (a ++ b)).1 = (printAll clock (printAll clock s a).1 b).1 := by
  induction a generalizing s with
  | nil => exact ⟨rfl, rfl⟩
  | cons e es ih => simp [printAll, ih]

/-- The calls of both callbacks of a kind around a step. -/
def stepCalls (k : Kind) (it : ℕ) (x y : IState D) : List (Ev D) :=
  (List.range 2).map (fun j => .before k j it x) ++ (List.range 2).map (fun j => .after k j it y)

/-- Complete steps print three lines each. -/
theorem printAll_steps (clock : ℕ → ℝ) (k : Kind) (q : List (ℕ × IState D × IState D)) (s : Watch) :
    (printAll clock s (q.flatMap fun e => stepCalls k e.1 e.2.1 e.2.2)).2
      = (List.zip (List.range q.length) (q.map Prod.fst)).flatMap (fun e =>
          [.starting e.2 k.name, .finishing e.2 k.name,
            .took (clock (s.reads + 2 * e.1 + 1) - clock (s.reads + 2 * e.1))]) ∧
    (printAll clock s (q.flatMap fun e => stepCalls k e.1 e.2.1 e.2.2)).1.reads
      = s.reads + 2 * q.length := by
  induction q generalizing s with
  | nil => exact ⟨rfl, rfl⟩
  | cons e q ih =>
    rw [List.flatMap_cons]
    obtain ⟨h1, h2⟩ := printAll_append clock s (stepCalls k e.1 e.2.1 e.2.2)
      (q.flatMap fun e => stepCalls k e.1 e.2.1 e.2.2)
    set s' := (printAll clock s (stepCalls k e.1 e.2.1 e.2.2)).1 with hs'
    have hr : s'.reads = s.reads + 2 := rfl
    obtain ⟨i1, i2⟩ := ih s'
    constructor
    · rw [h1, i1, hr, List.length_cons, List.range_succ_eq_map, List.map_cons, List.zip_cons_cons,
        List.flatMap_cons, List.zip_map_left, List.flatMap_map]
      congr 1
      · simp [stepCalls, printAll, printOne, List.range_succ]
      · refine List.flatMap_congr fun p _ => ?_
        simp only [Prod.map, id]
        congr 3
        · congr 2
          · congr 2; omega
          · congr 1; omega
    · rw [h2, i2, hr, List.length_cons]
      omega

/-- Complete steps of any kinds print three lines each. -/
theorem printAll_kinds (clock : ℕ → ℝ) (q : List (Kind × ℕ × IState D × IState D)) (s : Watch) :
    (printAll clock s (q.flatMap fun e => stepCalls e.1 e.2.1 e.2.2.1 e.2.2.2)).2
      = (List.zip (List.range q.length) (q.map fun e => (e.1, e.2.1))).flatMap (fun e =>
          [.starting e.2.2 e.2.1.name, .finishing e.2.2 e.2.1.name,
            .took (clock (s.reads + 2 * e.1 + 1) - clock (s.reads + 2 * e.1))]) ∧
    (printAll clock s (q.flatMap fun e => stepCalls e.1 e.2.1 e.2.2.1 e.2.2.2)).1.reads
      = s.reads + 2 * q.length := by
  induction q generalizing s with
  | nil => exact ⟨rfl, rfl⟩
  | cons e q ih =>
    rw [List.flatMap_cons]
    obtain ⟨h1, h2⟩ := printAll_append clock s (stepCalls e.1 e.2.1 e.2.2.1 e.2.2.2)
      (q.flatMap fun e => stepCalls e.1 e.2.1 e.2.2.1 e.2.2.2)
    set s' := (printAll clock s (stepCalls e.1 e.2.1 e.2.2.1 e.2.2.2)).1 with hs'
    have hr : s'.reads = s.reads + 2 := rfl
    obtain ⟨i1, i2⟩ := ih s'
    constructor
    · rw [h1, i1, hr, List.length_cons, List.range_succ_eq_map, List.map_cons, List.zip_cons_cons,
        List.flatMap_cons, List.zip_map_left, List.flatMap_map]
      congr 1
      · simp [stepCalls, printAll, printOne, List.range_succ]
      · refine List.flatMap_congr fun p _ => ?_
        simp only [Prod.map, id]
        congr 3
        · congr 2
          · congr 2; omega
          · congr 1; omega
    · rw [h2, i2, hr, List.length_cons]
      omega

end Verif.Integrator
