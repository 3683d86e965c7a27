/-
Rounding errors of whole derivative calls. The property theorems are in `Verif.Props.FloatDeriv`.
-/
import Verif.Float.DerivRuns

namespace Verif.Fl

open Verif.RK Verif.RK.Spec Verif.Control Verif.XReal Verif.Integrator Verif.Props
open Classical

variable {s n m o l : ℕ} {D : Type}

/-- The size of a perturbation of the inputs. -/
noncomputable def seedIn (i : StartingValues ℝ n m) : ℝ :=
  |i.initialTime| + ‖i.initialValues‖ + ‖i.independentInputs‖

/-- The size of a perturbation of the outputs. -/
noncomputable def seedOut (v : Outputs n) : ℝ := |v.time| + ‖v.values‖

theorem seedIn_nonneg (i : StartingValues ℝ n m) : 0 ≤ seedIn i := by unfold seedIn; positivity
theorem seedOut_nonneg (v : Outputs n) : 0 ≤ seedOut v := by unfold seedOut; positivity

/-- The rounded addition of the time. -/
theorem add_time_err {fl : ℝ → ℝ} {u : ℝ} (hf : Rounds fl u) (a t' t : ℝ) :
    |fl (a + t') - (a + t)| ≤ u * (|a| + |t'|) + |t' - t| := by
  have h1 := hf.err (a + t')
  have h2 : fl (a + t') - (a + t) = (fl (a + t') - (a + t')) + (t' - t) := by ring
  rw [h2]
  refine (abs_add_le _ _).trans ?_
  have h3 := mul_le_mul_of_nonneg_left (abs_add_le a t') hf.nonneg
  linarith

/-- From a bound along the run to a bound of the result. -/
theorem bound_result {G u κ N S a d z e : ℝ} (hG : 0 ≤ G) (hu : 0 ≤ u) (hκ : 0 ≤ κ) (hN : 0 ≤ N)
    (hS : 0 ≤ S) (ha : 0 ≤ a) (hd : d ≤ G * ((u + κ) * N) * S) (hz : z ≤ G * S)
    (he : e ≤ u * (a + z) + d) : e ≤ (G + 1) * ((u + κ) * (N + 1)) * (S + a) := by
  have h1 := mul_le_mul_of_nonneg_left (add_le_add_right hz a) hu
  have p1 : 0 ≤ G * (u * a) := by positivity
  have p2 : 0 ≤ (G + 1) * (κ * (N + 1)) * a := by positivity
  have p3 : 0 ≤ (G + 1) * (u * N) * a := by positivity
  have p4 : 0 ≤ (u + κ) * (N + 1) * S := by positivity
  have p5 : 0 ≤ G * κ * S := by positivity
  nlinarith

section
variable {fl : ℝ → ℝ} {u κ : ℝ} {dot : List (ℝ × ℝ) → ℝ}
  {B' B : Backend D (StartingValues ℝ n m) (Outputs n)} {E : Env s n m o l} {od : ODE ℝ n m o l}
  {opt : Options}

theorem FlDCore.pubSize_load (C : FlDCore fl dot B' B E od) (d : D) (i : StartingValues ℝ n m) :
    pubSize (C.core (B.load d i)) = seedIn i := by
  rw [C.load_core]
  rfl

theorem FlDCore.pubSize_seed (C : FlDCore fl dot B' B E od) (d : D) (v : Outputs n) :
    pubSize (C.core (B.seed d v)) = seedOut v := by
  rw [C.seed_core]
  simp [pubSize, rkSeed, seedOut]

/-- The forward product in floating point is near the exact one. -/
theorem fwd_dist (T : Coeffs ℝ s) {L H τ : ℝ} (hL : 0 ≤ L) (hH : 0 ≤ H) :
    ∃ G : ℝ, 0 ≤ G ∧ ∀ {n m o l : ℕ} {D σ : Type} {fl : ℝ → ℝ} {u κ : ℝ}
      {dot : List (ℝ × ℝ) → ℝ} {B' B : Backend D (StartingValues ℝ n m) (Outputs n)}
      {E : Env s n m o l} {od : ODE ℝ n m o l} {opt : Options}, E.T = T → Rounds fl u →
      IsDot fl dot → 0 ≤ κ → κ ≤ 1 → ∀ (C : FlDCore fl dot B' B E od) {fuel : ℕ} {w w' : World D σ}
      {i di : StartingValues ℝ n m} {dO v' : Outputs n} {tr : List (Ctrl × IState D)},
      Run B opt 0 w.ctrl (startOfFwd B opt w.ctrl w.tis.disc i) tr →
      AccurateRun C.core L κ H τ E od tr → (u + κ) * tr.length ≤ 1 →
      fwd B' opt fuel w i di dO = (w', .ok v') →
      ∃ w2 v, fwd B opt fuel w i di dO = (w2, .ok v) ∧
        |v'.time - v.time| + ‖v'.values - v.values‖
          ≤ G * ((u + κ) * (tr.length + 1)) * (seedIn di + |dO.time|) := by
  obtain ⟨G, hG, hmain⟩ := fwdAlong_dist T (τ := τ) hL hH
  refine ⟨G + 1, by linarith, ?_⟩
  intro n m o l D σ fl u κ dot B' B E od opt hT hf hd hκ0 hκ1 C fuel w w' i di dO v' tr htr hacc hN h
  obtain ⟨tr1, htr1, hlt, -, -, hp, hv, -, -⟩ := fwd_run h
  rw [C.startFwd] at htr1
  have := (C.run htr1).unique htr
  subst this
  have hB := fwd_of_run htr hlt di dO
  obtain ⟨e1, e2⟩ := hmain hT hf hd hκ0 hκ1 C tr1 hacc hN (B.load w.pert di)
  rw [C.pubSize_load] at e1 e2
  refine ⟨(fwd B opt fuel w i di dO).1, _, Prod.ext rfl hB, ?_⟩
  rw [hv, hp, C.writeOut_core', C.writeOut_core, C.load]
  set P' := C.core (fwdAlong B' tr1 (B.load w.pert di))
  set P := C.core (fwdAlong B tr1 (B.load w.pert di))
  have h1 := add_time_err hf dO.time P'.finalTime P.finalTime
  refine bound_result hG hf.nonneg hκ0 (Nat.cast_nonneg _) (seedIn_nonneg di) (abs_nonneg dO.time)
    e1 ((?_ : |P'.finalTime| ≤ pubSize P').trans e2) ?_
  · unfold pubSize
    have := norm_nonneg P'.finalState
    have := norm_nonneg P'.independentInputs
    linarith
  · simp only [rkWriteOutFl, rkWriteOut, pubDist]
    have := norm_nonneg (P'.independentInputs - P.independentInputs)
    linarith

/-- The distance of two results of a reverse product. -/
noncomputable def gradDist (g' g : StartingValues ℝ n m) : ℝ :=
  |g'.initialTime - g.initialTime| + ‖g'.initialValues - g.initialValues‖
    + ‖g'.independentInputs - g.independentInputs‖

/-- The reverse products along a run. -/
theorem rev_dist (n : ℕ) (T : Coeffs ℝ s) {L H τ : ℝ} (hL : 0 ≤ L) (hH : 0 ≤ H) :
    ∃ G : ℝ, 0 ≤ G ∧ ∀ {m o l : ℕ} {D : Type} {fl : ℝ → ℝ} {u κ : ℝ}
      {dot : List (ℝ × ℝ) → ℝ} {B' B : Backend D (StartingValues ℝ n m) (Outputs n)}
      {E : Env s n m o l} {od : ODE ℝ n m o l}, E.T = T → Rounds fl u →
      0 ≤ κ → κ ≤ 1 → ∀ (C : FlDCore fl dot B' B E od) {tr : List (Ctrl × IState D)},
      AccurateRun C.core L κ H τ E od tr → (u + κ) * tr.length ≤ 1 → ∀ (p : D)
      (dI : StartingValues ℝ n m) (dO : Outputs n), (C.core p).stageStates = 0 →
      gradDist (B'.writeIn (revAlong B' (tr.map Prod.snd).reverse (B'.seed p dO)) dI)
          (B.writeIn (revAlong B (tr.map Prod.snd).reverse (B.seed p dO)) dI)
        ≤ G * ((u + κ) * (tr.length + 1)) * (seedOut dO + |dI.initialTime|) := by
  obtain ⟨G, hG, hmain⟩ := revAlong_dist n T (τ := τ) hL hH
  refine ⟨G + 1, by linarith, ?_⟩
  intro m o l D fl u κ dot B' B E od hT hf hκ0 hκ1 C tr hacc hN p dI dO hp
  obtain ⟨e1, e2⟩ := hmain hT hf hκ0 hκ1 C tr hacc hN (B.seed p dO)
    (by rw [C.seed_core]; exact hp)
  rw [C.pubSize_seed] at e1 e2
  rw [C.writeIn_core', C.writeIn_core, C.seed]
  set P' := C.core (revAlong B' (tr.map Prod.snd).reverse (B.seed p dO))
  set P := C.core (revAlong B (tr.map Prod.snd).reverse (B.seed p dO))
  have h1 := add_time_err hf dI.initialTime P'.finalTime P.finalTime
  refine bound_result hG hf.nonneg hκ0 (Nat.cast_nonneg _) (seedOut_nonneg dO)
    (abs_nonneg dI.initialTime) e1 ((?_ : |P'.finalTime| ≤ pubSize P').trans e2) ?_
  · unfold pubSize
    have := norm_nonneg P'.finalState
    have := norm_nonneg P'.independentInputs
    linarith
  · simp only [gradDist, rkWriteInFl, rkWriteIn, pubDist]
    linarith

theorem FlDCore.cacheOk (C : FlDCore fl dot B' B E od) {σ : Type} (w : World D σ)
    (i : StartingValues ℝ n m) : cacheOk B' w i = cacheOk B w i := by
  simp only [Integrator.cacheOk, C.cacheHit]

/-- A reverse product without cached inputs, with the number of steps. -/
theorem rev_uncached_lt {B : Backend D (StartingValues ℝ n m) (Outputs n)} {fuel : ℕ}
    {w w' : World D (List (IState D))} {i g dI : StartingValues ℝ n m} {dO : Outputs n}
    (hc : Integrator.cacheOk B w i = false)
    (h : rev B opt (allCk B opt) fuel w i dO dI = (w', .ok g)) :
    ∃ tr, Run B opt 0 w.ctrl (startOf B opt w.ctrl w.tis.disc i) tr ∧ tr.length < fuel ∧
      g = B.writeIn (revAlong B (tr.map Prod.snd).reverse (B.seed w.pert dO)) dI := by
  obtain ⟨tr, htr, hg⟩ := rev_uncached hc h
  refine ⟨tr, htr, ?_, hg⟩
  simp only [rev, revPrep, hc] at h
  rcases hcomp : compute B opt (allCk B opt) fuel w i with ⟨w1, e | v⟩
  · rw [hcomp] at h
    simp at h
  · obtain ⟨tr1, htr1, hlt, -⟩ := compute_run (ch := .all) hcomp
    rw [htr.unique htr1]
    exact hlt

/-- A reverse product in floating point without cached inputs is near the exact one. -/
theorem rev_dist_fresh (n : ℕ) (T : Coeffs ℝ s) {L H τ : ℝ} (hL : 0 ≤ L) (hH : 0 ≤ H) :
    ∃ G : ℝ, 0 ≤ G ∧ ∀ {m o l : ℕ} {D : Type} {fl : ℝ → ℝ} {u κ : ℝ}
      {dot : List (ℝ × ℝ) → ℝ} {B' B : Backend D (StartingValues ℝ n m) (Outputs n)}
      {E : Env s n m o l} {od : ODE ℝ n m o l} {opt : Options}, E.T = T → Rounds fl u →
      0 ≤ κ → κ ≤ 1 → ∀ (C : FlDCore fl dot B' B E od) {fuel : ℕ}
      {w w' : World D (List (IState D))} {i dI g' : StartingValues ℝ n m} {dO : Outputs n}
      {tr : List (Ctrl × IState D)},
      Run B opt 0 w.ctrl (startOf B opt w.ctrl w.tis.disc i) tr →
      AccurateRun C.core L κ H τ E od tr → (u + κ) * tr.length ≤ 1 →
      cacheOk B w i = false → (C.core w.pert).stageStates = 0 →
      rev B' opt (allCk B' opt) fuel w i dO dI = (w', .ok g') →
      ∃ w2 g, rev B opt (allCk B opt) fuel w i dO dI = (w2, .ok g) ∧
        gradDist g' g ≤ G * ((u + κ) * (tr.length + 1)) * (seedOut dO + |dI.initialTime|) := by
  obtain ⟨G, hG, hmain⟩ := rev_dist n T (τ := τ) hL hH
  refine ⟨G, hG, ?_⟩
  intro m o l D fl u κ dot B' B E od opt hT hf hκ0 hκ1 C fuel w w' i dI g' dO tr htr hacc hN hca hp h
  obtain ⟨tr1, htr1, hlt, hg⟩ := rev_uncached_lt (by rw [C.cacheOk]; exact hca) h
  rw [C.start] at htr1
  have := (C.run htr1).unique htr
  subst this
  refine ⟨(rev B opt (allCk B opt) fuel w i dO dI).1, _, Prod.ext rfl (rev_of_run hca htr hlt), ?_⟩
  rw [hg]
  exact hmain hT hf hκ0 hκ1 C hacc hN w.pert dI dO hp

/-- A reverse product in floating point after `compute` with the same inputs is near the exact
one. -/
theorem rev_dist_cached (n : ℕ) (T : Coeffs ℝ s) {L H τ : ℝ} (hL : 0 ≤ L) (hH : 0 ≤ H) :
    ∃ G : ℝ, 0 ≤ G ∧ ∀ {m o l : ℕ} {D : Type} {fl : ℝ → ℝ} {u κ : ℝ}
      {dot : List (ℝ × ℝ) → ℝ} {B' B : Backend D (StartingValues ℝ n m) (Outputs n)}
      {E : Env s n m o l} {od : ODE ℝ n m o l} {opt : Options}, E.T = T → Rounds fl u →
      0 ≤ κ → κ ≤ 1 → ∀ (C : FlDCore fl dot B' B E od) {fuel fuel' : ℕ}
      {w0 w w' : World D (List (IState D))} {i dI g' : StartingValues ℝ n m} {dO v' : Outputs n}
      {tr : List (Ctrl × IState D)}, (∀ d, B.cacheHit (B.load d i) i = true) →
      Run B opt 0 w0.ctrl (startOf B opt w0.ctrl w0.tis.disc i) tr →
      AccurateRun C.core L κ H τ E od tr → (u + κ) * tr.length ≤ 1 →
      (C.core w0.pert).stageStates = 0 →
      compute B' opt (allCk B' opt) fuel w0 i = (w, .ok v') →
      rev B' opt (allCk B' opt) fuel' w i dO dI = (w', .ok g') →
      ∃ w1 w2 v g, compute B opt (allCk B opt) fuel w0 i = (w1, .ok v) ∧
        rev B opt (allCk B opt) fuel' w1 i dO dI = (w2, .ok g) ∧
        gradDist g' g ≤ G * ((u + κ) * (tr.length + 1)) * (seedOut dO + |dI.initialTime|) := by
  obtain ⟨G, hG, hmain⟩ := rev_dist n T (τ := τ) hL hH
  refine ⟨G, hG, ?_⟩
  intro m o l D fl u κ dot B' B E od opt hT hf hκ0 hκ1 C fuel fuel' w0 w w' i dI g' dO v' tr hhit htr
    hacc hN hp hcomp h
  obtain ⟨tr1, htr1, hlt, -⟩ := compute_run (ch := .all) hcomp
  obtain ⟨tr2, htr2, hg⟩ := rev_after_compute (by rw [C.load, C.cacheHit]; exact hhit) hcomp h
  rw [C.start] at htr1 htr2
  have := (C.run htr1).unique htr
  subst this
  have := htr2.unique htr1
  subst this
  have hB := compute_of_run (ch := .all) htr hlt
  simp only [Choice.ck] at hB
  have hst := compute_stores hB htr
  refine ⟨_, _, _, _, hB, Prod.ext rfl (rev_of_cached ?_), ?_⟩
  · exact hhit _
  · rw [hg, hst]
    exact hmain hT hf hκ0 hκ1 C hacc hN w0.pert dI dO hp

/-! ### Transposition -/

/-- Runs that agree in step sizes and linearization points. -/
def SameSteps (core : D → RKState ℝ s n m o l) (t1 t2 : List (Ctrl × IState D)) : Prop :=
  List.Forall₂ (fun a b => a.2.stepHist = b.2.stepHist ∧
    (core a.2.disc).linearizationPoints = (core b.2.disc).linearizationPoints) t1 t2

theorem SameSteps.of_same {core : D → RKState ℝ s n m o l} {W : Lawful B'}
    (hW : ∀ a b, W.lin a = W.lin b → (core a).linearizationPoints = (core b).linearizationPoints)
    {t1 t2 : List (Ctrl × IState D)} (h : SameTr W t1 t2) : SameSteps core t1 t2 := by
  induction h with
  | nil => exact .nil
  | cons hab _ ih => exact .cons ⟨hab.2.stepHist, hW _ _ hab.2.lin⟩ ih

theorem SameSteps.accurate {core : D → RKState ℝ s n m o l} {L κ H τ : ℝ}
    {t1 t2 : List (Ctrl × IState D)} (h : SameSteps core t1 t2)
    (ha : AccurateRun core L κ H τ E od t1) : AccurateRun core L κ H τ E od t2 := by
  have key : (∀ q ∈ t2, ∃ q' ∈ t1, hOf q'.2 = hOf q.2 ∧
      (core q'.2.disc).linearizationPoints = (core q.2.disc).linearizationPoints) ∧
      (t2.map fun q => |hOf q.2|).sum = (t1.map fun q => |hOf q.2|).sum := by
    clear ha
    induction h with
    | nil => simp
    | @cons a b l1 l2 hab _ ih =>
      obtain ⟨i1, i2⟩ := ih
      have e : hOf a.2 = hOf b.2 := by simp only [hOf, hab.1]
      refine ⟨fun q hq => ?_, ?_⟩
      · rcases List.mem_cons.mp hq with rfl | hq
        · exact ⟨a, List.mem_cons_self, e, hab.2⟩
        · obtain ⟨q', h1, h2⟩ := i1 q hq
          exact ⟨q', List.mem_cons_of_mem _ h1, h2⟩
      · simp only [List.map_cons, List.sum_cons, i2, e]
  refine ⟨fun q hq => ?_, ?_, fun q hq i => ?_⟩
  · obtain ⟨q', h1, h2, -⟩ := key.1 q hq
    rw [← h2]
    exact ha.size q' h1
  · rw [key.2]
    exact ha.total
  · obtain ⟨q', h1, h2, h3⟩ := key.1 q hq
    rw [← h2, ← h3]
    exact ha.acc q' h1 i

/-- The exact product along runs that agree is the same. -/
theorem FlDCore.fwdAlong_same (C : FlDCore fl dot B' B E od) {t1 t2 : List (Ctrl × IState D)}
    (h : SameSteps C.core t1 t2) {p q : D} (hp : rkObs (C.core p) = rkObs (C.core q)) :
    rkObs (C.core (fwdAlong B t1 p)) = rkObs (C.core (fwdAlong B t2 q)) := by
  induction h generalizing p q with
  | nil => exact hp
  | cons hab _ ih =>
    simp only [fwdAlong]
    refine ih ?_
    rw [C.deriv_core, C.deriv_core, hab.1]
    exact deriv_rkObs _ _ _ _ _ _ _ hab.2 hp

/-- The two results of a call in forward and one in reverse mode. -/
noncomputable def fwdSide (dO dO0 v : Outputs n) : ℝ :=
  Spec.dot dO.values v.values + dO.time * (v.time - dO0.time)

/-- The other one. -/
noncomputable def revSide (di dI g : StartingValues ℝ n m) : ℝ :=
  Spec.dot g.initialValues di.initialValues + (g.initialTime - dI.initialTime) * di.initialTime
    + Spec.dot g.independentInputs di.independentInputs

theorem dot_sub_le {q : ℕ} (v w w' : Fin q → ℝ) :
    |Spec.dot v w' - Spec.dot v w| ≤ q * (‖v‖ * ‖w' - w‖) := by
  have : Spec.dot v w' - Spec.dot v w = Spec.dot v (w' - w) := by
    simp only [Spec.dot, ← Finset.sum_sub_distrib, Pi.sub_apply, mul_sub]
  rw [this]
  exact dot_le _ _

theorem dot_comm' {q : ℕ} (v w : Fin q → ℝ) : Spec.dot v w = Spec.dot w v := by
  simp only [Spec.dot, mul_comm]

theorem fwdSide_sub (dO dO0 v' v : Outputs n) :
    |fwdSide dO dO0 v' - fwdSide dO dO0 v|
      ≤ (n + 1) * (seedOut dO * (|v'.time - v.time| + ‖v'.values - v.values‖)) := by
  have h1 := dot_sub_le dO.values v.values v'.values
  have h2 : fwdSide dO dO0 v' - fwdSide dO dO0 v
      = (Spec.dot dO.values v'.values - Spec.dot dO.values v.values)
        + dO.time * (v'.time - v.time) := by unfold fwdSide; ring
  rw [h2]
  refine (abs_add_le _ _).trans ?_
  rw [abs_mul]
  have hn : (0 : ℝ) ≤ n := Nat.cast_nonneg _
  have a1 := norm_nonneg dO.values
  have a2 := abs_nonneg dO.time
  have a3 := norm_nonneg (v'.values - v.values)
  have a4 := abs_nonneg (v'.time - v.time)
  unfold seedOut
  have q1 := mul_nonneg a1 a3
  have q2 := mul_nonneg a1 a4
  have q3 := mul_nonneg a2 a3
  have q4 := mul_nonneg a2 a4
  have r2 := mul_nonneg hn q2
  have r3 := mul_nonneg hn q3
  have r4 := mul_nonneg hn q4
  nlinarith

theorem revSide_sub (di dI g' g : StartingValues ℝ n m) :
    |revSide di dI g' - revSide di dI g| ≤ (n + m + 1) * (seedIn di * gradDist g' g) := by
  have h1 := dot_sub_le di.initialValues g.initialValues g'.initialValues
  have h3 := dot_sub_le di.independentInputs g.independentInputs g'.independentInputs
  have h2 : revSide di dI g' - revSide di dI g
      = (Spec.dot di.initialValues g'.initialValues - Spec.dot di.initialValues g.initialValues)
        + di.initialTime * (g'.initialTime - g.initialTime)
        + (Spec.dot di.independentInputs g'.independentInputs
          - Spec.dot di.independentInputs g.independentInputs) := by
    unfold revSide
    rw [dot_comm' g'.initialValues, dot_comm' g.initialValues, dot_comm' g'.independentInputs,
      dot_comm' g.independentInputs]
    ring
  rw [h2]
  refine (abs_add_le _ _).trans ?_
  have h4 := abs_add_le
    (Spec.dot di.initialValues g'.initialValues - Spec.dot di.initialValues g.initialValues)
    (di.initialTime * (g'.initialTime - g.initialTime))
  rw [abs_mul] at h4
  have hn : (0 : ℝ) ≤ n := Nat.cast_nonneg _
  have hm : (0 : ℝ) ≤ m := Nat.cast_nonneg _
  have hA : ‖di.initialValues‖ * ‖g'.initialValues - g.initialValues‖ ≤ seedIn di * gradDist g' g := by
    unfold seedIn gradDist
    gcongr
    · linarith [abs_nonneg di.initialTime, norm_nonneg di.independentInputs]
    · linarith [abs_nonneg (g'.initialTime - g.initialTime),
        norm_nonneg (g'.independentInputs - g.independentInputs)]
  have hB : |di.initialTime| * |g'.initialTime - g.initialTime| ≤ seedIn di * gradDist g' g := by
    unfold seedIn gradDist
    gcongr
    · linarith [norm_nonneg di.initialValues, norm_nonneg di.independentInputs]
    · linarith [norm_nonneg (g'.initialValues - g.initialValues),
        norm_nonneg (g'.independentInputs - g.independentInputs)]
  have hC : ‖di.independentInputs‖ * ‖g'.independentInputs - g.independentInputs‖
      ≤ seedIn di * gradDist g' g := by
    unfold seedIn gradDist
    gcongr
    · linarith [norm_nonneg di.initialValues, abs_nonneg di.initialTime]
    · linarith [norm_nonneg (g'.initialValues - g.initialValues),
        abs_nonneg (g'.initialTime - g.initialTime)]
  have k1 := mul_le_mul_of_nonneg_left hA hn
  have k3 := mul_le_mul_of_nonneg_left hC hm
  linarith

/-- Products of forward and reverse mode in floating point are transposed up to rounding. -/
theorem transpose_dist (n m : ℕ) (T : Coeffs ℝ s) {L H τ : ℝ} (hL : 0 ≤ L) (hH : 0 ≤ H) :
    ∃ G : ℝ, 0 ≤ G ∧ ∀ {o l : ℕ} {D : Type} {fl : ℝ → ℝ} {u κ : ℝ}
      {dot : List (ℝ × ℝ) → ℝ} {B' B : Backend D (StartingValues ℝ n m) (Outputs n)}
      {E : Env s n m o l} {od : ODE ℝ n m o l} {opt : Options}, E.T = T → Rounds fl u →
      IsDot fl dot → 0 ≤ κ → κ ≤ 1 → NoStageState E.ode →
      ∀ (C : FlDCore fl dot B' B E od) (W : Lawful B'), (∀ a b, W.lin a = W.lin b →
        (C.core a).linearizationPoints = (C.core b).linearizationPoints) → ∀ {fuel fuel' : ℕ}
      {wf wf' wr wr' : World D (List (IState D))} {i di dI g' : StartingValues ℝ n m}
      {dO dO0 v' : Outputs n} {tr : List (Ctrl × IState D)}, wf.ctrl = wr.ctrl →
      Run B opt 0 wr.ctrl (startOf B opt wr.ctrl wr.tis.disc i) tr →
      AccurateRun C.core L κ H τ E od tr → (u + κ) * tr.length ≤ 1 →
      cacheOk B wr i = false → (C.core wr.pert).stageStates = 0 →
      fwd B' opt fuel wf i di dO0 = (wf', .ok v') →
      rev B' opt (allCk B' opt) fuel' wr i dO dI = (wr', .ok g') →
      |fwdSide dO dO0 v' - revSide di dI g'| ≤ G * ((u + κ) * (tr.length + 1))
        * ((seedIn di + |dO0.time|) * (seedOut dO + |dI.initialTime|)) := by
  obtain ⟨G1, hG1, hfwd⟩ := fwd_dist T (τ := τ) hL hH
  obtain ⟨G2, hG2, hrev⟩ := rev_dist_fresh n T (τ := τ) hL hH
  refine ⟨(n + 1) * G1 + (n + m + 1) * G2, by positivity, ?_⟩
  intro o l D fl u κ dot B' B E od opt hT hf hd hκ0 hκ1 hz C W hW fuel fuel' wf wf' wr wr' i di dI g'
    dO dO0 v' tr hc htr hacc hN hca hp h1 h2
  obtain ⟨trf, htrf', hsame'⟩ := (C.run' htr).same W
    (C.start (opt := opt) wr.ctrl wr.tis.disc i ▸ start_same_fwd W wr.ctrl wr.tis.disc wf.tis.disc i)
  have htrf := C.run htrf'
  rw [← hc, C.startFwd] at htrf
  have hsame := SameSteps.of_same hW hsame'
  have hlen := List.Forall₂.length_eq hsame
  obtain ⟨w2, v, hv, hvd⟩ := hfwd hT hf hd hκ0 hκ1 C htrf (hsame.accurate hacc)
    (by rw [← hlen]; exact hN) h1
  obtain ⟨w3, g, hg, hgd⟩ := hrev hT hf hκ0 hκ1 C htr hacc hN hca hp h2
  rw [← hlen] at hvd
  -- the exact products
  obtain ⟨t1, ht1, -, -, -, hP, hv1, -, -⟩ := fwd_run hv
  have := ht1.unique htrf
  subst this
  obtain ⟨t2, ht2, hg1⟩ := rev_uncached hca hg
  have := ht2.unique htr
  subst this
  have hpair := C.pair_along hz t2 (fun q hq i => (hacc.acc q hq i).adjoint) (B.load wf.pert di)
    (B.seed wr.pert dO)
  have hobs := C.fwdAlong_same hsame (p := B.load wf.pert di) (q := B.load wf.pert di) rfl
  obtain ⟨o1, o2, o3⟩ := rkObs_eq hobs
  have hexact : fwdSide dO dO0 v = revSide di dI g := by
    rw [hv1, hP, hg1, C.writeOut_core, C.writeIn_core]
    simp only [pair, o1, o2, o3, C.load_core, C.seed_core, rkLoad, rkSeed] at hpair
    have hd0 : Spec.dot (0 : Fin m → ℝ)
        (C.core (fwdAlong B t1 (B.load wf.pert di))).independentInputs = 0 := by
      simp [Spec.dot]
    rw [hd0, add_zero] at hpair
    simp only [fwdSide, revSide, rkWriteOut, rkWriteIn, add_sub_cancel_left]
    exact hpair.symm
  have e1 := fwdSide_sub dO dO0 v' v
  have e2 := revSide_sub di dI g' g
  rw [hexact] at e1
  have e3 : |fwdSide dO dO0 v' - revSide di dI g'|
      ≤ |fwdSide dO dO0 v' - revSide di dI g| + |revSide di dI g' - revSide di dI g| := by
    have := abs_sub (fwdSide dO dO0 v' - revSide di dI g) (revSide di dI g' - revSide di dI g)
    simpa using this
  have hδ : 0 ≤ (u + κ) * ((t2.length : ℝ) + 1) := mul_nonneg (add_nonneg hf.nonneg hκ0) (by positivity)
  set δ := (u + κ) * ((t2.length : ℝ) + 1)
  have s1 := seedIn_nonneg di
  have s2 := seedOut_nonneg dO
  have s3 := abs_nonneg dO0.time
  have s4 := abs_nonneg dI.initialTime
  have f1 : seedOut dO * (|v'.time - v.time| + ‖v'.values - v.values‖)
      ≤ G1 * δ * ((seedIn di + |dO0.time|) * (seedOut dO + |dI.initialTime|)) := by
    calc _ ≤ (seedOut dO + |dI.initialTime|) * (G1 * δ * (seedIn di + |dO0.time|)) := by
          gcongr
          linarith
      _ = _ := by ring
  have f2 : seedIn di * gradDist g' g
      ≤ G2 * δ * ((seedIn di + |dO0.time|) * (seedOut dO + |dI.initialTime|)) := by
    have : 0 ≤ gradDist g' g := by unfold gradDist; positivity
    calc _ ≤ (seedIn di + |dO0.time|) * (G2 * δ * (seedOut dO + |dI.initialTime|)) := by
          gcongr
          linarith
      _ = _ := by ring
  have k1 := mul_le_mul_of_nonneg_left f1 (by positivity : (0 : ℝ) ≤ n + 1)
  have k2 := mul_le_mul_of_nonneg_left f2 (by positivity : (0 : ℝ) ≤ n + m + 1)
  linarith

end

end Verif.Fl
