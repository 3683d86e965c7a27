/-
C108: how often operations evaluate the stage problem.
-/
import Verif.Integrator.Cost
import Verif.Props.Schedules
import Verif.Props.Memory

namespace Verif.Props

open Verif.RK Verif.Control Verif.XReal Verif.Integrator

/-! ### The hypotheses, for both kinds of schemes -/

section
variable {s n m o l : ℕ} {M : Type} {S : MOde Integrator.Err M ℝ n m o l} {κ : M → Calls}
  {opt : Options}

/-- The backends of the component around the stage problem `S`: a plain scheme with fixed finite step
size, or an embedded scheme. -/
inductive Discretized (S : MOde Integrator.Err M ℝ n m o l) (κ : M → Calls) (opt : Options) (s : ℕ) :
    {D : Type} → Backend D (StartingValues ℝ n m) (Outputs n) → Mem D M → Prop
  | plain (E : Env s n m o l) (N : Nonfinite M s n m o l) (ha : opt.adaptive = false) {dt : ℝ}
      (hi : opt.initialStep = fin dt) : Discretized S κ opt s (rkBackend E) (rkMem E.T S N)
  | fixed (E : Env s n m o l) (bhat : Fin s → ℝ) (N : Nonfinite M s n m o l)
      (ha : opt.adaptive = false) {dt : ℝ} (hi : opt.initialStep = fin dt) :
      Discretized S κ opt s (embBackend E bhat) (embMem E.T bhat S N)
  | adaptive (E : Env s n m o l) (bhat : Fin s → ℝ) (N : Nonfinite M s n m o l)
      (hN : MeteredNonfinite κ N) : Discretized S κ opt s (embBackend E bhat) (embMem E.T bhat S N)

theorem Discretized.sizes {D : Type} {B : Backend D (StartingValues ℝ n m) (Outputs n)} {F : Mem D M}
    (hS : Metered S κ) (h : Discretized S κ opt s B F) :
    ∃ Ok, MeteredMem F κ s Ok ∧ Sizes opt Ok := by
  cases h with
  | plain E N ha hi =>
    exact ⟨_, rkMem_metered hS E.T N, .inl ⟨_, hi⟩, fun h => by rw [ha] at h; cases h⟩
  | fixed E bhat N ha hi =>
    exact ⟨_, embMem_metered hS E.T bhat N, .inl ⟨_, hi⟩, fun h => by rw [ha] at h; cases h⟩
  | adaptive E bhat N hN =>
    exact ⟨_, embMem_metered hS E.T bhat N, .inr hN, fun _ _ => .inr hN⟩

variable {D : Type} {B : Backend D (StartingValues ℝ n m) (Outputs n)} {F : Mem D M}

/-! ### C108 -/

/-- C108 (runs): a run of `N` steps evaluates the stage problem once for every stage of every attempted
step, and computes no products. -/
theorem C108_run (hS : Metered S κ) (hB : Discretized S κ opt s B F) {N : ℕ}
    (hN : opt.crit = .steps N) (ch : Choice) {fuel : ℕ} {w w' : MWorld D (ch.Data D) M}
    {i : StartingValues ℝ n m} {v : Outputs n}
    (h : computeM B opt (ch.memCk B F opt) fuel w i = (w', .ok v)) :
    ∃ rejected ≤ N * (opt.recursionLimit - 1), (opt.adaptive = false → rejected = 0) ∧
      κ w'.mem = κ w.mem + ((N + rejected) * s, 0, 0) := by
  obtain ⟨Ok, hF, hO⟩ := hB.sizes hS
  simp only [computeM] at h
  cases ch with
  | no =>
    simp only [Choice.memCk, noCkM] at h
    rcases hr : (noForwardM B F opt fuel 0 w.mem w.comp.ctrl _).2.out with e | u
    · rw [hr] at h; cases h
    · rw [hr] at h
      obtain ⟨rfl, -⟩ := Prod.mk.injEq .. ▸ h
      obtain ⟨k, h1, r, h2, h3, h4⟩ := noForwardM_calls hF hO fuel 0 w.mem w.comp.ctrl _ hO.1 hr
      obtain rfl : k = N := by simpa using h1 N hN (Nat.zero_le _)
      exact ⟨r, h2, h3, h4⟩
  | all =>
    simp only [Choice.memCk, allCkM] at h
    rcases hr : (allForwardM B F opt fuel 0 [] w.mem w.comp.ctrl _).2.2.out with e | u
    · rw [hr] at h; cases h
    · rw [hr] at h
      obtain ⟨rfl, -⟩ := Prod.mk.injEq .. ▸ h
      obtain ⟨k, -, h1, r, h2, h3, h4⟩ := allForwardM_calls hF hO fuel 0 [] w.mem w.comp.ctrl _ hO.1 hr
      obtain rfl : k = N := by simpa using h1 N hN (Nat.zero_le _)
      exact ⟨r, h2, h3, h4⟩

/-- C108 (forward products): the evaluations of a run, and one product for every stage of every step. -/
theorem C108_forward (hS : Metered S κ) (hB : Discretized S κ opt s B F) {N : ℕ}
    (hN : opt.crit = .steps N) {σ : Type} {fuel : ℕ} {w w' : MWorld D σ M}
    {i di : StartingValues ℝ n m} {dO v : Outputs n}
    (h : fwdM B F opt fuel w i di dO = (w', .ok v)) :
    ∃ rejected ≤ N * (opt.recursionLimit - 1), (opt.adaptive = false → rejected = 0) ∧
      κ w'.mem = κ w.mem + ((N + rejected) * s, N * s, 0) := by
  obtain ⟨Ok, hF, hO⟩ := hB.sizes hS
  simp only [fwdM] at h
  rcases hr : (fwdLoopM B F opt fuel 0 w.mem w.comp.ctrl _ _).2.1.out with e | u
  · rw [hr] at h; cases h
  · rw [hr] at h
    obtain ⟨rfl, -⟩ := Prod.mk.injEq .. ▸ h
    obtain ⟨k, h1, r, h2, h3, h4⟩ := fwdLoopM_calls hF hO fuel 0 w.mem w.comp.ctrl _ _ hO.1 hr
    obtain rfl : k = N := by simpa using h1 N hN (Nat.zero_le _)
    refine ⟨r, h2, h3, ?_⟩
    dsimp only
    rw [h4]
    ext <;> simp

/-- After a run at `i` the stored run is one for `i`. -/
theorem Discretized.hit (h : Discretized S κ opt s B F) {σ : Type} {w : World D σ} {d : D}
    {i : StartingValues ℝ n m} (hw : w.cached = some (B.load d i)) : cacheOk B w i = true := by
  cases h <;> (simp only [cacheOk, hw]; exact decide_eq_true ⟨rfl, rfl⟩)

/-- C108 (reverse products): with all checkpoints, a reverse product at the inputs of the last run does
not evaluate the stage problem, and computes one product for every stage of every step. -/
theorem C108_reverse_stored (hS : Metered S κ) (hB : Discretized S κ opt s B F) {N : ℕ}
    (hN : opt.crit = .steps N) {fuel : ℕ} {w w1 w2 : MWorld D (List (IState D)) M}
    {i dI g : StartingValues ℝ n m} {dO v : Outputs n}
    (h : computeM B opt (allCkM B F opt) fuel w i = (w1, .ok v))
    (hr : revM B opt (allCkM B F opt) fuel w1 i dO dI = (w2, .ok g)) :
    κ w2.mem = κ w1.mem + (0, 0, N * s) := by
  obtain ⟨Ok, hF, hO⟩ := hB.sizes hS
  simp only [computeM, allCkM] at h
  rcases ho : (allForwardM B F opt fuel 0 [] w.mem w.comp.ctrl _).2.2.out with e | u
  · rw [ho] at h; cases h
  · rw [ho] at h
    obtain ⟨hw1, -⟩ := Prod.mk.injEq .. ▸ h
    obtain ⟨k, h0, h1, -⟩ := allForwardM_calls hF hO fuel 0 [] w.mem w.comp.ctrl _ hO.1 ho
    obtain rfl : k = N := by simpa using h1 N hN (Nat.zero_le _)
    have hc : cacheOk B w1.comp i = true := by
      refine hB.hit (d := w.comp.tis.disc) ?_
      rw [← hw1]
    have hlen : w1.comp.ck.length = k := by
      rw [← hw1]
      simpa using h0
    simp only [revM, if_pos hc, allCkM] at hr
    obtain ⟨rfl, -⟩ := Prod.mk.injEq .. ▸ hr
    dsimp only
    rw [allReverseM_calls hF, List.length_reverse, hlen]

/-- C108 (reverse products without a stored run): the evaluations of a run in addition. -/
theorem C108_reverse_new (hS : Metered S κ) (hB : Discretized S κ opt s B F) {N : ℕ}
    (hN : opt.crit = .steps N) {fuel : ℕ} {w w' : MWorld D (List (IState D)) M}
    {i dI g : StartingValues ℝ n m} {dO : Outputs n} (hc : cacheOk B w.comp i = false)
    (hr : revM B opt (allCkM B F opt) fuel w i dO dI = (w', .ok g)) :
    ∃ rejected ≤ N * (opt.recursionLimit - 1), (opt.adaptive = false → rejected = 0) ∧
      κ w'.mem = κ w.mem + ((N + rejected) * s, 0, N * s) := by
  rcases h : computeM B opt (allCkM B F opt) fuel w i with ⟨w1, e | v⟩
  · simp only [revM, hc, h] at hr
    cases hr
  · have hr' : revM B opt (allCkM B F opt) fuel w1 i dO dI = (w', .ok g) := by
      have hc1 : cacheOk B w1.comp i = true := by
        refine hB.hit (d := w.comp.tis.disc) ?_
        simp only [computeM] at h
        split at h
        · cases h
        · obtain ⟨rfl, -⟩ := Prod.mk.injEq .. ▸ h
          rfl
      rw [← hr]
      simp only [revM, hc, hc1, h, if_true, Bool.false_eq_true, if_false]
    obtain ⟨r, h1, h2, h3⟩ := C108_run hS hB hN .all h
    refine ⟨r, h1, h2, ?_⟩
    rw [C108_reverse_stored hS hB hN h hr', h3]
    ext <;> simp

/-- C108 (pyrevolve): for every legal schedule for `N + 1` steps, a reverse product computes one product
for every stage of every step, and evaluates the stage problem for the steps the schedule repeats. -/
theorem C108_pyrevolve (hS : Metered S κ) (hB : Discretized S κ opt s B F) {N fuel : ℕ}
    {sched : Schedule} (hl : Legal N sched) {R : Restore D} {w w1 w2 : MWorld D (PyData D) M}
    {i dI g : StartingValues ℝ n m} {dO v : Outputs n}
    (h : computeM B opt (pyCkM B F opt R N sched) fuel w i = (w1, .ok v))
    (hr : revM B opt (pyCkM B F opt R N sched) fuel w1 i dO dI = (w2, .ok g)) :
    ∃ rejected rejected', (opt.adaptive = false → rejected = 0 ∧ rejected' = 0) ∧
      κ w1.mem = κ w.mem + ((1 + workOf N sched.fwd + rejected) * s, 0, 0) ∧
      κ w2.mem = κ w1.mem + ((workOf N sched.rev + rejected') * s, 0, (N + 1) * s) := by
  obtain ⟨Ok, hF, hO⟩ := hB.sizes hS
  obtain ⟨hcapo, sl, hlf, hlr⟩ := hl
  simp only [computeM, pyCkM] at h
  rcases ho : (pyForwardM B F opt R N sched ⟨w.comp.ck.first, fun _ => none⟩ w.mem w.comp.ctrl _).2.2.out
    with e | u
  · rw [ho] at h; cases h
  · rw [ho] at h
    obtain ⟨hw1, -⟩ := Prod.mk.injEq .. ▸ h
    obtain ⟨h0, h1, r, -, h2, h3⟩ := pyForwardM_calls hF hO hlf ⟨w.comp.ck.first, fun _ => none⟩ w.mem
      w.comp.ctrl _ hO.1 (fun j y hy => by cases hy) ho
    have hc : cacheOk B w1.comp i = true := by
      refine hB.hit (d := w.comp.tis.disc) ?_
      rw [← hw1]
    simp only [revM, if_pos hc, pyCkM] at hr
    rcases hq : (pyReverseM B F opt R sched w1.comp.ck w1.mem w1.comp.ctrl w1.comp.tis
      (B.seed w1.comp.pert dO)).2.2.1.out with e | u
    · rw [hq] at hr; cases hr
    · rw [hq] at hr
      obtain ⟨hw2, -⟩ := Prod.mk.injEq .. ▸ hr
      obtain ⟨r', -, g2, g3⟩ := pyReverseM_calls (R := R) hF hO hlr hcapo w1.comp.ck w1.mem w1.comp.ctrl
        w1.comp.tis (B.seed w1.comp.pert dO) (by rw [← hw1]; exact h1) (by rw [← hw1]; exact h0) hq
      refine ⟨r, r', fun ha => ⟨h2 ha, g2 ha⟩, by rw [← hw1]; exact h3, ?_⟩
      rw [← hw2]
      dsimp only
      rw [g3]
      ext <;> simp

/-- C108 (pyrevolve with binomial schedules): `N + 2` steps of fixed size with `free + 1` checkpoints. A
run and a reverse product together evaluate the stage problem for at most `(r + 1) (N + 1) + 1` steps,
if `N + 1 ≤ binom(free + 1 + r, free + 1)`. -/
theorem C108_binomial (hS : Metered S κ) (hB : Discretized S κ opt s B F)
    (ha : opt.adaptive = false) {N free r fuel : ℕ}
    (hbin : N + 1 ≤ (free + 1 + r).choose (free + 1)) {R : Restore D}
    {w w1 w2 : MWorld D (PyData D) M} {i dI g : StartingValues ℝ n m} {dO v : Outputs n}
    (h : computeM B opt (pyCkM B F opt R (N + 1) (recursiveSchedule binomialSplit N free)) fuel w i
      = (w1, .ok v))
    (hr : revM B opt (pyCkM B F opt R (N + 1) (recursiveSchedule binomialSplit N free)) fuel w1 i dO dI
      = (w2, .ok g)) :
    ∃ steps ≤ (r + 1) * (N + 1) + 1, κ w2.mem = κ w.mem + (steps * s, 0, (N + 2) * s) := by
  obtain ⟨q, q', h0, h1, h2⟩ := C108_pyrevolve hS hB (recursiveSchedule_legal binomialSplit N free) h hr
  obtain ⟨rfl, rfl⟩ := h0 ha
  have hw := recursive_work hbin
  refine ⟨1 + workOf (N + 1) (recursiveSchedule binomialSplit N free).fwd
    + workOf (N + 1) (recursiveSchedule binomialSplit N free).rev, by omega, ?_⟩
  rw [h2, h1]
  ext <;> simp
  ring

end

/-! ### An example -/

namespace CostEx

/-- A stage problem that is a function of its arguments and counts its calls. -/
noncomputable def counting : MOde Integrator.Err (Unit × Calls) ℝ 1 1 0 0 :=
  metered
    { computeUpdate := fun w z h a => (w, .ok (Integrator.Ex.env.ode.computeUpdate z h a))
      computeUpdateDerivative := fun w p z h a =>
        (w, Integrator.Ex.env.ode.computeUpdateDerivative p z h a)
      computeUpdateAdjoint := fun w p z h a =>
        (w, Integrator.Ex.env.ode.computeUpdateAdjoint p z h a) }

/-- Non-finite step sizes: not used. -/
def nonf : Nonfinite (Unit × Calls) 1 1 1 0 0 := fun w _ _ => (w, .error .backend)

theorem sim : Sim (rkBackend Integrator.Ex.env) (rkMem Integrator.Ex.env.T counting nonf)
    (fun _ => True) (fun d => ∀ _ : Fin 1, True)
    (OkSize Integrator.Ex.env nonf (fun _ => True) (fun _ => True) (fun _ _ => True)) :=
  rkMem_sim (E := Integrator.Ex.env) (S := counting) (N := nonf) (Inv := fun _ => True)
    (Good := fun _ => True) (Ok := fun _ _ => True)
    ⟨fun _ _ _ _ _ _ => rfl, fun _ _ _ _ _ _ => trivial, fun _ _ _ _ => trivial,
      fun _ _ _ _ _ _ _ _ => rfl, fun _ _ _ _ _ _ _ _ => trivial, fun _ _ _ _ _ _ _ _ => rfl,
      fun _ _ _ _ _ _ _ _ => trivial⟩ (fun _ _ => rfl)

theorem sizes : Sizes Integrator.Ex.opt3
    (OkSize Integrator.Ex.env nonf (fun _ => True) (fun _ => True) (fun _ _ => True)) :=
  ⟨⟨fun _ => trivial, fun h => absurd rfl (h _)⟩, fun h => by cases h⟩

/-- Three steps of explicit Euler on a fresh component, then a reverse product: three evaluations, then
three products and no evaluation. -/
example (dO : Outputs 1) (dI : StartingValues ℝ 1 1) :
    let B := rkBackend Integrator.Ex.env
    let F := rkMem Integrator.Ex.env.T counting nonf
    let w : MWorld _ _ (Unit × Calls) := ⟨Integrator.Ex.fresh Integrator.Ex.opt3 .all, ((), 0)⟩
    ∃ w1 w2 v g, computeM B Integrator.Ex.opt3 (allCkM B F Integrator.Ex.opt3) 4 w Integrator.Ex.inp
        = (w1, .ok v) ∧ w1.mem.2 = (3, 0, 0) ∧
      revM B Integrator.Ex.opt3 (allCkM B F Integrator.Ex.opt3) 4 w1 Integrator.Ex.inp dO dI
        = (w2, .ok g) ∧ w2.mem.2 = (3, 0, 3) := by
  intro B F w
  have hM : Metered counting Prod.snd := metered_metered _
  have hB : Discretized counting Prod.snd Integrator.Ex.opt3 1 B F :=
    .plain Integrator.Ex.env nonf rfl (dt := 1 / 2) rfl
  have hK := allCkM_sim sim sizes ((), 0) trivial
  obtain ⟨w', v, hv⟩ := Integrator.Ex.fresh_compute_ok .all 4 (by omega) w.comp Integrator.Ex.inp
  have h1 := (computeM_sim (B := B) hK sizes 4 (w := w) trivial Integrator.Ex.inp).2.1
  rcases hc : computeM B Integrator.Ex.opt3 (allCkM B F Integrator.Ex.opt3) 4 w Integrator.Ex.inp
    with ⟨w1, e | v1⟩
  · rw [hc] at h1
    have h2 := h1.trans (congrArg Prod.snd hv)
    cases h2
  · have hhit : cacheOk B w1.comp Integrator.Ex.inp = true := by
      refine hB.hit (d := w.comp.tis.disc) ?_
      simp only [computeM] at hc
      split at hc
      · cases hc
      · obtain ⟨rfl, -⟩ := Prod.mk.injEq .. ▸ hc
        rfl
    obtain ⟨w2, g, hr⟩ : ∃ w2 g, revM B Integrator.Ex.opt3 (allCkM B F Integrator.Ex.opt3) 4 w1
        Integrator.Ex.inp dO dI = (w2, .ok g) := by
      simp only [revM, if_pos hhit, allCkM]
      exact ⟨_, _, rfl⟩
    obtain ⟨r, -, hr0, hcost⟩ := C108_run hM hB rfl .all hc
    have hrev := C108_reverse_stored hM hB rfl hc hr
    obtain rfl := hr0 rfl
    refine ⟨w1, w2, v1, g, rfl, ?_, hr, ?_⟩
    · rw [hcost]; rfl
    · rw [hrev, hcost]; rfl

end CostEx

end Verif.Props
