/-
Times of whole runs: the cases of C10 and C17 that need the common part of the two scheme classes
or the chains of steps of pyrevolve.
-/
import Verif.Props.Convergence

namespace Verif.Props

open Verif.RK Verif.RK.Spec Verif.Control Verif.XReal Verif.Integrator
open Classical

variable {D : Type} {s n m o l : ℕ} {B : Backend D (StartingValues ℝ n m) (Outputs n)}
  {E : Env s n m o l} {opt : Options}

/-! ### C10 -/

theorem path_core_time (C : RKCore B E) {d d' : D} {p : List (XReal × D)}
    (h : Integrator.Path B d p d') (hr : List ℝ) (he : p.map Prod.fst = hr.map fin) :
    (C.core d').finalTime = (C.core d).finalTime + hr.sum := by
  induction h generalizing hr with
  | nil d =>
    have : hr = [] := by simpa using he.symm
    simp [this]
  | @cons d h e l d' hst hp ih =>
    cases hr with
    | nil => simp at he
    | cons r hr =>
      simp only [List.map_cons, List.cons.injEq] at he
      obtain ⟨rfl, he⟩ := he
      rw [ih hr he, C.set_core, C.step_core d r e hst, List.sum_cons, ← add_assoc]
      congr 1
      exact (computeStep_result E.T E.ode (C.core d) r).finalTime

theorem fixed_time (C : RKCore B E) {N fuel : ℕ} {ch : Choice} {dt : ℝ}
    (ha : opt.adaptive = false) (hc : opt.crit = .steps N) (hi : opt.initialStep = fin dt)
    {w w' : World D (ch.Data D)} {i : StartingValues ℝ n m} {v : Outputs n}
    (h : compute B opt (ch.ck B opt) fuel w i = (w', .ok v)) :
    v.time = i.initialTime + N * dt := by
  obtain ⟨tr, htr, -, -, ht, -, hv, -⟩ := compute_run h
  obtain ⟨p, hp, h2, h3, h4, -⟩ := htr.path
  have hlen := htr.length_steps hc (Nat.zero_le _)
  rw [Nat.zero_add] at hlen
  rw [← ht] at hp
  have := path_core_time C hp (List.replicate N dt) ?_
  · rw [List.sum_replicate, nsmul_eq_mul] at this
    rw [hv, C.read_core]
    simpa only [startOf, C.clear_core, C.load_core, rkLoad] using this
  · rw [List.map_replicate, List.eq_replicate_iff]
    refine ⟨by rw [List.length_map, h2, hlen], fun b hb => ?_⟩
    obtain ⟨q, hq, rfl⟩ := List.mem_map.mp hb
    rw [h4 ha q hq]
    exact hi

/-- C10 for embedded schemes with a fixed step size and number of steps. -/
theorem C10_fixed_run_time_embedded (E : Env s n m o l) (bhat : Fin s → ℝ) {fuel N : ℕ}
    {ch : Choice} {dt : ℝ} (ha : opt.adaptive = false) (hc : opt.crit = .steps N)
    (hi : opt.initialStep = fin dt)
    {w w' : World (EmbRKState ℝ s n m o l) (ch.Data (EmbRKState ℝ s n m o l))}
    {i : StartingValues ℝ n m} {v : Outputs n}
    (h : compute (embBackend E bhat) opt (ch.ck (embBackend E bhat) opt) fuel w i = (w', .ok v)) :
    v.time = i.initialTime + N * dt :=
  fixed_time (embCore E bhat) ha hc hi h

theorem py_time (C : RKCore B E) {R : Restore D} (hR : ∀ a b, C.public (R a b) = C.public b)
    {N fuel : ℕ} {sched : Schedule} {sl : ℕ → Option ℕ} {e : IState D}
    (hl : LegalF N sched.fwd 0 (fun _ => none) sl) {w w' : World D (PyData D)}
    {i : StartingValues ℝ n m} {v : Outputs n}
    (h : compute B opt (pyCk B opt R e N sched) fuel w i = (w', .ok v)) :
    ∃ (hs : List XReal) (p : Fin m → ℝ), hs.length = N + 1 ∧
      Chain B C.public (i.initialTime, i.initialValues, i.independentInputs) hs
        (v.time, v.values, p) ∧
      (∀ hr : List ℝ, hs = hr.map fin → v.time = i.initialTime + hr.sum) ∧
      (opt.adaptive = false → ∀ h ∈ hs, h = opt.initialStep) := by
  obtain ⟨hs, h1, h2, h3, h4⟩ := py_chain C.public_set hR hl h
  rw [C.public_start] at h2
  have hv : C.public w'.tis.disc = (v.time, v.values, (C.core w'.tis.disc).independentInputs) := by
    rw [h3, C.read_core]
    rfl
  rw [hv] at h2
  exact ⟨hs, _, h1, h2, fun hr he => chain_time C h2 hr he, h4⟩

/-- C10 with pyrevolve checkpointing, for every legal schedule and every controller, fixed or
adaptive: the result is that of a chain of `N + 1` steps, and its time is the initial time plus the
sum of their sizes. Steps that are done again because a checkpoint was loaded do not count. -/
theorem C10_run_time_pyrevolve (E : Env s n m o l) {N fuel : ℕ} {sched : Schedule}
    {sl : ℕ → Option ℕ} {e : IState (RKState ℝ s n m o l)}
    (hl : LegalF N sched.fwd 0 (fun _ => none) sl)
    {w w' : World (RKState ℝ s n m o l) (PyData (RKState ℝ s n m o l))}
    {i : StartingValues ℝ n m} {v : Outputs n}
    (h : compute (rkBackend E) opt (pyCk (rkBackend E) opt rkRestore e N sched) fuel w i
      = (w', .ok v)) :
    ∃ (hs : List XReal) (p : Fin m → ℝ), hs.length = N + 1 ∧
      Chain (rkBackend E) (rkCore E).public (i.initialTime, i.initialValues, i.independentInputs) hs
        (v.time, v.values, p) ∧
      (∀ hr : List ℝ, hs = hr.map fin → v.time = i.initialTime + hr.sum) ∧
      (opt.adaptive = false → ∀ h ∈ hs, h = opt.initialStep) :=
  py_time (rkCore E) (R := rkRestore) (fun _ _ => rfl) hl h

/-- C10 with pyrevolve checkpointing, embedded schemes. -/
theorem C10_run_time_embedded_pyrevolve (E : Env s n m o l) (bhat : Fin s → ℝ) {N fuel : ℕ}
    {sched : Schedule} {sl : ℕ → Option ℕ} {e : IState (EmbRKState ℝ s n m o l)}
    (hl : LegalF N sched.fwd 0 (fun _ => none) sl)
    {w w' : World (EmbRKState ℝ s n m o l) (PyData (EmbRKState ℝ s n m o l))}
    {i : StartingValues ℝ n m} {v : Outputs n}
    (h : compute (embBackend E bhat) opt (pyCk (embBackend E bhat) opt embRestore e N sched) fuel w i
      = (w', .ok v)) :
    ∃ (hs : List XReal) (p : Fin m → ℝ), hs.length = N + 1 ∧
      Chain (embBackend E bhat) (embCore E bhat).public
        (i.initialTime, i.initialValues, i.independentInputs) hs (v.time, v.values, p) ∧
      (∀ hr : List ℝ, hs = hr.map fin → v.time = i.initialTime + hr.sum) ∧
      (opt.adaptive = false → ∀ h ∈ hs, h = opt.initialStep) :=
  py_time (embCore E bhat) (R := embRestore) (fun _ _ => rfl) hl h

/-- Three steps of size 1/2 from time 2, with a schedule that loads a checkpoint before the last
forward step. -/
example (e : IState (RKState ℝ 1 1 1 0 0))
    (w : World (RKState ℝ 1 1 1 0 0) (PyData (RKState ℝ 1 1 1 0 0))) :
    ∃ w' v, compute (rkBackend Integrator.Ex.env) Integrator.Ex.opt3
      (pyCk (rkBackend Integrator.Ex.env) Integrator.Ex.opt3 rkRestore e 2
        ⟨[.takeshot 0, .advance 0 2, .restore 0, .lastfw 0], 0, []⟩) 4 w Integrator.Ex.inp
      = (w', .ok v) ∧ v.time = 7 / 2 := by
  have hl : LegalF 2 [.takeshot 0, .advance 0 2, .restore 0, .lastfw 0] 0 (fun _ => none) _ :=
    .takeshot (.advance (by omega) (by omega) (.restore (k := 0) rfl (.lastfw (by omega))))
  have h1 := C31_pyrevolve_loading_schedules (opt := Integrator.Ex.opt3)
    (rkLawful Integrator.Ex.env Integrator.Ex.env_noStageState)
    (rkRestore_lawful Integrator.Ex.env Integrator.Ex.env_noStageState) (N := 2) (fuel := 4)
    (sched := ⟨[.takeshot 0, .advance 0 2, .restore 0, .lastfw 0], 0, []⟩) (e := e)
    hl rfl (by omega) (ch := .no) w ⟨w.tis, w.pert, w.ctrl, w.cached, (), []⟩ (Or.inl rfl) rfl
    Integrator.Ex.inp
  obtain ⟨w1, v, h2⟩ := Integrator.Ex.fresh_compute_ok .no 4 (by omega)
    ⟨w.tis, w.pert, w.ctrl, w.cached, (), []⟩ Integrator.Ex.inp
  rw [h2] at h1
  have h3 := eq_mk_of_snd h1
  refine ⟨_, v, h3, ?_⟩
  obtain ⟨hs, p, k1, -, k3, k4⟩ := C10_run_time_pyrevolve Integrator.Ex.env hl h3
  have := k3 [1 / 2, 1 / 2, 1 / 2] (by
    have : hs = List.replicate 3 (fin (1 / 2)) :=
      List.eq_replicate_iff.mpr ⟨k1, fun b hb => by rw [k4 rfl b hb]; rfl⟩
    simpa using this)
  rw [this]
  norm_num [Integrator.Ex.inp]

/-! ### C17 -/

theorem final_fixed (C : RKCore B E) (htm : ∀ d, B.time d = fin (C.core d).finalTime) {T dt : ℝ}
    (hdt : 0 < dt) (ha : opt.adaptive = false) (hc : opt.crit = .finalTime T)
    (hi : opt.initialStep = fin dt) {fuel : ℕ} {ch : Choice} {w w' : World D (ch.Data D)}
    {i : StartingValues ℝ n m} {v : Outputs n}
    (h : compute B opt (ch.ck B opt) fuel w i = (w', .ok v)) :
    (∃ p, Integrator.Path B (B.clearLin (B.load w.tis.disc i)) p w'.tis.disc ∧
      p.length = ⌈(T - i.initialTime) / dt⌉₊ ∧ ∀ q ∈ p, q.1 = fin dt) ∧
    v.time = i.initialTime + ⌈(T - i.initialTime) / dt⌉₊ * dt ∧
    T ≤ v.time ∧ (i.initialTime < T → v.time < T + dt) ∧
    (T ≤ i.initialTime → v.time = i.initialTime ∧ v.values = i.initialValues) := by
  obtain ⟨tr, htr, -, -, ht, -, hv, -⟩ := compute_run h
  obtain ⟨p, hp, h2, h3, h4, -⟩ := htr.path
  have hlen := run_final_length C htm hdt ha hc htr hi
  simp only [startOf, C.clear_core, C.load_core, rkLoad] at hlen
  have hlen' : p.length = ⌈(T - i.initialTime) / dt⌉₊ := by rw [h2, hlen]
  have hsz : ∀ q ∈ p, q.1 = fin dt := fun q hq => by rw [h4 ha q hq]; exact hi
  rw [← ht] at hp
  have htime : v.time = i.initialTime + ⌈(T - i.initialTime) / dt⌉₊ * dt := by
    rw [hv, ← hlen', C.read_core]
    have := path_core_time C hp (List.replicate p.length dt) ?_
    · rw [List.sum_replicate, nsmul_eq_mul] at this
      simpa only [startOf, C.clear_core, C.load_core, rkLoad] using this
    · rw [List.map_replicate, List.eq_replicate_iff]
      refine ⟨by rw [List.length_map], fun b hb => ?_⟩
      obtain ⟨q, hq, rfl⟩ := List.mem_map.mp hb
      exact hsz q hq
  have hge := Nat.le_ceil ((T - i.initialTime) / dt)
  rw [div_le_iff₀ hdt] at hge
  refine ⟨⟨p, hp, hlen', hsz⟩, htime, by rw [htime]; linarith, ?_, ?_⟩
  · intro hlt
    have := Nat.ceil_lt_add_one (div_nonneg (by linarith : 0 ≤ T - i.initialTime) hdt.le)
    rw [htime]
    have h5 : (⌈(T - i.initialTime) / dt⌉₊ : ℝ) * dt < ((T - i.initialTime) / dt + 1) * dt :=
      mul_lt_mul_of_pos_right this hdt
    rw [add_mul, div_mul_cancel₀ _ hdt.ne'] at h5
    linarith
  · intro hle
    have h0 : ⌈(T - i.initialTime) / dt⌉₊ = 0 := by
      rw [Nat.ceil_eq_zero]
      exact div_nonpos_of_nonpos_of_nonneg (by linarith) hdt.le
    refine ⟨by rw [htime, h0]; simp, ?_⟩
    rw [h0] at hlen'
    rw [List.length_eq_zero_iff] at hlen'
    subst hlen'
    rw [hv, C.read_core]
    generalize w'.tis.disc = d' at hp
    cases hp with
    | nil => simp only [startOf, C.clear_core, C.load_core, rkLoad]

/-- C17 for embedded schemes with fixed steps. -/
theorem C17_fixed_steps_final_time_embedded (E : Env s n m o l) (bhat : Fin s → ℝ) {T dt : ℝ}
    (hdt : 0 < dt) (ha : opt.adaptive = false) (hc : opt.crit = .finalTime T)
    (hi : opt.initialStep = fin dt) {fuel : ℕ} {ch : Choice}
    {w w' : World (EmbRKState ℝ s n m o l) (ch.Data (EmbRKState ℝ s n m o l))}
    {i : StartingValues ℝ n m} {v : Outputs n}
    (h : compute (embBackend E bhat) opt (ch.ck (embBackend E bhat) opt) fuel w i = (w', .ok v)) :
    (∃ p, Integrator.Path (embBackend E bhat)
        ((embBackend E bhat).clearLin ((embBackend E bhat).load w.tis.disc i)) p w'.tis.disc ∧
      p.length = ⌈(T - i.initialTime) / dt⌉₊ ∧ ∀ q ∈ p, q.1 = fin dt) ∧
    v.time = i.initialTime + ⌈(T - i.initialTime) / dt⌉₊ * dt ∧
    T ≤ v.time ∧ (i.initialTime < T → v.time < T + dt) ∧
    (T ≤ i.initialTime → v.time = i.initialTime ∧ v.values = i.initialValues) :=
  final_fixed (embCore E bhat) (fun _ => rfl) hdt ha hc hi h

theorem exists_run_final (C : RKCore B E) (htm : ∀ d, B.time d = fin (C.core d).finalTime)
    (hE : ∀ d r, ∃ e, B.step d (fin r) = .ok e) {T dt : ℝ} (hdt : 0 < dt)
    (ha : opt.adaptive = false) (hc : opt.crit = .finalTime T) (hl : opt.recursionLimit ≠ 0)
    (it : ℕ) (c : Ctrl) (x : IState D) (hs : x.sugg = fin dt) : ∃ tr, Run B opt it c x tr := by
  obtain ⟨f, hf⟩ := Nat.exists_eq_succ_of_ne_zero hl
  induction hk : ⌈(T - (C.core x.disc).finalTime) / dt⌉₊ generalizing it x with
  | zero =>
    refine ⟨[], .done ?_⟩
    rw [Nat.ceil_eq_zero] at hk
    simp only [hc, Crit.finished, htm, sub_fin, zero_def, le_fin]
    by_contra hpos
    exact absurd (div_pos (not_le.mp hpos) hdt) (not_lt.mpr hk)
  | succ k ih =>
    have hpos : (C.core x.disc).finalTime < T := by
      have : 0 < ⌈(T - (C.core x.disc).finalTime) / dt⌉₊ := by omega
      have := Nat.ceil_pos.mp this
      rw [div_pos_iff_of_pos_right hdt] at this
      linarith
    obtain ⟨e, he⟩ := hE x.disc dt
    have htime : (C.core (B.set x.disc e)).finalTime = (C.core x.disc).finalTime + dt := by
      rw [C.set_core, C.step_core _ _ _ he]
      exact (computeStep_result E.T E.ode (C.core x.disc) dt).finalTime
    obtain ⟨tr, htr⟩ := ih (it + 1) { x with
      disc := B.set x.disc e
      stepHist := (x.sugg, x.stepHist.2) } hs (by
        have h2 := ceil_step hdt hpos
        dsimp only
        rw [htime]
        omega)
    refine ⟨_, .step ?_ ?_ htr⟩
    · simp only [hc, Crit.finished, htm, sub_fin, zero_def, le_fin, not_le]
      linarith
    · rw [hf, iterate_fixed ha, hs]
      simp only [he]

/-- C17 for embedded schemes with fixed steps: the run ends. -/
theorem C17_fixed_steps_terminate_embedded (E : Env s n m o l) (bhat : Fin s → ℝ)
    (hE : ∀ v h, E.fails v h = none) {T dt : ℝ} (hdt : 0 < dt) (ha : opt.adaptive = false)
    (hc : opt.crit = .finalTime T) (hi : opt.initialStep = fin dt) (hl : opt.recursionLimit ≠ 0)
    (ch : Choice) (w : World (EmbRKState ℝ s n m o l) (ch.Data (EmbRKState ℝ s n m o l)))
    (i : StartingValues ℝ n m) (fuel : ℕ) (hf : ⌈(T - i.initialTime) / dt⌉₊ < fuel) :
    ∃ w' v, compute (embBackend E bhat) opt (ch.ck (embBackend E bhat) opt) fuel w i
      = (w', .ok v) := by
  obtain ⟨tr, htr⟩ := exists_run_final (embCore E bhat) (fun _ => rfl)
    (fun d r => by simp [embBackend, hE]) hdt ha hc hl 0 w.ctrl
    (startOf (embBackend E bhat) opt w.ctrl w.tis.disc i) hi
  have hlen := run_final_length (embCore E bhat) (fun _ => rfl) hdt ha hc htr hi
  refine ⟨_, _, compute_of_run htr ?_⟩
  rw [hlen]
  exact hf

end Verif.Props
