/-
Runs of the integrator as sequences of steps of the discretization, for every checkpointer. The
property theorems are in `Verif.Props.Convergence` and `Verif.Props.Invariants`.
-/
import Verif.Integrator.Chain
import Verif.Props.FinalTime

namespace Verif.Integrator

open Verif.RK Verif.RK.Spec Verif.Control Verif.XReal
open Classical

variable {D : Type} {s n m o l : ℕ} {B : Backend D (StartingValues ℝ n m) (Outputs n)}
  {E : Env s n m o l} {opt : Options}

/-- The result of `compute` without or with full checkpointing is that of a chain of steps. -/
theorem choice_chain (C : RKCore B E) {fuel : ℕ} {ch : Choice} {w w' : World D (ch.Data D)}
    {i : StartingValues ℝ n m} {v : Outputs n}
    (h : compute B opt (ch.ck B opt) fuel w i = (w', .ok v)) :
    ∃ hs : List XReal,
      Chain B C.public (i.initialTime, i.initialValues, i.independentInputs) hs
        (C.public w'.tis.disc) ∧ v = B.read w'.tis.disc ∧
      (opt.adaptive = false → ∀ h ∈ hs, h = opt.initialStep) ∧
      (∀ N, opt.crit = .steps N → hs.length = N) ∧
      ∃ tr, Run B opt 0 w.ctrl (startOf B opt w.ctrl w.tis.disc i) tr ∧
        hs = tr.map fun q => q.2.stepHist.1 := by
  obtain ⟨tr, htr, -, -, ht, -, hv, -⟩ := compute_run h
  obtain ⟨p, hp, h2, h3, h4, -⟩ := htr.path
  have h1 := Chain.path C.public_set hp (Chain.nil (B := B) (pub := C.public) _)
  rw [← ht, List.nil_append] at h1
  simp only [startOf, C.public_start] at h1
  refine ⟨p.map Prod.fst, h1, hv, fun ha b hb => ?_, fun N hN => ?_, tr, htr, h3⟩
  · obtain ⟨q, hq, rfl⟩ := List.mem_map.mp hb
    exact h4 ha q hq
  · have := htr.length_steps hN (Nat.zero_le _)
    rw [List.length_map, h2]
    omega

theorem chain_result (C : RKCore B E) {d : D} {t : ℝ} {y : Fin n → ℝ} {p : Fin m → ℝ}
    {v : Outputs n} {hs : List XReal} (h : Chain B C.public (t, y, p) hs (C.public d))
    (hv : v = B.read d) (hr : List ℝ) (he : hs = hr.map fin) :
    IsSteps (StepOf E p) t y hr v.time v.values := by
  have := (chain_steps C h hr he).2
  rw [hv, C.read_core]
  exact this

theorem eq_replicate_map {hs : List XReal} {N : ℕ} {dt : ℝ} {h0 : XReal} (hl : hs.length = N)
    (hh : ∀ h ∈ hs, h = h0) (h0 : h0 = fin dt) : hs = (List.replicate N dt).map fin := by
  rw [List.map_replicate, List.eq_replicate_iff]
  exact ⟨hl, fun h hm => (hh h hm).trans h0⟩

/-- Fixed number of steps of fixed size. -/
theorem fixed_steps (C : RKCore B E) {dt : ℝ} {N fuel : ℕ} {ch : Choice}
    (ha : opt.adaptive = false) (hc : opt.crit = .steps N) (hi : opt.initialStep = fin dt)
    {w w' : World D (ch.Data D)} {i : StartingValues ℝ n m} {v : Outputs n}
    (h : compute B opt (ch.ck B opt) fuel w i = (w', .ok v)) :
    IsSteps (StepOf E i.independentInputs) i.initialTime i.initialValues (List.replicate N dt)
      v.time v.values := by
  obtain ⟨hs, h1, h2, h3, h4, -⟩ := choice_chain C h
  exact chain_result C h1 h2 _ (eq_replicate_map (h4 N hc) (h3 ha) hi)

theorem run_final_length (C : RKCore B E) (htm : ∀ d, B.time d = fin (C.core d).finalTime)
    {T dt : ℝ} (hdt : 0 < dt) (ha : opt.adaptive = false) (hc : opt.crit = .finalTime T) {it : ℕ}
    {c : Ctrl} {x : IState D} {tr : List (Ctrl × IState D)} (h : Run B opt it c x tr)
    (hs : x.sugg = fin dt) : tr.length = ⌈(T - (C.core x.disc).finalTime) / dt⌉₊ := by
  induction h with
  | @done it c x h =>
    simp only [hc, Crit.finished, htm, sub_fin, zero_def, le_fin] at h
    symm
    rw [List.length_nil, Nat.ceil_eq_zero]
    exact div_nonpos_of_nonpos_of_nonneg h hdt.le
  | @step it c x c' x' tr h hst hr ih =>
    simp only [hc, Crit.finished, htm, sub_fin, zero_def, le_fin, not_le] at h
    obtain ⟨h', d, g1, g2, g3, g4, -⟩ := iterate_accepted hst
    obtain ⟨k1, k2, -⟩ := g4 ha
    rw [List.length_cons, ih (by rw [k2, hs])]
    rw [k1, hs] at g1
    have : (C.core x'.disc).finalTime = (C.core x.disc).finalTime + dt := by
      rw [g2, C.set_core, C.step_core _ _ _ g1]
      exact (computeStep_result E.T E.ode (C.core x.disc) dt).finalTime
    rw [this]
    exact Props.ceil_step hdt (by linarith)

/-- Steps of fixed size to a final time. -/
theorem final_steps (C : RKCore B E) (htm : ∀ d, B.time d = fin (C.core d).finalTime)
    {T dt : ℝ} {fuel : ℕ} {ch : Choice} (hdt : 0 < dt)
    (ha : opt.adaptive = false) (hc : opt.crit = .finalTime T) (hi : opt.initialStep = fin dt)
    {w w' : World D (ch.Data D)} {i : StartingValues ℝ n m} {v : Outputs n}
    (h : compute B opt (ch.ck B opt) fuel w i = (w', .ok v)) :
    IsSteps (StepOf E i.independentInputs) i.initialTime i.initialValues
      (List.replicate ⌈(T - i.initialTime) / dt⌉₊ dt) v.time v.values := by
  obtain ⟨hs, h1, h2, h3, -, tr, h5, h6⟩ := choice_chain C h
  have hlen := run_final_length C htm hdt ha hc h5 hi
  simp only [startOf, C.clear_core, C.load_core, rkLoad] at hlen
  exact chain_result C h1 h2 _
    (eq_replicate_map (by rw [h6, List.length_map, hlen]) (h3 ha) hi)

/-- Pyrevolve, steps of fixed size, every legal schedule. -/
theorem py_steps (C : RKCore B E) {R : Restore D} (hR : ∀ a b, C.public (R a b) = C.public b)
    {dt : ℝ} {N fuel : ℕ} {sched : Schedule} {sl : ℕ → Option ℕ} {e : IState D}
    (hl : LegalF N sched.fwd 0 (fun _ => none) sl) (ha : opt.adaptive = false)
    (hi : opt.initialStep = fin dt) {w w' : World D (PyData D)} {i : StartingValues ℝ n m}
    {v : Outputs n} (h : compute B opt (pyCk B opt R e N sched) fuel w i = (w', .ok v)) :
    IsSteps (StepOf E i.independentInputs) i.initialTime i.initialValues
      (List.replicate (N + 1) dt) v.time v.values := by
  obtain ⟨hs, h1, h2, h3, h4⟩ := py_chain C.public_set hR hl h
  rw [C.public_start] at h2
  exact chain_result C h2 h3 _ (eq_replicate_map h1 (h4 ha) hi)

/-- Adaptive runs of embedded schemes to a final time. -/
theorem adaptive_steps (bhat : Fin s → ℝ) {T lo u h0 : ℝ} {fuel : ℕ} {ch : Choice} (hlo0 : 0 ≤ lo)
    (hlu : lo ≤ u) (ha : opt.adaptive = true) (hc : opt.crit = .finalTime T)
    (hi : opt.initialStep = fin h0) (hh0 : 0 ≤ h0) (hh0u : h0 ≤ u)
    {w w' : World (EmbRKState ℝ s n m o l) (ch.Data (EmbRKState ℝ s n m o l))}
    (hlo : w.ctrl.config.lower = fin lo) (hup : w.ctrl.config.upper = fin u)
    {i : StartingValues ℝ n m} (hstep : i.initialTime + h0 ≤ T) {v : Outputs n}
    (h : compute (embBackend E bhat) opt (ch.ck (embBackend E bhat) opt) fuel w i = (w', .ok v)) :
    ∃ hs : List ℝ, (∀ h ∈ hs, 0 ≤ h ∧ h ≤ u) ∧
      IsSteps (StepOf E i.independentInputs) i.initialTime i.initialValues hs v.time v.values := by
  obtain ⟨hs, h1, h2, -, -, tr, h5, h6⟩ := choice_chain (embCore E bhat) h
  obtain ⟨hr, k1, k2⟩ := run_bounded bhat hlo0 hlu ha hc h5 hlo hup
    ⟨by change i.initialTime ≤ T; linarith, h0, hi, hh0, hh0u, hstep⟩
  exact ⟨hr, k2, chain_result (embCore E bhat) h1 h2 hr (h6.trans k1)⟩

/-- Any successful run without or with full checkpointing, if infinite step sizes and NaN fail. -/
theorem any_steps (C : RKCore B E) (hnf : ∀ d h e, B.step d h = .ok e → ∃ r, h = fin r) {fuel : ℕ}
    {ch : Choice} {w w' : World D (ch.Data D)} {i : StartingValues ℝ n m} {v : Outputs n}
    (h : compute B opt (ch.ck B opt) fuel w i = (w', .ok v)) :
    ∃ hs : List ℝ,
      IsSteps (StepOf E i.independentInputs) i.initialTime i.initialValues hs v.time v.values := by
  obtain ⟨hs, h1, h2, -⟩ := choice_chain C h
  obtain ⟨hr, he⟩ := chain_finite hnf h1
  exact ⟨hr, chain_result C h1 h2 hr he⟩

/-- Any successful run with pyrevolve. -/
theorem any_py_steps (C : RKCore B E) (hnf : ∀ d h e, B.step d h = .ok e → ∃ r, h = fin r)
    {R : Restore D} (hR : ∀ a b, C.public (R a b) = C.public b) {N fuel : ℕ} {sched : Schedule}
    {sl : ℕ → Option ℕ} {e : IState D} (hl : LegalF N sched.fwd 0 (fun _ => none) sl)
    {w w' : World D (PyData D)} {i : StartingValues ℝ n m} {v : Outputs n}
    (h : compute B opt (pyCk B opt R e N sched) fuel w i = (w', .ok v)) :
    ∃ hs : List ℝ, hs.length = N + 1 ∧
      IsSteps (StepOf E i.independentInputs) i.initialTime i.initialValues hs v.time v.values := by
  obtain ⟨hs, h1, h2, h3, -⟩ := py_chain C.public_set hR hl h
  rw [C.public_start] at h2
  obtain ⟨hr, rfl⟩ := chain_finite hnf h2
  exact ⟨hr, by simpa using h1, chain_result C h2 h3 hr rfl⟩

/-- Steps of the discretization depend on time, values and inputs only. -/
theorem StepOf.unique {p : Fin m → ℝ} {h t : ℝ} {y y₁ y₂ : Fin n → ℝ} (h1 : StepOf E p h t y y₁)
    (h2 : StepOf E p h t y y₂) : y₁ = y₂ := by
  obtain ⟨st, a1, a2, a3, rfl⟩ := h1
  obtain ⟨st', b1, b2, b3, rfl⟩ := h2
  rw [Props.C09_step_depends_only_on_published E.T E.ode st st' h (a2.trans b2.symm)
    (a1.trans b1.symm) (a3.trans b3.symm)]

/-- Steps of the discretization are Runge-Kutta steps if the stage problems are solved. -/
theorem StepOf.isRKStep (hT : LowerTriangular E.T.A) {f : Rhs ℝ n m} {p : Fin m → ℝ} {h t : ℝ}
    {y y₁ : Fin n → ℝ} (hs : ∀ i, SolvesStage E.ode f h (E.T.A i i)) (h1 : StepOf E p h t y y₁) :
    IsRKStep E.T.A E.T.b E.T.c f h t y p y₁ := by
  obtain ⟨st, rfl, rfl, rfl, rfl⟩ := h1
  exact Props.C06_step_is_rk_formula E.T E.ode f st h hT hs

theorem steps_trajectory (hT : LowerTriangular E.T.A) {f : Rhs ℝ n m} {p : Fin m → ℝ} {t t' : ℝ}
    {y y' : Fin n → ℝ} {hs : List ℝ} (h : IsSteps (StepOf E p) t y hs t' y')
    (hS : ∀ h ∈ hs, ∀ i, SolvesStage E.ode f h (E.T.A i i)) :
    IsTrajectory E.T.A E.T.b E.T.c f p t y hs t' y' :=
  (h.mono fun h hh _ _ _ h1 => h1.isRKStep hT (hS h hh)).trajectory

end Verif.Integrator
