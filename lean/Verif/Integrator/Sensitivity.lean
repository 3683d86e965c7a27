/-
Forward products as sequences of steps of the values together with their derivatives. The property
theorems are in `Verif.Props.Sensitivity`.
-/
import Verif.Integrator.Steps

namespace Verif.Integrator

open Verif.RK Verif.RK.Spec Verif.Control Verif.XReal
open Classical

variable {D : Type} {s n m o l : ℕ} {B : Backend D (StartingValues ℝ n m) (Outputs n)}
  {E : Env s n m o l} {opt : Options}

/-- One step of the discretization and of its derivative: from the values and their derivative at
time `t` to those at time `t + h`. `p` are the independent inputs, `τ` and `π` the derivatives of
time and independent inputs. -/
def FwdStepOf (E : Env s n m o l) (p : Fin m → ℝ) (τ : ℝ) (π : Fin m → ℝ) (h t : ℝ)
    (z z₁ : (Fin n → ℝ) × (Fin n → ℝ)) : Prop :=
  ∃ st pert : RKState ℝ s n m o l, st.finalTime = t ∧ st.finalState = z.1 ∧
    st.independentInputs = p ∧ pert.finalTime = τ ∧ pert.finalState = z.2 ∧
    pert.independentInputs = π ∧ z₁.1 = (computeStep E.T E.ode st h).finalState ∧
    z₁.2 = (computeStepDerivative E.T E.ode (computeStep E.T E.ode st h) pert h).finalState

theorem run_fwd_steps (C : RKCore B E) {it : ℕ} {c : Ctrl} {x : IState D}
    {tr : List (Ctrl × IState D)} (h : Run B opt it c x tr) (q : D) (hr : List ℝ)
    (he : tr.map (fun q => q.2.stepHist.1) = hr.map fin) :
    IsSteps (FwdStepOf E (C.core x.disc).independentInputs (C.core q).finalTime
        (C.core q).independentInputs) (C.core x.disc).finalTime
      ((C.core x.disc).finalState, (C.core q).finalState) hr
      (C.core (lastOf c x tr).2.disc).finalTime
      ((C.core (lastOf c x tr).2.disc).finalState, (C.core (fwdAlong B tr q)).finalState) ∧
    (C.core (fwdAlong B tr q)).finalTime = (C.core q).finalTime := by
  induction h generalizing q hr with
  | done h =>
    cases hr with
    | nil => exact ⟨.nil _ _, rfl⟩
    | cons a hr => simp at he
  | @step it c x c' x' tr h hst hrun ih =>
    cases hr with
    | nil => simp at he
    | cons a hr =>
      simp only [List.map_cons, List.cons.injEq] at he
      obtain ⟨he1, he2⟩ := he
      obtain ⟨h', d, g1, g2, g3, -⟩ := iterate_accepted hst
      rw [g3] at he1
      subst he1
      have hcd := C.step_core _ _ _ g1
      have hx' : C.core x'.disc = computeStep E.T E.ode (C.core x.disc) a := by
        rw [g2, C.set_core, ← hcd]
        rfl
      have hres := computeStep_result E.T E.ode (C.core x.disc) a
      have hder : C.core (B.deriv x'.disc q x'.stepHist.1)
          = computeStepDerivative E.T E.ode (computeStep E.T E.ode (C.core x.disc) a) (C.core q)
            a := by
        rw [C.deriv_core, hx', g3]
        rfl
      have hresd := computeStepDerivative_result E.T E.ode
        (computeStep E.T E.ode (C.core x.disc) a) (C.core q) a
      obtain ⟨k1, k2⟩ := ih (B.deriv x'.disc q x'.stepHist.1) hr he2
      simp only [fwdAlong, lastOf]
      rw [hder] at k1 k2
      rw [hresd.finalTime] at k1 k2
      rw [hresd.indep, hx', hres.indep, hres.finalTime] at k1
      exact ⟨.cons ⟨_, _, rfl, rfl, rfl, rfl, rfl, rfl, rfl, rfl⟩ k1, k2⟩

/-- A successful forward product as a run and a sequence of steps. -/
theorem fwd_steps (C : RKCore B E) {σ : Type} {fuel : ℕ} {w w' : World D σ}
    {i di : StartingValues ℝ n m} {dO v : Outputs n}
    (h : fwd B opt fuel w i di dO = (w', .ok v)) :
    ∃ tr, Run B opt 0 w.ctrl (startOfFwd B opt w.ctrl w.tis.disc i) tr ∧
      ∀ hr : List ℝ, tr.map (fun q => q.2.stepHist.1) = hr.map fin →
        v.time = dO.time + di.initialTime ∧ ∃ u : Fin n → ℝ,
        IsSteps (FwdStepOf E i.independentInputs di.initialTime di.independentInputs)
          i.initialTime (i.initialValues, di.initialValues) hr
          (C.core (lastOf w.ctrl (startOfFwd B opt w.ctrl w.tis.disc i) tr).2.disc).finalTime
          (u, v.values) := by
  obtain ⟨tr, htr, -, -, -, hp, hv, -⟩ := fwd_run h
  refine ⟨tr, htr, fun hr he => ?_⟩
  obtain ⟨k1, k2⟩ := run_fwd_steps C htr (B.load w.pert di) hr he
  simp only [startOfFwd, C.load_core, rkLoad] at k1 k2
  rw [hv, hp, C.writeOut_core, rkWriteOut, k2]
  exact ⟨rfl, _, k1⟩

/-- The sizes of the steps of runs with fixed step size. -/
theorem run_sizes {it : ℕ} {c : Ctrl} {x : IState D}
    {tr : List (Ctrl × IState D)} (h : Run B opt it c x tr) (ha : opt.adaptive = false) {dt : ℝ}
    (hi : x.sugg = fin dt) :
    tr.map (fun q => q.2.stepHist.1) = (List.replicate tr.length dt).map fin := by
  obtain ⟨p, hp, h2, h3, h4, -⟩ := h.path
  rw [← h3]
  refine eq_replicate_map (by rw [List.length_map, h2]) (fun b hb => ?_) hi
  obtain ⟨q, hq, rfl⟩ := List.mem_map.mp hb
  exact h4 ha q hq

/-- Adaptive runs to a final time end there. -/
theorem run_adaptive_end (bhat : Fin s → ℝ) {T lo u : ℝ} (hlo0 : 0 ≤ lo) (hlu : lo ≤ u)
    (ha : opt.adaptive = true) (hc : opt.crit = .finalTime T) {it : ℕ} {c : Ctrl}
    {x : IState (EmbRKState ℝ s n m o l)} {tr : List (Ctrl × IState (EmbRKState ℝ s n m o l))}
    (hrun : Run (embBackend E bhat) opt it c x tr) (hlo : c.config.lower = fin lo)
    (hup : c.config.upper = fin u) (hx : Bounded T u x) : (lastOf c x tr).2.disc.finalTime = T := by
  induction hrun with
  | @done it c x h =>
    simp only [hc, Crit.finished, embBackend, sub_fin, zero_def, le_fin] at h
    exact le_antisymm hx.1 (by simpa [lastOf] using h)
  | @step it c x c' x' tr h hst hr ih =>
    obtain ⟨g1, g2, -⟩ := iterate_bounded bhat hlo0 hlu ha hc _ c c' hlo hup x x' hx hst
    exact ih (by rw [g2, hlo]) (by rw [g2, hup]) g1

/-- Forward products over a number of fixed steps. -/
theorem fwd_fixed_steps (C : RKCore B E) {dt : ℝ} {N fuel : ℕ} {σ : Type}
    (ha : opt.adaptive = false) (hc : opt.crit = .steps N) (hi : opt.initialStep = fin dt)
    {w w' : World D σ} {i di : StartingValues ℝ n m} {dO v : Outputs n}
    (h : fwd B opt fuel w i di dO = (w', .ok v)) :
    v.time = dO.time + di.initialTime ∧ ∃ u : Fin n → ℝ,
      IsSteps (FwdStepOf E i.independentInputs di.initialTime di.independentInputs)
        i.initialTime (i.initialValues, di.initialValues) (List.replicate N dt)
        (i.initialTime + N * dt) (u, v.values) := by
  obtain ⟨tr, htr, H⟩ := fwd_steps C h
  have hlen : tr.length = N := by
    have := htr.length_steps hc (Nat.zero_le _)
    omega
  have hsz := run_sizes htr ha (dt := dt) hi
  rw [hlen] at hsz
  obtain ⟨h1, u, h2⟩ := H _ hsz
  have := h2.time
  rw [List.sum_replicate, nsmul_eq_mul] at this
  rw [this] at h2
  exact ⟨h1, u, h2⟩

/-- Forward products with fixed steps to a final time. -/
theorem fwd_final_steps (C : RKCore B E) (htm : ∀ d, B.time d = fin (C.core d).finalTime)
    {T dt : ℝ} {fuel : ℕ} {σ : Type} (hdt : 0 < dt)
    (ha : opt.adaptive = false) (hc : opt.crit = .finalTime T) (hi : opt.initialStep = fin dt)
    {w w' : World D σ} {i di : StartingValues ℝ n m} {dO v : Outputs n}
    (h : fwd B opt fuel w i di dO = (w', .ok v)) :
    v.time = dO.time + di.initialTime ∧ ∃ u : Fin n → ℝ,
      IsSteps (FwdStepOf E i.independentInputs di.initialTime di.independentInputs)
        i.initialTime (i.initialValues, di.initialValues)
        (List.replicate ⌈(T - i.initialTime) / dt⌉₊ dt)
        (i.initialTime + ⌈(T - i.initialTime) / dt⌉₊ * dt) (u, v.values) := by
  obtain ⟨tr, htr, H⟩ := fwd_steps C h
  have hlen := run_final_length C htm hdt ha hc htr hi
  simp only [startOfFwd, C.load_core, rkLoad] at hlen
  have hsz := run_sizes htr ha (dt := dt) hi
  rw [hlen] at hsz
  obtain ⟨h1, u, h2⟩ := H _ hsz
  have := h2.time
  rw [List.sum_replicate, nsmul_eq_mul] at this
  rw [this] at h2
  exact ⟨h1, u, h2⟩

/-- Forward products of adaptive runs to a final time. -/
theorem fwd_adaptive_steps (bhat : Fin s → ℝ) {T lo u h0 : ℝ} {fuel : ℕ} {σ : Type} (hlo0 : 0 ≤ lo)
    (hlu : lo ≤ u) (ha : opt.adaptive = true) (hc : opt.crit = .finalTime T)
    (hi : opt.initialStep = fin h0) (hh0 : 0 ≤ h0) (hh0u : h0 ≤ u)
    {w w' : World (EmbRKState ℝ s n m o l) σ}
    (hlo : w.ctrl.config.lower = fin lo) (hup : w.ctrl.config.upper = fin u)
    {i di : StartingValues ℝ n m} (hstep : i.initialTime + h0 ≤ T) {dO v : Outputs n}
    (h : fwd (embBackend E bhat) opt fuel w i di dO = (w', .ok v)) :
    v.time = dO.time + di.initialTime ∧
    ∃ hs : List ℝ, (∀ h ∈ hs, 0 ≤ h ∧ h ≤ u) ∧ ∃ uf : Fin n → ℝ,
      IsSteps (FwdStepOf E i.independentInputs di.initialTime di.independentInputs)
        i.initialTime (i.initialValues, di.initialValues) hs T (uf, v.values) := by
  obtain ⟨tr, htr, H⟩ := fwd_steps (embCore E bhat) h
  have hb : Bounded T u (startOfFwd (embBackend E bhat) opt w.ctrl w.tis.disc i) :=
    ⟨by change i.initialTime ≤ T; linarith, h0, hi, hh0, hh0u, hstep⟩
  obtain ⟨hr, k1, k2⟩ := run_bounded bhat hlo0 hlu ha hc htr hlo hup hb
  have hend := run_adaptive_end bhat hlo0 hlu ha hc htr hlo hup hb
  obtain ⟨h1, uf, h2⟩ := H hr k1
  refine ⟨h1, hr, k2, uf, ?_⟩
  rw [← hend]
  exact h2

end Verif.Integrator
