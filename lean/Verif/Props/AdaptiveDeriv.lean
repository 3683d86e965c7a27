/-
C82: products of runs whose step sizes depend on the inputs.
-/
import Verif.Integrator.Sensitivity
import Verif.Props.Deriv
import Verif.Props.Pseudo

namespace Verif.Props

open Verif.RK Verif.RK.Spec Verif.Control Verif.XReal Verif.Integrator
open Classical

section
variable {D : Type} {s n m o l : ℕ} {B : Backend D (StartingValues ℝ n m) (Outputs n)}
  {E : Env s n m o l} {opt : Options}

/-- Steps of given sizes one after the other. -/
noncomputable def stepsMap (E : Env s n m o l) (hs : List ℝ) (x : Pub n m) : Pub n m :=
  hs.foldl (fun x h => stepMap E h x) x

theorem stepsMap_steps (E : Env s n m o l) (hs : List ℝ) (x : Pub n m) :
    (stepsMap E hs x).2.1 = x.2.1 ∧
    IsSteps (StepOf E x.2.1) x.2.2 x.1 hs (stepsMap E hs x).2.2 (stepsMap E hs x).1 := by
  induction hs generalizing x with
  | nil => exact ⟨rfl, .nil _ _⟩
  | cons h hs ih =>
    have hr := computeStep_result E.T E.ode (withPub RKState.empty x) h
    have e1 : (stepMap E h x).2.1 = x.2.1 := hr.indep
    have e2 : (stepMap E h x).2.2 = x.2.2 + h := hr.finalTime
    obtain ⟨k1, k2⟩ := ih (stepMap E h x)
    rw [e1] at k1 k2
    rw [e2] at k2
    exact ⟨k1, .cons ⟨withPub RKState.empty x, rfl, rfl, rfl, rfl⟩ k2⟩

/-- Along a run with step sizes `hr` the forward derivative is the derivative of the steps of these
sizes. -/
theorem run_frozen (C : RKCore B E) {it : ℕ} {c : Ctrl} {x : IState D}
    {tr : List (Ctrl × IState D)} (h : Run B opt it c x tr) (hr : List ℝ)
    (he : tr.map (fun q => q.2.stepHist.1) = hr.map fin)
    (hd : ∀ h ∈ hr, ∀ i, DifferentiableBackend E.ode h (E.T.A i i)) :
    pubOf (C.core (lastOf c x tr).2.disc) = stepsMap E hr (pubOf (C.core x.disc)) ∧
    ∃ L : Pub n m →L[ℝ] Pub n m,
      HasFDerivAt (stepsMap E hr) L (pubOf (C.core x.disc)) ∧
      ∀ p, pubOf (C.core (fwdAlong B tr p)) = L (pubOf (C.core p)) := by
  induction h generalizing hr with
  | done h =>
    cases hr with
    | nil => exact ⟨rfl, ContinuousLinearMap.id ℝ _, hasFDerivAt_id _, fun p => rfl⟩
    | cons a hr => simp at he
  | @step it c x c' x' tr h hst hrun ih =>
    cases hr with
    | nil => simp at he
    | cons dt hr =>
      simp only [List.map_cons, List.cons.injEq] at he
      obtain ⟨he1, he2⟩ := he
      obtain ⟨h', d, g1, g2, g3, -⟩ := iterate_accepted hst
      rw [g3] at he1
      subst he1
      obtain ⟨e1, L, hL, hLp⟩ := ih hr he2 fun h hh => hd h (List.mem_cons_of_mem _ hh)
      have hcd := C.step_core _ _ _ g1
      have hx' : pubOf (C.core x'.disc) = stepMap E dt (pubOf (C.core x.disc)) := by
        rw [g2, C.set_core, ← stepMap_pubOf, ← hcd]
        rfl
      obtain ⟨M, hM, hMd⟩ := Props.C11_step_derivative_is_frechet E.T E.ode dt RKState.empty
        RKState.empty (pubOf (C.core x.disc)) (hd dt List.mem_cons_self)
      refine ⟨?_, L.comp M, ?_, ?_⟩
      · simp only [lastOf]
        rw [e1, hx']
        rfl
      · rw [hx'] at hL
        exact hL.comp _ hM
      · intro p
        simp only [fwdAlong]
        rw [hLp, C.deriv_core, g3]
        simp only [ContinuousLinearMap.comp_apply]
        congr 1
        rw [← hMd]
        refine pubOf_congr.mpr (deriv_rkObs E.T E.ode _ _ _ _ dt ?_ rfl)
        rw [g2, C.set_core]
        change (C.core d).linearizationPoints = _
        rw [hcd, Props.C09_step_depends_only_on_published E.T E.ode (C.core x.disc)
          (withPub RKState.empty (pubOf (C.core x.disc))) dt rfl rfl rfl]

theorem sameTr_sizes {W : Lawful B} {t1 t2 : List (Ctrl × IState D)} (h : SameTr W t1 t2) :
    t1.map (fun q => q.2.stepHist.1) = t2.map (fun q => q.2.stepHist.1) := by
  induction h with
  | nil => rfl
  | cons hab _ ih => rw [List.map_cons, List.map_cons, ih, hab.2.stepHist]

/-- C82, general form, for any backend with a Runge-Kutta core. -/
theorem frozen_steps (C : RKCore B E) (W : Lawful B)
    (hnf : ∀ d h e, B.step d h = .ok e → ∃ r, h = fin r)
    (hd : ∀ h i, DifferentiableBackend E.ode h (E.T.A i i)) {ch : Choice} {σ : Type}
    {fuel fuel' : ℕ} {w w' : World D (ch.Data D)} {wf wf' : World D σ} (hctrl : wf.ctrl = w.ctrl)
    {x dx : Pub n m} {v dv dO : Outputs n}
    (hc : compute B opt (ch.ck B opt) fuel w (inOf x) = (w', .ok v))
    (hf : fwd B opt fuel' wf (inOf x) (inOf dx) dO = (wf', .ok dv)) :
    ∃ (hs : List ℝ) (Φ : Pub n m → (Fin n → ℝ) × ℝ), outOf v = Φ x ∧
      (∀ z, IsSteps (StepOf E z.2.1) z.2.2 z.1 hs (Φ z).2 (Φ z).1) ∧
      ∃ L : Pub n m →L[ℝ] (Fin n → ℝ) × ℝ, HasFDerivAt Φ L x ∧
        dv = ⟨dO.time + (L dx).2, (L dx).1⟩ := by
  obtain ⟨hx, h1, h2, -, -, t1, h5, h6⟩ := choice_chain C hc
  obtain ⟨hr, he⟩ := chain_finite hnf h1
  obtain ⟨t2, h7, -, -, -, hp, hv, -⟩ := fwd_run hf
  rw [hctrl] at h7
  obtain ⟨t3, h3, hsame⟩ := Run.same W h5 (start_same_fwd W w.ctrl w.tis.disc wf.tis.disc (inOf x))
  obtain rfl := Run.unique h7 h3
  have hsz1 : t1.map (fun q => q.2.stepHist.1) = hr.map fin := h6 ▸ he
  have hsz2 := (sameTr_sizes hsame).symm.trans hsz1
  obtain ⟨-, L, hL, hLp⟩ := run_frozen C h7 hr hsz2 fun h _ i => hd h i
  have hst : pubOf (C.core (startOfFwd B opt w.ctrl wf.tis.disc (inOf x)).disc) = x := by
    simp only [startOfFwd, C.load_core]
    rfl
  rw [hst] at hL
  let out : Pub n m →L[ℝ] (Fin n → ℝ) × ℝ := ContinuousLinearMap.prod
    (ContinuousLinearMap.fst ℝ _ _)
    ((ContinuousLinearMap.snd ℝ _ _).comp (ContinuousLinearMap.snd ℝ _ _))
  refine ⟨hr, fun z => out (stepsMap E hr z), ?_, fun z => (stepsMap_steps E hr z).2, out.comp L,
    out.hasFDerivAt.comp _ hL, ?_⟩
  · have hres := chain_result C h1 h2 hr he
    have hst := (stepsMap_steps E hr x).2
    obtain ⟨e1, e2⟩ := IsSteps.unique (S := StepOf E x.2.1)
      (fun _ _ _ _ _ a b => StepOf.unique a b) hres hst
    exact Prod.ext e2 e1
  · rw [hv, hp, C.writeOut_core]
    have := hLp (B.load wf.pert (inOf dx))
    rw [C.load_core] at this
    change _ = L dx at this
    simp only [ContinuousLinearMap.comp_apply]
    rw [← this]
    rfl

/-- C82 for plain schemes: forward products are the derivatives of the steps the run took, as if
their sizes and their number did not depend on the inputs. -/
theorem C82_frozen_steps_partial (E : Env s n m o l) (hz : NoStageState E.ode)
    (hnf : ∀ d h e, (rkBackend E).step d h = .ok e → ∃ r, h = fin r)
    (hd : ∀ h i, DifferentiableBackend E.ode h (E.T.A i i)) {ch : Choice} {σ : Type}
    {fuel fuel' : ℕ} {w w' : World (RKState ℝ s n m o l) (ch.Data (RKState ℝ s n m o l))}
    {wf wf' : World (RKState ℝ s n m o l) σ} (hctrl : wf.ctrl = w.ctrl)
    {x dx : Pub n m} {v dv dO : Outputs n}
    (hc : compute (rkBackend E) opt (ch.ck (rkBackend E) opt) fuel w (inOf x) = (w', .ok v))
    (hf : fwd (rkBackend E) opt fuel' wf (inOf x) (inOf dx) dO = (wf', .ok dv)) :
    ∃ (hs : List ℝ) (Φ : Pub n m → (Fin n → ℝ) × ℝ), outOf v = Φ x ∧
      (∀ z, IsSteps (StepOf E z.2.1) z.2.2 z.1 hs (Φ z).2 (Φ z).1) ∧
      ∃ L : Pub n m →L[ℝ] (Fin n → ℝ) × ℝ, HasFDerivAt Φ L x ∧
        dv = ⟨dO.time + (L dx).2, (L dx).1⟩ :=
  frozen_steps (rkCore E) (rkLawful E hz) hnf hd hctrl hc hf

/-- C82 for embedded schemes, so for adaptive runs: forward products are the derivatives of the
steps the run took, as if their sizes and their number did not depend on the inputs. Missing for
the full claim: the derivatives of the step sizes (see the next theorem). -/
theorem C82_adaptive_frozen_steps_partial (E : Env s n m o l) (bhat : Fin s → ℝ)
    (hz : NoStageState E.ode)
    (hnf : ∀ d h e, (embBackend E bhat).step d h = .ok e → ∃ r, h = fin r)
    (hd : ∀ h i, DifferentiableBackend E.ode h (E.T.A i i)) {ch : Choice} {σ : Type}
    {fuel fuel' : ℕ} {w w' : World (EmbRKState ℝ s n m o l) (ch.Data (EmbRKState ℝ s n m o l))}
    {wf wf' : World (EmbRKState ℝ s n m o l) σ} (hctrl : wf.ctrl = w.ctrl)
    {x dx : Pub n m} {v dv dO : Outputs n}
    (hc : compute (embBackend E bhat) opt (ch.ck (embBackend E bhat) opt) fuel w (inOf x)
      = (w', .ok v))
    (hf : fwd (embBackend E bhat) opt fuel' wf (inOf x) (inOf dx) dO = (wf', .ok dv)) :
    ∃ (hs : List ℝ) (Φ : Pub n m → (Fin n → ℝ) × ℝ), outOf v = Φ x ∧
      (∀ z, IsSteps (StepOf E z.2.1) z.2.2 z.1 hs (Φ z).2 (Φ z).1) ∧
      ∃ L : Pub n m →L[ℝ] (Fin n → ℝ) × ℝ, HasFDerivAt Φ L x ∧
        dv = ⟨dO.time + (L dx).2, (L dx).1⟩ :=
  frozen_steps (embCore E bhat) (embLawful E bhat hz) hnf hd hctrl hc hf

end

/-! ### The step sizes do depend on the inputs -/

namespace AdaptiveDerivEx

open Verif.Integrator.Ex

theorem step_eq {p : Fin 1 → ℝ} {h t : ℝ} {y y₁ : Fin 1 → ℝ} (hs : StepOf env p h t y y₁) :
    y₁ = fun x => y x + h * (p x + t - y x) := by
  obtain ⟨st, rfl, rfl, rfl, rfl⟩ := hs
  have hr := computeStep_result env.T env.ode st h
  rw [hr.finalState]
  funext x
  have e := congrFun (hr.update 0) x
  simp [accumulateStep, stageIn, env, euler, RK.Ex.linOde, accumulateStages] at e ⊢
  rw [e, mul_comm]

theorem fwdStep_eq {p π : Fin 1 → ℝ} {h t τ : ℝ} {z z₁ : (Fin 1 → ℝ) × (Fin 1 → ℝ)}
    (hs : FwdStepOf env p τ π h t z z₁) :
    z₁.2 = fun x => z.2 x + h * (π x + τ - z.2 x) := by
  obtain ⟨st, pert, -, -, rfl, rfl, e1, rfl, -, e2⟩ := hs
  have hr := computeStepDerivative_result env.T env.ode (computeStep env.T env.ode st h) pert h
  rw [e2, hr.finalState, ← e1]
  funext x
  have e := congrFun (hr.update 0) x
  simp [accumulateStep, stageInD, env, euler, RK.Ex.linOde, accumulateStages] at e ⊢
  rw [e, mul_comm]

/-- An adaptive run to time 3/4 that starts with steps of size 1/2. -/
noncomputable def optT : Options := ⟨true, .finalTime (3 / 4), fin (1 / 2), 0, 0, 0, 900⟩

end AdaptiveDerivEx

open AdaptiveDerivEx in
open Integrator.Ex in
/-- C82 is violated: explicit Euler for `y' = -y + p + t`, from value 0 at a time near 0 to time 3/4
with the pseudo controller and steps of size 1/2 (so the run takes one full step and one for the
rest). The derivatives of values and time returned by `compute` with respect to the initial time
are 1/8 and 0, the forward product says 5/8 and 1. -/
theorem C82_adaptive_initial_time_violated :
    (∀ h i, DifferentiableBackend env.ode h (env.T.A i i)) ∧
    ∃ Φ : ℝ → (Fin 1 → ℝ) × ℝ, HasDerivAt Φ (fun _ => 1 / 8, 0) 0 ∧
      (∀ (t0 : ℝ), -(1 / 4) < t0 → t0 < 1 / 4 → ∀ (ch : Choice)
        (w : World (EmbRKState ℝ 1 1 1 0 0) (ch.Data (EmbRKState ℝ 1 1 1 0 0))),
        w.ctrl = .base (pseudo 1) pseudoConfig →
        ∃ w' v, compute (embBackend env fun _ => 1 / 2) optT
          (ch.ck (embBackend env fun _ => 1 / 2) optT) 5 w ⟨t0, 0, 0⟩ = (w', .ok v) ∧
          outOf v = Φ t0) ∧
      ∀ {σ : Type} (w : World (EmbRKState ℝ 1 1 1 0 0) σ), w.ctrl = .base (pseudo 1) pseudoConfig →
        ∀ dO, ∃ w' v, fwd (embBackend env fun _ => 1 / 2) optT 5 w ⟨0, 0, 0⟩ ⟨1, 0, 0⟩ dO
          = (w', .ok v) ∧ v.time = dO.time + 1 ∧ v.values = fun _ => 5 / 8 := by
  refine ⟨?_, fun t0 => (fun _ => t0 / 2 + (1 / 4 - t0) * (t0 / 2 + 1 / 2), 3 / 4), ?_, ?_, ?_⟩
  · intro h i z0
    let F : InSpace 1 1 →ₗ[ℝ] (Fin 1 → ℝ) :=
      { toFun := fun d x => (d.2.2.1 x + d.2.2.2 - d.1 x - h * d.2.1 x) / (1 + h * env.T.A i i)
        map_add' := fun u v => by
          funext x
          simp only [Prod.fst_add, Prod.snd_add, Pi.add_apply]
          ring
        map_smul' := fun c u => by
          funext x
          simp only [Prod.smul_fst, Prod.smul_snd, Pi.smul_apply, smul_eq_mul, RingHom.id_apply]
          ring }
    exact ⟨LinearMap.toContinuousLinearMap F,
      (LinearMap.toContinuousLinearMap F).hasFDerivAt, fun d => rfl⟩
  · refine HasDerivAt.prodMk (hasDerivAt_pi.mpr fun x => ?_) (hasDerivAt_const _ _)
    have h1 := hasDerivAt_id (0 : ℝ)
    have h2 := (h1.div_const 2).add ((h1.const_sub (1 / 4)).mul ((h1.div_const 2).add_const (1 / 2)))
    refine h2.congr_deriv ?_
    norm_num
  · intro t0 ht1 ht2 ch w hw
    obtain ⟨w', v, h, h1, h2⟩ := C73_default (E := env) (bhat := fun _ => 1 / 2) (opt := optT) rfl
      (T := 3 / 4) (h0 := 1 / 2) rfl rfl (fun _ _ => rfl) (fun _ _ => by simp [env]) (by norm_num [optT])
      (i := ⟨t0, 0, 0⟩) (by dsimp only; linarith) (k := 1) (r := 1 / 4 - t0) (by linarith)
      (by linarith) (by push_cast; ring) ch w hw (fuel := 5) (by norm_num)
    refine ⟨w', v, h, ?_⟩
    rw [if_neg (by linarith)] at h2
    simp only [List.replicate_one, List.singleton_append] at h2
    cases h2 with
    | cons hs1 hr1 =>
      cases hr1 with
      | cons hs2 hr2 =>
        generalize hv : v.values = vv at hr2
        generalize v.time = vt at hr2
        have e1 := step_eq hs1
        have e2 := step_eq hs2
        cases hr2
        refine Prod.ext ?_ h1
        change v.values = _
        rw [hv, e2, e1]
        funext x
        simp
        ring
  · intro σ w hw dO
    obtain ⟨w1, v1, h, -⟩ := C73_default (E := env) (bhat := fun _ => 1 / 2) (opt := optT) rfl
      (T := 3 / 4) (h0 := 1 / 2) rfl rfl (fun _ _ => rfl) (fun _ _ => by simp [env]) (by norm_num [optT])
      (i := ⟨0, 0, 0⟩) (by norm_num) (k := 1) (r := 1 / 4) (by norm_num)
      (by norm_num) (by norm_num) .no ⟨w.tis, w.pert, w.ctrl, none, (), []⟩ hw (fuel := 5)
      (by norm_num)
    obtain ⟨t1, h5, hlt, -⟩ := compute_run h
    obtain ⟨t2, h6, hsame⟩ := Run.same (embLawful env (fun _ => 1 / 2) fun _ _ _ _ => rfl) h5
      (start_same_fwd _ w.ctrl w.tis.disc w.tis.disc _)
    have hf := fwd_of_run (w := w) (fuel := 5) h6 (by rw [← hsame.length]; exact hlt) ⟨1, 0, 0⟩ dO
    refine ⟨_, _, Prod.ext rfl hf, ?_⟩
    obtain ⟨t3, h7, H⟩ := fwd_steps (embCore env fun _ => 1 / 2) (Prod.ext rfl hf)
    have hsz := pseudo_run_final (E := env) (bhat := fun _ => 1 / 2) pseudoConfig_unbounded rfl
      (T := 3 / 4) rfl (h0 := 1 / 2) (r := 1 / 4) (by norm_num) (by norm_num) h7 hw 1
      (by norm_num [startOfFwd, embBackend, rkLoad]) (by norm_num [startOfFwd, optT])
    obtain ⟨k1, u, k2⟩ := H _ hsz
    refine ⟨k1, ?_⟩
    generalize hvv : (Outputs.values _) = vv at k2 ⊢
    have e : fullSteps (1 / 2) 1 (1 / 4) = [1 / 2, 1 / 4] := by
      unfold fullSteps
      rw [if_neg (by norm_num)]
      rfl
    rw [e] at k2
    generalize (RKState.finalTime _) = tt at k2
    generalize hz : (u, vv) = zz at k2
    cases k2 with
    | cons hs1 hr1 =>
      cases hr1 with
      | cons hs2 hr2 =>
        have e1 := fwdStep_eq hs1
        have e2 := fwdStep_eq hs2
        cases hr2
        have e3 : vv = zz.2 := congrArg Prod.snd hz
        rw [e3, e2, e1]
        funext x
        norm_num

open AdaptiveDerivEx in
open Integrator.Ex in
/-- The run of the last theorem meets the hypotheses of `C82_adaptive_frozen_steps_partial`: its
product is the derivative of two steps of fixed sizes. -/
example (w : World (EmbRKState ℝ 1 1 1 0 0) Unit) (hw : w.ctrl = .base (pseudo 1) pseudoConfig) :
    ∃ (hs : List ℝ) (Φ : Pub 1 1 → (Fin 1 → ℝ) × ℝ), (Φ (0, 0, 0)).2 = 3 / 4 ∧
      (∀ z, IsSteps (StepOf env z.2.1) z.2.2 z.1 hs (Φ z).2 (Φ z).1) ∧
      ∃ L : Pub 1 1 →L[ℝ] (Fin 1 → ℝ) × ℝ, HasFDerivAt Φ L (0, 0, 0) ∧
        (L (0, 0, 1)).2 = 1 ∧ (L (0, 0, 1)).1 = fun _ => 5 / 8 := by
  obtain ⟨hd, Φ, -, h1, h2⟩ := C82_adaptive_initial_time_violated
  obtain ⟨w1, v, hc, -⟩ := h1 0 (by norm_num) (by norm_num) .no w hw
  obtain ⟨w2, dv, hf, g1, g2⟩ := h2 w hw ⟨0, 0⟩
  have ht : v.time = 3 / 4 := by
    obtain ⟨w3, v3, k1, k2, -⟩ := C73_default (E := env) (bhat := fun _ => 1 / 2) (opt := optT) rfl
      (T := 3 / 4) (h0 := 1 / 2) rfl rfl (fun _ _ => rfl) (fun _ _ => by simp [env])
      (by norm_num [optT]) (i := ⟨0, 0, 0⟩) (by norm_num) (k := 1) (r := 1 / 4) (by norm_num)
      (by norm_num) (by norm_num) .no w hw (fuel := 5) (by norm_num)
    rw [hc] at k1
    simp only [Prod.mk.injEq, Except.ok.injEq] at k1
    rw [k1.2, k2]
  obtain ⟨hs, Ψ, e1, e2, L, e3, e4⟩ := C82_adaptive_frozen_steps_partial env (fun _ => 1 / 2)
    (fun _ _ _ _ => rfl) (fun d h e he => by
      cases h <;> simp_all [embBackend, env]) hd
    (ch := .no) (w := w) (wf := w) rfl (x := (0, 0, 0)) (dx := (0, 0, 1)) hc hf
  refine ⟨hs, Ψ, ?_, e2, L, e3, ?_, ?_⟩
  · rw [← e1, ← ht]
    rfl
  · rw [e4] at g1
    simpa using g1
  · rw [e4] at g2
    exact g2

end Verif.Props
