/-
Properties about the derivative modes of the integrator component (C12, C14, C15). They hold for
the plain and the embedded backend alike (`rkCore`, `embCore`).
-/
import Verif.Integrator.Core
import Verif.Integrator.Examples

namespace Verif.Props

open Verif.RK Verif.RK.Spec Verif.Control Verif.XReal Verif.Integrator
open Classical

variable {D : Type} {s n m o l : ℕ} {B : Backend D (StartingValues ℝ n m) (Outputs n)}
  {E : Env s n m o l} {opt : Options}

/-! ### C12 -/

/-- C12: if the derivative call of the backend is linear, the whole forward product is a linear
map of the seed (time and values; the time is added to what the output vector held before): at
inputs where one product can be computed, all can, with one linear map `M`. -/
theorem C12_forward_mode_linear (C : RKCore B E)
    (hl : ∀ lin h i, LinearDeriv E.ode lin h (E.T.A i i)) {σ : Type} {fuel : ℕ}
    {w w' : World D σ} {i di0 : StartingValues ℝ n m} {dO0 v : Outputs n}
    (h : fwd B opt fuel w i di0 dO0 = (w', .ok v)) :
    ∃ M : Pub n m →ₗ[ℝ] (Fin n → ℝ) × ℝ, ∀ (x : Pub n m) (dO : Outputs n),
      (fwd B opt fuel w i (inOf x) dO).2 = .ok ⟨dO.time + (M x).2, (M x).1⟩ := by
  obtain ⟨tr, htr, hlt, -⟩ := fwd_run h
  obtain ⟨M, hM⟩ := fwdAlong_linear C hl tr
  refine ⟨(LinearMap.prod (LinearMap.fst ℝ _ _)
    (LinearMap.snd ℝ _ _ ∘ₗ LinearMap.snd ℝ _ _)) ∘ₗ M, fun x dO => ?_⟩
  rw [fwd_of_run htr hlt, C.writeOut_core]
  have := hM (B.load w.pert (inOf x))
  rw [C.load_core] at this
  simp only [rkWriteOut, LinearMap.comp_apply, LinearMap.prod_apply, Pi.prod]
  change _ = M x at this
  rw [← this]
  rfl

/-! ### C15 -/

/-- C15: fixed step size `dt` and number of steps `N`, a stage problem that does not fail, and a
backend whose derivative call is the Fréchet derivative of its update call. Then `compute` is a
function `Φ` of initial values, independent inputs and initial time, `Φ` has a Fréchet derivative
everywhere, and the forward product, with any history of both component instances, is this
derivative applied to the seed. -/
theorem C15_forward_mode_is_derivative (C : RKCore B E) {dt : ℝ} {N : ℕ}
    (hB : ∀ d, ∃ e, B.step d (fin dt) = .ok e)
    (hd : ∀ i, DifferentiableBackend E.ode dt (E.T.A i i))
    (ha : opt.adaptive = false) (hc : opt.crit = .steps N) (hi : opt.initialStep = fin dt)
    (hl : opt.recursionLimit ≠ 0) {ch : Choice} {σ : Type} (w : World D (ch.Data D))
    (w2 : World D σ) {fuel : ℕ} (hf : N < fuel) :
    ∃ Φ : Pub n m → (Fin n → ℝ) × ℝ,
      (∀ x, ∃ v, (compute B opt (ch.ck B opt) fuel w (inOf x)).2 = .ok v ∧ outOf v = Φ x) ∧
      ∀ x0, ∃ L : Pub n m →L[ℝ] (Fin n → ℝ) × ℝ, HasFDerivAt Φ L x0 ∧
        ∀ dx dO, (fwd B opt fuel w2 (inOf x0) (inOf dx) dO).2
          = .ok ⟨dO.time + (L dx).2, (L dx).1⟩ := by
  let out : Pub n m →L[ℝ] (Fin n → ℝ) × ℝ := ContinuousLinearMap.prod
    (ContinuousLinearMap.fst ℝ _ _)
    ((ContinuousLinearMap.snd ℝ _ _).comp (ContinuousLinearMap.snd ℝ _ _))
  refine ⟨fun x => out ((stepMap E dt)^[N] x), fun x => ?_, fun x0 => ?_⟩
  · obtain ⟨tr, htr⟩ := exists_run_fixed (B := B) hc ha hl w.ctrl
      (startOf B opt w.ctrl w.tis.disc (inOf x)) (fun d => by simpa [startOf, hi] using hB d) 0
    have hlen := htr.length_steps hc (Nat.zero_le _)
    rw [zero_add] at hlen
    have hcomp := compute_of_run (ch := ch) (fuel := fuel) htr (by omega)
    refine ⟨_, by rw [hcomp], ?_⟩
    have hfr := (run_frechet C hd ha htr hi).1
    rw [hlen] at hfr
    have hst : pubOf (C.core (startOf B opt w.ctrl w.tis.disc (inOf x)).disc) = x := by
      simp only [startOf, C.clear_core, C.load_core]
      rfl
    rw [hst] at hfr
    rw [C.read_core]
    dsimp only
    rw [← hfr]
    rfl
  · obtain ⟨tr, htr⟩ := exists_run_fixed (B := B) hc ha hl w2.ctrl
      (startOfFwd B opt w2.ctrl w2.tis.disc (inOf x0))
      (fun d => by simpa [startOfFwd, hi] using hB d) 0
    have hlen := htr.length_steps hc (Nat.zero_le _)
    rw [zero_add] at hlen
    obtain ⟨-, L, hL, hLp⟩ := run_frechet C hd ha htr hi
    have hst : pubOf (C.core (startOfFwd B opt w2.ctrl w2.tis.disc (inOf x0)).disc) = x0 := by
      simp only [startOfFwd, C.load_core]
      rfl
    rw [hst, hlen] at hL
    refine ⟨out.comp L, out.hasFDerivAt.comp _ hL, fun dx dO => ?_⟩
    rw [fwd_of_run htr (by omega), C.writeOut_core]
    have := hLp (B.load w2.pert (inOf dx))
    rw [C.load_core] at this
    change _ = L dx at this
    simp only [ContinuousLinearMap.comp_apply]
    rw [← this]
    rfl

/-- The example problem, three steps of size 1/2, with both checkpointing choices. -/
example (ch : Choice) : ∃ Φ : Pub 1 1 → (Fin 1 → ℝ) × ℝ,
      (∀ x, ∃ v, (compute (rkBackend Integrator.Ex.env) Integrator.Ex.opt3
        (ch.ck (rkBackend Integrator.Ex.env) Integrator.Ex.opt3) 4
        (Integrator.Ex.fresh Integrator.Ex.opt3 ch) (inOf x)).2 = .ok v ∧ outOf v = Φ x) ∧
      ∀ x0, ∃ L : Pub 1 1 →L[ℝ] (Fin 1 → ℝ) × ℝ, HasFDerivAt Φ L x0 ∧
        ∀ dx dO, (fwd (rkBackend Integrator.Ex.env) Integrator.Ex.opt3 4
          (Integrator.Ex.fresh Integrator.Ex.opt3 ch) (inOf x0) (inOf dx) dO).2
          = .ok ⟨dO.time + (L dx).2, (L dx).1⟩ := by
  refine C15_forward_mode_is_derivative (rkCore Integrator.Ex.env) (dt := 1 / 2) (N := 3)
    (fun d => ⟨_, rfl⟩) ?_ rfl rfl rfl (by simp [Integrator.Ex.opt3]) _ _ (by norm_num)
  intro i z0
  let F : InSpace 1 1 →ₗ[ℝ] (Fin 1 → ℝ) :=
    { toFun := fun d x => (d.2.2.1 x + d.2.2.2 - d.1 x - 1 / 2 * d.2.1 x)
        / (1 + 1 / 2 * Integrator.Ex.env.T.A i i)
      map_add' := fun u v => by funext x; simp only [Prod.fst_add, Prod.snd_add, Pi.add_apply]; ring
      map_smul' := fun c u => by
        funext x
        simp only [Prod.smul_fst, Prod.smul_snd, Pi.smul_apply, smul_eq_mul, RingHom.id_apply]
        ring }
  exact ⟨LinearMap.toContinuousLinearMap F,
    (LinearMap.toContinuousLinearMap F).hasFDerivAt, fun d => rfl⟩

/-! ### C14 -/

/-- The trajectory a reverse product uses, when nothing was cached. -/
theorem rev_uncached {D I O : Type} {B : Backend D I O} {fuel : ℕ} {w w' : World D (List (IState D))}
    {i g dI : I} {dO : O} (hc : cacheOk B w i = false)
    (h : rev B opt (allCk B opt) fuel w i dO dI = (w', .ok g)) :
    ∃ tr, Run B opt 0 w.ctrl (startOf B opt w.ctrl w.tis.disc i) tr ∧
      g = B.writeIn (revAlong B (tr.map Prod.snd).reverse (B.seed w.pert dO)) dI := by
  simp only [rev, revPrep, hc] at h
  rcases hcomp : compute B opt (allCk B opt) fuel w i with ⟨w1, e | v⟩
  · rw [hcomp] at h
    simp at h
  · rw [hcomp] at h
    obtain ⟨tr, htr, -, -, -, -, -, -, hp⟩ := compute_run (ch := .all) hcomp
    have hst := compute_stores hcomp htr
    simp only [Bool.false_eq_true, if_false, allCk, Prod.mk.injEq, Except.ok.injEq,
      allReverse_fst] at h
    refine ⟨tr, htr, ?_⟩
    rw [← h.2, hst, hp]

/-- The trajectory a reverse product uses directly after `compute` at the same inputs. -/
theorem rev_after_compute {D I O : Type} {B : Backend D I O} {fuel fuel' : ℕ}
    {w0 w w' : World D (List (IState D))} {i g dI : I} {dO v : O}
    (hhit : ∀ d, B.cacheHit (B.load d i) i = true)
    (hcomp : compute B opt (allCk B opt) fuel w0 i = (w, .ok v))
    (h : rev B opt (allCk B opt) fuel' w i dO dI = (w', .ok g)) :
    ∃ tr, Run B opt 0 w0.ctrl (startOf B opt w0.ctrl w0.tis.disc i) tr ∧
      g = B.writeIn (revAlong B (tr.map Prod.snd).reverse (B.seed w0.pert dO)) dI := by
  obtain ⟨tr, htr, -, -, -, -, -, hca, hp⟩ := compute_run (ch := .all) hcomp
  have hst := compute_stores hcomp htr
  have hok : cacheOk B w i = true := by
    simp only [cacheOk, hca]
    exact hhit _
  simp only [rev, revPrep, hok, if_true, allCk, Prod.mk.injEq, Except.ok.injEq,
    allReverse_fst] at h
  refine ⟨tr, htr, ?_⟩
  rw [← h.2, hst, hp]

/-- Forward and reverse products that use runs with the same start are transposes. -/
theorem transpose_of_runs (C : RKCore B E) (W : Lawful B)
    (hW : ∀ a b, W.obs a = W.obs b → rkObs (C.core a) = rkObs (C.core b))
    (hz : NoStageState E.ode) (hadj : ∀ lin h i, AdjointPair E.ode lin h (E.T.A i i))
    {c : Ctrl} {d d' : D} {i di dI g : StartingValues ℝ n m} {dO dO0 v : Outputs n} {p q : D}
    {t1 t2 : List (Ctrl × IState D)}
    (h1 : Run B opt 0 c (startOf B opt c d i) t1) (h2 : Run B opt 0 c (startOfFwd B opt c d' i) t2)
    (hv : v = B.writeOut (fwdAlong B t2 (B.load p di)) dO0)
    (hg : g = B.writeIn (revAlong B (t1.map Prod.snd).reverse (B.seed q dO)) dI) :
    dot dO.values v.values + dO.time * (v.time - dO0.time)
      = dot g.initialValues di.initialValues + (g.initialTime - dI.initialTime) * di.initialTime
        + dot g.independentInputs di.independentInputs := by
  obtain ⟨t3, h3, hs⟩ := Run.same W h1 (start_same_fwd W c d d' i)
  have := Run.unique h2 h3
  subst this
  have hobs := hW _ _ (fwdAlong_same W hs (p := B.load p di) (q := B.load p di) rfl)
  obtain ⟨e1, e2, e3⟩ := rkObs_eq hobs
  have hpair := pair_along C hz hadj t1 (B.load p di) (B.seed q dO)
  simp only [pair, C.load_core, C.seed_core, e1, e2, e3] at hpair
  rw [hv, hg, C.writeOut_core, C.writeIn_core]
  simp only [rkWriteOut, rkWriteIn]
  simp only [rkLoad, rkSeed, dot_zero_left, add_zero] at hpair
  rw [add_sub_cancel_left, add_sub_cancel_left, hpair]

/-- C14 (plain schemes): a reverse product that finds nothing cached is the transpose of the forward
product, over values, independent inputs and time, for every termination criterion. The two
products may come from instances with different histories, as long as their controllers are in the
same state (without adaptive stepping, or with a single controller, they always are). Missing for
the full claim: controller chains left in another state by earlier runs (C26), and products that
use a cached trajectory (see the next theorem and C35). -/
theorem C14_reverse_is_transpose_partial (E : Env s n m o l) (hz : NoStageState E.ode)
    (hadj : ∀ lin h i, AdjointPair E.ode lin h (E.T.A i i)) {σ : Type} {fuel fuel' : ℕ}
    {wf wf' : World (RKState ℝ s n m o l) σ}
    {wr wr' : World (RKState ℝ s n m o l) (List (IState (RKState ℝ s n m o l)))}
    {i di dI g : StartingValues ℝ n m} {dO dO0 v : Outputs n}
    (hctrl : wf.ctrl = wr.ctrl) (hc : cacheOk (rkBackend E) wr i = false)
    (hf : fwd (rkBackend E) opt fuel wf i di dO0 = (wf', .ok v))
    (hr : rev (rkBackend E) opt (allCk (rkBackend E) opt) fuel' wr i dO dI = (wr', .ok g)) :
    dot dO.values v.values + dO.time * (v.time - dO0.time)
      = dot g.initialValues di.initialValues + (g.initialTime - dI.initialTime) * di.initialTime
        + dot g.independentInputs di.independentInputs := by
  obtain ⟨t1, h1, hg⟩ := rev_uncached hc hr
  obtain ⟨t2, h2, -, -, -, hp, hv, -⟩ := fwd_run hf
  rw [hctrl] at h2
  exact transpose_of_runs (rkCore E) (rkLawful E hz) (fun a b h => h) hz hadj h1 h2
    (by rw [hv, hp]) hg

/-- C14 (plain schemes), the usual order of calls: `compute`, then products at the same inputs. -/
theorem C14_reverse_after_compute_is_transpose_partial (E : Env s n m o l)
    (hz : NoStageState E.ode) (hadj : ∀ lin h i, AdjointPair E.ode lin h (E.T.A i i)) {σ : Type}
    {fuel fuel' fuel'' : ℕ} {wf wf' : World (RKState ℝ s n m o l) σ}
    {w0 wr wr' : World (RKState ℝ s n m o l) (List (IState (RKState ℝ s n m o l)))}
    {i di dI g : StartingValues ℝ n m} {dO dO0 v y : Outputs n}
    (hctrl : wf.ctrl = w0.ctrl)
    (hcomp : compute (rkBackend E) opt (allCk (rkBackend E) opt) fuel w0 i = (wr, .ok y))
    (hf : fwd (rkBackend E) opt fuel' wf i di dO0 = (wf', .ok v))
    (hr : rev (rkBackend E) opt (allCk (rkBackend E) opt) fuel'' wr i dO dI = (wr', .ok g)) :
    dot dO.values v.values + dO.time * (v.time - dO0.time)
      = dot g.initialValues di.initialValues + (g.initialTime - dI.initialTime) * di.initialTime
        + dot g.independentInputs di.independentInputs := by
  obtain ⟨t1, h1, hg⟩ := rev_after_compute (fun d => by simp [rkBackend, rkCacheHit, rkLoad])
    hcomp hr
  obtain ⟨t2, h2, -, -, -, hp, hv, -⟩ := fwd_run hf
  rw [hctrl] at h2
  exact transpose_of_runs (rkCore E) (rkLawful E hz) (fun a b h => h) hz hadj h1 h2
    (by rw [hv, hp]) hg

/-- C14 (embedded schemes, so also adaptive runs). -/
theorem C14_embedded_reverse_is_transpose_partial (E : Env s n m o l) (bhat : Fin s → ℝ)
    (hz : NoStageState E.ode)
    (hadj : ∀ lin h i, AdjointPair E.ode lin h (E.T.A i i)) {σ : Type} {fuel fuel' : ℕ}
    {wf wf' : World (EmbRKState ℝ s n m o l) σ}
    {wr wr' : World (EmbRKState ℝ s n m o l) (List (IState (EmbRKState ℝ s n m o l)))}
    {i di dI g : StartingValues ℝ n m} {dO dO0 v : Outputs n}
    (hctrl : wf.ctrl = wr.ctrl) (hc : cacheOk (embBackend E bhat) wr i = false)
    (hf : fwd (embBackend E bhat) opt fuel wf i di dO0 = (wf', .ok v))
    (hr : rev (embBackend E bhat) opt (allCk (embBackend E bhat) opt) fuel' wr i dO dI
      = (wr', .ok g)) :
    dot dO.values v.values + dO.time * (v.time - dO0.time)
      = dot g.initialValues di.initialValues + (g.initialTime - dI.initialTime) * di.initialTime
        + dot g.independentInputs di.independentInputs := by
  obtain ⟨t1, h1, hg⟩ := rev_uncached hc hr
  obtain ⟨t2, h2, -, -, -, hp, hv, -⟩ := fwd_run hf
  rw [hctrl] at h2
  exact transpose_of_runs (embCore E bhat) (embLawful E bhat hz) (fun a b h => h) hz hadj h1 h2
    (by rw [hv, hp]) hg

/-- C14 (embedded schemes), products after `compute`. -/
theorem C14_embedded_after_compute_is_transpose_partial (E : Env s n m o l) (bhat : Fin s → ℝ)
    (hz : NoStageState E.ode) (hadj : ∀ lin h i, AdjointPair E.ode lin h (E.T.A i i)) {σ : Type}
    {fuel fuel' fuel'' : ℕ} {wf wf' : World (EmbRKState ℝ s n m o l) σ}
    {w0 wr wr' : World (EmbRKState ℝ s n m o l) (List (IState (EmbRKState ℝ s n m o l)))}
    {i di dI g : StartingValues ℝ n m} {dO dO0 v y : Outputs n}
    (hctrl : wf.ctrl = w0.ctrl)
    (hcomp : compute (embBackend E bhat) opt (allCk (embBackend E bhat) opt) fuel w0 i
      = (wr, .ok y))
    (hf : fwd (embBackend E bhat) opt fuel' wf i di dO0 = (wf', .ok v))
    (hr : rev (embBackend E bhat) opt (allCk (embBackend E bhat) opt) fuel'' wr i dO dI
      = (wr', .ok g)) :
    dot dO.values v.values + dO.time * (v.time - dO0.time)
      = dot g.initialValues di.initialValues + (g.initialTime - dI.initialTime) * di.initialTime
        + dot g.independentInputs di.independentInputs := by
  obtain ⟨t1, h1, hg⟩ := rev_after_compute (fun d => by simp [embBackend, rkCacheHit, rkLoad])
    hcomp hr
  obtain ⟨t2, h2, -, -, -, hp, hv, -⟩ := fwd_run hf
  rw [hctrl] at h2
  exact transpose_of_runs (embCore E bhat) (embLawful E bhat hz) (fun a b h => h) hz hadj h1 h2
    (by rw [hv, hp]) hg

/-- C14: where the forward product can be computed, so can the reverse product. -/
theorem C14_reverse_succeeds {D I O : Type} {B : Backend D I O} (W : Lawful B) {σ : Type}
    {fuel : ℕ} {wf wf' : World D σ} {wr : World D (List (IState D))} {i di dI : I} {dO0 v dO : O}
    (hctrl : wf.ctrl = wr.ctrl) (hf : fwd B opt fuel wf i di dO0 = (wf', .ok v)) :
    ∃ wr' g, rev B opt (allCk B opt) fuel wr i dO dI = (wr', .ok g) := by
  obtain ⟨t2, h2, hlt, -⟩ := fwd_run hf
  rw [hctrl] at h2
  obtain ⟨t1, h1, hs⟩ := Run.same W h2
    (start_same_fwd (opt := opt) W wr.ctrl wr.tis.disc wf.tis.disc i).symm
  have hcomp := compute_of_run (ch := .all) (w := wr) (fuel := fuel) h1
    (by rw [← hs.length]; exact hlt)
  simp only [Choice.ck] at hcomp
  by_cases hc : cacheOk B wr i = true
  · simp only [rev, revPrep, hc, if_true, allCk]
    exact ⟨_, _, rfl⟩
  · simp only [rev, revPrep, hc]
    rw [hcomp]
    exact ⟨_, _, rfl⟩

/-- Forward and reverse products of the example problem exist, for all seeds, and the contract
holds for its backend. -/
example (di dI : StartingValues ℝ 1 1) (dO dO0 : Outputs 1) :
    (∀ lin h i, AdjointPair Integrator.Ex.env.ode lin h (Integrator.Ex.env.T.A i i)) ∧
    ∃ wf' v wr' g,
      fwd (rkBackend Integrator.Ex.env) Integrator.Ex.opt3 4
        (Integrator.Ex.fresh Integrator.Ex.opt3 .all) Integrator.Ex.inp di dO0 = (wf', .ok v) ∧
      rev (rkBackend Integrator.Ex.env) Integrator.Ex.opt3
        (allCk (rkBackend Integrator.Ex.env) Integrator.Ex.opt3) 4
        (Integrator.Ex.fresh Integrator.Ex.opt3 .all) Integrator.Ex.inp dO dI = (wr', .ok g) := by
  refine ⟨fun lin h i => Ex.linOde_adjoint _ _ _, ?_⟩
  obtain ⟨tr, htr⟩ := exists_run_fixed (B := rkBackend Integrator.Ex.env)
    (opt := Integrator.Ex.opt3) (n := 3) rfl rfl (by simp [Integrator.Ex.opt3])
    (Integrator.Ex.fresh Integrator.Ex.opt3 .all).ctrl
    (startOfFwd (rkBackend Integrator.Ex.env) Integrator.Ex.opt3
      (Integrator.Ex.fresh Integrator.Ex.opt3 .all).ctrl
      (Integrator.Ex.fresh Integrator.Ex.opt3 .all).tis.disc Integrator.Ex.inp)
    (fun d => ⟨_, rfl⟩) 0
  have hlen := htr.length_steps (n := 3) rfl (Nat.zero_le _)
  have hf := fwd_of_run (σ := List (IState (RKState ℝ 1 1 1 0 0))) (fuel := 4) htr (by omega) di dO0
  obtain ⟨wr', g, hr⟩ := C14_reverse_succeeds (rkLawful Integrator.Ex.env
    Integrator.Ex.env_noStageState) (wr := Integrator.Ex.fresh Integrator.Ex.opt3 .all)
    (dI := dI) (dO := dO) rfl (Prod.ext (by rfl) hf)
  exact ⟨_, _, wr', g, Prod.ext (by rfl) hf, hr⟩

end Verif.Props
