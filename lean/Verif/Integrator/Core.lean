/-
What the plain and the embedded Runge-Kutta backends have in common, and the derivatives of whole
runs. The property theorems are in `Verif.Props.Deriv`.
-/
import Verif.Integrator.RK
import Verif.Integrator.Path
import Verif.Props.StepDeriv

namespace Verif.Integrator

open Verif.RK Verif.RK.Spec Verif.Control Verif.XReal
open Classical

variable {D : Type} {s n m o l : ℕ}

/-- A backend whose states contain a Runge-Kutta state on which it works as the plain one. -/
structure RKCore (B : Backend D (StartingValues ℝ n m) (Outputs n)) (E : Env s n m o l) where
  core : D → RKState ℝ s n m o l
  step_core : ∀ d r e, B.step d (fin r) = .ok e → core e = computeStep E.T E.ode (core d) r
  set_core : ∀ a b, core (B.set a b) = (core a).set (core b)
  load_core : ∀ d i, core (B.load d i) = rkLoad (core d) i
  clear_core : ∀ d, core (B.clearLin d) = { core d with linearizationPoints := 0 }
  seed_core : ∀ d v, core (B.seed d v) = rkSeed (core d) v
  deriv_core : ∀ d p h,
    core (B.deriv d p h) = computeStepDerivative E.T E.ode (core d) (core p) (toReal h)
  adj_core : ∀ d p h,
    core (B.adj d p h) = computeStepAdjoint E.T E.ode (core d) (core p) (toReal h)
  read_core : ∀ d, B.read d = ⟨(core d).finalTime, (core d).finalState⟩
  writeOut_core : ∀ d v, B.writeOut d v = rkWriteOut (core d) v
  writeIn_core : ∀ d i, B.writeIn d i = rkWriteIn (core d) i

/-- The plain backend. -/
def rkCore (E : Env s n m o l) : RKCore (rkBackend E) E where
  core := id
  step_core := by
    intro d r e h
    simp only [rkBackend] at h
    split at h
    · simp at h
    · simp only [Except.ok.injEq] at h
      exact h.symm
  set_core := fun _ _ => rfl
  load_core := fun _ _ => rfl
  clear_core := fun _ => rfl
  seed_core := fun _ _ => rfl
  deriv_core := fun _ _ _ => rfl
  adj_core := fun _ _ _ => rfl
  read_core := fun _ => rfl
  writeOut_core := fun _ _ => rfl
  writeIn_core := fun _ _ => rfl

/-- The embedded backend. -/
def embCore (E : Env s n m o l) (bhat : Fin s → ℝ) : RKCore (embBackend E bhat) E where
  core := EmbRKState.toRKState
  step_core := by
    intro d r e h
    simp only [embBackend] at h
    split at h
    · simp at h
    · simp only [Except.ok.injEq] at h
      rw [← h]
      rfl
  set_core := fun _ _ => rfl
  load_core := fun _ _ => rfl
  clear_core := fun _ => rfl
  seed_core := fun _ _ => rfl
  deriv_core := fun _ _ _ => rfl
  adj_core := fun _ _ _ => rfl
  read_core := fun _ => rfl
  writeOut_core := fun _ _ => rfl
  writeIn_core := fun _ _ => rfl

theorem pubOf_congr {a b : RKState ℝ s n m o l} : pubOf a = pubOf b ↔ rkObs a = rkObs b := by
  constructor
  · intro h
    simp only [pubOf, Prod.mk.injEq] at h
    simp [rkObs, h]
  · intro h
    obtain ⟨h1, h2, h3⟩ := rkObs_eq h
    simp [pubOf, h1, h2, h3]

/-- Inputs of the component as a point of a vector space. -/
def inOf (x : Pub n m) : StartingValues ℝ n m := ⟨x.2.2, x.1, x.2.1⟩

/-- Outputs of the component as a point of a vector space. -/
def outOf (v : Outputs n) : (Fin n → ℝ) × ℝ := (v.values, v.time)

/-- The derivative of one step, as linear map between published parts. -/
noncomputable def stepLin (T : Coeffs ℝ s) (ode : ODE ℝ n m o l) (st : RKState ℝ s n m o l)
    (h : ℝ) (hl : ∀ i, LinearDeriv ode (st.linearizationPoints i) h (T.A i i)) :
    Pub n m →ₗ[ℝ] Pub n m where
  toFun := fun x => pubOf (computeStepDerivative T ode st (withPub RKState.empty x) h)
  map_add' := by
    intro x y
    have := Props.C12_step_derivative_add T ode st (withPub RKState.empty x)
      (withPub RKState.empty y) (withPub RKState.empty (x + y)) h hl
      (by simp [Props.published, withPub])
    simp only [Props.published, Prod.mk.injEq, Prod.mk_add_mk] at this
    simp only [pubOf, Prod.mk_add_mk, this]
  map_smul' := by
    intro a x
    have := Props.C12_step_derivative_smul T ode st (withPub RKState.empty x)
      (withPub RKState.empty (a • x)) h a hl (by simp [Props.published, withPub])
    simp only [Props.published, Prod.mk.injEq, Prod.smul_mk] at this
    simp only [pubOf, Prod.smul_mk, this, RingHom.id_apply]

theorem stepLin_apply (T : Coeffs ℝ s) (ode : ODE ℝ n m o l) (st : RKState ℝ s n m o l)
    (h : ℝ) (hl : ∀ i, LinearDeriv ode (st.linearizationPoints i) h (T.A i i))
    (p : RKState ℝ s n m o l) :
    pubOf (computeStepDerivative T ode st p h) = stepLin T ode st h hl (pubOf p) :=
  pubOf_congr.mpr (deriv_rkObs T ode st st p _ h rfl rfl)

variable {B : Backend D (StartingValues ℝ n m) (Outputs n)} {E : Env s n m o l} {opt : Options}

/-- The forward derivative along a run is a linear map. -/
theorem fwdAlong_linear (C : RKCore B E) (hl : ∀ lin h i, LinearDeriv E.ode lin h (E.T.A i i))
    (tr : List (Ctrl × IState D)) :
    ∃ M : Pub n m →ₗ[ℝ] Pub n m, ∀ p, pubOf (C.core (fwdAlong B tr p)) = M (pubOf (C.core p)) := by
  induction tr with
  | nil => exact ⟨LinearMap.id, fun p => rfl⟩
  | cons q tr ih =>
    obtain ⟨M, hM⟩ := ih
    refine ⟨M ∘ₗ stepLin E.T E.ode (C.core q.2.disc) (toReal q.2.stepHist.1) (fun i => hl _ _ i),
      fun p => ?_⟩
    simp only [fwdAlong, hM, C.deriv_core]
    rw [stepLin_apply E.T E.ode _ _ (fun i => hl _ _ i)]
    rfl

/-- Pairing of published parts. -/
def pair (u v : RKState ℝ s n m o l) : ℝ :=
  dot u.finalState v.finalState + u.finalTime * v.finalTime
    + dot u.independentInputs v.independentInputs

theorem revAlong_append (B : Backend D (StartingValues ℝ n m) (Outputs n)) (xs ys : List (IState D))
    (p : D) : revAlong B (xs ++ ys) p = revAlong B ys (revAlong B xs p) := by
  induction xs generalizing p with
  | nil => rfl
  | cons x xs ih => exact ih _

/-- The reverse derivative along a run is the transpose of the forward one. -/
theorem pair_along (C : RKCore B E) (hz : NoStageState E.ode)
    (hadj : ∀ lin h i, AdjointPair E.ode lin h (E.T.A i i)) (tr : List (Ctrl × IState D)) (p q : D) :
    pair (C.core (revAlong B (tr.map Prod.snd).reverse q)) (C.core p)
      = pair (C.core q) (C.core (fwdAlong B tr p)) := by
  induction tr generalizing p with
  | nil => rfl
  | cons a tr ih =>
    rw [List.map_cons, List.reverse_cons, revAlong_append]
    simp only [revAlong, fwdAlong]
    rw [C.adj_core, ← ih]
    have h1 := Props.C13_step_adjoint_no_stage_state E.T E.ode (C.core a.2.disc) (C.core p)
      (C.core (revAlong B (tr.map Prod.snd).reverse q)) (toReal a.2.stepHist.1)
      (fun i => hadj _ _ i) (fun lin inp a => hz lin inp _ a)
    simp only [pair]
    rw [h1, C.deriv_core]
    rw [(computeStepDerivative_result E.T E.ode (C.core a.2.disc) (C.core p)
      (toReal a.2.stepHist.1)).indep]

/-- The map of published parts a step is. -/
noncomputable def stepMap (E : Env s n m o l) (h : ℝ) (x : Pub n m) : Pub n m :=
  pubOf (computeStep E.T E.ode (withPub RKState.empty x) h)

theorem stepMap_pubOf (E : Env s n m o l) (h : ℝ) (d : RKState ℝ s n m o l) :
    pubOf (computeStep E.T E.ode d h) = stepMap E h (pubOf d) := by
  unfold stepMap
  rw [Props.C09_step_depends_only_on_published E.T E.ode d (withPub RKState.empty (pubOf d)) h
    rfl rfl rfl]

/-- Along a run of fixed steps the published part is that of an iterated map, and the forward
derivative is the derivative of that map. -/
theorem run_frechet (C : RKCore B E) {dt : ℝ}
    (hd : ∀ i, DifferentiableBackend E.ode dt (E.T.A i i)) (ha : opt.adaptive = false)
    {it : ℕ} {c : Ctrl} {x : IState D} {tr : List (Ctrl × IState D)} (h : Run B opt it c x tr)
    (hs : x.sugg = fin dt) :
    pubOf (C.core (lastOf c x tr).2.disc) = (stepMap E dt)^[tr.length] (pubOf (C.core x.disc)) ∧
    ∃ L : Pub n m →L[ℝ] Pub n m,
      HasFDerivAt (stepMap E dt)^[tr.length] L (pubOf (C.core x.disc)) ∧
      ∀ p, pubOf (C.core (fwdAlong B tr p)) = L (pubOf (C.core p)) := by
  induction h with
  | done h => exact ⟨rfl, ContinuousLinearMap.id ℝ _, hasFDerivAt_id _, fun p => rfl⟩
  | @step it c x c' x' tr h hst hr ih =>
    obtain ⟨h', d, g1, g2, g3, g4, -⟩ := iterate_accepted hst
    obtain ⟨k1, k2, -⟩ := g4 ha
    rw [hs] at k1
    subst k1
    obtain ⟨e1, L, hL, hLp⟩ := ih (by rw [k2, hs])
    have hcd := C.step_core _ _ _ g1
    have hx' : pubOf (C.core x'.disc) = stepMap E dt (pubOf (C.core x.disc)) := by
      rw [g2, C.set_core, ← stepMap_pubOf, ← hcd]
      rfl
    obtain ⟨M, hM, hMd⟩ := Props.C11_step_derivative_is_frechet E.T E.ode dt RKState.empty
      RKState.empty (pubOf (C.core x.disc)) hd
    refine ⟨?_, L.comp M, ?_, ?_⟩
    · simp only [lastOf, List.length_cons, Function.iterate_succ_apply]
      rw [e1, hx']
    · rw [List.length_cons, Function.iterate_succ]
      rw [hx'] at hL
      exact hL.comp _ hM
    · intro p
      simp only [fwdAlong]
      rw [hLp, C.deriv_core, g3]
      simp only [ContinuousLinearMap.comp_apply]
      congr 1
      rw [← hMd]
      refine pubOf_congr.mpr (deriv_rkObs E.T E.ode _ _ _ _ dt ?_ rfl)
      rw [g2, C.set_core]
      change (C.core d).linearizationPoints = _
      rw [hcd, Props.C09_step_depends_only_on_published E.T E.ode (C.core x.disc)
        (withPub RKState.empty (pubOf (C.core x.disc))) dt rfl rfl rfl]

end Verif.Integrator
