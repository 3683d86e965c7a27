/-
Runs with pyrevolve as chains of steps, for any legal schedule and any controller. A checkpoint that
is loaded brings back the public part of an earlier state, so the result is that of a chain of
accepted steps, although the live state is not.
-/
import Verif.Integrator.Pyrevolve
import Verif.Integrator.PyrevolveRK
import Verif.Integrator.Trajectory

namespace Verif.Integrator

open Verif.RK Verif.RK.Spec Verif.Control Verif.XReal
open Classical

variable {D I O P : Type} {B : Backend D I O} {opt : Options}

/-- Steps of the given sizes lead from one public part of a state to another. -/
inductive Chain (B : Backend D I O) (pub : D → P) : P → List XReal → P → Prop
  | nil (p) : Chain B pub p [] p
  | snoc {p hs d h e} (hc : Chain B pub p hs (pub d)) (hst : B.step d h = .ok e) :
      Chain B pub p (hs ++ [h]) (pub e)

/-- The state `x` is the end of a chain of `k` steps from `p`; with fixed steps all of size `h0`. -/
def Reached (B : Backend D I O) (opt : Options) (pub : D → P) (p : P) (h0 : XReal) (k : ℕ)
    (x : IState D) : Prop :=
  ∃ hs, hs.length = k ∧ Chain B pub p hs (pub x.disc) ∧
    (opt.adaptive = false → x.sugg = h0 ∧ ∀ h ∈ hs, h = h0)

variable {pub : D → P} {p : P} {h0 : XReal}

theorem reached_step (hset : ∀ a b, pub (B.set a b) = pub b) {f k : ℕ} {c c' : Ctrl}
    {x x' : IState D} (hr : Reached B opt pub p h0 k x)
    (h : iterateOnStep B opt f c x = (c', x', .ok ())) : Reached B opt pub p h0 (k + 1) x' := by
  obtain ⟨hs, h1, h2, h3⟩ := hr
  obtain ⟨h', d, g1, g2, g3, g4, -⟩ := iterate_accepted h
  refine ⟨hs ++ [h'], by simp [h1], ?_, fun ha => ?_⟩
  · rw [g2, hset]
    exact .snoc h2 g1
  · obtain ⟨e1, e2⟩ := h3 ha
    obtain ⟨k1, k2, -⟩ := g4 ha
    refine ⟨by rw [k2, e1], fun h hh => ?_⟩
    rcases List.mem_append.mp hh with hh | hh
    · exact e2 h hh
    · rw [List.mem_singleton.mp hh, k1, e1]

theorem reached_fwdApply (hset : ∀ a b, pub (B.set a b) = pub b) {count k it : ℕ} {c : Ctrl}
    {x : IState D} (hr : Reached B opt pub p h0 k x)
    (h : (fwdApply B opt it count c x).out = .ok ()) :
    Reached B opt pub p h0 (k + count) (fwdApply B opt it count c x).st := by
  induction count generalizing it k c x with
  | zero => exact hr
  | succ count ih =>
    simp only [fwdApply, runStep] at h ⊢
    rcases hi : iterateOnStep B opt opt.recursionLimit c x with ⟨c', x', e | ⟨⟩⟩
    · rw [hi] at h
      simp at h
    · rw [hi] at h
      dsimp only at h ⊢
      have := ih (reached_step hset hr hi) h
      rwa [show k + (count + 1) = k + 1 + count by omega]

theorem reached_applyForward (hset : ∀ a b, pub (B.set a b) = pub b) {R : Restore D}
    (hR : ∀ a b, pub (R a b) = pub b) {n : ℕ} {acts : List Act} {k : ℕ} {sl sl' : ℕ → Option ℕ}
    (hl : LegalF n acts k sl sl') {s : PyData D} {c : Ctrl} {x : IState D}
    (hr : Reached B opt pub p h0 (k + 1) x)
    (hs : ∀ j k y, sl j = some k → s.slots j = some y → Reached B opt pub p h0 (k + 1) y)
    (h : (applyForward B opt R n acts s c x).2.out = .ok ()) :
    Reached B opt pub p h0 (n + 1) (applyForward B opt R n acts s c x).2.st := by
  induction hl generalizing s c x with
  | @advance acts a b sl sl' hab hbn hl ih =>
    simp only [applyForward] at h ⊢
    have h1 := reached_fwdApply (opt := opt) hset (count := b - a) (it := a + 1) (c := c) hr
    rcases hf : fwdApply B opt (a + 1) (b - a) c x with ⟨c', x', log, e | ⟨⟩⟩
    · rw [hf] at h
      simp at h
    · rw [hf] at h h1
      dsimp only at h h1 ⊢
      have h1 := h1 rfl
      rw [show a + 1 + (b - a) = b + 1 by omega] at h1
      exact ih h1 hs h
  | @takeshot acts k j sl sl' hl ih =>
    simp only [applyForward] at h ⊢
    refine ih hr (fun j' k' y h1 h2 => ?_) h
    by_cases hj : j' = j
    · subst hj
      simp only [Function.update_self, Option.some.injEq] at h1 h2
      rw [← h1, ← h2]
      exact hr
    · simp only [Function.update_of_ne hj] at h1 h2
      exact hs j' k' y h1 h2
  | @restore acts k k' j sl sl' hj hl ih =>
    simp only [applyForward] at h ⊢
    rcases hy : s.slots j with _ | y
    · rw [hy] at h
      simp at h
    · rw [hy] at h
      dsimp only at h ⊢
      obtain ⟨hs', e1, e2, e3⟩ := hs j k y hj hy
      refine ih ⟨hs', e1, ?_, e3⟩ hs h
      simp only [restoreState, hR]
      exact e2
  | @lastfw a sl ha =>
    simp only [applyForward] at h ⊢
    have h1 := reached_fwdApply (opt := opt) hset (count := n - a) (it := a + 1) (c := c) hr h
    rwa [show a + 1 + (n - a) = n + 1 by omega] at h1

theorem reached_pyForward (hset : ∀ a b, pub (B.set a b) = pub b) {R : Restore D}
    (hR : ∀ a b, pub (R a b) = pub b) {N : ℕ} {sched : Schedule} {sl : ℕ → Option ℕ}
    (hl : LegalF N sched.fwd 0 (fun _ => none) sl) {s : PyData D} {c : Ctrl} {x : IState D}
    (hr : Reached B opt pub p h0 0 x) (h : (pyForward B opt R N sched s c x).2.out = .ok ()) :
    Reached B opt pub p h0 (N + 1) (pyForward B opt R N sched s c x).2.st := by
  simp only [pyForward] at h ⊢
  have h1 := reached_fwdApply (opt := opt) hset (count := 1) (it := 0) (c := c) hr
  rcases hf : fwdApply B opt 0 1 c x with ⟨c', x', log, e | ⟨⟩⟩
  · rw [hf] at h
    simp at h
  · rw [hf] at h h1
    dsimp only at h h1 ⊢
    exact reached_applyForward hset hR hl (h1 rfl) (by simp) h

/-- The result of `compute` with pyrevolve is that of a chain of steps. -/
theorem py_chain (hset : ∀ a b, pub (B.set a b) = pub b) {R : Restore D}
    (hR : ∀ a b, pub (R a b) = pub b) {N fuel : ℕ} {sched : Schedule} {sl : ℕ → Option ℕ}
    {e : IState D} (hl : LegalF N sched.fwd 0 (fun _ => none) sl) {w w' : World D (PyData D)}
    {i : I} {v : O} (h : compute B opt (pyCk B opt R e N sched) fuel w i = (w', .ok v)) :
    ∃ hs : List XReal, hs.length = N + 1 ∧
      Chain B pub (pub (B.clearLin (B.load w.tis.disc i))) hs (pub w'.tis.disc) ∧
      v = B.read w'.tis.disc ∧ (opt.adaptive = false → ∀ h ∈ hs, h = opt.initialStep) := by
  have hr0 : Reached B opt pub (pub (B.clearLin (B.load w.tis.disc i))) opt.initialStep 0
      (startOf B opt w.ctrl w.tis.disc i) :=
    ⟨[], rfl, .nil _, fun _ => ⟨rfl, by simp⟩⟩
  have h1 := reached_pyForward (opt := opt) hset hR hl (s := ⟨w.ck.first, fun _ => none⟩)
    (c := w.ctrl) hr0
  have h2 : compute B opt (pyCk B opt R e N sched) fuel w i = (match
      pyForward B opt R N sched ⟨w.ck.first, fun _ => none⟩ w.ctrl
        (startOf B opt w.ctrl w.tis.disc i) with
      | r => match r.2.out with
        | .error e => (⟨r.2.st, w.pert, r.2.ctrl, some (B.load w.tis.disc i), r.1,
            w.log ++ r.2.log⟩, .error e)
        | .ok () => (⟨r.2.st, w.pert, r.2.ctrl, some (B.load w.tis.disc i), r.1,
            w.log ++ r.2.log⟩, .ok (B.read r.2.st.disc))) := rfl
  rw [h2] at h
  dsimp only at h
  generalize hp : pyForward B opt R N sched ⟨w.ck.first, fun _ => none⟩ w.ctrl
    (startOf B opt w.ctrl w.tis.disc i) = r at h h1
  obtain ⟨r1, c, x, log, out⟩ := r
  rcases out with err | ⟨⟩
  · simp at h
  · simp only [Prod.mk.injEq, Except.ok.injEq] at h
    obtain ⟨hs, k1, k2, k3⟩ := h1 rfl
    rw [← h.1, ← h.2]
    exact ⟨hs, k1, k2, rfl, fun ha => (k3 ha).2⟩

/-! ### Runge-Kutta -/

variable {s n m o l : ℕ} {A : Backend D (StartingValues ℝ n m) (Outputs n)} {E : Env s n m o l}

/-- The public part of a Runge-Kutta state. -/
def RKCore.public (C : RKCore A E) (d : D) : ℝ × (Fin n → ℝ) × (Fin m → ℝ) :=
  ((C.core d).finalTime, (C.core d).finalState, (C.core d).independentInputs)

theorem RKCore.public_set (C : RKCore A E) (a b : D) : C.public (A.set a b) = C.public b := by
  simp [RKCore.public, C.set_core, RKState.set]

theorem RKCore.public_start (C : RKCore A E) (d : D) (i : StartingValues ℝ n m) :
    C.public (A.clearLin (A.load d i)) = (i.initialTime, i.initialValues, i.independentInputs) := by
  simp [RKCore.public, C.clear_core, C.load_core, rkLoad]

/-- The time at the end of a chain of steps of finite sizes. -/
theorem chain_time (C : RKCore A E) {p q : ℝ × (Fin n → ℝ) × (Fin m → ℝ)} {hs : List XReal}
    (h : Chain A C.public p hs q) (hr : List ℝ) (he : hs = hr.map fin) : q.1 = p.1 + hr.sum := by
  induction h generalizing hr with
  | nil =>
    have : hr = [] := by simpa using he.symm
    simp [this]
  | @snoc hs d h e hc hst ih =>
    rcases List.eq_nil_or_concat' hr with rfl | ⟨hr, r, rfl⟩
    · simp at he
    · simp only [List.map_append, List.map_cons, List.map_nil] at he
      obtain ⟨e1, e2⟩ := List.append_inj' he rfl
      simp only [List.cons.injEq, and_true] at e2
      rw [e2] at hst
      have := ih hr e1
      rw [List.sum_append, List.sum_singleton, ← add_assoc, ← this]
      simp only [RKCore.public, C.step_core _ _ _ hst]
      exact (computeStep_result E.T E.ode (C.core d) r).finalTime

/-- One call of `compute_step` of the discretization with step size `h` in any state with final time
`t`, final values `y` and independent inputs `p` leads to the values `y₁`. -/
def StepOf (E : Env s n m o l) (p : Fin m → ℝ) (h t : ℝ) (y y₁ : Fin n → ℝ) : Prop :=
  ∃ st : RKState ℝ s n m o l, st.finalTime = t ∧ st.finalState = y ∧ st.independentInputs = p ∧
    y₁ = (computeStep E.T E.ode st h).finalState

/-- A chain of steps of finite sizes as a sequence of steps of the discretization. -/
theorem chain_steps (C : RKCore A E) {p q : ℝ × (Fin n → ℝ) × (Fin m → ℝ)} {hs : List XReal}
    (h : Chain A C.public p hs q) (hr : List ℝ) (he : hs = hr.map fin) :
    q.2.2 = p.2.2 ∧ IsSteps (StepOf E p.2.2) p.1 p.2.1 hr q.1 q.2.1 := by
  induction h generalizing hr with
  | nil =>
    have : hr = [] := by simpa using he.symm
    subst this
    exact ⟨rfl, .nil _ _⟩
  | @snoc hs d h e hc hst ih =>
    rcases List.eq_nil_or_concat' hr with rfl | ⟨hr, r, rfl⟩
    · simp at he
    · simp only [List.map_append, List.map_cons, List.map_nil] at he
      obtain ⟨e1, e2⟩ := List.append_inj' he rfl
      simp only [List.cons.injEq, and_true] at e2
      rw [e2] at hst
      obtain ⟨i1, i2⟩ := ih hr e1
      have hco := C.step_core d r e hst
      have hres := computeStep_result E.T E.ode (C.core d) r
      simp only [RKCore.public] at i1 i2 ⊢
      refine ⟨by rw [hco, hres.indep, i1], i2.append (.cons (y₁ := (C.core e).finalState) ?_ ?_)⟩
      · exact ⟨C.core d, rfl, rfl, i1, by rw [hco]⟩
      · have : (C.core e).finalTime = (C.core d).finalTime + r := by
          rw [hco]
          exact hres.finalTime
        rw [this]
        exact .nil _ _

/-- A path of accepted steps continues a chain. -/
theorem Chain.path {pub : D → P} {B : Backend D I O} (hset : ∀ a b, pub (B.set a b) = pub b)
    {p : P} {hs : List XReal} {d d' : D} {l : List (XReal × D)} (hp : Path B d l d')
    (h : Chain B pub p hs (pub d)) : Chain B pub p (hs ++ l.map Prod.fst) (pub d') := by
  induction hp generalizing hs with
  | nil d => simpa using h
  | @cons d h' e l d' hst hp ih =>
    have h1 := Chain.snoc h hst
    rw [← hset d e] at h1
    simpa using ih h1

/-- If the discretization fails for infinite step sizes and NaN, the steps of a chain are finite. -/
theorem chain_finite {B : Backend D I O} {pub : D → P} {p q : P} {hs : List XReal}
    (hnf : ∀ d h e, B.step d h = .ok e → ∃ r, h = fin r) (h : Chain B pub p hs q) :
    ∃ hr : List ℝ, hs = hr.map fin := by
  induction h with
  | nil => exact ⟨[], rfl⟩
  | snoc hc hst ih =>
    obtain ⟨hr, rfl⟩ := ih
    obtain ⟨r, rfl⟩ := hnf _ _ _ hst
    exact ⟨hr ++ [r], by simp⟩

end Verif.Integrator
