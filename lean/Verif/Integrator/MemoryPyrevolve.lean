/-
The checkpointing with pyrevolve around a stage problem with a memory.

Source: /repo/src/rkopenmdao/checkpoint_interface/pyrevolve_checkpointer.py
        /repo/src/rkopenmdao/checkpoint_interface/runge_kutta_integrator_pyrevolve_classes.py

As in `Verif.Integrator.Pyrevolve` the scheduler is an arbitrary list of actions. The memory of the stage
problem is not part of checkpoints.
-/
import Verif.Integrator.Memory
import Verif.Integrator.Pyrevolve

namespace Verif.Integrator

open Verif.Control Verif.XReal
open Classical

variable {D I O M : Type}

/-- `RungeKuttaForwardOperator.apply`, ...pyrevolve_classes.py L168-185, see `fwdApply`. -/
noncomputable def fwdApplyM (B : Backend D I O) (S : Mem D M) (opt : Options) :
    ℕ → ℕ → M → Ctrl → IState D → M × Res D
  | _, 0, m, c, x => (m, ⟨c, x, [], .ok ()⟩)
  | it, count + 1, m, c, x =>
    match runStepM B S opt it m c x with
    | (m', ⟨c', x', log, .error e⟩) => (m', ⟨c', x', log, .error e⟩)
    | (m', ⟨c', x', log, .ok ()⟩) =>
      let r := fwdApplyM B S opt (it + 1) count m' c' x'
      (r.1, { r.2 with log := log ++ r.2.log })

/-- The loop of `apply_forward`, see `applyForward`. -/
noncomputable def applyForwardM (B : Backend D I O) (S : Mem D M) (opt : Options) (R : Restore D)
    (n : ℕ) : List Act → PyData D → M → Ctrl → IState D → M × PyData D × Res D
  | [], s, m, c, x => (m, s, ⟨c, x, [], .error .fuel⟩)
  | .advance old capo :: acts, s, m, c, x =>
    match fwdApplyM B S opt (old + 1) (capo - old) m c x with
    | (m', ⟨c', x', log, .error e⟩) => (m', s, ⟨c', x', log, .error e⟩)
    | (m', ⟨c', x', log, .ok ()⟩) =>
      let r := applyForwardM B S opt R n acts s m' c' x'
      (r.1, r.2.1, { r.2.2 with log := log ++ r.2.2.log })
  | .takeshot j :: acts, s, m, c, x =>
    applyForwardM B S opt R n acts { s with slots := Function.update s.slots j (some x) } m c x
  | .restore j :: acts, s, m, c, x =>
    match s.slots j with
    | none => (m, s, ⟨c, x, [], .error .backend⟩)
    | some y => applyForwardM B S opt R n acts s m c (restoreState R x y)
  | .lastfw old :: _, s, m, c, x =>
    let r := fwdApplyM B S opt (old + 1) (n - old) m c x
    (r.1, s, r.2)
  | .reverse _ :: acts, s, m, c, x => applyForwardM B S opt R n acts s m c x

/-- The loop of `apply_reverse`, see `applyReverse`. -/
noncomputable def applyReverseM (B : Backend D I O) (S : Mem D M) (opt : Options) (R : Restore D) :
    List Act → PyData D → M → Ctrl → IState D → D → M × PyData D × Res D × D
  | [], s, m, c, x, p => (m, s, ⟨c, x, [], .ok ()⟩, p)
  | .advance old capo :: acts, s, m, c, x, p =>
    match fwdApplyM B S opt (old + 1) (capo - old) m c x with
    | (m', ⟨c', x', log, .error e⟩) => (m', s, ⟨c', x', log, .error e⟩, p)
    | (m', ⟨c', x', log, .ok ()⟩) =>
      let r := applyReverseM B S opt R acts s m' c' x' p
      (r.1, r.2.1, { r.2.2.1 with log := log ++ r.2.2.1.log }, r.2.2.2)
  | .takeshot j :: acts, s, m, c, x, p =>
    applyReverseM B S opt R acts { s with slots := Function.update s.slots j (some x) } m c x p
  | .restore j :: acts, s, m, c, x, p =>
    match s.slots j with
    | none => (m, s, ⟨c, x, [], .error .backend⟩, p)
    | some y => applyReverseM B S opt R acts s m c (restoreState R x y) p
  | .lastfw _ :: acts, s, m, c, x, p => applyReverseM B S opt R acts s m c x p
  | .reverse capo :: acts, s, m, c, x, p =>
    match fwdApplyM B S opt (capo + 1) 1 m c x with
    | (m', ⟨c', x', log, .error e⟩) => (m', s, ⟨c', x', log, .error e⟩, p)
    | (m', ⟨c', x', log, .ok ()⟩) =>
      let q := runStepRevM S opt (capo + 2) m' x' p
      let r := applyReverseM B S opt R acts s q.1 c' x' q.2.1
      (r.1, r.2.1, { r.2.2.1 with log := log ++ q.2.2 ++ r.2.2.1.log }, r.2.2.2)

/-- `iterate_forward`, pyrevolve_checkpointer.py L147-170, see `pyForward`. -/
noncomputable def pyForwardM (B : Backend D I O) (S : Mem D M) (opt : Options) (R : Restore D) (n : ℕ)
    (sched : Schedule) (s : PyData D) (m : M) (c : Ctrl) (x : IState D) : M × PyData D × Res D :=
  match fwdApplyM B S opt 0 1 m c x with
  | (m', ⟨c', x', log, .error e⟩) => (m', s, ⟨c', x', log, .error e⟩)
  | (m', ⟨c', x', log, .ok ()⟩) =>
    let r := applyForwardM B S opt R n sched.fwd { s with first := s.first.set B x' } m' c' x'
    (r.1, r.2.1, { r.2.2 with log := log ++ r.2.2.log })

/-- `iterate_reverse`, pyrevolve_checkpointer.py L172-196, see `pyReverse`. -/
noncomputable def pyReverseM (B : Backend D I O) (S : Mem D M) (opt : Options) (R : Restore D)
    (sched : Schedule) (s : PyData D) (m : M) (c : Ctrl) (x : IState D) (p : D) :
    M × PyData D × Res D × D :=
  let q := runStepRevM S opt (sched.capo + 2) m x p
  match applyReverseM B S opt R sched.rev s q.1 c x q.2.1 with
  | (m', s', ⟨c', x', log, .error e⟩, p') => (m', s', ⟨c', x', q.2.2 ++ log, .error e⟩, p')
  | (m', s', ⟨c', x', log, .ok ()⟩, p') =>
    let x'' := x'.set B s'.first
    let q' := runStepRevM S opt 1 m' x'' p'
    (q'.1, s', ⟨c', x'', q.2.2 ++ log ++ q'.2.2, .ok ()⟩, q'.2.1)

/-- `PyrevolveCheckpointer`, pyrevolve_checkpointer.py L19-196, see `pyCk`. -/
noncomputable def pyCkM (B : Backend D I O) (S : Mem D M) (opt : Options) (R : Restore D) (n : ℕ)
    (sched : Schedule) : MCheckpointer D (PyData D) M where
  create := fun s => ⟨s.first, fun _ => none⟩
  forward := fun _ s m c x => pyForwardM B S opt R n sched s m c x
  reverse := fun s m c x p => pyReverseM B S opt R sched s m c x p

/-! ### When the memory does not matter -/

variable {B : Backend D I O} {S : Mem D M} {opt : Options} {Inv : M → Prop} {Good : D → Prop}
  {Ok : XReal → Prop} {R : Restore D}

theorem fwdApplyM_sim (hS : Sim B S Inv Good Ok) (hO : Sizes opt Ok) (count it : ℕ) {m : M}
    (hm : Inv m) (c : Ctrl) (x : IState D) (hx : Ok x.sugg) :
    (fwdApplyM B S opt it count m c x).2 = fwdApply B opt it count c x ∧
    Inv (fwdApplyM B S opt it count m c x).1 ∧
    ((fwdApply B opt it count c x).out = .ok () → count ≠ 0 ∨ Stored Good Ok x →
      Stored Good Ok (fwdApply B opt it count c x).st) := by
  induction count generalizing it m c x with
  | zero => exact ⟨rfl, hm, fun _ h => h.elim (absurd rfl) id⟩
  | succ count ih =>
    simp only [fwdApplyM, fwdApply]
    obtain ⟨h1, h2, h3⟩ := runStepM_sim hS hO it hm c x hx
    rcases hr : runStepM B S opt it m c x with ⟨m', c', x', log, e | u⟩
    · rw [hr] at h1 h2
      rw [← h1]
      exact ⟨rfl, h2, fun h => by cases h⟩
    · rw [hr] at h1 h2
      rw [← h1] at h3 ⊢
      have k : Stored Good Ok x' := h3 rfl
      dsimp only
      obtain ⟨g1, g2, g3⟩ := ih (it + 1) h2 c' x' k.2.2
      refine ⟨?_, g2, fun h _ => g3 h (.inr k)⟩
      rw [← g1]

/-- All saved states can be used. -/
def SlotsOk (Good : D → Prop) (Ok : XReal → Prop) (s : PyData D) : Prop :=
  ∀ j y, s.slots j = some y → Stored Good Ok y

theorem SlotsOk.save {s : PyData D} (h : SlotsOk Good Ok s) (j : ℕ) {x : IState D}
    (hx : Stored Good Ok x) :
    SlotsOk Good Ok { s with slots := Function.update s.slots j (some x) } := by
  intro k y hy
  by_cases hk : k = j
  · subst hk
    simp only [Function.update_self, Option.some.injEq] at hy
    rw [← hy]
    exact hx
  · simp only [Function.update_of_ne hk] at hy
    exact h k y hy

theorem Stored.restore (hR : ∀ a b, Good b → Good (R a b)) {x y : IState D}
    (hy : Stored Good Ok y) : Stored Good Ok (restoreState R x y) :=
  ⟨hR _ _ hy.1, hy.2⟩

theorem Stored.set (hset : ∀ a b, Good b → Good (B.set a b)) {x y : IState D}
    (hy : Stored Good Ok y) : Stored Good Ok (x.set B y) :=
  ⟨hset _ _ hy.1, hy.2⟩

theorem applyForwardM_sim (hS : Sim B S Inv Good Ok) (hO : Sizes opt Ok)
    (hR : ∀ a b, Good b → Good (R a b)) (n : ℕ) (acts : List Act) (s : PyData D) {m : M}
    (hm : Inv m) (c : Ctrl) (x : IState D) (hx : Stored Good Ok x) (hs : SlotsOk Good Ok s) :
    (applyForwardM B S opt R n acts s m c x).2 = applyForward B opt R n acts s c x ∧
    Inv (applyForwardM B S opt R n acts s m c x).1 ∧
    (applyForward B opt R n acts s c x).1.first = s.first ∧
    SlotsOk Good Ok (applyForward B opt R n acts s c x).1 ∧
    ((applyForward B opt R n acts s c x).2.out = .ok () →
      Stored Good Ok (applyForward B opt R n acts s c x).2.st) := by
  induction acts generalizing s m c x with
  | nil => exact ⟨rfl, hm, rfl, hs, fun h => by cases h⟩
  | cons a acts ih =>
    cases a with
    | advance old capo =>
      simp only [applyForwardM, applyForward]
      obtain ⟨h1, h2, h3⟩ := fwdApplyM_sim hS hO (capo - old) (old + 1) hm c x hx.2.2
      rcases hr : fwdApplyM B S opt (old + 1) (capo - old) m c x with ⟨m', c', x', log, e | u⟩
      · rw [hr] at h1 h2
        rw [← h1]
        exact ⟨rfl, h2, rfl, hs, fun h => by cases h⟩
      · rw [hr] at h1 h2
        rw [← h1] at h3 ⊢
        dsimp only
        obtain ⟨g1, g2, g3, g4, g5⟩ := ih s h2 c' x' (h3 rfl (.inr hx)) hs
        refine ⟨?_, g2, g3, g4, g5⟩
        rw [← g1]
    | takeshot j => exact ih _ hm c x hx (hs.save j hx)
    | restore j =>
      simp only [applyForwardM, applyForward]
      rcases hj : s.slots j with _ | y
      · exact ⟨rfl, hm, rfl, hs, fun h => by cases h⟩
      · exact ih s hm c _ ((hs j y hj).restore hR) hs
    | lastfw old =>
      obtain ⟨h1, h2, h3⟩ := fwdApplyM_sim hS hO (n - old) (old + 1) hm c x hx.2.2
      simp only [applyForwardM, applyForward]
      rw [h1]
      exact ⟨rfl, h2, trivial, hs, fun h => h3 h (.inr hx)⟩
    | reverse k => exact ih s hm c x hx hs

theorem applyReverseM_sim (hS : Sim B S Inv Good Ok) (hO : Sizes opt Ok)
    (hR : ∀ a b, Good b → Good (R a b)) (acts : List Act) (s : PyData D) {m : M}
    (hm : Inv m) (c : Ctrl) (x : IState D) (p : D) (hx : Stored Good Ok x)
    (hs : SlotsOk Good Ok s) :
    (applyReverseM B S opt R acts s m c x p).2 = applyReverse B opt R acts s c x p ∧
    Inv (applyReverseM B S opt R acts s m c x p).1 ∧
    (applyReverse B opt R acts s c x p).1.first = s.first := by
  induction acts generalizing s m c x p with
  | nil => exact ⟨rfl, hm, rfl⟩
  | cons a acts ih =>
    cases a with
    | advance old capo =>
      simp only [applyReverseM, applyReverse]
      obtain ⟨h1, h2, h3⟩ := fwdApplyM_sim hS hO (capo - old) (old + 1) hm c x hx.2.2
      rcases hr : fwdApplyM B S opt (old + 1) (capo - old) m c x with ⟨m', c', x', log, e | u⟩
      · rw [hr] at h1 h2
        rw [← h1]
        exact ⟨rfl, h2, rfl⟩
      · rw [hr] at h1 h2
        rw [← h1] at h3 ⊢
        dsimp only
        obtain ⟨g1, g2, g3⟩ := ih s h2 c' x' p (h3 rfl (.inr hx)) hs
        refine ⟨?_, g2, g3⟩
        rw [← g1]
    | takeshot j => exact ih _ hm c x p hx (hs.save j hx)
    | restore j =>
      simp only [applyReverseM, applyReverse]
      rcases hj : s.slots j with _ | y
      · exact ⟨rfl, hm, rfl⟩
      · exact ih s hm c _ p ((hs j y hj).restore hR) hs
    | lastfw old => exact ih s hm c x p hx hs
    | reverse k =>
      simp only [applyReverseM, applyReverse]
      obtain ⟨h1, h2, h3⟩ := fwdApplyM_sim hS hO 1 (k + 1) hm c x hx.2.2
      rcases hr : fwdApplyM B S opt (k + 1) 1 m c x with ⟨m', c', x', log, e | u⟩
      · rw [hr] at h1 h2
        rw [← h1]
        exact ⟨rfl, h2, rfl⟩
      · rw [hr] at h1 h2
        rw [← h1] at h3 ⊢
        have hx' : Stored Good Ok x' := h3 rfl (.inr hx)
        dsimp only
        obtain ⟨q1, q2⟩ := runStepRevM_sim (opt := opt) hS (k + 2) h2 hx' p
        obtain ⟨g1, g2, g3⟩ := ih s q2 c' x' (runStepRevM S opt (k + 2) m' x' p).2.1 hx' hs
        rw [q1] at g1 g2 g3 ⊢
        refine ⟨?_, g2, g3⟩
        rw [← g1]

theorem pyCkM_sim (hS : Sim B S Inv Good Ok) (hO : Sizes opt Ok)
    (hset : ∀ a b, Good b → Good (B.set a b)) (hR : ∀ a b, Good b → Good (R a b))
    (empty : IState D) (n : ℕ) (sched : Schedule) (m0 : M) (hm0 : Inv m0) :
    CkSim (pyCk B opt R empty n sched) (pyCkM B S opt R n sched) Inv Good Ok
      (fun s x => Stored Good Ok x ∧ Stored Good Ok s.first ∧ SlotsOk Good Ok s) False where
  create _ := rfl
  forward fuel s m c x hm hx := by
    obtain ⟨h1, h2, h3⟩ := fwdApplyM_sim hS hO 1 0 hm c x hx
    simp only [pyCkM, pyCk, pyForwardM, pyForward]
    rcases hr : fwdApplyM B S opt 0 1 m c x with ⟨m', c', x', log, e | u⟩
    · rw [hr] at h1 h2
      rw [← h1]
      exact ⟨rfl, h2⟩
    · rw [hr] at h1 h2
      rw [← h1] at h3 ⊢
      have hx' : Stored Good Ok x' := h3 rfl (.inl one_ne_zero)
      dsimp only
      obtain ⟨g1, g2, -⟩ := applyForwardM_sim hS hO hR n sched.fwd
        ⟨s.first.set B x', fun _ => none⟩ h2 c' x' hx' (fun j y hy => by cases hy)
      refine ⟨?_, g2⟩
      rw [← g1]
  forward_use fuel s c x hx hok := by
    replace hok := hok.resolve_left id
    obtain ⟨-, -, h3⟩ := fwdApplyM_sim hS hO 1 0 hm0 c x hx
    simp only [pyCk, pyForward] at hok ⊢
    rcases hr : fwdApply B opt 0 1 c x with ⟨c', x', log, e | u⟩
    · rw [hr] at hok
      cases hok
    · rw [hr] at hok h3
      have hx' : Stored Good Ok x' := h3 rfl (.inl one_ne_zero)
      dsimp only at hok ⊢
      obtain ⟨-, -, g3, g4, g5⟩ := applyForwardM_sim hS hO hR n sched.fwd
        ⟨s.first.set B x', fun _ => none⟩ hm0 c' x' hx' (fun j y hy => by cases hy)
      refine ⟨g5 hok, ?_, g4⟩
      rw [g3]
      exact hx'.set hset
  live := fun s x x' h h' => ⟨h'.resolve_left id, h.2⟩
  reverse s m c x p hm hu := by
    obtain ⟨q1, q2⟩ := runStepRevM_sim (opt := opt) hS (sched.capo + 2) hm hu.1 p
    obtain ⟨g1, g2, g3⟩ := applyReverseM_sim hS hO hR sched.rev s q2 c x
      (runStepRevM S opt (sched.capo + 2) m x p).2.1 hu.1 hu.2.2
    simp only [pyCkM, pyCk, pyReverseM, pyReverse]
    rw [q1] at g1 g2 g3 ⊢
    rcases hr : applyReverseM B S opt R sched.rev s (runStepRevM S opt (sched.capo + 2) m x p).1 c x
      (runStepRev B opt (sched.capo + 2) x p).1 with ⟨m', s', ⟨c', x', log, e | u⟩, p'⟩
    · rw [hr] at g1 g2
      rw [← g1]
      exact ⟨rfl, g2⟩
    · rw [hr] at g1 g2
      rw [← g1] at g3 ⊢
      dsimp only at g3 ⊢
      have hf : Stored Good Ok s'.first := by rw [g3]; exact hu.2.1
      obtain ⟨r1, r2⟩ := runStepRevM_sim (opt := opt) hS 1 g2 (hf.set (x := x') hset) p'
      rw [r1]
      exact ⟨rfl, r2⟩
  reverse_use := fun _ _ _ _ _ h => h.elim

/-! ### A reverse product brings back the memory of its run -/

theorem pyReverseM_restores (hS : Sim B S Inv Good Ok) (hO : Sizes opt Ok)
    (hset : ∀ a b, Good b → Good (B.set a b)) (hR : ∀ a b, Good b → Good (R a b))
    (hr : ∀ m d p h, Good d → Inv (S.adj m d p h).1) (sched : Schedule) (s : PyData D) (m : M)
    (c : Ctrl) (x : IState D) (p : D)
    (hu : Stored Good Ok x ∧ Stored Good Ok s.first ∧ SlotsOk Good Ok s) :
    Inv (pyReverseM B S opt R sched s m c x p).1 := by
  have q2 : Inv (runStepRevM S opt (sched.capo + 2) m x p).1 := hr _ _ _ _ hu.1.1
  obtain ⟨g1, g2, g3⟩ := applyReverseM_sim hS hO hR sched.rev s q2 c x
    (runStepRevM S opt (sched.capo + 2) m x p).2.1 hu.1 hu.2.2
  simp only [pyReverseM]
  rcases hq : applyReverseM B S opt R sched.rev s (runStepRevM S opt (sched.capo + 2) m x p).1 c x
    (runStepRevM S opt (sched.capo + 2) m x p).2.1 with ⟨m', s', ⟨c', x', log, e | u⟩, p'⟩
  · rw [hq] at g2
    exact g2
  · rw [hq] at g1 g2
    rw [← g1] at g3
    have hf : Stored Good Ok s'.first := by rw [g3]; exact hu.2.1
    exact hr _ _ _ _ (hf.set (x := x') hset).1

/-- The memory after a reverse product that uses the stored run. -/
theorem revM_cached_mem {σ : Type} {ckM : MCheckpointer D σ M} {w : MWorld D σ M} {i : I}
    (hc : cacheOk B w.comp i = true) (fuel : ℕ) (dO : O) (dI : I) :
    (revM B opt ckM fuel w i dO dI).1.mem
      = (ckM.reverse w.comp.ck w.mem w.comp.ctrl w.comp.tis (B.seed w.comp.pert dO)).1 := by
  simp only [revM, if_pos hc]
  split <;> rfl

end Verif.Integrator
