/-
Model of the checkpointing with pyrevolve.

Source: /repo/src/rkopenmdao/checkpoint_interface/pyrevolve_checkpointer.py
        /repo/src/rkopenmdao/checkpoint_interface/runge_kutta_integrator_pyrevolve_classes.py

The package pyrevolve is not part of /repo. Its scheduler is replaced by an arbitrary list of
actions; `Legal` says which lists make sense. The loops of `apply_forward` and `apply_reverse` of
its revolvers are modelled as they are published (pyrevolve/pyrevolve.py, `BaseRevolver`).
-/
import Verif.Integrator.History

namespace Verif.Integrator

open Verif.Control Verif.XReal
open Classical

variable {D I O : Type}

/-- The actions of pyrevolve's scheduler. Times are indices of the revolver: index `k` is the state
after `k + 1` steps, because the first step is done outside of the revolver
(pyrevolve_checkpointer.py L164 and L92). -/
inductive Act where
  /-- Run the forward operator from index `old` to index `capo`. -/
  | advance (old capo : ℕ)
  /-- Save the live state. -/
  | takeshot (slot : ℕ)
  /-- Load a saved state. -/
  | restore (slot : ℕ)
  /-- Run the forward operator from `old` to the end; ends `apply_forward`. -/
  | lastfw (old : ℕ)
  /-- Run the forward operator from `capo` to `capo + 1`, then the reverse operator. -/
  | reverse (capo : ℕ)

/-- A schedule: the actions `apply_forward` gets, the time at which it ends according to the
scheduler, the actions `apply_reverse` gets before `TERMINATE`. -/
structure Schedule where
  fwd : List Act
  capo : ℕ
  rev : List Act

/-- `RungeKuttaForwardOperator.apply`, ...pyrevolve_classes.py L168-185, for `count` steps of which
the first has number `it` (`range(t_start + 1, t_end + 1)`). `set` copies the state onto itself. -/
noncomputable def fwdApply (B : Backend D I O) (opt : Options) :
    ℕ → ℕ → Ctrl → IState D → Res D
  | _, 0, c, x => ⟨c, x, [], .ok ()⟩
  | it, count + 1, c, x =>
    match runStep B opt it c x with
    | ⟨c', x', log, .error e⟩ => ⟨c', x', log, .error e⟩
    | ⟨c', x', log, .ok ()⟩ =>
      let r := fwdApply B opt (it + 1) count c' x'
      { r with log := log ++ r.log }

/-- The data of the checkpointer that changes: `_first_complete_state` (pyrevolve_checkpointer.py
L58) and the storage of the revolver. -/
structure PyData (D : Type) where
  first : IState D
  slots : ℕ → Option (IState D)

/-- What a backend needs for checkpointing: writing the saved arrays back into the live ones. The
first argument is the live state, the second the saved one. -/
abbrev Restore (D : Type) := D → D → D

/-- Loading a checkpoint, `get_data_location` (...pyrevolve_classes.py L33-51) with
`TimeIntegrationState.to_dict` (time_integration_state.py L56-71). -/
def restoreState (R : Restore D) (x saved : IState D) : IState D :=
  ⟨R x.disc saved.disc, saved.sugg, saved.stepHist, saved.errHist⟩

/-- `TimeIntegrationState.set`, time_integration_state.py L40-54. -/
def IState.set (B : Backend D I O) (x y : IState D) : IState D :=
  ⟨B.set x.disc y.disc, y.sugg, y.stepHist, y.errHist⟩

/-- The loop of `apply_forward` of a revolver whose last index is `n`. -/
noncomputable def applyForward (B : Backend D I O) (opt : Options) (R : Restore D) (n : ℕ) :
    List Act → PyData D → Ctrl → IState D → PyData D × Res D
  -- the scheduler always ends this loop with LASTFW
  | [], s, c, x => (s, ⟨c, x, [], .error .fuel⟩)
  | .advance old capo :: acts, s, c, x =>
    match fwdApply B opt (old + 1) (capo - old) c x with
    | ⟨c', x', log, .error e⟩ => (s, ⟨c', x', log, .error e⟩)
    | ⟨c', x', log, .ok ()⟩ =>
      let r := applyForward B opt R n acts s c' x'
      (r.1, { r.2 with log := log ++ r.2.log })
  | .takeshot j :: acts, s, c, x =>
    applyForward B opt R n acts { s with slots := Function.update s.slots j (some x) } c x
  | .restore j :: acts, s, c, x =>
    match s.slots j with
    | none => (s, ⟨c, x, [], .error .backend⟩)
    | some y => applyForward B opt R n acts s c (restoreState R x y)
  | .lastfw old :: _, s, c, x => (s, fwdApply B opt (old + 1) (n - old) c x)
  | .reverse _ :: acts, s, c, x => applyForward B opt R n acts s c x

/-- The loop of `apply_reverse`. `RungeKuttaReverseOperator.apply(t_start=capo, t_end=capo+1)` is
one step with number `capo + 2` (...pyrevolve_classes.py L224). -/
noncomputable def applyReverse (B : Backend D I O) (opt : Options) (R : Restore D) :
    List Act → PyData D → Ctrl → IState D → D → PyData D × Res D × D
  | [], s, c, x, p => (s, ⟨c, x, [], .ok ()⟩, p)
  | .advance old capo :: acts, s, c, x, p =>
    match fwdApply B opt (old + 1) (capo - old) c x with
    | ⟨c', x', log, .error e⟩ => (s, ⟨c', x', log, .error e⟩, p)
    | ⟨c', x', log, .ok ()⟩ =>
      let r := applyReverse B opt R acts s c' x' p
      (r.1, { r.2.1 with log := log ++ r.2.1.log }, r.2.2)
  | .takeshot j :: acts, s, c, x, p =>
    applyReverse B opt R acts { s with slots := Function.update s.slots j (some x) } c x p
  | .restore j :: acts, s, c, x, p =>
    match s.slots j with
    | none => (s, ⟨c, x, [], .error .backend⟩, p)
    | some y => applyReverse B opt R acts s c (restoreState R x y) p
  | .lastfw _ :: acts, s, c, x, p => applyReverse B opt R acts s c x p
  | .reverse capo :: acts, s, c, x, p =>
    match fwdApply B opt (capo + 1) 1 c x with
    | ⟨c', x', log, .error e⟩ => (s, ⟨c', x', log, .error e⟩, p)
    | ⟨c', x', log, .ok ()⟩ =>
      let q := runStepRev B opt (capo + 2) x' p
      let r := applyReverse B opt R acts s c' x' q.1
      (r.1, { r.2.1 with log := log ++ q.2 ++ r.2.1.log }, r.2.2)

/-- `iterate_forward`, pyrevolve_checkpointer.py L147-170, for `n + 1` steps. The initial state is
the live state itself, so that L163 and L168 copy the state onto itself. -/
noncomputable def pyForward (B : Backend D I O) (opt : Options) (R : Restore D) (n : ℕ)
    (sched : Schedule) (s : PyData D) (c : Ctrl) (x : IState D) : PyData D × Res D :=
  match fwdApply B opt 0 1 c x with
  | ⟨c', x', log, .error e⟩ => (s, ⟨c', x', log, .error e⟩)
  | ⟨c', x', log, .ok ()⟩ =>
    let r := applyForward B opt R n sched.fwd { s with first := s.first.set B x' } c' x'
    (r.1, { r.2 with log := log ++ r.2.log })

/-- `iterate_reverse`, pyrevolve_checkpointer.py L172-196. -/
noncomputable def pyReverse (B : Backend D I O) (opt : Options) (R : Restore D)
    (sched : Schedule) (s : PyData D) (c : Ctrl) (x : IState D) (p : D) :
    PyData D × Res D × D :=
  let q := runStepRev B opt (sched.capo + 2) x p
  match applyReverse B opt R sched.rev s c x q.1 with
  | (s', ⟨c', x', log, .error e⟩, p') => (s', ⟨c', x', q.2 ++ log, .error e⟩, p')
  | (s', ⟨c', x', log, .ok ()⟩, p') =>
    let x'' := x'.set B s'.first
    let q' := runStepRev B opt 1 x'' p'
    (s', ⟨c', x'', q.2 ++ log ++ q'.2, .ok ()⟩, q'.1)

/-- `PyrevolveCheckpointer` for `n + 1` steps, pyrevolve_checkpointer.py L19-196. `create` makes a
new revolver (L108-110); its storage is new, too. Simplification: options for the storages and the
number of checkpoints appear only through the schedule; `deepcopy` of the empty state in
`__post_init__` is the argument `empty`. -/
noncomputable def pyCk (B : Backend D I O) (opt : Options) (R : Restore D) (empty : IState D)
    (n : ℕ) (sched : Schedule) : Checkpointer D (PyData D) where
  init := ⟨empty, fun _ => none⟩
  create := fun s => ⟨s.first, fun _ => none⟩
  forward := fun _ s c x => pyForward B opt R n sched s c x
  reverse := fun s c x p => pyReverse B opt R sched s c x p

/-! ### Legal schedules

They are defined by what they do to time indices only. -/

/-- Actions for `apply_forward` that start with the live state at index `k` and saved indices `sl`
and end at index `n` with saved indices `sl'`. -/
inductive LegalF (n : ℕ) : List Act → ℕ → (ℕ → Option ℕ) → (ℕ → Option ℕ) → Prop
  | advance {acts a b sl sl'} (hab : a ≤ b) (hbn : b ≤ n) (h : LegalF n acts b sl sl') :
      LegalF n (.advance a b :: acts) a sl sl'
  | takeshot {acts k j sl sl'} (h : LegalF n acts k (Function.update sl j (some k)) sl') :
      LegalF n (.takeshot j :: acts) k sl sl'
  | restore {acts k k' j sl sl'} (hj : sl j = some k) (h : LegalF n acts k sl sl') :
      LegalF n (.restore j :: acts) k' sl sl'
  | lastfw {a sl} (ha : a ≤ n) : LegalF n [.lastfw a] a sl sl

/-- Actions for `apply_reverse` that start with the live state at index `k`, saved indices `sl` and
`todo` reverse steps left to do within the revolver. -/
inductive LegalR (n : ℕ) : List Act → ℕ → (ℕ → Option ℕ) → ℕ → Prop
  | done {k sl} : LegalR n [] k sl 0
  | advance {acts a b sl todo} (hab : a ≤ b) (hbn : b ≤ n) (h : LegalR n acts b sl todo) :
      LegalR n (.advance a b :: acts) a sl todo
  | takeshot {acts k j sl todo} (h : LegalR n acts k (Function.update sl j (some k)) todo) :
      LegalR n (.takeshot j :: acts) k sl todo
  | restore {acts k k' j sl todo} (hj : sl j = some k) (h : LegalR n acts k sl todo) :
      LegalR n (.restore j :: acts) k' sl todo
  | reverse {acts k sl} (h : LegalR n acts (k + 1) sl k) :
      LegalR n (.reverse k :: acts) k sl (k + 1)

/-- A legal schedule for last index `n`: `apply_reverse` first does the last reverse step, for which
the live state still is at index `n`. -/
structure Legal (n : ℕ) (sched : Schedule) : Prop where
  capo : sched.capo + 1 = n
  ex : ∃ sl, LegalF n sched.fwd 0 (fun _ => none) sl ∧ LegalR n sched.rev n sl sched.capo

/-! ### The trajectory -/

variable {B : Backend D I O} {opt : Options}

/-- The state after `k` steps from `x0` with a controller without memory. -/
noncomputable def nth (B : Backend D I O) (opt : Options) (c : Ctrl) (x0 : IState D) :
    ℕ → Except Err (IState D)
  | 0 => .ok x0
  | k + 1 => match nth B opt c x0 k with
    | .error e => .error e
    | .ok y => match iterateOnStep B opt opt.recursionLimit c y with
      | (_, _, .error e) => .error e
      | (_, y', .ok ()) => .ok y'

/-- The state `x` is the state after `k` steps, as far as steps and derivatives depend on it. -/
def AtStep (W : Lawful B) (opt : Options) (c : Ctrl) (x0 : IState D) (k : ℕ) (x : IState D) :
    Prop :=
  ∃ y, nth B opt c x0 k = .ok y ∧ SameLin W x y

/-- The laws for checkpoints. -/
structure LawfulRestore (W : Lawful B) (R : Restore D) : Prop where
  obs : ∀ a b, W.obs (R a b) = W.obs b
  lin : ∀ a b, W.lin (R a b) = W.lin b

theorem SameObs.trans {W : Lawful B} {x y z : IState D} (h : SameObs W x y) (h' : SameObs W y z) :
    SameObs W x z :=
  ⟨h.obs.trans h'.obs, h.sugg.trans h'.sugg, h.stepHist.trans h'.stepHist,
    h.errHist.trans h'.errHist⟩

theorem SameLin.trans {W : Lawful B} {x y z : IState D} (h : SameLin W x y) (h' : SameLin W y z) :
    SameLin W x z :=
  ⟨h.toSameObs.trans h'.toSameObs, h.lin.trans h'.lin⟩

theorem SameLin.symm {W : Lawful B} {x y : IState D} (h : SameLin W x y) : SameLin W y x :=
  ⟨h.toSameObs.symm, h.lin.symm⟩

theorem restore_same {W : Lawful B} {R : Restore D} (L : LawfulRestore W R) (x y : IState D) :
    SameLin W (restoreState R x y) y :=
  ⟨⟨L.obs _ _, rfl, rfl, rfl⟩, L.lin _ _⟩

theorem set_same (W : Lawful B) (x y : IState D) : SameLin W (x.set B y) y :=
  ⟨⟨W.set_obs _ _, rfl, rfl, rfl⟩, W.set_lin _ _⟩

theorem AtStep.of_same {W : Lawful B} {c : Ctrl} {x0 : IState D} {k : ℕ} {x x' : IState D}
    (h : AtStep W opt c x0 k x) (hs : SameLin W x' x) : AtStep W opt c x0 k x' := by
  obtain ⟨y, hy, hl⟩ := h
  exact ⟨y, hy, hs.trans hl⟩

theorem nth_error_of_le {c : Ctrl} {x0 : IState D} {j k : ℕ} {e : Err} (hjk : j ≤ k)
    (h : nth B opt c x0 j = .error e) : nth B opt c x0 k = .error e := by
  induction hjk with
  | refl => exact h
  | step _ ih => simp only [nth, ih]

/-- One step from a state at step `k`: what happens is what happens on the trajectory. -/
theorem runStep_at {W : Lawful B} {c : Ctrl} (hp : Plain opt c) {x0 x : IState D} {k : ℕ}
    (h : AtStep W opt c x0 k x) (it : ℕ) :
    (runStep B opt it c x).ctrl = c ∧
    ((runStep B opt it c x).out = .ok () → AtStep W opt c x0 (k + 1) (runStep B opt it c x).st) ∧
    (∀ e, (runStep B opt it c x).out = .error e → nth B opt c x0 (k + 1) = .error e) := by
  obtain ⟨y, hy, hl⟩ := h
  obtain ⟨-, e2, -, e4⟩ := iterate_same (opt := opt) W opt.recursionLimit c hl.toSameObs
  have hc := iterate_plain (B := B) hp opt.recursionLimit x
  simp only [runStep]
  rcases hx : iterateOnStep B opt opt.recursionLimit c x with ⟨cx, x', ox⟩
  rcases hyy : iterateOnStep B opt opt.recursionLimit c y with ⟨cy, y', oy⟩
  rw [hx, hyy] at e2 e4
  rw [hx] at hc
  dsimp only at e2 e4 hc
  subst e2
  rcases ox with e | u
  · refine ⟨hc, by simp, fun e' he' => ?_⟩
    simp only [Except.error.injEq] at he'
    subst he'
    simp [nth, hy, hyy]
  · exact ⟨hc, fun _ => ⟨y', by simp [nth, hy, hyy], e4 rfl⟩, by simp⟩

theorem fwdApply_at {W : Lawful B} {c : Ctrl} (hp : Plain opt c) {x0 x : IState D} {k : ℕ}
    (h : AtStep W opt c x0 k x) (it count : ℕ) :
    (fwdApply B opt it count c x).ctrl = c ∧
    ((fwdApply B opt it count c x).out = .ok () →
      AtStep W opt c x0 (k + count) (fwdApply B opt it count c x).st) ∧
    (∀ e, (fwdApply B opt it count c x).out = .error e → nth B opt c x0 (k + count) = .error e) := by
  induction count generalizing it k x with
  | zero => exact ⟨rfl, fun _ => h, by simp [fwdApply]⟩
  | succ count ih =>
    obtain ⟨h1, h2, h3⟩ := runStep_at hp h it
    simp only [fwdApply]
    rcases hr : runStep B opt it c x with ⟨c', x', log, e | u⟩
    · rw [hr] at h1 h2 h3
      refine ⟨h1, by simp, fun e' he' => ?_⟩
      exact nth_error_of_le (by omega) (h3 e' he')
    · rw [hr] at h1 h2 h3
      dsimp only at h1
      subst h1
      obtain ⟨g1, g2, g3⟩ := ih (h2 rfl) (it + 1)
      have ea : k + (count + 1) = k + 1 + count := by omega
      rw [ea]
      exact ⟨g1, g2, g3⟩

/-- The saved states are those of the indices `sl`. -/
def SlotsAt (W : Lawful B) (opt : Options) (c : Ctrl) (x0 : IState D) (slots : ℕ → Option (IState D))
    (sl : ℕ → Option ℕ) : Prop :=
  ∀ j k, sl j = some k → ∃ y, slots j = some y ∧ AtStep W opt c x0 (k + 1) y

theorem SlotsAt.update {W : Lawful B} {c : Ctrl} {x0 : IState D}
    {slots : ℕ → Option (IState D)} {sl : ℕ → Option ℕ} (h : SlotsAt W opt c x0 slots sl)
    {k : ℕ} {x : IState D} (hx : AtStep W opt c x0 (k + 1) x) (j : ℕ) :
    SlotsAt W opt c x0 (Function.update slots j (some x)) (Function.update sl j (some k)) := by
  intro j' k' hk
  by_cases hj : j' = j
  · subst hj
    rw [Function.update_self] at hk ⊢
    rw [Option.some.injEq] at hk
    subst hk
    exact ⟨x, rfl, hx⟩
  · rw [Function.update_of_ne hj] at hk ⊢
    exact h j' k' hk

theorem applyForward_at {W : Lawful B} {R : Restore D} (L : LawfulRestore W R) {c : Ctrl}
    (hp : Plain opt c) {x0 : IState D} {n : ℕ} {acts : List Act} {k : ℕ} {sl sl' : ℕ → Option ℕ}
    (hl : LegalF n acts k sl sl') {s : PyData D} (hs : SlotsAt W opt c x0 s.slots sl)
    {x : IState D} (hx : AtStep W opt c x0 (k + 1) x) :
    (applyForward B opt R n acts s c x).2.ctrl = c ∧
    (applyForward B opt R n acts s c x).1.first = s.first ∧
    ((applyForward B opt R n acts s c x).2.out = .ok () →
      AtStep W opt c x0 (n + 1) (applyForward B opt R n acts s c x).2.st ∧
      SlotsAt W opt c x0 (applyForward B opt R n acts s c x).1.slots sl') ∧
    (∀ e, (applyForward B opt R n acts s c x).2.out = .error e →
      nth B opt c x0 (n + 1) = .error e) := by
  induction hl generalizing s x with
  | @advance acts a b sl sl' hab hbn h ih =>
    obtain ⟨h1, h2, h3⟩ := fwdApply_at hp hx (a + 1) (b - a)
    simp only [applyForward]
    rcases hr : fwdApply B opt (a + 1) (b - a) c x with ⟨c', x', log, e | u⟩
    · rw [hr] at h1 h2 h3
      exact ⟨h1, rfl, by simp, fun e' he' => nth_error_of_le (by omega) (h3 e' he')⟩
    · rw [hr] at h1 h2 h3
      dsimp only at h1
      subst h1
      have hx' := h2 rfl
      rw [show a + 1 + (b - a) = b + 1 by omega] at hx'
      exact ih hs hx'
  | takeshot h ih => exact ih (s := ⟨s.first, _⟩) (hs.update hx _) hx
  | restore hj h ih =>
    obtain ⟨y, hy, hya⟩ := hs _ _ hj
    simp only [applyForward, hy]
    exact ih hs (hya.of_same (restore_same L _ _))
  | @lastfw a sl ha =>
    obtain ⟨h1, h2, h3⟩ := fwdApply_at hp hx (a + 1) (n - a)
    rw [show a + 1 + (n - a) = n + 1 by omega] at h2 h3
    exact ⟨h1, rfl, fun ho => ⟨h2 ho, hs⟩, h3⟩

/-- The checkpointer holds the trajectory from `x0`, with saved indices `sl`. -/
structure Ready (W : Lawful B) (opt : Options) (c : Ctrl) (x0 : IState D) (s : PyData D)
    (sl : ℕ → Option ℕ) : Prop where
  first : AtStep W opt c x0 1 s.first
  slots : SlotsAt W opt c x0 s.slots sl

theorem atStep_zero (W : Lawful B) (c : Ctrl) (x0 : IState D) : AtStep W opt c x0 0 x0 :=
  ⟨x0, rfl, SameLin.refl W x0⟩

theorem pyForward_at {W : Lawful B} {R : Restore D} (L : LawfulRestore W R) {c : Ctrl}
    (hp : Plain opt c) {n : ℕ} {sched : Schedule} {sl : ℕ → Option ℕ}
    (hl : LegalF n sched.fwd 0 (fun _ => none) sl) (s : PyData D) (x : IState D) :
    (pyForward B opt R n sched s c x).2.ctrl = c ∧
    ((pyForward B opt R n sched s c x).2.out = .ok () →
      AtStep W opt c x (n + 1) (pyForward B opt R n sched s c x).2.st ∧
      Ready W opt c x (pyForward B opt R n sched s c x).1 sl) ∧
    (∀ e, (pyForward B opt R n sched s c x).2.out = .error e →
      nth B opt c x (n + 1) = .error e) := by
  obtain ⟨h1, h2, h3⟩ := fwdApply_at hp (atStep_zero W c x) 0 1
  simp only [pyForward]
  rcases hr : fwdApply B opt 0 1 c x with ⟨c', x', log, e | u⟩
  · rw [hr] at h1 h2 h3
    exact ⟨h1, by simp, fun e' he' => nth_error_of_le (by omega) (h3 e' he')⟩
  · rw [hr] at h1 h2 h3
    dsimp only at h1
    subst h1
    have hx' : AtStep W opt c' x (0 + 1) x' := h2 rfl
    obtain ⟨g1, g2, g3, g4⟩ := applyForward_at L hp hl
      (s := { s with first := s.first.set B x' }) (x0 := x) (by intro j k hk; simp at hk) hx'
    refine ⟨g1, fun ho => ⟨(g3 ho).1, ?_, (g3 ho).2⟩, g4⟩
    dsimp only
    rw [g2]
    exact hx'.of_same (set_same W _ _)

/-! ### The reverse sweep -/

/-- The adjoint steps `k, k - 1, ..., 1` along the trajectory. -/
noncomputable def adjFrom (B : Backend D I O) (opt : Options) (c : Ctrl) (x0 : IState D) :
    ℕ → D → D
  | 0, p => p
  | k + 1, p => match nth B opt c x0 (k + 1) with
    | .error _ => p
    | .ok y => adjFrom B opt c x0 k (B.adj y.disc p y.stepHist.1)

theorem adjFrom_same (W : Lawful B) {c : Ctrl} {x0 : IState D} (k : ℕ) {p q : D}
    (hp : W.obs p = W.obs q) (cp : W.Clean p) (cq : W.Clean q) :
    W.obs (adjFrom B opt c x0 k p) = W.obs (adjFrom B opt c x0 k q) := by
  induction k generalizing p q with
  | zero => exact hp
  | succ k ih =>
    simp only [adjFrom]
    rcases nth B opt c x0 (k + 1) with e | y
    · exact hp
    · exact ih (W.adj_obs _ _ _ _ _ rfl hp cp cq) (W.adj_clean _ _ _ cp) (W.adj_clean _ _ _ cq)

/-- A reverse step at a state of the trajectory. -/
theorem adjFrom_step (W : Lawful B) {c : Ctrl} {x0 : IState D} {k : ℕ} {x : IState D}
    (hx : AtStep W opt c x0 (k + 1) x) (it : ℕ) {p : D} (cp : W.Clean p) :
    W.obs (adjFrom B opt c x0 k (runStepRev B opt it x p).1)
      = W.obs (adjFrom B opt c x0 (k + 1) p) := by
  obtain ⟨y, hy, hl⟩ := hx
  simp only [adjFrom, hy, runStepRev]
  rw [hl.stepHist]
  exact adjFrom_same W k (W.adj_obs _ _ _ _ _ hl.lin rfl cp cp) (W.adj_clean _ _ _ cp)
    (W.adj_clean _ _ _ cp)

/-- The calls of the callbacks of the reverse mode in a log. -/
def revEvents (log : List (Ev D)) : List (Bool × ℕ × ℕ) :=
  log.filterMap fun ev => match ev with
    | .before .rev j it _ => some (true, j, it)
    | .after .rev j it _ => some (false, j, it)
    | _ => none

theorem revEvents_append (a b : List (Ev D)) : revEvents (a ++ b) = revEvents a ++ revEvents b :=
  List.filterMap_append

/-- Calls of the callbacks for the reverse steps `k, k-1, ..., 1`. -/
def revCalls (count : ℕ) : ℕ → List (Bool × ℕ × ℕ)
  | 0 => []
  | k + 1 => (List.range count).map (fun j => (true, j, k + 1))
      ++ (List.range count).map (fun j => (false, j, k + 1)) ++ revCalls count k

theorem revEvents_runStepRev (it : ℕ) (x : IState D) (p : D) :
    revEvents (runStepRev B opt it x p).2
      = (List.range opt.revCallbacks).map (fun j => (true, j, it))
        ++ (List.range opt.revCallbacks).map (fun j => (false, j, it)) := by
  simp only [runStepRev, revEvents, callbacks, List.filterMap_append, List.filterMap_map]
  congr 1 <;> rw [← List.filterMap_eq_map] <;> rfl

theorem revEvents_runStep (it : ℕ) (c : Ctrl) (x : IState D) :
    revEvents (runStep B opt it c x).log = [] := by
  simp only [runStep]
  rcases iterateOnStep B opt opt.recursionLimit c x with ⟨cx, x', e | u⟩
  · simp [revEvents, callbacks, List.filterMap_map, List.filterMap_eq_nil_iff]
  · simp [revEvents, callbacks, List.filterMap_append, List.filterMap_map,
      List.filterMap_eq_nil_iff]

theorem revEvents_fwdApply (it count : ℕ) (c : Ctrl) (x : IState D) :
    revEvents (fwdApply B opt it count c x).log = [] := by
  induction count generalizing it c x with
  | zero => rfl
  | succ count ih =>
    have h := revEvents_runStep (B := B) (opt := opt) it c x
    simp only [fwdApply]
    rcases hr : runStep B opt it c x with ⟨c', x', log, e | u⟩
    · rw [hr] at h; exact h
    · rw [hr] at h
      dsimp only at h ⊢
      rw [revEvents_append, h, ih]
      rfl

theorem applyReverse_at {W : Lawful B} {R : Restore D} (L : LawfulRestore W R) {c : Ctrl}
    (hp : Plain opt c) {x0 : IState D} {n : ℕ} {yn : IState D} (hn : nth B opt c x0 (n + 1) = .ok yn)
    {acts : List Act} {k : ℕ} {sl : ℕ → Option ℕ} {todo : ℕ} (hl : LegalR n acts k sl todo)
    (htodo : todo ≤ n)
    {s : PyData D} (hs : SlotsAt W opt c x0 s.slots sl) {x : IState D}
    (hx : AtStep W opt c x0 (k + 1) x) {p : D} (cp : W.Clean p) :
    (applyReverse B opt R acts s c x p).2.1.ctrl = c ∧
    (applyReverse B opt R acts s c x p).1.first = s.first ∧
    (applyReverse B opt R acts s c x p).2.1.out = .ok () ∧
    W.Clean (applyReverse B opt R acts s c x p).2.2 ∧
    W.obs (adjFrom B opt c x0 1 (applyReverse B opt R acts s c x p).2.2)
      = W.obs (adjFrom B opt c x0 (todo + 1) p) ∧
    revEvents (applyReverse B opt R acts s c x p).2.1.log ++ revCalls opt.revCallbacks 1
      = revCalls opt.revCallbacks (todo + 1) := by
  have fwd_ok : ∀ {it count : ℕ} {k : ℕ} {x : IState D}, AtStep W opt c x0 (k + 1) x →
      k + count ≤ n → (fwdApply B opt it count c x).out = .ok () := by
    intro it count k x hx hle
    obtain ⟨-, -, h3⟩ := fwdApply_at hp hx it count
    rcases ho : (fwdApply B opt it count c x).out with e | u
    · have := nth_error_of_le (show k + 1 + count ≤ n + 1 by omega) (h3 e ho)
      rw [hn] at this
      simp at this
    · rfl
  induction hl generalizing s x p with
  | done => exact ⟨rfl, rfl, rfl, cp, rfl, rfl⟩
  | @advance acts a b sl todo hab hbn h ih =>
    obtain ⟨h1, h2, -⟩ := fwdApply_at hp hx (a + 1) (b - a)
    have h0 := fwd_ok (it := a + 1) (count := b - a) hx (by omega)
    have hev := revEvents_fwdApply (B := B) (opt := opt) (a + 1) (b - a) c x
    simp only [applyReverse]
    rcases hr : fwdApply B opt (a + 1) (b - a) c x with ⟨c', x', log, e | u⟩
    · rw [hr] at h0; simp at h0
    · rw [hr] at h1 h2 hev
      dsimp only at h1 hev
      subst h1
      have hx' := h2 rfl
      rw [show a + 1 + (b - a) = b + 1 by omega] at hx'
      obtain ⟨g1, g2, g3, g4, g5, g6⟩ := ih htodo hs hx' cp
      refine ⟨g1, g2, g3, g4, g5, ?_⟩
      dsimp only
      rw [revEvents_append, hev]
      exact g6
  | takeshot h ih => exact ih htodo (s := ⟨s.first, _⟩) (hs.update hx _) hx cp
  | restore hj h ih =>
    obtain ⟨y, hy, hya⟩ := hs _ _ hj
    simp only [applyReverse, hy]
    exact ih htodo hs (hya.of_same (restore_same L _ _)) cp
  | @reverse acts k sl h ih =>
    obtain ⟨h1, h2, -⟩ := fwdApply_at hp hx (k + 1) 1
    have h0 := fwd_ok (it := k + 1) (count := 1) hx (by omega)
    have hev := revEvents_fwdApply (B := B) (opt := opt) (k + 1) 1 c x
    simp only [applyReverse]
    rcases hr : fwdApply B opt (k + 1) 1 c x with ⟨c', x', log, e | u⟩
    · rw [hr] at h0; simp at h0
    · rw [hr] at h1 h2 hev
      dsimp only at h1 hev
      subst h1
      have hx' : AtStep W opt c' x0 (k + 1 + 1) x' := h2 rfl
      have cq : W.Clean (runStepRev B opt (k + 2) x' p).1 := W.adj_clean _ _ _ cp
      obtain ⟨g1, g2, g3, g4, g5, g6⟩ := ih (by omega) hs hx' cq
      refine ⟨g1, g2, g3, g4, g5.trans (adjFrom_step W hx' _ cp), ?_⟩
      dsimp only
      rw [revEvents_append, revEvents_append, hev, List.nil_append, List.append_assoc, g6,
        revEvents_runStepRev]
      rfl

/-- The reverse sweep with a checkpointer that holds the trajectory from `x0`, and the live state at
the end of it. -/
theorem pyReverse_at {W : Lawful B} {R : Restore D} (L : LawfulRestore W R) {c : Ctrl}
    (hp : Plain opt c) {x0 : IState D} {n : ℕ} {sched : Schedule} {sl : ℕ → Option ℕ}
    (hcapo : sched.capo + 1 = n) (hl : LegalR n sched.rev n sl sched.capo)
    {s : PyData D} (hs : Ready W opt c x0 s sl) {x : IState D}
    (hx : AtStep W opt c x0 (n + 1) x) {p : D} (cp : W.Clean p) :
    (pyReverse B opt R sched s c x p).2.1.ctrl = c ∧
    (pyReverse B opt R sched s c x p).2.1.out = .ok () ∧
    W.Clean (pyReverse B opt R sched s c x p).2.2 ∧
    W.obs (pyReverse B opt R sched s c x p).2.2 = W.obs (adjFrom B opt c x0 (n + 1) p) ∧
    revEvents (pyReverse B opt R sched s c x p).2.1.log = revCalls opt.revCallbacks (n + 1) := by
  obtain ⟨yn, hn, -⟩ := id hx
  have cq : W.Clean (runStepRev B opt (sched.capo + 2) x p).1 := W.adj_clean _ _ _ cp
  obtain ⟨g1, g2, g3, g4, g5, g6⟩ := applyReverse_at L hp hn hl (by omega) hs.slots hx cq
  have h5 := g5
  rw [hcapo, adjFrom_step W hx _ cp] at h5
  simp only [pyReverse]
  rcases hr : applyReverse B opt R sched.rev s c x (runStepRev B opt (sched.capo + 2) x p).1
    with ⟨s', ⟨c', x', log, e | u⟩, p'⟩
  · rw [hr] at g3; simp at g3
  · rw [hr] at g1 g2 g3 g4 g6 h5
    dsimp only at g1 g2 g3 g4 g6 h5 ⊢
    have hf : AtStep W opt c x0 (0 + 1) (x'.set B s'.first) := by
      rw [g2]; exact hs.first.of_same (set_same W _ _)
    refine ⟨g1, rfl, W.adj_clean _ _ _ g4, ?_, ?_⟩
    · rw [← h5, ← adjFrom_step W hf 1 g4]
      rfl
    · rw [revEvents_append, revEvents_append, revEvents_runStepRev, revEvents_runStepRev,
        List.append_assoc, ← hcapo, revCalls]
      congr 1
      rw [← g6]
      simp only [revCalls, List.append_nil]

/-! ### Comparison with the trajectory kept in full -/

theorem noForward_nth {c : Ctrl} (hp : Plain opt c) {N : ℕ} (hN : opt.crit = .steps N)
    (x0 : IState D) {k : ℕ} {y : IState D} (hy : nth B opt c x0 k = .ok y) (hk : k ≤ N) {fuel : ℕ}
    (hf : N - k < fuel) :
    (∀ e, (noForward B opt fuel k c y).out = .error e → nth B opt c x0 N = .error e) ∧
    ((noForward B opt fuel k c y).out = .ok () →
      nth B opt c x0 N = .ok (noForward B opt fuel k c y).st) := by
  induction fuel generalizing k y with
  | zero => omega
  | succ f ih =>
    simp only [noForward, hN, Crit.finished]
    by_cases hle : N ≤ k
    · have : k = N := by omega
      subst this
      simp [hy]
    · rw [if_neg hle]
      have hc := iterate_plain (B := B) hp opt.recursionLimit y
      simp only [runStep]
      rcases hs : iterateOnStep B opt opt.recursionLimit c y with ⟨c', x', e | u⟩
      · have h1 : nth B opt c x0 (k + 1) = .error e := by simp [nth, hy, hs]
        refine ⟨fun e' he' => ?_, by simp⟩
        simp only [Except.error.injEq] at he'
        subst he'
        exact nth_error_of_le (by omega) h1
      · rw [hs] at hc
        dsimp only at hc
        subst hc
        exact ih (by simp [nth, hy, hs]) (by omega) (by omega)

theorem run_nth {c : Ctrl} (hp : Plain opt c) {x0 : IState D} {it : ℕ} {c1 : Ctrl} {y : IState D}
    {tr : List (Ctrl × IState D)} (h : Run B opt it c1 y tr) (hc1 : c1 = c)
    (hy : nth B opt c x0 it = .ok y) :
    ∀ j, (hj : j < tr.length) → nth B opt c x0 (it + j + 1) = .ok (tr[j]).2 := by
  induction h with
  | done => intro j hj; simp at hj
  | @step it c1 x c' x' tr hf hs hr ih =>
    subst hc1
    have hc := iterate_plain (B := B) hp opt.recursionLimit x
    rw [hs] at hc
    dsimp only at hc
    subst hc
    have h1 : nth B opt c' x0 (it + 1) = .ok x' := by simp [nth, hy, hs]
    intro j hj
    cases j with
    | zero => exact h1
    | succ j =>
      have := ih rfl h1 j (by simpa using hj)
      rw [show it + (j + 1) + 1 = it + 1 + j + 1 by omega, this]
      rfl

theorem adjFrom_revAlong {c : Ctrl} {x0 : IState D} (ys : List (IState D))
    (h : ∀ j, (hj : j < ys.length) → nth B opt c x0 (j + 1) = .ok ys[j]) (p : D) :
    adjFrom B opt c x0 ys.length p = revAlong B ys.reverse p := by
  induction ys using List.reverseRecOn generalizing p with
  | nil => rfl
  | append_singleton ys y ih =>
    have hlen : (ys ++ [y]).length = ys.length + 1 := by simp
    have hy := h ys.length (by simp)
    rw [List.getElem_append_right (by simp)] at hy
    simp only [Nat.sub_self, List.getElem_cons_zero] at hy
    rw [hlen, List.reverse_append, List.reverse_singleton, List.singleton_append]
    simp only [adjFrom, hy, revAlong]
    refine ih (fun j hj => ?_) _
    rw [h j (by simp; omega), List.getElem_append_left hj]

/-! ### Forward phases without loading

The scheduler has no reason to load a checkpoint before the last forward step; then the forward
phase makes the same steps as a plain loop. -/

/-- No checkpoint is loaded. -/
def NoRestore (acts : List Act) : Prop := ∀ j, Act.restore j ∉ acts

/-- A call of a callback with its number increased by one. -/
def Ev.bump : Ev D → Ev D
  | .before k j it x => .before k j (it + 1) x
  | .after k j it x => .after k j (it + 1) x

theorem runStep_bump (it : ℕ) (c : Ctrl) (x : IState D) :
    runStep B opt (it + 1) c x
      = { runStep B opt it c x with log := (runStep B opt it c x).log.map Ev.bump } := by
  simp only [runStep]
  rcases iterateOnStep B opt opt.recursionLimit c x with ⟨cx, x', e | u⟩
  · simp [callbacks, Ev.bump, Function.comp_def]
  · simp [callbacks, Ev.bump, Function.comp_def]

theorem noForward_fwdApply {N : ℕ} (hN : opt.crit = .steps N) (fuel it : ℕ) (c : Ctrl)
    (x : IState D) (hit : it ≤ N) (hf : N - it < fuel) :
    noForward B opt fuel it c x
      = { fwdApply B opt it (N - it) c x with
          log := (fwdApply B opt it (N - it) c x).log.map Ev.bump } := by
  induction fuel generalizing it c x with
  | zero => omega
  | succ f ih =>
    rw [noForward]
    simp only [hN, Crit.finished]
    by_cases hle : N ≤ it
    · rw [if_pos hle, show N - it = 0 by omega]
      rfl
    · rw [if_neg hle, show N - it = (N - (it + 1)) + 1 by omega, runStep_bump]
      simp only [fwdApply]
      rcases runStep B opt it c x with ⟨c', x', log, e | u⟩
      · rfl
      · dsimp only
        rw [ih (it + 1) c' x' (by omega) (by omega)]
        simp

theorem fwdApply_add (it a b : ℕ) (c : Ctrl) (x : IState D) :
    fwdApply B opt it (a + b) c x =
      match fwdApply B opt it a c x with
      | ⟨c', x', log, .error e⟩ => ⟨c', x', log, .error e⟩
      | ⟨c', x', log, .ok ()⟩ =>
        { fwdApply B opt (it + a) b c' x' with
          log := log ++ (fwdApply B opt (it + a) b c' x').log } := by
  induction a generalizing it c x with
  | zero => simp [fwdApply]
  | succ a ih =>
    rw [show a + 1 + b = (a + b) + 1 by omega]
    simp only [fwdApply]
    rcases runStep B opt it c x with ⟨c', x', log, e | u⟩
    · rfl
    · dsimp only
      rw [ih (it + 1) c' x']
      rcases fwdApply B opt (it + 1) a c' x' with ⟨c2, x2, log2, e | u⟩
      · rfl
      · simp only [List.append_assoc, show it + 1 + a = it + (a + 1) by omega]

theorem applyForward_noRestore {R : Restore D} {n : ℕ} {acts : List Act} {k : ℕ}
    {sl sl' : ℕ → Option ℕ} (hl : LegalF n acts k sl sl') (hno : NoRestore acts) (s : PyData D)
    (c : Ctrl) (x : IState D) :
    k ≤ n ∧ (applyForward B opt R n acts s c x).2 = fwdApply B opt (k + 1) (n - k) c x := by
  induction hl generalizing s c x with
  | @advance acts a b sl sl' hab hbn h ih =>
    have hno' : NoRestore acts := fun j hj => hno j (List.mem_cons_of_mem _ hj)
    refine ⟨by omega, ?_⟩
    rw [show n - a = (b - a) + (n - b) by omega, fwdApply_add]
    simp only [applyForward]
    rcases fwdApply B opt (a + 1) (b - a) c x with ⟨c', x', log, e | u⟩
    · rfl
    · dsimp only
      rw [(ih hno' s c' x').2, show a + 1 + (b - a) = b + 1 by omega]
  | takeshot h ih => exact ih (fun j hj => hno j (List.mem_cons_of_mem _ hj)) _ c x
  | restore hj h ih => exact absurd (List.mem_cons_self ..) (hno _)
  | @lastfw a sl ha => exact ⟨ha, rfl⟩

theorem pyForward_noRestore {R : Restore D} {n : ℕ} {sched : Schedule} {sl : ℕ → Option ℕ}
    (hl : LegalF n sched.fwd 0 (fun _ => none) sl) (hno : NoRestore sched.fwd) (s : PyData D)
    (c : Ctrl) (x : IState D) :
    (pyForward B opt R n sched s c x).2 = fwdApply B opt 0 (n + 1) c x := by
  rw [show n + 1 = 1 + n by omega, fwdApply_add]
  simp only [pyForward]
  rcases fwdApply B opt 0 1 c x with ⟨c', x', log, e | u⟩
  · rfl
  · dsimp only
    rw [(applyForward_noRestore hl hno _ c' x').2]
    simp

/-! ### The component -/

/-- The component caches inputs, and its checkpointer and live state hold the trajectory from
them. -/
def PyGood (W : Lawful B) (opt : Options) (c : Ctrl) (n : ℕ) (sl : ℕ → Option ℕ)
    (w : World D (PyData D)) : Prop :=
  ∀ d, w.cached = some d → ∃ x, W.obs x.disc = W.obs d ∧ x.sugg = opt.initialStep ∧
    x.stepHist = (0, 0) ∧ x.errHist = (c.config.tol, c.config.tol) ∧
    Ready W opt c x w.ck sl ∧ AtStep W opt c x (n + 1) w.tis

theorem py_compute_good {W : Lawful B} {R : Restore D} (L : LawfulRestore W R) {n : ℕ}
    {sched : Schedule} {sl : ℕ → Option ℕ} (hl : LegalF n sched.fwd 0 (fun _ => none) sl)
    {fuel : ℕ} {e : IState D} {w w' : World D (PyData D)} (hp : Plain opt w.ctrl) {i : I} {v : O}
    (h : compute B opt (pyCk B opt R e n sched) fuel w i = (w', .ok v)) :
    PyGood W opt w.ctrl n sl w' ∧ w'.cached = some (B.load w.tis.disc i) ∧ w'.ctrl = w.ctrl ∧
      w'.pert = w.pert ∧ AtStep W opt w.ctrl (startOf B opt w.ctrl w.tis.disc i) (n + 1) w'.tis ∧
      v = B.read w'.tis.disc := by
  obtain ⟨h1, h2, -⟩ := pyForward_at (sched := sched) L hp hl ⟨w.ck.first, fun _ => none⟩
    (startOf B opt w.ctrl w.tis.disc i)
  simp only [compute, resetErrorControl, pyCk] at h
  simp only [startOf] at h1 h2 ⊢
  rcases hr : pyForward B opt R n sched ⟨w.ck.first, fun _ => none⟩ w.ctrl
    ⟨B.clearLin (B.load w.tis.disc i), opt.initialStep, (0, 0),
      (w.ctrl.config.tol, w.ctrl.config.tol)⟩ with ⟨s', ⟨c', x', log, e | u⟩⟩
  · rw [hr] at h; simp at h
  · rw [hr] at h h1 h2
    simp only [Prod.mk.injEq, Except.ok.injEq] at h
    obtain ⟨rfl, rfl⟩ := h
    obtain ⟨g1, g2⟩ := h2 rfl
    refine ⟨?_, rfl, h1, rfl, g1, rfl⟩
    intro d hd
    simp only [Option.some.injEq] at hd
    subst hd
    exact ⟨_, W.clear_obs _, rfl, rfl, rfl, g2, g1⟩

/-- With a controller without memory, `compute` has the outcome it has with the other
checkpointers. -/
theorem py_compute_same {W : Lawful B} {R : Restore D} (L : LawfulRestore W R) {n : ℕ}
    {sched : Schedule} {sl : ℕ → Option ℕ} (hl : LegalF n sched.fwd 0 (fun _ => none) sl)
    (hN : opt.crit = .steps (n + 1)) {fuel : ℕ} (hf : n + 1 < fuel) {e : IState D}
    {ch : Choice} (w : World D (PyData D)) (w' : World D (ch.Data D)) (hp : Plain opt w.ctrl)
    (hc : w.ctrl = w'.ctrl) (i : I) :
    (compute B opt (pyCk B opt R e n sched) fuel w i).2 = (compute B opt (ch.ck B opt) fuel w' i).2 ∧
    (compute B opt (pyCk B opt R e n sched) fuel w i).1.ctrl = w.ctrl := by
  obtain ⟨h1, h2, h3⟩ := pyForward_at (sched := sched) L hp hl ⟨w.ck.first, fun _ => none⟩
    (startOf B opt w.ctrl w.tis.disc i)
  have hs := start_same (opt := opt) W w.ctrl w.tis.disc w'.tis.disc i
  obtain ⟨e1, -, e3⟩ := noForward_same (opt := opt) W fuel 0 w.ctrl hs
  have hn := noForward_nth (B := B) hp hN (startOf B opt w.ctrl w.tis.disc i) rfl (Nat.zero_le _)
    (fuel := fuel) (by omega)
  simp only [compute, resetErrorControl]
  rw [choice_forward]
  simp only [startOf] at h1 h2 h3 e1 e3 hn
  simp only [pyCk]
  rw [← hc]
  generalize noForward B opt fuel 0 w.ctrl
    ⟨B.clearLin (B.load w.tis.disc i), opt.initialStep, (0, 0),
      (w.ctrl.config.tol, w.ctrl.config.tol)⟩ = r at e1 e3 hn
  generalize noForward B opt fuel 0 w.ctrl _ = r' at e1 e3
  generalize pyForward B opt R n sched ⟨w.ck.first, fun _ => none⟩ w.ctrl _ = q at h1 h2 h3
  rcases r with ⟨rc, rs, rl, ro⟩
  rcases r' with ⟨rc', rs', rl', ro'⟩
  rcases q with ⟨s', ⟨c', x', log, qo⟩⟩
  dsimp only at e1 e3 hn h1 h2 h3
  subst e1 h1
  rcases qo with e | u
  · have hq := h3 e rfl
    rcases ro with e' | u'
    · have := hn.1 e' rfl
      rw [hq] at this
      simp only [Except.error.injEq] at this
      subst this
      exact ⟨rfl, rfl⟩
    · have := hn.2 rfl
      rw [hq] at this
      simp at this
  · obtain ⟨y, hy, hly⟩ := (h2 rfl).1
    rcases ro with e' | u'
    · have := hn.1 e' rfl
      rw [hy] at this
      simp at this
    · have := hn.2 rfl
      rw [hy] at this
      simp only [Except.ok.injEq] at this
      subst this
      refine ⟨?_, rfl⟩
      dsimp only
      rw [W.read_obs _ _ (hly.obs.trans e3.obs)]

/-- The outcome of a reverse product that uses a good trajectory is that of a component that stores
all checkpoints and has nothing cached. -/
theorem py_rev_spec {W : Lawful B} {R : Restore D} (L : LawfulRestore W R) {n : ℕ}
    {sched : Schedule} (hcapo : sched.capo + 1 = n) {sl : ℕ → Option ℕ}
    (hlf : LegalF n sched.fwd 0 (fun _ => none) sl) (hlr : LegalR n sched.rev n sl sched.capo)
    (hN : opt.crit = .steps (n + 1)) {fuel : ℕ} (hf : n + 1 < fuel) {e : IState D}
    {w : World D (PyData D)} {w0 : World D (List (IState D))} (hp : Plain opt w.ctrl)
    (hc : w.ctrl = w0.ctrl) (hg : PyGood W opt w.ctrl n sl w) (h0 : w0.cached = none)
    (cw : W.Clean w.pert) (cw0 : W.Clean w0.pert) (i dI : I) (dO : O)
    (hit : ∀ d, w.cached = some d → B.cacheHit d i = true → W.obs d = W.obs (B.load d i)) :
    (rev B opt (pyCk B opt R e n sched) fuel w i dO dI).2
      = (rev B opt (allCk B opt) fuel w0 i dO dI).2 := by
  have hno : cacheOk B w0 i = false := by simp [cacheOk, h0]
  -- a reverse sweep from a world that holds the trajectory of `x`
  have sweep : ∀ (w1 : World D (PyData D)) (x : IState D), w1.ctrl = w.ctrl → W.Clean w1.pert →
      Ready W opt w.ctrl x w1.ck sl → AtStep W opt w.ctrl x (n + 1) w1.tis →
      SameObs W x (startOf B opt w0.ctrl w0.tis.disc i) →
      (pyReverse B opt R sched w1.ck w1.ctrl w1.tis (B.seed w1.pert dO)).2.1.out = .ok () ∧
      (rev B opt (allCk B opt) fuel w0 i dO dI).2
        = .ok (B.writeIn
          (pyReverse B opt R sched w1.ck w1.ctrl w1.tis (B.seed w1.pert dO)).2.2 dI) := by
    intro w1 x hc1 c1 hr ha hs
    obtain ⟨-, g2, -, g4, -⟩ := pyReverse_at L hp hcapo hlr hr ha (p := B.seed w1.pert dO)
      (W.seed_clean _ _ c1)
    rw [hc1]
    refine ⟨g2, ?_⟩
    -- the run from `x`
    have hrun : ∃ tr, Run B opt 0 w.ctrl x tr ∧ tr.length < fuel := by
      refine run_of_noForward (B := B) (opt := opt) (fuel := fuel) ?_
      have hn := noForward_nth (B := B) hp hN x rfl (Nat.zero_le _) (fuel := fuel) (by omega)
      rcases ho : (noForward B opt fuel 0 w.ctrl x).out with e' | u
      · have := hn.1 e' ho
        obtain ⟨y, hy, -⟩ := ha
        rw [hy] at this
        simp at this
      · rfl
    obtain ⟨tr, htr, hlt⟩ := hrun
    have hlen := htr.length_steps hN (Nat.zero_le _)
    obtain ⟨t2, h2, hst⟩ := htr.same W hs
    rw [hc] at h2
    rw [rev_of_run hno h2 (by rw [← hst.length]; exact hlt)]
    congr 1
    refine W.writeIn_obs _ _ _ ?_
    rw [g4]
    have hnth : ∀ j, (hj : j < (tr.map Prod.snd).length) →
        nth B opt w.ctrl x (j + 1) = .ok (tr.map Prod.snd)[j] := by
      intro j hj
      have := run_nth hp htr rfl rfl j (by simpa using hj)
      rw [Nat.zero_add] at this
      rw [this, List.getElem_map]
    have key := adjFrom_revAlong _ hnth (B.seed w1.pert dO)
    rw [List.length_map, show tr.length = n + 1 by omega] at key
    rw [key]
    symm
    refine revAlong_same W ?_ (W.seed_obs _ _ _) (W.seed_clean _ _ c1) (W.seed_clean _ _ cw0)
    rw [List.forall₂_reverse_iff]
    exact hst.snd
  by_cases hca : cacheOk B w i = true
  · obtain ⟨d, hd, hhit⟩ : ∃ d, w.cached = some d ∧ B.cacheHit d i = true := by
      simp only [cacheOk] at hca
      rcases hd : w.cached with _ | d
      · rw [hd] at hca; simp at hca
      · rw [hd] at hca; exact ⟨d, rfl, hca⟩
    obtain ⟨x, ho, hs1, hs2, hs3, hr, ha⟩ := hg d hd
    have hsame : SameObs W x (startOf B opt w0.ctrl w0.tis.disc i) := by
      refine ⟨?_, hs1, hs2, by rw [hs3, hc]; rfl⟩
      rw [ho, hit d hd hhit]
      simp only [startOf, W.clear_obs]
      exact W.load_obs _ _ _
    obtain ⟨g1, g2⟩ := sweep w x rfl cw hr ha hsame
    rw [g2]
    simp only [rev, revPrep, hca, if_true, pyCk, g1]
  · rw [Bool.not_eq_true] at hca
    have hsm := (py_compute_same (ch := .all) L hlf hN hf w w0 hp hc i (e := e)).1
    rcases hcomp : compute B opt (pyCk B opt R e n sched) fuel w i with ⟨w1, e1 | v⟩
    · rw [hcomp] at hsm
      simp only [Choice.ck] at hsm
      rcases hcomp2 : compute B opt (allCk B opt) fuel w0 i with ⟨w2, e2 | v2⟩
      · rw [hcomp2] at hsm
        simp only [rev, revPrep, hca, hno, hcomp, hcomp2, Bool.false_eq_true, if_false]
        exact congrArg _ (by simpa using hsm)
      · rw [hcomp2] at hsm
        simp at hsm
    · obtain ⟨gg, k1, k2, k3, k4, -⟩ := py_compute_good L hlf hp hcomp
      obtain ⟨x, ho, hs1, hs2, hs3, hr, ha⟩ := gg _ k1
      have hsame : SameObs W x (startOf B opt w0.ctrl w0.tis.disc i) := by
        refine ⟨?_, hs1, hs2, by rw [hs3, hc]; rfl⟩
        rw [ho]
        simp only [startOf, W.clear_obs]
        exact W.load_obs _ _ _
      obtain ⟨g1, g2⟩ := sweep w1 x k2 (by rw [k3]; exact cw) hr ha hsame
      rw [g2]
      simp only [rev, revPrep, hca, hcomp, Bool.false_eq_true, if_false]
      simp only [pyCk, g1]

/-- A forward product at the inputs that are cached keeps the live state good. -/
theorem py_fwd_good {W : Lawful B} {n : ℕ} {sl : ℕ → Option ℕ}
    (hN : opt.crit = .steps (n + 1)) {fuel : ℕ} (hf : n + 1 < fuel)
    {w : World D (PyData D)} (hp : Plain opt w.ctrl) (hg : PyGood W opt w.ctrl n sl w) (i di : I)
    (dO : O) (hi : ∀ d, w.cached = some d → W.obs d = W.obs (B.load d i)) :
    PyGood W opt w.ctrl n sl (fwd B opt fuel w i di dO).1 := by
  intro d hd
  have hcach : (fwd B opt fuel w i di dO).1.cached = w.cached := by
    simp only [fwd]; split <;> rfl
  have hck : (fwd B opt fuel w i di dO).1.ck = w.ck := by
    simp only [fwd]; split <;> rfl
  rw [hcach] at hd
  obtain ⟨x, ho, hs1, hs2, hs3, hr, ha⟩ := hg d hd
  refine ⟨x, ho, hs1, hs2, hs3, by rw [hck]; exact hr, ?_⟩
  -- the run from `x`
  have hrun : ∃ tr, Run B opt 0 w.ctrl x tr ∧ tr.length < fuel := by
    refine run_of_noForward (B := B) (opt := opt) (fuel := fuel) ?_
    have hn := noForward_nth (B := B) hp hN x rfl (Nat.zero_le _) (fuel := fuel) (by omega)
    rcases ho : (noForward B opt fuel 0 w.ctrl x).out with e' | u
    · have := hn.1 e' ho
      obtain ⟨y, hy, -⟩ := ha
      rw [hy] at this
      simp at this
    · rfl
  obtain ⟨tr, htr, hlt⟩ := hrun
  have hlen := htr.length_steps hN (Nat.zero_le _)
  have hsame : SameObs W x (startOfFwd B opt w.ctrl w.tis.disc i) := by
    refine ⟨?_, hs1, hs2, by rw [hs3]; rfl⟩
    rw [ho, hi d hd]
    exact W.load_obs _ _ _
  obtain ⟨t2, h2, hst⟩ := htr.same W hsame
  have hfw := fwdLoop_of_run h2 (fuel := fuel) (by rw [← hst.length]; exact hlt)
    (B.load w.pert di)
  have htis : (fwd B opt fuel w i di dO).1.tis
      = (lastOf w.ctrl (startOfFwd B opt w.ctrl w.tis.disc i) t2).2 := by
    simp only [fwd, resetErrorControl]
    simp only [startOfFwd] at hfw ⊢
    rw [hfw]
  have hl2 : t2.length = n + 1 := by rw [← hst.length]; omega
  rw [htis, lastOf_getLastD]
  have hlast : (t2.map Prod.snd).getLastD (startOfFwd B opt w.ctrl w.tis.disc i)
      = (t2[n]'(by omega)).2 := by
    rw [List.getLastD_eq_getLast?, List.getLast?_eq_getElem?]
    simp [hl2]
  rw [hlast]
  have hn := run_nth (B := B) hp htr rfl rfl n (by omega)
  rw [Nat.zero_add] at hn
  refine ⟨_, hn, ?_⟩
  have := List.forall₂_iff_get.mp hst
  have := (this.2 n (by omega) (by omega)).2
  exact this.symm

end Verif.Integrator
