/-
Properties of the checkpointing with pyrevolve (C16, C31, C32, C33, C36, C14, C35, C39).
-/
import Verif.Integrator.PyrevolveRK
import Verif.Props.History

namespace Verif.Props

open Verif.RK Verif.RK.Spec Verif.Control Verif.XReal Verif.Integrator
open Classical

variable {s n m o l : ℕ} {opt : Options}
variable {D I O : Type} {B : Backend D I O}

/-! ### Legal schedules exist -/

/-- The reverse phase with a single checkpoint of index 0: before every reverse step, go on from
the checkpoint. -/
def replay : ℕ → List Act
  | 0 => []
  | k + 1 => .restore 0 :: .advance 0 k :: .reverse k :: replay k

/-- The schedule with a single checkpoint. -/
def single (n : ℕ) : Schedule := ⟨[.takeshot 0, .lastfw 0], n, replay n⟩

theorem replay_legal (N : ℕ) (sl : ℕ → Option ℕ) (h0 : sl 0 = some 0) (k : ℕ) (hk : k ≤ N)
    (live : ℕ) : LegalR N (replay k) live sl k := by
  induction k generalizing live with
  | zero => exact .done
  | succ k ih =>
    exact .restore h0 (.advance (Nat.zero_le _) (by omega) (.reverse (ih (by omega) _)))

/-- For every number of steps from two on there is a legal schedule that needs one checkpoint. -/
theorem single_legal (n : ℕ) : Legal (n + 1) (single n) :=
  ⟨rfl, _, .takeshot (.lastfw (Nat.zero_le _)),
    replay_legal _ _ (Function.update_self ..) _ (by simp [single]) _⟩

theorem single_noRestore (n : ℕ) : NoRestore (single n).fwd := by
  intro j hj
  simp [single] at hj

/-- Another legal schedule: five steps, two checkpoints, the second one used twice. -/
theorem two_legal : Legal 4 ⟨[.takeshot 0, .advance 0 2, .takeshot 1, .lastfw 2], 3,
    [.restore 1, .reverse 2, .restore 0, .takeshot 1, .advance 0 1, .reverse 1, .restore 1,
      .reverse 0]⟩ := by
  refine ⟨rfl, _, .takeshot (.advance (by omega) (by omega) (.takeshot (.lastfw (by omega)))), ?_⟩
  refine .restore (k := 2) rfl (.reverse (.restore (k := 0) rfl (.takeshot
    (.advance (by omega) (by omega) (.reverse (.restore (k := 0) rfl (.reverse .done)))))))

/-- Not every list of actions is legal: a reverse step must come at its time, with the right
state. -/
example : ¬ Legal 2 ⟨[.lastfw 0], 1, [.reverse 0]⟩ := by
  rintro ⟨-, sl, hf, hr⟩
  cases hr

/-! ### C31 -/

/-- C31 for pyrevolve, any backend and any error controller: for every schedule that loads no
checkpoint in the forward phase, `compute` has the outcome it has with the other checkpointers, ends
in the same state, and the callbacks see the same states in the same order; only the step numbers
they are given are smaller by one (C16). -/
theorem C31_pyrevolve_forward {N fuel : ℕ} {sched : Schedule} {sl : ℕ → Option ℕ} {R : Restore D}
    {e : IState D} (hl : LegalF N sched.fwd 0 (fun _ => none) sl) (hno : NoRestore sched.fwd)
    (hN : opt.crit = .steps (N + 1)) (hf : N + 1 < fuel) {ch : Choice}
    (w1 : World D (PyData D)) (w2 : World D (ch.Data D)) (ht : w1.tis = w2.tis)
    (hc : w1.ctrl = w2.ctrl) (i : I) :
    (compute B opt (pyCk B opt R e N sched) fuel w1 i).2
      = (compute B opt (ch.ck B opt) fuel w2 i).2 ∧
    (compute B opt (pyCk B opt R e N sched) fuel w1 i).1.tis
      = (compute B opt (ch.ck B opt) fuel w2 i).1.tis ∧
    (compute B opt (pyCk B opt R e N sched) fuel w1 i).1.ctrl
      = (compute B opt (ch.ck B opt) fuel w2 i).1.ctrl ∧
    ∃ new, (compute B opt (pyCk B opt R e N sched) fuel w1 i).1.log = w1.log ++ new ∧
      (compute B opt (ch.ck B opt) fuel w2 i).1.log = w2.log ++ new.map Ev.bump := by
  have key := fun x => noForward_fwdApply (B := B) hN fuel 0 w1.ctrl x (Nat.zero_le _) (by omega)
  simp only [compute, resetErrorControl]
  rw [choice_forward]
  simp only [pyCk, pyForward_noRestore hl hno, ← ht, ← hc, key, Nat.sub_zero]
  generalize fwdApply B opt 0 (N + 1) w1.ctrl _ = r
  rcases r with ⟨c', x', log, e' | u⟩
  · exact ⟨rfl, rfl, rfl, log, rfl, rfl⟩
  · exact ⟨rfl, rfl, rfl, log, rfl, rfl⟩

example : ∃ w' v, compute (rkBackend Integrator.Ex.env) Integrator.Ex.opt3
    (pyCk (rkBackend Integrator.Ex.env) Integrator.Ex.opt3 rkRestore
      (Integrator.Ex.fresh Integrator.Ex.opt3 .no).tis 2 (single 1)) 4
    ⟨(Integrator.Ex.fresh Integrator.Ex.opt3 .no).tis, RKState.empty, Integrator.Ex.ctrl, none,
      ⟨(Integrator.Ex.fresh Integrator.Ex.opt3 .no).tis, fun _ => none⟩, []⟩
    Integrator.Ex.inp = (w', .ok v) := by
  obtain ⟨w', v, h⟩ := Integrator.Ex.fresh_compute_ok .no 4 (by omega)
    (Integrator.Ex.fresh Integrator.Ex.opt3 .no) Integrator.Ex.inp
  obtain ⟨-, sl, hl, -⟩ := single_legal 1
  have := (C31_pyrevolve_forward (B := rkBackend Integrator.Ex.env) (opt := Integrator.Ex.opt3)
    (R := rkRestore) (e := (Integrator.Ex.fresh Integrator.Ex.opt3 .no).tis) hl
    (single_noRestore 1) rfl (show 2 + 1 < 4 by omega)
    ⟨(Integrator.Ex.fresh Integrator.Ex.opt3 .no).tis, RKState.empty, Integrator.Ex.ctrl, none,
      ⟨(Integrator.Ex.fresh Integrator.Ex.opt3 .no).tis, fun _ => none⟩, []⟩
    (Integrator.Ex.fresh Integrator.Ex.opt3 .no) rfl rfl Integrator.Ex.inp).1
  rw [h] at this
  exact ⟨_, v, Prod.ext rfl this⟩

/-- C31 for pyrevolve and every legal schedule, also with loading in the forward phase, for lawful
backends (both Runge-Kutta discretizations are) without adaptive stepping or with a single error
controller: `compute` has the outcome it has with the other checkpointers, whatever the two
components did before. The calls of the callbacks are not the same (steps are repeated), and neither
are results with controllers with memory, which is not saved (see `C33_chain_state_violated`). -/
theorem C31_pyrevolve_loading_schedules (W : Lawful B) {R : Restore D} (L : LawfulRestore W R)
    {N fuel : ℕ} {sched : Schedule} {sl : ℕ → Option ℕ} {e : IState D}
    (hl : LegalF N sched.fwd 0 (fun _ => none) sl) (hN : opt.crit = .steps (N + 1))
    (hf : N + 1 < fuel) {ch : Choice} (w : World D (PyData D)) (w' : World D (ch.Data D))
    (hp : opt.adaptive = false ∨ ∃ par cfg, w.ctrl = .base par cfg) (hc : w.ctrl = w'.ctrl)
    (i : I) :
    (compute B opt (pyCk B opt R e N sched) fuel w i).2
      = (compute B opt (ch.ck B opt) fuel w' i).2 :=
  (py_compute_same L hl hN hf w w' hp hc i).1

example (E : Env s n m o l) (bhat : Fin s → ℝ) (hz : NoStageState E.ode) :
    LawfulRestore (rkLawful E hz) rkRestore ∧ LawfulRestore (embLawful E bhat hz) embRestore :=
  ⟨rkRestore_lawful E hz, embRestore_lawful E bhat hz⟩

example : ∃ sl, LegalF 3 [.takeshot 0, .advance 0 2, .restore 0, .lastfw 0] 0 (fun _ => none) sl :=
  ⟨_, .takeshot (.advance (by omega) (by omega) (.restore (k := 0) rfl (.lastfw (by omega))))⟩

/-! ### C16 -/

theorem eq_mk_of_snd {α β : Type} {p : α × β} {b : β} (h : p.2 = b) : p = (p.1, b) := by
  rw [← h]

theorem numbers_bump (k : Kind) (j : ℕ) (log : List (Ev D)) :
    beforeNumbers k j (log.map Ev.bump) = (beforeNumbers k j log).map (· + 1) ∧
    afterNumbers k j (log.map Ev.bump) = (afterNumbers k j log).map (· + 1) := by
  induction log with
  | nil => exact ⟨rfl, rfl⟩
  | cons ev log ih =>
    obtain ⟨i1, i2⟩ := ih
    rcases ev with ⟨k', j', it, x⟩ | ⟨k', j', it, x⟩
    · by_cases h : k' = k ∧ j' = j
      · simp only [beforeNumbers, afterNumbers] at i1 i2 ⊢
        simp [Ev.bump, h, i1, i2]
      · simp only [beforeNumbers, afterNumbers] at i1 i2 ⊢
        simp [Ev.bump, h, i1, i2]
    · by_cases h : k' = k ∧ j' = j
      · simp only [beforeNumbers, afterNumbers] at i1 i2 ⊢
        simp [Ev.bump, h, i1, i2]
      · simp only [beforeNumbers, afterNumbers] at i1 i2 ⊢
        simp [Ev.bump, h, i1, i2]

theorem map_succ_inj {a b : List ℕ} (h : a.map (· + 1) = b.map (· + 1)) : a = b :=
  List.map_injective_iff.mpr (fun _ _ h => by simpa using h) h

/-- C16 for pyrevolve (schedules without loading in the forward phase): `compute` performs exactly
`N` steps. The callbacks see the numbers `0, ..., N - 1`, so the claim about the numbering is
violated for every `N > 0` (see `C16_pyrevolve_numbering_violated`). -/
theorem C16_pyrevolve_number_of_steps_partial {N fuel : ℕ} {sched : Schedule} {sl : ℕ → Option ℕ}
    {R : Restore D} {e : IState D} (hl : LegalF N sched.fwd 0 (fun _ => none) sl)
    (hno : NoRestore sched.fwd) (hN : opt.crit = .steps (N + 1)) (hf : N + 1 < fuel)
    {w w' : World D (PyData D)} {i : I} {v : O}
    (h : compute B opt (pyCk B opt R e N sched) fuel w i = (w', .ok v)) :
    (∃ l, l.length = N + 1 ∧ Path B (B.clearLin (B.load w.tis.disc i)) l w'.tis.disc ∧
      v = B.read w'.tis.disc) ∧
    ∃ new, w'.log = w.log ++ new ∧ ∀ j, j < opt.computeCallbacks →
      beforeNumbers .compute j new = List.range (N + 1) ∧
      afterNumbers .compute j new = List.range (N + 1) := by
  obtain ⟨h1, h2, h3, new, h4, h5⟩ := C31_pyrevolve_forward (B := B) (opt := opt) (R := R) (e := e)
    hl hno hN hf (ch := .no) w ⟨w.tis, w.pert, w.ctrl, w.cached, (), []⟩ rfl rfl i
  rw [h] at h1 h2 h3 h4
  obtain ⟨⟨l, k1, k2, k3⟩, new', k4, k5⟩ := C16_compute_number_of_steps_partial (ch := .no)
    (w := ⟨w.tis, w.pert, w.ctrl, w.cached, (), []⟩) (i := i) (v := v) hN
    (Prod.ext rfl h1.symm)
  refine ⟨⟨l, k1, ?_, ?_⟩, new, h4, fun j hj => ?_⟩
  · simp only at h2 k2 ⊢
    rw [h2]; exact k2
  · rw [h2]; exact k3
  · rw [h5] at k4
    simp only [List.nil_append] at k4
    have := k5 j hj
    rw [← k4, (numbers_bump .compute j new).1, (numbers_bump .compute j new).2] at this
    exact ⟨map_succ_inj this.1, map_succ_inj this.2⟩

/-- C16 is violated by pyrevolve: in every successful `compute` with at least one callback, the
callback is given other step numbers than `1, ..., N` (...pyrevolve_classes.py L181 with
pyrevolve_checkpointer.py L164). -/
theorem C16_pyrevolve_numbering_violated {N fuel : ℕ} {sched : Schedule} {sl : ℕ → Option ℕ}
    {R : Restore D} {e : IState D} (hl : LegalF N sched.fwd 0 (fun _ => none) sl)
    (hno : NoRestore sched.fwd) (hN : opt.crit = .steps (N + 1)) (hf : N + 1 < fuel)
    {w w' : World D (PyData D)} {i : I} {v : O}
    (h : compute B opt (pyCk B opt R e N sched) fuel w i = (w', .ok v))
    (hcb : 0 < opt.computeCallbacks) :
    ∃ new, w'.log = w.log ++ new ∧
      beforeNumbers .compute 0 new ≠ (List.range (N + 1)).map (· + 1) := by
  obtain ⟨-, new, h1, h2⟩ := C16_pyrevolve_number_of_steps_partial hl hno hN hf h
  refine ⟨new, h1, ?_⟩
  rw [(h2 0 hcb).1]
  intro hh
  have := congrArg (fun l => l[0]?) hh
  simp at this

example : ∃ w' v, compute (rkBackend Integrator.Ex.env) Integrator.Ex.opt3
    (pyCk (rkBackend Integrator.Ex.env) Integrator.Ex.opt3 rkRestore
      (Integrator.Ex.fresh Integrator.Ex.opt3 .no).tis 2 (single 1)) 4
    ⟨(Integrator.Ex.fresh Integrator.Ex.opt3 .no).tis, RKState.empty, Integrator.Ex.ctrl, none,
      ⟨(Integrator.Ex.fresh Integrator.Ex.opt3 .no).tis, fun _ => none⟩, []⟩
    Integrator.Ex.inp = (w', .ok v) ∧ beforeNumbers .compute 0 w'.log = [0, 1, 2] := by
  obtain ⟨w', v, h⟩ := Integrator.Ex.fresh_compute_ok .no 4 (by omega)
    (Integrator.Ex.fresh Integrator.Ex.opt3 .no) Integrator.Ex.inp
  obtain ⟨-, sl, hl, -⟩ := single_legal 1
  have := (C31_pyrevolve_forward (B := rkBackend Integrator.Ex.env) (opt := Integrator.Ex.opt3)
    (R := rkRestore) (e := (Integrator.Ex.fresh Integrator.Ex.opt3 .no).tis) hl
    (single_noRestore 1) rfl (show 2 + 1 < 4 by omega)
    ⟨(Integrator.Ex.fresh Integrator.Ex.opt3 .no).tis, RKState.empty, Integrator.Ex.ctrl, none,
      ⟨(Integrator.Ex.fresh Integrator.Ex.opt3 .no).tis, fun _ => none⟩, []⟩
    (Integrator.Ex.fresh Integrator.Ex.opt3 .no) rfl rfl Integrator.Ex.inp).1
  rw [h] at this
  have h' := eq_mk_of_snd this
  obtain ⟨-, new, h1, h2⟩ := C16_pyrevolve_number_of_steps_partial hl (single_noRestore 1) rfl
    (by omega) h'
  refine ⟨_, v, h', ?_⟩
  rw [h1]
  exact (h2 0 (by simp [Integrator.Ex.opt3])).1

/-! ### C33 -/

theorem pyGood_none {W : Lawful B} {c : Ctrl} {N : ℕ} {sl : ℕ → Option ℕ}
    {w : World D (PyData D)} (h : w.cached = none) : PyGood W opt c N sl w := by
  intro d hd
  rw [h] at hd
  simp at hd

/-- C33 (plain schemes): for every legal schedule and at least two steps (`N = n + 1`), without
adaptive stepping or with a single error controller, a reverse product of a component with pyrevolve
has the outcome it has with a component that stores all checkpoints. Missing: a single step, which
depends on what pyrevolve does for zero time steps, and controllers with memory, for which the claim is
violated (`C33_chain_state_violated`). -/
theorem C33_pyrevolve_reverse_partial (E : Env s n m o l) (hz : NoStageState E.ode) {N fuel : ℕ}
    {sched : Schedule} (hl : Legal N sched) (hN : opt.crit = .steps (N + 1)) (hf : N + 1 < fuel)
    {e : IState (RKState ℝ s n m o l)}
    {w : World (RKState ℝ s n m o l) (PyData (RKState ℝ s n m o l))}
    {w0 : World (RKState ℝ s n m o l) (List (IState (RKState ℝ s n m o l)))}
    (hp : opt.adaptive = false ∨ ∃ par cfg, w.ctrl = .base par cfg) (hc : w.ctrl = w0.ctrl)
    (hw : w.cached = none) (hw0 : w0.cached = none) (cw : w.pert.stageStates = 0)
    (cw0 : w0.pert.stageStates = 0) (i dI : StartingValues ℝ n m) (dO : Outputs n) :
    (rev (rkBackend E) opt (pyCk (rkBackend E) opt rkRestore e N sched) fuel w i dO dI).2
      = (rev (rkBackend E) opt (allCk (rkBackend E) opt) fuel w0 i dO dI).2 := by
  obtain ⟨hcapo, sl, hlf, hlr⟩ := hl
  exact py_rev_spec (rkRestore_lawful E hz) hcapo hlf hlr hN hf hp hc (pyGood_none hw) hw0 cw cw0
    i dI dO (fun d hd => by rw [hw] at hd; simp at hd)

/-- C33 (embedded schemes). -/
theorem C33_embedded_pyrevolve_reverse_partial (E : Env s n m o l) (bhat : Fin s → ℝ)
    (hz : NoStageState E.ode) {N fuel : ℕ}
    {sched : Schedule} (hl : Legal N sched) (hN : opt.crit = .steps (N + 1)) (hf : N + 1 < fuel)
    {e : IState (EmbRKState ℝ s n m o l)}
    {w : World (EmbRKState ℝ s n m o l) (PyData (EmbRKState ℝ s n m o l))}
    {w0 : World (EmbRKState ℝ s n m o l) (List (IState (EmbRKState ℝ s n m o l)))}
    (hp : opt.adaptive = false ∨ ∃ par cfg, w.ctrl = .base par cfg) (hc : w.ctrl = w0.ctrl)
    (hw : w.cached = none) (hw0 : w0.cached = none) (cw : w.pert.stageStates = 0)
    (cw0 : w0.pert.stageStates = 0) (i dI : StartingValues ℝ n m) (dO : Outputs n) :
    (rev (embBackend E bhat) opt (pyCk (embBackend E bhat) opt embRestore e N sched) fuel w i dO
        dI).2
      = (rev (embBackend E bhat) opt (allCk (embBackend E bhat) opt) fuel w0 i dO dI).2 := by
  obtain ⟨hcapo, sl, hlf, hlr⟩ := hl
  exact py_rev_spec (embRestore_lawful E bhat hz) hcapo hlf hlr hN hf hp hc (pyGood_none hw) hw0 cw
    cw0 i dI dO (fun d hd => by rw [hw] at hd; simp at hd)

/-- Forward products, all at the inputs `i`, with any seeds. -/
def fwdsAt (i : I) (seeds : List (I × O)) : List (Op I O) :=
  seeds.map fun q => .fwd i q.1 q.2

theorem fwds_good {W : Lawful B} {N fuel : ℕ} {sl : ℕ → Option ℕ} {ck : Checkpointer D (PyData D)}
    (hN : opt.crit = .steps (N + 1)) (hf : N + 1 < fuel) (i : I) (seeds : List (I × O))
    {c : Ctrl} {d : D} {w : World D (PyData D)} (hp : Plain opt c) (hwc : w.ctrl = c)
    (hg : PyGood W opt c N sl w) (hcw : W.Clean w.pert) (hca : w.cached = some d)
    (hi : W.obs d = W.obs (B.load d i)) :
    let w' := doOps B opt ck fuel w (fwdsAt i seeds)
    PyGood W opt c N sl w' ∧ w'.ctrl = c ∧ W.Clean w'.pert ∧ w'.cached = some d := by
  subst hwc
  induction seeds generalizing w with
  | nil => exact ⟨hg, rfl, hcw, hca⟩
  | cons q seeds ih =>
    have hc1 : (fwd B opt fuel w i q.1 q.2).1.ctrl = w.ctrl := fwd_plain hp i q.1 q.2
    have h := ih (w := (fwd B opt fuel w i q.1 q.2).1)
      (fwd_clean W hcw i q.1 q.2) (by rw [← hca]; simp only [fwd]; split <;> rfl)
      (by rw [hc1]; exact hp)
      (by
        rw [hc1]
        refine py_fwd_good hN hf hp hg i q.1 q.2 ?_
        intro d' hd'
        rw [hca, Option.some.injEq] at hd'
        subst hd'
        exact hi)
    rw [hc1] at h
    exact h

/-- C33 (plain schemes), when the reverse product uses the checkpoints of an earlier `compute` at the
same inputs, with any number of forward products at these inputs in between. For forward products
at other inputs see `C35_pyrevolve_live_state_violated`. -/
theorem C33_pyrevolve_cached_partial (E : Env s n m o l) (hz : NoStageState E.ode) {N fuel : ℕ}
    {sched : Schedule} (hl : Legal N sched) (hN : opt.crit = .steps (N + 1)) (hf : N + 1 < fuel)
    {e : IState (RKState ℝ s n m o l)}
    {w w1 : World (RKState ℝ s n m o l) (PyData (RKState ℝ s n m o l))}
    {w0 : World (RKState ℝ s n m o l) (List (IState (RKState ℝ s n m o l)))}
    (hp : opt.adaptive = false ∨ ∃ par cfg, w.ctrl = .base par cfg) (hc : w.ctrl = w0.ctrl)
    (hw0 : w0.cached = none) (cw : w.pert.stageStates = 0)
    (cw0 : w0.pert.stageStates = 0) (i dI : StartingValues ℝ n m) (v : Outputs n)
    (hcomp : compute (rkBackend E) opt (pyCk (rkBackend E) opt rkRestore e N sched) fuel w i
      = (w1, .ok v)) (seeds : List (StartingValues ℝ n m × Outputs n)) (dO : Outputs n) :
    (rev (rkBackend E) opt (pyCk (rkBackend E) opt rkRestore e N sched) fuel
        (doOps (rkBackend E) opt (pyCk (rkBackend E) opt rkRestore e N sched) fuel w1
          (fwdsAt i seeds)) i dO dI).2
      = (rev (rkBackend E) opt (allCk (rkBackend E) opt) fuel w0 i dO dI).2 := by
  obtain ⟨hcapo, sl, hlf, hlr⟩ := hl
  obtain ⟨g1, g2, g3, g4, -⟩ := py_compute_good (rkRestore_lawful E hz) hlf hp hcomp
  obtain ⟨k1, k2, k3, k4⟩ := fwds_good (ck := pyCk (rkBackend E) opt rkRestore e N sched) hN hf i
    seeds hp g3 g1 (by rw [g4]; exact cw) g2 rfl
  refine py_rev_spec (rkRestore_lawful E hz) hcapo hlf hlr hN hf (by rw [k2]; exact hp)
    (by rw [k2]; exact hc) (by rw [k2]; exact k1) hw0 k3 cw0 i dI dO ?_
  intro d hd _
  rw [k4, Option.some.injEq] at hd
  subst hd
  rfl

/-- C33 (embedded schemes), with checkpoints of an earlier `compute`. -/
theorem C33_embedded_pyrevolve_cached_partial (E : Env s n m o l) (bhat : Fin s → ℝ)
    (hz : NoStageState E.ode) {N fuel : ℕ}
    {sched : Schedule} (hl : Legal N sched) (hN : opt.crit = .steps (N + 1)) (hf : N + 1 < fuel)
    {e : IState (EmbRKState ℝ s n m o l)}
    {w w1 : World (EmbRKState ℝ s n m o l) (PyData (EmbRKState ℝ s n m o l))}
    {w0 : World (EmbRKState ℝ s n m o l) (List (IState (EmbRKState ℝ s n m o l)))}
    (hp : opt.adaptive = false ∨ ∃ par cfg, w.ctrl = .base par cfg) (hc : w.ctrl = w0.ctrl)
    (hw0 : w0.cached = none) (cw : w.pert.stageStates = 0)
    (cw0 : w0.pert.stageStates = 0) (i dI : StartingValues ℝ n m) (v : Outputs n)
    (hcomp : compute (embBackend E bhat) opt (pyCk (embBackend E bhat) opt embRestore e N sched)
      fuel w i = (w1, .ok v)) (seeds : List (StartingValues ℝ n m × Outputs n)) (dO : Outputs n) :
    (rev (embBackend E bhat) opt (pyCk (embBackend E bhat) opt embRestore e N sched) fuel
        (doOps (embBackend E bhat) opt (pyCk (embBackend E bhat) opt embRestore e N sched) fuel w1
          (fwdsAt i seeds)) i dO dI).2
      = (rev (embBackend E bhat) opt (allCk (embBackend E bhat) opt) fuel w0 i dO dI).2 := by
  obtain ⟨hcapo, sl, hlf, hlr⟩ := hl
  obtain ⟨g1, g2, g3, g4, -⟩ := py_compute_good (embRestore_lawful E bhat hz) hlf hp hcomp
  obtain ⟨k1, k2, k3, k4⟩ := fwds_good (ck := pyCk (embBackend E bhat) opt embRestore e N sched) hN
    hf i seeds hp g3 g1 (by rw [g4]; exact cw) g2 rfl
  refine py_rev_spec (embRestore_lawful E bhat hz) hcapo hlf hlr hN hf (by rw [k2]; exact hp)
    (by rw [k2]; exact hc) (by rw [k2]; exact k1) hw0 k3 cw0 i dI dO ?_
  intro d hd _
  rw [k4, Option.some.injEq] at hd
  subst hd
  rfl

/-- The hypotheses are met by fresh components, for every number of steps and the schedule with a
single checkpoint; the products return numbers. -/
example (k : ℕ) (dO : Outputs 1) :
    let opt : Options := { Integrator.Ex.opt3 with crit := .steps (k + 2) }
    let B := rkBackend Integrator.Ex.env
    let ck := pyCk B opt rkRestore (Integrator.Ex.fresh opt .all).tis (k + 1) (single k)
    ∃ g, (rev B opt ck (k + 3) (freshWorld opt ck RKState.empty Integrator.Ex.ctrl)
      Integrator.Ex.inp dO ⟨0, 0, 0⟩).2 = .ok g := by
  intro opt B ck
  rw [C33_pyrevolve_reverse_partial Integrator.Ex.env Integrator.Ex.env_noStageState
    (single_legal k) rfl (by omega) (w0 := Integrator.Ex.fresh opt .all) (Or.inl rfl) rfl rfl rfl
    rfl rfl]
  obtain ⟨tr, htr⟩ := exists_run_fixed (B := rkBackend Integrator.Ex.env) (opt := opt)
    (n := k + 2) rfl rfl (by simp [opt, Integrator.Ex.opt3]) Integrator.Ex.ctrl
    (startOf (rkBackend Integrator.Ex.env) opt Integrator.Ex.ctrl
      (Integrator.Ex.fresh opt .all).tis.disc Integrator.Ex.inp)
    (fun d => ⟨computeStep Integrator.Ex.env.T Integrator.Ex.env.ode d (1 / 2), by
      simp [rkBackend, startOf, opt, Integrator.Ex.opt3, Integrator.Ex.env]⟩) 0
  have hlen := htr.length_steps (opt := opt) (n := k + 2) rfl (Nat.zero_le _)
  exact ⟨_, rev_of_run rfl htr (by omega)⟩

/-! ### C32 -/

/-- C32 for pyrevolve: in a reverse product every reverse step `N, N - 1, ..., 1` is done exactly
once and in this order, whatever the schedule recomputes in between: the callbacks of the reverse
mode are called as listed by `revCalls`. (`w1` is a component that holds the trajectory of the
cached inputs, as after `compute`.) -/
theorem C32_pyrevolve_numbers (W : Lawful B) {R : Restore D} (L : LawfulRestore W R) {N fuel : ℕ}
    {sched : Schedule} (hl : Legal N sched) {e : IState D} {w w1 : World D (PyData D)}
    (hp : opt.adaptive = false ∨ ∃ par cfg, w.ctrl = .base par cfg) (cw : W.Clean w.pert) {i : I}
    {v : O} (hcomp : compute B opt (pyCk B opt R e N sched) fuel w i = (w1, .ok v))
    (hhit : B.cacheHit (B.load w.tis.disc i) i = true) (dO : O) (dI : I) :
    ∃ new, (rev B opt (pyCk B opt R e N sched) fuel w1 i dO dI).1.log = w1.log ++ new ∧
      revEvents new = revCalls opt.revCallbacks (N + 1) := by
  obtain ⟨hcapo, sl, hlf, hlr⟩ := hl
  obtain ⟨g1, g2, g3, g4, -⟩ := py_compute_good L hlf hp hcomp
  obtain ⟨x, -, -, -, -, hr, ha⟩ := g1 _ g2
  obtain ⟨-, k2, -, -, k5⟩ := pyReverse_at L hp hcapo hlr hr ha (p := B.seed w1.pert dO)
    (W.seed_clean _ _ (by rw [g4]; exact cw))
  rw [← g3] at k2 k5
  have hca : cacheOk B w1 i = true := by rw [cacheOk, g2]; exact hhit
  refine ⟨_, ?_, k5⟩
  simp only [rev, revPrep, hca, if_true, pyCk, k2]

example : revCalls 1 3 = [(true, 0, 3), (false, 0, 3), (true, 0, 2), (false, 0, 2), (true, 0, 1),
    (false, 0, 1)] := by decide

/-! ### C14 and C36 -/

/-- C14 for pyrevolve (plain schemes): forward product and reverse product of components with
pyrevolve are transposes of each other, for every legal schedule (see C33 for what is missing). -/
theorem C14_pyrevolve_transpose_partial (E : Env s n m o l) (hz : NoStageState E.ode)
    (hadj : ∀ lin h i, AdjointPair E.ode lin h (E.T.A i i)) {N fuel fuel' : ℕ}
    {sched : Schedule} (hl : Legal N sched) (hN : opt.crit = .steps (N + 1)) (hf : N + 1 < fuel)
    {e : IState (RKState ℝ s n m o l)}
    {w w' : World (RKState ℝ s n m o l) (PyData (RKState ℝ s n m o l))}
    (hp : opt.adaptive = false ∨ ∃ par cfg, w.ctrl = .base par cfg) (hc : w'.ctrl = w.ctrl)
    (hw : w.cached = none) (cw : w.pert.stageStates = 0)
    {i di dI g : StartingValues ℝ n m} {dO dO0 v : Outputs n}
    (hfw : (fwd (rkBackend E) opt fuel' w' i di dO0).2 = .ok v)
    (hr : (rev (rkBackend E) opt (pyCk (rkBackend E) opt rkRestore e N sched) fuel w i dO dI).2
      = .ok g) :
    dot dO.values v.values + dO.time * (v.time - dO0.time)
      = dot g.initialValues di.initialValues + (g.initialTime - dI.initialTime) * di.initialTime
        + dot g.independentInputs di.independentInputs := by
  rw [C33_pyrevolve_reverse_partial E hz hl hN hf
    (w0 := ⟨w.tis, w.pert, w.ctrl, none, [], []⟩) hp rfl hw rfl cw cw] at hr
  exact C14_reverse_is_transpose_partial E hz hadj hc (by simp [cacheOk])
    (Prod.ext rfl hfw) (Prod.ext rfl hr)

/-- After a reverse product that worked nothing is cached, and controller and perturbations are as
before in all that matters. -/
theorem py_rev_keeps {W : Lawful B} {R : Restore D} (L : LawfulRestore W R) {N fuel : ℕ}
    {sched : Schedule} (hl : Legal N sched) {e : IState D} {w w' : World D (PyData D)}
    (hp : Plain opt w.ctrl) (hw : w.cached = none) (cw : W.Clean w.pert) {i dI g : I} {dO : O}
    (h : rev B opt (pyCk B opt R e N sched) fuel w i dO dI = (w', .ok g)) :
    w'.ctrl = w.ctrl ∧ w'.cached = none ∧ W.Clean w'.pert := by
  obtain ⟨hcapo, sl, hlf, hlr⟩ := hl
  have hca : cacheOk B w i = false := by simp [cacheOk, hw]
  rcases hcomp : compute B opt (pyCk B opt R e N sched) fuel w i with ⟨w1, e1 | v⟩
  · simp [rev, revPrep, hca, hcomp] at h
  · obtain ⟨g1, g2, g3, g4, -⟩ := py_compute_good L hlf hp hcomp
    obtain ⟨x, -, -, -, -, hr, ha⟩ := g1 _ g2
    obtain ⟨k1, k2, k3, -, -⟩ := pyReverse_at L hp hcapo hlr hr ha (p := B.seed w1.pert dO)
      (W.seed_clean _ _ (by rw [g4]; exact cw))
    rw [← g3] at k1 k2 k3
    simp only [rev, revPrep, hca, hcomp, Bool.false_eq_true, if_false] at h
    simp only [pyCk, k2, Prod.mk.injEq] at h
    obtain ⟨rfl, -⟩ := h
    exact ⟨k1.trans g3, rfl, k3⟩

/-- C36 for pyrevolve (plain schemes): if a reverse product of a component without cached inputs
returns `g`, then so does each of any number of repetitions. -/
theorem C36_pyrevolve_repetitions_partial (E : Env s n m o l) (hz : NoStageState E.ode) {N fuel : ℕ}
    {sched : Schedule} (hl : Legal N sched) (hN : opt.crit = .steps (N + 1)) (hf : N + 1 < fuel)
    {e : IState (RKState ℝ s n m o l)}
    {w : World (RKState ℝ s n m o l) (PyData (RKState ℝ s n m o l))}
    (hp : opt.adaptive = false ∨ ∃ par cfg, w.ctrl = .base par cfg)
    (hw : w.cached = none) (cw : w.pert.stageStates = 0)
    {i dI g : StartingValues ℝ n m} {dO : Outputs n}
    (hg : (rev (rkBackend E) opt (pyCk (rkBackend E) opt rkRestore e N sched) fuel w i dO dI).2
      = .ok g) (k : ℕ) :
    (rev (rkBackend E) opt (pyCk (rkBackend E) opt rkRestore e N sched) fuel
      (doOps (rkBackend E) opt (pyCk (rkBackend E) opt rkRestore e N sched) fuel w
        (List.replicate k (.rev i dO dI))) i dO dI).2 = .ok g := by
  induction k generalizing w with
  | zero => exact hg
  | succ k ih =>
    have hk := py_rev_keeps (rkRestore_lawful E hz) hl hp hw cw (Prod.ext rfl hg)
    refine ih (w := (rev (rkBackend E) opt (pyCk (rkBackend E) opt rkRestore e N sched) fuel w i dO
      dI).1) (by rw [hk.1]; exact hp) hk.2.1 hk.2.2 ?_
    rw [C33_pyrevolve_reverse_partial E hz hl hN hf
      (w0 := ⟨w.tis, w.pert, w.ctrl, none, [], []⟩) (by rw [hk.1]; exact hp) hk.1 hk.2.1 rfl
      hk.2.2 cw]
    rw [C33_pyrevolve_reverse_partial E hz hl hN hf
      (w0 := ⟨w.tis, w.pert, w.ctrl, none, [], []⟩) hp rfl hw rfl cw cw] at hg
    exact hg

/-! ### C35 -/

/-- Two steps of size 1. -/
noncomputable def optTwo : Options := { adaptive := false, crit := .steps 2, initialStep := fin 1 }

/-- One step of explicit Euler for `y' = t y`. -/
noncomputable def timeTo (x : IState (RKState ℝ 1 1 1 0 2)) : IState (RKState ℝ 1 1 1 0 2) :=
  { x with disc := computeStep envTime.T envTime.ode x.disc 1, stepHist := (x.sugg, x.stepHist.2) }

theorem timeTo_iterate (c : Ctrl) (x : IState (RKState ℝ 1 1 1 0 2)) (hx : x.sugg = fin 1) :
    iterateOnStep (rkBackend envTime) optTwo optTwo.recursionLimit c x = (c, timeTo x, .ok ()) := by
  have hrl : optTwo.recursionLimit = 899 + 1 := rfl
  rw [hrl, iterate_fixed rfl, hx]
  simp only [timeTo, hx]
  rfl

theorem timeTo_runStep (it : ℕ) (c : Ctrl) (x : IState (RKState ℝ 1 1 1 0 2))
    (hx : x.sugg = fin 1) :
    ∃ log, runStep (rkBackend envTime) optTwo it c x = ⟨c, timeTo x, log, .ok ()⟩ := by
  simp only [runStep, timeTo_iterate c x hx]
  exact ⟨_, rfl⟩

theorem timeTo_time (x : IState (RKState ℝ 1 1 1 0 2)) :
    (timeTo x).disc.finalTime = x.disc.finalTime + 1 := by
  simp [timeTo, computeStep, computeStage, shiftState, envTime, List.finRange]

theorem timeTo_lin (x : IState (RKState ℝ 1 1 1 0 2)) :
    (timeTo x).disc.linearizationPoints 0 0 = x.disc.finalTime := by
  simp [timeTo, computeStep, computeStage, shiftState, envTime, timeOde, Integrator.Ex.euler,
    List.finRange, accumulateStages]

theorem timeTo_adj (x p : RKState ℝ 1 1 1 0 2) :
    (computeStepAdjoint envTime.T envTime.ode x p 1).finalState 0
      = (1 + x.linearizationPoints 0 0) * p.finalState 0 := by
  simp [computeStepAdjoint, computeStageAdjoint, shiftStateReverse, List.finRange, envTime,
    timeOde, Integrator.Ex.euler]
  ring

/-- C35 is violated by pyrevolve: the first step of the reverse sweep uses the state the component
holds (pyrevolve_checkpointer.py L101-105, L191), and a forward product at other inputs replaces it
while the checkpoints stay valid (runge_kutta_integrator.py L658-712). For `y' = t y` and two steps
of explicit Euler of size 1 from `y = 1` at `t = 0`, seed 1: after `compute` the reverse product is
2, which is right. With a forward product at `t = 5` in between it is 7. -/
theorem C35_pyrevolve_live_state_violated :
    let B := rkBackend envTime
    let ck := pyCk B optTwo rkRestore ⟨RKState.empty, fin 1, (0, 0), (0, 0)⟩ 1 (single 0)
    let w := freshWorld optTwo ck RKState.empty Integrator.Ex.ctrl
    let dO : Outputs 1 := ⟨0, fun _ => 1⟩
    let z : StartingValues ℝ 1 1 := ⟨0, 0, 0⟩
    (∃ g, (rev B optTwo ck 5 (doOps B optTwo ck 5 w [.compute (atTime 0)]) (atTime 0) dO z).2 = .ok g ∧
      g.initialValues 0 = 2) ∧
    (∃ g, (rev B optTwo ck 5 (doOps B optTwo ck 5 w [.compute (atTime 0), .fwd (atTime 5) z dO])
        (atTime 0) dO z).2 = .ok g ∧ g.initialValues 0 = 7) := by
  intro B ck w dO z
  have hone : ∀ (it : ℕ) (c : Ctrl) (x : IState (RKState ℝ 1 1 1 0 2)), x.sugg = fin 1 →
      ∃ log, fwdApply B optTwo it 1 c x = ⟨c, timeTo x, log, .ok ()⟩ := by
    intro it c x hx
    obtain ⟨log, h⟩ := timeTo_runStep it c x hx
    exact ⟨log ++ [], by simp only [fwdApply, B, h]⟩
  have hcomp : ∃ log w1, doOps B optTwo ck 5 w [.compute (atTime 0)] = w1 ∧ w1 = ⟨
      timeTo (timeTo (startOf B optTwo w.ctrl w.tis.disc (atTime 0))), w.pert, w.ctrl,
      some (B.load w.tis.disc (atTime 0)),
      ⟨timeTo (startOf B optTwo w.ctrl w.tis.disc (atTime 0)),
        Function.update (fun _ => none) 0
          (some (timeTo (startOf B optTwo w.ctrl w.tis.disc (atTime 0))))⟩, log⟩ := by
    obtain ⟨l1, h1⟩ := hone 0 w.ctrl (startOf B optTwo w.ctrl w.tis.disc (atTime 0)) rfl
    obtain ⟨l2, h2⟩ := hone 1 w.ctrl (timeTo (startOf B optTwo w.ctrl w.tis.disc (atTime 0))) rfl
    refine ⟨l1 ++ l2, _, rfl, ?_⟩
    simp only [startOf] at h1 h2
    simp only [doOps, List.foldl, doOp, compute, resetErrorControl, ck, pyCk, pyForward, h1, single,
      applyForward, Nat.sub_zero, Nat.zero_add, h2]
    rfl
  have hrev : ∀ (w1 : World (RKState ℝ 1 1 1 0 2) (PyData (RKState ℝ 1 1 1 0 2)))
      (x : IState (RKState ℝ 1 1 1 0 2)) (t : ℝ), w1.cached = some (B.load w.tis.disc (atTime 0)) →
      w1.ck.first = timeTo (startOf B optTwo w.ctrl w.tis.disc (atTime 0)) →
      w1.tis = timeTo x → x.sugg = fin 1 → x.disc.finalTime = t →
      ∃ g, (rev B optTwo ck 5 w1 (atTime 0) dO z).2 = .ok g ∧ g.initialValues 0 = 1 + t := by
    intro w1 x t hca hfi hx hs ht
    have hok : cacheOk B w1 (atTime 0) = true := by
      simp [cacheOk, hca, rkCacheHit, rkLoad, B, rkBackend, atTime]
    refine ⟨B.writeIn (B.adj w1.ck.first.disc
      (B.adj w1.tis.disc (B.seed w1.pert dO) w1.tis.stepHist.1) w1.ck.first.stepHist.1) z, ?_, ?_⟩
    · simp only [rev, revPrep, hok, if_true, ck, pyCk, pyReverse, single, replay, applyReverse]
      rfl
    · have e1 : w1.ck.first.stepHist.1 = fin 1 := by rw [hfi]; rfl
      have e2 : w1.tis.stepHist.1 = fin 1 := by rw [hx]; exact hs
      rw [e1, e2]
      change (computeStepAdjoint envTime.T envTime.ode w1.ck.first.disc
        (computeStepAdjoint envTime.T envTime.ode w1.tis.disc (rkSeed w1.pert dO) 1)
        1).finalState 0 = _
      rw [timeTo_adj, timeTo_adj, hfi, hx, timeTo_lin, timeTo_lin, ht]
      simp [startOf, B, rkBackend, rkLoad, atTime, rkSeed, dO]
  obtain ⟨log, w1, h1, h2⟩ := hcomp
  constructor
  · rw [h1]
    obtain ⟨g, hg, hv⟩ := hrev w1 _ 1 (by rw [h2]) (by rw [h2]) (by rw [h2]) rfl (by
      rw [timeTo_time]
      simp [startOf, B, rkBackend, rkLoad, atTime])
    exact ⟨g, hg, by rw [hv]; norm_num⟩
  · have hd : doOps B optTwo ck 5 w [.compute (atTime 0), .fwd (atTime 5) z dO]
        = (fwd B optTwo 5 w1 (atTime 5) z dO).1 := by
      rw [← h1]; rfl
    have hrun : Run B optTwo 0 w1.ctrl (startOfFwd B optTwo w1.ctrl w1.tis.disc (atTime 5))
        [(w1.ctrl, timeTo (startOfFwd B optTwo w1.ctrl w1.tis.disc (atTime 5))),
          (w1.ctrl, timeTo (timeTo (startOfFwd B optTwo w1.ctrl w1.tis.disc (atTime 5))))] :=
      .step (by simp [optTwo, Crit.finished]) (timeTo_iterate _ _ rfl)
        (.step (by simp [optTwo, Crit.finished]) (timeTo_iterate _ _ rfl)
          (.done (by simp [optTwo, Crit.finished])))
    have hl := fwdLoop_of_run hrun (fuel := 5) (by simp) (B.load w1.pert z)
    have hw : (fwd B optTwo 5 w1 (atTime 5) z dO).1.tis
        = timeTo (timeTo (startOfFwd B optTwo w1.ctrl w1.tis.disc (atTime 5))) := by
      simp only [fwd, resetErrorControl]
      simp only [startOfFwd] at hl ⊢
      rw [hl]
      rfl
    have hw1 : (fwd B optTwo 5 w1 (atTime 5) z dO).1.cached = w1.cached := by
      simp only [fwd]; split <;> rfl
    have hw2 : (fwd B optTwo 5 w1 (atTime 5) z dO).1.ck = w1.ck := by
      simp only [fwd]; split <;> rfl
    rw [hd]
    obtain ⟨g, hg, hv⟩ := hrev _ _ 6 (by rw [hw1, h2]) (by rw [hw2, h2]) hw rfl (by
      rw [timeTo_time]
      simp only [startOfFwd, B, rkBackend, rkLoad, atTime]
      norm_num)
    exact ⟨g, hg, by rw [hv]; norm_num⟩

end Verif.Props
