/-
Properties of the component with pyrevolve on several MPI ranks (C79, C80).
-/
import Verif.Parallel.Pyrevolve
import Verif.Integrator.PyrevolveRK
import Verif.Props.Parallel
import Verif.Props.Pyrevolve

namespace Verif.Props

open Verif.RK Verif.Control Verif.XReal Verif.Integrator Verif.Parallel
open Classical

variable {R s n m o l : ℕ} {opt : Options} {opts : Fin R → Options}

/-- A component on the ranks that corresponds to one on a single rank: every rank has its part of
the states, of the first state and of what is in every slot, the same step sizes, errors and
controller. -/
def PlainPyParts (Y : Layout R n m o l)
    (w : World (RKState ℝ s n m o l) (PyData (RKState ℝ s n m o l)))
    (ww : ∀ r, World (Y.State s r) (PyData (Y.State s r))) : Prop :=
  JWP (fun d dd => dd = Y.part d) w ww

/-- The same for embedded schemes. -/
def EmbPyParts (Y : Layout R n m o l)
    (w : World (EmbRKState ℝ s n m o l) (PyData (EmbRKState ℝ s n m o l)))
    (ww : ∀ r, World (Y.EmbState s r) (PyData (Y.EmbState s r))) : Prop :=
  JWP (fun d dd => dd = Y.embPart d) w ww

theorem rkPartsRestore (Y : Layout R n m o l) :
    PartsRestore (fun (d : RKState ℝ s n m o l) dd => dd = Y.part d) rkRestore
      fun _ => rkRestore := by
  rintro a aa b bb rfl rfl
  rfl

theorem embPartsRestore (Y : Layout R n m o l) :
    PartsRestore (fun (d : EmbRKState ℝ s n m o l) dd => dd = Y.embPart d) embRestore
      fun _ => embRestore := by
  rintro a aa b bb rfl rfl
  rfl

/-- The copy of the integration state a revolver gets when the component is made. -/
def firstCopy {D : Type} (opt : Options) (empty : D) (c : Ctrl) : IState D :=
  ⟨empty, opt.initialStep, (0, 0), (c.config.tol, c.config.tol)⟩

/-! ### C79 -/

/-- C79 with pyrevolve, the beginning: after `setup` the components of the ranks correspond to one
on a single rank. -/
theorem C79_pyrevolve_setup (Y : Layout R n m o l) (E : Env s n m o l) (bhat : Fin s → ℝ)
    (ho : ∀ r, SameOptions opt (opts r)) (pl : Plan) (c : Ctrl) :
    PlainPyParts Y (freshWorld opt (pyCk (rkBackend E) opt rkRestore
        (firstCopy opt RKState.empty c) pl.n pl.sched) RKState.empty c)
      (fun r => freshPyP (opts r) RKState.empty c) ∧
    EmbPyParts Y (freshWorld opt (pyCk (embBackend E bhat) opt embRestore
        (firstCopy opt EmbRKState.empty c) pl.n pl.sched) EmbRKState.empty c)
      (fun r => freshPyP (opts r) EmbRKState.empty c) :=
  ⟨⟨⟨rfl, fun r => (ho r).initialStep, fun _ => rfl, fun _ => rfl⟩, rfl, fun _ => rfl,
      fun _ => rfl, ⟨rfl, fun r => (ho r).initialStep, fun _ => rfl, fun _ => rfl⟩,
      fun _ _ _ => rfl, fun _ _ h => by cases h⟩,
    ⟨⟨rfl, fun r => (ho r).initialStep, fun _ => rfl, fun _ => rfl⟩, rfl, fun _ => rfl,
      fun _ => rfl, ⟨rfl, fun r => (ho r).initialStep, fun _ => rfl, fun _ => rfl⟩,
      fun _ _ _ => rfl, fun _ _ h => by cases h⟩⟩

/-- C79 with pyrevolve: whatever the schedule is, `compute` and forward products run on all ranks.
All ranks try the same steps, and each gets its part of what a single rank would get, or the same
exception. -/
theorem C79_pyrevolve [NeZero R] {Y : Layout R n m o l} {je : JointEnv Y s} {E : Env s n m o l}
    (H : je.Solves E) (bhat : Fin s → ℝ) (ho : ∀ r, SameOptions opt (opts r)) (pl : Plan)
    (fuel : ℕ) (i di : StartingValues ℝ n m) (v : Outputs n) :
    (∀ (e : IState (RKState ℝ s n m o l))
      (w : World (RKState ℝ s n m o l) (PyData (RKState ℝ s n m o l)))
      (ww : ∀ r, World (Y.State s r) (PyData (Y.State s r))), PlainPyParts Y w ww →
      let ck := pyCk (rkBackend E) opt rkRestore e pl.n pl.sched
      (∃ out, RunsTo (rkCollective je)
          (fun r => computePyP rkLocal (opts r) rkRestore pl (ww r) (Y.inputs i r)) out ∧
        PlainPyParts Y (compute (rkBackend E) opt ck fuel w i).1 (fun r => (out r).1) ∧
        SameOutcome Y.outputs (compute (rkBackend E) opt ck fuel w i).2 fun r => (out r).2) ∧
      ∃ out, RunsTo (rkCollective je)
          (fun r => fwdP rkLocal (opts r) fuel (ww r) (Y.inputs i r) (Y.inputs di r)
            (Y.outputs v r)) out ∧
        PlainPyParts Y (fwd (rkBackend E) opt fuel w i di v).1 (fun r => (out r).1) ∧
        SameOutcome Y.outputs (fwd (rkBackend E) opt fuel w i di v).2 fun r => (out r).2) ∧
    (∀ (e : IState (EmbRKState ℝ s n m o l))
      (w : World (EmbRKState ℝ s n m o l) (PyData (EmbRKState ℝ s n m o l)))
      (ww : ∀ r, World (Y.EmbState s r) (PyData (Y.EmbState s r))), EmbPyParts Y w ww →
      let ck := pyCk (embBackend E bhat) opt embRestore e pl.n pl.sched
      (∃ out, RunsTo (embCollective je bhat)
          (fun r => computePyP embLocal (opts r) embRestore pl (ww r) (Y.inputs i r)) out ∧
        EmbPyParts Y (compute (embBackend E bhat) opt ck fuel w i).1 (fun r => (out r).1) ∧
        SameOutcome Y.outputs (compute (embBackend E bhat) opt ck fuel w i).2
          fun r => (out r).2) ∧
      ∃ out, RunsTo (embCollective je bhat)
          (fun r => fwdP embLocal (opts r) fuel (ww r) (Y.inputs i r) (Y.inputs di r)
            (Y.outputs v r)) out ∧
        EmbPyParts Y (fwd (embBackend E bhat) opt fuel w i di v).1 (fun r => (out r).1) ∧
        SameOutcome Y.outputs (fwd (embBackend E bhat) opt fuel w i di v).2
          fun r => (out r).2) := by
  refine ⟨fun e w ww hw => ⟨?_, ?_⟩, fun e w ww hw => ⟨?_, ?_⟩⟩
  · obtain ⟨out, h1, h2, h3⟩ := runsTo_of_lock (lock_computePy (rkParts H) ho
      (rkPartsRestore Y) pl hw (i := i) rfl)
    rw [computePyP_run e pl fuel] at h2 h3
    exact ⟨out, h1, h2, sameOutcome h3⟩
  · obtain ⟨out, h1, h2, h3⟩ := runsTo_of_lock (lock_fwdPy (rkParts H) ho fuel hw
      (i := i) (di := di) (v := v) rfl rfl rfl)
    rw [fwdP_run] at h2 h3
    exact ⟨out, h1, h2, sameOutcome h3⟩
  · obtain ⟨out, h1, h2, h3⟩ := runsTo_of_lock (lock_computePy (embParts H bhat) ho
      (embPartsRestore Y) pl hw (i := i) rfl)
    rw [computePyP_run e pl fuel] at h2 h3
    exact ⟨out, h1, h2, sameOutcome h3⟩
  · obtain ⟨out, h1, h2, h3⟩ := runsTo_of_lock (lock_fwdPy (embParts H bhat) ho fuel hw
      (i := i) (di := di) (v := v) rfl rfl rfl)
    rw [fwdP_run] at h2 h3
    exact ⟨out, h1, h2, sameOutcome h3⟩

/-! ### C80 -/

/-- C80 with pyrevolve, what holds for single products: if the inputs of all ranks are as cached, or
those of none, a reverse product runs on all ranks: they load the same slots, repeat the same steps
and do the same adjoint steps, and each gets its part of what a single rank would get. Missing:
inputs that are as cached on some of the ranks only. -/
theorem C80_pyrevolve_reverse_partial [NeZero R] {Y : Layout R n m o l} {je : JointEnv Y s}
    {E : Env s n m o l} (H : je.Solves E) (bhat : Fin s → ℝ)
    (ho : ∀ r, SameOptions opt (opts r)) (pl : Plan) (fuel : ℕ)
    (i di : StartingValues ℝ n m) (v : Outputs n) :
    (∀ (e : IState (RKState ℝ s n m o l))
      (w : World (RKState ℝ s n m o l) (PyData (RKState ℝ s n m o l)))
      (ww : ∀ r, World (Y.State s r) (PyData (Y.State s r))), PlainPyParts Y w ww →
      (∀ r r', cacheOkP rkLocal (ww r) (Y.inputs i r) = cacheOkP rkLocal (ww r') (Y.inputs i r')) →
      let ck := pyCk (rkBackend E) opt rkRestore e pl.n pl.sched
      ∃ out, RunsTo (rkCollective je)
          (fun r => revPyP rkLocal (opts r) rkRestore pl (ww r) (Y.inputs i r) (Y.outputs v r)
            (Y.inputs di r)) out ∧
        PlainPyParts Y (rev (rkBackend E) opt ck fuel w i v di).1 (fun r => (out r).1) ∧
        SameOutcome Y.inputs (rev (rkBackend E) opt ck fuel w i v di).2 fun r => (out r).2) ∧
    (∀ (e : IState (EmbRKState ℝ s n m o l))
      (w : World (EmbRKState ℝ s n m o l) (PyData (EmbRKState ℝ s n m o l)))
      (ww : ∀ r, World (Y.EmbState s r) (PyData (Y.EmbState s r))), EmbPyParts Y w ww →
      (∀ r r', cacheOkP embLocal (ww r) (Y.inputs i r)
        = cacheOkP embLocal (ww r') (Y.inputs i r')) →
      let ck := pyCk (embBackend E bhat) opt embRestore e pl.n pl.sched
      ∃ out, RunsTo (embCollective je bhat)
          (fun r => revPyP embLocal (opts r) embRestore pl (ww r) (Y.inputs i r) (Y.outputs v r)
            (Y.inputs di r)) out ∧
        EmbPyParts Y (rev (embBackend E bhat) opt ck fuel w i v di).1 (fun r => (out r).1) ∧
        SameOutcome Y.inputs (rev (embBackend E bhat) opt ck fuel w i v di).2
          fun r => (out r).2) := by
  constructor
  · intro e w ww hw hc
    obtain ⟨out, h1, h2, h3⟩ := runsTo_of_lock (lock_revPy (rkParts H) ho (rkPartsRestore Y) pl hw
      (i := i) (di := di) (v := v) rfl rfl rfl (cache_agrees_py (rkParts H) hw rfl hc))
    rw [revPyP_run e pl fuel] at h2 h3
    exact ⟨out, h1, h2, sameOutcome h3⟩
  · intro e w ww hw hc
    obtain ⟨out, h1, h2, h3⟩ := runsTo_of_lock (lock_revPy (embParts H bhat) ho (embPartsRestore Y)
      pl hw (i := i) (di := di) (v := v) rfl rfl rfl (cache_agrees_py (embParts H bhat) hw rfl hc))
    rw [revPyP_run e pl fuel] at h2 h3
    exact ⟨out, h1, h2, sameOutcome h3⟩

/-- C80 with pyrevolve, what holds for sequences of operations after `setup`: if every reverse
product is asked for with the inputs of the last `compute` (or of the last reverse product), all
operations run on all ranks, with the same steps, and leave the ranks with their parts of what a
single rank has then. Missing: reverse products with other inputs. -/
theorem C80_pyrevolve_sequence_partial [NeZero R] {Y : Layout R n m o l} {je : JointEnv Y s}
    {E : Env s n m o l} (H : je.Solves E) (bhat : Fin s → ℝ)
    (ho : ∀ r, SameOptions opt (opts r)) (pl : Plan) (fuel : ℕ) (c : Ctrl)
    (ops : List (Op (StartingValues ℝ n m) (Outputs n))) (hops : Current none ops) :
    (let ck := pyCk (rkBackend E) opt rkRestore (firstCopy opt RKState.empty c) pl.n pl.sched
      ∃ out, RunsTo (rkCollective je) (fun r => opsPyP rkLocal (opts r) rkRestore pl fuel
          (freshPyP (opts r) RKState.empty c) (ops.map (opPart Y r))) out ∧
        PlainPyParts Y (doOps (rkBackend E) opt ck fuel
          (freshWorld opt ck RKState.empty c) ops) out) ∧
    (let ck := pyCk (embBackend E bhat) opt embRestore (firstCopy opt EmbRKState.empty c) pl.n
        pl.sched
      ∃ out, RunsTo (embCollective je bhat) (fun r => opsPyP embLocal (opts r) embRestore pl fuel
          (freshPyP (opts r) EmbRKState.empty c) (ops.map (opPart Y r))) out ∧
        EmbPyParts Y (doOps (embBackend E bhat) opt ck fuel
          (freshWorld opt ck EmbRKState.empty c) ops) out) := by
  obtain ⟨h1, h2⟩ := C79_pyrevolve_setup Y E bhat ho pl c
  constructor
  · obtain ⟨out, h3, h4⟩ := runsTo_of_lock (lock_opsPy (rkParts H) ho (rkPartsRestore Y) pl
      (firstCopy opt RKState.empty c) fuel
      (fun d i => decide_eq_true ⟨rfl, rfl⟩) (jops_parts Y ops) hops h1 (.inl rfl))
    rw [opsPyP_run (firstCopy opt RKState.empty c) pl] at h4
    exact ⟨out, h3, h4⟩
  · obtain ⟨out, h3, h4⟩ := runsTo_of_lock (lock_opsPy (embParts H bhat) ho (embPartsRestore Y) pl
      (firstCopy opt EmbRKState.empty c) fuel
      (fun d i => decide_eq_true ⟨rfl, rfl⟩) (jops_parts Y ops) hops h2 (.inl rfl))
    rw [opsPyP_run (firstCopy opt EmbRKState.empty c) pl] at h4
    exact ⟨out, h3, h4⟩

/-- C79 with pyrevolve, sequences: any sequence of computations and forward products after `setup`
runs on all ranks, and leaves them with their parts of what a single rank has then. -/
theorem C79_pyrevolve_sequence [NeZero R] {Y : Layout R n m o l} {je : JointEnv Y s}
    {E : Env s n m o l} (H : je.Solves E) (bhat : Fin s → ℝ)
    (ho : ∀ r, SameOptions opt (opts r)) (pl : Plan) (fuel : ℕ) (c : Ctrl)
    (ops : List (Op (StartingValues ℝ n m) (Outputs n)))
    (hops : ∀ op ∈ ops, ∀ i v di, op ≠ .rev i v di) :
    (let ck := pyCk (rkBackend E) opt rkRestore (firstCopy opt RKState.empty c) pl.n pl.sched
      ∃ out, RunsTo (rkCollective je) (fun r => opsPyP rkLocal (opts r) rkRestore pl fuel
          (freshPyP (opts r) RKState.empty c) (ops.map (opPart Y r))) out ∧
        PlainPyParts Y (doOps (rkBackend E) opt ck fuel
          (freshWorld opt ck RKState.empty c) ops) out) ∧
    (let ck := pyCk (embBackend E bhat) opt embRestore (firstCopy opt EmbRKState.empty c) pl.n
        pl.sched
      ∃ out, RunsTo (embCollective je bhat) (fun r => opsPyP embLocal (opts r) embRestore pl fuel
          (freshPyP (opts r) EmbRKState.empty c) (ops.map (opPart Y r))) out ∧
        EmbPyParts Y (doOps (embBackend E bhat) opt ck fuel
          (freshWorld opt ck EmbRKState.empty c) ops) out) :=
  C80_pyrevolve_sequence_partial H bhat ho pl fuel c ops (current_of_no_rev none hops)

theorem bind_bind_kind {D α β γ : Type} (P : Prog D α) (f : α → Prog D β) (g : β → Prog D γ)
    (h : P.kind ≠ 0) : ((P.bind f).bind g).kind = P.kind := by
  rw [bind_kind _ _ (by rw [bind_kind _ _ h]; exact h), bind_kind _ _ h]

/-- A rank whose inputs are as cached begins with the adjoint of the last step. -/
theorem revPy_hit_kind {D I O : Type} {L : Local D I O} {opt : Options} {T : Restore D} {pl : Plan}
    {w : World D (PyData D)} {i di : I} {v : O} (h : cacheOkP L w i = true) :
    (revPyP L opt T pl w i v di).kind = 4 := by
  simp only [revPyP, revPrepPyP, h, if_true, Prog.bind, pyReverseP, runStepRevP, Prog.kind]

/-- A rank whose inputs are not as cached begins with a step. -/
theorem revPy_miss_kind {D I O : Type} {L : Local D I O} {opt : Options} {T : Restore D} {pl : Plan}
    {w : World D (PyData D)} {i di : I} {v : O} (h : cacheOkP L w i = false)
    (hl : opt.recursionLimit ≠ 0) : (revPyP L opt T pl w i v di).kind = 1 := by
  obtain ⟨q, hq⟩ := Nat.exists_eq_succ_of_ne_zero hl
  simp only [revPyP, revPrepPyP, h, Bool.false_eq_true, if_false, computePyP, pyForwardP,
    fwdApplyP, runStepP, hq, iterateP, Prog.bind, Prog.kind]

/-- C80 does not hold with pyrevolve either: after `setup` and a computation, a reverse product with
inputs that are those of the computation on one rank, but not on another one, does not run to an end,
whatever the problem, the scheme, the schedule and the distribution of the data are. -/
theorem C80_pyrevolve_inputs_violated [NeZero R] {Y : Layout R n m o l} {je : JointEnv Y s}
    {E : Env s n m o l} (H : je.Solves E) (ho : ∀ r, SameOptions opt (opts r)) (pl : Plan)
    (hl : opt.recursionLimit ≠ 0) (fuel : ℕ) (c : Ctrl)
    {i j di : StartingValues ℝ n m} {v : Outputs n} {r0 r1 : Fin R}
    (h0 : (Y.inputs j r0).initialValues = (Y.inputs i r0).initialValues ∧
      (Y.inputs j r0).independentInputs = (Y.inputs i r0).independentInputs)
    (h1 : ¬ ((Y.inputs j r1).initialValues = (Y.inputs i r1).initialValues ∧
      (Y.inputs j r1).independentInputs = (Y.inputs i r1).independentInputs)) :
    ¬ ∃ calls out, Together (rkCollective je) (fun r => opsPyP rkLocal (opts r) rkRestore pl fuel
      (freshPyP (opts r) RKState.empty c)
      ([.compute i, .rev j v di].map (opPart Y r))) calls out := by
  rintro ⟨calls, out, t⟩
  obtain ⟨hw, -⟩ := C79_pyrevolve_setup (opts := opts) Y E (fun _ => 0) ho pl c
  obtain ⟨aa, tc, hr⟩ := lock_computePy (rkParts H) ho (rkPartsRestore Y) pl hw (i := i) rfl
  obtain ⟨hw', -⟩ := hr
  rw [computePyP_run (firstCopy opt RKState.empty c) pl fuel] at hw'
  have hca : ∀ r, ((aa r).1).cached = some (Y.part (rkLoad RKState.empty i) r) := by
    intro r
    have := hw'.cached
    rw [compute_cached] at this
    obtain ⟨dd, h2, h3⟩ := this
    exact (h2 r).trans (by rw [h3]; rfl)
  simp only [List.map, opPart, opsPyP, opPyP] at t
  have t1 := Together.bind (ff := fun r x => Prog.done x.1) tc (.done fun r => (aa r).1)
  obtain ⟨calls2, t2⟩ := Together.bind_inv _ (NeZero.pos R) t1 t
  have hk := t2.kinds r0 r1
  have k0 : (revPyP rkLocal (opts r0) rkRestore pl (aa r0).1 (Y.inputs j r0) (Y.outputs v r0)
      (Y.inputs di r0)).kind = 4 := by
    refine revPy_hit_kind ?_
    simp only [cacheOkP, hca]
    exact decide_eq_true ⟨h0.1.symm, h0.2.symm⟩
  have k1 : (revPyP rkLocal (opts r1) rkRestore pl (aa r1).1 (Y.inputs j r1) (Y.outputs v r1)
      (Y.inputs di r1)).kind = 1 := by
    refine revPy_miss_kind ?_ (by rw [(ho r1).recursionLimit]; exact hl)
    simp only [cacheOkP, hca]
    exact decide_eq_false fun h => h1 ⟨h.1.symm, h.2.symm⟩
  rw [bind_bind_kind _ _ _ (by rw [k0]; decide), bind_bind_kind _ _ _ (by rw [k1]; decide), k0, k1]
    at hk
  exact absurd hk (by decide)

/-! ### Concrete cases -/

/-- A schedule for three steps with one slot, on two ranks whose values depend on each other: a
computation, a forward and a reverse product. -/
example (fuel : ℕ) (i di : StartingValues ℝ 2 1) (v : Outputs 2) :
    ∃ out, RunsTo (rkCollective (jointOf ParEx.split ParEx.env)) (fun r => opsPyP rkLocal
        Integrator.Ex.opt3 rkRestore
        ⟨2, ⟨[.takeshot 0, .advance 0 1, .lastfw 1], 1, [.restore 0, .reverse 0]⟩⟩ fuel
        (freshPyP Integrator.Ex.opt3 RKState.empty Integrator.Ex.ctrl)
        ([Op.compute i, .fwd i di v, .rev i v di].map (opPart ParEx.split r))) out :=
  (C80_pyrevolve_sequence_partial (opts := fun _ => Integrator.Ex.opt3) (jointOf_solves _ _)
    (fun _ => 0) (fun _ => ⟨rfl, rfl, rfl, rfl⟩) _ fuel Integrator.Ex.ctrl _
    (.compute (.fwd (.rev (.inr rfl) (.nil _))))).1.imp fun _ h => h.1

/-- The second value has changed on the second rank, and the ranks wait for each other. -/
example (pl : Plan) : ¬ ∃ calls out, Together (rkCollective (jointOf ParEx.split ParEx.env))
    (fun r => opsPyP rkLocal Integrator.Ex.opt3 rkRestore pl 10
      (freshPyP Integrator.Ex.opt3 RKState.empty Integrator.Ex.ctrl)
      ([Op.compute (⟨0, fun _ => 1, 0⟩ : StartingValues ℝ 2 1),
        .rev ⟨0, ![1, 2], 0⟩ ⟨0, fun _ => 1⟩ ⟨0, 0, 0⟩].map (opPart ParEx.split r))) calls out :=
  C80_pyrevolve_inputs_violated (opts := fun _ => Integrator.Ex.opt3) (r0 := 0) (r1 := 1)
    (jointOf_solves _ _) (fun _ => ⟨rfl, rfl, rfl, rfl⟩) pl (by simp [Integrator.Ex.opt3]) _ _
    ⟨funext fun x => rfl, rfl⟩
    (fun h => by
      have := congrFun h.1 (0 : Fin 1)
      simp [Layout.inputs, ParEx.split] at this)

end Verif.Props
