/-
Properties of the component on several MPI ranks (C79, C80).
-/
import Verif.Parallel.RK
import Verif.Props.Norm
import Verif.Props.FinalTime

namespace Verif.Props

open Verif.RK Verif.Control Verif.XReal Verif.Integrator Verif.Parallel
open Classical

variable {R s n m o l : ℕ} {opt : Options} {opts : Fin R → Options}

/-- All ranks do an operation with the same step size. -/
def SameStep : Call R → Prop
  | .step h => ∃ x, ∀ r, h r = x
  | .measure => True
  | .deriv h => ∃ x, ∀ r, h r = x
  | .adj h => ∃ x, ∀ r, h r = x

/-- The programs of the ranks run to their ends without waiting for each other for ever, with the
results `out`; in every operation the step sizes of the ranks agree; there is no other way to run
them. -/
def RunsTo {DD αα : Fin R → Type} (C : Collective DD) (PP : ∀ r, Prog (DD r) (αα r))
    (out : ∀ r, αα r) : Prop :=
  ∃ calls, Together C PP calls out ∧ (∀ c ∈ calls, SameStep c) ∧
    ∀ calls' out', Together C PP calls' out' → calls' = calls ∧ out' = out

/-- A component on the ranks that corresponds to one on a single rank: every rank has its part of
the states, the same step sizes, errors and controller, and parts of what is stored. -/
def PlainParts (Y : Layout R n m o l) {ch : Choice}
    (w : World (RKState ℝ s n m o l) (ch.Data (RKState ℝ s n m o l)))
    (ww : ∀ r, World (Y.State s r) (ch.Data (Y.State s r))) : Prop :=
  JW (fun d dd => dd = Y.part d) w ww

/-- The same for embedded schemes. -/
def EmbParts (Y : Layout R n m o l) {ch : Choice}
    (w : World (EmbRKState ℝ s n m o l) (ch.Data (EmbRKState ℝ s n m o l)))
    (ww : ∀ r, World (Y.EmbState s r) (ch.Data (Y.EmbState s r))) : Prop :=
  JW (fun d dd => dd = Y.embPart d) w ww

/-- The same outcome on all ranks: the same exception, or parts of the result. -/
def SameOutcome {V : Type} {VV : Fin R → Type} (part : V → ∀ r, VV r) (a : Except Err V)
    (aa : ∀ r, Except Err (VV r)) : Prop :=
  ∀ r, aa r = a.map fun v => part v r

theorem sameOutcome {V : Type} {VV : Fin R → Type} {part : V → ∀ r, VV r} {a : Except Err V}
    {aa : ∀ r, Except Err (VV r)} (h : JE (fun v vv => vv = part v) a aa) :
    SameOutcome part a aa := by
  intro r
  rcases a with e | v
  · exact h r
  · obtain ⟨uu, h1, rfl⟩ := h
    exact h1 r

theorem runsTo_of_lock {D I O α : Type} {DD αα : Fin R → Type} [NeZero R] {B : Backend D I O}
    {C : Collective DD} {rel : α → (∀ r, αα r) → Prop} {P : Prog D α}
    {PP : ∀ r, Prog (DD r) (αα r)} (h : Lock B C rel P PP) :
    ∃ out, RunsTo C PP out ∧ rel (P.run B) out := by
  obtain ⟨out, t, ho⟩ := h
  refine ⟨out, ⟨_, t, fun c hc => ?_, fun calls' out' t' => ?_⟩, ho⟩
  · obtain ⟨c', -, rfl⟩ := List.mem_map.mp hc
    cases c' <;> first | trivial | exact ⟨_, fun _ => rfl⟩
  · exact t'.unique (NeZero.pos R) t

/-! ### C79 -/

/-- C79, plain schemes: `compute` and forward products run on all ranks. All ranks try the same
steps, and each gets its part of what a single rank would get, or the same exception. -/
theorem C79_plain [NeZero R] {Y : Layout R n m o l} {je : JointEnv Y s} {E : Env s n m o l}
    (H : je.Solves E) (ho : ∀ r, SameOptions opt (opts r)) {ch : Choice} (fuel : ℕ)
    {w : World (RKState ℝ s n m o l) (ch.Data (RKState ℝ s n m o l))}
    {ww : ∀ r, World (Y.State s r) (ch.Data (Y.State s r))} (hw : PlainParts Y w ww)
    (i di : StartingValues ℝ n m) (v : Outputs n) :
    (∃ out, RunsTo (rkCollective je)
        (fun r => computeP rkLocal (opts r) ch fuel (ww r) (Y.inputs i r)) out ∧
      PlainParts Y (compute (rkBackend E) opt (ch.ck (rkBackend E) opt) fuel w i).1
        (fun r => (out r).1) ∧
      SameOutcome Y.outputs (compute (rkBackend E) opt (ch.ck (rkBackend E) opt) fuel w i).2
        fun r => (out r).2) ∧
    ∃ out, RunsTo (rkCollective je)
        (fun r => fwdP rkLocal (opts r) fuel (ww r) (Y.inputs i r) (Y.inputs di r)
          (Y.outputs v r)) out ∧
      PlainParts Y (fwd (rkBackend E) opt fuel w i di v).1 (fun r => (out r).1) ∧
      SameOutcome Y.outputs (fwd (rkBackend E) opt fuel w i di v).2 fun r => (out r).2 := by
  constructor
  · obtain ⟨out, h1, h2, h3⟩ := runsTo_of_lock (lock_compute (rkParts H) ho ch fuel hw
      (i := i) rfl)
    rw [computeP_run] at h2 h3
    exact ⟨out, h1, h2, sameOutcome h3⟩
  · obtain ⟨out, h1, h2, h3⟩ := runsTo_of_lock (lock_fwd (rkParts H) ho fuel hw
      (i := i) (di := di) (v := v) rfl rfl rfl)
    rw [fwdP_run] at h2 h3
    exact ⟨out, h1, h2, sameOutcome h3⟩

/-- C79, embedded schemes: the same, with fixed or adaptive steps. All ranks accept and reject the
same steps. -/
theorem C79_embedded [NeZero R] {Y : Layout R n m o l} {je : JointEnv Y s} {E : Env s n m o l}
    (H : je.Solves E) (bhat : Fin s → ℝ) (ho : ∀ r, SameOptions opt (opts r)) {ch : Choice}
    (fuel : ℕ) {w : World (EmbRKState ℝ s n m o l) (ch.Data (EmbRKState ℝ s n m o l))}
    {ww : ∀ r, World (Y.EmbState s r) (ch.Data (Y.EmbState s r))} (hw : EmbParts Y w ww)
    (i di : StartingValues ℝ n m) (v : Outputs n) :
    (∃ out, RunsTo (embCollective je bhat)
        (fun r => computeP embLocal (opts r) ch fuel (ww r) (Y.inputs i r)) out ∧
      EmbParts Y (compute (embBackend E bhat) opt (ch.ck (embBackend E bhat) opt) fuel w i).1
        (fun r => (out r).1) ∧
      SameOutcome Y.outputs
        (compute (embBackend E bhat) opt (ch.ck (embBackend E bhat) opt) fuel w i).2
        fun r => (out r).2) ∧
    ∃ out, RunsTo (embCollective je bhat)
        (fun r => fwdP embLocal (opts r) fuel (ww r) (Y.inputs i r) (Y.inputs di r)
          (Y.outputs v r)) out ∧
      EmbParts Y (fwd (embBackend E bhat) opt fuel w i di v).1 (fun r => (out r).1) ∧
      SameOutcome Y.outputs (fwd (embBackend E bhat) opt fuel w i di v).2 fun r => (out r).2 := by
  constructor
  · obtain ⟨out, h1, h2, h3⟩ := runsTo_of_lock (lock_compute (embParts H bhat) ho ch fuel hw
      (i := i) rfl)
    rw [computeP_run] at h2 h3
    exact ⟨out, h1, h2, sameOutcome h3⟩
  · obtain ⟨out, h1, h2, h3⟩ := runsTo_of_lock (lock_fwd (embParts H bhat) ho fuel hw
      (i := i) (di := di) (v := v) rfl rfl rfl)
    rw [fwdP_run] at h2 h3
    exact ⟨out, h1, h2, sameOutcome h3⟩

/-- C79, the beginning: after `setup` the components of the ranks correspond to one on a single
rank. -/
theorem C79_setup (Y : Layout R n m o l) (E : Env s n m o l) (bhat : Fin s → ℝ)
    (ho : ∀ r, SameOptions opt (opts r)) (ch : Choice) (c : Ctrl) :
    PlainParts Y (freshWorld opt (ch.ck (rkBackend E) opt) RKState.empty c)
      (fun r => freshP (opts r) ch RKState.empty c) ∧
    EmbParts Y (freshWorld opt (ch.ck (embBackend E bhat) opt) EmbRKState.empty c)
      (fun r => freshP (opts r) ch EmbRKState.empty c) := by
  constructor
  · refine ⟨⟨rfl, fun r => (ho r).initialStep, fun _ => rfl, fun _ => rfl⟩, rfl, fun _ => rfl,
      fun _ => rfl, ?_⟩
    cases ch with
    | no => trivial
    | all => exact .nil
  · refine ⟨⟨rfl, fun r => (ho r).initialStep, fun _ => rfl, fun _ => rfl⟩, rfl, fun _ => rfl,
      fun _ => rfl, ?_⟩
    cases ch with
    | no => trivial
    | all => exact .nil

/-- C79, the error measure: the norms of `OpenMDAOODE` are the same on all ranks, for metadata as
extracted from a stage problem and states whose replicated quantities have the same values on all
ranks; so are the error measures computed from them. -/
theorem C79_norms {P : Metadata.Problem} {k : ℕ} {req ind : List String} {ms : List Metadata.Meta}
    (h : Metadata.setup P k req ind = .ok ms) {xs : List (ℕ → ℝ)} (hlen : xs.length = ms.length)
    {G : List (String × List ℝ)} (hG : OM.Stored (ms.zip xs) G) (em : Option ℝ) {p : ℝ}
    (hp : 0 < p) (excl : List String) {r r' : ℕ} (hr : r < ms.length) (hr' : r' < ms.length) :
    OM.stateNorm em excl (.fin p) (ms.zip xs) r = OM.stateNorm em excl (.fin p) (ms.zip xs) r' ∧
    ((∀ m ∈ ms, ∀ q ∈ m.quantities, q.name ∉ excl → q.arr.stop ≤ q.arr.start → em = some 0) →
      OM.stateNorm em excl .inf (ms.zip xs) r = OM.stateNorm em excl .inf (ms.zip xs) r') := by
  refine ⟨?_, fun hem => ?_⟩
  · rw [C48_p_norm_partial h hlen hG em hp excl hr, C48_p_norm_partial h hlen hG em hp excl hr']
  · rw [C48_max_norm_partial h hlen hG excl hem hr, C48_max_norm_partial h hlen hG excl hem hr']

/-- The part of an operation on a rank. -/
def opPart (Y : Layout R n m o l) (r : Fin R) : Op (StartingValues ℝ n m) (Outputs n) →
    Op (StartingValues ℝ (Y.nr r) (Y.mr r)) (Outputs (Y.nr r))
  | .compute i => .compute (Y.inputs i r)
  | .fwd i di v => .fwd (Y.inputs i r) (Y.inputs di r) (Y.outputs v r)
  | .rev i v di => .rev (Y.inputs i r) (Y.outputs v r) (Y.inputs di r)

theorem jops_parts (Y : Layout R n m o l) (ops : List (Op (StartingValues ℝ n m) (Outputs n))) :
    JOps (fun i ii => ii = Y.inputs i) (fun v vv => vv = Y.outputs v) ops
      fun r => ops.map (opPart Y r) := by
  induction ops with
  | nil => exact .nil
  | cons op ops ih =>
    cases op with
    | compute i => exact .compute rfl ih
    | fwd i di v => exact .fwd rfl rfl rfl ih
    | rev i v di => exact .rev rfl rfl rfl ih

/-! ### C80 -/

/-- C80, what holds for single products: if the inputs of all ranks are as cached, or those of none,
a reverse product runs on all ranks, with the same steps, and each gets its part of what a single
rank would get. Missing: inputs that are as cached on some of the ranks only. -/
theorem C80_reverse_partial [NeZero R] {Y : Layout R n m o l} {je : JointEnv Y s}
    {E : Env s n m o l} (H : je.Solves E) (bhat : Fin s → ℝ)
    (ho : ∀ r, SameOptions opt (opts r)) {ch : Choice} (fuel : ℕ)
    (i di : StartingValues ℝ n m) (v : Outputs n) :
    (∀ (w : World (RKState ℝ s n m o l) (ch.Data (RKState ℝ s n m o l)))
      (ww : ∀ r, World (Y.State s r) (ch.Data (Y.State s r))), PlainParts Y w ww →
      (∀ r r', cacheOkP rkLocal (ww r) (Y.inputs i r) = cacheOkP rkLocal (ww r') (Y.inputs i r')) →
      ∃ out, RunsTo (rkCollective je)
          (fun r => revP rkLocal (opts r) ch fuel (ww r) (Y.inputs i r) (Y.outputs v r)
            (Y.inputs di r)) out ∧
        PlainParts Y (rev (rkBackend E) opt (ch.ck (rkBackend E) opt) fuel w i v di).1
          (fun r => (out r).1) ∧
        SameOutcome Y.inputs (rev (rkBackend E) opt (ch.ck (rkBackend E) opt) fuel w i v di).2
          fun r => (out r).2) ∧
    (∀ (w : World (EmbRKState ℝ s n m o l) (ch.Data (EmbRKState ℝ s n m o l)))
      (ww : ∀ r, World (Y.EmbState s r) (ch.Data (Y.EmbState s r))), EmbParts Y w ww →
      (∀ r r', cacheOkP embLocal (ww r) (Y.inputs i r)
        = cacheOkP embLocal (ww r') (Y.inputs i r')) →
      ∃ out, RunsTo (embCollective je bhat)
          (fun r => revP embLocal (opts r) ch fuel (ww r) (Y.inputs i r) (Y.outputs v r)
            (Y.inputs di r)) out ∧
        EmbParts Y (rev (embBackend E bhat) opt (ch.ck (embBackend E bhat) opt) fuel w i v di).1
          (fun r => (out r).1) ∧
        SameOutcome Y.inputs
          (rev (embBackend E bhat) opt (ch.ck (embBackend E bhat) opt) fuel w i v di).2
          fun r => (out r).2) := by
  constructor
  · intro w ww hw hc
    obtain ⟨out, h1, h2, h3⟩ := runsTo_of_lock (lock_rev (rkParts H) ho ch fuel hw
      (i := i) (di := di) (v := v) rfl rfl rfl (cache_agrees (rkParts H) hw rfl hc))
    rw [revP_run] at h2 h3
    exact ⟨out, h1, h2, sameOutcome h3⟩
  · intro w ww hw hc
    obtain ⟨out, h1, h2, h3⟩ := runsTo_of_lock (lock_rev (embParts H bhat) ho ch fuel hw
      (i := i) (di := di) (v := v) rfl rfl rfl (cache_agrees (embParts H bhat) hw rfl hc))
    rw [revP_run] at h2 h3
    exact ⟨out, h1, h2, sameOutcome h3⟩

/-- C80, what holds for sequences of operations after `setup`: if every reverse product is asked for
with the inputs of the last `compute` (or of the last reverse product), all operations run on all
ranks, with the same steps, and leave the ranks with their parts of what a single rank has then.
Missing: reverse products with other inputs. -/
theorem C80_sequence_partial [NeZero R] {Y : Layout R n m o l} {je : JointEnv Y s}
    {E : Env s n m o l} (H : je.Solves E) (bhat : Fin s → ℝ)
    (ho : ∀ r, SameOptions opt (opts r)) (ch : Choice) (fuel : ℕ) (c : Ctrl)
    (ops : List (Op (StartingValues ℝ n m) (Outputs n))) (hops : Current none ops) :
    (∃ out, RunsTo (rkCollective je) (fun r => opsP rkLocal (opts r) ch fuel
        (freshP (opts r) ch RKState.empty c) (ops.map (opPart Y r))) out ∧
      PlainParts Y (doOps (rkBackend E) opt (ch.ck (rkBackend E) opt) fuel
        (freshWorld opt (ch.ck (rkBackend E) opt) RKState.empty c) ops) out) ∧
    (∃ out, RunsTo (embCollective je bhat) (fun r => opsP embLocal (opts r) ch fuel
        (freshP (opts r) ch EmbRKState.empty c) (ops.map (opPart Y r))) out ∧
      EmbParts Y (doOps (embBackend E bhat) opt (ch.ck (embBackend E bhat) opt) fuel
        (freshWorld opt (ch.ck (embBackend E bhat) opt) EmbRKState.empty c) ops) out) := by
  obtain ⟨h1, h2⟩ := C79_setup Y E bhat ho ch c
  constructor
  · obtain ⟨out, h3, h4⟩ := runsTo_of_lock (lock_ops (rkParts H) ho ch fuel
      (fun d i => decide_eq_true ⟨rfl, rfl⟩) (jops_parts Y ops) hops h1 (.inl rfl))
    rw [opsP_run] at h4
    exact ⟨out, h3, h4⟩
  · obtain ⟨out, h3, h4⟩ := runsTo_of_lock (lock_ops (embParts H bhat) ho ch fuel
      (fun d i => decide_eq_true ⟨rfl, rfl⟩) (jops_parts Y ops) hops h2 (.inl rfl))
    rw [opsP_run] at h4
    exact ⟨out, h3, h4⟩

theorem current_of_no_rev {I O : Type} {ops : List (Op I O)} (cur : Option I)
    (h : ∀ op ∈ ops, ∀ i v di, op ≠ .rev i v di) : Current cur ops := by
  induction ops generalizing cur with
  | nil => exact .nil _
  | cons op ops ih =>
    have ht : ∀ c, Current c ops := fun c => ih c fun op' hop => h op' (List.mem_cons_of_mem _ hop)
    cases op with
    | compute i => exact .compute (ht _)
    | fwd i di v => exact .fwd (ht _)
    | rev i v di => exact absurd rfl (h _ List.mem_cons_self i v di)

/-- C79, sequences: any sequence of computations and forward products after `setup` runs on all
ranks, and leaves them with their parts of what a single rank has then. -/
theorem C79_sequence [NeZero R] {Y : Layout R n m o l} {je : JointEnv Y s}
    {E : Env s n m o l} (H : je.Solves E) (bhat : Fin s → ℝ)
    (ho : ∀ r, SameOptions opt (opts r)) (ch : Choice) (fuel : ℕ) (c : Ctrl)
    (ops : List (Op (StartingValues ℝ n m) (Outputs n)))
    (hops : ∀ op ∈ ops, ∀ i v di, op ≠ .rev i v di) :
    (∃ out, RunsTo (rkCollective je) (fun r => opsP rkLocal (opts r) ch fuel
        (freshP (opts r) ch RKState.empty c) (ops.map (opPart Y r))) out ∧
      PlainParts Y (doOps (rkBackend E) opt (ch.ck (rkBackend E) opt) fuel
        (freshWorld opt (ch.ck (rkBackend E) opt) RKState.empty c) ops) out) ∧
    (∃ out, RunsTo (embCollective je bhat) (fun r => opsP embLocal (opts r) ch fuel
        (freshP (opts r) ch EmbRKState.empty c) (ops.map (opPart Y r))) out ∧
      EmbParts Y (doOps (embBackend E bhat) opt (ch.ck (embBackend E bhat) opt) fuel
        (freshWorld opt (ch.ck (embBackend E bhat) opt) EmbRKState.empty c) ops) out) :=
  C80_sequence_partial H bhat ho ch fuel c ops (current_of_no_rev none hops)

theorem bind_kind {D α β : Type} (P : Prog D α) (f : α → Prog D β) (h : P.kind ≠ 0) :
    (P.bind f).kind = P.kind := by
  cases P <;> first | exact absurd rfl h | rfl

/-- A rank whose inputs are as cached begins with the adjoint of the last stored step. -/
theorem rev_hit_kind {D I O : Type} {L : Local D I O} {opt : Options} {fuel : ℕ}
    {w : World D (List (IState D))} {i di : I} {v : O} (h : cacheOkP L w i = true)
    (hs : w.ck ≠ []) : (revP L opt .all fuel w i v di).kind = 4 := by
  have hne : w.ck.reverse ≠ [] := by simpa using hs
  rcases hr : w.ck.reverse with _ | ⟨x, rest⟩
  · exact absurd hr hne
  · have : (allReverseP opt w.ck.reverse (L.seed w.pert v)).kind = 4 := by rw [hr]; rfl
    simp only [revP, revPrepP, h, if_true, Prog.bind, reverseP]
    rw [bind_kind, bind_kind, this]
    · rw [this]; decide
    · rw [bind_kind, this] <;> simp [this]

/-- A rank whose inputs are not as cached begins with a step. -/
theorem rev_miss_kind {D I O : Type} {L : Local D I O} {opt : Options} {fuel : ℕ}
    {w : World D (List (IState D))} {i di : I} {v : O} (h : cacheOkP L w i = false)
    (hf : fuel ≠ 0) (hl : opt.recursionLimit ≠ 0)
    (hfin : ¬ opt.crit.finished 0 (L.time (L.clearLin (L.load w.tis.disc i)))) :
    (revP L opt .all fuel w i v di).kind = 1 := by
  obtain ⟨f, rfl⟩ := Nat.exists_eq_succ_of_ne_zero hf
  obtain ⟨q, hq⟩ := Nat.exists_eq_succ_of_ne_zero hl
  simp only [revP, revPrepP, h, Bool.false_eq_true, if_false, computeP, forwardP, allForwardP,
    resetErrorControl, hfin, runStepP, hq, iterateP, Prog.bind, Prog.kind]

/-- C80 does not hold: if the inputs are as cached on one rank, with steps stored, and not on
another one, with steps to do, the reverse product does not run to an end, whatever the operations of
the ranks do: one of the two waits in the adjoint of the last step, the other one in the first
step. -/
theorem C80_waits_violated {DD II OO : Fin R → Type} (C : Collective DD)
    (L : ∀ r, Local (DD r) (II r) (OO r)) {fuel : ℕ} (hf : fuel ≠ 0)
    {ww : ∀ r, World (DD r) (List (IState (DD r)))} {ii dii : ∀ r, II r} {vv : ∀ r, OO r}
    {r0 r1 : Fin R} (h0 : cacheOkP (L r0) (ww r0) (ii r0) = true) (hs : (ww r0).ck ≠ [])
    (h1 : cacheOkP (L r1) (ww r1) (ii r1) = false) (hl : (opts r1).recursionLimit ≠ 0)
    (hfin : ¬ (opts r1).crit.finished 0
      ((L r1).time ((L r1).clearLin ((L r1).load (ww r1).tis.disc (ii r1))))) :
    ¬ ∃ calls out, Together C
      (fun r => revP (L r) (opts r) .all fuel (ww r) (ii r) (vv r) (dii r)) calls out := by
  rintro ⟨calls, out, t⟩
  have := t.kinds r0 r1
  rw [rev_hit_kind h0 hs, rev_miss_kind h1 hf hl hfin] at this
  exact absurd this (by decide)

/-- C80 does not hold, whole components: after `setup` and a computation with some steps, a reverse
product with inputs that are those of the computation on one rank, but not on another one, does not
run to an end, whatever the problem, the scheme and the distribution of the data are. -/
theorem C80_inputs_violated [NeZero R] {Y : Layout R n m o l} {je : JointEnv Y s}
    {E : Env s n m o l} (H : je.Solves E) (hE : ∀ v h, E.fails v h = none)
    (ho : ∀ r, SameOptions opt (opts r)) {dt : ℝ} {N : ℕ} (ha : opt.adaptive = false)
    (hc : opt.crit = .steps N) (hN : N ≠ 0) (hi : opt.initialStep = fin dt)
    (hl : opt.recursionLimit ≠ 0) {fuel : ℕ} (hf : N < fuel) (c : Ctrl)
    {i j di : StartingValues ℝ n m} {v : Outputs n} {r0 r1 : Fin R}
    (h0 : (Y.inputs j r0).initialValues = (Y.inputs i r0).initialValues ∧
      (Y.inputs j r0).independentInputs = (Y.inputs i r0).independentInputs)
    (h1 : ¬ ((Y.inputs j r1).initialValues = (Y.inputs i r1).initialValues ∧
      (Y.inputs j r1).independentInputs = (Y.inputs i r1).independentInputs)) :
    ¬ ∃ calls out, Together (rkCollective je) (fun r => opsP rkLocal (opts r) .all fuel
      (freshP (opts r) .all RKState.empty c)
      ([.compute i, .rev j v di].map (opPart Y r))) calls out := by
  rintro ⟨calls, out, t⟩
  obtain ⟨hw, -⟩ := C79_setup (opts := opts) Y E (fun _ => 0) ho .all c
  obtain ⟨aa, tc, hr⟩ := lock_compute (rkParts H) ho .all fuel hw (i := i) rfl
  obtain ⟨hw', -⟩ := hr
  rw [computeP_run] at hw'
  obtain ⟨w', u, hcomp⟩ := Ex.compute_ok E hE opt dt N ha hc hi hl .all
    (freshWorld opt (Choice.ck (rkBackend E) opt .all) RKState.empty c) i fuel hf
  rw [hcomp] at hw'
  obtain ⟨tr, htr, -, -, -, -, -, hcached, -⟩ := compute_run (ch := .all) hcomp
  have hlen := htr.length_steps hc (Nat.zero_le _)
  have hck := compute_stores hcomp htr
  have hca : ∀ r, ((aa r).1).cached = some (Y.part (rkLoad RKState.empty i) r) := by
    intro r
    have := hw'.cached
    simp only [hcached] at this
    obtain ⟨dd, h2, h3⟩ := this
    exact (h2 r).trans (by rw [h3]; rfl)
  have hst : (aa r0).1.ck ≠ [] := by
    intro hnil
    have h2 := stored_length hw'.ck r0
    dsimp only at h2
    rw [hnil, hck] at h2
    simp at h2
    omega
  simp only [List.map, opPart, opsP, opP] at t
  have t1 := Together.bind (ff := fun r x => Prog.done x.1) tc (.done fun r => (aa r).1)
  obtain ⟨calls2, t2⟩ := Together.bind_inv _ (NeZero.pos R) t1 t
  have hk := t2.kinds r0 r1
  have k0 : (revP rkLocal (opts r0) .all fuel (aa r0).1 (Y.inputs j r0) (Y.outputs v r0)
      (Y.inputs di r0)).kind = 4 := by
    refine rev_hit_kind ?_ hst
    simp only [cacheOkP, hca]
    exact decide_eq_true ⟨h0.1.symm, h0.2.symm⟩
  have k1 : (revP rkLocal (opts r1) .all fuel (aa r1).1 (Y.inputs j r1) (Y.outputs v r1)
      (Y.inputs di r1)).kind = 1 := by
    refine rev_miss_kind ?_ (by omega) (by rw [(ho r1).recursionLimit]; exact hl) ?_
    · simp only [cacheOkP, hca]
      exact decide_eq_false fun h => h1 ⟨h.1.symm, h.2.symm⟩
    · rw [(ho r1).crit, hc]
      simpa [Crit.finished] using hN
  have b0 : ∀ {D α β γ : Type} (P : Prog D α) (f : α → Prog D β) (g : β → Prog D γ),
      P.kind ≠ 0 → ((P.bind f).bind g).kind = P.kind := fun P f g h => by
    rw [bind_kind _ _ (by rw [bind_kind _ _ h]; exact h), bind_kind _ _ h]
  rw [b0 _ _ _ (by rw [k0]; decide), b0 _ _ _ (by rw [k1]; decide), k0, k1] at hk
  exact absurd hk (by decide)

/-! ### Concrete cases -/

namespace ParEx

/-- Two entries, one on each of two ranks; the independent input is on both. -/
def split : Layout 2 2 1 0 0 where
  nr := fun _ => 1
  mr := fun _ => 1
  qr := fun _ => 0
  lr := fun _ => 0
  val := fun r _ => r
  ind := fun _ _ => 0
  out := fun _ x => x
  lin := fun _ x => x
  cover := fun x => ⟨x, 0, rfl⟩
  coverInd := fun _ => ⟨0, 0, Subsingleton.elim _ _⟩
  coverOut := fun x => x.elim0
  coverLin := fun x => x.elim0

/-- Explicit Euler for `x' = -y + p`, `y' = x`; the error measure is the larger one of the absolute
error estimates. -/
noncomputable def env : Env 1 2 1 0 0 where
  T := Integrator.Ex.euler
  ode :=
    { computeUpdate := fun x h _ =>
        (⟨fun e => if e = 0 then -(x.stepInput 1 + h * x.stageInput 1) + x.independentInput 0
          else x.stepInput 0 + h * x.stageInput 0, x.stageInput, 0⟩, 0)
      computeUpdateDerivative := fun _ x h _ =>
        ⟨fun e => if e = 0 then -(x.stepInput 1 + h * x.stageInput 1) + x.independentInput 0
          else x.stepInput 0 + h * x.stageInput 0, x.stageInput, 0⟩
      computeUpdateAdjoint := fun _ v h _ =>
        ⟨fun e => if e = 0 then v.stageUpdate 1 else - v.stageUpdate 0,
          fun e => h * (if e = 0 then v.stageUpdate 1 else - v.stageUpdate 0),
          fun _ => v.stageUpdate 0, 0⟩ }
  fails := fun _ _ => none
  nonfinite := fun _ _ => .error .backend
  measure := fun e _ => fin (max |e 0| |e 1|)

end ParEx

/-- The hypotheses of C79 and C80 are met by a problem that couples entries on different ranks. -/
example : (jointOf ParEx.split ParEx.env).Solves ParEx.env := jointOf_solves _ _

/-- The ranks may have different callbacks. -/
example : ∀ r : Fin 2, SameOptions Integrator.Ex.opt3
    { Integrator.Ex.opt3 with computeCallbacks := (r : ℕ) } := fun _ => ⟨rfl, rfl, rfl, rfl⟩

/-- C79 for a sequence of operations on this problem. -/
example (fuel : ℕ) (i di : StartingValues ℝ 2 1) (v : Outputs 2) :
    ∃ out, RunsTo (rkCollective (jointOf ParEx.split ParEx.env)) (fun r => opsP rkLocal
        Integrator.Ex.opt3 .all fuel (freshP Integrator.Ex.opt3 .all RKState.empty
          Integrator.Ex.ctrl)
        ([Op.compute i, .fwd i di v, .rev i v di].map (opPart ParEx.split r))) out :=
  (C80_sequence_partial (opts := fun _ => Integrator.Ex.opt3) (jointOf_solves _ _) (fun _ => 0)
    (fun _ => ⟨rfl, rfl, rfl, rfl⟩) .all fuel Integrator.Ex.ctrl _
    (.compute (.fwd (.rev (.inr rfl) (.nil _))))).1.imp fun _ h => h.1

/-- C80: the second value has changed on the second rank, and the ranks wait for each other. -/
example : ¬ ∃ calls out, Together (rkCollective (jointOf ParEx.split ParEx.env))
    (fun r => opsP rkLocal Integrator.Ex.opt3 .all 10
      (freshP Integrator.Ex.opt3 .all RKState.empty Integrator.Ex.ctrl)
      ([Op.compute (⟨0, fun _ => 1, 0⟩ : StartingValues ℝ 2 1),
        .rev ⟨0, ![1, 2], 0⟩ ⟨0, fun _ => 1⟩ ⟨0, 0, 0⟩].map (opPart ParEx.split r))) calls out :=
  C80_inputs_violated (opts := fun _ => Integrator.Ex.opt3) (r0 := 0) (r1 := 1)
    (jointOf_solves _ _) (fun _ _ => rfl) (fun _ => ⟨rfl, rfl, rfl, rfl⟩) (dt := 1 / 2) (N := 3) rfl
    rfl (by decide) rfl (by simp [Integrator.Ex.opt3]) (by decide) _
    ⟨funext fun x => rfl, rfl⟩
    (fun h => by
      have := congrFun h.1 (0 : Fin 1)
      simp [Layout.inputs, ParEx.split] at this)

end Verif.Props
