/-
C105, C106: the vectors the stage problem keeps between calls.
-/
import Verif.Integrator.MemoryRK
import Verif.Integrator.MemoryPyrevolve
import Verif.Integrator.PyrevolveRK
import Verif.OpenMDAO.Memory
import Verif.Props.OpenMDAODeriv
import Verif.Props.History
import Verif.Props.Pyrevolve
import Verif.Integrator.Steps

namespace Verif.Props

open Verif.OM Verif.Metadata Verif.RK Verif.RK.Spec
open Verif.Control Verif.XReal Verif.Integrator

/-! ### The hypotheses -/

section
variable {C : Conf} {L : Layout} {E : MEnv Integrator.Err ℝ} {P : String × ℕ → Prop} {s : ℕ}

/-- The component around the stage problem `E`, described without memory: its vectors are `v0` before
every call. -/
def DescribedBy (C : Conf) (L : Layout) (E : MEnv Integrator.Err ℝ) (v0 : Vectors ℝ)
    (I : Integrator.Env s C.info.arraySize C.info.independentSize 0 (pointSize L)) : Prop :=
  I.ode = omOde C L E.reset v0 ∧ ∀ v h, I.fails v h = none

theorem plain_sim (hB : Built C) (hL : L.Proper) (hF : Fits C L)
    (hP : ∀ e ∈ entriesOf (written C), ¬ P e) {v0 : Vectors ℝ}
    {I : Integrator.Env s C.info.arraySize C.info.independentSize 0 (pointSize L)}
    (hI : DescribedBy C L E v0 I) (N : Nonfinite (Memory ℝ) s _ _ 0 (pointSize L)) :
    Sim (rkBackend I) (rkMem I.T (omMOde C L E) N) (fun w => SameParams L P w.vec v0)
      (fun d => ∀ i, PointParams L P v0 (d.linearizationPoints i))
      (OkSize I N (fun w => SameParams L P w.vec v0) (PointParams L P v0)
        (Determined C L E P)) :=
  rkMem_sim (by rw [hI.1]; exact omMOde_sim (built_sound hB) hL hF hP v0) hI.2

theorem embedded_sim (hB : Built C) (hL : L.Proper) (hF : Fits C L)
    (hP : ∀ e ∈ entriesOf (written C), ¬ P e) {v0 : Vectors ℝ}
    {I : Integrator.Env s C.info.arraySize C.info.independentSize 0 (pointSize L)}
    (hI : DescribedBy C L E v0 I) (bhat : Fin s → ℝ)
    (N : Nonfinite (Memory ℝ) s _ _ 0 (pointSize L)) :
    Sim (embBackend I bhat) (embMem I.T bhat (omMOde C L E) N) (fun w => SameParams L P w.vec v0)
      (fun d => ∀ i, PointParams L P v0 (d.linearizationPoints i))
      (OkSize I N (fun w => SameParams L P w.vec v0) (PointParams L P v0)
        (Determined C L E P)) :=
  embMem_sim bhat (by rw [hI.1]; exact omMOde_sim (built_sound hB) hL hF hP v0) hI.2

theorem fixed_sizes {v0 : Vectors ℝ}
    {I : Integrator.Env s C.info.arraySize C.info.independentSize 0 (pointSize L)}
    (N : Nonfinite (Memory ℝ) s _ _ 0 (pointSize L)) {opt : Options} {dt : ℝ}
    (ha : opt.adaptive = false) (hi : opt.initialStep = fin dt)
    (hD : ∀ i, Determined C L E P dt (I.T.A i i)) :
    Sizes opt (OkSize I N (fun w => SameParams L P w.vec v0) (PointParams L P v0)
      (Determined C L E P)) := by
  refine ⟨?_, fun h => by rw [ha] at h; cases h⟩
  rw [hi]
  exact ⟨hD, fun h => absurd rfl (h dt)⟩

theorem all_sizes {v0 : Vectors ℝ}
    {I : Integrator.Env s C.info.arraySize C.info.independentSize 0 (pointSize L)}
    {N : Nonfinite (Memory ℝ) s _ _ 0 (pointSize L)}
    (hN : NonfiniteSim I N (fun w => SameParams L P w.vec v0) (PointParams L P v0)) {opt : Options}
    (hD : ∀ h i, Determined C L E P h (I.T.A i i)) :
    Sizes opt (OkSize I N (fun w => SameParams L P w.vec v0) (PointParams L P v0)
      (Determined C L E P)) :=
  ⟨⟨fun j => hD _ j, fun _ => hN⟩, fun _ _ => ⟨fun j => hD _ j, fun _ => hN⟩⟩

/-! ### C105 -/

/-- C105 (plain schemes, fixed step size, no checkpoints or all): whatever the vectors of the stage
problem contain when the component is used first, and after any sequence of operations, failed ones
included, the outcomes of runs and products are those of a component whose stage problem has the
vectors `v0` before every call - for all `v0` with the same parameters. -/
theorem C105_fixed_steps (hB : Built C) (hL : L.Proper) (hF : Fits C L)
    (hP : ∀ e ∈ entriesOf (written C), ¬ P e) {v0 : Vectors ℝ}
    {I : Integrator.Env s C.info.arraySize C.info.independentSize 0 (pointSize L)}
    (hI : DescribedBy C L E v0 I) (N : Nonfinite (Memory ℝ) s _ _ 0 (pointSize L))
    {opt : Options} {dt : ℝ} (ha : opt.adaptive = false) (hi : opt.initialStep = fin dt)
    (hD : ∀ i, Determined C L E P dt (I.T.A i i)) (ch : Choice) (fuel : ℕ) (w : World _ _)
    (hw : w.cached = none) (mem : Memory ℝ) (hm : SameParams L P mem.vec v0)
    (ops : List (Op (StartingValues ℝ C.info.arraySize C.info.independentSize)
      (Outputs C.info.arraySize)))
    (i di : StartingValues ℝ C.info.arraySize C.info.independentSize)
    (dO : Outputs C.info.arraySize) :
    let B := rkBackend I
    let S := rkMem I.T (omMOde C L E) N
    let wM := doOpsM B S opt (ch.memCk B S opt) fuel ⟨w, mem⟩ (ops.map .op)
    let wP := doOps B opt (ch.ck B opt) fuel w ops
    (computeM B opt (ch.memCk B S opt) fuel wM i).2 = (compute B opt (ch.ck B opt) fuel wP i).2 ∧
    (fwdM B S opt fuel wM i di dO).2 = (fwd B opt fuel wP i di dO).2 ∧
    (revM B opt (ch.memCk B S opt) fuel wM i dO di).2 = (rev B opt (ch.ck B opt) fuel wP i dO di).2 := by
  have hS := plain_sim (E := E) hB hL hF hP hI N
  have hO := fixed_sizes (E := E) (P := P) (v0 := v0) (I := I) N ha hi hD
  obtain ⟨Use, hK⟩ := choice_sim hS hO (m0 := mem) hm ch
  exact outcomesM_sim hS hK hO fuel ops hm (.inl trivial) hw i di dO

/-- C105, two uses of the component: different vectors at the beginning, different checkpointers,
different operations before - the outcomes of runs and forward products agree if the parameters do. -/
theorem C105_reproducible (hB : Built C) (hL : L.Proper) (hF : Fits C L)
    (hP : ∀ e ∈ entriesOf (written C), ¬ P e) {v0 : Vectors ℝ}
    {I : Integrator.Env s C.info.arraySize C.info.independentSize 0 (pointSize L)}
    (hI : DescribedBy C L E v0 I) (N : Nonfinite (Memory ℝ) s _ _ 0 (pointSize L))
    {opt : Options} {dt : ℝ} (ha : opt.adaptive = false) (hi : opt.initialStep = fin dt)
    (hD : ∀ i, Determined C L E P dt (I.T.A i i)) (ch ch' : Choice) (fuel : ℕ)
    (w : World _ (ch.Data _)) (w' : World _ (ch'.Data _)) (hw : w.cached = none)
    (hw' : w'.cached = none) (hc : w.ctrl = w'.ctrl) (mem mem' : Memory ℝ)
    (hm : SameParams L P mem.vec v0) (hm' : SameParams L P mem'.vec v0)
    (ops ops' : List (Op (StartingValues ℝ C.info.arraySize C.info.independentSize)
      (Outputs C.info.arraySize)))
    (i di : StartingValues ℝ C.info.arraySize C.info.independentSize)
    (dO : Outputs C.info.arraySize) :
    let B := rkBackend I
    let S := rkMem I.T (omMOde C L E) N
    let w1 := doOpsM B S opt (ch.memCk B S opt) fuel ⟨w, mem⟩ (ops.map .op)
    let w2 := doOpsM B S opt (ch'.memCk B S opt) fuel ⟨w', mem'⟩ (ops'.map .op)
    (computeM B opt (ch.memCk B S opt) fuel w1 i).2 = (computeM B opt (ch'.memCk B S opt) fuel w2 i).2 ∧
    (fwdM B S opt fuel w1 i di dO).2 = (fwdM B S opt fuel w2 i di dO).2 := by
  intro B S w1 w2
  obtain ⟨a1, a2, -⟩ := C105_fixed_steps hB hL hF hP hI N ha hi hD ch fuel w hw mem hm ops i di dO
  obtain ⟨b1, b2, -⟩ := C105_fixed_steps hB hL hF hP hI N ha hi hD ch' fuel w' hw' mem' hm' ops' i di
    dO
  have hz : NoStageState I.ode := by rw [hI.1]; exact omOde_noStageState C L E.reset v0
  obtain ⟨c1, c2⟩ := C26_rk_reproducible_partial I hz (ch := ch) (ch' := ch') fuel fuel fuel w w'
    hc (.inl ha) ops ops' i di dO
  exact ⟨a1.trans (c1.trans b1.symm), a2.trans (c2.trans b2.symm)⟩

/-- C105 (embedded schemes, adaptive stepping, no checkpoints or all): rejected attempts are further
calls of the stage problem that are not undone. If the stage problem determines its solution for every
step size, they do not influence the outcomes either. -/
theorem C105_adaptive (hB : Built C) (hL : L.Proper) (hF : Fits C L)
    (hP : ∀ e ∈ entriesOf (written C), ¬ P e) {v0 : Vectors ℝ}
    {I : Integrator.Env s C.info.arraySize C.info.independentSize 0 (pointSize L)}
    (hI : DescribedBy C L E v0 I) (bhat : Fin s → ℝ)
    {N : Nonfinite (Memory ℝ) s _ _ 0 (pointSize L)}
    (hN : NonfiniteSim I N (fun w => SameParams L P w.vec v0) (PointParams L P v0))
    {opt : Options} (hD : ∀ h i, Determined C L E P h (I.T.A i i)) (ch : Choice) (fuel : ℕ)
    (w : World _ _) (hw : w.cached = none) (mem : Memory ℝ) (hm : SameParams L P mem.vec v0)
    (ops : List (Op (StartingValues ℝ C.info.arraySize C.info.independentSize)
      (Outputs C.info.arraySize)))
    (i di : StartingValues ℝ C.info.arraySize C.info.independentSize)
    (dO : Outputs C.info.arraySize) :
    let B := embBackend I bhat
    let S := embMem I.T bhat (omMOde C L E) N
    let wM := doOpsM B S opt (ch.memCk B S opt) fuel ⟨w, mem⟩ (ops.map .op)
    let wP := doOps B opt (ch.ck B opt) fuel w ops
    (computeM B opt (ch.memCk B S opt) fuel wM i).2 = (compute B opt (ch.ck B opt) fuel wP i).2 ∧
    (fwdM B S opt fuel wM i di dO).2 = (fwd B opt fuel wP i di dO).2 ∧
    (revM B opt (ch.memCk B S opt) fuel wM i dO di).2 = (rev B opt (ch.ck B opt) fuel wP i dO di).2 := by
  have hS := embedded_sim (E := E) hB hL hF hP hI bhat N
  have hO := all_sizes (E := E) (opt := opt) hN hD
  obtain ⟨Use, hK⟩ := choice_sim hS hO (m0 := mem) hm ch
  exact outcomesM_sim hS hK hO fuel ops hm (.inl trivial) hw i di dO

/-- C105 with pyrevolve (plain schemes, fixed step size), for every schedule, after every sequence of
operations that did not fail: reverse products repeat steps from checkpoints, which contain no vectors
of the stage problem. The repeated steps and the outcomes are as without memory. -/
theorem C105_pyrevolve (hB : Built C) (hL : L.Proper) (hF : Fits C L)
    (hP : ∀ e ∈ entriesOf (written C), ¬ P e) {v0 : Vectors ℝ}
    {I : Integrator.Env s C.info.arraySize C.info.independentSize 0 (pointSize L)}
    (hI : DescribedBy C L E v0 I) (N : Nonfinite (Memory ℝ) s _ _ 0 (pointSize L))
    {opt : Options} {dt : ℝ} (ha : opt.adaptive = false) (hi : opt.initialStep = fin dt)
    (hf : ∀ t, ¬ opt.crit.finished 0 t) (hD : ∀ i, Determined C L E P dt (I.T.A i i))
    (empty : IState _) (n : ℕ) (sched : Schedule) (fuel : ℕ) (w : World _ _)
    (hw : w.cached = none) (mem : Memory ℝ) (hm : SameParams L P mem.vec v0)
    (ops : List (Op (StartingValues ℝ C.info.arraySize C.info.independentSize)
      (Outputs C.info.arraySize)))
    (hok : AllSucceed (rkBackend I) opt (pyCk (rkBackend I) opt rkRestore empty n sched) fuel w ops)
    (i di : StartingValues ℝ C.info.arraySize C.info.independentSize)
    (dO : Outputs C.info.arraySize) :
    let B := rkBackend I
    let S := rkMem I.T (omMOde C L E) N
    let ck := pyCk B opt rkRestore empty n sched
    let ckM := pyCkM B S opt rkRestore n sched
    let wM := doOpsM B S opt ckM fuel ⟨w, mem⟩ (ops.map .op)
    let wP := doOps B opt ck fuel w ops
    (computeM B opt ckM fuel wM i).2 = (compute B opt ck fuel wP i).2 ∧
    (fwdM B S opt fuel wM i di dO).2 = (fwd B opt fuel wP i di dO).2 ∧
    (revM B opt ckM fuel wM i dO di).2 = (rev B opt ck fuel wP i dO di).2 := by
  have hS := plain_sim (E := E) hB hL hF hP hI N
  have hO := fixed_sizes (E := E) (P := P) (v0 := v0) (I := I) N ha hi hD
  have hK := pyCkM_sim hS hO (R := rkRestore) (fun _ _ h => h) (fun _ _ h => h) empty n sched mem hm
  exact outcomesM_sim hS hK hO fuel ops hm (.inr ⟨hf, hok⟩) hw i di dO

/-- C105 with pyrevolve (embedded schemes, also adaptive). -/
theorem C105_pyrevolve_adaptive (hB : Built C) (hL : L.Proper) (hF : Fits C L)
    (hP : ∀ e ∈ entriesOf (written C), ¬ P e) {v0 : Vectors ℝ}
    {I : Integrator.Env s C.info.arraySize C.info.independentSize 0 (pointSize L)}
    (hI : DescribedBy C L E v0 I) (bhat : Fin s → ℝ)
    {N : Nonfinite (Memory ℝ) s _ _ 0 (pointSize L)}
    (hN : NonfiniteSim I N (fun w => SameParams L P w.vec v0) (PointParams L P v0))
    {opt : Options} (hf : ∀ t, ¬ opt.crit.finished 0 t)
    (hD : ∀ h i, Determined C L E P h (I.T.A i i))
    (empty : IState _) (n : ℕ) (sched : Schedule) (fuel : ℕ) (w : World _ _)
    (hw : w.cached = none) (mem : Memory ℝ) (hm : SameParams L P mem.vec v0)
    (ops : List (Op (StartingValues ℝ C.info.arraySize C.info.independentSize)
      (Outputs C.info.arraySize)))
    (hok : AllSucceed (embBackend I bhat) opt
      (pyCk (embBackend I bhat) opt embRestore empty n sched) fuel w ops)
    (i di : StartingValues ℝ C.info.arraySize C.info.independentSize)
    (dO : Outputs C.info.arraySize) :
    let B := embBackend I bhat
    let S := embMem I.T bhat (omMOde C L E) N
    let ck := pyCk B opt embRestore empty n sched
    let ckM := pyCkM B S opt embRestore n sched
    let wM := doOpsM B S opt ckM fuel ⟨w, mem⟩ (ops.map .op)
    let wP := doOps B opt ck fuel w ops
    (computeM B opt ckM fuel wM i).2 = (compute B opt ck fuel wP i).2 ∧
    (fwdM B S opt fuel wM i di dO).2 = (fwd B opt fuel wP i di dO).2 ∧
    (revM B opt ckM fuel wM i dO di).2 = (rev B opt ck fuel wP i dO di).2 := by
  have hS := embedded_sim (E := E) hB hL hF hP hI bhat N
  have hO := all_sizes (E := E) (opt := opt) hN hD
  have hK := pyCkM_sim hS hO (R := embRestore) (fun _ _ h => h) (fun _ _ h => h) empty n sched mem hm
  exact outcomesM_sim hS hK hO fuel ops hm (.inr ⟨hf, hok⟩) hw i di dO

/-! ### C106 -/

/-- C106: after any operations, in any state of the component, the user changes the stage problem so
that it has the parameters of `v1`. If no run is stored for a reverse product, or no reverse product
follows before the next run, the component behaves as described with `v1`, and the parameters stay as
they are. Missing for the full claim: a reverse product that uses the run stored before the change,
for which it is violated (`C106_reverse_resets_violated`). -/
theorem C106_parameters_partial (hB : Built C) (hL : L.Proper) (hF : Fits C L)
    (hP : ∀ e ∈ entriesOf (written C), ¬ P e) {v1 : Vectors ℝ}
    {I : Integrator.Env s C.info.arraySize C.info.independentSize 0 (pointSize L)}
    (hI : DescribedBy C L E v1 I) (N : Nonfinite (Memory ℝ) s _ _ 0 (pointSize L))
    {opt : Options} {dt : ℝ} (ha : opt.adaptive = false) (hi : opt.initialStep = fin dt)
    (hD : ∀ i, Determined C L E P dt (I.T.A i i)) (fuel : ℕ)
    (w : MWorld (RKState ℝ s C.info.arraySize C.info.independentSize 0 (pointSize L)) (List _) (Memory ℝ))
    (f : Memory ℝ → Memory ℝ) (hm : SameParams L P (f w.mem).vec v1)
    (ops : List (Op (StartingValues ℝ C.info.arraySize C.info.independentSize)
      (Outputs C.info.arraySize)))
    (hr : w.comp.cached = none ∨ RunFirst ops)
    (i di : StartingValues ℝ C.info.arraySize C.info.independentSize)
    (dO : Outputs C.info.arraySize) :
    let B := rkBackend I
    let S := rkMem I.T (omMOde C L E) N
    let w' := doOpsM B S opt (allCkM B S opt) fuel w (.change f :: ops.map .op)
    SameParams L P w'.mem.vec v1 ∧ w'.comp = doOps B opt (allCk B opt) fuel w.comp ops ∧
    (computeM B opt (allCkM B S opt) fuel w' i).2 = (compute B opt (allCk B opt) fuel w'.comp i).2 ∧
    (fwdM B S opt fuel w' i di dO).2 = (fwd B opt fuel w'.comp i di dO).2 := by
  intro B S w'
  have hS := plain_sim (E := E) hB hL hF hP hI N
  have hO := fixed_sizes (E := E) (P := P) (v0 := v1) (I := I) N ha hi hD
  have hK := allCkM_sim hS hO (f w.mem) hm
  obtain ⟨h1, h2⟩ := doOpsM_sim_new hS hK hO fuel ops (w := ⟨w.comp, f w.mem⟩) hm (.inl trivial) hr
  exact ⟨h2, h1, (computeM_sim hK hO fuel h2 i).2.1, (fwdM_sim hS hO fuel h2 i di dO).2.1⟩

/-- C106 is violated for reverse products that use a stored run: after a run at `i` with the parameters
of `v0`, any change of the stage problem by the user and a reverse product at `i`, the parameters are
those of `v0` again, and later runs and forward products are those with `v0`. -/
theorem C106_reverse_resets_violated (hB : Built C) (hL : L.Proper) (hF : Fits C L)
    (hP : ∀ e ∈ entriesOf (written C), ¬ P e) {v0 : Vectors ℝ} (hs : 0 < s)
    {I : Integrator.Env s C.info.arraySize C.info.independentSize 0 (pointSize L)}
    (hI : DescribedBy C L E v0 I) (N : Nonfinite (Memory ℝ) s _ _ 0 (pointSize L))
    {opt : Options} {dt : ℝ} {k : ℕ} (ha : opt.adaptive = false) (hi : opt.initialStep = fin dt)
    (hc : opt.crit = .steps (k + 1)) (hl : opt.recursionLimit ≠ 0)
    (hD : ∀ i, Determined C L E P dt (I.T.A i i)) {fuel : ℕ} (hfu : k + 1 < fuel)
    (w : MWorld (RKState ℝ s C.info.arraySize C.info.independentSize 0 (pointSize L)) (List _) (Memory ℝ))
    (hm : SameParams L P w.mem.vec v0) (f : Memory ℝ → Memory ℝ)
    (i dI j dj : StartingValues ℝ C.info.arraySize C.info.independentSize)
    (dO : Outputs C.info.arraySize) :
    let B := rkBackend I
    let S := rkMem I.T (omMOde C L E) N
    let w' := doOpsM B S opt (allCkM B S opt) fuel w [.op (.compute i), .change f, .op (.rev i dO dI)]
    SameParams L P w'.mem.vec v0 ∧
    (computeM B opt (allCkM B S opt) fuel w' j).2 = (compute B opt (allCk B opt) fuel w'.comp j).2 ∧
    (fwdM B S opt fuel w' j dj dO).2 = (fwd B opt fuel w'.comp j dj dO).2 := by
  intro B S w'
  have hS := plain_sim (E := E) hB hL hF hP hI N
  have hO := fixed_sizes (E := E) (P := P) (v0 := v0) (I := I) N ha hi hD
  have hK := allCkM_sim hS hO w.mem hm
  obtain ⟨h1, h2, h3, h4⟩ := computeM_sim (B := B) hK hO fuel hm i
  obtain ⟨wc, v, hok⟩ := Integrator.Ex.compute_ok I hI.2 opt dt (k + 1) ha hc hi hl .all w.comp i fuel
    hfu
  change compute B opt (allCk B opt) fuel w.comp i = (wc, .ok v) at hok
  have hadj : ∀ (m : Memory ℝ) d p h, (∀ i, PointParams L P v0 (d.linearizationPoints i)) →
      SameParams L P (S.adj m d p h).1.vec v0 := by
    intro m d p h hd
    refine computeStepAdjointM_restores
      (Inv := fun w : Memory ℝ => SameParams L P w.vec v0) (Good := PointParams L P v0)
      (S := omMOde C L E) ?_ hs I.T (toReal h) m d p hd
    intro m p z h a hp e he hq
    exact ((setPoint_congr hL (List.ofFn p) m.vec v0).2 e he).trans (hp e he hq)
  have hne : wc.ck ≠ [] ∧ wc.cached = some (rkLoad w.comp.tis.disc i) := by
    simp only [compute, allCk] at hok
    generalize hx : ({ resetErrorControl opt w.comp.ctrl
      { w.comp.tis with disc := B.load w.comp.tis.disc i } with
        disc := B.clearLin (resetErrorControl opt w.comp.ctrl
          { w.comp.tis with disc := B.load w.comp.tis.disc i }).disc } : IState _) = x at hok
    have hne := allForward_ne_nil (B := B) (opt := opt) (fuel := fuel) (it := 0) (c := w.comp.ctrl)
      (x := x) (by simp [hc, Crit.finished])
    rcases ho : (allForward B opt fuel 0 [] w.comp.ctrl x).2.out with e | u
    · rw [ho] at hok
      cases hok
    · rw [ho] at hok
      obtain ⟨rfl, -⟩ := Prod.mk.injEq .. ▸ hok
      exact ⟨hne ho, rfl⟩
  have hcomp : (computeM B opt (allCkM B S opt) fuel w i).1.comp = wc := by rw [h1, hok]
  have hco : cacheOk B wc i = true := by
    simp only [cacheOk, hne.2]
    exact decide_eq_true ⟨rfl, rfl⟩
  have hinv : SameParams L P w'.mem.vec v0 := by
    refine revM_restores (B := B) (S := S)
      (Inv := fun w : Memory ℝ => SameParams L P w.vec v0)
      (Good := fun d => ∀ i, PointParams L P v0 (d.linearizationPoints i)) hadj
      (w := ⟨(computeM B opt (allCkM B S opt) fuel w i).1.comp, f (computeM B opt (allCkM B S opt) fuel w i).1.mem⟩)
      ?_ ?_ ?_ fuel dO dI
    · rw [hcomp]; exact hne.1
    · exact fun x hx => (h4 (.inl trivial) x (by rw [← h1]; exact hx)).1
    · rw [hcomp]; exact hco
  exact ⟨hinv, (computeM_sim hK hO fuel hinv j).2.1, (fwdM_sim hS hO fuel hinv j dj dO).2.1⟩

end

/-! ### An example: `x_up = k * (x_old + h * x_acc)` with a parameter `k` -/

namespace MemoryEx

def layout : Layout where
  inputs := [("x_old", 1), ("x_acc", 1), ("x_k", 1)]
  outputs := [("ivc_old", 1), ("ivc_acc", 1), ("k", 1), ("x_up", 1)]

/-- Values at the four outputs. -/
def four (x y z u : ℝ) : Vec ℝ := fun n _ =>
  if n = "ivc_old" then x else if n = "ivc_acc" then y else if n = "k" then z else u

/-- The stage problem. -/
def env : MEnv Integrator.Err ℝ where
  solve v h _ :=
    let x := v.outputs "ivc_old" 0
    let y := v.outputs "ivc_acc" 0
    let k := v.outputs "k" 0
    (⟨fun n _ => if n = "x_old" then x else if n = "x_acc" then y else k,
      four x y k (k * (x + h * y))⟩, none)
  solveFwd v h _ b _ :=
    let x := v.outputs "ivc_old" 0
    let y := v.outputs "ivc_acc" 0
    let k := v.outputs "k" 0
    (four (- b "ivc_old" 0) (- b "ivc_acc" 0) (- b "k" 0)
      (- (k * b "ivc_old" 0) - h * k * b "ivc_acc" 0 - (x + h * y) * b "k" 0 - b "x_up" 0), b)
  solveRev v h _ b _ :=
    let x := v.outputs "ivc_old" 0
    let y := v.outputs "ivc_acc" 0
    let k := v.outputs "k" 0
    (b, four (- (k * b "x_up" 0) - b "ivc_old" 0) (- (h * k * b "x_up" 0) - b "ivc_acc" 0)
      (- ((x + h * y) * b "x_up" 0) - b "k" 0) (- b "x_up" 0))

/-- The parameter. -/
def par (e : String × ℕ) : Prop := e.1 = "k"

theorem proper : layout.Proper := by constructor <;> decide

theorem fits : Fits squareConf layout := by constructor <;> decide +kernel

theorem separate : ∀ e ∈ entriesOf (written squareConf), ¬ par e := by
  intro e he hp
  rw [square_written] at he
  simp only [Finset.mem_insert, Finset.mem_singleton] at he
  unfold par at hp
  rcases he with rfl | rfl <;> simp at hp

theorem entries : entriesOf layout.outputs =
    {("ivc_old", 0), ("ivc_acc", 0), ("k", 0), ("x_up", 0)} := by decide +kernel

theorem entries_in : entriesOf layout.inputs =
    {("x_old", 0), ("x_acc", 0), ("x_k", 0)} := by decide +kernel

theorem determined (h a : ℝ) : Determined squareConf layout env par h a where
  succeeds v := rfl
  kept v e he hp := by
    obtain ⟨n, q⟩ := e
    simp only [par] at hp
    subst hp
    rw [entries] at he
    simp at he
    subst he
    simp [env, four]
  unique v v' hv := by
    have h1 := hv ("ivc_old", 0) (by rw [entries]; simp) (.inr (by rw [square_written]; simp))
    have h2 := hv ("ivc_acc", 0) (by rw [entries]; simp) (.inr (by rw [square_written]; simp))
    have h3 := hv ("k", 0) (by rw [entries]; simp) (.inl rfl)
    dsimp only at h1 h2 h3
    constructor
    · intro e _
      simp only [env, h1, h2, h3]
    · intro e _
      simp only [env, h1, h2, h3]
  fwd v v' b d d' hv e he := by
    have h1 := hv.2 ("ivc_old", 0) (by rw [entries]; simp)
    have h2 := hv.2 ("ivc_acc", 0) (by rw [entries]; simp)
    have h3 := hv.2 ("k", 0) (by rw [entries]; simp)
    dsimp only at h1 h2 h3
    simp only [env, h1, h2, h3]
  rev v v' b d d' hv e he := by
    have h1 := hv.2 ("ivc_old", 0) (by rw [entries]; simp)
    have h2 := hv.2 ("ivc_acc", 0) (by rw [entries]; simp)
    have h3 := hv.2 ("k", 0) (by rw [entries]; simp)
    dsimp only at h1 h2 h3
    simp only [env, h1, h2, h3]

/-- Vectors with parameter `k`. -/
def vecs (k : ℝ) : Vectors ℝ := ⟨fun _ _ => 0, four 0 0 k 0⟩

/-- The only index. -/
def i0 : Fin squareConf.info.arraySize := (0 : Fin 1)

/-- The component around the stage problem with parameter `k`: explicit Euler. -/
noncomputable def intEnv (k : ℝ) : Integrator.Env 1 squareConf.info.arraySize
    squareConf.info.independentSize 0 (pointSize layout) where
  T := Integrator.Ex.euler
  ode := omOde squareConf layout env.reset (vecs k)
  fails _ _ := none
  nonfinite _ _ := .error .backend
  measure e _ := fin |e i0|

theorem described (k : ℝ) : DescribedBy squareConf layout env (vecs k) (intEnv k) :=
  ⟨rfl, fun _ _ => rfl⟩

/-- One step of size one. -/
noncomputable def opt1 : Options where
  adaptive := false
  crit := .steps 1
  initialStep := fin 1

/-- Non-finite step sizes: not used. -/
def nonf : Nonfinite (Memory ℝ) 1 squareConf.info.arraySize squareConf.info.independentSize 0
    (pointSize layout) := fun w _ _ => (w, .error .backend)

/-- The states. -/
abbrev State := RKState ℝ 1 squareConf.info.arraySize squareConf.info.independentSize 0
  (pointSize layout)

/-- The fresh component around the stage problem with parameter `k`. -/
noncomputable def start (k : ℝ) : MWorld State (List (IState State)) (Memory ℝ) :=
  ⟨freshWorld opt1 (allCk (rkBackend (intEnv k)) opt1) RKState.empty Integrator.Ex.ctrl,
    ⟨vecs k, fun _ _ => 0, fun _ _ => 0⟩⟩

/-- The initial value 1. -/
def inp : StartingValues ℝ squareConf.info.arraySize squareConf.info.independentSize :=
  ⟨0, fun _ => 1, fun _ => 0⟩

theorem ode_value (k h a : ℝ) (z : OdeInput ℝ squareConf.info.arraySize
    squareConf.info.independentSize) (i : Fin squareConf.info.arraySize) :
    ((omOde squareConf layout env.reset (vecs k)).computeUpdate z h a).1.stageUpdate i
      = k * (z.stepInput i0 + h * z.stageInput i0) := by
  obtain rfl : i = i0 := Subsingleton.elim (α := Fin 1) _ _
  simp only [omOde, computeUpdate, MEnv.reset, env, vecs]
  simp [squareConf, squareMeta, inputsToVec, writeTime, writeState, vecToOutputs, setVar, getVar,
    four, toInputs, flat, Function.update, i0]

/-- One step from 1 with parameter `k` gives `1 + k`. -/
theorem result (k : ℝ) (ck : World _ _) {v : Outputs squareConf.info.arraySize} {w' : World _ _}
    (h : compute (rkBackend (intEnv k)) opt1 (allCk (rkBackend (intEnv k)) opt1) 3 ck inp
      = (w', .ok v)) : v.values i0 = 1 + k := by
  have := fixed_steps (rkCore (intEnv k)) (opt := opt1) (dt := 1) (N := 1) (fuel := 3) (ch := .all)
    rfl rfl rfl (w := ck) (w' := w') h
  have one : ∀ {A : ℝ → ℝ → (Fin squareConf.info.arraySize → ℝ) →
      (Fin squareConf.info.arraySize → ℝ) → Prop} {t h t' : ℝ} {y y'},
      IsSteps A t y [h] t' y' → A h t y y' := by
    intro A t h t' y y' hst
    cases hst with
    | cons hst hr =>
      cases hr
      exact hst
  · obtain ⟨st, -, h2, -, h4⟩ := one this
    rw [h4]
    have h3 : ∀ st' : RKState ℝ 1 squareConf.info.arraySize squareConf.info.independentSize 0
        (pointSize layout), (computeStep (intEnv k).T (intEnv k).ode st' 1).finalState i0
          = st'.finalState i0 + k * st'.finalState i0 := by
      intro st'
      simp only [computeStep, shiftState, intEnv, Integrator.Ex.euler, accumulateStep]
      simp only [List.finRange_succ, List.finRange_zero, List.map_nil, List.foldl_cons,
        List.foldl_nil, computeStage, Finset.univ_unique, Fin.default_eq_zero,
        Finset.sum_singleton, Function.update_self]
      rw [ode_value]
      simp [accumulateStages]
    rw [h3, h2]
    simp [inp]

/-- A run after the parameter was set to 2, whatever happened before. -/
theorem kept (w : MWorld State (List (IState State)) (Memory ℝ)) :
    ∃ v, (computeM (rkBackend (intEnv 2)) opt1 (allCkM (rkBackend (intEnv 2))
      (rkMem Integrator.Ex.euler (omMOde squareConf layout env) nonf) opt1) 3 ⟨w.comp, { w.mem with vec := vecs 2 }⟩ inp).2 = .ok v ∧ v.values i0 = 3 := by
  obtain ⟨-, -, h2, -⟩ := C106_parameters_partial (P := par) (v1 := vecs 2) square_built proper fits
    separate (described 2) nonf (opt := opt1) (dt := 1) rfl rfl (fun _ => determined _ _) 3
    w (fun w => { w with vec := vecs 2 }) (fun _ _ _ => rfl) [] (.inr trivial)
    inp inp ⟨0, fun _ => 0⟩
  obtain ⟨w', v, hv⟩ := Integrator.Ex.compute_ok (intEnv 2) (fun _ _ => rfl) opt1 1 1 rfl rfl rfl
    (by simp [opt1]) .all w.comp inp 3 (by omega)
  refine ⟨v, h2.trans (congrArg Prod.snd hv), ?_⟩
  rw [result 2 _ hv]
  norm_num

/-- A run with parameter 1; the user sets the parameter to 2; a reverse product at the same inputs; a
run. Its result is that with parameter 1. Without the reverse product it is that with parameter 2. -/
theorem reset (dO : Outputs squareConf.info.arraySize)
    (dI : StartingValues ℝ squareConf.info.arraySize squareConf.info.independentSize) :
    let B := rkBackend (intEnv 1)
    let S := rkMem Integrator.Ex.euler (omMOde squareConf layout env) nonf
    let set2 : Memory ℝ → Memory ℝ := fun w => { w with vec := vecs 2 }
    (∃ v, (computeM B opt1 (allCkM B S opt1) 3
      (doOpsM B S opt1 (allCkM B S opt1) 3 (start 1) [.op (.compute inp), .change set2, .op (.rev inp dO dI)])
        inp).2 = .ok v ∧ v.values i0 = 2) ∧
    ∃ v, (computeM B opt1 (allCkM B S opt1) 3 (doOpsM B S opt1 (allCkM B S opt1) 3 (start 1) [.op (.compute inp), .change set2])
        inp).2 = .ok v ∧ v.values i0 = 3 := by
  intro B S set2
  constructor
  · obtain ⟨-, h2, -⟩ := C106_reverse_resets_violated (P := par) square_built proper fits separate one_pos
      (described 1) nonf (opt := opt1) (dt := 1) (k := 0) rfl rfl rfl (by simp [opt1])
      (fun _ => determined _ _) (fuel := 3) (by omega) (start 1) (fun _ _ _ => rfl) set2 inp dI inp
      inp dO
    obtain ⟨w', v, hv⟩ := Integrator.Ex.compute_ok (intEnv 1) (fun _ _ => rfl) opt1 1 1 rfl rfl rfl
      (by simp [opt1]) .all
      (doOpsM B S opt1 (allCkM B S opt1) 3 (start 1) [.op (.compute inp), .change set2, .op (.rev inp dO dI)]).comp
      inp 3 (by omega)
    refine ⟨v, h2.trans (congrArg Prod.snd hv), ?_⟩
    rw [result 1 _ hv]
    norm_num
  · have e : B = { rkBackend (intEnv 2) with step := B.step, deriv := B.deriv, adj := B.adj } := rfl
    obtain ⟨v, h1, h2⟩ := kept (doOpsM B S opt1 (allCkM B S opt1) 3 (start 1) [.op (.compute inp)])
    refine ⟨v, ?_, h2⟩
    rw [← computeM_rest (rkBackend (intEnv 2)) S opt1 B.step B.deriv B.adj, ← e] at h1
    exact h1

/-- A case of `C105_reproducible`: vectors that differ in all entries but the parameter, and a
history. -/
example (x y z : ℝ) (i j dI : StartingValues ℝ squareConf.info.arraySize
    squareConf.info.independentSize) (dO : Outputs squareConf.info.arraySize) :
    let B := rkBackend (intEnv 1)
    let S := rkMem Integrator.Ex.euler (omMOde squareConf layout env) nonf
    (computeM B opt1 (allCkM B S opt1) 3 (doOpsM B S opt1 (allCkM B S opt1) 3
        ⟨(start 1).comp, ⟨⟨fun _ _ => x, four x y 1 z⟩, fun _ _ => y, fun _ _ => z⟩⟩
        ([.compute j, .rev j dO dI, .fwd i j dO].map .op)) i).2
      = (computeM B opt1 (allCkM B S opt1) 3 (start 1) i).2 :=
  (C105_reproducible (P := par) square_built proper fits separate (described 1) nonf
    (opt := opt1) (dt := 1) rfl rfl (fun _ => determined _ _) .all .all 3 (start 1).comp (start 1).comp rfl rfl
    rfl _ _ (by
      intro e _ hp
      simp only [par] at hp
      simp [four, vecs, hp]) (fun _ _ _ => rfl) _ [] i i dO).1

/-- Three steps of size one. -/
noncomputable def opt3 : Options where
  adaptive := false
  crit := .steps 3
  initialStep := fin 1

/-- A fresh component with pyrevolve. -/
noncomputable def pyStart : World State (PyData State) :=
  ⟨⟨RKState.empty, fin 1, (0, 0), (0, 0)⟩, RKState.empty, Integrator.Ex.ctrl, none,
    ⟨⟨RKState.empty, fin 1, (0, 0), (0, 0)⟩, fun _ => none⟩, []⟩

/-- A case of `C105_pyrevolve`: a schedule that stores the state after the first step and repeats steps from
it, a run and a reverse product, the vectors differing in all entries but the parameter. -/
example (x y z : ℝ) (i dI : StartingValues ℝ squareConf.info.arraySize
    squareConf.info.independentSize) (dO : Outputs squareConf.info.arraySize) :
    let B := rkBackend (intEnv 1)
    let S := rkMem Integrator.Ex.euler (omMOde squareConf layout env) nonf
    let ck := pyCk B opt3 rkRestore pyStart.tis 2 (single 1)
    let ckM := pyCkM B S opt3 rkRestore 2 (single 1)
    (revM B opt3 ckM 4 (doOpsM B S opt3 ckM 4
        ⟨pyStart, ⟨⟨fun _ _ => x, four x y 1 z⟩, fun _ _ => y, fun _ _ => z⟩⟩
        ([.compute i].map .op)) i dO dI).2
      = (rev B opt3 ck 4 (doOps B opt3 ck 4 pyStart [.compute i]) i dO dI).2 := by
  intro B S ck ckM
  obtain ⟨w', v, h⟩ := Integrator.Ex.compute_ok (intEnv 1) (fun _ _ => rfl) opt3 1 3 rfl rfl rfl
    (by simp [opt3]) .no
    ⟨pyStart.tis, RKState.empty, Integrator.Ex.ctrl, none, (), []⟩ i 4 (by omega)
  obtain ⟨-, sl, hl, -⟩ := single_legal 1
  have hrun := (C31_pyrevolve_forward (B := B) (opt := opt3) (R := rkRestore) (e := pyStart.tis) (ch := .no) hl
    (single_noRestore 1) rfl (show 2 + 1 < 4 by omega) pyStart
    ⟨pyStart.tis, RKState.empty, Integrator.Ex.ctrl, none, (), []⟩ rfl rfl i).1
  rw [h] at hrun
  exact (C105_pyrevolve (P := par) square_built proper fits separate (described 1) nonf
    (opt := opt3) (dt := 1) rfl rfl (fun t => by simp [opt3, Crit.finished])
    (fun _ => determined _ _) pyStart.tis 2 (single 1) 4 pyStart rfl _ (by
      intro e _ hp
      simp only [par] at hp
      simp [four, vecs, hp]) [.compute i] ⟨⟨v, hrun⟩, trivial⟩ i dI dO).2.2

end MemoryEx

end Verif.Props
