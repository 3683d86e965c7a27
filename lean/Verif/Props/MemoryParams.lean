/-
C106 with all checkpointers: parameters of the stage problem the user changes between operations.
-/
import Verif.Props.Memory

namespace Verif.Props

open Verif.OM Verif.Metadata Verif.RK Verif.RK.Spec
open Verif.Control Verif.XReal Verif.Integrator

section
variable {C : Conf} {L : Layout} {E : MEnv Integrator.Err ℝ} {P : String × ℕ → Prop} {s : ℕ}

/-- C106 without checkpoints (plain schemes, fixed step size), in full: after any change by the user in
any state of the component, and any operations after it, the parameters are those the user set, and
runs and forward products use them. (Reverse products are not possible without checkpoints.) -/
theorem C106_no_checkpoints (hB : Built C) (hL : L.Proper) (hF : Fits C L)
    (hP : ∀ e ∈ entriesOf (written C), ¬ P e) {v1 : Vectors ℝ}
    {I : Integrator.Env s C.info.arraySize C.info.independentSize 0 (pointSize L)}
    (hI : DescribedBy C L E v1 I) (N : Nonfinite (Memory ℝ) s _ _ 0 (pointSize L))
    {opt : Options} {dt : ℝ} (ha : opt.adaptive = false) (hi : opt.initialStep = fin dt)
    (hD : ∀ i, Determined C L E P dt (I.T.A i i)) (fuel : ℕ)
    (w : MWorld (RKState ℝ s C.info.arraySize C.info.independentSize 0 (pointSize L)) Unit (Memory ℝ))
    (f : Memory ℝ → Memory ℝ) (hm : SameParams L P (f w.mem).vec v1)
    (ops : List (Op (StartingValues ℝ C.info.arraySize C.info.independentSize)
      (Outputs C.info.arraySize)))
    (i di : StartingValues ℝ C.info.arraySize C.info.independentSize)
    (dO : Outputs C.info.arraySize) :
    let B := rkBackend I
    let S := rkMem I.T (omMOde C L E) N
    let w' := doOpsM B S opt (noCkM B S opt) fuel w (.change f :: ops.map .op)
    SameParams L P w'.mem.vec v1 ∧ w'.comp = doOps B opt (noCk B opt) fuel w.comp ops ∧
    (computeM B opt (noCkM B S opt) fuel w' i).2 = (compute B opt (noCk B opt) fuel w'.comp i).2 ∧
    (fwdM B S opt fuel w' i di dO).2 = (fwd B opt fuel w'.comp i di dO).2 := by
  intro B S w'
  have hS := plain_sim (E := E) hB hL hF hP hI N
  have hO := fixed_sizes (E := E) (P := P) (v0 := v1) (I := I) N ha hi hD
  have hK := noCkM_sim hS hO
  obtain ⟨h1, h2, -⟩ := doOpsM_sim hS hK hO fuel ops (w := ⟨w.comp, f w.mem⟩) hm (.inl trivial)
    fun _ => trivial
  exact ⟨h2, h1, (computeM_sim hK hO fuel h2 i).2.1, (fwdM_sim hS hO fuel h2 i di dO).2.1⟩

/-- C106 without checkpoints (embedded schemes, also adaptive), in full. -/
theorem C106_adaptive_no_checkpoints (hB : Built C) (hL : L.Proper) (hF : Fits C L)
    (hP : ∀ e ∈ entriesOf (written C), ¬ P e) {v1 : Vectors ℝ}
    {I : Integrator.Env s C.info.arraySize C.info.independentSize 0 (pointSize L)}
    (hI : DescribedBy C L E v1 I) (bhat : Fin s → ℝ)
    {N : Nonfinite (Memory ℝ) s _ _ 0 (pointSize L)}
    (hN : NonfiniteSim I N (fun w => SameParams L P w.vec v1) (PointParams L P v1))
    {opt : Options} (hD : ∀ h i, Determined C L E P h (I.T.A i i)) (fuel : ℕ)
    (w : MWorld (EmbRKState ℝ s C.info.arraySize C.info.independentSize 0 (pointSize L)) Unit
      (Memory ℝ))
    (f : Memory ℝ → Memory ℝ) (hm : SameParams L P (f w.mem).vec v1)
    (ops : List (Op (StartingValues ℝ C.info.arraySize C.info.independentSize)
      (Outputs C.info.arraySize)))
    (i di : StartingValues ℝ C.info.arraySize C.info.independentSize)
    (dO : Outputs C.info.arraySize) :
    let B := embBackend I bhat
    let S := embMem I.T bhat (omMOde C L E) N
    let w' := doOpsM B S opt (noCkM B S opt) fuel w (.change f :: ops.map .op)
    SameParams L P w'.mem.vec v1 ∧ w'.comp = doOps B opt (noCk B opt) fuel w.comp ops ∧
    (computeM B opt (noCkM B S opt) fuel w' i).2 = (compute B opt (noCk B opt) fuel w'.comp i).2 ∧
    (fwdM B S opt fuel w' i di dO).2 = (fwd B opt fuel w'.comp i di dO).2 := by
  intro B S w'
  have hS := embedded_sim (E := E) hB hL hF hP hI bhat N
  have hO := all_sizes (E := E) (opt := opt) hN hD
  have hK := noCkM_sim hS hO
  obtain ⟨h1, h2, -⟩ := doOpsM_sim hS hK hO fuel ops (w := ⟨w.comp, f w.mem⟩) hm (.inl trivial)
    fun _ => trivial
  exact ⟨h2, h1, (computeM_sim hK hO fuel h2 i).2.1, (fwdM_sim hS hO fuel h2 i di dO).2.1⟩

/-- C106 with all checkpoints (embedded schemes, also adaptive). Missing for the full claim: as for
`C106_parameters_partial`. -/
theorem C106_adaptive_partial (hB : Built C) (hL : L.Proper) (hF : Fits C L)
    (hP : ∀ e ∈ entriesOf (written C), ¬ P e) {v1 : Vectors ℝ}
    {I : Integrator.Env s C.info.arraySize C.info.independentSize 0 (pointSize L)}
    (hI : DescribedBy C L E v1 I) (bhat : Fin s → ℝ)
    {N : Nonfinite (Memory ℝ) s _ _ 0 (pointSize L)}
    (hN : NonfiniteSim I N (fun w => SameParams L P w.vec v1) (PointParams L P v1))
    {opt : Options} (hD : ∀ h i, Determined C L E P h (I.T.A i i)) (fuel : ℕ)
    (w : MWorld (EmbRKState ℝ s C.info.arraySize C.info.independentSize 0 (pointSize L)) (List _)
      (Memory ℝ))
    (f : Memory ℝ → Memory ℝ) (hm : SameParams L P (f w.mem).vec v1)
    (ops : List (Op (StartingValues ℝ C.info.arraySize C.info.independentSize)
      (Outputs C.info.arraySize)))
    (hr : w.comp.cached = none ∨ RunFirst ops)
    (i di : StartingValues ℝ C.info.arraySize C.info.independentSize)
    (dO : Outputs C.info.arraySize) :
    let B := embBackend I bhat
    let S := embMem I.T bhat (omMOde C L E) N
    let w' := doOpsM B S opt (allCkM B S opt) fuel w (.change f :: ops.map .op)
    SameParams L P w'.mem.vec v1 ∧ w'.comp = doOps B opt (allCk B opt) fuel w.comp ops ∧
    (computeM B opt (allCkM B S opt) fuel w' i).2 = (compute B opt (allCk B opt) fuel w'.comp i).2 ∧
    (fwdM B S opt fuel w' i di dO).2 = (fwd B opt fuel w'.comp i di dO).2 := by
  intro B S w'
  have hS := embedded_sim (E := E) hB hL hF hP hI bhat N
  have hO := all_sizes (E := E) (opt := opt) hN hD
  have hK := allCkM_sim hS hO (f w.mem) hm
  obtain ⟨h1, h2⟩ := doOpsM_sim_new hS hK hO fuel ops (w := ⟨w.comp, f w.mem⟩) hm (.inl trivial) hr
  exact ⟨h2, h1, (computeM_sim hK hO fuel h2 i).2.1, (fwdM_sim hS hO fuel h2 i di dO).2.1⟩

/-- C106 with pyrevolve (plain schemes, fixed step size), for every schedule. Missing for the full claim:
as for `C106_parameters_partial`, and failed operations between the change and the run. -/
theorem C106_pyrevolve_partial (hB : Built C) (hL : L.Proper) (hF : Fits C L)
    (hP : ∀ e ∈ entriesOf (written C), ¬ P e) {v1 : Vectors ℝ}
    {I : Integrator.Env s C.info.arraySize C.info.independentSize 0 (pointSize L)}
    (hI : DescribedBy C L E v1 I) (N : Nonfinite (Memory ℝ) s _ _ 0 (pointSize L))
    {opt : Options} {dt : ℝ} (ha : opt.adaptive = false) (hi : opt.initialStep = fin dt)
    (hf : ∀ t, ¬ opt.crit.finished 0 t) (hD : ∀ i, Determined C L E P dt (I.T.A i i))
    (empty : IState _) (n : ℕ) (sched : Schedule) (fuel : ℕ)
    (w : MWorld (RKState ℝ s C.info.arraySize C.info.independentSize 0 (pointSize L)) (PyData _)
      (Memory ℝ))
    (f : Memory ℝ → Memory ℝ) (hm : SameParams L P (f w.mem).vec v1)
    (ops : List (Op (StartingValues ℝ C.info.arraySize C.info.independentSize)
      (Outputs C.info.arraySize)))
    (hok : AllSucceed (rkBackend I) opt (pyCk (rkBackend I) opt rkRestore empty n sched) fuel w.comp
      ops)
    (hr : w.comp.cached = none ∨ RunFirst ops)
    (i di : StartingValues ℝ C.info.arraySize C.info.independentSize)
    (dO : Outputs C.info.arraySize) :
    let B := rkBackend I
    let S := rkMem I.T (omMOde C L E) N
    let ck := pyCk B opt rkRestore empty n sched
    let ckM := pyCkM B S opt rkRestore n sched
    let w' := doOpsM B S opt ckM fuel w (.change f :: ops.map .op)
    SameParams L P w'.mem.vec v1 ∧ w'.comp = doOps B opt ck fuel w.comp ops ∧
    (computeM B opt ckM fuel w' i).2 = (compute B opt ck fuel w'.comp i).2 ∧
    (fwdM B S opt fuel w' i di dO).2 = (fwd B opt fuel w'.comp i di dO).2 := by
  intro B S ck ckM w'
  have hS := plain_sim (E := E) hB hL hF hP hI N
  have hO := fixed_sizes (E := E) (P := P) (v0 := v1) (I := I) N ha hi hD
  have hK := pyCkM_sim hS hO (R := rkRestore) (fun _ _ h => h) (fun _ _ h => h) empty n sched
    (f w.mem) hm
  obtain ⟨h1, h2⟩ := doOpsM_sim_new hS hK hO fuel ops (w := ⟨w.comp, f w.mem⟩) hm (.inr ⟨hf, hok⟩) hr
  exact ⟨h2, h1, (computeM_sim hK hO fuel h2 i).2.1, (fwdM_sim hS hO fuel h2 i di dO).2.1⟩

/-- C106 with pyrevolve (embedded schemes, also adaptive). -/
theorem C106_pyrevolve_adaptive_partial (hB : Built C) (hL : L.Proper) (hF : Fits C L)
    (hP : ∀ e ∈ entriesOf (written C), ¬ P e) {v1 : Vectors ℝ}
    {I : Integrator.Env s C.info.arraySize C.info.independentSize 0 (pointSize L)}
    (hI : DescribedBy C L E v1 I) (bhat : Fin s → ℝ)
    {N : Nonfinite (Memory ℝ) s _ _ 0 (pointSize L)}
    (hN : NonfiniteSim I N (fun w => SameParams L P w.vec v1) (PointParams L P v1))
    {opt : Options} (hf : ∀ t, ¬ opt.crit.finished 0 t)
    (hD : ∀ h i, Determined C L E P h (I.T.A i i))
    (empty : IState _) (n : ℕ) (sched : Schedule) (fuel : ℕ)
    (w : MWorld (EmbRKState ℝ s C.info.arraySize C.info.independentSize 0 (pointSize L)) (PyData _)
      (Memory ℝ))
    (f : Memory ℝ → Memory ℝ) (hm : SameParams L P (f w.mem).vec v1)
    (ops : List (Op (StartingValues ℝ C.info.arraySize C.info.independentSize)
      (Outputs C.info.arraySize)))
    (hok : AllSucceed (embBackend I bhat) opt
      (pyCk (embBackend I bhat) opt embRestore empty n sched) fuel w.comp ops)
    (hr : w.comp.cached = none ∨ RunFirst ops)
    (i di : StartingValues ℝ C.info.arraySize C.info.independentSize)
    (dO : Outputs C.info.arraySize) :
    let B := embBackend I bhat
    let S := embMem I.T bhat (omMOde C L E) N
    let ck := pyCk B opt embRestore empty n sched
    let ckM := pyCkM B S opt embRestore n sched
    let w' := doOpsM B S opt ckM fuel w (.change f :: ops.map .op)
    SameParams L P w'.mem.vec v1 ∧ w'.comp = doOps B opt ck fuel w.comp ops ∧
    (computeM B opt ckM fuel w' i).2 = (compute B opt ck fuel w'.comp i).2 ∧
    (fwdM B S opt fuel w' i di dO).2 = (fwd B opt fuel w'.comp i di dO).2 := by
  intro B S ck ckM w'
  have hS := embedded_sim (E := E) hB hL hF hP hI bhat N
  have hO := all_sizes (E := E) (opt := opt) hN hD
  have hK := pyCkM_sim hS hO (R := embRestore) (fun _ _ h => h) (fun _ _ h => h) empty n sched
    (f w.mem) hm
  obtain ⟨h1, h2⟩ := doOpsM_sim_new hS hK hO fuel ops (w := ⟨w.comp, f w.mem⟩) hm (.inr ⟨hf, hok⟩) hr
  exact ⟨h2, h1, (computeM_sim hK hO fuel h2 i).2.1, (fwdM_sim hS hO fuel h2 i di dO).2.1⟩

/-- C106 is violated with pyrevolve, too, for every schedule: after a run at `i` with the parameters of
`v0`, any change of the stage problem by the user and a reverse product at `i`, the parameters are those
of `v0` again, and later runs and forward products are those with `v0`. -/
theorem C106_pyrevolve_resets_violated (hB : Built C) (hL : L.Proper) (hF : Fits C L)
    (hP : ∀ e ∈ entriesOf (written C), ¬ P e) {v0 : Vectors ℝ} (hs : 0 < s)
    {I : Integrator.Env s C.info.arraySize C.info.independentSize 0 (pointSize L)}
    (hI : DescribedBy C L E v0 I) (N : Nonfinite (Memory ℝ) s _ _ 0 (pointSize L))
    {opt : Options} {dt : ℝ} (ha : opt.adaptive = false) (hi : opt.initialStep = fin dt)
    (hD : ∀ i, Determined C L E P dt (I.T.A i i)) (empty : IState _) (n : ℕ) (sched : Schedule)
    (fuel : ℕ)
    (w : MWorld (RKState ℝ s C.info.arraySize C.info.independentSize 0 (pointSize L)) (PyData _)
      (Memory ℝ))
    (hm : SameParams L P w.mem.vec v0) (f : Memory ℝ → Memory ℝ)
    (i dI j dj : StartingValues ℝ C.info.arraySize C.info.independentSize)
    (dO : Outputs C.info.arraySize) {v : Outputs C.info.arraySize}
    (hv : (compute (rkBackend I) opt (pyCk (rkBackend I) opt rkRestore empty n sched) fuel w.comp i).2
      = .ok v) :
    let B := rkBackend I
    let S := rkMem I.T (omMOde C L E) N
    let ck := pyCk B opt rkRestore empty n sched
    let ckM := pyCkM B S opt rkRestore n sched
    let w' := doOpsM B S opt ckM fuel w [.op (.compute i), .change f, .op (.rev i dO dI)]
    SameParams L P w'.mem.vec v0 ∧
    (computeM B opt ckM fuel w' j).2 = (compute B opt ck fuel w'.comp j).2 ∧
    (fwdM B S opt fuel w' j dj dO).2 = (fwd B opt fuel w'.comp j dj dO).2 := by
  intro B S ck ckM w'
  have hS := plain_sim (E := E) hB hL hF hP hI N
  have hO := fixed_sizes (E := E) (P := P) (v0 := v0) (I := I) N ha hi hD
  have hK := pyCkM_sim hS hO (R := rkRestore) (fun _ _ h => h) (fun _ _ h => h) empty n sched
    w.mem hm
  obtain ⟨h1, h2, h3, h4⟩ := computeM_sim (B := B) hK hO fuel hm i
  have hu := h4 (.inr ⟨v, hv⟩)
  have hadj : ∀ (m : Memory ℝ) d p h, (∀ i, PointParams L P v0 (d.linearizationPoints i)) →
      SameParams L P (S.adj m d p h).1.vec v0 := by
    intro m d p h hd
    refine computeStepAdjointM_restores
      (Inv := fun w : Memory ℝ => SameParams L P w.vec v0) (Good := PointParams L P v0)
      (S := omMOde C L E) ?_ hs I.T (toReal h) m d p hd
    intro m p z h a hp e he hq
    exact ((setPoint_congr hL (List.ofFn p) m.vec v0).2 e he).trans (hp e he hq)
  have hc : cacheOk B (compute B opt ck fuel w.comp i).1 i = true := by
    have : (compute B opt ck fuel w.comp i).1.cached = some (rkLoad w.comp.tis.disc i) := by
      simp only [compute]
      split <;> rfl
    simp only [cacheOk, this]
    exact decide_eq_true ⟨rfl, rfl⟩
  have hinv : SameParams L P w'.mem.vec v0 := by
    change SameParams L P (revM B opt ckM fuel ⟨(computeM B opt ckM fuel w i).1.comp, _⟩ i dO dI).1.mem.vec
      v0
    rw [revM_cached_mem (by rw [h1]; exact hc)]
    refine pyReverseM_restores hS hO (R := rkRestore) (fun _ _ h => h) (fun _ _ h => h)
      hadj sched _ _ _ _ _ ?_
    rw [h1]
    exact hu
  exact ⟨hinv, (computeM_sim hK hO fuel hinv j).2.1, (fwdM_sim hS hO fuel hinv j dj dO).2.1⟩

end

namespace MemoryEx

/-- A case of `C106_no_checkpoints`: a run, a change of the parameter to 2, a reverse product (it
raises), then a run with the new parameter. -/
example (w : MWorld State Unit (Memory ℝ)) (j dI : StartingValues ℝ squareConf.info.arraySize
    squareConf.info.independentSize) (dO : Outputs squareConf.info.arraySize) :
    let B := rkBackend (intEnv 2)
    let S := rkMem Integrator.Ex.euler (omMOde squareConf layout env) nonf
    let set2 : Memory ℝ → Memory ℝ := fun w => { w with vec := vecs 2 }
    let w1 := (computeM B opt1 (noCkM B S opt1) 3 w j).1
    ∃ v, (computeM B opt1 (noCkM B S opt1) 3 (doOpsM B S opt1 (noCkM B S opt1) 3 w1
      (.change set2 :: [Op.rev j dO dI].map .op)) inp).2 = .ok v := by
  intro B S set2 w1
  obtain ⟨-, -, h, -⟩ := C106_no_checkpoints (P := par) (v1 := vecs 2) square_built proper fits
    separate (described 2) nonf (opt := opt1) (dt := 1) rfl rfl (fun _ => determined _ _) 3
    w1 set2 (fun _ _ _ => rfl) [.rev j dO dI] inp inp dO
  obtain ⟨w', v, hv⟩ := Integrator.Ex.compute_ok (intEnv 2) (fun _ _ => rfl) opt1 1 1 rfl rfl rfl
    (by simp [opt1]) .no
    (doOpsM B S opt1 (noCkM B S opt1) 3 w1 (.change set2 :: [Op.rev j dO dI].map .op)).comp inp 3
    (by omega)
  exact ⟨v, h.trans (congrArg Prod.snd hv)⟩

theorem nonfinite_sim (k : ℝ) : NonfiniteSim (intEnv k) nonf
    (fun w => SameParams layout par w.vec (vecs k)) (PointParams layout par (vecs k)) where
  same _ _ _ _ := rfl
  inv _ _ _ h := h
  good _ _ _ h := by cases h

/-- The states of embedded schemes. -/
abbrev EmbState := EmbRKState ℝ 1 squareConf.info.arraySize squareConf.info.independentSize 0
  (pointSize layout)

/-- Cases of the theorems for adaptive stepping. -/
example (bhat : Fin 1 → ℝ) {opt : Options} (w : MWorld EmbState Unit (Memory ℝ))
    (w' : MWorld EmbState (List (IState EmbState)) (Memory ℝ)) (f : Memory ℝ → Memory ℝ)
    (hm : SameParams layout par (f w.mem).vec (vecs 2))
    (hm' : SameParams layout par (f w'.mem).vec (vecs 2))
    (j di : StartingValues ℝ squareConf.info.arraySize squareConf.info.independentSize)
    (dO : Outputs squareConf.info.arraySize) :=
  And.intro
    (C106_adaptive_no_checkpoints (P := par) square_built proper fits separate (described 2) bhat
      (nonfinite_sim 2) (opt := opt) (fun _ _ => determined _ _) 3 w f hm [.compute j, .rev j dO di] j di
      dO)
    (C106_adaptive_partial (P := par) square_built proper fits separate (described 2) bhat
      (nonfinite_sim 2) (opt := opt) (fun _ _ => determined _ _) 3 w' f hm'
      [.fwd j di dO, .compute j, .rev j dO di] (.inr trivial) j di dO)

/-- Runs with pyrevolve succeed. -/
theorem pyRun (k : ℝ) (i : StartingValues ℝ squareConf.info.arraySize
    squareConf.info.independentSize) :
    ∃ v, (compute (rkBackend (intEnv k)) opt3 (pyCk (rkBackend (intEnv k)) opt3 rkRestore pyStart.tis 2
      (single 1)) 4 pyStart i).2 = .ok v := by
  obtain ⟨w', v, h⟩ := Integrator.Ex.compute_ok (intEnv k) (fun _ _ => rfl) opt3 1 3 rfl rfl rfl
    (by simp [opt3]) .no
    ⟨pyStart.tis, RKState.empty, Integrator.Ex.ctrl, none, (), []⟩ i 4 (by omega)
  obtain ⟨-, sl, hl, -⟩ := single_legal 1
  have hrun := (C31_pyrevolve_forward (B := rkBackend (intEnv k)) (opt := opt3) (R := rkRestore)
    (e := pyStart.tis) (ch := .no) hl
    (single_noRestore 1) rfl (show 2 + 1 < 4 by omega) pyStart
    ⟨pyStart.tis, RKState.empty, Integrator.Ex.ctrl, none, (), []⟩ rfl rfl i).1
  rw [h] at hrun
  exact ⟨v, hrun⟩

/-- A case of `C106_pyrevolve_partial`: the parameter is set to 2 before the first run. -/
example (m : Memory ℝ) (i dI : StartingValues ℝ squareConf.info.arraySize
    squareConf.info.independentSize) (dO : Outputs squareConf.info.arraySize) :=
  let ⟨v, hv⟩ := pyRun 2 i
  C106_pyrevolve_partial (P := par) (v1 := vecs 2) square_built proper fits separate (described 2)
    nonf (opt := opt3) (dt := 1) rfl rfl (fun t => by simp [opt3, Crit.finished])
    (fun _ => determined _ _) pyStart.tis 2 (single 1) 4 ⟨pyStart, m⟩
    (fun w => { w with vec := vecs 2 }) (fun _ _ _ => rfl) [.compute i] ⟨⟨v, hv⟩, trivial⟩ (.inl rfl)
    i dI dO

/-- A case of `C106_pyrevolve_resets_violated`: parameter 1, three steps, parameter 2, a reverse product;
the parameter is 1 again. -/
example (i dI : StartingValues ℝ squareConf.info.arraySize squareConf.info.independentSize)
    (dO : Outputs squareConf.info.arraySize) :
    let B := rkBackend (intEnv 1)
    let S := rkMem Integrator.Ex.euler (omMOde squareConf layout env) nonf
    let ckM := pyCkM B S opt3 rkRestore 2 (single 1)
    let w' := doOpsM B S opt3 ckM 4 ⟨pyStart, ⟨vecs 1, fun _ _ => 0, fun _ _ => 0⟩⟩
      [.op (.compute i), .change (fun w => { w with vec := vecs 2 }), .op (.rev i dO dI)]
    w'.mem.vec.outputs "k" 0 = 1 := by
  intro B S ckM w'
  obtain ⟨v, hv⟩ := pyRun 1 i
  have := (C106_pyrevolve_resets_violated (P := par) (v0 := vecs 1) square_built proper fits separate
    one_pos (described 1) nonf (opt := opt3) (dt := 1) rfl rfl (fun _ => determined _ _) pyStart.tis 2
    (single 1) 4 ⟨pyStart, ⟨vecs 1, fun _ _ => 0, fun _ _ => 0⟩⟩ (fun _ _ _ => rfl)
    (fun w => { w with vec := vecs 2 }) i dI i dI dO hv).1 ("k", 0) (by decide +kernel) rfl
  exact this.trans (by simp [vecs, four])

end MemoryEx

end Verif.Props
