/-
The OpenMDAO backend as a discretized ODE of the Runge-Kutta model, and its derivative by the
implicit function theorem.
-/
import Verif.OpenMDAO.Lemmas
import Verif.RK.Fderiv
import Verif.Integrator.RK
import Mathlib.Analysis.Calculus.FDeriv.OfCompLeft
import Mathlib.Analysis.Calculus.FDeriv.Pi
import Mathlib.Topology.Algebra.Module.FiniteDimension
import Mathlib.LinearAlgebra.FiniteDimensional.Basic
import Mathlib.LinearAlgebra.Pi

namespace Verif.OM

open Verif.Metadata Finset Verif.RK Verif.RK.Spec

/-- A vector of `n` entries as array. -/
def flat {n : ℕ} (y : Fin n → ℝ) : Flat ℝ := fun i => if h : i < n then y ⟨i, h⟩ else 0

/-- The arguments of an evaluation as arrays. -/
def toInputs {n m : ℕ} (z : OdeInput ℝ n m) : Inputs ℝ where
  time := z.time
  step := flat z.stepInput
  stage := flat z.stageInput
  indep := flat z.independentInput

/-- The backend as `DiscretizedODE`, openmdao_ode.py 118-227, with the stage problem in the
state `v0` before every call. Stage state and independent output are zero and empty. -/
noncomputable def omOde (C : Conf) (L : Layout) (E : Env ℝ) (v0 : Vectors ℝ) :
    ODE ℝ C.info.arraySize C.info.independentSize 0 (pointSize L) where
  computeUpdate z h a :=
    (⟨fun i => (computeUpdate C L E v0 (toInputs z) h a).2.1 i, 0, 0⟩,
      fun i => (computeUpdate C L E v0 (toInputs z) h a).2.2.getD i 0)
  computeUpdateDerivative p z h a :=
    ⟨fun i => (computeDerivative C L E v0 (List.ofFn p) (toInputs z) h a).2 i, 0, 0⟩
  computeUpdateAdjoint p w h a :=
    ⟨fun i => (computeAdjoint C L E v0 (List.ofFn p) (flat w.stageUpdate) h a).2.step i,
      fun i => (computeAdjoint C L E v0 (List.ofFn p) (flat w.stageUpdate) h a).2.stage i,
      fun i => (computeAdjoint C L E v0 (List.ofFn p) (flat w.stageUpdate) h a).2.indep i,
      (computeAdjoint C L E v0 (List.ofFn p) (flat w.stageUpdate) h a).2.time⟩

/-- The entries of the outputs of the stage problem. -/
abbrev Ent (L : Layout) := {e : String × ℕ // e ∈ entriesOf L.outputs}

/-- The outputs of the stage problem as a point of a normed space. -/
def restrict (L : Layout) (x : Vec ℝ) : Ent L → ℝ := fun e => x e.1.1 e.1.2

/-- The nonlinear solve finds a solution of the stage problem: outputs that are set from
outside keep their values, the residuals `G` of the other ones vanish; the linear solves use the
derivative of the residuals (`-1` on the diagonal for the outputs that are set); the solution
depends continuously on the arguments. -/
structure SolvesProblem (C : Conf) (L : Layout) (E : Env ℝ) (v0 : Vectors ℝ)
    (J : Vectors ℝ → ℝ → ℝ → String × ℕ → String × ℕ → ℝ)
    (G : ℝ → ℝ → (Ent L → ℝ) → Ent L → ℝ) (h a : ℝ) : Prop where
  kept : ∀ v, ∀ e ∈ entriesOf (written C), (E.solve v h a).outputs e.1 e.2 = v.outputs e.1 e.2
  solved : ∀ v (e : Ent L), e.1 ∉ entriesOf (written C) →
    G h a (restrict L (E.solve v h a).outputs) e = 0
  jacobian : ∀ v, ∃ G' : (Ent L → ℝ) →L[ℝ] (Ent L → ℝ),
    HasFDerivAt (G h a) G' (restrict L (E.solve v h a).outputs) ∧
    ∀ e e' : Ent L, e.1 ∉ entriesOf (written C) →
      J (E.solve v h a) h a e.1 e'.1 = G' (fun j => if e' = j then 1 else 0) e
  sources : ∀ v, ∀ e ∈ entriesOf (written C), ∀ e' ∈ entriesOf L.outputs,
    J v h a e e' = if e = e' then -1 else 0
  continuous : Continuous fun z : InSpace C.info.arraySize C.info.independentSize =>
    restrict L (computeUpdate C L E v0 (toInputs (toIn z)) h a).1.outputs

/-! ### Points and pairings -/

theorem flat_apply {n : ℕ} (y : Fin n → ℝ) (i : Fin n) : flat y i = y i := by
  unfold flat; rw [dif_pos i.2]

theorem sum_flat {n : ℕ} (y : Fin n → ℝ) (w : Flat ℝ) :
    ∑ i ∈ range n, flat y i * w i = ∑ i : Fin n, y i * w i := by
  rw [Finset.sum_range fun i => flat y i * w i]
  exact Finset.sum_congr rfl fun i _ => by rw [flat_apply]

theorem omOde_adjoint_of_pairing {C : Conf} (hC : C.info.Sound) {L : Layout} (hL : L.Proper)
    (hF : Fits C L) {E : Env ℝ} (v0 : Vectors ℝ) (p : Fin (pointSize L) → ℝ) (h a : ℝ)
    (hp : ∀ v b c, pairing (entriesOf L.outputs) c (E.solveFwd v h a b)
      = pairing (entriesOf L.outputs) b (E.solveRev v h a c)) :
    AdjointPair (omOde C L E v0) p h a := by
  intro din dout
  have h3 := derivative_adjoint_of_pairing hC hL hF (hp (setPoint L (List.ofFn p) v0)
    (inputsToVec C (-1) (toInputs din) fun _ _ => 0)
    (outputsToVec C (-1) (flat dout.stageUpdate) fun _ _ => 0))
  rw [sum_flat] at h3
  unfold pairInputs at h3
  unfold dotOut dotIn dot
  simp only [omOde, Pi.zero_apply, mul_zero, Finset.sum_const_zero, add_zero]
  refine h3.trans ?_
  simp only [toInputs]
  rw [sum_flat, sum_flat, sum_flat]
  simp only [computeAdjoint, Inputs.zero, mul_comm (din.stepInput _), mul_comm (din.stageInput _),
    mul_comm (din.independentInput _)]
  ring

theorem omOde_adjoint {C : Conf} (hC : C.info.Sound) {L : Layout} (hL : L.Proper)
    (hF : Fits C L) {E : Env ℝ} (v0 : Vectors ℝ)
    {J : Vectors ℝ → ℝ → ℝ → String × ℕ → String × ℕ → ℝ} (hJ : SolvesLinear L E J)
    (p : Fin (pointSize L) → ℝ) (h a : ℝ) : AdjointPair (omOde C L E v0) p h a :=
  omOde_adjoint_of_pairing hC hL hF v0 p h a fun v b c =>
    solves_pairing (hJ.fwd v h a b) (hJ.rev v h a c)

theorem omOde_noStageState (C : Conf) (L : Layout) (E : Env ℝ) (v0 : Vectors ℝ) :
    Integrator.NoStageState (omOde C L E v0) := fun _ _ _ _ => rfl

theorem ofFn_getD {l : List ℝ} {n : ℕ} (h : l.length = n) :
    List.ofFn (fun i : Fin n => l.getD i 0) = l := by
  subst h
  apply List.ext_getElem
  · simp
  · intro i h1 h2
    simp

theorem omOde_point (C : Conf) (L : Layout) (E : Env ℝ) (v0 : Vectors ℝ)
    (z : OdeInput ℝ C.info.arraySize C.info.independentSize) (h a : ℝ) :
    List.ofFn ((omOde C L E v0).computeUpdate z h a).2 =
      getPoint L (computeUpdate C L E v0 (toInputs z) h a).1 := by
  refine ofFn_getD (l := getPoint L (computeUpdate C L E v0 (toInputs z) h a).1) ?_
  unfold getPoint pointSize
  rw [List.length_append, asarray_length, asarray_length]

/-! ### Linearity of the translation -/

theorem fold_readBy_add (nm : Quantity → Option String) (x x' : Vec ℝ) :
    ∀ (qs : List Quantity) (y y' : Flat ℝ) (i : ℕ),
      qs.foldl (readBy nm (x + x')) (y + y') i =
        qs.foldl (readBy nm x) y i + qs.foldl (readBy nm x') y' i
  | [], _, _, _ => rfl
  | q :: qs, y, y', i => by
      simp only [List.foldl_cons]
      rw [← fold_readBy_add nm x x' qs]
      suffices hs : readBy nm (x + x') (y + y') q = readBy nm x y q + readBy nm x' y' q by rw [hs]
      funext j
      simp only [readBy, Pi.add_apply]
      by_cases hl : q.arr.isLocal = true
      · simp only [hl, if_true]
        cases nm q with
        | none => rfl
        | some s => simp only [getVar, Pi.add_apply]; split_ifs <;> rfl
      · simp only [hl]; rfl

theorem fold_readBy_smul (nm : Quantity → Option String) (c : ℝ) (x : Vec ℝ) :
    ∀ (qs : List Quantity) (y : Flat ℝ) (i : ℕ),
      qs.foldl (readBy nm (c • x)) (c • y) i = c * qs.foldl (readBy nm x) y i
  | [], _, _ => rfl
  | q :: qs, y, i => by
      simp only [List.foldl_cons]
      rw [← fold_readBy_smul nm c x qs]
      suffices hs : readBy nm (c • x) (c • y) q = c • readBy nm x y q by rw [hs]
      funext j
      simp only [readBy, Pi.smul_apply]
      by_cases hl : q.arr.isLocal = true
      · simp only [hl, if_true]
        cases nm q with
        | none => rfl
        | some s => simp only [getVar, Pi.smul_apply]; split_ifs <;> rfl
      · simp only [hl]; rfl

/-- Extension of a point by zero. -/
def extend (L : Layout) (z : Ent L → ℝ) : Vec ℝ := fun n k =>
  if h : (n, k) ∈ entriesOf L.outputs then z ⟨(n, k), h⟩ else 0

theorem restrict_extend (L : Layout) (z : Ent L → ℝ) : restrict L (extend L z) = z := by
  funext e
  unfold restrict extend
  rw [dif_pos e.2]

theorem extend_restrict (L : Layout) (x : Vec ℝ) {n : String} {k : ℕ}
    (h : (n, k) ∈ entriesOf L.outputs) : extend L (restrict L x) n k = x n k := by
  unfold restrict extend
  rw [dif_pos h]

/-- The stage update as a linear function of the outputs. -/
noncomputable def readL (C : Conf) (L : Layout) :
    (Ent L → ℝ) →ₗ[ℝ] (Fin C.info.arraySize → ℝ) where
  toFun z i := vecToOutputs C (extend L z) (fun _ => 0) i
  map_add' z z' := by
    funext i
    simp only [Pi.add_apply]
    rw [vecToOutputs_eq, vecToOutputs_eq, vecToOutputs_eq, ← fold_readBy_add]
    have e1 : extend L (z + z') = extend L z + extend L z' := by
      funext n k
      simp only [extend, Pi.add_apply]
      split_ifs <;> simp
    have e2 : (fun _ => 0 : Flat ℝ) + (fun _ => 0) = fun _ => 0 := by funext j; simp
    rw [e1, e2]
  map_smul' c z := by
    funext i
    simp only [Pi.smul_apply, RingHom.id_apply, smul_eq_mul]
    rw [vecToOutputs_eq, vecToOutputs_eq, ← fold_readBy_smul]
    have e1 : extend L (c • z) = c • extend L z := by
      funext n k
      simp only [extend, Pi.smul_apply]
      split_ifs <;> simp
    have e2 : c • (fun _ => 0 : Flat ℝ) = fun _ => 0 := by funext j; simp
    rw [e1, e2]

theorem mem_delivered {C : Conf} {q : Quantity} (hq : q ∈ C.info.quantities)
    (hl : q.arr.isLocal = true) {s : String} (hs : q.stageOutput = some s) :
    (s, q.arr.stop - q.arr.start) ∈ delivered C := by
  refine List.mem_flatMap.mpr ⟨q, hq, ?_⟩
  unfold slot
  rw [if_pos hl, hs]
  simp

theorem readL_restrict {C : Conf} (hC : C.info.Sound) {L : Layout} (hF : Fits C L) (x : Vec ℝ) (i : Fin C.info.arraySize) :
    readL C L (restrict L x) i = vecToOutputs C x (fun _ => 0) i := by
  change vecToOutputs C (extend L (restrict L x)) (fun _ => 0) i = _
  rw [vecToOutputs_eq, vecToOutputs_eq]
  obtain ⟨j, ⟨q, hj, h2, h3⟩, _⟩ := hC.laid.unique i (Nat.zero_le _) i.2
  have hq : q ∈ C.info.quantities := List.mem_of_getElem? hj
  have hl : q.arr.isLocal = true := by
    rcases hC.laid.bound q hq with h | h
    · exact h.1
    · omega
  obtain ⟨s, h4⟩ := Option.isSome_iff_exists.mp (hC.output q hq hl)
  rw [fold_readBy_covered _ _ _ _ _ _ hC.laid q hq hl s h4 i h2 h3,
    fold_readBy_covered _ _ _ _ _ _ hC.laid q hq hl s h4 i h2 h3]
  refine extend_restrict L x ?_
  exact mem_entriesOf.mpr ⟨_, hF.delivered _ (mem_delivered hq hl h4), by simp only; omega⟩

/-- Sum of arguments. -/
def addInputs (u u' : Inputs ℝ) : Inputs ℝ :=
  ⟨u.time + u'.time, u.step + u'.step, u.stage + u'.stage, u.indep + u'.indep⟩

/-- Multiple of arguments. -/
def smulInputs (c : ℝ) (u : Inputs ℝ) : Inputs ℝ :=
  ⟨c * u.time, c • u.step, c • u.stage, c • u.indep⟩

theorem setVar_add (x x' : Vec ℝ) (name : String) (f : ℝ) (y y' : Flat ℝ) (s : ℕ) :
    setVar (x + x') name f (y + y') s = setVar x name f y s + setVar x' name f y' s := by
  funext n k
  unfold setVar
  by_cases h : n = name
  · subst h; simp [Function.update_self]; ring
  · simp [Function.update_of_ne h]

theorem setVar_smul (c : ℝ) (x : Vec ℝ) (name : String) (f : ℝ) (y : Flat ℝ) (s : ℕ) :
    setVar (c • x) name f (c • y) s = c • setVar x name f y s := by
  funext n k
  unfold setVar
  by_cases h : n = name
  · subst h; simp [Function.update_self]; ring
  · simp [Function.update_of_ne h]

theorem foldl_add {α : Type} {f f' f'' : Vec ℝ → α → Vec ℝ}
    (h : ∀ x x' a, f'' (x + x') a = f x a + f' x' a) :
    ∀ (l : List α) (x x' : Vec ℝ), l.foldl f'' (x + x') = l.foldl f x + l.foldl f' x'
  | [], _, _ => rfl
  | a :: l, x, x' => by
      simp only [List.foldl_cons]
      rw [h, foldl_add h l]

theorem foldl_smul {α : Type} (c : ℝ) {f f'' : Vec ℝ → α → Vec ℝ}
    (h : ∀ x a, f'' (c • x) a = c • f x a) :
    ∀ (l : List α) (x : Vec ℝ), l.foldl f'' (c • x) = c • l.foldl f x
  | [], _ => rfl
  | a :: l, x => by
      simp only [List.foldl_cons]
      rw [h, foldl_smul c h l]

theorem inputsToVec_add (C : Conf) (f : ℝ) (u u' : Inputs ℝ) (x x' : Vec ℝ) :
    inputsToVec C f (addInputs u u') (x + x') = inputsToVec C f u x + inputsToVec C f u' x' := by
  unfold inputsToVec
  have h1 : writeTime C f (addInputs u u') (x + x') = writeTime C f u x + writeTime C f u' x' := by
    unfold writeTime
    cases C.info.timeVariable with
    | none => rfl
    | some t =>
      funext n k
      by_cases h : n = C.source t
      · subst h; simp [Function.update_self, addInputs]; ring
      · simp [Function.update_of_ne h]
  rw [h1, foldl_add (f := writeState C f u) (f' := writeState C f u'),
    foldl_add (f := writeIndep C f u) (f' := writeIndep C f u')]
  · intro x x' q
    unfold writeIndep
    by_cases hl : q.arr.isLocal = true
    · simp only [hl, if_true]
      cases q.independentInput with
      | none => rfl
      | some s => exact setVar_add _ _ _ _ _ _ _
    · simp only [hl]; rfl
  · intro x x' q
    unfold writeState
    by_cases hl : q.arr.isLocal = true
    · simp only [hl, if_true]
      cases q.stepInput with
      | none => rfl
      | some s =>
        cases q.accumulated with
        | none => exact setVar_add _ _ _ _ _ _ _
        | some a =>
          simp only [addInputs]
          rw [setVar_add, setVar_add]
    · simp only [hl]; rfl

theorem inputsToVec_smul (C : Conf) (f c : ℝ) (u : Inputs ℝ) (x : Vec ℝ) :
    inputsToVec C f (smulInputs c u) (c • x) = c • inputsToVec C f u x := by
  unfold inputsToVec
  have h1 : writeTime C f (smulInputs c u) (c • x) = c • writeTime C f u x := by
    unfold writeTime
    cases C.info.timeVariable with
    | none => rfl
    | some t =>
      funext n k
      by_cases h : n = C.source t
      · subst h; simp [Function.update_self, smulInputs]; ring
      · simp [Function.update_of_ne h]
  rw [h1, foldl_smul c (f := writeState C f u), foldl_smul c (f := writeIndep C f u)]
  · intro x q
    unfold writeIndep
    by_cases hl : q.arr.isLocal = true
    · simp only [hl, if_true]
      cases q.independentInput with
      | none => rfl
      | some s => exact setVar_smul _ _ _ _ _ _
    · simp only [hl]; rfl
  · intro x q
    unfold writeState
    by_cases hl : q.arr.isLocal = true
    · simp only [hl, if_true]
      cases q.stepInput with
      | none => rfl
      | some s =>
        cases q.accumulated with
        | none => exact setVar_smul _ _ _ _ _ _
        | some a =>
          simp only [smulInputs]
          rw [setVar_smul, setVar_smul]
    · simp only [hl]; rfl

theorem flat_add {n : ℕ} (y y' : Fin n → ℝ) : flat (y + y') = flat y + flat y' := by
  funext i
  simp only [flat, Pi.add_apply]
  split_ifs <;> simp

theorem flat_smul {n : ℕ} (c : ℝ) (y : Fin n → ℝ) : flat (c • y) = c • flat y := by
  funext i
  simp only [flat, Pi.smul_apply]
  split_ifs <;> simp

/-- The right-hand side of the forward solve as a linear function of the perturbation. -/
noncomputable def rhsL (C : Conf) (L : Layout) :
    InSpace C.info.arraySize C.info.independentSize →ₗ[ℝ] (Ent L → ℝ) where
  toFun z := restrict L (inputsToVec C (-1) (toInputs (toIn z)) 0)
  map_add' z z' := by
    have e : toInputs (toIn (z + z')) = addInputs (toInputs (toIn z)) (toInputs (toIn z')) := by
      simp only [toInputs, toIn, addInputs, Prod.fst_add, Prod.snd_add, flat_add]
    have h := inputsToVec_add C (-1) (toInputs (toIn z)) (toInputs (toIn z')) 0 0
    rw [add_zero] at h
    rw [e, h]
    rfl
  map_smul' c z := by
    have e : toInputs (toIn (c • z)) = smulInputs c (toInputs (toIn z)) := by
      simp only [toInputs, toIn, smulInputs, Prod.smul_fst, Prod.smul_snd, flat_smul, smul_eq_mul]
    have h := inputsToVec_smul C (-1) c (toInputs (toIn z)) 0
    rw [smul_zero] at h
    rw [e, h]
    rfl

/-! ### The derivative -/

theorem fwd_values {C : Conf} (hC : C.info.Sound) {L : Layout} (hL : L.Proper) (hF : Fits C L)
    (f : ℝ) (u : Inputs ℝ) (x : Vec ℝ) (e : Ent L) :
    (e.1 ∈ entriesOf (written C) →
      inputsToVec C f u x e.1.1 e.1.2 = f * inputsToVec C 1 u x e.1.1 e.1.2 ∧
      ∀ x', inputsToVec C f u x' e.1.1 e.1.2 = inputsToVec C f u x e.1.1 e.1.2) ∧
    (e.1 ∉ entriesOf (written C) → inputsToVec C f u x e.1.1 e.1.2 = x e.1.1 e.1.2) := by
  have hnod : ((ports C u).map Port.name).Nodup := by
    rw [names_of (ports_written C u)]; exact hF.sources
  constructor
  · intro he
    obtain ⟨s, hs, hk⟩ := mem_entriesOf.mp he
    rw [← ports_written C u, List.mem_map] at hs
    obtain ⟨p, hp, hpe⟩ := hs
    obtain ⟨h1, h2⟩ := Prod.mk.inj hpe
    have hw : ∀ (g : ℝ) (x : Vec ℝ), inputsToVec C g u x e.1.1 e.1.2 = g * p.val e.1.2 := by
      intro g x
      rw [inputsToVec_eq hC, ← h1]
      exact writeAll_mem g _ x hnod p hp _
    refine ⟨?_, fun x' => ?_⟩
    · rw [hw, hw, one_mul]
    · rw [hw, hw]
  · intro he
    rw [inputsToVec_eq hC]
    have hn : e.1.1 ∉ (ports C u).map Port.name := by
      rw [names_of (ports_written C u)]
      intro hc
      obtain ⟨v, hv, hve⟩ := List.mem_map.mp hc
      obtain ⟨s, hs, hk⟩ := mem_entriesOf.mp e.2
      have hv' : (e.1.1, v.2) ∈ written C := by rw [← hve]; exact hv
      have := size_unique hL.outputs hs (hF.written _ hv')
      subst this
      exact he (mem_entriesOf.mpr ⟨v.2, hv', hk⟩)
    rw [writeAll_not_mem f _ _ x hn]

theorem sum_ent (L : Layout) (g : String × ℕ → ℝ) :
    ∑ e : Ent L, g e.1 = ∑ e ∈ entriesOf L.outputs, g e :=
  (Finset.sum_subtype (entriesOf L.outputs) (fun _ => Iff.rfl) g).symm

theorem omOde_differentiable {C : Conf} (hC : C.info.Sound) {L : Layout} (hL : L.Proper)
    (hF : Fits C L) {E : Env ℝ} {v0 : Vectors ℝ}
    {J : Vectors ℝ → ℝ → ℝ → String × ℕ → String × ℕ → ℝ} (hJ : SolvesLinear L E J)
    {G : ℝ → ℝ → (Ent L → ℝ) → Ent L → ℝ} {h a : ℝ} (hP : SolvesProblem C L E v0 J G h a) :
    DifferentiableBackend (omOde C L E v0) h a := by
  classical
  intro z0
  -- the outputs as a function of the arguments
  let start : InSpace C.info.arraySize C.info.independentSize → Vectors ℝ := fun z =>
    { v0 with outputs := inputsToVec C 1 (toInputs (toIn z)) v0.outputs }
  let o : InSpace C.info.arraySize C.info.independentSize → Ent L → ℝ := fun z =>
    restrict L (E.solve (start z) h a).outputs
  have hcont : Continuous o := hP.continuous
  obtain ⟨G', hG, hGJ⟩ := hP.jacobian (start (ofIn z0))
  -- all residuals, with minus the value for the outputs that are set
  let F : (Ent L → ℝ) → (Ent L → ℝ) := fun y e =>
    if e.1 ∈ entriesOf (written C) then - y e else G h a y e
  let F' : (Ent L → ℝ) →L[ℝ] (Ent L → ℝ) := ContinuousLinearMap.pi fun e =>
    if e.1 ∈ entriesOf (written C) then - ContinuousLinearMap.proj e
    else (ContinuousLinearMap.proj e).comp G'
  have hF' : HasFDerivAt F F' (o (ofIn z0)) := by
    rw [hasFDerivAt_pi']
    intro e
    have e1 : (ContinuousLinearMap.proj e).comp F' =
        if e.1 ∈ entriesOf (written C) then - ContinuousLinearMap.proj (R := ℝ) e
        else (ContinuousLinearMap.proj e).comp G' := by
      ext y; rfl
    rw [e1]
    by_cases he : e.1 ∈ entriesOf (written C)
    · simp only [F, if_pos he]
      exact (ContinuousLinearMap.proj (R := ℝ) (φ := fun _ : Ent L => ℝ) e).hasFDerivAt.neg
    · simp only [F, if_neg he]
      exact (hasFDerivAt_pi'.mp hG) e
  -- its derivative is the matrix of the linear solves
  have hmat : ∀ (y : Ent L → ℝ) (e : Ent L),
      F' y e = ∑ e' : Ent L, J (E.solve (start (ofIn z0)) h a) h a e.1 e'.1 * y e' := by
    intro y e
    by_cases he : e.1 ∈ entriesOf (written C)
    · have e1 : F' y e = - y e := by
        change (if e.1 ∈ entriesOf (written C) then - ContinuousLinearMap.proj (R := ℝ) e
          else (ContinuousLinearMap.proj e).comp G') y = _
        rw [if_pos he]; rfl
      rw [e1, Finset.sum_eq_single e]
      · rw [hP.sources _ e.1 he e.1 e.2, if_pos rfl]; ring
      · intro e' _ hne
        rw [hP.sources _ e.1 he e'.1 e'.2, if_neg (fun hc => hne (Subtype.ext hc.symm)), zero_mul]
      · intro hc; exact absurd (Finset.mem_univ e) hc
    · have e1 : F' y e = G' y e := by
        change (if e.1 ∈ entriesOf (written C) then - ContinuousLinearMap.proj (R := ℝ) e
          else (ContinuousLinearMap.proj e).comp G') y = _
        rw [if_neg he]; rfl
      rw [e1]
      have e2 := LinearMap.pi_apply_eq_sum_univ (G' : (Ent L → ℝ) →ₗ[ℝ] (Ent L → ℝ)) y
      have e3 : G' y e = (∑ e' : Ent L, y e' • G' (fun j => if e' = j then 1 else 0)) e :=
        congrFun e2 e
      rw [e3, Finset.sum_apply]
      refine Finset.sum_congr rfl fun e' _ => ?_
      rw [hGJ e e' he, Pi.smul_apply, smul_eq_mul, mul_comm]
  have hsolve : ∀ (w : Vectors ℝ) (b : Vec ℝ), Agree L w (E.solve (start (ofIn z0)) h a) →
      F' (restrict L (E.solveFwd w h a b)) = restrict L b := by
    intro w b hw
    funext e
    rw [hmat]
    have h1 := hJ.fwd w h a b e.1 e.2
    rw [← sum_ent L fun e' => J w h a e.1 e' * E.solveFwd w h a b e'.1 e'.2] at h1
    refine Eq.trans ?_ h1
    refine Finset.sum_congr rfl fun e' _ => ?_
    rw [hJ.point _ _ h a hw e.1 e.2 e'.1 e'.2]
    rfl
  -- hence it is invertible
  have hsurj : Function.Surjective (F' : (Ent L → ℝ) →ₗ[ℝ] (Ent L → ℝ)) := by
    intro b
    refine ⟨restrict L (E.solveFwd (E.solve (start (ofIn z0)) h a) h a (extend L b)), ?_⟩
    have := hsolve (E.solve (start (ofIn z0)) h a) (extend L b)
      ⟨fun _ _ => rfl, fun _ _ => rfl⟩
    rw [restrict_extend] at this
    exact this
  have hinj := LinearMap.injective_iff_surjective.mpr hsurj
  let Q : (Ent L → ℝ) ≃L[ℝ] (Ent L → ℝ) :=
    (LinearEquiv.ofBijective (F' : (Ent L → ℝ) →ₗ[ℝ] (Ent L → ℝ))
      ⟨hinj, hsurj⟩).toContinuousLinearEquiv
  have hQ : Function.LeftInverse (Q.symm : (Ent L → ℝ) →L[ℝ] (Ent L → ℝ)) F' :=
    fun y => Q.symm_apply_apply y
  -- the residual equation with the arguments on the right
  let T : InSpace C.info.arraySize C.info.independentSize →L[ℝ] (Ent L → ℝ) :=
    LinearMap.toContinuousLinearMap (rhsL C L)
  have hcomp : F ∘ o = T := by
    funext z e
    change (if e.1 ∈ entriesOf (written C) then - o z e else G h a (o z) e) =
      inputsToVec C (-1) (toInputs (toIn z)) 0 e.1.1 e.1.2
    have hv := fwd_values hC hL hF
    by_cases he : e.1 ∈ entriesOf (written C)
    · rw [if_pos he, ((hv (-1) _ 0 e).1 he).1]
      have h1 : o z e = inputsToVec C 1 (toInputs (toIn z)) v0.outputs e.1.1 e.1.2 :=
        hP.kept (start z) e.1 he
      rw [h1, ((hv 1 (toInputs (toIn z)) 0 e).1 he).2 v0.outputs]
      ring
    · rw [if_neg he, (hv (-1) _ 0 e).2 he]
      exact hP.solved (start z) e he
  have hder : HasFDerivAt o ((Q.symm : (Ent L → ℝ) →L[ℝ] (Ent L → ℝ)) ∘L T) (ofIn z0) :=
    HasFDerivAt.of_comp_of_leftInverse hcont.continuousAt hF' T.hasFDerivAt
      (Filter.Eventually.of_forall fun z => congrFun hcomp z) hQ
  let R : (Ent L → ℝ) →L[ℝ] (Fin C.info.arraySize → ℝ) :=
    LinearMap.toContinuousLinearMap (readL C L)
  refine ⟨R ∘L ((Q.symm : (Ent L → ℝ) →L[ℝ] (Ent L → ℝ)) ∘L T), ?_, fun d => ?_⟩
  · have h1 : (fun z => ((omOde C L E v0).computeUpdate (toIn z) h a).1.stageUpdate) =
        fun z => R (o z) := by
      funext z i
      exact (readL_restrict hC hF _ i).symm
    rw [h1]
    exact R.hasFDerivAt.comp _ hder
  · funext i
    change (computeDerivative C L E v0 (List.ofFn ((omOde C L E v0).computeUpdate z0 h a).2)
      (toInputs d) h a).2 i = readL C L (Q.symm (T (ofIn d))) i
    rw [omOde_point]
    have hw : Agree L (setPoint L (getPoint L (E.solve (start (ofIn z0)) h a)) v0)
        (E.solve (start (ofIn z0)) h a) := setPoint_getPoint hL _ _
    have h2 := hsolve _ (inputsToVec C (-1) (toInputs d) fun _ _ => 0) hw
    have h3 : Q.symm (T (ofIn d)) = restrict L (E.solveFwd
        (setPoint L (getPoint L (E.solve (start (ofIn z0)) h a)) v0) h a
        (inputsToVec C (-1) (toInputs d) fun _ _ => 0)) := by
      rw [ContinuousLinearEquiv.symm_apply_eq]
      exact h2.symm
    rw [h3, readL_restrict hC hF]
    rfl

end Verif.OM
