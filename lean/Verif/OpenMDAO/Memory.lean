/-
The OpenMDAO backend with the vectors it keeps between calls: inputs and outputs of the stage problem,
from which the nonlinear solver starts, and the linear vectors, from which the linear solvers start.

Source: /repo/src/rkopenmdao/discretized_ode/openmdao_ode.py
-/
import Verif.OpenMDAO.Ode
import Verif.RK.Memory

namespace Verif.OM

open Verif.RK

variable {K : Type}

/-- The vectors of the stage problem: `get_nonlinear_vectors()` without residuals, and `d_outputs`
and `d_residuals` of `get_linear_vectors()`. -/
structure Memory (K : Type) where
  vec : Vectors K
  dOut : Vec K
  dRes : Vec K

/-- The stage problem as a black box: nonlinear solve from the current vectors, which may raise an
exception (`run_solve_nonlinear`); linear solves at the current vectors with `d_residuals` and
`d_outputs` before the call and `d_outputs` and `d_residuals` afterwards (`run_linearize`,
`run_solve_linear` in mode "fwd", right-hand side and start; in mode "rev" the roles of the vectors
are exchanged). -/
structure MEnv (ε K : Type) where
  solve : Vectors K → K → K → Vectors K × Option ε
  solveFwd : Vectors K → K → K → (dRes dOut : Vec K) → Vec K × Vec K
  solveRev : Vectors K → K → K → (dOut dRes : Vec K) → Vec K × Vec K

variable {ε : Type}

/-- `compute_update`, openmdao_ode.py L118-150. -/
def computeUpdateM [Mul K] [One K] [Zero K] (C : Conf) (L : Layout) (E : MEnv ε K) (w : Memory K)
    (u : Inputs K) (h a : K) : Memory K × Except ε (Flat K × List K) :=
  match E.solve { w.vec with outputs := inputsToVec C 1 u w.vec.outputs } h a with
  | (v, some e) => ({ w with vec := v }, .error e)
  | (v, none) => ({ w with vec := v }, .ok (vecToOutputs C v.outputs (fun _ => 0), getPoint L v))

/-- `vector.asarray()[:] *= 0.0`, openmdao_ode.py L163 and L199. -/
def wiped [Mul K] [Zero K] (x : Vec K) : Vec K := fun n k => x n k * 0

/-- `compute_update_derivative`, openmdao_ode.py L152-186. -/
def computeDerivativeM [Mul K] [One K] [Neg K] [Zero K] [Inhabited K] (C : Conf) (L : Layout)
    (E : MEnv ε K) (w : Memory K) (p : List K) (u : Inputs K) (h a : K) : Memory K × Flat K :=
  let v := setPoint L p w.vec
  let r := E.solveFwd v h a (inputsToVec C (-1) u (wiped w.dRes)) w.dOut
  (⟨v, r.1, r.2⟩, vecToOutputs C r.1 (fun _ => 0))

/-- `compute_update_adjoint_derivative`, openmdao_ode.py L188-227. -/
def computeAdjointM [Mul K] [One K] [Neg K] [Zero K] [Inhabited K] (C : Conf) (L : Layout)
    (E : MEnv ε K) (w : Memory K) (p : List K) (update : Flat K) (h a : K) : Memory K × Inputs K :=
  let v := setPoint L p w.vec
  let r := E.solveRev v h a (outputsToVec C (-1) update (wiped w.dOut)) w.dRes
  (⟨v, r.1, r.2⟩, vecToInputs C r.2 ⟨0, fun _ => 0, fun _ => 0, fun _ => 0⟩)

/-- The backend as `DiscretizedODE`, openmdao_ode.py L118-227. -/
noncomputable def omMOde (C : Conf) (L : Layout) (E : MEnv ε ℝ) :
    MOde ε (Memory ℝ) ℝ C.info.arraySize C.info.independentSize 0 (pointSize L) where
  computeUpdate w z h a :=
    let r := computeUpdateM C L E w (toInputs z) h a
    (r.1, r.2.map fun q => (⟨fun i => q.1 i, 0, 0⟩, fun i => q.2.getD i 0))
  computeUpdateDerivative w p z h a :=
    let r := computeDerivativeM C L E w (List.ofFn p) (toInputs z) h a
    (r.1, ⟨fun i => r.2 i, 0, 0⟩)
  computeUpdateAdjoint w p z h a :=
    let r := computeAdjointM C L E w (List.ofFn p) (flat z.stageUpdate) h a
    (r.1, ⟨fun i => r.2.step i, fun i => r.2.stage i, fun i => r.2.indep i, r.2.time⟩)

/-! ### Specification: a stage problem that determines its solution -/

/-- The same stage problem without a memory: linear solves start from zero. -/
def MEnv.reset [Zero K] (E : MEnv ε K) : Env K where
  solve v h a := (E.solve v h a).1
  solveFwd v h a b := (E.solveFwd v h a b (fun _ _ => 0)).1
  solveRev v h a b := (E.solveRev v h a b (fun _ _ => 0)).2

/-- `P` are the parameters of the stage problem, outputs no solver changes and the backend does not
write. With step size `h` and stage factor `a` the solve succeeds, and its solution is determined by
the parameters and the values the backend writes; the linear solves depend on the current point and
the right-hand side. Start values do not matter. -/
structure Determined (C : Conf) (L : Layout) (E : MEnv ε K) (P : String × ℕ → Prop) (h a : K) :
    Prop where
  succeeds : ∀ v, (E.solve v h a).2 = none
  kept : ∀ v, ∀ e ∈ entriesOf L.outputs, P e →
    (E.solve v h a).1.outputs e.1 e.2 = v.outputs e.1 e.2
  unique : ∀ v v' : Vectors K, (∀ e ∈ entriesOf L.outputs, P e ∨ e ∈ entriesOf (written C) →
    v.outputs e.1 e.2 = v'.outputs e.1 e.2) → Agree L (E.solve v h a).1 (E.solve v' h a).1
  fwd : ∀ v v' b d d', Agree L v v' → ∀ e ∈ entriesOf L.outputs,
    (E.solveFwd v h a b d).1 e.1 e.2 = (E.solveFwd v' h a b d').1 e.1 e.2
  rev : ∀ v v' b d d', Agree L v v' → ∀ e ∈ entriesOf L.outputs,
    (E.solveRev v h a b d).2 e.1 e.2 = (E.solveRev v' h a b d').2 e.1 e.2

/-- The parameters of the stage problem have the same values in both sets of vectors. -/
def SameParams (L : Layout) (P : String × ℕ → Prop) (v v' : Vectors K) : Prop :=
  ∀ e ∈ entriesOf L.outputs, P e → v.outputs e.1 e.2 = v'.outputs e.1 e.2

/-! ### The memory does not matter -/

theorem asarray_congr : ∀ (vars : List (String × ℕ)) {x y : Vec K},
    (∀ e ∈ entriesOf vars, x e.1 e.2 = y e.1 e.2) → asarray vars x = asarray vars y := by
  intro vars x y h
  unfold asarray
  refine List.flatMap_congr fun v hv => List.map_congr_left fun k hk => ?_
  exact h (v.1, k) (mem_entriesOf.mpr ⟨v.2, hv, List.mem_range.mp hk⟩)

theorem getPoint_congr {L : Layout} {v w : Vectors K} (h : Agree L v w) :
    getPoint L v = getPoint L w := by
  unfold getPoint
  rw [asarray_congr _ h.1, asarray_congr _ h.2]

theorem load_congr [Inhabited K] : ∀ (vars : List (String × ℕ)) (l : List K) (y y' : Vec K),
    (vars.map Prod.fst).Nodup → ∀ n s, (n, s) ∈ vars → ∀ k < s,
      load vars l y n k = load vars l y' n k
  | [], _, _, _, _, _, _, h, _, _ => by cases h
  | v :: vars, l, y, y', hn, n, s, h, k, hk => by
      rw [List.map_cons, List.nodup_cons] at hn
      unfold load
      rcases List.mem_cons.mp h with h | h
      · subst h
        rw [load_not_mem _ _ _ _ hn.1, load_not_mem _ _ _ _ hn.1, Function.update_self,
          Function.update_self]
        simp only [hk, if_true]
      · exact load_congr vars _ _ _ hn.2 n s h k hk

theorem setPoint_congr [Inhabited K] {L : Layout} (hL : L.Proper) (p : List K) (v w : Vectors K) :
    Agree L (setPoint L p v) (setPoint L p w) := by
  constructor
  · rintro ⟨n, k⟩ he
    obtain ⟨s, hs, hk⟩ := mem_entriesOf.mp he
    exact load_congr _ _ _ _ hL.inputs n s hs k hk
  · rintro ⟨n, k⟩ he
    obtain ⟨s, hs, hk⟩ := mem_entriesOf.mp he
    exact load_congr _ _ _ _ hL.outputs n s hs k hk

theorem fold_readBy_congr (nm : Metadata.Quantity → Option String) (x x' : Vec K) :
    ∀ (qs : List Metadata.Quantity) (y : Flat K),
      (∀ q ∈ qs, q.arr.isLocal = true → ∀ s, nm q = some s →
        ∀ k < q.arr.stop - q.arr.start, x s k = x' s k) →
      qs.foldl (readBy nm x) y = qs.foldl (readBy nm x') y
  | [], _, _ => rfl
  | q :: qs, y, h => by
      rw [List.foldl_cons, List.foldl_cons]
      have h1 : readBy nm x y q = readBy nm x' y q := by
        unfold readBy
        by_cases hl : q.arr.isLocal = true
        · rw [if_pos hl, if_pos hl]
          rcases hs : nm q with _ | t
          · rfl
          · funext i
            simp only [getVar]
            split_ifs with hi
            · exact h q List.mem_cons_self hl t hs _ (by omega)
            · rfl
        · rw [if_neg hl, if_neg hl]
      rw [h1]
      exact fold_readBy_congr nm x x' qs _ fun q' hq' => h q' (List.mem_cons_of_mem _ hq')

theorem mem_slot {q : Metadata.Quantity} {s : String} (hl : q.arr.isLocal = true) :
    (s, q.arr.stop - q.arr.start) ∈ slot q (some s) := by
  unfold slot
  rw [if_pos hl]
  simp

/-- The input state only depends on the outputs of the stage problem. -/
theorem vecToInputs_congr {C : Conf} (hC : C.info.Sound) {L : Layout} (hF : Fits C L)
    {x x' : Vec K} (h : ∀ e ∈ entriesOf L.outputs, x e.1 e.2 = x' e.1 e.2) (u : Inputs K) :
    vecToInputs C x u = vecToInputs C x' u := by
  have key : ∀ n z k, (n, z) ∈ written C → k < z → x n k = x' n k := fun n z k hm hk =>
    h (n, k) (mem_entriesOf.mpr ⟨z, hF.written _ hm, hk⟩)
  rw [vecToInputs_eq hC, vecToInputs_eq hC]
  have h0 : (match C.info.timeVariable with | some t => x (C.source t) 0 | none => u.time)
      = (match C.info.timeVariable with | some t => x' (C.source t) 0 | none => u.time) := by
    rcases ht : C.info.timeVariable with _ | t
    · rfl
    · refine key _ 1 0 ?_ one_pos
      unfold written
      simp [ht]
  have h1 : ∀ q ∈ C.info.quantities, q.arr.isLocal = true → ∀ s, q.stepInput.map C.source = some s →
      ∀ k < q.arr.stop - q.arr.start, x s k = x' s k := by
    intro q hq hl s hs k hk
    refine key s _ k ?_ hk
    refine List.mem_append_left _ (List.mem_append_right _ (List.mem_flatMap.mpr ⟨q, hq, ?_⟩))
    rw [hs]
    exact List.mem_append_left _ (mem_slot hl)
  have h2 : ∀ q ∈ C.info.quantities, q.arr.isLocal = true →
      ∀ s, q.accumulated.map C.source = some s →
      ∀ k < q.arr.stop - q.arr.start, x s k = x' s k := by
    intro q hq hl s hs k hk
    refine key s _ k ?_ hk
    refine List.mem_append_left _ (List.mem_append_right _ (List.mem_flatMap.mpr ⟨q, hq, ?_⟩))
    rw [hs]
    exact List.mem_append_right _ (mem_slot hl)
  have h3 : ∀ q ∈ C.info.independents, q.arr.isLocal = true →
      ∀ s, q.independentInput.map C.source = some s →
      ∀ k < q.arr.stop - q.arr.start, x s k = x' s k := by
    intro q hq hl s hs k hk
    refine key s _ k ?_ hk
    refine List.mem_append_right _ (List.mem_flatMap.mpr ⟨q, hq, ?_⟩)
    rw [hs]
    exact mem_slot hl
  rw [fold_readBy_congr (fun q => q.stepInput.map C.source) x x' _ _ h1,
    fold_readBy_congr (fun q => q.accumulated.map C.source) x x' _ _ h2,
    fold_readBy_congr (fun q => q.independentInput.map C.source) x x' _ _ h3]
  congr 1

theorem inputsToVec_written [CommMagma K] {C : Conf} (hC : C.info.Sound) {L : Layout}
    (hF : Fits C L) (f : K) (u : Inputs K) (x y : Vec K) :
    ∀ e ∈ entriesOf (written C), inputsToVec C f u x e.1 e.2 = inputsToVec C f u y e.1 e.2 := by
  rintro ⟨n, k⟩ he
  obtain ⟨z, hz, _⟩ := mem_entriesOf.mp he
  rw [← ports_written C u] at hz
  obtain ⟨p, hp, hpn⟩ := List.mem_map.mp hz
  have hn : ((ports C u).map Port.name).Nodup := by
    have := hF.sources
    rw [← ports_written C u, List.map_map] at this
    exact this
  have : n = p.name := (congrArg Prod.fst hpn).symm
  subst this
  rw [inputsToVec_eq hC, inputsToVec_eq hC, writeAll_mem f _ _ hn p hp,
    writeAll_mem f _ _ hn p hp]

theorem inputsToVec_other [CommMagma K] {C : Conf} (hC : C.info.Sound) {L : Layout}
    (hL : L.Proper) (hF : Fits C L) (f : K) (u : Inputs K) (x : Vec K) {e : String × ℕ}
    (he : e ∈ entriesOf L.outputs) (hw : e ∉ entriesOf (written C)) :
    inputsToVec C f u x e.1 e.2 = x e.1 e.2 := by
  rw [inputsToVec_eq hC, writeAll_not_mem]
  intro hm
  obtain ⟨p, hp, hpn⟩ := List.mem_map.mp hm
  have h1 : (p.name, p.size) ∈ written C := by
    rw [← ports_written C u]
    exact List.mem_map_of_mem hp
  rw [hpn] at h1
  obtain ⟨s, hs, hk⟩ := mem_entriesOf.mp he
  have := size_unique hL.outputs hs (hF.written _ h1)
  exact hw (mem_entriesOf.mpr ⟨_, h1, by omega⟩)

variable {C : Conf} {L : Layout} {E : MEnv ε ℝ} {P : String × ℕ → Prop}

/-- Solves from vectors with the same parameters have the same solution. -/
theorem solve_agree (hC : C.info.Sound) (hL : L.Proper) (hF : Fits C L)
    (hP : ∀ e ∈ entriesOf (written C), ¬ P e) {h a : ℝ} (hD : Determined C L E P h a)
    (u : Inputs ℝ) {v v' : Vectors ℝ} (hv : SameParams L P v v') :
    Agree L (E.solve { v with outputs := inputsToVec C 1 u v.outputs } h a).1
      (E.solve { v' with outputs := inputsToVec C 1 u v'.outputs } h a).1 := by
  refine hD.unique _ _ fun e he hq => ?_
  rcases hq with hq | hq
  · have hw : e ∉ entriesOf (written C) := fun hw => hP e hw hq
    exact (inputsToVec_other hC hL hF 1 u _ he hw).trans
      ((hv e he hq).trans (inputsToVec_other hC hL hF 1 u _ he hw).symm)
  · exact inputsToVec_written hC hF 1 u _ _ e hq

theorem solve_params (hC : C.info.Sound) (hL : L.Proper) (hF : Fits C L)
    (hP : ∀ e ∈ entriesOf (written C), ¬ P e) {h a : ℝ} (hD : Determined C L E P h a)
    (u : Inputs ℝ) (v : Vectors ℝ) :
    SameParams L P (E.solve { v with outputs := inputsToVec C 1 u v.outputs } h a).1 v := by
  intro e he hq
  rw [hD.kept _ e he hq]
  exact inputsToVec_other hC hL hF 1 u _ he fun hw => hP e hw hq

/-- The parameters stored in a linearization point are those of `v0`. -/
def PointParams (L : Layout) (P : String × ℕ → Prop) (v0 : Vectors ℝ)
    (p : Fin (pointSize L) → ℝ) : Prop :=
  SameParams L P (setPoint L (List.ofFn p) v0) v0

theorem wiped_real (x : Vec ℝ) : wiped x = fun _ _ => 0 := by
  funext n k
  exact mul_zero _

/-- The backend with its vectors behaves like the backend whose vectors are `v0` before every call,
as long as the parameters are those of `v0`. -/
theorem omMOde_sim (hC : C.info.Sound) (hL : L.Proper) (hF : Fits C L)
    (hP : ∀ e ∈ entriesOf (written C), ¬ P e) (v0 : Vectors ℝ) :
    OdeSim (omOde C L E.reset v0) (omMOde C L E) (fun w => SameParams L P w.vec v0)
      (PointParams L P v0) (Determined C L E P) where
  update w z h a hD hw := by
    have hv := solve_agree hC hL hF hP hD (toInputs z) hw
    simp only [omMOde, omOde, computeUpdateM, computeUpdate, MEnv.reset]
    rcases hs : E.solve { w.vec with outputs := inputsToVec C 1 (toInputs z) w.vec.outputs } h a
      with ⟨v, e⟩
    have he := hD.succeeds { w.vec with outputs := inputsToVec C 1 (toInputs z) w.vec.outputs }
    rw [hs] at he hv
    dsimp only at he hv
    subst he
    simp only [Except.map]
    rw [getPoint_congr hv]
    congr 3
    funext i
    exact vecToOutputs_congr hC hF hv.2 _ i i.2
  update_inv w z h a hD hw := by
    have hv := solve_params hC hL hF hP hD (toInputs z) w.vec
    simp only [omMOde, computeUpdateM]
    rcases hs : E.solve { w.vec with outputs := inputsToVec C 1 (toInputs z) w.vec.outputs } h a
      with ⟨v, e⟩
    rw [hs] at hv
    have : SameParams L P v v0 := fun e he hq => (hv e he hq).trans (hw e he hq)
    cases e <;> exact this
  good z h a hD := by
    have hv := solve_params hC hL hF hP hD (toInputs z) v0
    intro e he hq
    rw [omOde_point]
    exact ((setPoint_getPoint hL _ _).2 e he).trans (hv e he hq)
  deriv w p z h a hD hw hp := by
    simp only [omMOde, omOde, computeDerivativeM, computeDerivative, MEnv.reset, wiped_real]
    congr 1
    funext i
    exact vecToOutputs_congr hC hF
      (hD.fwd _ _ _ _ _ (setPoint_congr hL (List.ofFn p) w.vec v0)) _ i i.2
  deriv_inv w p z h a hD hw hp := fun e he hq =>
    ((setPoint_congr hL (List.ofFn p) w.vec v0).2 e he).trans (hp e he hq)
  adj w p z h a hD hw hp := by
    simp only [omMOde, omOde, computeAdjointM, computeAdjoint, MEnv.reset, wiped_real]
    rw [vecToInputs_congr hC hF
      (hD.rev _ _ _ w.dRes (fun _ _ => 0) (setPoint_congr hL (List.ofFn p) w.vec v0))]
  adj_inv w p z h a hD hw hp := fun e he hq =>
    ((setPoint_congr hL (List.ofFn p) w.vec v0).2 e he).trans (hp e he hq)

end Verif.OM
