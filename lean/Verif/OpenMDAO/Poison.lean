/-
Values that are not finite in the linear vectors of the stage problem, which are set to zero by a
multiplication.

Source: /repo/src/rkopenmdao/discretized_ode/openmdao_ode.py
-/
import Verif.OpenMDAO.Memory
import Verif.Control.XReal

namespace Verif

/-! ### Extended reals as numbers of the vectors -/

namespace XReal

theorem mul_comm' (x y : XReal) : mul x y = mul y x := by
  cases x <;> cases y <;> simp [mul, _root_.mul_comm]

noncomputable instance : CommMagma XReal := { mul := mul, mul_comm := mul_comm' }
noncomputable instance : Neg XReal := ⟨neg⟩

theorem mul_def (x y : XReal) : x * y = mul x y := rfl

theorem neg_def (x : XReal) : -x = neg x := rfl

theorem nan_mul_zero : (nan : XReal) * 0 = nan := rfl

theorem pinf_mul_zero : (pinf : XReal) * 0 = nan := by
  simp [mul_def, zero_def, mul, infSign]

theorem ninf_mul_zero : (ninf : XReal) * 0 = nan := by
  simp [mul_def, zero_def, mul, infSign]

theorem fin_mul_zero (r : ℝ) : (fin r) * 0 = 0 := by
  simp [mul_def, zero_def, mul]

end XReal

namespace OM

open Verif.XReal

variable {K : Type} {ε : Type}

/-! ### Products -/

/-- A call of `compute_update_derivative` or `compute_update_adjoint_derivative` with its arguments. -/
inductive Product (K : Type) where
  | fwd (p : List K) (u : Inputs K) (h a : K)
  | rev (p : List K) (update : Flat K) (h a : K)

/-- The vectors of the stage problem after a product, openmdao_ode.py L152-227. -/
def product [Mul K] [One K] [Neg K] [Zero K] [Inhabited K] (C : Conf) (L : Layout) (E : MEnv ε K)
    (w : Memory K) : Product K → Memory K
  | .fwd p u h a => (computeDerivativeM C L E w p u h a).1
  | .rev p y h a => (computeAdjointM C L E w p y h a).1

/-- ... after several products. -/
def products [Mul K] [One K] [Neg K] [Zero K] [Inhabited K] (C : Conf) (L : Layout) (E : MEnv ε K)
    (w : Memory K) (ps : List (Product K)) : Memory K := ps.foldl (product C L E) w

/-! ### Specification -/

/-- All numbers of the vector are finite. -/
def Finite (L : Layout) (x : Vec XReal) : Prop :=
  ∀ e ∈ entriesOf L.outputs, ∃ r : ℝ, x e.1 e.2 = fin r

/-- The outcomes of the linear solves depend on the point and the right-hand side, not on where the
solver starts. -/
structure LinearDetermined (L : Layout) (E : MEnv ε K) : Prop where
  fwd : ∀ v v' h a b b' d d', Agree L v v' →
    (∀ e ∈ entriesOf L.outputs, b e.1 e.2 = b' e.1 e.2) → ∀ e ∈ entriesOf L.outputs,
    (E.solveFwd v h a b d).1 e.1 e.2 = (E.solveFwd v' h a b' d').1 e.1 e.2
  rev : ∀ v v' h a b b' d d', Agree L v v' →
    (∀ e ∈ entriesOf L.outputs, b e.1 e.2 = b' e.1 e.2) → ∀ e ∈ entriesOf L.outputs,
    (E.solveRev v h a b d).2 e.1 e.2 = (E.solveRev v' h a b' d').2 e.1 e.2

/-- A stage problem with a variable `z` between the variables the integrator writes and those it reads:
`x_up` depends on `z`, and `z` on the inputs. NaN in the right-hand side of `z` gives NaN for
everything that depends on it, and right-hand sides stay as they are. -/
structure Between (C : Conf) (E : MEnv ε XReal) (z : String × ℕ) : Prop where
  fwd : ∀ v h a b d, b z.1 z.2 = nan →
    (E.solveFwd v h a b d).1 z.1 z.2 = nan ∧ (E.solveFwd v h a b d).2 z.1 z.2 = nan ∧
    ∀ e ∈ entriesOf (delivered C), (E.solveFwd v h a b d).1 e.1 e.2 = nan
  rev : ∀ v h a b d, b z.1 z.2 = nan →
    (E.solveRev v h a b d).2 z.1 z.2 = nan ∧ (E.solveRev v h a b d).1 z.1 z.2 = nan ∧
    ∀ e ∈ entriesOf (written C), (E.solveRev v h a b d).2 e.1 e.2 = nan
  seed : ∀ v h a b d, (∃ e ∈ entriesOf (delivered C), b e.1 e.2 = nan) →
    (E.solveRev v h a b d).2 z.1 z.2 = nan

/-! ### Reading and writing -/

theorem outputsToVec_other [Mul K] {C : Conf} {L : Layout} (hL : L.Proper) (hF : Fits C L) (f : K)
    (y : Flat K) (x : Vec K) {e : String × ℕ} (he : e ∈ entriesOf L.outputs)
    (hw : e ∉ entriesOf (delivered C)) : outputsToVec C f y x e.1 e.2 = x e.1 e.2 := by
  rw [outputsToVec_eq, writeAll_not_mem]
  intro hm
  obtain ⟨p, hp, hpn⟩ := List.mem_map.mp hm
  have h1 : (p.name, p.size) ∈ delivered C := by
    rw [← outPorts_delivered C y]
    exact List.mem_map_of_mem hp
  rw [hpn] at h1
  obtain ⟨s, hs, hk⟩ := mem_entriesOf.mp he
  have := size_unique hL.outputs hs (hF.delivered _ h1)
  exact hw (mem_entriesOf.mpr ⟨_, h1, by omega⟩)

theorem outputsToVec_delivered [Mul K] {C : Conf} {L : Layout} (hF : Fits C L) (f : K) (y : Flat K)
    (x x' : Vec K) : ∀ e ∈ entriesOf (delivered C),
      outputsToVec C f y x e.1 e.2 = outputsToVec C f y x' e.1 e.2 := by
  rintro ⟨n, k⟩ he
  obtain ⟨z, hz, _⟩ := mem_entriesOf.mp he
  rw [← outPorts_delivered C y] at hz
  obtain ⟨p, hp, hpn⟩ := List.mem_map.mp hz
  have hn : ((outPorts C y).map Port.name).Nodup := by
    have := hF.results
    rw [← outPorts_delivered C y, List.map_map] at this
    exact this
  have : n = p.name := (congrArg Prod.fst hpn).symm
  subst this
  rw [outputsToVec_eq, outputsToVec_eq, writeAll_mem f _ _ hn p hp, writeAll_mem f _ _ hn p hp]

theorem outputsToVec_congr [Mul K] {C : Conf} {L : Layout} (hL : L.Proper) (hF : Fits C L) (f : K)
    (y : Flat K) {x x' : Vec K} (h : ∀ e ∈ entriesOf L.outputs, x e.1 e.2 = x' e.1 e.2) :
    ∀ e ∈ entriesOf L.outputs, outputsToVec C f y x e.1 e.2 = outputsToVec C f y x' e.1 e.2 := by
  intro e he
  by_cases hw : e ∈ entriesOf (delivered C)
  · exact outputsToVec_delivered hF f y x x' e hw
  · rw [outputsToVec_other hL hF f y x he hw, outputsToVec_other hL hF f y x' he hw, h e he]

theorem inputsToVec_congr [CommMagma K] {C : Conf} (hC : C.info.Sound) {L : Layout} (hL : L.Proper)
    (hF : Fits C L) (f : K) (u : Inputs K) {x x' : Vec K}
    (h : ∀ e ∈ entriesOf L.outputs, x e.1 e.2 = x' e.1 e.2) :
    ∀ e ∈ entriesOf L.outputs, inputsToVec C f u x e.1 e.2 = inputsToVec C f u x' e.1 e.2 := by
  intro e he
  by_cases hw : e ∈ entriesOf (written C)
  · exact inputsToVec_written hC hF f u x x' e hw
  · rw [inputsToVec_other hC hL hF f u x he hw, inputsToVec_other hC hL hF f u x' he hw, h e he]

/-- Entry `i` of the stage update is an entry of a delivered variable, and is read from there. -/
theorem delivered_at {C : Conf} (hC : C.info.Sound) {i : ℕ} (hi : i < C.info.arraySize) :
    ∃ e ∈ entriesOf (delivered C), (∀ (x : Vec K) y, vecToOutputs C x y i = x e.1 e.2) := by
  obtain ⟨j, ⟨q, hj, h2, h3⟩, _⟩ := hC.laid.unique i (Nat.zero_le _) hi
  have hq : q ∈ C.info.quantities := List.mem_of_getElem? hj
  have hl : q.arr.isLocal = true := by
    rcases hC.laid.bound q hq with h | h
    · exact h.1
    · omega
  obtain ⟨s, h4⟩ := Option.isSome_iff_exists.mp (hC.output q hq hl)
  refine ⟨(s, i - q.arr.start), mem_entriesOf.mpr ⟨q.arr.stop - q.arr.start,
    List.mem_flatMap.mpr ⟨q, hq, ?_⟩, by simp only; omega⟩, fun x y => ?_⟩
  · rw [h4]; exact mem_slot hl
  · rw [vecToOutputs_eq, fold_readBy_covered _ _ _ _ _ _ hC.laid q hq hl s h4 i h2 h3]

/-- ... and is written there. -/
theorem delivered_write [Mul K] {C : Conf} (hC : C.info.Sound) {L : Layout} (hF : Fits C L) {i : ℕ}
    (hi : i < C.info.arraySize) (f : K) (y : Flat K) (x : Vec K) :
    ∃ e ∈ entriesOf (delivered C), outputsToVec C f y x e.1 e.2 = f * y i := by
  obtain ⟨j, ⟨q, hj, h2, h3⟩, _⟩ := hC.laid.unique i (Nat.zero_le _) hi
  have hq : q ∈ C.info.quantities := List.mem_of_getElem? hj
  have hl : q.arr.isLocal = true := by
    rcases hC.laid.bound q hq with h | h
    · exact h.1
    · omega
  obtain ⟨s, h4⟩ := Option.isSome_iff_exists.mp (hC.output q hq hl)
  refine ⟨(s, i - q.arr.start), mem_entriesOf.mpr ⟨q.arr.stop - q.arr.start,
    List.mem_flatMap.mpr ⟨q, hq, ?_⟩, by simp only; omega⟩, ?_⟩
  · rw [h4]; exact mem_slot hl
  · have hn : ((outPorts C y).map Port.name).Nodup := by
      have := hF.results
      rw [← outPorts_delivered C y, List.map_map] at this
      exact this
    have hp : (⟨s, q.arr.stop - q.arr.start, fun k => y (q.arr.start + k)⟩ : Port K) ∈ outPorts C y := by
      refine List.mem_flatMap.mpr ⟨q, hq, ?_⟩
      unfold portOf
      rw [if_pos hl, h4]
      exact List.mem_singleton.mpr rfl
    rw [outputsToVec_eq]
    have := writeAll_mem f _ x hn _ hp (i - q.arr.start)
    dsimp only at this
    rw [show q.arr.start + (i - q.arr.start) = i by omega] at this
    exact this

/-- Entry `i` of the step input of a quantity with inputs is read from a written variable. -/
theorem written_at {C : Conf} (hC : C.info.Sound) {i : ℕ} (hi : InputAt C i) :
    ∃ e ∈ entriesOf (written C), ∀ (x : Vec K) u, (vecToInputs C x u).step i = x e.1 e.2 := by
  obtain ⟨q, hq, hl, hs, h2, h3⟩ := hi
  obtain ⟨s, h4⟩ := Option.isSome_iff_exists.mp hs
  refine ⟨(C.source s, i - q.arr.start), mem_entriesOf.mpr ⟨q.arr.stop - q.arr.start, ?_,
    by simp only; omega⟩, fun x u => ?_⟩
  · refine List.mem_append_left _ (List.mem_append_right _ (List.mem_flatMap.mpr ⟨q, hq, ?_⟩))
    rw [h4]
    exact List.mem_append_left _ (mem_slot hl)
  · rw [vecToInputs_eq hC]
    exact fold_readBy_covered _ _ _ _ _ _ hC.laid q hq hl _ (by rw [h4]; rfl) i h2 h3

end OM

end Verif
