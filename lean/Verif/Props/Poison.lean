/-
C107: values that are not finite in one product and later products.
-/
import Verif.OpenMDAO.Poison
import Verif.Props.OpenMDAODeriv

namespace Verif.Props

open Verif.OM Verif.Metadata Verif.XReal

section
variable {ε : Type} {C : Conf} {L : Layout} {E : MEnv ε XReal}

theorem wiped_finite {x : Vec XReal} (h : OM.Finite L x) :
    ∀ e ∈ entriesOf L.outputs, wiped x e.1 e.2 = 0 := by
  intro e he
  obtain ⟨r, hr⟩ := h e he
  simp only [wiped, hr, fin_mul_zero]

/-- C107: if the linear vectors hold finite numbers, whatever products they come from, then forward and
reverse products are those of a stage problem that was never used for products. Missing for the full
claim: numbers that are not finite, for which it is violated (`C107_nan_violated`). -/
theorem C107_finite_partial (hB : Built C) (hL : L.Proper) (hF : Fits C L)
    (hE : LinearDetermined L E) (w : Memory XReal) (hO : OM.Finite L w.dOut)
    (hR : OM.Finite L w.dRes) (v : Vectors XReal) (p : List XReal) (u : Inputs XReal)
    (y : Flat XReal) (h a : XReal) :
    let new : Memory XReal := ⟨v, fun _ _ => 0, fun _ _ => 0⟩
    (∀ i < C.info.arraySize, (computeDerivativeM C L E w p u h a).2 i
      = (computeDerivativeM C L E new p u h a).2 i) ∧
    (computeAdjointM C L E w p y h a).2 = (computeAdjointM C L E new p y h a).2 := by
  intro new
  have hC := built_sound hB
  have hz : ∀ e ∈ entriesOf L.outputs, wiped (fun _ _ => (0 : XReal)) e.1 e.2 = 0 :=
    wiped_finite fun _ _ => ⟨0, rfl⟩
  constructor
  · refine vecToOutputs_congr hC hF (fun e he => ?_) _
    refine hE.fwd _ _ _ _ _ _ _ _ (setPoint_congr hL p w.vec v) ?_ e he
    exact inputsToVec_congr hC hL hF _ u fun e he => by rw [wiped_finite hR e he]; exact (hz e he).symm
  · refine vecToInputs_congr hC hF (fun e he => ?_) _
    refine hE.rev _ _ _ _ _ _ _ _ (setPoint_congr hL p w.vec v) ?_ e he
    exact outputsToVec_congr hL hF _ y fun e he => by rw [wiped_finite hO e he]; exact (hz e he).symm

/-- After NaN arrived at a variable in between, both in forward and in reverse direction, it stays, and
all products are NaN. -/
theorem poisoned (hB : Built C) (hL : L.Proper) (hF : Fits C L) {z : String × ℕ}
    (hz : z ∈ entriesOf L.outputs) (hzw : z ∉ entriesOf (written C))
    (hzd : z ∉ entriesOf (delivered C)) (hE : Between C E z) (w : Memory XReal)
    (hR : w.dRes z.1 z.2 = nan) (hO : w.dOut z.1 z.2 = nan) :
    (∀ q, (product C L E w q).dRes z.1 z.2 = nan ∧ (product C L E w q).dOut z.1 z.2 = nan) ∧
    (∀ p u h a, ∀ i < C.info.arraySize, (computeDerivativeM C L E w p u h a).2 i = nan) ∧
    ∀ p y h a i, InputAt C i → (computeAdjointM C L E w p y h a).2.step i = nan := by
  have hC := built_sound hB
  have h1 : ∀ u, inputsToVec C (-1) u (wiped w.dRes) z.1 z.2 = nan := fun u => by
    rw [inputsToVec_other hC hL hF _ u _ hz hzw, wiped, hR, nan_mul_zero]
  have h2 : ∀ y, outputsToVec C (-1) y (wiped w.dOut) z.1 z.2 = nan := fun y => by
    rw [outputsToVec_other hL hF _ y _ hz hzd, wiped, hO, nan_mul_zero]
  refine ⟨fun q => ?_, fun p u h a i hi => ?_, fun p y h a i hi => ?_⟩
  · rcases q with ⟨p, u, h, a⟩ | ⟨p, y, h, a⟩
    · obtain ⟨a1, a2, -⟩ := hE.fwd (setPoint L p w.vec) h a _ w.dOut (h1 u)
      exact ⟨a2, a1⟩
    · obtain ⟨a1, a2, -⟩ := hE.rev (setPoint L p w.vec) h a _ w.dRes (h2 y)
      exact ⟨a1, a2⟩
  · obtain ⟨e, he, hr⟩ := delivered_at (K := XReal) hC hi
    exact (hr _ _).trans ((hE.fwd (setPoint L p w.vec) h a _ w.dOut (h1 u)).2.2 e he)
  · obtain ⟨e, he, hr⟩ := written_at (K := XReal) hC hi
    exact (hr _ _).trans ((hE.rev (setPoint L p w.vec) h a _ w.dRes (h2 y)).2.2 e he)

/-- C107 is violated: take a stage problem with a variable between inputs and outputs, in any state, a
reverse product with NaN in one entry of the seed, a forward product with any arguments, and any
further products. All products after that are NaN, whatever their arguments. -/
theorem C107_nan_violated (hB : Built C) (hL : L.Proper) (hF : Fits C L) {z : String × ℕ}
    (hz : z ∈ entriesOf L.outputs) (hzw : z ∉ entriesOf (written C))
    (hzd : z ∉ entriesOf (delivered C)) (hE : Between C E z) (w : Memory XReal)
    (p p' : List XReal) (y : Flat XReal) {j : ℕ} (hj : j < C.info.arraySize) (hy : y j = nan)
    (u : Inputs XReal) (h h' a a' : XReal) (qs : List (Product XReal)) :
    let w' := products C L E w (.rev p y h a :: .fwd p' u h' a' :: qs)
    (∀ p u h a, ∀ i < C.info.arraySize, (computeDerivativeM C L E w' p u h a).2 i = nan) ∧
    ∀ p y h a i, InputAt C i → (computeAdjointM C L E w' p y h a).2.step i = nan := by
  have hC := built_sound hB
  have h1 : (product C L E w (.rev p y h a)).dRes z.1 z.2 = nan := by
    refine hE.seed _ h a _ _ ?_
    obtain ⟨e, he, h2⟩ := delivered_write hC hF hj (-1 : XReal) y (wiped w.dOut)
    exact ⟨e, he, by rw [h2, hy]; exact mul_nan _⟩
  set w1 := product C L E w (.rev p y h a)
  have h2 : inputsToVec C (-1) u (wiped w1.dRes) z.1 z.2 = nan := by
    rw [inputsToVec_other hC hL hF _ u _ hz hzw, wiped, h1, nan_mul_zero]
  obtain ⟨a1, a2, -⟩ := hE.fwd (setPoint L p' w1.vec) h' a' _ w1.dOut h2
  have key : ∀ (qs : List (Product XReal)) (w : Memory XReal), w.dRes z.1 z.2 = nan →
      w.dOut z.1 z.2 = nan → (products C L E w qs).dRes z.1 z.2 = nan ∧
        (products C L E w qs).dOut z.1 z.2 = nan := by
    intro qs
    induction qs with
    | nil => exact fun w h1 h2 => ⟨h1, h2⟩
    | cons q qs ih =>
      intro w h1 h2
      have := (poisoned hB hL hF hz hzw hzd hE w h1 h2).1 q
      exact ih _ this.1 this.2
  obtain ⟨b1, b2⟩ := key qs (product C L E w1 (.fwd p' u h' a')) a2 a1
  exact (poisoned hB hL hF hz hzw hzd hE _ b1 b2).2

end

/-! ### An example: `z = x_old + h * x_acc`, `x_up = z` -/

namespace PoisonEx

def layout : Layout where
  inputs := [("x_old", 1), ("x_acc", 1), ("x_z", 1)]
  outputs := [("ivc_old", 1), ("ivc_acc", 1), ("z", 1), ("x_up", 1)]

/-- Values at the four outputs. -/
def four (x y z u : XReal) : Vec XReal := fun n _ =>
  if n = "ivc_old" then x else if n = "ivc_acc" then y else if n = "z" then z else u

/-- The stage problem. -/
noncomputable def env : MEnv Unit XReal where
  solve v h _ :=
    let x := v.outputs "ivc_old" 0
    let y := v.outputs "ivc_acc" 0
    let z := add x (mul h y)
    (⟨fun n _ => if n = "x_old" then x else if n = "x_acc" then y else z, four x y z z⟩, none)
  solveFwd _ h _ b _ :=
    let x := neg (b "ivc_old" 0)
    let y := neg (b "ivc_acc" 0)
    let z := sub (add x (mul h y)) (b "z" 0)
    (four x y z (sub z (b "x_up" 0)), b)
  solveRev _ h _ b _ :=
    let u := neg (b "x_up" 0)
    let z := sub u (b "z" 0)
    (b, four (sub z (b "ivc_old" 0)) (sub (mul h z) (b "ivc_acc" 0)) z u)

theorem proper : layout.Proper := by constructor <;> decide

theorem fits : Fits squareConf layout := by constructor <;> decide +kernel

theorem entries : entriesOf layout.outputs =
    {("ivc_old", 0), ("ivc_acc", 0), ("z", 0), ("x_up", 0)} := by decide +kernel

theorem delivered_eq : entriesOf (delivered squareConf) = {("x_up", 0)} := by decide +kernel

theorem nan_rules : (∀ x, sub x nan = nan) ∧ (∀ x, sub nan x = nan) ∧ (∀ x, mul x nan = nan) ∧
    neg nan = nan := by
  refine ⟨?_, ?_, ?_, rfl⟩ <;> intro x <;> cases x <;> rfl

theorem between : Between squareConf env ("z", 0) where
  fwd v h a b d hb := by
    simp only at hb
    refine ⟨?_, hb, ?_⟩
    · simp [env, four, hb, nan_rules]
    · rw [delivered_eq]
      simp [env, four, hb, nan_rules]
  rev v h a b d hb := by
    simp only at hb
    refine ⟨?_, hb, ?_⟩
    · simp [env, four, hb, nan_rules]
    · rw [square_written]
      simp [env, four, hb, nan_rules]
  seed v h a b d hb := by
    rw [delivered_eq] at hb
    simp only [Finset.mem_singleton, exists_eq_left] at hb
    simp [env, four, hb, nan_rules]

theorem linear : LinearDetermined layout env where
  fwd v v' h a b b' d d' _ hb e _ := by
    rw [entries] at hb
    simp only [Finset.mem_insert, Finset.mem_singleton, forall_eq_or_imp, forall_eq] at hb
    simp only [env, hb]
  rev v v' h a b b' d d' _ hb e _ := by
    rw [entries] at hb
    simp only [Finset.mem_insert, Finset.mem_singleton, forall_eq_or_imp, forall_eq] at hb
    simp only [env, hb]

/-- A new stage problem. -/
def new : Memory XReal := ⟨⟨fun _ _ => 0, fun _ _ => 0⟩, fun _ _ => 0, fun _ _ => 0⟩

/-- One reverse product with NaN, one forward product, one reverse product with finite numbers: the
derivative of a step with direction 1 is NaN. On a new stage problem it is 1. -/
theorem spoiled (p : List XReal) :
    (computeDerivativeM squareConf layout env (products squareConf layout env new
      [.rev p (fun _ => nan) 1 1, .fwd p ⟨0, fun _ => 1, fun _ => 0, fun _ => 0⟩ 1 1,
        .rev p (fun _ => 1) 1 1]) p ⟨0, fun _ => 1, fun _ => 0, fun _ => 0⟩ 1 1).2 0 = nan ∧
    (computeDerivativeM squareConf layout env new p ⟨0, fun _ => 1, fun _ => 0, fun _ => 0⟩ 1 1).2 0
      = 1 := by
  constructor
  · exact (C107_nan_violated square_built proper fits (z := ("z", 0)) (by decide +kernel)
      (by decide +kernel) (by decide +kernel) between new p p (fun _ => nan) (j := 0) one_pos rfl
      ⟨0, fun _ => 1, fun _ => 0, fun _ => 0⟩ 1 1 1 1 [.rev p (fun _ => 1) 1 1]).1 p _ 1 1 0 one_pos
  · simp only [computeDerivativeM, env, new]
    simp [squareConf, squareMeta, inputsToVec, writeTime, writeState, vecToOutputs, setVar, getVar,
      four, Function.update, wiped, zero_def, one_def, mul_def, neg_def, sub, neg, add, mul]

/-- A case of `C107_finite_partial`. -/
example (p : List XReal) (u : Inputs XReal) (y : Flat XReal) (v : Vectors XReal) (r t : ℝ) :=
  C107_finite_partial square_built proper fits linear ⟨v, fun _ _ => fin r, fun _ _ => fin t⟩
    (fun _ _ => ⟨r, rfl⟩) (fun _ _ => ⟨t, rfl⟩) v p u y 1 1

end PoisonEx

end Verif.Props
