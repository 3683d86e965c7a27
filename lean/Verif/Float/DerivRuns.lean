/-
Rounding errors of the derivatives along runs. The property theorems are in
`Verif.Props.FloatDeriv`.
-/
import Verif.Float.DerivError
import Mathlib.Analysis.SpecialFunctions.Exp

namespace Verif.Fl

open Verif.RK Verif.RK.Spec Verif.Control Verif.XReal Verif.Integrator Verif.Props
open Classical

variable {D : Type} {s n m o l : ℕ}

/-- Errors of a sequence of steps: each step amplifies size and distance by `1 + c h` and adds an
error of `γ` times the size. -/
theorem along_dist {σ ι : Type} (f' f : ι → σ → σ) (P : σ → Prop) (size : σ → ℝ) (dist : σ → σ → ℝ)
    (h : ι → ℝ) {c γ : ℝ} (hc : 0 ≤ c) (hγ : 0 ≤ γ) (hs0 : ∀ p, 0 ≤ size p)
    (hd0 : ∀ p q, 0 ≤ dist p q) (hh : ∀ a, 0 ≤ h a) (L : List ι)
    (hP' : ∀ a ∈ L, ∀ p, P p → P (f' a p)) (hP : ∀ a ∈ L, ∀ p, P p → P (f a p))
    (hsize : ∀ a ∈ L, ∀ p, P p → size (f' a p) ≤ (1 + c * h a + γ) * size p)
    (hdist : ∀ a ∈ L, ∀ p' p, P p' → P p →
      dist (f' a p') (f a p) ≤ (1 + c * h a) * dist p' p + γ * size p')
    (p' p : σ) (hp' : P p') (hp : P p) :
    dist (L.foldl (fun y a => f' a y) p') (L.foldl (fun y a => f a y) p)
      ≤ Real.exp (c * (L.map h).sum + γ * L.length) * (dist p' p + γ * L.length * size p') := by
  induction L generalizing p' p with
  | nil => simp
  | cons a L ih =>
    have ih' := ih (fun b hb => hP' b (List.mem_cons_of_mem _ hb))
      (fun b hb => hP b (List.mem_cons_of_mem _ hb))
      (fun b hb => hsize b (List.mem_cons_of_mem _ hb))
      (fun b hb => hdist b (List.mem_cons_of_mem _ hb)) (f' a p') (f a p)
      (hP' a List.mem_cons_self p' hp') (hP a List.mem_cons_self p hp)
    rw [List.foldl_cons, List.foldl_cons]
    refine ih'.trans ?_
    have h1 := hsize a List.mem_cons_self p' hp'
    have h2 := hdist a List.mem_cons_self p' p hp' hp
    have e1 : 1 + c * h a + γ ≤ Real.exp (c * h a + γ) := by
      have := Real.add_one_le_exp (c * h a + γ)
      linarith
    have hs := hs0 p'
    have hd := hd0 p' p
    have e2 : (1 : ℝ) ≤ 1 + c * h a + γ := by
      have := mul_nonneg hc (hh a)
      linarith
    have key : dist (f' a p') (f a p) + γ * L.length * size (f' a p')
        ≤ Real.exp (c * h a + γ) * (dist p' p + γ * (L.length + 1) * size p') := by
      have k1 : γ * L.length * size (f' a p') ≤ γ * L.length * ((1 + c * h a + γ) * size p') :=
        mul_le_mul_of_nonneg_left h1 (by positivity)
      have k2 : (1 + c * h a) * dist p' p ≤ (1 + c * h a + γ) * dist p' p :=
        mul_le_mul_of_nonneg_right (by linarith) hd
      have k3 : γ * size p' ≤ (1 + c * h a + γ) * (γ * size p') :=
        le_mul_of_one_le_left (by positivity) e2
      have k4 : (1 + c * h a + γ) * (dist p' p + γ * (L.length + 1) * size p')
          ≤ Real.exp (c * h a + γ) * (dist p' p + γ * (L.length + 1) * size p') :=
        mul_le_mul_of_nonneg_right e1 (by positivity)
      linarith
    have e3 : Real.exp (c * ((a :: L).map h).sum + γ * (a :: L).length)
        = Real.exp (c * (L.map h).sum + γ * L.length) * Real.exp (c * h a + γ) := by
      rw [← Real.exp_add]
      congr 1
      simp only [List.map_cons, List.sum_cons, List.length_cons]
      push_cast
      ring
    rw [e3, mul_assoc (Real.exp _) (Real.exp _)]
    refine mul_le_mul_of_nonneg_left ?_ (Real.exp_pos _).le
    simpa [List.length_cons] using key

theorem along_size {σ ι : Type} (f' : ι → σ → σ) (P : σ → Prop) (size : σ → ℝ)
    (h : ι → ℝ) {c γ : ℝ} (hs0 : ∀ p, 0 ≤ size p) (L : List ι)
    (hP' : ∀ a ∈ L, ∀ p, P p → P (f' a p))
    (hsize : ∀ a ∈ L, ∀ p, P p → size (f' a p) ≤ (1 + c * h a + γ) * size p) (p : σ) (hp : P p) :
    size (L.foldl (fun y a => f' a y) p)
      ≤ Real.exp (c * (L.map h).sum + γ * L.length) * size p := by
  induction L generalizing p with
  | nil => simp
  | cons a L ih =>
    have ih' := ih (fun b hb => hP' b (List.mem_cons_of_mem _ hb))
      (fun b hb => hsize b (List.mem_cons_of_mem _ hb)) (f' a p) (hP' a List.mem_cons_self p hp)
    rw [List.foldl_cons]
    refine ih'.trans ?_
    have h1 := hsize a List.mem_cons_self p hp
    have e1 : 1 + c * h a + γ ≤ Real.exp (c * h a + γ) := by
      have := Real.add_one_le_exp (c * h a + γ)
      linarith
    have h2 := h1.trans (mul_le_mul_of_nonneg_right e1 (hs0 p))
    have e3 : Real.exp (c * ((a :: L).map h).sum + γ * (a :: L).length)
        = Real.exp (c * (L.map h).sum + γ * L.length) * Real.exp (c * h a + γ) := by
      rw [← Real.exp_add]
      congr 1
      simp only [List.map_cons, List.sum_cons, List.length_cons]
      push_cast
      ring
    rw [e3, mul_assoc (Real.exp _) (Real.exp _)]
    exact mul_le_mul_of_nonneg_left h2 (Real.exp_pos _).le

theorem pubDist_empty (p : RKState ℝ s n m o l) : pubDist p RKState.empty = pubSize p := by
  simp [pubDist, pubSize, RKState.empty]

theorem pubDist_of_obs (p q q' : RKState ℝ s n m o l) (h : rkObs q = rkObs q') :
    pubDist p q = pubDist p q' := by
  obtain ⟨h1, h2, h3⟩ := rkObs_eq h
  simp only [pubDist, h1, h2, h3]

/-- The exact derivative step maps zero to zero. -/
theorem deriv_zero (T : Coeffs ℝ s) (ode : ODE ℝ n m o l) (st : RKState ℝ s n m o l) (h : ℝ)
    (hl : ∀ i, LinearDeriv ode (st.linearizationPoints i) h (T.A i i)) :
    rkObs (computeStepDerivative T ode st RKState.empty h)
      = rkObs (RKState.empty : RKState ℝ s n m o l) := by
  rw [← pubOf_congr, stepLin_apply T ode st h hl]
  have : pubOf (RKState.empty : RKState ℝ s n m o l) = 0 := rfl
  rw [this, map_zero]

/-- The exact adjoint step maps zero to zero. -/
theorem adj_zero (T : Coeffs ℝ s) {L κ : ℝ} {ode od : ODE ℝ n m o l} (st : RKState ℝ s n m o l)
    (h : ℝ) (hacc : ∀ i, Accurate L κ ode od (st.linearizationPoints i) h (T.A i i)) :
    rkObs (computeStepAdjoint T ode st RKState.empty h)
      = rkObs (RKState.empty : RKState ℝ s n m o l) := by
  have key : ∀ (is : List (Fin s)) (r : RKState ℝ s n m o l), r.stageStates = 0 →
      r.stageIndependentOutputs = 0 → r.stageUpdates = 0 → r.stageTimes = 0 → r.startState = 0 →
      r.startTime = 0 → r.independentInputs = 0 →
      (is.foldl (computeStageAdjoint T ode h st.linearizationPoints) r).startState = 0 ∧
      (is.foldl (computeStageAdjoint T ode h st.linearizationPoints) r).startTime = 0 ∧
      (is.foldl (computeStageAdjoint T ode h st.linearizationPoints) r).independentInputs = 0 := by
    intro is
    induction is with
    | nil => intro r _ _ _ _ h5 h6 h7; exact ⟨h5, h6, h7⟩
    | cons i is ih =>
      intro r h1 h2 h3 h4 h5 h6 h7
      have hz := (hacc i).adj_zero
      refine ih _ ?_ ?_ ?_ ?_ ?_ ?_ ?_
      all_goals
        simp only [computeStageAdjoint, h1, h2, h3, h4, h5, h6, h7, Pi.zero_apply, hz]
      · funext j
        split_ifs
        · funext x
          simp
        · rfl
      · funext j
        simp
      · simp
      · simp
      · simp
  obtain ⟨e1, e2, e3⟩ := key (List.finRange s).reverse
    { (RKState.empty : RKState ℝ s n m o l) with
      stageTimes := 0
      stageIndependentOutputs := 0
      finalTime := (RKState.empty : RKState ℝ s n m o l).finalTime + 0
      startState := (RKState.empty : RKState ℝ s n m o l).finalState
      stageUpdates := fun i x => h * T.b i * (RKState.empty : RKState ℝ s n m o l).finalState x
      startTime := (RKState.empty : RKState ℝ s n m o l).finalTime + 0 }
    rfl rfl (by funext i x; simp [RKState.empty]) rfl rfl (by simp [RKState.empty]) rfl
  unfold computeStepAdjoint
  simp only [rkObs, shiftStateReverse]
  rw [e1, e2, e3]
  rfl

/-! ### Runs -/

section
variable {fl : ℝ → ℝ} {u κ : ℝ} {dot : List (ℝ × ℝ) → ℝ}
  {B' B : Backend D (StartingValues ℝ n m) (Outputs n)} {E : Env s n m o l} {od : ODE ℝ n m o l}
  {opt : Options}

/-- The size of a step of a run. -/
noncomputable def hOf (x : IState D) : ℝ := toReal x.stepHist.1

/-- A run whose step sizes are at most `H` and sum up to at most `τ`, and at whose linearization
points the computed derivatives are accurate. -/
structure AccurateRun (core : D → RKState ℝ s n m o l) (L κ H τ : ℝ) (E : Env s n m o l)
    (od : ODE ℝ n m o l) (tr : List (Ctrl × IState D)) : Prop where
  size : ∀ q ∈ tr, |hOf q.2| ≤ H
  total : (tr.map fun q => |hOf q.2|).sum ≤ τ
  acc : ∀ q ∈ tr, ∀ i, Accurate L κ E.ode od ((core q.2.disc).linearizationPoints i) (hOf q.2)
    (E.T.A i i)

theorem fwdAlong_foldl (B : Backend D (StartingValues ℝ n m) (Outputs n))
    (tr : List (Ctrl × IState D)) (p : D) :
    fwdAlong B tr p = tr.foldl (fun y q => B.deriv q.2.disc y q.2.stepHist.1) p := by
  induction tr generalizing p with
  | nil => rfl
  | cons q tr ih => exact ih _

theorem revAlong_foldl (B : Backend D (StartingValues ℝ n m) (Outputs n))
    (xs : List (IState D)) (p : D) :
    revAlong B xs p = xs.foldl (fun y x => B.adj x.disc y x.stepHist.1) p := by
  induction xs generalizing p with
  | nil => rfl
  | cons q tr ih => exact ih _

/-- Along a run the computed forward derivative is near the exact one. -/
theorem fwdAlong_dist (T : Coeffs ℝ s) {L H τ : ℝ} (hL : 0 ≤ L) (hH : 0 ≤ H) :
    ∃ G : ℝ, 0 ≤ G ∧ ∀ {n m o l : ℕ} {D : Type} {fl : ℝ → ℝ} {u κ : ℝ} {dot : List (ℝ × ℝ) → ℝ}
      {B' B : Backend D (StartingValues ℝ n m) (Outputs n)} {E : Env s n m o l}
      {od : ODE ℝ n m o l}, E.T = T → Rounds fl u → IsDot fl dot → 0 ≤ κ → κ ≤ 1 →
      ∀ (C : FlDCore fl dot B' B E od) (tr : List (Ctrl × IState D)),
      AccurateRun C.core L κ H τ E od tr → (u + κ) * tr.length ≤ 1 → ∀ p,
      pubDist (C.core (fwdAlong B' tr p)) (C.core (fwdAlong B tr p))
        ≤ G * ((u + κ) * tr.length) * pubSize (C.core p) ∧
      pubSize (C.core (fwdAlong B' tr p)) ≤ G * pubSize (C.core p) := by
  obtain ⟨c, g, hc, hg, hstep⟩ := deriv_dist T hL hH
  refine ⟨Real.exp (c * τ + g) * (g + 1), by positivity, ?_⟩
  intro n m o l D fl u κ dot B' B E od hT hf hd hκ0 hκ1 C tr htr hN p
  subst hT
  have hδ0 : 0 ≤ u + κ := add_nonneg hf.nonneg hκ0
  have hone : ∀ q ∈ tr, ∀ p' p : RKState ℝ s n m o l, _ := fun q hq p' p =>
    hstep fl u dot κ hf hd hκ0 hκ1 E.ode od (C.core q.2.disc) p' p (hOf q.2) (htr.size q hq)
      (htr.acc q hq)
  have hsize : ∀ q ∈ tr, ∀ p : D, True → pubSize (C.core (B'.deriv q.2.disc p q.2.stepHist.1))
      ≤ (1 + c * |hOf q.2| + g * (u + κ)) * pubSize (C.core p) := fun q hq p _ => by
    rw [C.deriv_core']
    have h1 := hone q hq (C.core p) RKState.empty
    rw [pubDist_of_obs _ _ _ (deriv_zero E.T E.ode (C.core q.2.disc) (hOf q.2)
      fun i => (htr.acc q hq i).linear), pubDist_empty, pubDist_empty] at h1
    change pubSize (computeStepDerivativeFl fl dot E.T od (C.core q.2.disc) (C.core p) (hOf q.2))
      ≤ _
    linarith
  have main2 := along_size (fun q y => B'.deriv q.2.disc y q.2.stepHist.1) (fun _ : D => True)
    (fun p => pubSize (C.core p)) (fun q : Ctrl × IState D => |hOf q.2|)
    (fun _ => pubSize_nonneg _) tr (fun _ _ _ _ => trivial) hsize p trivial
  have main := along_dist (fun q y => B'.deriv q.2.disc y q.2.stepHist.1)
    (fun q y => B.deriv q.2.disc y q.2.stepHist.1) (fun _ : D => True)
    (fun p => pubSize (C.core p)) (fun p' p => pubDist (C.core p') (C.core p))
    (fun q : Ctrl × IState D => |hOf q.2|) hc (mul_nonneg hg hδ0) (fun _ => pubSize_nonneg _)
    (fun _ _ => pubDist_nonneg _ _) (fun _ => abs_nonneg _) tr (fun _ _ _ _ => trivial)
    (fun _ _ _ _ => trivial)
    hsize
    (fun q hq p' p _ _ => by
      rw [C.deriv_core', C.deriv_core]
      exact hone q hq (C.core p') (C.core p))
    p p trivial trivial
  rw [← fwdAlong_foldl, ← fwdAlong_foldl] at main
  rw [← fwdAlong_foldl] at main2
  have hself : pubDist (C.core p) (C.core p) = 0 := by simp [pubDist]
  rw [hself, zero_add] at main
  have hX : c * (tr.map fun q => |hOf q.2|).sum + g * (u + κ) * tr.length ≤ c * τ + g := by
    have k1 := mul_le_mul_of_nonneg_left htr.total hc
    have k2 := mul_le_mul_of_nonneg_left hN hg
    linarith
  have hS := pubSize_nonneg (C.core p)
  have v1 := mul_le_mul_of_nonneg_right (Real.exp_le_exp.mpr hX)
    (by positivity : 0 ≤ g * (u + κ) * tr.length * pubSize (C.core p))
  have v2 := mul_le_mul_of_nonneg_right (Real.exp_le_exp.mpr hX) hS
  have v3 : 0 ≤ Real.exp (c * τ + g) * ((u + κ) * tr.length * pubSize (C.core p)) := by positivity
  have v4 : 0 ≤ Real.exp (c * τ + g) * (g * pubSize (C.core p)) := by positivity
  exact ⟨by linarith, by linarith⟩

/-- Along a run the computed reverse derivative is near the exact one. -/
theorem revAlong_dist (n : ℕ) (T : Coeffs ℝ s) {L H τ : ℝ} (hL : 0 ≤ L) (hH : 0 ≤ H) :
    ∃ G : ℝ, 0 ≤ G ∧ ∀ {m o l : ℕ} {D : Type} {fl : ℝ → ℝ} {u κ : ℝ} {dot : List (ℝ × ℝ) → ℝ}
      {B' B : Backend D (StartingValues ℝ n m) (Outputs n)} {E : Env s n m o l}
      {od : ODE ℝ n m o l}, E.T = T → Rounds fl u → 0 ≤ κ → κ ≤ 1 →
      ∀ (C : FlDCore fl dot B' B E od) (tr : List (Ctrl × IState D)),
      AccurateRun C.core L κ H τ E od tr → (u + κ) * tr.length ≤ 1 → ∀ p,
      (C.core p).stageStates = 0 →
      pubDist (C.core (revAlong B' (tr.map Prod.snd).reverse p))
          (C.core (revAlong B (tr.map Prod.snd).reverse p))
        ≤ G * ((u + κ) * tr.length) * pubSize (C.core p) ∧
      pubSize (C.core (revAlong B' (tr.map Prod.snd).reverse p)) ≤ G * pubSize (C.core p) := by
  obtain ⟨c, g, hc, hg, hstep⟩ := adj_dist n T hL hH
  refine ⟨Real.exp (c * τ + g) * (g + 1), by positivity, ?_⟩
  intro m o l D fl u κ dot B' B E od hT hf hκ0 hκ1 C tr htr hN p hp
  subst hT
  have hδ0 : 0 ≤ u + κ := add_nonneg hf.nonneg hκ0
  have hmem : ∀ x ∈ (tr.map Prod.snd).reverse, ∃ q ∈ tr, q.2 = x := fun x hx => by
    simpa using hx
  have hone : ∀ x ∈ (tr.map Prod.snd).reverse, ∀ p' p : RKState ℝ s n m o l, _ :=
    fun x hx p' p => hstep fl u κ hf hκ0 hκ1 E.ode od (C.core x.disc) p' p (hOf x)
      (by obtain ⟨q, hq, rfl⟩ := hmem x hx; exact htr.size q hq)
      (by obtain ⟨q, hq, rfl⟩ := hmem x hx; exact htr.acc q hq)
  have hacc : ∀ x ∈ (tr.map Prod.snd).reverse, ∀ i, Accurate L κ E.ode od
      ((C.core x.disc).linearizationPoints i) (hOf x) (E.T.A i i) := fun x hx => by
    obtain ⟨q, hq, rfl⟩ := hmem x hx
    exact htr.acc q hq
  have hclean : ∀ x ∈ (tr.map Prod.snd).reverse, ∀ p : D, (C.core p).stageStates = 0 →
      (C.core (B'.adj x.disc p x.stepHist.1)).stageStates = 0 := fun x _ p hp => by
    rw [C.adj_core', adjFl_stageStates]
    exact hp
  have hsize : ∀ x ∈ (tr.map Prod.snd).reverse, ∀ p : D, (C.core p).stageStates = 0 →
      pubSize (C.core (B'.adj x.disc p x.stepHist.1))
        ≤ (1 + c * |hOf x| + g * (u + κ)) * pubSize (C.core p) := fun x hx p hp => by
    rw [C.adj_core']
    have h1 := (hone x hx (C.core p) RKState.empty hp rfl).2
    rw [pubDist_of_obs _ _ _ (adj_zero E.T (C.core x.disc) (hOf x) (hacc x hx)), pubDist_empty,
      pubDist_empty] at h1
    change pubSize (computeStepAdjointFl fl E.T od (C.core x.disc) (C.core p) (hOf x)) ≤ _
    linarith
  have main2 := along_size (fun x y => B'.adj x.disc y x.stepHist.1)
    (fun p : D => (C.core p).stageStates = 0) (fun p => pubSize (C.core p))
    (fun x : IState D => |hOf x|) (fun _ => pubSize_nonneg _) (tr.map Prod.snd).reverse hclean hsize
    p hp
  have main := along_dist (fun x y => B'.adj x.disc y x.stepHist.1)
    (fun x y => B.adj x.disc y x.stepHist.1) (fun p : D => (C.core p).stageStates = 0)
    (fun p => pubSize (C.core p)) (fun p' p => pubDist (C.core p') (C.core p))
    (fun x : IState D => |hOf x|) hc (mul_nonneg hg hδ0) (fun _ => pubSize_nonneg _)
    (fun _ _ => pubDist_nonneg _ _) (fun _ => abs_nonneg _) (tr.map Prod.snd).reverse
    hclean
    (fun x hx p hp => by
      rw [C.adj_core, C13_stage_states_stay_zero]
      exact hp)
    hsize
    (fun x hx p' p hp' hp => by
      rw [C.adj_core', C.adj_core]
      exact (hone x hx (C.core p') (C.core p) hp' hp).2)
    p p hp hp
  rw [← revAlong_foldl, ← revAlong_foldl] at main
  rw [← revAlong_foldl] at main2
  have hself : pubDist (C.core p) (C.core p) = 0 := by simp [pubDist]
  have hlen : ((tr.map Prod.snd).reverse).length = tr.length := by simp
  have hsum : ((tr.map Prod.snd).reverse.map fun x => |hOf x|).sum
      = (tr.map fun q => |hOf q.2|).sum := by
    rw [List.map_reverse, List.sum_reverse, List.map_map]
    rfl
  rw [hself, zero_add, hlen, hsum] at main
  rw [hlen, hsum] at main2
  have hX : c * (tr.map fun q => |hOf q.2|).sum + g * (u + κ) * tr.length ≤ c * τ + g := by
    have k1 := mul_le_mul_of_nonneg_left htr.total hc
    have k2 := mul_le_mul_of_nonneg_left hN hg
    linarith
  have hS := pubSize_nonneg (C.core p)
  have v1 := mul_le_mul_of_nonneg_right (Real.exp_le_exp.mpr hX)
    (by positivity : 0 ≤ g * (u + κ) * tr.length * pubSize (C.core p))
  have v2 := mul_le_mul_of_nonneg_right (Real.exp_le_exp.mpr hX) hS
  have v3 : 0 ≤ Real.exp (c * τ + g) * ((u + κ) * tr.length * pubSize (C.core p)) := by positivity
  have v4 : 0 ≤ Real.exp (c * τ + g) * (g * pubSize (C.core p)) := by positivity
  exact ⟨by linarith, by linarith⟩

/-- The exact products along a run are transposed. -/
theorem FlDCore.pair_along (C : FlDCore fl dot B' B E od) (hz : NoStageState E.ode)
    (tr : List (Ctrl × IState D)) (hadj : ∀ q ∈ tr, ∀ i, AdjointPair E.ode
      ((C.core q.2.disc).linearizationPoints i) (hOf q.2) (E.T.A i i)) (p q : D) :
    pair (C.core (revAlong B (tr.map Prod.snd).reverse q)) (C.core p)
      = pair (C.core q) (C.core (fwdAlong B tr p)) := by
  induction tr generalizing p with
  | nil => rfl
  | cons a tr ih =>
    rw [List.map_cons, List.reverse_cons, revAlong_append]
    simp only [revAlong, fwdAlong]
    rw [C.adj_core, ← ih fun q hq => hadj q (List.mem_cons_of_mem _ hq)]
    have h1 := Props.C13_step_adjoint_no_stage_state E.T E.ode (C.core a.2.disc) (C.core p)
      (C.core (revAlong B (tr.map Prod.snd).reverse q)) (toReal a.2.stepHist.1)
      (fun i => hadj a List.mem_cons_self i) (fun lin inp a => hz lin inp _ a)
    simp only [pair]
    rw [h1, C.deriv_core]
    rw [(computeStepDerivative_result E.T E.ode (C.core a.2.disc) (C.core p)
      (toReal a.2.stepHist.1)).indep]

end

end Verif.Fl
