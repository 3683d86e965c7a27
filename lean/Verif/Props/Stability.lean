/-
Stability of runs: linear problems whose solutions do not grow (C83), stiff components (C84),
dissipative and conservative nonlinear problems (C85), and limits of the explicit schemes (C86).

`along w y` is the component `∑ w_x y_x` of `y` along a left eigenvector `w`; for distinct
eigenvalues these components determine `y`.
-/
import Verif.Stab.Shipped
import Verif.Stab.AlgShipped
import Verif.Stab.Explicit
import Verif.Props.Shipped
import Verif.Props.Invariants
import Verif.Props.Convergence
import Verif.Props.Finish

namespace Verif.Props

open Verif.RK Verif.RK.Spec Verif.Control Verif.XReal Verif.Integrator Verif.Tableau Verif.Stab
open Classical

variable {D : Type} {s n m o l : ℕ} {E : Env s n m o l} {f : Rhs ℝ n m}
  {L : Matrix (Fin n) (Fin n) ℝ} {g : ℝ → (Fin m → ℝ) → Fin n → ℝ} {w : Fin n → ℂ} {lam : ℂ}

/-- Two runs over `N` fixed steps of size `dt` with the plain or the embedded integrator, started at
the same time with the same independent inputs, and with initial values and results `i, v` and
`i', v'`. -/
inductive TwoRuns (E : Env s n m o l) (dt : ℝ) (N : ℕ) (i v i' v' : Fin n → ℝ) : Prop
  | plain {t t₁ t₁' : ℝ} {p : Fin m → ℝ}
      (h : FixedRun (rkBackend E) rkRestore dt ⟨t, i, p⟩ ⟨t₁, v⟩ N)
      (h' : FixedRun (rkBackend E) rkRestore dt ⟨t, i', p⟩ ⟨t₁', v'⟩ N) : TwoRuns E dt N i v i' v'
  | embedded {bhat : Fin s → ℝ} {t t₁ t₁' : ℝ} {p : Fin m → ℝ}
      (h : FixedRun (embBackend E bhat) embRestore dt ⟨t, i, p⟩ ⟨t₁, v⟩ N)
      (h' : FixedRun (embBackend E bhat) embRestore dt ⟨t, i', p⟩ ⟨t₁', v'⟩ N) :
      TwoRuns E dt N i v i' v'

theorem TwoRuns.trajectories {dt : ℝ} {N : ℕ} {i v i' v' : Fin n → ℝ} (h : TwoRuns E dt N i v i' v')
    (hT : LowerTriangular E.T.A) (hs : ∀ i, SolvesStage E.ode f dt (E.T.A i i)) :
    ∃ t t₁ t₁' p, IsTrajectory E.T.A E.T.b E.T.c f p t i (List.replicate N dt) t₁ v ∧
      IsTrajectory E.T.A E.T.b E.T.c f p t i' (List.replicate N dt) t₁' v' := by
  cases h with
  | plain h h' =>
    exact ⟨_, _, _, _, steps_trajectory hT h.plain (replicate_solves hs),
      steps_trajectory hT h'.plain (replicate_solves hs)⟩
  | embedded h h' =>
    exact ⟨_, _, _, _, steps_trajectory hT h.embedded (replicate_solves hs),
      steps_trajectory hT h'.embedded (replicate_solves hs)⟩

/-! ### Facts about the shipped tableaux -/

theorem strictly_map {T : Tableau ℚ} (h : ∀ i j, i ≤ j → T.A i j = 0) :
    StrictlyLower (T.map (Rat.castHom ℝ)).A := fun i j hij =>
  (congrArg (Rat.castHom ℝ) (h i j hij)).trans (map_zero _)

theorem explicitEuler_strictly : ∀ i j, i ≤ j → explicitEuler.A i j = 0 := by decide +kernel
theorem rungeKuttaFour_strictly : ∀ i j, i ≤ j → rungeKuttaFour.A i j = 0 := by decide +kernel
theorem heunEuler_strictly : ∀ i j, i ≤ j → embeddedHeunEuler.A i j = 0 := by decide +kernel
theorem fehlberg_strictly : ∀ i j, i ≤ j → embeddedRungeKuttaFehlberg.A i j = 0 := by
  decide +kernel

/-- The two implicit schemes of order five have rounded coefficients and may enlarge differences by a
factor `1 + 1e-25` per step. -/
noncomputable def slack (p : Option ℕ) : ℝ := if p = some 5 then 1 / 10 ^ 25 else 0

theorem slack_nonneg (p : Option ℕ) : 0 ≤ slack p := by
  unfold slack
  split_ifs <;> norm_num

theorem stable_one {s : ℕ} {A : Fin s → Fin s → ℝ} {b : Fin s → ℝ} {p : Option ℕ}
    (h : StableBy ((1 : ℚ) : ℝ) A b) (hp : p ≠ some 5) : StableBy (1 + slack p) A b := by
  rw [slack, if_neg hp, add_zero]
  simpa using h

theorem stable_five {s : ℕ} {A : Fin s → Fin s → ℝ} {b : Fin s → ℝ}
    (h : StableBy ((1 + 1 / 10 ^ 25 : ℚ) : ℝ) A b) : StableBy (1 + slack (some 5)) A b := by
  rw [slack, if_pos rfl]
  have : ((1 + 1 / 10 ^ 25 : ℚ) : ℝ) = 1 + 1 / 10 ^ 25 := by push_cast; rfl
  rwa [this] at h

theorem plain_stable (e : PlainEntry) (he : e ∈ plainShipped) :
    StrictlyLower e.tab.A ∨ StableBy (1 + slack e.tab.p) e.tab.A e.tab.b := by
  simp only [plainShipped, List.mem_cons, List.not_mem_nil, or_false] at he
  rcases he with rfl | rfl | rfl | rfl | rfl | rfl
  · exact .inl (strictly_map explicitEuler_strictly)
  · exact .inr (stable_one implicitEuler_stable.1 (by decide))
  · exact .inr (stable_one implicitMidpoint_stable.1 (by decide))
  · exact .inr (stable_one thirdOrderTwoStageSdirk_stable.1
      (by change some 3 ≠ some 5; decide))
  · exact .inl (strictly_map rungeKuttaFour_strictly)
  · exact .inr (stable_five fifthOrderFiveStageSdirk_stable.1)

theorem emb_stable (e : EmbEntry) (he : e ∈ embShipped) :
    StrictlyLower e.tab.A ∨ StableBy (1 + slack e.tab.p) e.tab.A e.tab.b := by
  simp only [embShipped, List.mem_cons, List.not_mem_nil, or_false] at he
  rcases he with rfl | rfl | rfl | rfl | rfl | rfl | rfl | rfl | rfl |
      rfl | rfl | rfl | rfl | rfl | rfl | rfl | rfl | rfl
  · exact .inl (strictly_map (T := embeddedHeunEuler.toTableau) heunEuler_strictly)
  · exact .inr (stable_one embeddedSecondOrderTwoStageSdirk_stable.1
      (by change some 2 ≠ some 5; decide))
  · exact .inr (stable_one embeddedSecondOrderThreeStageEsdirk_stable.1
      (by change some 2 ≠ some 5; decide))
  · exact .inr (stable_one embeddedThirdOrderThreeStageSdirk1_stable.1
      (by change some 3 ≠ some 5; decide))
  · exact .inr (stable_one embeddedThirdOrderThreeStageSdirk2_stable.1
      (by change some 3 ≠ some 5; decide))
  · exact .inr (stable_one embeddedThirdOrderThreeStageEsdirk_stable.1
      (by change some 3 ≠ some 5; decide))
  · exact .inr (stable_one embeddedThirdOrderFourStageSdirk_stable.1
      (by change some 3 ≠ some 5; decide))
  · exact .inr (stable_one embeddedThirdOrderSecondWeakStageOrderFourStageDirk_stable.1
      (by change some 3 ≠ some 5; decide))
  · exact .inr (stable_one embeddedThirdOrderThirdWeakStageOrderFourStageDirk_stable.1
      (by change some 3 ≠ some 5; decide))
  · exact .inr (stable_one embeddedThirdOrderFourStageEsdirk_stable.1
      (by change some 3 ≠ some 5; decide))
  · exact .inr (stable_one embeddedThirdOrderFiveStageEsdirk_stable.1
      (by change some 3 ≠ some 5; decide))
  · exact .inr (stable_one embeddedFourthOrderFourStageSdirk_stable.1
      (by change some 4 ≠ some 5; decide))
  · exact .inr (stable_one embeddedFourthOrderFiveStageSdirk_stable.1
      (by change some 4 ≠ some 5; decide))
  · exact .inr (stable_one embeddedFourthOrderFiveStageEsdirk_stable.1
      (by change some 4 ≠ some 5; decide))
  · exact .inr (stable_one embeddedFourthOrderSixStageEsdirk_stable.1
      (by change some 4 ≠ some 5; decide))
  · exact .inr (stable_one embeddedFourthOrderThirdWeakStageOrderSixStageDirk_stable.1
      (by change some 4 ≠ some 5; decide))
  · exact .inl (strictly_map (T := embeddedRungeKuttaFehlberg.toTableau) fehlberg_strictly)
  · exact .inr (stable_five embeddedFifthOrderSixStageEsdirk_stable.1)

/-- The implicit tableaux the package ships, with the factor by which very stiff components are
multiplied in each step, in the limit. Zero for the L-stable ones. -/
noncomputable def stiffFactors : List (Tableau ℝ × ℝ) := [
  (implicitEuler.map (Rat.castHom ℝ), 0),
  (implicitMidpoint.map (Rat.castHom ℝ), 1),
  (thirdOrderTwoStageSdirk.map embQ3, 3 / 4),
  (fifthOrderFiveStageSdirk.map (Rat.castHom ℝ), 1 / 10 ^ 20),
  ((embeddedSecondOrderTwoStageSdirk.map embQ2).toTableau, 0),
  ((embeddedSecondOrderThreeStageEsdirk.map embQ2).toTableau, 0),
  ((embeddedThirdOrderThreeStageSdirk1.map (Rat.castHom ℝ)).toTableau, 0),
  ((embeddedThirdOrderThreeStageSdirk2.map (Rat.castHom ℝ)).toTableau, 3 / 4),
  ((embeddedThirdOrderThreeStageEsdirk.map embQ3r).toTableau, 3 / 4),
  ((embeddedThirdOrderFourStageSdirk.map (Rat.castHom ℝ)).toTableau, 0),
  ((embeddedThirdOrderSecondWeakStageOrderFourStageDirk.map (Rat.castHom ℝ)).toTableau, 0),
  ((embeddedThirdOrderThirdWeakStageOrderFourStageDirk.map (Rat.castHom ℝ)).toTableau, 0),
  ((embeddedThirdOrderFourStageEsdirk.map (Rat.castHom ℝ)).toTableau, 1 / 10 ^ 20),
  ((embeddedThirdOrderFiveStageEsdirk.map embQ2).toTableau, 0),
  ((embeddedFourthOrderFourStageSdirk.map (Rat.castHom ℝ)).toTableau, 3 / 4),
  ((embeddedFourthOrderFiveStageSdirk.map embQ2).toTableau, 0),
  ((embeddedFourthOrderFiveStageEsdirk.map (Rat.castHom ℝ)).toTableau, 3 / 4),
  ((embeddedFourthOrderSixStageEsdirk.map embQ2).toTableau, 0),
  ((embeddedFourthOrderThirdWeakStageOrderSixStageDirk.map (Rat.castHom ℝ)).toTableau, 0),
  ((embeddedFifthOrderSixStageEsdirk.map (Rat.castHom ℝ)).toTableau, 1 / 10 ^ 20)]

theorem stiffFactors_damp (T : Tableau ℝ) (ε : ℝ) (h : (T, ε) ∈ stiffFactors) :
    DampsBy ε T.A T.b := by
  simp only [stiffFactors, List.mem_cons, List.not_mem_nil, or_false, Prod.mk.injEq] at h
  rcases h with ⟨rfl, rfl⟩ | ⟨rfl, rfl⟩ | ⟨rfl, rfl⟩ | ⟨rfl, rfl⟩ | ⟨rfl, rfl⟩ | ⟨rfl, rfl⟩ | ⟨rfl, rfl⟩ |
      ⟨rfl, rfl⟩ | ⟨rfl, rfl⟩ | ⟨rfl, rfl⟩ | ⟨rfl, rfl⟩ | ⟨rfl, rfl⟩ | ⟨rfl, rfl⟩ | ⟨rfl, rfl⟩ |
      ⟨rfl, rfl⟩ | ⟨rfl, rfl⟩ | ⟨rfl, rfl⟩ | ⟨rfl, rfl⟩ | ⟨rfl, rfl⟩ | ⟨rfl, rfl⟩
  · simpa using implicitEuler_stable.2
  · simpa using implicitMidpoint_stable.2
  · have := thirdOrderTwoStageSdirk_stable.2
    norm_num at this ⊢
    exact this
  · have := fifthOrderFiveStageSdirk_stable.2
    norm_num at this ⊢
    exact this
  · simpa using embeddedSecondOrderTwoStageSdirk_stable.2
  · simpa using embeddedSecondOrderThreeStageEsdirk_stable.2
  · simpa using embeddedThirdOrderThreeStageSdirk1_stable.2
  · have := embeddedThirdOrderThreeStageSdirk2_stable.2
    norm_num at this ⊢
    exact this
  · have := embeddedThirdOrderThreeStageEsdirk_stable.2
    norm_num at this ⊢
    exact this
  · simpa using embeddedThirdOrderFourStageSdirk_stable.2
  · simpa using embeddedThirdOrderSecondWeakStageOrderFourStageDirk_stable.2
  · simpa using embeddedThirdOrderThirdWeakStageOrderFourStageDirk_stable.2
  · have := embeddedThirdOrderFourStageEsdirk_stable.2
    norm_num at this ⊢
    exact this
  · simpa using embeddedThirdOrderFiveStageEsdirk_stable.2
  · have := embeddedFourthOrderFourStageSdirk_stable.2
    norm_num at this ⊢
    exact this
  · simpa using embeddedFourthOrderFiveStageSdirk_stable.2
  · have := embeddedFourthOrderFiveStageEsdirk_stable.2
    norm_num at this ⊢
    exact this
  · simpa using embeddedFourthOrderSixStageEsdirk_stable.2
  · simpa using embeddedFourthOrderThirdWeakStageOrderSixStageDirk_stable.2
  · have := embeddedFifthOrderSixStageEsdirk_stable.2
    norm_num at this ⊢
    exact this

theorem plain_lower (e : PlainEntry) (he : e ∈ plainShipped) : LowerTriangular e.tab.A := by
  obtain ⟨_, -, -, -, h, -⟩ := C05_plain_tableaux e he
  exact h

theorem emb_lower (e : EmbEntry) (he : e ∈ embShipped) : LowerTriangular e.tab.A := by
  obtain ⟨_, _, -, -, -, -, -, h, -⟩ := C05_embedded_tableaux e he
  exact h

/-! ### C83 -/

/-- C83 for any scheme that satisfies the stability condition: in a linear problem, two runs with
fixed steps do not drift apart along eigenvectors whose exact solutions do not. -/
theorem C83_linear {q : ℝ} (hS : StableBy q E.T.A E.T.b) (hq : 0 ≤ q)
    (hT : LowerTriangular E.T.A) (hf : IsAffine f L g) (hw : LeftEigen L w lam)
    (hl : lam.re ≤ 0) {dt : ℝ} (hdt : 0 ≤ dt) (hs : ∀ i, SolvesStage E.ode f dt (E.T.A i i))
    {N : ℕ} {i v i' v' : Fin n → ℝ} (h : TwoRuns E dt N i v i' v') :
    ‖along w (v - v')‖ ≤ q ^ N * ‖along w (i - i')‖ := by
  obtain ⟨t, t₁, t₁', p, h1, h2⟩ := h.trajectories hT hs
  have := hS.trajectory hq hf hw hl (fun x hx => (List.eq_of_mem_replicate hx).ge.trans' hdt) h1 h2
  rwa [List.length_replicate] at this

/-- C83, plain shipped tableaux that are not explicit, any step size and number of steps: along
every left eigenvector with an eigenvalue in the left half plane the distance of two runs does not
grow; by at most a factor `1 + 1e-25` per step for the scheme of order five. -/
theorem C83_shipped (e : PlainEntry) (he : e ∈ plainShipped) (hi : ¬ StrictlyLower e.tab.A)
    {E : Env e.tab.stages n m o l} (hE : E.T = e.tab.coeffs) (hf : IsAffine f L g)
    (hw : LeftEigen L w lam) (hl : lam.re ≤ 0) {dt : ℝ} (hdt : 0 ≤ dt)
    (hs : ∀ i, SolvesStage E.ode f dt (E.T.A i i)) {N : ℕ} {i v i' v' : Fin n → ℝ}
    (h : TwoRuns E dt N i v i' v') :
    ‖along w (v - v')‖ ≤ (1 + slack e.tab.p) ^ N * ‖along w (i - i')‖ :=
  C83_linear (by rw [hE]; exact (plain_stable e he).resolve_left hi)
    (add_nonneg zero_le_one (slack_nonneg _)) (by rw [hE]; exact plain_lower e he) hf hw hl hdt hs h

/-- C83 for the shipped embedded tableaux, fixed steps. -/
theorem C83_shipped_embedded (e : EmbEntry) (he : e ∈ embShipped) (hi : ¬ StrictlyLower e.tab.A)
    {E : Env e.tab.stages n m o l} (hE : E.T = e.tab.coeffs) (hf : IsAffine f L g)
    (hw : LeftEigen L w lam) (hl : lam.re ≤ 0) {dt : ℝ} (hdt : 0 ≤ dt)
    (hs : ∀ i, SolvesStage E.ode f dt (E.T.A i i)) {N : ℕ} {i v i' v' : Fin n → ℝ}
    (h : TwoRuns E dt N i v i' v') :
    ‖along w (v - v')‖ ≤ (1 + slack e.tab.p) ^ N * ‖along w (i - i')‖ :=
  C83_linear (by rw [hE]; exact (emb_stable e he).resolve_left hi)
    (add_nonneg zero_le_one (slack_nonneg _)) (by rw [hE]; exact emb_lower e he) hf hw hl hdt hs h

/-- C83 for adaptive runs of the homogeneous problem `y' = L y` with the shipped embedded tableaux,
except for the implicit one of order five: whatever steps are chosen, the component along the
eigenvector does not grow. -/
theorem C83_shipped_adaptive (e : EmbEntry) (he : e ∈ embShipped) (hi : ¬ StrictlyLower e.tab.A)
    (h5 : e.tab.p ≠ some 5) {E : Env e.tab.stages n m o l} (hE : E.T = e.tab.coeffs)
    (hf : IsAffine f L fun _ _ _ => 0) (hw : LeftEigen L w lam) (hl : lam.re ≤ 0) {T u : ℝ}
    (hs : ∀ h, 0 ≤ h → h ≤ u → ∀ i, SolvesStage E.ode f h (E.T.A i i))
    {i : StartingValues ℝ n m} {v : Outputs n} (h : AdaptiveRun E e.tab.bhat T u i v) :
    ‖along w v.values‖ ≤ ‖along w i.initialValues‖ := by
  obtain ⟨hs', h1, h2⟩ := h.isSteps
  have hT : LowerTriangular E.T.A := by rw [hE]; exact emb_lower e he
  have hS : StableBy 1 E.T.A E.T.b := by
    have := (emb_stable e he).resolve_left hi
    rw [slack, if_neg h5, add_zero] at this
    rw [hE]
    exact this
  have h3 := steps_trajectory hT h2 fun h hh => hs h (h1 h hh).1 (h1 h hh).2
  have h4 := hS.trajectory zero_le_one hf hw hl (fun x hx => (h1 x hx).1) h3
    (zero_trajectory (fun t p x => by rw [hf]; simp) _ _)
  simpa using h4

/-- C83 in the Euclidean norm for symmetric problems whose matrix is negative semidefinite, like
diffusion: two runs do not drift apart at all. -/
theorem C83_symmetric {q : ℝ} (hS : StableBy q E.T.A E.T.b) (hq : 0 ≤ q)
    (hT : LowerTriangular E.T.A) (hf : IsAffine f L g) (hL : ∀ x x', L x x' = L x' x)
    (hneg : ∀ u : Fin n → ℝ, ∑ x, ∑ x', u x * L x x' * u x' ≤ 0) {dt : ℝ} (hdt : 0 ≤ dt)
    (hs : ∀ i, SolvesStage E.ode f dt (E.T.A i i)) {N : ℕ} {i v i' v' : Fin n → ℝ}
    (h : TwoRuns E dt N i v i' v') :
    ∑ x, (v x - v' x) ^ 2 ≤ (q ^ N) ^ 2 * ∑ x, (i x - i' x) ^ 2 :=
  sum_sq_le_of_along (d := i - i') (d' := v - v') hL hneg fun _ _ hw hl =>
    C83_linear hS hq hT hf hw hl hdt hs h

theorem C83_shipped_symmetric (e : PlainEntry) (he : e ∈ plainShipped)
    (hi : ¬ StrictlyLower e.tab.A) {E : Env e.tab.stages n m o l} (hE : E.T = e.tab.coeffs)
    (hf : IsAffine f L g) (hL : ∀ x x', L x x' = L x' x)
    (hneg : ∀ u : Fin n → ℝ, ∑ x, ∑ x', u x * L x x' * u x' ≤ 0) {dt : ℝ} (hdt : 0 ≤ dt)
    (hs : ∀ i, SolvesStage E.ode f dt (E.T.A i i)) {N : ℕ} {i v i' v' : Fin n → ℝ}
    (h : TwoRuns E dt N i v i' v') :
    ∑ x, (v x - v' x) ^ 2 ≤ ((1 + slack e.tab.p) ^ N) ^ 2 * ∑ x, (i x - i' x) ^ 2 :=
  C83_symmetric (by rw [hE]; exact (plain_stable e he).resolve_left hi)
    (add_nonneg zero_le_one (slack_nonneg _)) (by rw [hE]; exact plain_lower e he) hf hL hneg hdt hs
    h

theorem C83_shipped_symmetric_embedded (e : EmbEntry) (he : e ∈ embShipped)
    (hi : ¬ StrictlyLower e.tab.A) {E : Env e.tab.stages n m o l} (hE : E.T = e.tab.coeffs)
    (hf : IsAffine f L g) (hL : ∀ x x', L x x' = L x' x)
    (hneg : ∀ u : Fin n → ℝ, ∑ x, ∑ x', u x * L x x' * u x' ≤ 0) {dt : ℝ} (hdt : 0 ≤ dt)
    (hs : ∀ i, SolvesStage E.ode f dt (E.T.A i i)) {N : ℕ} {i v i' v' : Fin n → ℝ}
    (h : TwoRuns E dt N i v i' v') :
    ∑ x, (v x - v' x) ^ 2 ≤ ((1 + slack e.tab.p) ^ N) ^ 2 * ∑ x, (i x - i' x) ^ 2 :=
  C83_symmetric (by rw [hE]; exact (emb_stable e he).resolve_left hi)
    (add_nonneg zero_le_one (slack_nonneg _)) (by rw [hE]; exact emb_lower e he) hf hL hneg hdt hs
    h

/-! ### C84 -/

theorem factors_lower (T : Tableau ℝ) (ε : ℝ) (h : (T, ε) ∈ stiffFactors) :
    LowerTriangular T.A := by
  simp only [stiffFactors, List.mem_cons, List.not_mem_nil, or_false, Prod.mk.injEq] at h
  rcases h with ⟨rfl, rfl⟩ | ⟨rfl, rfl⟩ | ⟨rfl, rfl⟩ | ⟨rfl, rfl⟩ | h
  · exact implicitEuler_main.lower
  · exact implicitMidpoint_main.lower
  · exact thirdOrderTwoStageSdirk_main.lower
  · exact fifthOrderFiveStageSdirk_main.lower
  · have key : ∀ e ∈ embShipped, LowerTriangular e.tab.toTableau.A := emb_lower
    simp only [embShipped, List.forall_mem_cons] at key
    obtain ⟨-, k1, k2, k3, k4, k5, k6, k7, k8, k9, k10, k11, k12, k13, k14, k15, -, k16, -⟩ := key
    rcases h with ⟨rfl, rfl⟩ | ⟨rfl, rfl⟩ | ⟨rfl, rfl⟩ | ⟨rfl, rfl⟩ | ⟨rfl, rfl⟩ | ⟨rfl, rfl⟩ |
      ⟨rfl, rfl⟩ | ⟨rfl, rfl⟩ | ⟨rfl, rfl⟩ | ⟨rfl, rfl⟩ | ⟨rfl, rfl⟩ | ⟨rfl, rfl⟩ | ⟨rfl, rfl⟩ |
      ⟨rfl, rfl⟩ | ⟨rfl, rfl⟩ | ⟨rfl, rfl⟩
    all_goals assumption

/-- The list covers all shipped tableaux that are not explicit. -/
theorem C84_list_complete :
    (∀ e ∈ plainShipped, StrictlyLower e.tab.A ∨ ∃ ε, (e.tab, ε) ∈ stiffFactors) ∧
    ∀ e ∈ embShipped, StrictlyLower e.tab.A ∨ ∃ ε, (e.tab.toTableau, ε) ∈ stiffFactors := by
  constructor <;> intro e he
  · simp only [plainShipped, List.mem_cons, List.not_mem_nil, or_false] at he
    rcases he with rfl | rfl | rfl | rfl | rfl | rfl
    · exact .inl (strictly_map explicitEuler_strictly)
    · exact .inr ⟨0, by simp [stiffFactors]⟩
    · exact .inr ⟨1, by simp [stiffFactors]⟩
    · exact .inr ⟨3 / 4, by simp [stiffFactors]⟩
    · exact .inl (strictly_map rungeKuttaFour_strictly)
    · exact .inr ⟨1 / 10 ^ 20, by simp [stiffFactors]⟩
  · simp only [embShipped, List.mem_cons, List.not_mem_nil, or_false] at he
    rcases he with rfl | rfl | rfl | rfl | rfl | rfl | rfl | rfl | rfl |
      rfl | rfl | rfl | rfl | rfl | rfl | rfl | rfl | rfl
    · exact .inl (strictly_map (T := embeddedHeunEuler.toTableau) heunEuler_strictly)
    · exact .inr ⟨0, by simp [stiffFactors]⟩
    · exact .inr ⟨0, by simp [stiffFactors]⟩
    · exact .inr ⟨0, by simp [stiffFactors]⟩
    · exact .inr ⟨3 / 4, by simp [stiffFactors]⟩
    · exact .inr ⟨3 / 4, by simp [stiffFactors]⟩
    · exact .inr ⟨0, by simp [stiffFactors]⟩
    · exact .inr ⟨0, by simp [stiffFactors]⟩
    · exact .inr ⟨0, by simp [stiffFactors]⟩
    · exact .inr ⟨1 / 10 ^ 20, by simp [stiffFactors]⟩
    · exact .inr ⟨0, by simp [stiffFactors]⟩
    · exact .inr ⟨3 / 4, by simp [stiffFactors]⟩
    · exact .inr ⟨0, by simp [stiffFactors]⟩
    · exact .inr ⟨3 / 4, by simp [stiffFactors]⟩
    · exact .inr ⟨0, by simp [stiffFactors]⟩
    · exact .inr ⟨0, by simp [stiffFactors]⟩
    · exact .inl (strictly_map (T := embeddedRungeKuttaFehlberg.toTableau) fehlberg_strictly)
    · exact .inr ⟨1 / 10 ^ 20, by simp [stiffFactors]⟩

/-- C84: the constant `C` depends on the tableau only. For every linear problem and every left
eigenvector with an eigenvalue `λ ≠ 0` in the left half plane, `N` steps of any size multiply the
distance of two runs by at most `(ε + C / (dt |λ|))^N`; for the L-stable tableaux with `ε = 0` stiff
components disappear within a single step. -/
theorem C84_stiff (T : Tableau ℝ) (ε : ℝ) (hTε : (T, ε) ∈ stiffFactors) :
    ∃ C : ℝ, 0 ≤ C ∧ ∀ {n m o l : ℕ} {E : Env T.stages n m o l} {f : Rhs ℝ n m}
      {L : Matrix (Fin n) (Fin n) ℝ} {g : ℝ → (Fin m → ℝ) → Fin n → ℝ} {w : Fin n → ℂ} {lam : ℂ},
      E.T = T.coeffs → IsAffine f L g → LeftEigen L w lam → lam.re ≤ 0 → lam ≠ 0 →
      ∀ {dt : ℝ}, 0 < dt → (∀ i, SolvesStage E.ode f dt (E.T.A i i)) →
      ∀ {N : ℕ} {i v i' v' : Fin n → ℝ}, TwoRuns E dt N i v i' v' →
      ‖along w (v - v')‖ ≤ (ε + C / (dt * ‖lam‖)) ^ N * ‖along w (i - i')‖ := by
  obtain ⟨C, hC, hD⟩ := stiffFactors_damp T ε hTε
  have hε : 0 ≤ ε := by
    simp only [stiffFactors, List.mem_cons, List.not_mem_nil, or_false, Prod.mk.injEq] at hTε
    rcases hTε with ⟨-, rfl⟩ | ⟨-, rfl⟩ | ⟨-, rfl⟩ | ⟨-, rfl⟩ | ⟨-, rfl⟩ | ⟨-, rfl⟩ | ⟨-, rfl⟩ |
      ⟨-, rfl⟩ | ⟨-, rfl⟩ | ⟨-, rfl⟩ | ⟨-, rfl⟩ | ⟨-, rfl⟩ | ⟨-, rfl⟩ | ⟨-, rfl⟩ | ⟨-, rfl⟩ |
      ⟨-, rfl⟩ | ⟨-, rfl⟩ | ⟨-, rfl⟩ | ⟨-, rfl⟩ | ⟨-, rfl⟩ <;> norm_num
  refine ⟨C, hC, ?_⟩
  intro n m o l E f L g w lam hE hf hw hl hl0 dt hdt hs N i v i' v' h
  obtain ⟨t, t₁, t₁', p, h1, h2⟩ := h.trajectories
    (by rw [hE]; exact factors_lower T ε hTε) hs
  have hpos : 0 < dt * ‖lam‖ := mul_pos hdt (norm_pos_iff.mpr hl0)
  refine repeat_le (by positivity) hf hw (fun ξ k hk => ?_) N h1 h2
  rw [hE] at hk ⊢
  have h5 := hD (dt * lam) ξ k (by
    rw [Complex.re_ofReal_mul]
    exact mul_nonpos_of_nonneg_of_nonpos hdt.le hl) hk
  have hn : ‖(dt : ℂ) * lam‖ = dt * ‖lam‖ := by
    rw [norm_mul, Complex.norm_real, Real.norm_of_nonneg hdt.le]
  rw [hn] at h5
  refine le_of_mul_le_mul_left (h5.trans (le_of_eq ?_)) hpos
  field_simp

/-! ### C85 -/

/-- The shipped tableaux that are stable for dissipative problems. -/
noncomputable def contractive : List (Tableau ℝ) := [
  implicitEuler.map (Rat.castHom ℝ),
  implicitMidpoint.map (Rat.castHom ℝ),
  thirdOrderTwoStageSdirk.map embQ3,
  (embeddedThirdOrderThreeStageSdirk2.map (Rat.castHom ℝ)).toTableau]

theorem contractive_alg (T : Tableau ℝ) (h : T ∈ contractive) :
    AlgStable T.A T.b ∧ LowerTriangular T.A := by
  simp only [contractive, List.mem_cons, List.not_mem_nil, or_false] at h
  rcases h with rfl | rfl | rfl | rfl
  · exact ⟨implicitEuler_alg, implicitEuler_main.lower⟩
  · exact ⟨implicitMidpoint_alg, implicitMidpoint_main.lower⟩
  · exact ⟨thirdOrderTwoStageSdirk_alg, thirdOrderTwoStageSdirk_main.lower⟩
  · exact ⟨embeddedThirdOrderThreeStageSdirk2_alg, embeddedThirdOrderThreeStageSdirk2_main.lower⟩

/-- C85, dissipative problems: in any seminorm `|C u|` given by a linear map `C`, two solutions of
the problem approach each other. Then so do two runs with implicit Euler, the implicit midpoint rule
and two of the SDIRK schemes, for all step sizes. -/
theorem C85_contractive (T : Tableau ℝ) (hTc : T ∈ contractive) {E : Env T.stages n m o l}
    (hE : E.T = T.coeffs) {r : ℕ} (C : (Fin n → ℝ) →ₗ[ℝ] (Fin r → ℝ))
    (hf : ∀ t u u' p, ∑ x, C (f t u p - f t u' p) x * C (u - u') x ≤ 0) {dt : ℝ} (hdt : 0 ≤ dt)
    (hs : ∀ i, SolvesStage E.ode f dt (E.T.A i i)) {N : ℕ} {i v i' v' : Fin n → ℝ}
    (h : TwoRuns E dt N i v i' v') :
    ∑ x, C (v - v') x ^ 2 ≤ ∑ x, C (i - i') x ^ 2 := by
  obtain ⟨h1, h2⟩ := contractive_alg T hTc
  obtain ⟨t, t₁, t₁', p, h3, h4⟩ := h.trajectories (by rw [hE]; exact h2) hs
  have h5 : AlgStable E.T.A E.T.b := by rw [hE]; exact h1
  have h6 := h5.trajectory (C := C) (fun t u u' => hf t u u' p)
    (fun x hx => (List.eq_of_mem_replicate hx).ge.trans' hdt) h3 h4
  simpa only [formOf_apply, ← sq] using h6

/-- C85: energies `|C y|²` that do not increase along solutions do not increase in runs. -/
theorem C85_energy (T : Tableau ℝ) (hTc : T ∈ contractive) {E : Env T.stages n m o l}
    (hE : E.T = T.coeffs) {r : ℕ} (C : (Fin n → ℝ) →ₗ[ℝ] (Fin r → ℝ))
    (hf : ∀ t u p, ∑ x, C (f t u p) x * C u x ≤ 0) {dt : ℝ} (hdt : 0 ≤ dt)
    (hs : ∀ i, SolvesStage E.ode f dt (E.T.A i i)) {N : ℕ} {i : StartingValues ℝ n m}
    {v : Outputs n} (h : FixedRun (rkBackend E) rkRestore dt i v N) :
    ∑ x, C v.values x ^ 2 ≤ ∑ x, C i.initialValues x ^ 2 := by
  obtain ⟨h1, h2⟩ := contractive_alg T hTc
  have h5 : AlgStable E.T.A E.T.b := by rw [hE]; exact h1
  have h6 := h5.energy (C := C) (fun t u => hf t u i.independentInputs)
    (fun x hx => (List.eq_of_mem_replicate hx).ge.trans' hdt)
    (steps_trajectory (by rw [hE]; exact h2) h.plain (replicate_solves hs))
  simpa only [formOf_apply, ← sq] using h6

theorem C85_energy_embedded (T : Tableau ℝ) (hTc : T ∈ contractive) {E : Env T.stages n m o l}
    {bhat : Fin T.stages → ℝ} (hE : E.T = T.coeffs) {r : ℕ} (C : (Fin n → ℝ) →ₗ[ℝ] (Fin r → ℝ))
    (hf : ∀ t u p, ∑ x, C (f t u p) x * C u x ≤ 0) {dt : ℝ} (hdt : 0 ≤ dt)
    (hs : ∀ i, SolvesStage E.ode f dt (E.T.A i i)) {N : ℕ} {i : StartingValues ℝ n m}
    {v : Outputs n} (h : FixedRun (embBackend E bhat) embRestore dt i v N) :
    ∑ x, C v.values x ^ 2 ≤ ∑ x, C i.initialValues x ^ 2 := by
  obtain ⟨h1, h2⟩ := contractive_alg T hTc
  have h5 : AlgStable E.T.A E.T.b := by rw [hE]; exact h1
  have h6 := h5.energy (C := C) (fun t u => hf t u i.independentInputs)
    (fun x hx => (List.eq_of_mem_replicate hx).ge.trans' hdt)
    (steps_trajectory (by rw [hE]; exact h2) h.embedded (replicate_solves hs))
  simpa only [formOf_apply, ← sq] using h6

/-- C85 for adaptive runs, whatever steps are chosen. -/
theorem C85_energy_adaptive (T : Tableau ℝ) (hTc : T ∈ contractive) {E : Env T.stages n m o l}
    {bhat : Fin T.stages → ℝ} (hE : E.T = T.coeffs) {r : ℕ} (C : (Fin n → ℝ) →ₗ[ℝ] (Fin r → ℝ))
    (hf : ∀ t u p, ∑ x, C (f t u p) x * C u x ≤ 0) {Tf u : ℝ}
    (hs : ∀ h, 0 ≤ h → h ≤ u → ∀ i, SolvesStage E.ode f h (E.T.A i i))
    {i : StartingValues ℝ n m} {v : Outputs n} (h : AdaptiveRun E bhat Tf u i v) :
    ∑ x, C v.values x ^ 2 ≤ ∑ x, C i.initialValues x ^ 2 := by
  obtain ⟨h1, h2⟩ := contractive_alg T hTc
  obtain ⟨hs', g1, g2⟩ := h.isSteps
  have h5 : AlgStable E.T.A E.T.b := by rw [hE]; exact h1
  have h6 := h5.energy (C := C) (fun t u => hf t u i.independentInputs) (fun x hx => (g1 x hx).1)
    (steps_trajectory (by rw [hE]; exact h2) g2 fun h hh => hs h (g1 h hh).1 (g1 h hh).2)
  simpa only [formOf_apply, ← sq] using h6

/-- C85, the implicit midpoint rule: every quadratic quantity `∑ Q_xx' y_x y_x'` that solutions
conserve is conserved by runs, for all step sizes and numbers of steps. -/
theorem C85_midpoint_conserves {E : Env (implicitMidpoint.map (Rat.castHom ℝ)).stages n m o l}
    (hE : E.T = (implicitMidpoint.map (Rat.castHom ℝ)).coeffs) (Q : Form n)
    (hQ : ∀ u v, Q u v = Q v u) (hf : ∀ t u p, Q (f t u p) u = 0) {dt : ℝ}
    (hs : ∀ i, SolvesStage E.ode f dt (E.T.A i i)) {N : ℕ} {i : StartingValues ℝ n m}
    {v : Outputs n} (h : FixedRun (rkBackend E) rkRestore dt i v N) :
    Q v.values v.values = Q i.initialValues i.initialValues := by
  refine trajectory_conserved (A := E.T.A) (b := E.T.b) (fun i j => ?_) hQ
    (fun t u => hf t u i.independentInputs)
    (steps_trajectory (by rw [hE]; exact implicitMidpoint_main.lower) h.plain (replicate_solves hs))
  rw [hE]
  exact implicitMidpoint_algMat i j

/-! ### C86 -/

/-- C86: no explicit scheme is stable for all step sizes: for every factor `K` there is a bound `Z`
that depends on the coefficients only, such that in every linear problem steps with `dt |λ| ≥ Z`
multiply the distance of two runs along the eigenvector by at least `K` each. -/
theorem C86_explicit_unstable {s : ℕ} {A : Fin s → Fin s → ℝ} {b : Fin s → ℝ}
    (hA : StrictlyLower A) (hb : ∑ i, b i ≠ 0) {K : ℝ} (hK : 0 ≤ K) :
    ∃ Z : ℝ, ∀ {n m o l : ℕ} {E : Env s n m o l} {f : Rhs ℝ n m}
      {L : Matrix (Fin n) (Fin n) ℝ} {g : ℝ → (Fin m → ℝ) → Fin n → ℝ} {w : Fin n → ℂ} {lam : ℂ},
      E.T.A = A → E.T.b = b → IsAffine f L g → LeftEigen L w lam →
      ∀ {dt : ℝ}, 0 ≤ dt → Z ≤ dt * ‖lam‖ → (∀ i, SolvesStage E.ode f dt (E.T.A i i)) →
      ∀ {N : ℕ} {i v i' v' : Fin n → ℝ}, TwoRuns E dt N i v i' v' →
      K ^ N * ‖along w (i - i')‖ ≤ ‖along w (v - v')‖ := by
  obtain ⟨Z, hZ⟩ := explicit_grows hA hb K
  refine ⟨Z, ?_⟩
  intro n m o l E f L g w lam hEA hEb hf hw dt hdt hz hs N i v i' v' h
  obtain ⟨t, t₁, t₁', p, h1, h2⟩ := h.trajectories
    (by rw [hEA]; exact fun i j hij => hA i j hij.le) hs
  refine repeat_ge hK hf hw (fun ξ k hk => ?_) N h1 h2
  rw [hEA] at hk
  rw [hEb]
  refine hZ (dt * lam) ξ k ?_ hk
  rwa [norm_mul, Complex.norm_real, Real.norm_of_nonneg hdt]

/-- The explicit tableaux the package ships. -/
def explicitShipped : List (Tableau ℚ) :=
  [explicitEuler, rungeKuttaFour, embeddedHeunEuler.toTableau,
    embeddedRungeKuttaFehlberg.toTableau]

theorem explicit_facts (T : Tableau ℚ) (h : T ∈ explicitShipped) :
    StrictlyLower T.A ∧ ∑ i, T.b i = 1 := by
  simp only [explicitShipped, List.mem_cons, List.not_mem_nil, or_false] at h
  rcases h with rfl | rfl | rfl | rfl
  · exact ⟨explicitEuler_strictly, by decide +kernel⟩
  · exact ⟨rungeKuttaFour_strictly, by decide +kernel⟩
  · exact ⟨heunEuler_strictly, by decide +kernel⟩
  · exact ⟨fehlberg_strictly, by decide +kernel⟩

/-- C86 for the shipped explicit tableaux. -/
theorem C86_shipped_unstable (T : Tableau ℚ) (hT : T ∈ explicitShipped) {K : ℝ} (hK : 0 ≤ K) :
    ∃ Z : ℝ, ∀ {n m o l : ℕ} {E : Env (T.map (Rat.castHom ℝ)).stages n m o l} {f : Rhs ℝ n m}
      {L : Matrix (Fin n) (Fin n) ℝ} {g : ℝ → (Fin m → ℝ) → Fin n → ℝ} {w : Fin n → ℂ} {lam : ℂ},
      E.T = (T.map (Rat.castHom ℝ)).coeffs → IsAffine f L g → LeftEigen L w lam →
      ∀ {dt : ℝ}, 0 ≤ dt → Z ≤ dt * ‖lam‖ → (∀ i, SolvesStage E.ode f dt (E.T.A i i)) →
      ∀ {N : ℕ} {i v i' v' : Fin n → ℝ}, TwoRuns E dt N i v i' v' →
      K ^ N * ‖along w (i - i')‖ ≤ ‖along w (v - v')‖ := by
  obtain ⟨h1, h2⟩ := explicit_facts T hT
  have h3 : ∑ i, (T.map (Rat.castHom ℝ)).b i = 1 := by
    have := congrArg (Rat.castHom ℝ) h2
    rw [map_sum, map_one] at this
    exact this
  obtain ⟨Z, hZ⟩ := C86_explicit_unstable (A := (T.map (Rat.castHom ℝ)).A)
    (b := (T.map (Rat.castHom ℝ)).b) (strictly_map h1) (by rw [h3]; exact one_ne_zero) hK
  exact ⟨Z, fun hE => hZ (by rw [hE]; rfl) (by rw [hE]; rfl)⟩

/-- The factor of one step for `z = dt λ`. -/
noncomputable def factor (T : Tableau ℚ) (z : ℂ) : ℂ :=
  peval (Complex.ofRealHom.comp (Rat.castHom ℝ)) z (numDen (rowsOf T.A) (List.ofFn T.b)).1

theorem factor_euler (z : ℂ) : factor explicitEuler z = 1 + z := by
  have : (numDen (rowsOf explicitEuler.A) (List.ofFn explicitEuler.b)).1 = [1, 1] := by
    decide +kernel
  rw [factor, this]
  simp [peval]

theorem factor_heun (z : ℂ) : factor embeddedHeunEuler.toTableau z = 1 + z + z ^ 2 / 2 := by
  have : (numDen (rowsOf embeddedHeunEuler.A) (List.ofFn embeddedHeunEuler.b)).1
      = [1, 1, 1 / 2] := by
    decide +kernel
  rw [factor, this]
  simp [peval]
  ring

theorem factor_four (z : ℂ) :
    factor rungeKuttaFour z = 1 + z + z ^ 2 / 2 + z ^ 3 / 6 + z ^ 4 / 24 := by
  have : (numDen (rowsOf rungeKuttaFour.A) (List.ofFn rungeKuttaFour.b)).1
      = [1, 1, 1 / 2, 1 / 6, 1 / 24] := by
    decide +kernel
  rw [factor, this]
  simp [peval]
  ring

theorem factor_fehlberg (z : ℂ) : factor embeddedRungeKuttaFehlberg.toTableau z
    = 1 + z + z ^ 2 / 2 + z ^ 3 / 6 + z ^ 4 / 24 + z ^ 5 / 120 + z ^ 6 / 2080 := by
  have : (numDen (rowsOf embeddedRungeKuttaFehlberg.A) (List.ofFn embeddedRungeKuttaFehlberg.b)).1
      = [1, 1, 1 / 2, 1 / 6, 1 / 24, 1 / 120, 1 / 2080] := by
    decide +kernel
  rw [factor, this]
  simp [peval]
  ring

theorem factor_real (T : Tableau ℚ) (hT : T ∈ explicitShipped) (x : ℝ) (h1 : -2 ≤ x)
    (h2 : x ≤ 0) : ‖factor T x‖ ≤ 1 := by
  simp only [explicitShipped, List.mem_cons, List.not_mem_nil, or_false] at hT
  rcases hT with rfl | rfl | rfl | rfl
  · rw [factor_euler, show (1 : ℂ) + x = ((1 + x : ℝ) : ℂ) by push_cast; ring, Complex.norm_real,
      Real.norm_eq_abs, abs_le]
    constructor <;> linarith
  · rw [factor_four, show (1 : ℂ) + x + (x : ℂ) ^ 2 / 2 + (x : ℂ) ^ 3 / 6 + (x : ℂ) ^ 4 / 24
      = ((1 + x + x ^ 2 / 2 + x ^ 3 / 6 + x ^ 4 / 24 : ℝ) : ℂ) by push_cast; ring,
      Complex.norm_real, Real.norm_eq_abs, abs_le]
    have h3 : 0 ≤ (x + 2) * -x := mul_nonneg (by linarith) (by linarith)
    constructor
    · nlinarith [sq_nonneg x, sq_nonneg (x + 2), sq_nonneg (x * (x + 2))]
    · have : x + x ^ 2 / 2 + x ^ 3 / 6 + x ^ 4 / 24
          = x * (x + 2) / 2 + x ^ 2 * (x * (x + 4)) / 24 := by ring
      have h4 : 0 ≤ x ^ 2 * (-x * (x + 4)) :=
        mul_nonneg (sq_nonneg x) (mul_nonneg (by linarith) (by linarith))
      nlinarith
  · rw [factor_heun, show (1 : ℂ) + x + (x : ℂ) ^ 2 / 2
      = ((1 + x + x ^ 2 / 2 : ℝ) : ℂ) by push_cast; ring, Complex.norm_real, Real.norm_eq_abs,
      abs_le]
    constructor <;> nlinarith
  · rw [factor_fehlberg, show (1 : ℂ) + x + (x : ℂ) ^ 2 / 2 + (x : ℂ) ^ 3 / 6 + (x : ℂ) ^ 4 / 24
      + (x : ℂ) ^ 5 / 120 + (x : ℂ) ^ 6 / 2080
      = ((1 + x + x ^ 2 / 2 + x ^ 3 / 6 + x ^ 4 / 24 + x ^ 5 / 120 + x ^ 6 / 2080 : ℝ) : ℂ) by
        push_cast; ring, Complex.norm_real, Real.norm_eq_abs, abs_le]
    have h3 : 0 ≤ (x + 2) * -x := mul_nonneg (by linarith) (by linarith)
    have h5 : 0 ≤ x ^ 4 * (-x * (x + 2)) := mul_nonneg (by positivity) (by linarith)
    have h4 : 0 ≤ x ^ 2 * (-x * (x + 4)) :=
      mul_nonneg (sq_nonneg x) (mul_nonneg (by linarith) (by linarith))
    have h6 : 0 ≤ x ^ 4 * -x := mul_nonneg (by positivity) (by linarith)
    constructor
    · have h7 : x ^ 4 * -x ≤ x ^ 4 * 2 := mul_le_mul_of_nonneg_left (by linarith) (by positivity)
      have h8 : 0 ≤ x ^ 6 := by positivity
      nlinarith [sq_nonneg x, sq_nonneg (x + 2), sq_nonneg (x * (x + 2)), sq_nonneg (x ^ 2)]
    · have : x + x ^ 2 / 2 + x ^ 3 / 6 + x ^ 4 / 24 + x ^ 5 / 120 + x ^ 6 / 2080
          = x * (x + 2) / 2 + x ^ 2 * (x * (x + 4)) / 24 + x ^ 4 * (x * (x + 2)) / 2080
            + x ^ 5 * (1 / 120 - 2 / 2080) := by ring
      nlinarith

/-- C86: along eigenvectors with a real eigenvalue the shipped explicit schemes are stable for steps
with `dt |λ| ≤ 2`. -/
theorem C86_shipped_stable_real (T : Tableau ℚ) (hT : T ∈ explicitShipped)
    {E : Env (T.map (Rat.castHom ℝ)).stages n m o l}
    (hE : E.T = (T.map (Rat.castHom ℝ)).coeffs) (hf : IsAffine f L g) {x : ℝ}
    (hw : LeftEigen L w x) (hx : x ≤ 0) {dt : ℝ} (hdt : 0 ≤ dt) (hz : dt * |x| ≤ 2)
    (hs : ∀ i, SolvesStage E.ode f dt (E.T.A i i)) {N : ℕ} {i v i' v' : Fin n → ℝ}
    (h : TwoRuns E dt N i v i' v') : ‖along w (v - v')‖ ≤ ‖along w (i - i')‖ := by
  have h1 := (explicit_facts T hT).1
  obtain ⟨t, t₁, t₁', p, h2, h3⟩ := h.trajectories
    (by rw [hE]; exact fun i j hij => strictly_map h1 i j hij.le) hs
  have h4 := repeat_le zero_le_one hf hw (fun ξ k hk => ?_) N h2 h3
  · simpa using h4
  · rw [hE] at hk ⊢
    have h5 := explicit_rat_step T h1 (dt * x) ξ k hk
    refine (congrArg _ h5).trans_le ?_
    rw [norm_mul]
    refine mul_le_mul_of_nonneg_right ?_ (norm_nonneg _)
    rw [abs_of_nonpos hx] at hz
    have h6 := factor_real T hT (dt * x) (by linarith) (mul_nonpos_of_nonneg_of_nonpos hdt hx)
    rwa [Complex.ofReal_mul] at h6

theorem factor_beyond (T : Tableau ℚ)
    (hT : T = explicitEuler ∨ T = embeddedHeunEuler.toTableau) (x : ℝ) (hx : x < -2) :
    1 < ‖factor T x‖ := by
  rcases hT with rfl | rfl
  · rw [factor_euler, show (1 : ℂ) + x = ((1 + x : ℝ) : ℂ) by push_cast; ring, Complex.norm_real,
      Real.norm_eq_abs, lt_abs]
    right
    linarith
  · rw [factor_heun, show (1 : ℂ) + x + (x : ℂ) ^ 2 / 2
      = ((1 + x + x ^ 2 / 2 : ℝ) : ℂ) by push_cast; ring, Complex.norm_real, Real.norm_eq_abs,
      lt_abs]
    left
    nlinarith

/-- C86: the bound is sharp for explicit Euler and Heun's method: with `dt |λ| > 2` the distance of
two runs along the eigenvector is larger at the end, unless it was zero. -/
theorem C86_bound_sharp (T : Tableau ℚ)
    (hT : T = explicitEuler ∨ T = embeddedHeunEuler.toTableau)
    {E : Env (T.map (Rat.castHom ℝ)).stages n m o l}
    (hE : E.T = (T.map (Rat.castHom ℝ)).coeffs) (hf : IsAffine f L g) {x : ℝ}
    (hw : LeftEigen L w x) {dt : ℝ} (hz : dt * x < -2)
    (hs : ∀ i, SolvesStage E.ode f dt (E.T.A i i)) {N : ℕ} (hN : N ≠ 0) {i v i' v' : Fin n → ℝ}
    (h : TwoRuns E dt N i v i' v') (hne : along w (i - i') ≠ 0) :
    ‖along w (i - i')‖ < ‖along w (v - v')‖ := by
  have h1 := (explicit_facts T (by
    rcases hT with rfl | rfl <;> simp [explicitShipped])).1
  obtain ⟨t, t₁, t₁', p, h2, h3⟩ := h.trajectories
    (by rw [hE]; exact fun i j hij => strictly_map h1 i j hij.le) hs
  have h4 := repeat_ge (q := ‖factor T ((dt * x : ℝ) : ℂ)‖) (norm_nonneg _) hf hw
    (fun ξ k hk => ?_) N h2 h3
  · refine lt_of_lt_of_le ?_ h4
    exact lt_mul_of_one_lt_left (norm_pos_iff.mpr hne)
      (one_lt_pow₀ (factor_beyond T hT _ hz) hN)
  · rw [hE] at hk ⊢
    have h5 := explicit_rat_step T h1 (dt * x) ξ k hk
    refine le_of_le_of_eq ?_ (congrArg _ h5).symm
    rw [norm_mul, Complex.ofReal_mul]
    exact le_rfl

/-- C86, undamped oscillations with frequency `ω`: with the classical Runge-Kutta scheme and steps
with `(dt ω)² ≤ 8` the distance of two runs does not grow. -/
theorem C86_rk4_oscillation {E : Env (rungeKuttaFour.map (Rat.castHom ℝ)).stages n m o l}
    (hE : E.T = (rungeKuttaFour.map (Rat.castHom ℝ)).coeffs) (hf : IsAffine f L g) {ω : ℝ}
    (hw : LeftEigen L w (ω * Complex.I)) {dt : ℝ} (hz : (dt * ω) ^ 2 ≤ 8)
    (hs : ∀ i, SolvesStage E.ode f dt (E.T.A i i)) {N : ℕ} {i v i' v' : Fin n → ℝ}
    (h : TwoRuns E dt N i v i' v') : ‖along w (v - v')‖ ≤ ‖along w (i - i')‖ := by
  obtain ⟨t, t₁, t₁', p, h2, h3⟩ := h.trajectories
    (by rw [hE]; exact fun i j hij => strictly_map rungeKuttaFour_strictly i j hij.le) hs
  have h4 := repeat_le zero_le_one hf hw (fun ξ k hk => ?_) N h2 h3
  · simpa using h4
  · rw [hE] at hk ⊢
    have h5 := explicit_rat_step rungeKuttaFour rungeKuttaFour_strictly _ ξ k hk
    refine (congrArg _ h5).trans_le ?_
    rw [norm_mul]
    refine mul_le_mul_of_nonneg_right ?_ (norm_nonneg _)
    change ‖factor rungeKuttaFour _‖ ≤ 1
    rw [factor_four]
    set y := dt * ω with hy
    have e : (1 : ℂ) + dt * (ω * Complex.I) + (dt * (ω * Complex.I)) ^ 2 / 2
        + (dt * (ω * Complex.I)) ^ 3 / 6 + (dt * (ω * Complex.I)) ^ 4 / 24
        = ⟨1 - y ^ 2 / 2 + y ^ 4 / 24, y - y ^ 3 / 6⟩ := by
      have e1 : (dt : ℂ) * (ω * Complex.I) = ⟨0, y⟩ := by
        apply Complex.ext <;> simp [hy]
      rw [e1]
      apply Complex.ext <;> simp [pow_succ] <;> ring
    rw [e]
    have h6 : ‖(⟨1 - y ^ 2 / 2 + y ^ 4 / 24, y - y ^ 3 / 6⟩ : ℂ)‖ ^ 2 ≤ 1 := by
      rw [Complex.sq_norm, Complex.normSq_mk]
      have h7 : 0 ≤ y ^ 6 * (8 - y ^ 2) := mul_nonneg (by positivity) (by linarith)
      nlinarith
    exact (sq_le_one_iff₀ (norm_nonneg _)).mp h6

/-- C86: with explicit Euler an undamped oscillation gains amplitude in every step, by the factor
`√(1 + (dt ω)²)`, for every step size. -/
theorem C86_euler_oscillation {E : Env (explicitEuler.map (Rat.castHom ℝ)).stages n m o l}
    (hE : E.T = (explicitEuler.map (Rat.castHom ℝ)).coeffs) (hf : IsAffine f L g) {ω : ℝ}
    (hw : LeftEigen L w (ω * Complex.I)) {dt : ℝ}
    (hs : ∀ i, SolvesStage E.ode f dt (E.T.A i i)) {N : ℕ} {i v i' v' : Fin n → ℝ}
    (h : TwoRuns E dt N i v i' v') :
    √(1 + (dt * ω) ^ 2) ^ N * ‖along w (i - i')‖ ≤ ‖along w (v - v')‖ := by
  obtain ⟨t, t₁, t₁', p, h2, h3⟩ := h.trajectories
    (by rw [hE]; exact fun i j hij => strictly_map explicitEuler_strictly i j hij.le) hs
  refine repeat_ge (Real.sqrt_nonneg _) hf hw (fun ξ k hk => ?_) N h2 h3
  rw [hE] at hk ⊢
  have h5 := explicit_rat_step explicitEuler explicitEuler_strictly _ ξ k hk
  refine le_of_le_of_eq ?_ (congrArg _ h5).symm
  rw [norm_mul]
  refine mul_le_mul_of_nonneg_right ?_ (norm_nonneg _)
  change _ ≤ ‖factor explicitEuler _‖
  rw [factor_euler]
  have e : (1 : ℂ) + dt * (ω * Complex.I) = ⟨1, dt * ω⟩ := by
    apply Complex.ext <;> simp
  rw [e]
  refine Real.sqrt_le_iff.mpr ⟨norm_nonneg _, ?_⟩
  rw [Complex.sq_norm, Complex.normSq_mk]
  nlinarith

/-! ### Concrete cases -/

namespace StabEx

open InvariantEx

/-- `y' = -y + p + t` with any tableau. -/
noncomputable def env (T : Tableau ℝ) : Env T.stages 1 1 0 0 where
  T := T.coeffs
  ode := RK.Ex.linOde
  fails := fun _ _ => none
  nonfinite := fun _ _ => .error .backend
  measure := fun e _ => fin |e 0|

theorem affine : IsAffine (RK.Ex.linRhs (K := ℝ)) (fun _ _ => -1) fun t p x => p x + t := by
  intro t y p x
  have : y x = y 0 := by rw [Subsingleton.elim x 0]
  simp only [RK.Ex.linRhs, Fin.sum_univ_one, this]
  ring

theorem eigen : LeftEigen (n := 1) (fun _ _ => (-1 : ℝ)) (fun _ => 1) ((-1 : ℝ) : ℂ) := by
  intro x
  simp

/-- Runs with initial values 1000 and 0. -/
theorem runs (T : Tableau ℝ) (dt : ℝ) (N : ℕ) :
    ∃ v v', TwoRuns (env T) dt N (fun _ => 1000) v (fun _ => 0) v' := by
  obtain ⟨v, hv⟩ := fixed_ok (env T) (fun _ _ => rfl) dt N ⟨2, fun _ => 1000, fun _ => 5⟩
  obtain ⟨v', hv'⟩ := fixed_ok (env T) (fun _ _ => rfl) dt N ⟨2, fun _ => 0, fun _ => 5⟩
  exact ⟨_, _, .plain (t₁ := v.time) (t₁' := v'.time) hv hv'⟩

theorem midpoint_solves (dt : ℝ) (hdt : 0 ≤ dt) (i) :
    SolvesStage (env (implicitMidpoint.map (Rat.castHom ℝ))).ode RK.Ex.linRhs dt
      ((env (implicitMidpoint.map (Rat.castHom ℝ))).T.A i i) := by
  have h : ∀ i, implicitMidpoint.A i i = 1 / 2 := by decide +kernel
  have h2 : (env (implicitMidpoint.map (Rat.castHom ℝ))).T.A i i = 1 / 2 := by
    refine (congrArg (Rat.castHom ℝ) (h i)).trans ?_
    simp
  rw [h2]
  exact ConvEx.solves dt _ hdt (by norm_num)

theorem midpoint_implicit : ¬ StrictlyLower (implicitMidpoint.map (Rat.castHom ℝ)).A := fun h => by
  have h1 : implicitMidpoint.A (0 : Fin 1) (0 : Fin 1) = 1 / 2 := by decide +kernel
  have h2 := h (0 : Fin 1) (0 : Fin 1) le_rfl
  have h3 := h2.symm.trans (congrArg (Rat.castHom ℝ) h1)
  norm_num at h3

/-- The implicit midpoint rule with steps of size one million: the distance does not exceed 1000. -/
example (N : ℕ) : ∃ v v', TwoRuns (env (implicitMidpoint.map (Rat.castHom ℝ))) 1000000 N
    (fun _ => 1000) v (fun _ => 0) v' ∧ ‖along (fun _ => 1) (v - v')‖ ≤ 1000 := by
  obtain ⟨v, v', h⟩ := runs (implicitMidpoint.map (Rat.castHom ℝ)) 1000000 N
  refine ⟨v, v', h, ?_⟩
  have h1 := C83_shipped ⟨implicitMidpoint.map (Rat.castHom ℝ), 0⟩ (by simp [plainShipped])
    midpoint_implicit (E := env _) rfl affine eigen (by simp) (by norm_num)
    (midpoint_solves _ (by norm_num)) h
  have h2 : slack (implicitMidpoint.map (Rat.castHom ℝ)).p = 0 := if_neg (by decide)
  rw [h2] at h1
  simpa [along] using h1

theorem euler_solves (dt : ℝ) (hdt : 0 ≤ dt) (i) :
    SolvesStage (env (implicitEuler.map (Rat.castHom ℝ))).ode RK.Ex.linRhs dt
      ((env (implicitEuler.map (Rat.castHom ℝ))).T.A i i) := by
  have h : ∀ i, implicitEuler.A i i = 1 := by decide +kernel
  have h2 : (env (implicitEuler.map (Rat.castHom ℝ))).T.A i i = 1 :=
    (congrArg (Rat.castHom ℝ) (h i)).trans (map_one _)
  rw [h2]
  exact ConvEx.solves dt _ hdt (by norm_num)

/-- One step of implicit Euler: the distance is small for large steps. -/
example : ∃ C : ℝ, 0 ≤ C ∧ ∀ dt, 0 < dt → ∃ v v',
    TwoRuns (env (implicitEuler.map (Rat.castHom ℝ))) dt 1 (fun _ => 1000) v (fun _ => 0) v' ∧
      ‖along (fun _ => 1) (v - v')‖ ≤ C / dt * 1000 := by
  obtain ⟨C, hC, h⟩ := C84_stiff (implicitEuler.map (Rat.castHom ℝ)) 0 (by simp [stiffFactors])
  refine ⟨C, hC, fun dt hdt => ?_⟩
  obtain ⟨v, v', hv⟩ := runs (implicitEuler.map (Rat.castHom ℝ)) dt 1
  refine ⟨v, v', hv, ?_⟩
  have := h (E := env _) rfl affine eigen (by simp) (by simp) hdt (euler_solves dt hdt.le) hv
  simpa [along] using this

/-- Contractivity of implicit Euler for the same problem. -/
example (dt : ℝ) (hdt : 0 ≤ dt) (N : ℕ) : ∃ v v',
    TwoRuns (env (implicitEuler.map (Rat.castHom ℝ))) dt N (fun _ => 1000) v (fun _ => 0) v' ∧
      (v 0 - v' 0) ^ 2 ≤ 1000 ^ 2 := by
  obtain ⟨v, v', hv⟩ := runs (implicitEuler.map (Rat.castHom ℝ)) dt N
  refine ⟨v, v', hv, ?_⟩
  have := C85_contractive (implicitEuler.map (Rat.castHom ℝ)) (by simp [contractive])
    (E := env _) rfl LinearMap.id (fun t u u' p => by
      simp only [LinearMap.id_apply, Fin.sum_univ_one, Pi.sub_apply, RK.Ex.linRhs]
      nlinarith [sq_nonneg (u 0 - u' 0)]) hdt (euler_solves dt hdt) hv
  simpa using this

/-- Adaptive runs over one unit of time exist if no call fails and all errors are measured as zero. -/
theorem adaptive_run (E : Env s n m o l) (hE : ∀ v h, E.fails v h = none)
    (hm : ∀ e y, E.measure e y = 0) (bhat : Fin s → ℝ) (i : StartingValues ℝ n m) :
    ∃ v, AdaptiveRun E bhat (i.initialTime + 1) (1 / 2) i v := by
  obtain ⟨A, N, h⟩ := C72_finishes (t0 := i.initialTime) (T := i.initialTime + 1) (u := 1 / 2)
    (C := 1) (q := 1) (S := 1 / 2) (τ := 1) (h0 := 1 / 4) zero_le_one (by norm_num) (by norm_num)
    one_pos one_pos (by norm_num) (by norm_num)
  obtain ⟨c, hc1, hc2⟩ := integralFirst_built 1 ⟨fin 1, 0, fin (1 / 2), fin (1 / 2), 5⟩ []
  let opt : Options := ⟨true, .finalTime (i.initialTime + 1), fin (1 / 4), 0, 0, 0, A + 1⟩
  obtain ⟨w', v, h1, -, -⟩ := h s n m o l E bhat ⟨fin 1, 0, fin (1 / 2), fin (1 / 2), 5⟩
    opt .all (N + 1) (freshWorld opt (Choice.ck (embBackend E bhat) opt .all) EmbRKState.empty c) i rfl rfl rfl hc2
    rfl rfl rfl (.inl rfl) (by norm_num) rfl (by linarith)
    (fun d h _ _ h0 _ _ => by
      obtain ⟨d', hd⟩ : ∃ d', (embBackend E bhat).step d (fin h) = .ok d' := by
        simp [embBackend, hE]
      exact ⟨d', 0, hd, congrArg Except.ok (hm _ _), le_rfl, by linarith⟩)
    (Nat.lt_succ_self _) (Nat.lt_succ_self _)
  refine ⟨v, .mk (lo := 0) (h0 := 1 / 4) rfl rfl rfl ?_ ?_ le_rfl (by norm_num) (by norm_num)
    (by norm_num) (by linarith) h1⟩
  · change c.config.lower = _
    rw [hc2.config]
    rfl
  · change c.config.upper = _
    rw [hc2.config]

/-- An oscillator `a' = b`, `b' = -a`, with exact solutions of the implicit stage equations, and any
tableau. -/
noncomputable def osc (T : Tableau ℝ) : Env T.stages 2 1 0 0 where
  T := T.coeffs
  ode :=
    { computeUpdate := fun inp h a =>
        (⟨![((inp.stepInput 1 + h * inp.stageInput 1)
              - h * a * (inp.stepInput 0 + h * inp.stageInput 0)) / (1 + (h * a) ^ 2),
            (-(inp.stepInput 0 + h * inp.stageInput 0)
              - h * a * (inp.stepInput 1 + h * inp.stageInput 1)) / (1 + (h * a) ^ 2)], 0, 0⟩, 0)
      computeUpdateDerivative := fun _ _ _ _ => ⟨0, 0, 0⟩
      computeUpdateAdjoint := fun _ _ _ _ => ⟨0, 0, 0, 0⟩ }
  fails := fun _ _ => none
  nonfinite := fun _ _ => .error .backend
  measure := fun _ _ => 0

/-- The right-hand side of `osc`. -/
def oscRhs : Rhs ℝ 2 1 := fun _ y _ => ![y 1, -y 0]

theorem osc_solves (T : Tableau ℝ) (h a : ℝ) : SolvesStage (osc T).ode oscRhs h a := by
  intro inp
  have : 1 + (h * a) ^ 2 ≠ 0 := by positivity
  funext x
  fin_cases x
  · simp only [osc, oscRhs]
    simp
    field_simp
    ring
  · simp only [osc, oscRhs]
    simp
    field_simp
    ring

/-- The implicit midpoint rule keeps the amplitude. -/
example (dt : ℝ) (N : ℕ) : ∃ v : Outputs 2,
    FixedRun (rkBackend (osc (implicitMidpoint.map (Rat.castHom ℝ)))) rkRestore dt
      ⟨0, ![3, 4], fun _ => 0⟩ v N ∧ v.values 0 ^ 2 + v.values 1 ^ 2 = 25 := by
  obtain ⟨v, hv⟩ := fixed_ok (osc (implicitMidpoint.map (Rat.castHom ℝ))) (fun _ _ => rfl) dt N
    ⟨0, ![3, 4], fun _ => 0⟩
  refine ⟨v, hv, ?_⟩
  have h := C85_midpoint_conserves (f := oscRhs) rfl (formOf LinearMap.id) (formOf_symm _)
    (fun t u p => by
      simp [formOf_apply, oscRhs, Fin.sum_univ_two]
      ring) (fun i => osc_solves _ _ _) hv
  simp only [formOf_apply, LinearMap.id_apply, Fin.sum_univ_two, Matrix.cons_val_zero,
    Matrix.cons_val_one] at h
  linarith

theorem osc_affine : IsAffine oscRhs ![![0, 1], ![-1, 0]] fun _ _ _ => 0 := by
  intro t y p x
  fin_cases x <;> simp [oscRhs, Fin.sum_univ_two]

theorem osc_eigen : LeftEigen ![![0, 1], ![-1, 0]] ![Complex.I, 1] ((1 : ℝ) * Complex.I) := by
  intro x
  fin_cases x <;> simp [Fin.sum_univ_two]

theorem osc_runs (T : Tableau ℝ) (dt : ℝ) (N : ℕ) :
    ∃ v v', TwoRuns (osc T) dt N ![0, 1] v ![0, 0] v' := by
  obtain ⟨v, hv⟩ := fixed_ok (osc T) (fun _ _ => rfl) dt N ⟨2, ![0, 1], fun _ => 5⟩
  obtain ⟨v', hv'⟩ := fixed_ok (osc T) (fun _ _ => rfl) dt N ⟨2, ![0, 0], fun _ => 5⟩
  exact ⟨_, _, .plain (t₁ := v.time) (t₁' := v'.time) hv hv'⟩

/-- The oscillator with the classical scheme and steps of size two, and with explicit Euler and steps
of size one. -/
example (N : ℕ) :
    (∃ v v', TwoRuns (osc (rungeKuttaFour.map (Rat.castHom ℝ))) 2 N ![0, 1] v ![0, 0] v' ∧
      ‖along ![Complex.I, 1] (v - v')‖ ≤ 1) ∧
    ∃ v v', TwoRuns (osc (explicitEuler.map (Rat.castHom ℝ))) 1 N ![0, 1] v ![0, 0] v' ∧
      √2 ^ N ≤ ‖along ![Complex.I, 1] (v - v')‖ := by
  constructor
  · obtain ⟨v, v', hv⟩ := osc_runs (rungeKuttaFour.map (Rat.castHom ℝ)) 2 N
    refine ⟨v, v', hv, ?_⟩
    have := C86_rk4_oscillation (ω := 1) rfl osc_affine osc_eigen (by norm_num)
      (fun i => osc_solves _ _ _) hv
    simpa [along, Fin.sum_univ_two] using this
  · obtain ⟨v, v', hv⟩ := osc_runs (explicitEuler.map (Rat.castHom ℝ)) 1 N
    refine ⟨v, v', hv, ?_⟩
    have := C86_euler_oscillation (ω := 1) rfl osc_affine osc_eigen
      (fun i => osc_solves _ _ _) hv
    simp only [along, Fin.sum_univ_two] at this
    norm_num at this
    simpa [along, Fin.sum_univ_two] using this

/-- One of the shipped SDIRK tableaux. -/
noncomputable def sd : EmbEntry := ⟨embeddedThirdOrderThreeStageSdirk2.map (Rat.castHom ℝ), 0, 0⟩

theorem sd_implicit : ¬ StrictlyLower sd.tab.A := fun h => by
  have h1 : embeddedThirdOrderThreeStageSdirk2.A (0 : Fin 3) (0 : Fin 3) = 5 / 6 := by
    decide +kernel
  have h2 := h (0 : Fin 3) (0 : Fin 3) le_rfl
  have h3 := h2.symm.trans (congrArg (Rat.castHom ℝ) h1)
  norm_num at h3

theorem sd_mem : sd ∈ embShipped := by
  refine List.mem_cons_of_mem _ (List.mem_cons_of_mem _ (List.mem_cons_of_mem _
    (List.mem_cons_of_mem _ ?_)))
  exact List.mem_cons_self ..

theorem sd_contractive : sd.tab.toTableau ∈ contractive := by
  refine List.mem_cons_of_mem _ (List.mem_cons_of_mem _ (List.mem_cons_of_mem _ ?_))
  exact List.mem_cons_self ..

theorem sd_order : sd.tab.p ≠ some 5 := by
  change some 3 ≠ some 5
  decide

/-- An adaptive run of the oscillator: neither the component along the eigenvector nor the amplitude
grows. -/
example : ∃ v : Outputs 2,
    AdaptiveRun (osc sd.tab.toTableau) sd.tab.bhat (0 + 1) (1 / 2) ⟨0, ![3, 4], fun _ => 0⟩ v ∧
    ‖along ![Complex.I, 1] v.values‖ ≤ ‖along ![Complex.I, 1] ![3, 4]‖ ∧
    v.values 0 ^ 2 + v.values 1 ^ 2 ≤ 25 := by
  have hm : ∀ e y, (osc sd.tab.toTableau).measure e y = 0 := fun e y => by simp only [osc]
  have hF : ∀ v h, (osc sd.tab.toTableau).fails v h = none := fun e y => by simp only [osc]
  have hrun := adaptive_run (osc sd.tab.toTableau) hF hm sd.tab.bhat ⟨0, ![3, 4], fun _ => 0⟩
  obtain ⟨v, hv⟩ := hrun
  refine ⟨v, hv, ?_, ?_⟩
  · have h := C83_shipped_adaptive sd sd_mem sd_implicit sd_order
      (E := osc sd.tab.toTableau) rfl osc_affine osc_eigen (by simp)
      (fun h _ _ i => osc_solves sd.tab.toTableau h _) hv
    exact h
  · have := C85_energy_adaptive (f := oscRhs) sd.tab.toTableau sd_contractive
      (E := osc sd.tab.toTableau) rfl LinearMap.id (fun t u p => by
        simp only [LinearMap.id_apply, oscRhs, Fin.sum_univ_two, Matrix.cons_val_zero,
          Matrix.cons_val_one]
        linarith) (fun h _ _ i => osc_solves _ _ _) hv
    simp only [LinearMap.id_apply, Fin.sum_univ_two, Matrix.cons_val_zero,
      Matrix.cons_val_one] at this
    linarith

theorem explicit_solves (T : Tableau ℚ) (hT : T ∈ explicitShipped) (dt : ℝ) (i) :
    SolvesStage (env (T.map (Rat.castHom ℝ))).ode RK.Ex.linRhs dt
      ((env (T.map (Rat.castHom ℝ))).T.A i i) := by
  have h2 : (env (T.map (Rat.castHom ℝ))).T.A i i = 0 :=
    strictly_map (explicit_facts T hT).1 i i le_rfl
  rw [h2]
  exact RK.Ex.linOde_solves dt 0 (by simp)

/-- The explicit schemes for `y' = -y + p + t`: stable with steps of size two, not with large ones. -/
example (T : Tableau ℚ) (hT : T ∈ explicitShipped) (N : ℕ) :
    (∃ v v', TwoRuns (env (T.map (Rat.castHom ℝ))) 2 N (fun _ => 1000) v (fun _ => 0) v' ∧
      ‖along (fun _ => 1) (v - v')‖ ≤ 1000) ∧
    ∃ dt v v', TwoRuns (env (T.map (Rat.castHom ℝ))) dt N (fun _ => 1000) v (fun _ => 0) v' ∧
      10 ^ N * 1000 ≤ ‖along (fun _ => 1) (v - v')‖ := by
  constructor
  · obtain ⟨v, v', hv⟩ := runs (T.map (Rat.castHom ℝ)) 2 N
    refine ⟨v, v', hv, ?_⟩
    have := C86_shipped_stable_real T hT (E := env _) rfl affine eigen (by norm_num) (by norm_num)
      (by norm_num) (explicit_solves T hT 2) hv
    simpa [along] using this
  · obtain ⟨Z, hZ⟩ := C86_shipped_unstable T hT (K := 10) (by norm_num)
    obtain ⟨v, v', hv⟩ := runs (T.map (Rat.castHom ℝ)) (max 0 Z) N
    refine ⟨max 0 Z, v, v', hv, ?_⟩
    have := hZ (E := env _) rfl affine eigen (le_max_left _ _) (by simp)
      (explicit_solves T hT _) hv
    simpa [along] using this

/-- The symmetric problem `y' = -y + p + t`, in the Euclidean norm. -/
example (N : ℕ) : ∃ v v', TwoRuns (env (implicitMidpoint.map (Rat.castHom ℝ))) 1000000 N
    (fun _ => 1000) v (fun _ => 0) v' ∧ (v 0 - v' 0) ^ 2 ≤ 1000 ^ 2 := by
  obtain ⟨v, v', h⟩ := runs (implicitMidpoint.map (Rat.castHom ℝ)) 1000000 N
  refine ⟨v, v', h, ?_⟩
  have h1 := C83_shipped_symmetric ⟨implicitMidpoint.map (Rat.castHom ℝ), 0⟩
    (by simp [plainShipped]) midpoint_implicit (E := env _) rfl affine (fun _ _ => rfl)
    (fun u => by simp; nlinarith [sq_nonneg (u 0)]) (by norm_num)
    (midpoint_solves _ (by norm_num)) h
  have h2 : slack (implicitMidpoint.map (Rat.castHom ℝ)).p = 0 := if_neg (by decide)
  rw [h2] at h1
  simpa using h1

end StabEx

end Verif.Props
