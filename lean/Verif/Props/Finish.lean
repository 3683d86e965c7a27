/-
Adaptive runs with the integral controller reach the final time (C72).
-/
import Verif.Props.Estimate
import Verif.Props.Norm

namespace Verif.Props

open Verif.RK Verif.RK.Spec Verif.Control Verif.XReal Verif.Integrator Verif.Tableau
open Classical

variable {s n m o l : ℕ}

/-- A lower bound of `S h (τ / e)^α` for `e ≤ C h`. -/
theorem suggestion_bound {S τ C α u h e : ℝ} (hS : 0 < S) (hτ : 0 < τ) (hC : 0 < C) (hα : 0 < α)
    (hh : 0 < h) (hu : h ≤ u) (he : 0 < e) (heC : e ≤ C * h) :
    min h (S * (τ / C * S ^ (1 / α)) * (τ / (C * u)) ^ α) ≤ S * h * (τ / e) ^ α := by
  have hu0 : 0 < u := hh.trans_le hu
  set M0 := τ / C * S ^ (1 / α) with hM0
  have hM0pos : 0 < M0 := by positivity
  have h1 : (τ / (C * h)) ^ α ≤ (τ / e) ^ α :=
    Real.rpow_le_rpow (by positivity) (by gcongr) hα.le
  rcases le_total h M0 with hle | hle
  · refine (min_le_left _ _).trans ?_
    have h2 : (S ^ (1 / α))⁻¹ ≤ τ / (C * h) := by
      rw [inv_eq_one_div, div_le_div_iff₀ (by positivity) (by positivity), one_mul]
      calc C * h ≤ C * M0 := by gcongr
        _ = τ * S ^ (1 / α) := by rw [hM0]; field_simp
    have h3 : S⁻¹ ≤ (τ / (C * h)) ^ α := by
      have := Real.rpow_le_rpow (by positivity) h2 hα.le
      rwa [Real.inv_rpow (by positivity), ← Real.rpow_mul hS.le, one_div_mul_cancel hα.ne',
        Real.rpow_one] at this
    calc h = S * h * S⁻¹ := by field_simp
      _ ≤ S * h * (τ / e) ^ α := by gcongr; exact h3.trans h1
  · refine (min_le_right _ _).trans ?_
    have h2 : (τ / (C * u)) ^ α ≤ (τ / (C * h)) ^ α :=
      Real.rpow_le_rpow (by positivity) (by gcongr) hα.le
    exact mul_le_mul (mul_le_mul_of_nonneg_left hle hS.le) (h2.trans h1) (by positivity)
      (by positivity)

/-- A chain of controllers as built by the integrator whose first controller is the integral one. -/
inductive IntegralFirst (p : ℝ) (cfg : Config) : Ctrl → Prop
  | base : IntegralFirst p cfg (.base (integral p) cfg)
  | deco {par : Params} {w : Ctrl} (h : IntegralFirst p cfg w) :
      IntegralFirst p cfg (.deco par w true 0)

theorem IntegralFirst.config {p : ℝ} {cfg : Config} {c : Ctrl} (h : IntegralFirst p cfg c) :
    c.config = cfg := by
  induction h with
  | base => rfl
  | deco _ ih => exact ih

/-- If the integral controller accepts or reduces the step, a chain led by it does what it says and
does not change. -/
theorem IntegralFirst.call {p : ℝ} {cfg : Config} {c : Ctrl} (h : IntegralFirst p cfg c)
    (hmax : 1 ≤ cfg.maxIter) (top : Bool) (i : Input)
    (hi : (run (integral p) cfg i).acc = false → lt (run (integral p) cfg i).sugg i.dt) :
    c.call top i = (c, .ok (run (integral p) cfg i)) := by
  have hn : ¬ (¬ (run (integral p) cfg i).acc = true ∧ lt i.dt (run (integral p) cfg i).sugg) := by
    rintro ⟨h1, h2⟩
    rw [Bool.not_eq_true] at h1
    exact XReal.lt_irrefl _ (XReal.lt_of_lt_of_le h2 (le_of_lt (hi h1)))
  induction h generalizing top with
  | base =>
    unfold Ctrl.call
    dsimp only
    rw [if_neg]
    rintro ⟨h1, h2, -⟩
    exact hn ⟨h1, h2⟩
  | @deco par w hw ih =>
    unfold Ctrl.call
    rw [if_pos rfl, ih false]
    dsimp only
    by_cases hacc : (run (integral p) cfg i).acc = true
    · rw [if_pos hacc]
    · rw [if_neg hacc, if_pos ⟨hi (by simpa using hacc), by rw [hw.config]; omega⟩]

/-- The suggestion of the integral controller for an error of at most `C h`. -/
theorem integral_suggests {p S τ C u h e L : ℝ} {cfg : Config} (hp : 0 ≤ p)
    (hS : cfg.safety = fin S) (hS0 : 0 < S) (hτ : cfg.tol = fin τ) (hτ0 : 0 < τ)
    (hlo : cfg.lower = 0) (hup : cfg.upper = fin u ∨ cfg.upper = pinf) (hC : 0 < C) (hh : 0 < h)
    (hu : h ≤ u) (he : 0 ≤ e) (heC : e ≤ C * h) (eh sh : XReal × XReal) :
    ∃ h', (run (integral p) cfg ⟨fin e, fin h, fin L, eh, sh⟩).sugg = fin h' ∧
      (cfg.upper = fin u → h' ≤ u) ∧
      ((run (integral p) cfg ⟨fin e, fin h, fin L, eh, sh⟩).acc = true →
        h' ≤ L ∧ min L (min h
          (min u (S * (τ / C * S ^ (1 / (1 / (1 + p)))) * (τ / (C * u)) ^ (1 / (1 + p))))) ≤ h') ∧
      ((run (integral p) cfg ⟨fin e, fin h, fin L, eh, sh⟩).acc = false →
        τ < C * h ∧ h' ≤ S * h ∧ min (L + h) (min h
          (min u (S * (τ / C * S ^ (1 / (1 / (1 + p)))) * (τ / (C * u)) ^ (1 / (1 + p))))) ≤ h') := by
  set m1 := S * (τ / C * S ^ (1 / (1 / (1 + p)))) * (τ / (C * u)) ^ (1 / (1 + p)) with hm1
  have hα : 0 < 1 / (1 + p) := by positivity
  set i : Input := ⟨fin e, fin h, fin L, eh, sh⟩ with hi
  -- the suggestion before the bounds
  obtain ⟨g, hg, hg1, hg2, hg3⟩ : ∃ g, (if i.err ≠ 0 then estimate (integral p) cfg i else i.dt)
      = fin g ∧ min h m1 ≤ g ∧ 0 < g ∧ (τ < e → g ≤ S * h) := by
    by_cases h0 : e = 0
    · refine ⟨h, by simp [hi, h0, zero_def], min_le_left _ _, hh, fun hlt => ?_⟩
      rw [h0] at hlt
      linarith
    · have he0 : 0 < e := lt_of_le_of_ne he (Ne.symm h0)
      refine ⟨S * h * (τ / e) ^ (1 / (1 + p)), ?_, ?_, by positivity, fun hlt => ?_⟩
      · rw [if_pos (by simp [hi, zero_def, h0])]
        refine estimate_integral p cfg i S h _ hS rfl ?_
        rw [hτ]
        simp only [hi]
        rw [div_fin _ h0, pow_fin (by positivity)]
      · exact suggestion_bound hS0 hτ0 hC hα hh hu he0 heC
      · refine mul_le_of_le_one_right (by positivity) ?_
        exact Real.rpow_le_one (by positivity) ((div_le_one he0).mpr hlt.le) hα.le
  obtain ⟨v, hv, hv1, hv2, hv3, hv4⟩ : ∃ v, pyMax cfg.lower (pyMin cfg.upper (fin g)) = fin v ∧
      min h (min u m1) ≤ v ∧ 0 < v ∧ v ≤ g ∧ (cfg.upper = fin u → v ≤ u) := by
    have hu0 : 0 < u := hh.trans_le hu
    rcases hup with hup | hup
    · refine ⟨min u g, ?_, ?_, lt_min hu0 hg2, min_le_right _ _, fun _ => min_le_left _ _⟩
      · rw [hup, hlo, pyMin_fin, zero_def, pyMax_fin, max_eq_right (lt_min hu0 hg2).le]
      · refine le_min ((min_le_right _ _).trans (min_le_left _ _)) (le_trans ?_ hg1)
        exact le_min (min_le_left _ _) ((min_le_right _ _).trans (min_le_right _ _))
    · refine ⟨g, ?_, ?_, hg2, le_rfl, fun h => by rw [hup] at h; cases h⟩
      · rw [hup, hlo, pyMin_pinf_left _ (by simp), zero_def, pyMax_fin, max_eq_right hg2.le]
      · refine le_trans ?_ hg1
        exact le_min (min_le_left _ _) ((min_le_right _ _).trans (min_le_right _ _))
  have hs := run_sugg (integral p) cfg i h rfl (by simp [hi])
  rw [hg, hv] at hs
  by_cases hacc : (run (integral p) cfg i).acc = true
  · rw [hacc] at hs ⊢
    simp only [timeLeft, hi, if_true] at hs
    rw [pyMin_fin] at hs
    exact ⟨_, hs, fun hu => (min_le_right _ _).trans (hv4 hu),
      fun _ => ⟨min_le_left _ _, min_le_min_left _ hv1⟩, fun h => by cases h⟩
  · rw [Bool.not_eq_true] at hacc
    rw [hacc] at hs ⊢
    simp only [timeLeft, hi, if_false, Bool.false_eq_true, add_fin] at hs
    rw [pyMin_fin] at hs
    have hlt : τ < e := by
      by_contra hle
      have : (run (integral p) cfg i).acc = true :=
        (run_acc _ _ _).mpr (Or.inr (Or.inr (by
          rw [hτ]
          simpa [hi] using hle)))
      rw [hacc] at this
      cases this
    exact ⟨_, hs, fun hu => (min_le_right _ _).trans (hv4 hu), fun h => (by cases h),
      fun _ => ⟨hlt.trans_le heC, (min_le_right _ _).trans (hv3.trans (hg3 hlt)),
        min_le_min_left _ hv1⟩⟩

/-- The values reached from `y0` at `t0` by steps of sizes between 0 and `u`. -/
def Reach (E : Env s n m o l) (p : Fin m → ℝ) (t0 : ℝ) (y0 : Fin n → ℝ) (u t : ℝ) (y : Fin n → ℝ) :
    Prop :=
  ∃ hs : List ℝ, (∀ h ∈ hs, 0 ≤ h ∧ h ≤ u) ∧ IsSteps (StepOf E p) t0 y0 hs t y

/-- From all values reached by steps of sizes of at most `u`, steps of these sizes that do not lead
past `T` succeed and their error is measured as a number between 0 and `C h`. -/
def TameSteps (E : Env s n m o l) (bhat : Fin s → ℝ) (p : Fin m → ℝ) (t0 : ℝ) (y0 : Fin n → ℝ)
    (T u C : ℝ) : Prop :=
  ∀ (d : EmbRKState ℝ s n m o l) (h : ℝ), d.independentInputs = p →
    Reach E p t0 y0 u d.finalTime d.finalState → 0 < h → h ≤ u → d.finalTime + h ≤ T →
    ∃ d' e, (embBackend E bhat).step d (fin h) = .ok d' ∧
      (embBackend E bhat).measure d' = .ok (fin e) ∧ 0 ≤ e ∧ e ≤ C * h

section
variable {E : Env s n m o l} {bhat : Fin s → ℝ} {opt : Options} {p : Fin m → ℝ} {t0 T u C q S τ : ℝ}
  {y0 : Fin n → ℝ} {cfg : Config}

/-- What the loop over the steps preserves. -/
structure Ready (E : Env s n m o l) (p : Fin m → ℝ) (t0 : ℝ) (y0 : Fin n → ℝ) (T u μ : ℝ)
    (x : IState (EmbRKState ℝ s n m o l)) : Prop where
  input : x.disc.independentInputs = p
  start : t0 ≤ x.disc.finalTime
  reach : Reach E p t0 y0 u x.disc.finalTime x.disc.finalState
  within : x.disc.finalTime ≤ T
  step : x.disc.finalTime < T → ∃ h, x.sugg = fin h ∧ 0 < h ∧ h ≤ u ∧ x.disc.finalTime + h ≤ T ∧
    min μ (T - x.disc.finalTime) ≤ h

theorem attempt (htame : TameSteps E bhat p t0 y0 T u C) (ha : opt.adaptive = true)
    (hcrit : opt.crit = .finalTime T) (hq : 0 ≤ q) (hS : cfg.safety = fin S) (hS0 : 0 < S)
    (hS1 : S < 1) (hτ : cfg.tol = fin τ) (hτ0 : 0 < τ) (hlo : cfg.lower = 0)
    (hup : cfg.upper = fin u ∨ cfg.upper = pinf ∧ T - t0 ≤ u) (hmax : 1 ≤ cfg.maxIter) (hC : 0 < C)
    {μ : ℝ} (hμ0 : 0 < μ) (hμ : μ ≤ min u
      (S * (τ / C * S ^ (1 / (1 / (1 + q)))) * (τ / (C * u)) ^ (1 / (1 + q)))) {c : Ctrl}
    (hc : IntegralFirst q cfg c) (f : ℕ) (x : IState (EmbRKState ℝ s n m o l))
    (hx : Ready E p t0 y0 T u μ x) (hxT : x.disc.finalTime < T) :
    (∃ x', iterateOnStep (embBackend E bhat) opt (f + 1) c x = (c, x', .ok ()) ∧
      Ready E p t0 y0 T u μ x' ∧
      x.disc.finalTime + min μ (T - x.disc.finalTime) ≤ x'.disc.finalTime) ∨
    ∃ h h', x.sugg = fin h ∧ τ < C * h ∧ h' ≤ S * h ∧
      Ready E p t0 y0 T u μ { x with sugg := fin h' } ∧
      iterateOnStep (embBackend E bhat) opt (f + 1) c x
        = iterateOnStep (embBackend E bhat) opt f c { x with sugg := fin h' } := by
  obtain ⟨h, hsugg, h0, hu, hle, hmin⟩ := hx.step hxT
  obtain ⟨d, e, hst, hm, he0, heC⟩ := htame x.disc h hx.input hx.reach h0 hu hle
  have htd := emb_step_time E bhat hst
  have hrem : opt.crit.remaining ((embBackend E bhat).time d) = fin (T - d.finalTime) := by
    rw [hcrit]
    exact sub_fin _ _
  obtain ⟨h', k1, k2, k3, k4⟩ := integral_suggests hq hS hS0 hτ hτ0 hlo
    (hup.imp id And.left) hC h0 hu he0 heC (L := T - d.finalTime) x.errHist x.stepHist
  have hcall := hc.call hmax true ⟨fin e, fin h, fin (T - d.finalTime), x.errHist, x.stepHist⟩ (by
    intro hacc
    obtain ⟨-, g2, -⟩ := k4 hacc
    rw [k1]
    exact (lt_fin _ _).mpr (g2.trans_lt (by nlinarith)))
  have hpos : 0 < min μ (T - x.disc.finalTime) := lt_min hμ0 (by linarith)
  by_cases hacc : (run (integral q) cfg
      ⟨fin e, fin h, fin (T - d.finalTime), x.errHist, x.stepHist⟩).acc = true
  · left
    obtain ⟨g1, g2⟩ := k3 hacc
    refine ⟨⟨x.disc.set d, fin h', (fin h, x.stepHist.1), (fin e, x.errHist.1)⟩, ?_, ?_, ?_⟩
    · unfold iterateOnStep
      rw [hsugg, hst]
      dsimp only
      rw [if_pos ha, hm]
      dsimp only
      rw [hrem, hcall]
      dsimp only
      rw [if_pos hacc, k1]
      rfl
    · have hd : (x.disc.set d).finalTime = d.finalTime := rfl
      refine ⟨?_, ?_, ?_, ?_, fun hlt => ⟨h', rfl, ?_, ?_, ?_, ?_⟩⟩
      · exact (emb_step_fields hst).1.indep.trans hx.input
      · change t0 ≤ d.finalTime
        linarith [hx.start]
      · obtain ⟨hs, r1, r2⟩ := hx.reach
        refine ⟨hs ++ [h], ?_, ?_⟩
        · intro z hz
          rcases List.mem_append.mp hz with hz | hz
          · exact r1 z hz
          · rw [List.mem_singleton.mp hz]
            exact ⟨h0.le, hu⟩
        · refine r2.append ?_
          rw [show (x.disc.set d).finalTime = x.disc.finalTime + h from htd]
          refine .cons (y₁ := d.finalState) ⟨x.disc.toRKState, rfl, rfl, hx.input, ?_⟩ (.nil _ _)
          exact congrArg RKState.finalState ((embCore E bhat).step_core _ _ _ hst)
      · change d.finalTime ≤ T
        linarith
      · rw [hd] at hlt
        refine lt_of_lt_of_le ?_ g2
        refine lt_min (by linarith) (lt_min h0 (hμ0.trans_le hμ))
      · rcases hup with hup | ⟨-, hup⟩
        · exact k2 hup
        · linarith [hx.start]
      · rw [hd]
        linarith
      · rw [hd]
        refine le_trans ?_ g2
        refine le_min (min_le_right _ _) (le_min (le_trans ?_ hmin) ((min_le_left _ _).trans hμ))
        exact min_le_min_left _ (by linarith)
    · change _ ≤ d.finalTime
      linarith
  · right
    rw [Bool.not_eq_true] at hacc
    obtain ⟨g1, g2, g3⟩ := k4 hacc
    refine ⟨h, h', hsugg, g1, g2, ?_, ?_⟩
    · have hlow : min μ (T - x.disc.finalTime) ≤ h' := by
        refine le_trans ?_ g3
        refine le_min ((min_le_right _ _).trans (by linarith))
          (le_min hmin ((min_le_left _ _).trans hμ))
      have hlt : h' ≤ h := g2.trans (by nlinarith)
      exact ⟨hx.input, hx.start, hx.reach, hx.within, fun _ => ⟨h', rfl, hpos.trans_le hlow,
        hlt.trans hu, by change x.disc.finalTime + h' ≤ T; linarith, hlow⟩⟩
    · conv_lhs => unfold iterateOnStep
      rw [hsugg, hst]
      dsimp only
      rw [if_pos ha, hm]
      dsimp only
      rw [hrem, hcall]
      dsimp only
      rw [if_neg (by rw [hacc]; simp), k1]

theorem iterate_ready (htame : TameSteps E bhat p t0 y0 T u C) (ha : opt.adaptive = true)
    (hcrit : opt.crit = .finalTime T) (hq : 0 ≤ q) (hS : cfg.safety = fin S) (hS0 : 0 < S)
    (hS1 : S < 1) (hτ : cfg.tol = fin τ) (hτ0 : 0 < τ) (hlo : cfg.lower = 0)
    (hup : cfg.upper = fin u ∨ cfg.upper = pinf ∧ T - t0 ≤ u) (hmax : 1 ≤ cfg.maxIter) (hC : 0 < C)
    {μ : ℝ} (hμ0 : 0 < μ) (hμ : μ ≤ min u
      (S * (τ / C * S ^ (1 / (1 / (1 + q)))) * (τ / (C * u)) ^ (1 / (1 + q)))) {c : Ctrl}
    (hc : IntegralFirst q cfg c) (N f : ℕ) (hf : N + 1 ≤ f)
    (x : IState (EmbRKState ℝ s n m o l)) (hx : Ready E p t0 y0 T u μ x)
    (hxT : x.disc.finalTime < T) (hN : ∀ h, x.sugg = fin h → C * (S ^ N * h) ≤ τ) :
    ∃ x', iterateOnStep (embBackend E bhat) opt f c x = (c, x', .ok ()) ∧
      Ready E p t0 y0 T u μ x' ∧
      x.disc.finalTime + min μ (T - x.disc.finalTime) ≤ x'.disc.finalTime := by
  induction N generalizing f x with
  | zero =>
    obtain ⟨f, rfl⟩ := Nat.exists_eq_add_of_le' hf
    rcases attempt htame ha hcrit hq hS hS0 hS1 hτ hτ0 hlo hup hmax hC hμ0 hμ hc f x hx hxT with
      h | ⟨h, h', k1, k2, -⟩
    · exact h
    · have := hN h k1
      rw [_root_.pow_zero, one_mul] at this
      linarith
  | succ N ih =>
    obtain ⟨f, rfl⟩ := Nat.exists_eq_succ_of_ne_zero (by omega : f ≠ 0)
    rcases attempt htame ha hcrit hq hS hS0 hS1 hτ hτ0 hlo hup hmax hC hμ0 hμ hc f x hx hxT with
      h | ⟨h, h', k1, k2, k3, k4, k5⟩
    · exact h
    · rw [Nat.succ_eq_add_one, k5]
      refine ih f (by omega) _ k4 hxT fun g hg => ?_
      obtain rfl : h' = g := by simpa using hg
      refine le_trans ?_ (hN h k1)
      have : S ^ N * h' ≤ S ^ N * (S * h) := by gcongr
      calc C * (S ^ N * h') ≤ C * (S ^ N * (S * h)) := by gcongr
        _ = C * (S ^ (N + 1) * h) := by ring

/-- The loop over the steps ends. -/
theorem run_ready (htame : TameSteps E bhat p t0 y0 T u C) (ha : opt.adaptive = true)
    (hcrit : opt.crit = .finalTime T) (hq : 0 ≤ q) (hS : cfg.safety = fin S) (hS0 : 0 < S)
    (hS1 : S < 1) (hτ : cfg.tol = fin τ) (hτ0 : 0 < τ) (hlo : cfg.lower = 0)
    (hup : cfg.upper = fin u ∨ cfg.upper = pinf ∧ T - t0 ≤ u) (hmax : 1 ≤ cfg.maxIter) (hC : 0 < C)
    {μ : ℝ} (hμ0 : 0 < μ) (hμ : μ ≤ min u
      (S * (τ / C * S ^ (1 / (1 / (1 + q)))) * (τ / (C * u)) ^ (1 / (1 + q)))) {c : Ctrl}
    (hc : IntegralFirst q cfg c) {A : ℕ} (hA : C * (S ^ A * u) ≤ τ)
    (hlim : A + 1 ≤ opt.recursionLimit) (N it : ℕ) (x : IState (EmbRKState ℝ s n m o l))
    (hx : Ready E p t0 y0 T u μ x) (hN : T - x.disc.finalTime ≤ N * μ) :
    ∃ tr, Run (embBackend E bhat) opt it c x tr ∧ tr.length ≤ N ∧
      Ready E p t0 y0 T u μ (lastOf c x tr).2 ∧ (lastOf c x tr).2.disc.finalTime = T := by
  have hfin : ∀ (it : ℕ) (d : EmbRKState ℝ s n m o l),
      opt.crit.finished it ((embBackend E bhat).time d) ↔ T ≤ d.finalTime := by
    intro it d
    rw [hcrit]
    change le (sub (fin T) (fin d.finalTime)) 0 ↔ _
    rw [sub_fin, zero_def, le_fin]
    constructor <;> intro h <;> linarith
  induction N generalizing it x with
  | zero =>
    have : T ≤ x.disc.finalTime := by simpa using hN
    exact ⟨[], .done ((hfin _ _).mpr this), Nat.le_refl _, hx, le_antisymm hx.within this⟩
  | succ N ih =>
    by_cases hT : T ≤ x.disc.finalTime
    · exact ⟨[], .done ((hfin _ _).mpr hT), Nat.zero_le _, hx, le_antisymm hx.within hT⟩
    · have hxT := not_le.mp hT
      obtain ⟨x', g1, g2, g3⟩ := iterate_ready htame ha hcrit hq hS hS0 hS1 hτ hτ0 hlo hup hmax hC
        hμ0 hμ hc A opt.recursionLimit hlim x hx hxT (fun h hh => by
          obtain ⟨h1, e1, -, e2, -⟩ := hx.step hxT
          obtain rfl : h1 = h := by
            rw [e1] at hh
            simpa using hh
          refine le_trans ?_ hA
          gcongr)
      obtain ⟨tr, r1, r2, r3, r4⟩ := ih (it + 1) x' g2 (by
        rcases le_total μ (T - x.disc.finalTime) with hle | hle
        · rw [min_eq_left hle] at g3
          push_cast at hN
          linarith
        · rw [min_eq_right hle] at g3
          have : 0 ≤ (N : ℝ) * μ := by positivity
          linarith)
      exact ⟨(c, x') :: tr, .step (fun h => hT ((hfin _ _).mp h)) g1 r1, by simpa using r2, r3, r4⟩

end

/-- C72: an adaptive run to a final time whose controller is the integral one, possibly with further
controllers behind it, finishes: there are numbers `A` of attempts for each step and `N` of steps,
depending on the interval, the bound `u` of the step sizes, the first step size, the tolerance, the
safety factor, the exponent and the constant `C` of the error estimates only, such that with a
recursion limit above `A` and fuel above `N` the run returns values at the final time. The values
are reached by steps of sizes between 0 and `u`. -/
theorem C72_finishes {t0 T u C q S τ h0 : ℝ} (hq : 0 ≤ q) (hS0 : 0 < S) (hS1 : S < 1) (hτ0 : 0 < τ)
    (hC : 0 < C) (hh0 : 0 < h0) (hh0u : h0 ≤ u) :
    ∃ A N : ℕ, ∀ (s n m o l : ℕ) (E : Env s n m o l) (bhat : Fin s → ℝ) (cfg : Config)
      (opt : Options) (ch : Choice) (fuel : ℕ)
      (w : World (EmbRKState ℝ s n m o l) (ch.Data (EmbRKState ℝ s n m o l)))
      (i : StartingValues ℝ n m),
      opt.adaptive = true → opt.crit = .finalTime T → opt.initialStep = fin h0 →
      IntegralFirst q cfg w.ctrl → cfg.safety = fin S → cfg.tol = fin τ → cfg.lower = 0 →
      (cfg.upper = fin u ∨ cfg.upper = pinf ∧ T - t0 ≤ u) → 1 ≤ cfg.maxIter →
      i.initialTime = t0 → t0 + h0 ≤ T →
      TameSteps E bhat i.independentInputs t0 i.initialValues T u C →
      A < opt.recursionLimit → N < fuel →
      ∃ w' v, compute (embBackend E bhat) opt (ch.ck (embBackend E bhat) opt) fuel w i
          = (w', .ok v) ∧ v.time = T ∧
        Reach E i.independentInputs t0 i.initialValues u T v.values := by
  have hu : 0 < u := hh0.trans_le hh0u
  set m1 := min u (S * (τ / C * S ^ (1 / (1 / (1 + q)))) * (τ / (C * u)) ^ (1 / (1 + q))) with hm1
  have hm1pos : 0 < m1 := lt_min hu (by positivity)
  have hμ0 : 0 < min h0 m1 := lt_min hh0 hm1pos
  obtain ⟨A, hA⟩ := exists_pow_lt_of_lt_one (show 0 < τ / (C * u) by positivity) hS1
  obtain ⟨N, hN⟩ := exists_nat_ge ((T - t0) / min h0 m1)
  refine ⟨A, N, fun s n m o l E bhat cfg opt ch fuel w i ha hcrit hi hc hS hτ hlo hup hmax ht0 hT
    htame hlim hf => ?_⟩
  have hx : Ready E i.independentInputs t0 i.initialValues T u (min h0 m1)
      (startOf (embBackend E bhat) opt w.ctrl w.tis.disc i) := by
    have e1 : (startOf (embBackend E bhat) opt w.ctrl w.tis.disc i).disc.finalTime = t0 := ht0
    refine ⟨rfl, e1.ge, ?_, by rw [e1]; linarith, fun _ => ⟨h0, hi, hh0, hh0u, by rw [e1]; exact hT,
      (min_le_left _ _).trans (min_le_left _ _)⟩⟩
    rw [e1]
    exact ⟨[], by simp, .nil _ _⟩
  obtain ⟨tr, r1, r2, r3, r4⟩ := run_ready htame ha hcrit hq hS hS0 hS1 hτ hτ0 hlo hup hmax hC hμ0
    (min_le_right _ _) hc (A := A) (by
      rw [lt_div_iff₀ (by positivity)] at hA
      linarith) hlim N 0 _ hx (by
      change T - i.initialTime ≤ _
      rw [ht0]
      exact (div_le_iff₀ hμ0).mp hN)
  refine ⟨_, _, compute_of_run r1 (r2.trans_lt hf), r4, ?_⟩
  have := r3.reach
  rw [r4] at this
  exact this

/-- The error measure is a number bounded by a multiple of the norm of the estimate. -/
def MeasureBounded (E : Env s n m o l) (κ : ℝ) : Prop :=
  ∀ e v, ∃ r, E.measure e v = fin r ∧ 0 ≤ r ∧ r ≤ κ * ‖e‖

/-- C72 for smooth problems: for small enough upper bounds `u` of the step size, runs from initial
values near a solution finish, however small the tolerance is, and the returned values have an error
of at most `K (error of the initial values + ε + η) + C u^k`. -/
theorem C72_smooth {f : Rhs ℝ n m} {p : Fin m → ℝ} {k : ℕ} {y : ℝ → Fin n → ℝ} {t0 T : ℝ}
    (hk : 1 ≤ k) (hf : Smooth f p k) (hy : IsSolution f p y t0 T) (β : ℝ) :
    ∃ K r : ℝ, 0 < K ∧ 0 < r ∧ ∀ (s o l : ℕ) (E : Env s n m o l) (bhat : Fin s → ℝ) (ε η κ : ℝ),
      Accurate E.T β ε k → 0 ≤ η → (∀ i, SolvesNearby E.ode f p η (E.T.A i i)) →
      (∀ obs h, E.fails obs h = none) → MeasureBounded E κ →
      ∃ C δ : ℝ, 0 < C ∧ 0 < δ ∧ ∀ (u h0 q S τ : ℝ), u < δ → 0 < h0 → h0 ≤ u → 0 ≤ q → 0 < S →
        S < 1 → 0 < τ → ∃ A N : ℕ, ∀ (cfg : Config) (opt : Options) (ch : Choice) (fuel : ℕ)
          (w : World (EmbRKState ℝ s n m o l) (ch.Data (EmbRKState ℝ s n m o l)))
          (i : StartingValues ℝ n m),
          opt.adaptive = true → opt.crit = .finalTime T → opt.initialStep = fin h0 →
          IntegralFirst q cfg w.ctrl → cfg.safety = fin S → cfg.tol = fin τ → cfg.lower = 0 →
          (cfg.upper = fin u ∨ cfg.upper = pinf ∧ T - t0 ≤ u) → 1 ≤ cfg.maxIter →
          i.initialTime = t0 → i.independentInputs = p → t0 + h0 ≤ T →
          ‖i.initialValues - y t0‖ + ε + η ≤ r → A < opt.recursionLimit → N < fuel →
          ∃ w' v, compute (embBackend E bhat) opt (ch.ck (embBackend E bhat) opt) fuel w i
              = (w', .ok v) ∧ v.time = T ∧
            ‖v.values - y T‖ ≤ K * (‖i.initialValues - y t0‖ + ε + η) + C * u ^ k := by
  obtain ⟨K, r, hK, hr, hE⟩ := nearby_error hk hf hy β
  refine ⟨K, r, hK, hr, fun s o l E bhat ε η κ hA hη hs hfail hmeas => ?_⟩
  obtain ⟨C, δ, hC, hδ, hE⟩ := hE s o l E ε η hA hη hs
  obtain ⟨Y, hY⟩ : ∃ Y, ∀ t ∈ Set.Icc t0 T, ‖y t‖ ≤ Y :=
    isCompact_Icc.exists_bound_of_continuousOn fun t ht => (hy t ht).continuousWithinAt
  set R := max (|t0| + |T|) (Y + K * r + C * δ ^ k) with hR
  obtain ⟨M, h1, hh1, hM⟩ := nearby_result (E := E) hA.lower hs R
  set D := |κ| * ((∑ i, |E.T.b i - bhat i|) * |M|) + 1 with hD
  have hD0 : 0 < D := by positivity
  refine ⟨C, min δ h1, hC, lt_min hδ hh1, fun u h0 q S τ hu hh0 hh0u hq hS0 hS1 hτ0 => ?_⟩
  obtain ⟨A, N, hAN⟩ := C72_finishes (t0 := t0) (T := T) hq hS0 hS1 hτ0 hD0 hh0 hh0u
  have hu0 : 0 < u := hh0.trans_le hh0u
  have hud : u < δ := hu.trans_le (min_le_left _ _)
  refine ⟨A, N, fun cfg opt ch fuel w i g1 g2 g3 g4 g5 g6 g7 g8 g9 g10 g11 g12 g13 g14 g15 => ?_⟩
  have hclose : ∀ t v, Reach E p t0 i.initialValues u t v → t ≤ T →
      ‖v - y t‖ ≤ K * (‖i.initialValues - y t0‖ + ε + η) + C * u ^ k := by
    rintro t v ⟨hl, r1, r2⟩ ht
    exact hE u t _ _ hl hu0.le hud r1 r2 ht g13
  obtain ⟨w', v, e1, e2, e3⟩ := hAN s n m o l E bhat cfg opt ch fuel w i g1 g2 g3 g4 g5 g6 g7 g8 g9
    g10 g12 (by
      rw [g11]
      intro d h hp hreach h0' hhu hdT
      have ht0 : t0 ≤ d.finalTime := by
        obtain ⟨hl, r1, r2⟩ := hreach
        rw [r2.time]
        have := List.sum_nonneg fun z hz => (r1 z hz).1
        linarith
      have hst : (embBackend E bhat).step d (fin h) = .ok (computeStepEmb E.T bhat E.ode d h) := by
        simp only [embBackend, hfail]
      obtain ⟨ρ, m1, m2, m3⟩ := hmeas (computeStepEmb E.T bhat E.ode d h).errorEstimate
        (computeStepEmb E.T bhat E.ode d h).finalState
      refine ⟨_, ρ, hst, congrArg Except.ok m1, m2, m3.trans ?_⟩
      obtain ⟨hres, -, -, he⟩ := emb_step_fields hst
      rw [hp] at hres
      have b1 : |d.finalTime| ≤ R := by
        refine le_trans ?_ (le_max_left _ _)
        rw [abs_le]
        constructor <;> linarith [neg_abs_le t0, le_abs_self T, abs_nonneg t0, abs_nonneg T]
      have b2 : ‖d.finalState‖ ≤ R := by
        refine le_trans ?_ (le_max_right _ _)
        have c1 := hclose _ _ hreach (by linarith)
        have c2 := hY d.finalTime ⟨ht0, by linarith⟩
        have c3 : K * (‖i.initialValues - y t0‖ + ε + η) ≤ K * r := by gcongr
        have c4 : C * u ^ k ≤ C * δ ^ k := by gcongr
        have c5 := norm_add_le (d.finalState - y d.finalTime) (y d.finalTime)
        rw [sub_add_cancel] at c5
        linarith
      have hb := (hM h _ _ _ hres h0'.le (hhu.trans (hu.trans_le (min_le_right _ _)).le) b1 b2).2
      rw [he, norm_smul, Real.norm_eq_abs, abs_of_pos h0']
      have hsum : ‖∑ i, (E.T.b i - bhat i) • (computeStepEmb E.T bhat E.ode d h).stageUpdates i‖
          ≤ (∑ i, |E.T.b i - bhat i|) * |M| := by
        rw [Finset.sum_mul]
        refine norm_sum_le_of_le _ fun j _ => ?_
        rw [norm_smul, Real.norm_eq_abs]
        gcongr
        exact (norm_le_pi_norm _ j).trans (hb.trans (le_abs_self M))
      calc κ * (h * ‖∑ i, (E.T.b i - bhat i) • (computeStepEmb E.T bhat E.ode d h).stageUpdates i‖)
          ≤ |κ| * (h * ((∑ i, |E.T.b i - bhat i|) * |M|)) := by
            gcongr
            exact le_abs_self κ
        _ ≤ D * h := by rw [hD]; nlinarith) g14 g15
  refine ⟨w', v, e1, e2, ?_⟩
  rw [g11] at e3
  exact hclose T _ e3 le_rfl

/-! ### The hypotheses of C72 -/

/-- The controllers the integrator builds from a list of factories that starts with the integral
one. -/
theorem integralFirst_built (q : ℝ) (cfg : Config) (gs : List (ℝ → Params)) :
    ∃ c, buildChain q cfg (integral :: gs) = some c ∧ IntegralFirst q cfg c := by
  suffices h : ∀ c, IntegralFirst q cfg c →
      ∃ c', gs.foldl (fun c f => some (mk (f q) cfg c)) (some c) = some c' ∧
        IntegralFirst q cfg c' from h _ .base
  induction gs with
  | nil => exact fun c hc => ⟨c, rfl, hc⟩
  | cons g gs ih => exact fun c hc => ih _ (.deco hc)

/-- The simple error measure for a norm that is bounded by a multiple of the maximum norm. -/
theorem simple_bounded {E : Env s n m o l} {norm : (Fin n → ℝ) → ℝ} {κ : ℝ}
    (h0 : ∀ x, 0 ≤ norm x) (hκ : ∀ x, norm x ≤ κ * ‖x‖)
    (hE : ∀ e v, E.measure e v = fin (OM.simpleMeasure norm e v)) : MeasureBounded E κ :=
  fun e v => ⟨_, hE e v, h0 e, hκ e⟩

/-- The improved error measure. -/
theorem improved_bounded {E : Env s n m o l} {norm : (Fin n → ℝ) → ℝ} {κ eta eps : ℝ}
    (h0 : ∀ x, 0 ≤ norm x) (hκ : ∀ x, norm x ≤ κ * ‖x‖) (heta : 0 < eta) (heps : 0 < eps)
    (hE : ∀ e v r, OM.improvedMeasure norm eta eps e v = some r → E.measure e v = fin r) :
    MeasureBounded E (κ * eps / eta) := by
  intro e v
  obtain ⟨r, h1, h2, h3, -⟩ := C49_improved_bounds norm h0 heta heps e v
  refine ⟨r, hE e v r h1, h2, h3.trans ?_⟩
  calc norm e * eps / eta ≤ κ * ‖e‖ * eps / eta := by gcongr; exact hκ e
    _ = κ * eps / eta * ‖e‖ := by ring

namespace FinishEx
open InexactEx EstimateEx

theorem heun_accurate : Accurate envH.T (∑ i, |heun.tab.b i|) 0 1 := by
  obtain ⟨p1, p2, g1, -, -, -, g5, g6, g7, -⟩ := C05_embedded_tableaux heun
    (by simp [embShipped, heun])
  obtain rfl : 2 = p1 := Option.some.inj g1
  exact ⟨g6, le_rfl, le_rfl, g5, fun t ht => g7 t (ht.trans (by norm_num))⟩

theorem heun_measure : MeasureBounded envH 1 :=
  fun e _ => ⟨|e 0|, rfl, abs_nonneg _, by
    rw [one_mul, ← Real.norm_eq_abs]
    exact norm_le_pi_norm e 0⟩

/-- `y' = y²` from the exact value 1 at time 0 to 1/2 with Heun's scheme and the integral controller
followed by another one: for every small upper bound of the step sizes and every tolerance the run
finishes, if Python allows enough recursion. -/
example (ch : Choice) : ∃ C δ : ℝ, 0 < C ∧ 0 < δ ∧ ∀ u τ : ℝ, 0 < u → u < δ → u ≤ 1 / 2 → 0 < τ →
    ∃ A N : ℕ, ∀ w : World (EmbRKState ℝ heun.tab.stages 1 1 0 0)
        (ch.Data (EmbRKState ℝ heun.tab.stages 1 1 0 0)),
      buildChain 1 ⟨fin τ, 0, fin u, fin (95 / 100), 5⟩ [integral, h_211] = some w.ctrl →
      ∃ w' v, compute (embBackend envH heun.tab.bhat)
        ⟨true, .finalTime (1 / 2), fin u, 0, 0, 0, A + 1⟩
        (ch.ck (embBackend envH heun.tab.bhat) ⟨true, .finalTime (1 / 2), fin u, 0, 0, 0, A + 1⟩)
        (N + 1) w ⟨0, fun _ => 1, 0⟩ = (w', .ok v) ∧ v.time = 1 / 2 ∧
        ‖v.values - sol (1 / 2)‖ ≤ C * u := by
  obtain ⟨K, r, hK, hr, hE⟩ := C72_smooth (k := 1) le_rfl (smooth 1) sol_solves
    (∑ i, |heun.tab.b i|)
  obtain ⟨C, δ, hC, hδ, hE⟩ := hE _ 0 0 envH heun.tab.bhat 0 0 1 heun_accurate le_rfl heun_solves
    (fun _ _ => rfl) heun_measure
  refine ⟨C, δ, hC, hδ, fun u τ hu huδ hu2 hτ => ?_⟩
  obtain ⟨A, N, hAN⟩ := hE u u 1 (95 / 100) τ huδ hu le_rfl zero_le_one (by norm_num) (by norm_num) hτ
  refine ⟨A, N, fun w hw => ?_⟩
  obtain ⟨c, hc1, hc2⟩ := integralFirst_built 1 ⟨fin τ, 0, fin u, fin (95 / 100), 5⟩ [h_211]
  obtain rfl : w.ctrl = c := Option.some.inj (hw.symm.trans hc1)
  have e3 : ((fun _ => 1 : Fin 1 → ℝ) - sol 0) = 0 := by
    funext x; simp [sol]
  obtain ⟨w', v, h1, h2, h3⟩ := hAN _ ⟨true, .finalTime (1 / 2), fin u, 0, 0, 0, A + 1⟩ ch (N + 1) w
    ⟨0, fun _ => 1, 0⟩ rfl rfl rfl hc2 rfl rfl rfl (.inl rfl) (by norm_num) rfl rfl (by linarith)
    (by simpa [e3] using hr.le) (Nat.lt_succ_self _) (Nat.lt_succ_self _)
  refine ⟨w', v, h1, h2, ?_⟩
  simpa [e3] using h3

end FinishEx

end Verif.Props
