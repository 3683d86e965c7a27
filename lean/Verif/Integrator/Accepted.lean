/-
What is known about the steps an adaptive run accepts, for both termination criteria. The property
theorems are in `Verif.Props.Tolerance`.
-/
import Verif.Integrator.Steps
import Verif.Integrator.Trajectory

namespace Verif.Integrator

open Verif.RK Verif.RK.Spec Verif.Control Verif.XReal
open Classical

variable {s n m o l : ℕ} {E : Env s n m o l} {opt : Options}

/-- The next attempt is between 0 and `u` and does not go past the final time, if there is one. -/
def Next (opt : Options) (u : ℝ) (x : IState (EmbRKState ℝ s n m o l)) : Prop :=
  ∃ h, x.sugg = fin h ∧ 0 ≤ h ∧ h ≤ u ∧ ∀ T, opt.crit = .finalTime T → x.disc.finalTime + h ≤ T

/-- The reasons for which a step of size `h` to the state `d` is accepted with the lower bound 0: it
is tiny, it is as long as the time left after it, or it meets the tolerance. -/
def Passed (E : Env s n m o l) (opt : Options) (tol : XReal) (h : ℝ) (d : EmbRKState ℝ s n m o l) :
    Prop :=
  h < 1 / 10 ^ 10 ∨ (∃ T, opt.crit = .finalTime T ∧ |h - (T - d.finalTime)| < 1 / 10 ^ 10) ∨
    le (E.measure d.errorEstimate d.finalState) tol

theorem finite_of_bounds {x : XReal} {a b : ℝ} (h1 : le (fin a) x) (h2 : le x (fin b)) :
    ∃ r, x = fin r ∧ a ≤ r ∧ r ≤ b := by
  cases x with
  | fin r => exact ⟨r, rfl, h1, h2⟩
  | nan => exact absurd h1 (by simp [XReal.le])
  | pinf => exact absurd h2 id
  | ninf => exact absurd h1 id

theorem iterate_passed (bhat : Fin s → ℝ) {u : ℝ} (hu0 : 0 ≤ u) (ha : opt.adaptive = true) (f : ℕ)
    (c c' : Ctrl) (hlo : c.config.lower = 0) (hup : c.config.upper = fin u)
    (x x' : IState (EmbRKState ℝ s n m o l)) (hx : Next opt u x)
    (hit : iterateOnStep (embBackend E bhat) opt f c x = (c', x', .ok ())) :
    ∃ h d, (embBackend E bhat).step x.disc (fin h) = .ok d ∧ 0 ≤ h ∧ h ≤ u ∧
      x'.disc = x.disc.set d ∧ x'.stepHist.1 = fin h ∧ Passed E opt c.config.tol h d ∧
      Next opt u x' ∧ c'.config = c.config := by
  induction f generalizing c x with
  | zero => simp [iterateOnStep] at hit
  | succ f ih =>
    obtain ⟨h, hh, h0, hu, hle⟩ := hx
    simp only [iterateOnStep] at hit
    rcases hs : (embBackend E bhat).step x.disc x.sugg with e | d
    · rw [hs] at hit; simp at hit
    rw [hs] at hit
    dsimp only at hit
    rw [if_pos ha] at hit
    rcases hm : (embBackend E bhat).measure d with e | err
    · rw [hm] at hit; simp at hit
    rw [hm] at hit
    dsimp only at hit
    have herr : err = E.measure d.errorEstimate d.finalState := (Except.ok.inj hm).symm
    generalize hr : opt.crit.remaining ((embBackend E bhat).time d) = rem at hit
    have hcfg := call_config true c ⟨err, x.sugg, rem, x.errHist, x.stepHist⟩
    rw [hh] at hs
    have htime := Props.emb_step_time E bhat hs
    have hrn : rem ≠ nan := by
      rw [← hr]
      cases opt.crit <;> simp [Crit.remaining, embBackend]
    rcases hcall : c.call true ⟨err, x.sugg, rem, x.errHist, x.stepHist⟩ with ⟨c1, e | st⟩
    · rw [hcall] at hit; simp at hit
    rw [hcall] at hit hcfg
    dsimp only at hit hcfg
    have e3 := Props.C20_at_most_upper_bound_partial c true ⟨err, x.sugg, rem, x.errHist, x.stepHist⟩
      st h hh hrn (by rw [hup, hlo, zero_def]; simpa using hu0) (by rw [hcall])
    have e4 := Props.C20_at_least_lower_bound c true ⟨err, x.sugg, rem, x.errHist, x.stepHist⟩
      st h hh hrn (by rw [hlo, zero_def]; simp) (by rw [hcall])
    have e5 := Props.C20_at_most_time_left c true ⟨err, x.sugg, rem, x.errHist, x.stepHist⟩
      st h hh hrn (by rw [hcall])
    dsimp only at e3 e4 e5
    rw [hup] at e3
    rw [hlo, zero_def] at e4
    -- the suggestion
    obtain ⟨h', k1, k2, k3, k4⟩ : ∃ h', st.sugg = fin h' ∧ 0 ≤ h' ∧ h' ≤ u ∧
        ∀ T, opt.crit = .finalTime T →
          (if st.acc = true then d.finalTime else x.disc.finalTime) + h' ≤ T := by
      cases hc : opt.crit with
      | steps N =>
        have hrem : rem = pinf := by rw [← hr, hc]; rfl
        rcases e4 with e4 | ⟨e4, e6⟩
        · obtain ⟨r, r1, r2, r3⟩ := finite_of_bounds e4 e3
          exact ⟨r, r1, r2, r3, fun T hT => by cases hT⟩
        · rw [hrem, hh] at e4
          have : st.sugg = pinf := by
            rw [e4]
            split <;> rfl
          rw [this] at e3
          exact absurd e3 id
      | finalTime T =>
        have hrem : rem = fin (T - (x.disc.finalTime + h)) := by
          rw [← hr, hc]
          simp only [Crit.remaining, embBackend, sub_fin, htime]
        have hif : (if st.acc = true then rem else add rem x.sugg)
            = fin (if st.acc = true then T - (x.disc.finalTime + h)
              else T - (x.disc.finalTime + h) + h) := by
          rw [hrem, hh]
          split <;> rfl
        have hT := hle T hc
        rw [hif] at e4 e5
        have hnn : 0 ≤ (if st.acc = true then T - (x.disc.finalTime + h)
              else T - (x.disc.finalTime + h) + h) := by split <;> linarith
        obtain ⟨r, r1, r2, r3⟩ : ∃ r, st.sugg = fin r ∧ 0 ≤ r ∧ r ≤ u := by
          rcases e4 with e4 | ⟨e4, e6⟩
          · exact finite_of_bounds e4 e3
          · rw [e4] at e3
            exact ⟨_, e4, hnn, e3⟩
        refine ⟨r, r1, r2, r3, fun T' hT' => ?_⟩
        obtain rfl : T = T' := by simpa using hT'
        rw [r1, le_fin] at e5
        by_cases hacc : st.acc = true
        · rw [if_pos hacc] at e5 ⊢
          rw [htime]
          linarith
        · rw [if_neg hacc] at e5 ⊢
          linarith
    by_cases hacc : st.acc = true
    · rw [if_pos hacc] at hit k4
      simp only [Prod.mk.injEq, and_true] at hit
      obtain ⟨rfl, rfl⟩ := hit
      refine ⟨h, d, hs, h0, hu, rfl, hh, ?_, ⟨h', k1, k2, k3, k4⟩, hcfg⟩
      cases hc : opt.crit with
      | steps N =>
        have hrem : rem = pinf := by rw [← hr, hc]; rfl
        rcases (Props.C19_acceptance_no_final_time c true ⟨err, x.sugg, rem, x.errHist, x.stepHist⟩ st
          h 0 hh hlo hrem (by rw [hcall])).mp hacc with g | g
        · left
          rwa [sub_zero, abs_of_nonneg h0] at g
        · right; right
          rwa [← herr]
      | finalTime T =>
        have hrem : rem = fin (T - d.finalTime) := by
          rw [← hr, hc]
          simp only [Crit.remaining, embBackend, sub_fin]
        rcases (Props.C19_acceptance_partial c true ⟨err, x.sugg, rem, x.errHist, x.stepHist⟩ st
          h 0 (T - d.finalTime) hh hlo hrem (by rw [hcall])).mp hacc with g | g | g
        · left
          rwa [sub_zero, abs_of_nonneg h0] at g
        · right; left
          exact ⟨T, hc, g⟩
        · right; right
          rwa [← herr]
    · rw [if_neg hacc] at hit k4
      have := ih c1 (by rw [hcfg, hlo]) (by rw [hcfg, hup]) { x with sugg := st.sugg }
        ⟨h', k1, k2, k3, k4⟩ hit
      rwa [hcfg] at this

/-- The time does not decrease during an adaptive run. -/
theorem run_time_le (bhat : Fin s → ℝ) {u : ℝ} (hu0 : 0 ≤ u) (ha : opt.adaptive = true) {it : ℕ}
    {c : Ctrl} {x : IState (EmbRKState ℝ s n m o l)}
    {tr : List (Ctrl × IState (EmbRKState ℝ s n m o l))}
    (hrun : Run (embBackend E bhat) opt it c x tr) (hlo : c.config.lower = 0)
    (hup : c.config.upper = fin u) (hx : Next opt u x) :
    x.disc.finalTime ≤ (lastOf c x tr).2.disc.finalTime := by
  induction hrun with
  | done h => exact le_rfl
  | @step it c x c' x' tr h hst hr ih =>
    obtain ⟨h', d, g1, g2, g3, g4, g5, g6, g7, g8⟩ := iterate_passed bhat hu0 ha _ c c' hlo hup x x'
      hx hst
    refine le_trans ?_ (ih (by rw [g8, hlo]) (by rw [g8, hup]) g7)
    rw [g4]
    change _ ≤ d.finalTime
    rw [Props.emb_step_time E bhat g1]
    linarith

/-- The sizes of the accepted steps, if the steps accepted from states with a property that they
preserve have sizes of at most `σ`. The states are those up to the time `t1`. -/
theorem run_accepted_sizes (bhat : Fin s → ℝ) {u σ t1 : ℝ} (hu0 : 0 ≤ u) (ha : opt.adaptive = true)
    {tol : XReal} {Q : EmbRKState ℝ s n m o l → Prop}
    (hQ : ∀ d h d', Q d → 0 ≤ h → h ≤ u → (embBackend E bhat).step d (fin h) = .ok d' →
      d'.finalTime ≤ t1 → Q (d.set d') ∧
        (h < 1 / 10 ^ 10 ∨ le (E.measure d'.errorEstimate d'.finalState) tol → h ≤ σ)) {it : ℕ}
    {c : Ctrl} {x : IState (EmbRKState ℝ s n m o l)}
    {tr : List (Ctrl × IState (EmbRKState ℝ s n m o l))}
    (hrun : Run (embBackend E bhat) opt it c x tr) (hlo : c.config.lower = 0)
    (hup : c.config.upper = fin u) (htol : c.config.tol = tol) (hx : Next opt u x)
    (hxQ : Q x.disc) (ht1 : (lastOf c x tr).2.disc.finalTime ≤ t1)
    (hno : ∀ q ∈ tr, ∀ T h, opt.crit = .finalTime T → q.2.stepHist.1 = fin h →
      1 / 10 ^ 10 ≤ |h - (T - q.2.disc.finalTime)|) :
    ∃ hr : List ℝ, tr.map (fun q => q.2.stepHist.1) = hr.map fin ∧
      ∀ h ∈ hr, 0 ≤ h ∧ h ≤ u ∧ h ≤ σ := by
  induction hrun with
  | done h => exact ⟨[], rfl, fun h hh => by simp at hh⟩
  | @step it c x c' x' tr h hst hr ih =>
    obtain ⟨h', d, g1, g2, g3, g4, g5, g6, g7, g8⟩ := iterate_passed bhat hu0 ha _ c c' hlo hup x x'
      hx hst
    have htd : x'.disc.finalTime = d.finalTime := by rw [g4]; rfl
    have ht := run_time_le bhat hu0 ha hr (by rw [g8, hlo]) (by rw [g8, hup]) g7
    obtain ⟨q1, q2⟩ := hQ x.disc h' d hxQ g2 g3 g1 (by rw [← htd]; exact ht.trans ht1)
    obtain ⟨hr', k1, k2⟩ := ih (by rw [g8, hlo]) (by rw [g8, hup]) (by rw [g8, htol]) g7
      (by rw [g4]; exact q1) ht1 fun q hq => hno q (List.mem_cons_of_mem _ hq)
    refine ⟨h' :: hr', by simp [k1, g5], fun h hh => ?_⟩
    rcases List.mem_cons.mp hh with rfl | hh
    · refine ⟨g2, g3, q2 ?_⟩
      rcases g6 with g6 | ⟨T, e1, e2⟩ | g6
      · exact .inl g6
      · have := hno _ (List.mem_cons_self ..) T h e1 g5
        dsimp only at this
        rw [htd] at this
        exact absurd e2 (not_lt.mpr this)
      · rw [htol] at g6
        exact .inr g6
    · exact k2 h hh

end Verif.Integrator
