/-
Bounds of the step sizes of adaptive runs to a final time. The property theorems are in
`Verif.Props.Convergence`.
-/
import Verif.RK.Trajectory
import Verif.Integrator.Core
import Verif.Props.FinalTime

namespace Verif.Integrator

open Verif.RK Verif.RK.Spec Verif.Control Verif.XReal
open Classical

variable {D : Type} {s n m o l : ℕ} {B : Backend D (StartingValues ℝ n m) (Outputs n)}
  {E : Env s n m o l} {opt : Options}

/-- The next attempt is between 0 and `u` and does not go past `T`. -/
def Bounded (T u : ℝ) (x : IState (EmbRKState ℝ s n m o l)) : Prop :=
  x.disc.finalTime ≤ T ∧ ∃ h, x.sugg = fin h ∧ 0 ≤ h ∧ h ≤ u ∧ x.disc.finalTime + h ≤ T

theorem iterate_bounded (bhat : Fin s → ℝ) {T lo u : ℝ} (hlo0 : 0 ≤ lo) (hlu : lo ≤ u)
    (ha : opt.adaptive = true) (hc : opt.crit = .finalTime T) (f : ℕ) (c c' : Ctrl)
    (hlo : c.config.lower = fin lo) (hup : c.config.upper = fin u)
    (x x' : IState (EmbRKState ℝ s n m o l)) (hx : Bounded T u x)
    (hit : iterateOnStep (embBackend E bhat) opt f c x = (c', x', .ok ())) :
    Bounded T u x' ∧ c'.config = c.config ∧ ∃ h, x'.stepHist.1 = fin h ∧ 0 ≤ h ∧ h ≤ u := by
  induction f generalizing c x with
  | zero => simp [iterateOnStep] at hit
  | succ f ih =>
    obtain ⟨hT, h, hh, h0, hu, hle⟩ := hx
    simp only [iterateOnStep] at hit
    rcases hs : (embBackend E bhat).step x.disc x.sugg with e | d
    · rw [hs] at hit; simp at hit
    rw [hs] at hit
    dsimp only at hit
    rw [if_pos ha] at hit
    rcases hm : (embBackend E bhat).measure d with e | err
    · rw [hm] at hit; simp at hit
    rw [hm] at hit
    dsimp only at hit
    have hcfg := call_config true c ⟨err, x.sugg,
      opt.crit.remaining ((embBackend E bhat).time d), x.errHist, x.stepHist⟩
    rw [hh] at hs
    have htime := Props.emb_step_time E bhat hs
    have hrem : opt.crit.remaining ((embBackend E bhat).time d)
        = fin (T - (x.disc.finalTime + h)) := by
      rw [hc]
      simp only [Crit.remaining, embBackend, sub_fin, htime]
    rcases hcall : c.call true ⟨err, x.sugg,
      opt.crit.remaining ((embBackend E bhat).time d), x.errHist, x.stepHist⟩
      with ⟨c1, e | st⟩
    · rw [hcall] at hit; simp at hit
    rw [hcall] at hit hcfg
    dsimp only at hit hcfg
    obtain ⟨h', e1, e2⟩ := Props.sugg_bounds (c := c) (i := ⟨err, x.sugg,
      opt.crit.remaining ((embBackend E bhat).time d), x.errHist, x.stepHist⟩)
      (st := st) hh hrem hlo (by rw [hcall])
    have e3 := Props.C20_at_most_upper_bound_partial c true ⟨err, x.sugg,
      opt.crit.remaining ((embBackend E bhat).time d), x.errHist, x.stepHist⟩ st h hh
      (by dsimp only; rw [hrem]; simp) (by rw [hup, hlo]; simpa using hlu) (by rw [hcall])
    have e4 := Props.C20_at_least_lower_bound c true ⟨err, x.sugg,
      opt.crit.remaining ((embBackend E bhat).time d), x.errHist, x.stepHist⟩ st h hh
      (by dsimp only; rw [hrem]; simp) (by rw [hlo]; simp) (by rw [hcall])
    dsimp only at e3 e4
    rw [hup, e1, le_fin] at e3
    rw [hlo, e1, hrem, hh] at e4
    have hif : (if st.acc = true then fin (T - (x.disc.finalTime + h))
        else add (fin (T - (x.disc.finalTime + h))) (fin h))
        = fin (if st.acc = true then T - (x.disc.finalTime + h)
          else T - (x.disc.finalTime + h) + h) := by split <;> rfl
    rw [hif] at e4
    by_cases hacc : st.acc = true
    · rw [if_pos hacc] at hit e2 e4
      have h'0 : 0 ≤ h' := by
        rcases e4 with e4 | ⟨e4, -⟩
        · rw [le_fin] at e4; linarith
        · simp only [XReal.fin.injEq] at e4; linarith
      simp only [Prod.mk.injEq, and_true] at hit
      obtain ⟨rfl, rfl⟩ := hit
      refine ⟨⟨?_, h', e1, h'0, e3, ?_⟩, hcfg, h, hh, h0, hu⟩
      · change d.finalTime ≤ T
        rw [htime]; exact hle
      · change d.finalTime + h' ≤ T
        rw [htime]; linarith
    · rw [if_neg hacc] at hit e2 e4
      have h'0 : 0 ≤ h' := by
        rcases e4 with e4 | ⟨e4, -⟩
        · rw [le_fin] at e4; linarith
        · simp only [XReal.fin.injEq] at e4; linarith
      obtain ⟨g1, g2, g3⟩ := ih c1 (by rw [hcfg, hlo]) (by rw [hcfg, hup])
        { x with sugg := st.sugg } ⟨hT, h', e1, h'0, e3, by dsimp only; linarith⟩ hit
      exact ⟨g1, by rw [g2, hcfg], g3⟩

/-- The accepted steps of an adaptive run to a final time are finite, between 0 and the upper
bound. -/
theorem run_bounded (bhat : Fin s → ℝ) {T lo u : ℝ} (hlo0 : 0 ≤ lo) (hlu : lo ≤ u)
    (ha : opt.adaptive = true) (hc : opt.crit = .finalTime T) {it : ℕ} {c : Ctrl}
    {x : IState (EmbRKState ℝ s n m o l)} {tr : List (Ctrl × IState (EmbRKState ℝ s n m o l))}
    (hrun : Run (embBackend E bhat) opt it c x tr) (hlo : c.config.lower = fin lo)
    (hup : c.config.upper = fin u) (hx : Bounded T u x) :
    ∃ hr : List ℝ, tr.map (fun q => q.2.stepHist.1) = hr.map fin ∧ ∀ h ∈ hr, 0 ≤ h ∧ h ≤ u := by
  induction hrun with
  | done h => exact ⟨[], rfl, fun h hh => by simp at hh⟩
  | @step it c x c' x' tr h hst hr ih =>
    obtain ⟨g1, g2, h', e1, e2, e3⟩ := iterate_bounded bhat hlo0 hlu ha hc _ c c' hlo hup x x' hx hst
    obtain ⟨hr, k1, k2⟩ := ih (by rw [g2, hlo]) (by rw [g2, hup]) g1
    refine ⟨h' :: hr, by simp [k1, e1], fun h hh => ?_⟩
    rcases List.mem_cons.mp hh with rfl | hh
    · exact ⟨e2, e3⟩
    · exact k2 h hh

end Verif.Integrator
