/-
C122: calls of controllers with shared configurations, and assignment of another configuration.
-/
import Verif.Control.Rebind
import Verif.Props.Sharing

namespace Verif.Props

open Verif.Control Verif.XReal
open Classical

theorem look_config (σ : Store) (r : ℕ) (o : Obj) (h : ∀ x ∈ o.refs, x = r) :
    (o.look σ).config = σ r := by
  induction o with
  | base par q => simp only [Obj.look, Ctrl.config, h q (by simp [Obj.refs])]
  | deco par w q ni k ih =>
    exact ih fun x hx => h x (by simp [Obj.refs, hx])

/-- C122: as long as all controllers of a chain refer to one configuration, a call gives the result
of the model without addresses, and they still do afterwards. -/
theorem C122_call (σ : Store) (r : ℕ) (o : Obj) (h : ∀ x ∈ o.refs, x = r) (top : Bool) (i : Input) :
    (((o.call σ top i).1.look σ), (o.call σ top i).2) = (o.look σ).call top i ∧
      ∀ x ∈ (o.call σ top i).1.refs, x = r := by
  induction o generalizing top with
  | base par q =>
    exact ⟨rfl, h⟩
  | deco par w q ni k ih =>
    have hq : q = r := h q (by simp [Obj.refs])
    have hw : ∀ x ∈ w.refs, x = r := fun x hx => h x (by simp [Obj.refs, hx])
    obtain ⟨h1, h2⟩ := ih hw false
    have hc := look_config σ r w hw
    subst hq
    rw [Obj.call, Obj.look, Ctrl.call, ← h1, hc]
    rcases hr : w.call σ false i with ⟨w', (_ | _) | st⟩ <;> rw [hr] at h2 <;> dsimp only
    all_goals
      constructor
      · repeat' split
        all_goals rfl
      · repeat' split
        all_goals
          intro x hx
          simp only [Obj.refs, List.mem_cons] at hx
          rcases hx with rfl | hx
          · rfl
          · first | exact h2 x hx | exact hw x hx

/-- C122: an assignment to `config` reaches only the outermost controller. -/
theorem C122_assign (r : ℕ) (o : Obj) :
    (o.assign r).ref = r ∧ (o.assign r).refs.tail = o.refs.tail := by
  cases o <;> exact ⟨rfl, rfl⟩

/-- C122 is violated by an assignment to the `config` of a chain: its decisions may still be made
with the old configuration. Here the tolerance of the chain is 0 afterwards, and a step with error
`10^-7` that is neither at the lower bound nor the last is accepted. -/
theorem C122_assign_violated (p : ℝ) : ∃ (o : Obj) (σ : Store) (i : Input) (st : Status),
    makeChain (fun _ => 0) p [(integralFactory, none), (integralFactory, none)] = some o ∧
    ¬ accepts (σ (o.assign 1).ref) i ∧ ((o.assign 1).call σ true i).2 = .ok st ∧ st.acc = true := by
  let i : Input := ⟨fin (1 / 10 ^ 7), fin 1, fin 5, (fin 1, fin 1), (0, 0)⟩
  let σ : Store := fun r => if r = 1 then { Config.default with tol := 0 } else Config.default
  have h0 : σ 0 = Config.default := rfl
  have h2 : (run (Control.integral p) (σ 0) i).acc = true := by
    rw [h0]
    simp only [run, decide_eq_true_eq]
    right; right
    change (1 / 10 ^ 7 : ℝ) ≤ 1 / 10 ^ 6
    norm_num
  refine ⟨.deco (Control.integral p) (.base (Control.integral p) 0) 0 true 0, σ, i,
    run (Control.integral p) (σ 0) i, rfl, ?_, ?_, h2⟩
  · intro h
    rcases h with h | h | h
    · change |(1 : ℝ) - 0| < 1 / 10 ^ 10 at h
      norm_num at h
    · change |(1 : ℝ) - 5| < 1 / 10 ^ 10 at h
      norm_num at h
    · change (1 / 10 ^ 7 : ℝ) ≤ 0 at h
      norm_num at h
  · simp only [Obj.assign, Obj.call, h2, not_true_eq_false, false_and, if_false, if_true]

/-- The chain of the example before the assignment refers to one configuration. -/
example (p : ℝ) : ∀ x ∈ (Obj.deco (Control.integral p) (.base (Control.integral p) 0) 0 true 0).refs,
    x = 0 := by simp [Obj.refs]

end Verif.Props
