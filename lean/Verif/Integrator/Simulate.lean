/-
Two backends that do the same in different variables: the integrator does the same with both, also
with adaptive steps. The property theorems are in `Verif.Props.Invariants`.
-/
import Verif.Integrator.Path

namespace Verif.Integrator

open Verif.Control Verif.XReal
open Classical

variable {D I O D' I' O' : Type}

/-- The outcomes of two calls correspond: both fail with the same exception or both succeed with
corresponding results. -/
inductive Both {α β : Type} (Q : α → β → Prop) : Except Err α → Except Err β → Prop
  | error (e : Err) : Both Q (.error e) (.error e)
  | ok {a b} (h : Q a b) : Both Q (.ok a) (.ok b)

/-- Corresponding states (`Rel` before a step, `Res` for the result of a step) behave alike. -/
structure Simulation (B : Backend D I O) (B' : Backend D' I' O') (opt opt' : Options)
    (Rel Res : D → D' → Prop) : Prop where
  step : ∀ d d' h, Rel d d' → Both Res (B.step d h) (B'.step d' h)
  set : ∀ d d' e e', Rel d d' → Res e e' → Rel (B.set d e) (B'.set d' e')
  measure : ∀ e e', Res e e' → B.measure e = B'.measure e'
  remaining : ∀ e e', Res e e' → opt.crit.remaining (B.time e) = opt'.crit.remaining (B'.time e')
  finished : ∀ d d' it, Rel d d' →
    (opt.crit.finished it (B.time d) ↔ opt'.crit.finished it (B'.time d'))
  adaptive : opt'.adaptive = opt.adaptive
  limit : opt'.recursionLimit = opt.recursionLimit

/-- Corresponding integration states: the same data of the error control. -/
structure SameState (Rel : D → D' → Prop) (x : IState D) (x' : IState D') : Prop where
  disc : Rel x.disc x'.disc
  sugg : x'.sugg = x.sugg
  stepHist : x'.stepHist = x.stepHist
  errHist : x'.errHist = x.errHist

variable {B : Backend D I O} {B' : Backend D' I' O'} {opt opt' : Options}
  {Rel Res : D → D' → Prop}

theorem Simulation.iterate (S : Simulation B B' opt opt' Rel Res) (f : ℕ) (c : Ctrl)
    {x : IState D} {x' : IState D'} (hx : SameState Rel x x') :
    (iterateOnStep B' opt' f c x').1 = (iterateOnStep B opt f c x).1 ∧
    SameState Rel (iterateOnStep B opt f c x).2.1 (iterateOnStep B' opt' f c x').2.1 ∧
    (iterateOnStep B' opt' f c x').2.2 = (iterateOnStep B opt f c x).2.2 := by
  induction f generalizing c x x' with
  | zero => exact ⟨rfl, hx, rfl⟩
  | succ f ih =>
    obtain ⟨h1, h2, h3, h4⟩ := hx
    have hs := S.step x.disc x'.disc x.sugg h1
    simp only [iterateOnStep, S.adaptive, h2, h3, h4]
    generalize B.step x.disc x.sugg = a at hs
    generalize B'.step x'.disc x.sugg = a' at hs
    cases hs with
    | error e => exact ⟨rfl, ⟨h1, h2, h3, h4⟩, rfl⟩
    | @ok d d' hd =>
      dsimp only
      by_cases ha : opt.adaptive
      · simp only [ha, if_true, ← S.measure d d' hd, ← S.remaining d d' hd]
        rcases B.measure d with e | err
        · exact ⟨rfl, ⟨h1, h2, h3, h4⟩, rfl⟩
        · dsimp only
          rcases c.call true ⟨err, x.sugg, opt.crit.remaining (B.time d), x.errHist, x.stepHist⟩
            with ⟨c', e | st⟩
          · exact ⟨rfl, ⟨h1, h2, h3, h4⟩, rfl⟩
          · dsimp only
            by_cases hacc : st.acc
            · simp only [hacc, if_true]
              exact ⟨trivial, ⟨S.set _ _ _ _ h1 hd, rfl, rfl, rfl⟩, trivial⟩
            · simp only [hacc]
              exact ih c' ⟨h1, rfl, rfl, rfl⟩
      · simp only [ha]
        exact ⟨rfl, ⟨S.set _ _ _ _ h1 hd, rfl, rfl, rfl⟩, rfl⟩

theorem Simulation.forward (S : Simulation B B' opt opt' Rel Res) (f it : ℕ) (c : Ctrl)
    {x : IState D} {x' : IState D'} (hx : SameState Rel x x') :
    (noForward B' opt' f it c x').ctrl = (noForward B opt f it c x).ctrl ∧
    SameState Rel (noForward B opt f it c x).st (noForward B' opt' f it c x').st ∧
    (noForward B' opt' f it c x').out = (noForward B opt f it c x).out := by
  induction f generalizing it c x x' with
  | zero => exact ⟨rfl, hx, rfl⟩
  | succ f ih =>
    simp only [noForward]
    by_cases hf : opt.crit.finished it (B.time x.disc)
    · rw [if_pos hf, if_pos ((S.finished _ _ it hx.disc).mp hf)]
      exact ⟨rfl, hx, rfl⟩
    · rw [if_neg hf, if_neg (fun h => hf ((S.finished _ _ it hx.disc).mpr h))]
      obtain ⟨h1, h2, h3⟩ := S.iterate opt.recursionLimit c hx
      simp only [runStep, S.limit]
      rcases hi : iterateOnStep B opt opt.recursionLimit c x with ⟨c1, x1, e | ⟨⟩⟩ <;>
      rcases hi' : iterateOnStep B' opt' opt.recursionLimit c x' with ⟨c2, x2, e' | ⟨⟩⟩ <;>
      rw [hi, hi'] at h1 h2 h3 <;> dsimp only at h1 h2 h3 ⊢ <;> subst h1
      · exact ⟨rfl, h2, h3⟩
      · cases h3
      · cases h3
      · exact ih (it + 1) _ h2

/-- `compute` with corresponding backends, inputs and component states: the same exception or
corresponding final states. -/
theorem Simulation.compute (S : Simulation B B' opt opt' Rel Res) {ch ch' : Choice} {fuel : ℕ}
    {w : World D (ch.Data D)} {w' : World D' (ch'.Data D')} {i : I} {i' : I'}
    (hi : opt'.initialStep = opt.initialStep) (hc : w'.ctrl = w.ctrl)
    (hl : Rel (B.clearLin (B.load w.tis.disc i)) (B'.clearLin (B'.load w'.tis.disc i'))) :
    Both (fun v v' => ∃ d d', Rel d d' ∧ v = B.read d ∧ v' = B'.read d')
      (compute B opt (ch.ck B opt) fuel w i).2 (compute B' opt' (ch'.ck B' opt') fuel w' i').2 := by
  have h := S.forward fuel 0 w.ctrl (x := startOf B opt w.ctrl w.tis.disc i)
    (x' := startOf B' opt' w'.ctrl w'.tis.disc i') ⟨hl, hi, rfl, by simp [startOf, hc]⟩
  have e := choice_forward (B := B) (opt := opt) ch fuel ((ch.ck B opt).create w.ck) w.ctrl
    (startOf B opt w.ctrl w.tis.disc i)
  have e' := choice_forward (B := B') (opt := opt') ch' fuel ((ch'.ck B' opt').create w'.ck) w'.ctrl
    (startOf B' opt' w'.ctrl w'.tis.disc i')
  rw [hc] at e'
  simp only [Verif.Integrator.compute, resetErrorControl]
  simp only [startOf, hc] at e e' h ⊢
  rw [e, e']
  obtain ⟨-, h2, h3⟩ := h
  rw [h3]
  rcases (noForward B opt fuel 0 w.ctrl ⟨B.clearLin (B.load w.tis.disc i), opt.initialStep, (0, 0),
    (w.ctrl.config.tol, w.ctrl.config.tol)⟩).out with e | u
  · exact .error e
  · exact .ok ⟨_, _, h2.disc, rfl, rfl⟩

end Verif.Integrator
