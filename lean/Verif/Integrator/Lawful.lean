/-
What the integrator's results may depend on: laws of a backend, and their consequences for runs.
The Runge-Kutta backends satisfy them (`Verif.Integrator.RK`).
-/
import Verif.Integrator.Run

namespace Verif.Integrator

open Verif.Control Verif.XReal
open Classical

variable {D I O : Type}

/-- Laws of a backend. `obs` is the published part of a state (final state, final time,
independent inputs), `lin` the part derivatives use (the linearization points), `Clean` holds for
perturbations without leftovers in buffers that adjoint steps read. -/
structure Lawful (B : Backend D I O) where
  Q : Type
  L : Type
  obs : D → Q
  lin : D → L
  Clean : D → Prop
  step_obs : ∀ a b h, obs a = obs b → B.step a h = B.step b h
  time_obs : ∀ a b, obs a = obs b → B.time a = B.time b
  read_obs : ∀ a b, obs a = obs b → B.read a = B.read b
  writeOut_obs : ∀ a b o, obs a = obs b → B.writeOut a o = B.writeOut b o
  writeIn_obs : ∀ a b i, obs a = obs b → B.writeIn a i = B.writeIn b i
  set_obs : ∀ a b, obs (B.set a b) = obs b
  set_lin : ∀ a b, lin (B.set a b) = lin b
  load_obs : ∀ a b i, obs (B.load a i) = obs (B.load b i)
  load_clean : ∀ a i, Clean a → Clean (B.load a i)
  clear_obs : ∀ a, obs (B.clearLin a) = obs a
  seed_obs : ∀ a b o, obs (B.seed a o) = obs (B.seed b o)
  seed_clean : ∀ a o, Clean a → Clean (B.seed a o)
  deriv_obs : ∀ a b p q h, lin a = lin b → obs p = obs q → obs (B.deriv a p h) = obs (B.deriv b q h)
  deriv_clean : ∀ a p h, Clean p → Clean (B.deriv a p h)
  adj_obs : ∀ a b p q h, lin a = lin b → obs p = obs q → Clean p → Clean q →
    obs (B.adj a p h) = obs (B.adj b q h)
  adj_clean : ∀ a p h, Clean p → Clean (B.adj a p h)

variable {B : Backend D I O} {opt : Options}

/-- Two integration states with the same published part. -/
structure SameObs (W : Lawful B) (x y : IState D) : Prop where
  obs : W.obs x.disc = W.obs y.disc
  sugg : x.sugg = y.sugg
  stepHist : x.stepHist = y.stepHist
  errHist : x.errHist = y.errHist

/-- Two integration states that also have the same linearization points. -/
structure SameLin (W : Lawful B) (x y : IState D) : Prop extends SameObs W x y where
  lin : W.lin x.disc = W.lin y.disc

/-- Lists of controllers and states that agree in this sense. -/
def SameTr (W : Lawful B) (t1 t2 : List (Ctrl × IState D)) : Prop :=
  List.Forall₂ (fun a b => a.1 = b.1 ∧ SameLin W a.2 b.2) t1 t2

theorem SameObs.refl (W : Lawful B) (x : IState D) : SameObs W x x := ⟨rfl, rfl, rfl, rfl⟩

theorem SameLin.refl (W : Lawful B) (x : IState D) : SameLin W x x := ⟨SameObs.refl W x, rfl⟩

theorem SameObs.symm {W : Lawful B} {x y : IState D} (h : SameObs W x y) : SameObs W y x :=
  ⟨h.obs.symm, h.sugg.symm, h.stepHist.symm, h.errHist.symm⟩

theorem iterate_same (W : Lawful B) (f : ℕ) (c : Ctrl) {x y : IState D} (h : SameObs W x y) :
    (iterateOnStep B opt f c x).1 = (iterateOnStep B opt f c y).1 ∧
    (iterateOnStep B opt f c x).2.2 = (iterateOnStep B opt f c y).2.2 ∧
    SameObs W (iterateOnStep B opt f c x).2.1 (iterateOnStep B opt f c y).2.1 ∧
    ((iterateOnStep B opt f c x).2.2 = .ok () →
      SameLin W (iterateOnStep B opt f c x).2.1 (iterateOnStep B opt f c y).2.1) := by
  induction f generalizing c x y with
  | zero => exact ⟨rfl, rfl, h, fun h' => by simp [iterateOnStep] at h'⟩
  | succ f ih =>
    have hstep : B.step x.disc x.sugg = B.step y.disc y.sugg := by
      rw [h.sugg]; exact W.step_obs _ _ _ h.obs
    have hsl : ∀ d (s : XReal) (p q : XReal × XReal), SameLin W (⟨B.set x.disc d, s, p, q⟩ : IState D)
        ⟨B.set y.disc d, s, p, q⟩ := fun d s p q =>
      ⟨⟨by rw [W.set_obs, W.set_obs], rfl, rfl, rfl⟩, by rw [W.set_lin, W.set_lin]⟩
    simp only [iterateOnStep, hstep]
    rcases B.step y.disc y.sugg with e | d
    · exact ⟨rfl, rfl, h, fun h' => by simp at h'⟩
    · dsimp only
      by_cases had : opt.adaptive = true
      · simp only [if_pos had]
        rcases B.measure d with e | err
        · exact ⟨rfl, rfl, h, fun h' => by simp at h'⟩
        · dsimp only
          rw [h.sugg, h.stepHist, h.errHist]
          rcases c.call true ⟨err, y.sugg, opt.crit.remaining (B.time d), y.errHist,
            y.stepHist⟩ with ⟨c', e | st⟩
          · exact ⟨rfl, rfl, h, fun h' => by simp at h'⟩
          · dsimp only
            by_cases hacc : st.acc = true
            · simp only [if_pos hacc]
              refine ⟨trivial, trivial, (hsl _ _ _ _).toSameObs, fun _ => hsl _ _ _ _⟩
            · simp only [if_neg hacc]
              exact ih c' ⟨h.obs, rfl, rfl, rfl⟩
      · simp only [if_neg had]
        rw [h.sugg, h.stepHist, h.errHist]
        exact ⟨trivial, trivial, (hsl _ _ _ _).toSameObs, fun _ => hsl _ _ _ _⟩

theorem Run.same (W : Lawful B) {it : ℕ} {c : Ctrl} {x y : IState D}
    {t1 : List (Ctrl × IState D)} (h1 : Run B opt it c x t1) (h : SameObs W x y) :
    ∃ t2, Run B opt it c y t2 ∧ SameTr W t1 t2 := by
  induction h1 generalizing y with
  | done hf => exact ⟨[], .done (by rwa [← W.time_obs _ _ h.obs]), .nil⟩
  | @step it c x c' x' tr hf hs hr ih =>
    obtain ⟨e1, e2, e3, e4⟩ := iterate_same (opt := opt) W opt.recursionLimit c h
    rw [hs] at e1 e2 e3 e4
    have hl := e4 rfl
    rcases hy : iterateOnStep B opt opt.recursionLimit c y with ⟨c2, x2, o2⟩
    rw [hy] at e1 e2 e3 e4 hl
    dsimp only at e1 e2 e3 e4 hl
    subst e1
    obtain ⟨t2, h2, h3⟩ := ih hl.toSameObs
    refine ⟨(c', x2) :: t2, .step (by rwa [← W.time_obs _ _ h.obs]) ?_ h2, .cons ⟨rfl, hl⟩ h3⟩
    rw [hy, ← e2]

theorem lastOf_same (W : Lawful B) {c : Ctrl} {x y : IState D} (h : SameObs W x y)
    {t1 t2 : List (Ctrl × IState D)} (ht : SameTr W t1 t2) :
    (lastOf c x t1).1 = (lastOf c y t2).1 ∧ SameObs W (lastOf c x t1).2 (lastOf c y t2).2 := by
  induction ht generalizing c x y with
  | nil => exact ⟨rfl, h⟩
  | cons hab _ ih =>
    obtain ⟨e, hl⟩ := hab
    simp only [lastOf, e]
    exact ih hl.toSameObs

theorem fwdAlong_same (W : Lawful B) {t1 t2 : List (Ctrl × IState D)} (ht : SameTr W t1 t2)
    {p q : D} (hp : W.obs p = W.obs q) :
    W.obs (fwdAlong B t1 p) = W.obs (fwdAlong B t2 q) := by
  induction ht generalizing p q with
  | nil => exact hp
  | cons hab _ ih =>
    simp only [fwdAlong]
    refine ih ?_
    rw [hab.2.stepHist]
    exact W.deriv_obs _ _ _ _ _ hab.2.lin hp

theorem revAlong_same (W : Lawful B) {x1 x2 : List (IState D)}
    (ht : List.Forall₂ (SameLin W) x1 x2) {p q : D} (hp : W.obs p = W.obs q) (cp : W.Clean p)
    (cq : W.Clean q) : W.obs (revAlong B x1 p) = W.obs (revAlong B x2 q) := by
  induction ht generalizing p q with
  | nil => exact hp
  | cons hab _ ih =>
    simp only [revAlong]
    refine ih ?_ (W.adj_clean _ _ _ cp) (W.adj_clean _ _ _ cq)
    rw [hab.stepHist]
    exact W.adj_obs _ _ _ _ _ hab.lin hp cp cq

theorem fwdAlong_clean (W : Lawful B) (t : List (Ctrl × IState D)) {p : D} (cp : W.Clean p) :
    W.Clean (fwdAlong B t p) := by
  induction t generalizing p with
  | nil => exact cp
  | cons q t ih => exact ih (W.deriv_clean _ _ _ cp)

theorem revAlong_clean (W : Lawful B) (t : List (IState D)) {p : D} (cp : W.Clean p) :
    W.Clean (revAlong B t p) := by
  induction t generalizing p with
  | nil => exact cp
  | cons q t ih => exact ih (W.adj_clean _ _ _ cp)

theorem SameTr.snd {W : Lawful B} {t1 t2 : List (Ctrl × IState D)} (h : SameTr W t1 t2) :
    List.Forall₂ (SameLin W) (t1.map Prod.snd) (t2.map Prod.snd) := by
  induction h with
  | nil => exact .nil
  | cons hab _ ih => exact .cons hab.2 ih

theorem SameTr.length {W : Lawful B} {t1 t2 : List (Ctrl × IState D)} (h : SameTr W t1 t2) :
    t1.length = t2.length := List.Forall₂.length_eq h

end Verif.Integrator
