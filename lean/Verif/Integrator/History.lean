/-
Dependence of the component's results on its history. The property theorems are in
`Verif.Props.History`.
-/
import Verif.Integrator.Path

namespace Verif.Integrator

open Verif.Control Verif.XReal
open Classical

variable {D I O : Type} {B : Backend D I O} {opt : Options}

/-- The controller has no memory: it is not used, or it is not a chain. -/
def Plain (opt : Options) (c : Ctrl) : Prop :=
  opt.adaptive = false ∨ ∃ par cfg, c = .base par cfg

theorem iterate_plain {c : Ctrl} (hp : Plain opt c) (f : ℕ) (x : IState D) :
    (iterateOnStep B opt f c x).1 = c := by
  induction f generalizing x with
  | zero => rfl
  | succ f ih =>
    simp only [iterateOnStep]
    rcases B.step x.disc x.sugg with e | d
    · rfl
    · dsimp only
      by_cases had : opt.adaptive = true
      · rw [if_pos had]
        rcases B.measure d with e | err
        · rfl
        · dsimp only
          obtain ⟨par, cfg, rfl⟩ : ∃ par cfg, c = .base par cfg := by
            rcases hp with h | h
            · rw [h] at had; simp at had
            · exact h
          rcases hc : Ctrl.call true (.base par cfg)
            ⟨err, x.sugg, opt.crit.remaining (B.time d), x.errHist, x.stepHist⟩ with ⟨c', r⟩
          have hcc : c' = .base par cfg := by
            have := congrArg Prod.fst hc
            exact this.symm
          subst hcc
          rcases r with e | st
          · rfl
          · dsimp only
            by_cases hacc : st.acc = true
            · rw [if_pos hacc]
            · rw [if_neg hacc]; exact ih _
      · rw [if_neg had]

theorem noForward_plain {c : Ctrl} (hp : Plain opt c) (fuel it : ℕ) (x : IState D) :
    (noForward B opt fuel it c x).ctrl = c := by
  induction fuel generalizing it x with
  | zero => rfl
  | succ f ih =>
    simp only [noForward]
    split
    · rfl
    · have hi := iterate_plain (B := B) hp opt.recursionLimit x
      simp only [runStep]
      rcases hs : iterateOnStep B opt opt.recursionLimit c x with ⟨c', x', e | u⟩
      · rw [hs] at hi; exact hi
      · rw [hs] at hi
        dsimp only at hi
        subst hi
        exact ih _ _

theorem fwdLoop_plain {c : Ctrl} (hp : Plain opt c) (fuel it : ℕ) (x : IState D) (p : D) :
    (fwdLoop B opt fuel it c x p).1.ctrl = c := by
  induction fuel generalizing it x p with
  | zero => rfl
  | succ f ih =>
    simp only [fwdLoop]
    split
    · rfl
    · have hi := iterate_plain (B := B) hp opt.recursionLimit x
      simp only [runStepFwd]
      rcases hs : iterateOnStep B opt opt.recursionLimit c x with ⟨c', x', e | u⟩
      · rw [hs] at hi; exact hi
      · rw [hs] at hi
        dsimp only at hi
        subst hi
        exact ih _ _ _

/-- The same start gives the same run, as far as it can be observed, also if it fails. -/
theorem noForward_same (W : Lawful B) (fuel it : ℕ) (c : Ctrl) {x y : IState D}
    (h : SameObs W x y) :
    (noForward B opt fuel it c x).out = (noForward B opt fuel it c y).out ∧
    (noForward B opt fuel it c x).ctrl = (noForward B opt fuel it c y).ctrl ∧
    SameObs W (noForward B opt fuel it c x).st (noForward B opt fuel it c y).st := by
  induction fuel generalizing it c x y with
  | zero => exact ⟨rfl, rfl, h⟩
  | succ f ih =>
    simp only [noForward, ← W.time_obs _ _ h.obs]
    split
    · exact ⟨rfl, rfl, h⟩
    · obtain ⟨e1, e2, e3, -⟩ := iterate_same (opt := opt) W opt.recursionLimit c h
      simp only [runStep]
      rcases hx : iterateOnStep B opt opt.recursionLimit c x with ⟨cx, x', ox⟩
      rcases hy : iterateOnStep B opt opt.recursionLimit c y with ⟨cy, y', oy⟩
      rw [hx, hy] at e1 e2 e3
      dsimp only at e1 e2 e3
      subst e1 e2
      rcases ox with e | u
      · exact ⟨rfl, rfl, e3⟩
      · exact ih _ _ e3

theorem fwdLoop_same (W : Lawful B) (fuel it : ℕ) (c : Ctrl) {x y : IState D}
    (h : SameObs W x y) {p q : D} (hpq : W.obs p = W.obs q) :
    (fwdLoop B opt fuel it c x p).1.out = (fwdLoop B opt fuel it c y q).1.out ∧
    (fwdLoop B opt fuel it c x p).1.ctrl = (fwdLoop B opt fuel it c y q).1.ctrl ∧
    W.obs (fwdLoop B opt fuel it c x p).2 = W.obs (fwdLoop B opt fuel it c y q).2 := by
  induction fuel generalizing it c x y p q with
  | zero => exact ⟨rfl, rfl, hpq⟩
  | succ f ih =>
    simp only [fwdLoop, ← W.time_obs _ _ h.obs]
    split
    · exact ⟨rfl, rfl, hpq⟩
    · obtain ⟨e1, e2, e3, e4⟩ := iterate_same (opt := opt) W opt.recursionLimit c h
      simp only [runStepFwd]
      rcases hx : iterateOnStep B opt opt.recursionLimit c x with ⟨cx, x', ox⟩
      rcases hy : iterateOnStep B opt opt.recursionLimit c y with ⟨cy, y', oy⟩
      rw [hx, hy] at e1 e2 e3 e4
      dsimp only at e1 e2 e3 e4
      subst e1 e2
      rcases ox with e | u
      · exact ⟨rfl, rfl, hpq⟩
      · have hl := e4 rfl
        refine ih _ _ e3 ?_
        rw [hl.stepHist]
        exact W.deriv_obs _ _ _ _ _ hl.lin hpq

theorem fwdLoop_clean (W : Lawful B) (fuel it : ℕ) (c : Ctrl) (x : IState D) {p : D}
    (hp : W.Clean p) : W.Clean (fwdLoop B opt fuel it c x p).2 := by
  induction fuel generalizing it c x p with
  | zero => exact hp
  | succ f ih =>
    simp only [fwdLoop]
    split
    · exact hp
    · simp only [runStepFwd]
      rcases iterateOnStep B opt opt.recursionLimit c x with ⟨cx, x', e | u⟩
      · exact hp
      · exact ih _ _ _ (W.deriv_clean _ _ _ hp)

/-- Outcome and controller after `compute` depend only on controller and inputs. -/
theorem compute_same (W : Lawful B) {ch ch' : Choice} (fuel : ℕ) (w : World D (ch.Data D))
    (w' : World D (ch'.Data D)) (hc : w.ctrl = w'.ctrl) (i : I) :
    (compute B opt (ch.ck B opt) fuel w i).2 = (compute B opt (ch'.ck B opt) fuel w' i).2 ∧
    (compute B opt (ch.ck B opt) fuel w i).1.ctrl
      = (compute B opt (ch'.ck B opt) fuel w' i).1.ctrl := by
  have h := start_same (opt := opt) W w.ctrl w.tis.disc w'.tis.disc i
  obtain ⟨e1, e2, e3⟩ := noForward_same (opt := opt) W fuel 0 w.ctrl h
  simp only [compute, resetErrorControl]
  rw [choice_forward, choice_forward]
  simp only [startOf] at e1 e2 e3
  rw [← hc]
  generalize noForward B opt fuel 0 w.ctrl _ = r at e1 e2 e3
  generalize noForward B opt fuel 0 w.ctrl _ = r' at e1 e2 e3
  rcases r with ⟨rc, rs, rl, ro⟩
  rcases r' with ⟨rc', rs', rl', ro'⟩
  dsimp only at e1 e2 e3
  subst e1 e2
  rcases ro with e | u
  · exact ⟨rfl, rfl⟩
  · exact ⟨by dsimp only; rw [W.read_obs _ _ e3.obs], rfl⟩

/-- Outcome and controller after a forward product depend only on controller, inputs and seeds. -/
theorem fwd_same (W : Lawful B) {σ σ' : Type} (fuel : ℕ) (w : World D σ) (w' : World D σ')
    (hc : w.ctrl = w'.ctrl) (i di : I) (dO : O) :
    (fwd B opt fuel w i di dO).2 = (fwd B opt fuel w' i di dO).2 ∧
    (fwd B opt fuel w i di dO).1.ctrl = (fwd B opt fuel w' i di dO).1.ctrl := by
  have h := start_same_fwd' (opt := opt) W w.ctrl w.tis.disc w'.tis.disc i
  obtain ⟨e1, e2, e3⟩ := fwdLoop_same (opt := opt) W fuel 0 w.ctrl h
    (W.load_obs w.pert w'.pert di)
  simp only [startOfFwd] at e1 e2 e3
  simp only [fwd, resetErrorControl]
  rw [← hc]
  generalize fwdLoop B opt fuel 0 w.ctrl _ (B.load w.pert di) = r at e1 e2 e3
  generalize fwdLoop B opt fuel 0 w.ctrl _ (B.load w'.pert di) = r' at e1 e2 e3
  rcases r with ⟨⟨rc, rs, rl, ro⟩, rp⟩
  rcases r' with ⟨⟨rc', rs', rl', ro'⟩, rp'⟩
  dsimp only at e1 e2 e3
  subst e1 e2
  rcases ro with e | u
  · exact ⟨rfl, rfl⟩
  · exact ⟨by dsimp only; rw [W.writeOut_obs _ _ _ e3], rfl⟩

/-! ### What operations keep -/

theorem compute_plain {ch : Choice} {fuel : ℕ} {w : World D (ch.Data D)} (hp : Plain opt w.ctrl)
    (i : I) : (compute B opt (ch.ck B opt) fuel w i).1.ctrl = w.ctrl := by
  simp only [compute, resetErrorControl]
  rw [choice_forward]
  have := noForward_plain (B := B) hp fuel 0 (startOf B opt w.ctrl w.tis.disc i)
  simp only [startOf] at this
  generalize noForward B opt fuel 0 w.ctrl _ = r at this
  rcases r with ⟨rc, rs, rl, e | u⟩ <;> exact this

theorem compute_pert {ch : Choice} {fuel : ℕ} {w : World D (ch.Data D)} (i : I) :
    (compute B opt (ch.ck B opt) fuel w i).1.pert = w.pert := by
  simp only [compute]
  split <;> rfl

theorem fwd_plain {σ : Type} {fuel : ℕ} {w : World D σ} (hp : Plain opt w.ctrl) (i di : I) (dO : O) :
    (fwd B opt fuel w i di dO).1.ctrl = w.ctrl := by
  simp only [fwd]
  split <;> exact fwdLoop_plain hp _ _ _ _

theorem fwd_clean (W : Lawful B) {σ : Type} {fuel : ℕ} {w : World D σ} (hc : W.Clean w.pert)
    (i di : I) (dO : O) : W.Clean (fwd B opt fuel w i di dO).1.pert := by
  simp only [fwd]
  split <;> exact fwdLoop_clean W _ _ _ _ (W.load_clean _ _ hc)

theorem revPrep_plain {ch : Choice} {fuel : ℕ} {w : World D (ch.Data D)} (hp : Plain opt w.ctrl)
    (i : I) : (revPrep B opt (ch.ck B opt) fuel w i).1.ctrl = w.ctrl := by
  simp only [revPrep]
  split
  · rfl
  · have := compute_plain (B := B) (ch := ch) (fuel := fuel) hp i
    rcases h : compute B opt (ch.ck B opt) fuel w i with ⟨w', e | v⟩ <;> rw [h] at this <;> exact this

theorem revPrep_pert {ch : Choice} {fuel : ℕ} {w : World D (ch.Data D)}
    (i : I) : (revPrep B opt (ch.ck B opt) fuel w i).1.pert = w.pert := by
  simp only [revPrep]
  split
  · rfl
  · have := compute_pert (B := B) (opt := opt) (ch := ch) (fuel := fuel) (w := w) i
    rcases h : compute B opt (ch.ck B opt) fuel w i with ⟨w', e | v⟩ <;> rw [h] at this <;> exact this

theorem rev_plain {ch : Choice} {fuel : ℕ} {w : World D (ch.Data D)} (hp : Plain opt w.ctrl)
    (i dI : I) (dO : O) : (rev B opt (ch.ck B opt) fuel w i dO dI).1.ctrl = w.ctrl := by
  have := revPrep_plain (B := B) (ch := ch) (fuel := fuel) hp i
  simp only [rev]
  rcases h : revPrep B opt (ch.ck B opt) fuel w i with ⟨w1, e | u⟩
  · rw [h] at this; exact this
  · rw [h] at this
    cases ch <;> exact this

theorem rev_clean (W : Lawful B) {ch : Choice} {fuel : ℕ} {w : World D (ch.Data D)}
    (hc : W.Clean w.pert) (i dI : I) (dO : O) :
    W.Clean (rev B opt (ch.ck B opt) fuel w i dO dI).1.pert := by
  have := revPrep_pert (B := B) (opt := opt) (ch := ch) (fuel := fuel) (w := w) i
  simp only [rev]
  rcases h : revPrep B opt (ch.ck B opt) fuel w i with ⟨w1, e | u⟩
  · rw [h] at this
    dsimp only at this ⊢
    rw [this]
    exact hc
  · rw [h] at this
    dsimp only at this ⊢
    cases ch with
    | no =>
      change W.Clean (B.seed w1.pert dO)
      rw [this]
      exact W.seed_clean _ _ hc
    | all =>
      change W.Clean (allReverse B opt _ (B.seed w1.pert dO)).1
      rw [allReverse_fst, this]
      exact revAlong_clean W _ (W.seed_clean _ _ hc)

theorem doOps_plain {ch : Choice} {fuel : ℕ} (ops : List (Op I O)) {w : World D (ch.Data D)}
    (hp : Plain opt w.ctrl) : (doOps B opt (ch.ck B opt) fuel w ops).ctrl = w.ctrl := by
  induction ops generalizing w with
  | nil => rfl
  | cons op ops ih =>
    have h : (doOp B opt (ch.ck B opt) fuel w op).ctrl = w.ctrl := by
      cases op with
      | compute i => exact compute_plain hp i
      | fwd i di dO => exact fwd_plain hp i di dO
      | rev i dO dI => exact rev_plain hp i dI dO
    have := ih (w := doOp B opt (ch.ck B opt) fuel w op) (by rw [h]; exact hp)
    rw [h] at this
    exact this

theorem doOps_clean (W : Lawful B) {ch : Choice} {fuel : ℕ} (ops : List (Op I O))
    {w : World D (ch.Data D)} (hc : W.Clean w.pert) :
    W.Clean (doOps B opt (ch.ck B opt) fuel w ops).pert := by
  induction ops generalizing w with
  | nil => exact hc
  | cons op ops ih =>
    refine ih (w := doOp B opt (ch.ck B opt) fuel w op) ?_
    cases op with
    | compute i => exact (compute_pert (B := B) (opt := opt) (fuel := fuel) (w := w) i).symm ▸ hc
    | fwd i di dO => exact fwd_clean W hc i di dO
    | rev i dO dI => exact rev_clean W hc i dI dO

/-! ### The cached trajectory -/

/-- If inputs are cached, the stored checkpoints are the trajectory of a run from them. -/
def CacheGood (W : Lawful B) (opt : Options) (fuel : ℕ) (c : Ctrl)
    (w : World D (List (IState D))) : Prop :=
  ∀ d, w.cached = some d → ∃ x tr, Run B opt 0 c x tr ∧ tr.length < fuel ∧ W.obs x.disc = W.obs d ∧
    x.sugg = opt.initialStep ∧ x.stepHist = (0, 0) ∧ x.errHist = (c.config.tol, c.config.tol) ∧
    w.ck = tr.map Prod.snd

theorem compute_good (W : Lawful B) {fuel : ℕ} {w w' : World D (List (IState D))} {i : I} {v : O}
    (h : compute B opt (allCk B opt) fuel w i = (w', .ok v)) :
    CacheGood W opt fuel w.ctrl w' := by
  obtain ⟨tr, htr, hlt, -, -, -, -, hca, -⟩ := compute_run (ch := .all) h
  have hst := compute_stores h htr
  intro d hd
  rw [hca, Option.some.injEq] at hd
  subst hd
  exact ⟨_, tr, htr, hlt, W.clear_obs _, rfl, rfl, rfl, hst⟩

/-- A reverse product without cached inputs. -/
theorem rev_of_run {fuel : ℕ} {w : World D (List (IState D))} {i dI : I} {dO : O}
    {tr : List (Ctrl × IState D)} (hca : cacheOk B w i = false)
    (htr : Run B opt 0 w.ctrl (startOf B opt w.ctrl w.tis.disc i) tr) (hlt : tr.length < fuel) :
    (rev B opt (allCk B opt) fuel w i dO dI).2
      = .ok (B.writeIn (revAlong B (tr.map Prod.snd).reverse (B.seed w.pert dO)) dI) := by
  have hcomp := compute_of_run (ch := .all) (fuel := fuel) htr hlt
  simp only [Choice.ck] at hcomp
  have hst := compute_stores (opt := opt) hcomp htr
  simp only [rev, revPrep, hca, hcomp]
  rw [← hst]
  simp only [Bool.false_eq_true, if_false, allCk, allReverse_fst]

/-- A reverse product with cached inputs. -/
theorem rev_of_cached {fuel : ℕ} {w : World D (List (IState D))} {i dI : I} {dO : O}
    (hca : cacheOk B w i = true) :
    (rev B opt (allCk B opt) fuel w i dO dI).2
      = .ok (B.writeIn (revAlong B w.ck.reverse (B.seed w.pert dO)) dI) := by
  simp only [rev, revPrep, hca, if_true, allCk, allReverse_fst]

/-- The outcome of a reverse product that uses a good trajectory of its own inputs is that of any
instance without cached inputs. -/
theorem rev_spec (W : Lawful B) {fuel : ℕ} {w w0 : World D (List (IState D))}
    (hc : w.ctrl = w0.ctrl) (hg : CacheGood W opt fuel w.ctrl w) (h0 : w0.cached = none)
    (cw : W.Clean w.pert) (cw0 : W.Clean w0.pert) (i dI : I) (dO : O)
    (hit : ∀ d, w.cached = some d → B.cacheHit d i = true → W.obs d = W.obs (B.load d i)) :
    (rev B opt (allCk B opt) fuel w i dO dI).2 = (rev B opt (allCk B opt) fuel w0 i dO dI).2 := by
  -- the run of the instance without cache
  have hno : cacheOk B w0 i = false := by simp [cacheOk, h0]
  -- outcome of a reverse product after a successful `compute` without cache
  have key : ∀ (w : World D (List (IState D))) tr, cacheOk B w i = false → W.Clean w.pert →
      Run B opt 0 w.ctrl (startOf B opt w.ctrl w.tis.disc i) tr → tr.length < fuel →
      (rev B opt (allCk B opt) fuel w i dO dI).2
        = .ok (B.writeIn (revAlong B (tr.map Prod.snd).reverse (B.seed w.pert dO)) dI) := by
    intro w tr hca _ htr hlt
    exact rev_of_run hca htr hlt
  have obsIn : ∀ t1 t2 (p q : D), SameTr W t1 t2 → W.Clean p → W.Clean q →
      B.writeIn (revAlong B (t1.map Prod.snd).reverse (B.seed p dO)) dI
        = B.writeIn (revAlong B (t2.map Prod.snd).reverse (B.seed q dO)) dI := by
    intro t1 t2 p q hs hp hq
    refine W.writeIn_obs _ _ _ (revAlong_same W ?_ (W.seed_obs _ _ _) (W.seed_clean _ _ hp)
      (W.seed_clean _ _ hq))
    rw [List.forall₂_reverse_iff]
    exact hs.snd
  by_cases hca : cacheOk B w i = true
  · -- cached
    obtain ⟨d, hd, hhit⟩ : ∃ d, w.cached = some d ∧ B.cacheHit d i = true := by
      simp only [cacheOk] at hca
      rcases hd : w.cached with _ | d
      · rw [hd] at hca; simp at hca
      · rw [hd] at hca; exact ⟨d, rfl, hca⟩
    obtain ⟨x, tr, htr, hlt, ho, hs1, hs2, hs3, hck⟩ := hg d hd
    have hsame : SameObs W x (startOf B opt w0.ctrl w0.tis.disc i) := by
      refine ⟨?_, hs1, hs2, by rw [hs3, hc]; rfl⟩
      rw [ho, hit d hd hhit]
      simp only [startOf, W.clear_obs]
      exact W.load_obs _ _ _
    obtain ⟨t2, h2, hs⟩ := htr.same W hsame
    rw [hc] at h2
    rw [key w0 t2 hno cw0 h2 (by rw [← hs.length]; exact hlt)]
    have : (rev B opt (allCk B opt) fuel w i dO dI).2
        = .ok (B.writeIn (revAlong B (tr.map Prod.snd).reverse (B.seed w.pert dO)) dI) := by
      rw [rev_of_cached hca, hck]
    rw [this, obsIn tr t2 _ _ hs cw cw0]
  · -- not cached
    rw [Bool.not_eq_true] at hca
    have hsame := start_same (opt := opt) W w.ctrl w.tis.disc w0.tis.disc i
    rcases hcomp : compute B opt (allCk B opt) fuel w i with ⟨w1, e | v⟩
    · have h2 := (compute_same (opt := opt) W (ch := .all) (ch' := .all) fuel w w0 hc i).1
      simp only [Choice.ck] at h2
      rcases hcomp2 : compute B opt (allCk B opt) fuel w0 i with ⟨w2, e2 | v2⟩
      · rw [hcomp, hcomp2] at h2
        simp only [rev, revPrep, hca, hno, hcomp, hcomp2, Bool.false_eq_true, if_false]
        exact congrArg _ (by simpa using h2)
      · rw [hcomp, hcomp2] at h2
        simp at h2
    · obtain ⟨tr, htr, hlt, -⟩ := compute_run (ch := .all) hcomp
      obtain ⟨t2, h2, hs⟩ := htr.same W hsame
      rw [key w tr hca cw htr hlt]
      rw [hc] at h2
      rw [key w0 t2 hno cw0 h2 (by rw [← hs.length]; exact hlt), obsIn tr t2 _ _ hs cw cw0]

/-- After a reverse product that worked nothing is cached. -/
theorem rev_clears {fuel : ℕ} {w w' : World D (List (IState D))} {i dI g : I} {dO : O}
    (h : rev B opt (allCk B opt) fuel w i dO dI = (w', .ok g)) : w'.cached = none := by
  simp only [rev] at h
  rcases hp : revPrep B opt (allCk B opt) fuel w i with ⟨w1, e | u⟩
  · rw [hp] at h; simp at h
  · rw [hp] at h
    simp only [allCk, Prod.mk.injEq] at h
    rw [← h.1]

/-! ### Histories -/

/-- Whether an outcome is a result rather than an exception. -/
def returned {α : Type} : Except Err α → Prop
  | .ok _ => True
  | .error _ => False

/-- The last `compute` or reverse product of a sequence of operations did not fail (`s` says so for
what happened before; forward products may fail). -/
def Settled (B : Backend D I O) (opt : Options) {σ : Type} (ck : Checkpointer D σ) (fuel : ℕ) :
    Prop → World D σ → List (Op I O) → Prop
  | s, _, [] => s
  | s, w, .fwd i di dO :: ops => Settled B opt ck fuel s (doOp B opt ck fuel w (.fwd i di dO)) ops
  | _, w, .compute i :: ops =>
    Settled B opt ck fuel (returned (compute B opt ck fuel w i).2)
      (doOp B opt ck fuel w (.compute i)) ops
  | _, w, .rev i dO dI :: ops =>
    Settled B opt ck fuel (returned (rev B opt ck fuel w i dO dI).2)
      (doOp B opt ck fuel w (.rev i dO dI)) ops

/-- The cached inputs are those of a `compute` in the list. -/
def CachedFrom (B : Backend D I O) (js : List I) (w : World D (List (IState D))) : Prop :=
  ∀ d, w.cached = some d → ∃ j ∈ js, ∃ d', d = B.load d' j

/-- The inputs of the `compute` calls of a history. -/
def computed : List (Op I O) → List I
  | [] => []
  | .compute i :: ops => i :: computed ops
  | _ :: ops => computed ops

theorem settled_good (W : Lawful B) {fuel : ℕ} (ops : List (Op I O)) (js : List I) (s : Prop)
    {w : World D (List (IState D))} (hp : Plain opt w.ctrl)
    (h0 : s → CacheGood W opt fuel w.ctrl w ∧ CachedFrom B js w)
    (hs : Settled B opt (allCk B opt) fuel s w ops) :
    CacheGood W opt fuel w.ctrl (doOps B opt (allCk B opt) fuel w ops) ∧
    CachedFrom B (computed ops ++ js) (doOps B opt (allCk B opt) fuel w ops) := by
  induction ops generalizing s w js with
  | nil => exact h0 hs
  | cons op ops ih =>
    cases op with
    | compute i =>
      have hc : (doOp B opt (allCk B opt) fuel w (.compute i)).ctrl = w.ctrl :=
        compute_plain (ch := .all) hp i
      have := ih (i :: js) (returned (compute B opt (allCk B opt) fuel w i).2)
        (w := doOp B opt (allCk B opt) fuel w (.compute i)) (by rw [hc]; exact hp) ?_ hs
      · rw [hc] at this
        refine ⟨this.1, fun d hd => ?_⟩
        obtain ⟨j, hj, d', e⟩ := this.2 d hd
        refine ⟨j, ?_, d', e⟩
        simp only [computed, List.mem_append, List.mem_cons, List.cons_append] at hj ⊢
        tauto
      · intro hr
        rw [hc]
        rcases h : compute B opt (allCk B opt) fuel w i with ⟨w', e | v⟩
        · rw [h] at hr; exact hr.elim
        · simp only [doOp, h]
          refine ⟨compute_good W h, fun d hd => ⟨i, by simp, w.tis.disc, ?_⟩⟩
          obtain ⟨tr, htr, hlt, -, -, -, -, hca, -⟩ := compute_run (ch := .all) h
          rw [hca] at hd
          exact (Option.some.inj hd).symm
    | fwd i di dO =>
      have hc : (doOp B opt (allCk B opt) fuel w (.fwd i di dO)).ctrl = w.ctrl :=
        fwd_plain hp i di dO
      have hcw : (doOp B opt (allCk B opt) fuel w (.fwd i di dO)).cached = w.cached := by
        simp only [doOp, fwd]; split <;> rfl
      have hck : (doOp B opt (allCk B opt) fuel w (.fwd i di dO)).ck = w.ck := by
        simp only [doOp, fwd]; split <;> rfl
      have := ih js s (w := doOp B opt (allCk B opt) fuel w (.fwd i di dO)) (by rw [hc]; exact hp)
        ?_ hs
      · rw [hc] at this
        exact this
      · intro hr
        obtain ⟨h1, h2⟩ := h0 hr
        refine ⟨fun d hd => ?_, fun d hd => ?_⟩
        · rw [hc, hck]
          exact h1 d (by rw [← hcw]; exact hd)
        · exact h2 d (by rw [← hcw]; exact hd)
    | rev i dO dI =>
      have hc : (doOp B opt (allCk B opt) fuel w (.rev i dO dI)).ctrl = w.ctrl :=
        rev_plain (ch := .all) hp i dI dO
      have := ih js (returned (rev B opt (allCk B opt) fuel w i dO dI).2)
        (w := doOp B opt (allCk B opt) fuel w (.rev i dO dI)) (by rw [hc]; exact hp) ?_ hs
      · rw [hc] at this
        exact this
      · intro hr
        rcases h : rev B opt (allCk B opt) fuel w i dO dI with ⟨w', e | g⟩
        · rw [h] at hr; exact hr.elim
        · have := rev_clears h
          simp only [doOp, h]
          exact ⟨fun d hd => by simp [this] at hd, fun d hd => by simp [this] at hd⟩

/-- A reverse product after a settled history gives what it gives without a history. -/
theorem rev_history (W : Lawful B) {fuel : ℕ} (ops : List (Op I O))
    {w : World D (List (IState D))} (hp : Plain opt w.ctrl) (h0 : w.cached = none)
    (cw : W.Clean w.pert) (hs : Settled B opt (allCk B opt) fuel True w ops) (i dI : I) (dO : O)
    (hit : ∀ j ∈ computed ops, ∀ d, B.cacheHit (B.load d j) i = true →
      W.obs (B.load d j) = W.obs (B.load d i)) :
    (rev B opt (allCk B opt) fuel (doOps B opt (allCk B opt) fuel w ops) i dO dI).2
      = (rev B opt (allCk B opt) fuel w i dO dI).2 := by
  have hc := doOps_plain (B := B) (ch := .all) (fuel := fuel) ops hp
  simp only [Choice.ck] at hc
  obtain ⟨h1, h2⟩ := settled_good W ops [] True hp
    (fun _ => ⟨fun d hd => by simp [h0] at hd, fun d hd => by simp [h0] at hd⟩) hs
  refine rev_spec W hc (by rw [hc]; exact h1) h0 (doOps_clean W (ch := .all) ops cw) cw i dI dO ?_
  intro d hd hh
  obtain ⟨j, hj, d', rfl⟩ := h2 d hd
  rw [hit j (by simpa using hj) d' hh]
  exact W.load_obs _ _ _

theorem settled_append {σ : Type} {ck : Checkpointer D σ} {fuel : ℕ} (ops1 ops2 : List (Op I O))
    (s : Prop) (w : World D σ) : Settled B opt ck fuel s w (ops1 ++ ops2)
      ↔ Settled B opt ck fuel (Settled B opt ck fuel s w ops1) (doOps B opt ck fuel w ops1) ops2 := by
  induction ops1 generalizing s w with
  | nil => rfl
  | cons op ops ih => cases op <;> exact ih _ _

theorem computed_append (ops1 ops2 : List (Op I O)) :
    computed (ops1 ++ ops2) = computed ops1 ++ computed ops2 := by
  induction ops1 with
  | nil => rfl
  | cons op ops ih => cases op <;> simp [computed, ih]

theorem computed_replicate_rev (k : ℕ) (i dI : I) (dO : O) :
    computed (List.replicate k (Op.rev i dO dI)) = [] := by
  induction k with
  | zero => rfl
  | succ k ih => simpa [List.replicate_succ, computed] using ih

/-- If a reverse product works after a settled history, so does every repetition of it, with the
same result. -/
theorem rev_repeat (W : Lawful B) {fuel : ℕ} (ops : List (Op I O))
    {w : World D (List (IState D))} (hp : Plain opt w.ctrl) (h0 : w.cached = none)
    (cw : W.Clean w.pert) (hs : Settled B opt (allCk B opt) fuel True w ops) (i dI g : I) (dO : O)
    (hit : ∀ j ∈ computed ops, ∀ d, B.cacheHit (B.load d j) i = true →
      W.obs (B.load d j) = W.obs (B.load d i))
    (hg : (rev B opt (allCk B opt) fuel (doOps B opt (allCk B opt) fuel w ops) i dO dI).2 = .ok g)
    (k : ℕ) :
    (rev B opt (allCk B opt) fuel
      (doOps B opt (allCk B opt) fuel w (ops ++ List.replicate k (.rev i dO dI))) i dO dI).2 = .ok g ∧
    Settled B opt (allCk B opt) fuel True w (ops ++ List.replicate k (.rev i dO dI)) := by
  have hit' : ∀ k, ∀ j ∈ computed (ops ++ List.replicate k (Op.rev i dO dI)), ∀ d,
      B.cacheHit (B.load d j) i = true → W.obs (B.load d j) = W.obs (B.load d i) := by
    intro k j hj
    rw [computed_append, computed_replicate_rev, List.append_nil] at hj
    exact hit j hj
  have hfirst := rev_history W ops hp h0 cw hs i dI dO hit
  induction k with
  | zero => simpa using ⟨hg, hs⟩
  | succ k ih =>
    have hset : Settled B opt (allCk B opt) fuel True w
        (ops ++ List.replicate (k + 1) (.rev i dO dI)) := by
      rw [List.replicate_succ', ← List.append_assoc, settled_append]
      simp only [Settled, ih.1, returned]
    refine ⟨?_, hset⟩
    rw [rev_history W _ hp h0 cw hset i dI dO (hit' _), ← hfirst, hg]

end Verif.Integrator
