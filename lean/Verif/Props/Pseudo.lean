/-
Adaptive runs with the pseudo controller take fixed steps (C73).
-/
import Verif.Integrator.Steps
import Verif.Props.Convergence

namespace Verif.Props

open Verif.RK Verif.RK.Spec Verif.Control Verif.XReal Verif.Integrator
open Classical

variable {s n m o l : ℕ} {D I O : Type}

/-- The pseudo controller suggests the step size it is given, for any errors and histories. -/
theorem pseudo_estimate (p : ℝ) (cfg : Config) (hS : cfg.safety = fin 1) (i : Input) (h : ℝ)
    (hi : i.dt = fin h) : estimate (pseudo p) cfg i = fin h := by
  simp only [estimate, pseudo, pow_zero, hS, hi, mul_fin, mul_one, one_mul]
  split <;> [split; skip] <;> rfl

/-- The configuration of the pseudo controller: no bounds, safety factor 1, any tolerance. -/
structure Unbounded (cfg : Config) : Prop where
  lower : cfg.lower = 0
  upper : cfg.upper = pinf
  safety : cfg.safety = fin 1

theorem pseudo_sugg (p : ℝ) {cfg : Config} (hu : Unbounded cfg) (i : Input) (h : ℝ)
    (hi : i.dt = fin h) (hh : 0 < h) (hrem : i.rem ≠ nan) :
    (run (pseudo p) cfg i).sugg
      = pyMin (timeLeft i (run (pseudo p) cfg i).acc) (fin h) := by
  rw [run_sugg (pseudo p) cfg i h hi hrem]
  have e : (if i.err ≠ 0 then estimate (pseudo p) cfg i else i.dt) = fin h := by
    split
    · exact pseudo_estimate p cfg hu.safety i h hi
    · exact hi
  rw [e, hu.upper, hu.lower, pyMin_pinf_left _ (by simp), zero_def, pyMax_fin, max_eq_right hh.le]

variable {B : Backend D I O} {opt : Options} {p : ℝ} {cfg : Config}

/-- The base controller returns what it computes or raises; it does not change. -/
theorem base_call {par : Params} {top : Bool} {i : Input} {c' : Ctrl} {st : Status}
    (h : (Ctrl.base par cfg).call top i = (c', .ok st)) :
    c' = .base par cfg ∧ st = run par cfg i := by
  unfold Ctrl.call at h
  dsimp only at h
  split at h
  · simp at h
  · simp only [Prod.mk.injEq, Except.ok.injEq] at h
    exact ⟨h.1.symm, h.2.symm⟩

/-- A successful step with the pseudo controller has the suggested size; the next one has the same
size, if so much time is left. -/
theorem pseudo_iterate (hu : Unbounded cfg) (ha : opt.adaptive = true) {f : ℕ} {c' : Ctrl}
    {x x' : IState D} {h : ℝ} (hh : 0 < h) (hx : x.sugg = fin h)
    (hrem : ∀ d, B.step x.disc (fin h) = .ok d → opt.crit.remaining (B.time d) = pinf ∨
      ∃ L, 0 ≤ L ∧ opt.crit.remaining (B.time d) = fin L)
    (hst : iterateOnStep B opt f (.base (pseudo p) cfg) x = (c', x', .ok ())) :
    c' = .base (pseudo p) cfg ∧ ∃ d, B.step x.disc (fin h) = .ok d ∧ x'.disc = B.set x.disc d ∧
      x'.sugg = pyMin (opt.crit.remaining (B.time d)) (fin h) ∧ x'.stepHist.1 = fin h := by
  induction f generalizing x with
  | zero => simp [iterateOnStep] at hst
  | succ f ih =>
    unfold iterateOnStep at hst
    rw [hx] at hst
    rcases hd : B.step x.disc (fin h) with e | d
    · simp [hd] at hst
    rw [hd] at hst
    dsimp only at hst
    rw [if_pos ha] at hst
    rcases hm : B.measure d with e | err
    · simp [hm] at hst
    rw [hm] at hst
    dsimp only at hst
    have hr := hrem d hd
    set i : Input := ⟨err, fin h, opt.crit.remaining (B.time d), x.errHist, x.stepHist⟩ with hi
    rcases hc : (Ctrl.base (pseudo p) cfg).call true i with ⟨c₁, e | st⟩
    · rw [hc] at hst
      simp at hst
    rw [hc] at hst
    dsimp only at hst
    obtain ⟨rfl, rfl⟩ := base_call hc
    have hs := pseudo_sugg p hu i h rfl hh (by rcases hr with hr | ⟨L, -, hr⟩ <;> simp [hi, hr])
    by_cases hacc : (run (pseudo p) cfg i).acc = true
    · rw [if_pos hacc] at hst
      simp only [Prod.mk.injEq, and_true] at hst
      obtain ⟨rfl, rfl⟩ := hst
      refine ⟨rfl, d, rfl, rfl, ?_, rfl⟩
      rw [hs, hacc]
      simp [timeLeft, hi]
    · rw [if_neg hacc] at hst
      have hsame : (run (pseudo p) cfg i).sugg = fin h := by
        rw [hs]
        rw [Bool.not_eq_true] at hacc
        rw [hacc]
        simp only [timeLeft, Bool.false_eq_true, if_false, hi]
        rcases hr with hr | ⟨L, hL, hr⟩
        · rw [hr, add_pinf_fin, pyMin_pinf_left _ (by simp)]
        · rw [hr, add_fin, pyMin_fin, min_eq_right (by linarith)]
      obtain ⟨k1, d', k2, k3, k4, k5⟩ := ih (x := { x with sugg := (run (pseudo p) cfg i).sugg })
        hsame hrem hst
      rw [show B.step x.disc (fin h) = .ok d from hd] at k2
      cases k2
      exact ⟨k1, d, rfl, k3, k4, k5⟩

/-- A fixed number of steps: all of them have the first step size. -/
theorem pseudo_run_steps (hu : Unbounded cfg) (ha : opt.adaptive = true) {N : ℕ}
    (hc : opt.crit = .steps N) {h0 : ℝ} (hh : 0 < h0) {it : ℕ} {c : Ctrl} {x : IState D}
    {tr : List (Ctrl × IState D)} (h : Run B opt it c x tr) (hctrl : c = .base (pseudo p) cfg)
    (hx : x.sugg = fin h0) : ∀ q ∈ tr, q.2.stepHist.1 = fin h0 := by
  induction h with
  | done _ => simp
  | @step it c x c' x' tr h hs hr ih =>
    subst hctrl
    have hrem : ∀ t, opt.crit.remaining t = pinf := by simp [hc, Crit.remaining]
    obtain ⟨k1, d, k2, k3, k4, k5⟩ := pseudo_iterate hu ha hh hx (fun d _ => .inl (hrem _)) hs
    intro q hq
    rcases List.mem_cons.mp hq with rfl | hq
    · exact k5
    · exact ih k1 (by rw [k4, hrem, pyMin_pinf_left _ (by simp)]) q hq

/-- `k` full steps and the rest. -/
noncomputable def fullSteps (h0 : ℝ) (k : ℕ) (r : ℝ) : List ℝ :=
  List.replicate k h0 ++ if r = 0 then [] else [r]

variable {E : Env s n m o l} {bhat : Fin s → ℝ}

/-- Runs to a final time: full steps as long as there is time for them, then one step to the final
time. -/
theorem pseudo_run_final (hu : Unbounded cfg) (ha : opt.adaptive = true) {T : ℝ}
    (hc : opt.crit = .finalTime T) {h0 r : ℝ} (hr0 : 0 ≤ r) (hr : r < h0) {it : ℕ}
    {c : Ctrl} {x : IState (EmbRKState ℝ s n m o l)}
    {tr : List (Ctrl × IState (EmbRKState ℝ s n m o l))} (h : Run (embBackend E bhat) opt it c x tr)
    (hctrl : c = .base (pseudo p) cfg) (k : ℕ) (hT : T = x.disc.finalTime + k * h0 + r)
    (hx : x.sugg = fin (if k = 0 then r else h0)) :
    tr.map (fun q => q.2.stepHist.1) = (fullSteps h0 k r).map fin := by
  have hfin : ∀ (it : ℕ) (d : EmbRKState ℝ s n m o l),
      opt.crit.finished it ((embBackend E bhat).time d) ↔ T ≤ d.finalTime := by
    intro it d
    rw [hc]
    change le (sub (fin T) (fin d.finalTime)) 0 ↔ _
    rw [sub_fin, zero_def, le_fin, sub_nonpos]
  have hrem : ∀ d : EmbRKState ℝ s n m o l,
      opt.crit.remaining ((embBackend E bhat).time d) = fin (T - d.finalTime) := by
    intro d
    rw [hc]
    exact sub_fin _ _
  have hh0 : 0 < h0 := hr0.trans_lt hr
  induction h generalizing k with
  | @done it c x h =>
    rw [hfin] at h
    have h1 : 0 ≤ (k : ℝ) * h0 := by positivity
    have h2 : (k : ℝ) * h0 = 0 := by linarith
    have h3 : r = 0 := by linarith
    have h4 : k = 0 := by simpa [hh0.ne'] using h2
    simp [fullSteps, h3, h4]
  | @step it c x c' x' tr h hs hrun ih =>
    rw [hfin, not_le] at h
    subst hctrl
    cases k with
    | zero =>
      rw [if_pos rfl] at hx
      simp only [Nat.cast_zero, zero_mul, add_zero] at hT
      have hrp : 0 < r := by linarith
      obtain ⟨k1, d, k2, k3, k4, k5⟩ := pseudo_iterate hu ha hrp hx (fun d hd => .inr ⟨_, by
        rw [emb_step_time E bhat hd]; linarith, hrem d⟩) hs
      have ht : x'.disc.finalTime = T := by
        rw [k3, hT, ← emb_step_time E bhat k2]
        rfl
      have : tr = [] := by
        cases hrun with
        | done _ => rfl
        | step h' _ _ => exact absurd ((hfin _ _).mpr ht.ge) h'
      simp [fullSteps, this, k5, hrp.ne']
    | succ k =>
      rw [if_neg (Nat.succ_ne_zero k)] at hx
      push_cast at hT
      have hk : 0 ≤ (k : ℝ) * h0 := by positivity
      obtain ⟨k1, d, k2, k3, k4, k5⟩ := pseudo_iterate hu ha hh0 hx (fun d hd => .inr ⟨_, by
        rw [emb_step_time E bhat hd]; linarith, hrem d⟩) hs
      have ht : x'.disc.finalTime = x.disc.finalTime + h0 := by
        rw [k3, ← emb_step_time E bhat k2]
        rfl
      have hd : d.finalTime = x.disc.finalTime + h0 := emb_step_time E bhat k2
      have := ih k1 k (by rw [ht]; linarith) (by
        rw [k4, hrem, pyMin_fin, hd]
        congr 1
        split
        · next hk0 =>
          subst hk0
          simp only [Nat.cast_zero] at hT
          rw [min_eq_left (by linarith)]
          linarith
        · next hk0 =>
          have : (1 : ℝ) ≤ k := by exact_mod_cast Nat.one_le_iff_ne_zero.mpr hk0
          exact min_eq_right (by nlinarith))
      rw [List.map_cons, this, k5]
      simp [fullSteps, List.replicate_succ]

/-- The run the pseudo controller leads to. -/
structure PseudoRun (E : Env s n m o l) (bhat : Fin s → ℝ) (h0 : ℝ) (crit : Crit)
    (i : StartingValues ℝ n m) (v : Outputs n) : Prop where
  run : ∃ (opt : Options) (p : ℝ) (cfg : Config) (ch : Choice) (fuel : ℕ)
    (w w' : World (EmbRKState ℝ s n m o l) (ch.Data (EmbRKState ℝ s n m o l))),
    opt.adaptive = true ∧ opt.crit = crit ∧ opt.initialStep = fin h0 ∧ Unbounded cfg ∧
    w.ctrl = .base (pseudo p) cfg ∧
    compute (embBackend E bhat) opt (ch.ck (embBackend E bhat) opt) fuel w i = (w', .ok v)

/-- C73: an adaptive run with the pseudo controller over a number of steps takes steps of the given
size, whatever the errors are. -/
theorem C73_steps {h0 : ℝ} (hh : 0 < h0) {N : ℕ} {i : StartingValues ℝ n m} {v : Outputs n}
    (h : PseudoRun E bhat h0 (.steps N) i v) :
    IsSteps (StepOf E i.independentInputs) i.initialTime i.initialValues (List.replicate N h0)
      v.time v.values := by
  obtain ⟨opt, p, cfg, ch, fuel, w, w', ha, hc, hi, hu, hw, h⟩ := h.run
  obtain ⟨hs, h1, h2, -, h4, tr, h5, h6⟩ := choice_chain (embCore E bhat) h
  refine chain_result (embCore E bhat) h1 h2 _ (eq_replicate_map (h4 N hc) (h0 := fin h0) ?_ rfl)
  intro b hb
  rw [h6] at hb
  obtain ⟨q, hq, rfl⟩ := List.mem_map.mp hb
  exact pseudo_run_steps hu ha hc hh h5 hw hi q hq

/-- C73: an adaptive run with the pseudo controller to a final time takes full steps as long as
there is time for them, and then one step for the rest, if there is any. -/
theorem C73_final_time {h0 T : ℝ} {i : StartingValues ℝ n m} {v : Outputs n}
    (hT : i.initialTime + h0 ≤ T) {k : ℕ} {r : ℝ} (hr0 : 0 ≤ r) (hr : r < h0)
    (hk : T = i.initialTime + k * h0 + r) (h : PseudoRun E bhat h0 (.finalTime T) i v) :
    v.time = T ∧ IsSteps (StepOf E i.independentInputs) i.initialTime i.initialValues
      (List.replicate k h0 ++ if r = 0 then [] else [r]) v.time v.values := by
  obtain ⟨opt, p, cfg, ch, fuel, w, w', ha, hc, hi, hu, hw, h⟩ := h.run
  obtain ⟨hs, h1, h2, -, -, tr, h5, h6⟩ := choice_chain (embCore E bhat) h
  have hk0 : k ≠ 0 := by
    rintro rfl
    simp only [Nat.cast_zero, zero_mul, add_zero] at hk
    linarith
  have e := pseudo_run_final hu ha hc hr0 hr h5 hw k hk (by rw [if_neg hk0]; exact hi)
  have hst := chain_result (embCore E bhat) h1 h2 _ (h6.trans e)
  refine ⟨?_, hst⟩
  rw [hst.time, hk]
  unfold fullSteps
  split
  · next h => simp [h]
  · simp [add_assoc]

/-- C73: if the time is a multiple of the step size, the run returns what a run with fixed steps
returns. -/
theorem C73_same_as_fixed {h0 T : ℝ} (hh : 0 < h0) {i : StartingValues ℝ n m} {v v' : Outputs n}
    {k : ℕ} (hk : 0 < k) (hT : T = i.initialTime + k * h0)
    (h : PseudoRun E bhat h0 (.finalTime T) i v) {opt : Options} {ch : Choice} {fuel : ℕ}
    {w w' : World (EmbRKState ℝ s n m o l) (ch.Data (EmbRKState ℝ s n m o l))}
    (ha : opt.adaptive = false) (hi : opt.initialStep = fin h0)
    (hc : opt.crit = .finalTime T ∨ opt.crit = .steps k)
    (h' : compute (embBackend E bhat) opt (ch.ck (embBackend E bhat) opt) fuel w i = (w', .ok v')) :
    v = v' := by
  have hk1 : (1 : ℝ) ≤ k := by exact_mod_cast hk
  obtain ⟨-, g⟩ := C73_final_time (by nlinarith) le_rfl hh (hT.trans (add_zero _).symm) h
  rw [if_pos rfl, List.append_nil] at g
  have g' : IsSteps (StepOf E i.independentInputs) i.initialTime i.initialValues
      (List.replicate k h0) v'.time v'.values := by
    rcases hc with hc | hc
    · have := final_steps (embCore E bhat) (fun _ => rfl) hh ha hc hi h'
      rwa [hT, add_sub_cancel_left, mul_div_cancel_right₀ _ hh.ne', Nat.ceil_natCast] at this
    · exact fixed_steps (embCore E bhat) ha hc hi h'
  obtain ⟨e1, e2⟩ := IsSteps.unique (S := StepOf E i.independentInputs)
    (fun _ _ _ _ _ a b => StepOf.unique a b) g g'
  cases v
  cases v'
  simp only at e1 e2
  rw [e1, e2]

/-- A step whose error is within the tolerance is accepted at once. -/
theorem pseudo_iterate_ok (ha : opt.adaptive = true) (f : ℕ) {x : IState D} {d : D} {err : XReal}
    (hst : B.step x.disc x.sugg = .ok d) (hm : B.measure d = .ok err) (hle : le err cfg.tol) :
    ∃ x', iterateOnStep B opt (f + 1) (.base (pseudo p) cfg) x
      = (.base (pseudo p) cfg, x', .ok ()) := by
  set i : Input := ⟨err, x.sugg, opt.crit.remaining (B.time d), x.errHist, x.stepHist⟩ with hi
  have hacc : (run (pseudo p) cfg i).acc = true := (run_acc _ _ _).mpr (.inr (.inr hle))
  have hcall : (Ctrl.base (pseudo p) cfg).call true i
      = (.base (pseudo p) cfg, .ok (run (pseudo p) cfg i)) := by
    unfold Ctrl.call
    dsimp only
    rw [if_neg (fun h => h.1 hacc)]
  unfold iterateOnStep
  rw [hst]
  dsimp only
  rw [if_pos ha, hm]
  dsimp only
  rw [hcall]
  dsimp only
  rw [if_pos hacc]
  exact ⟨_, rfl⟩

theorem pseudo_run_exists (hu : Unbounded cfg) (ha : opt.adaptive = true) {T : ℝ}
    (hc : opt.crit = .finalTime T) (hf : ∀ obs h, E.fails obs h = none)
    (hm : ∀ e v, le (E.measure e v) cfg.tol) (hlim : 0 < opt.recursionLimit) (k : ℕ) :
    ∀ {h0 r : ℝ}, 0 ≤ r → r < h0 → ∀ (it : ℕ) (x : IState (EmbRKState ℝ s n m o l)),
    T = x.disc.finalTime + k * h0 + r → x.sugg = fin (if k = 0 then r else h0) →
    ∃ tr, Run (embBackend E bhat) opt it (.base (pseudo p) cfg) x tr ∧ tr.length ≤ k + 1 := by
  have hfin : ∀ (it : ℕ) (d : EmbRKState ℝ s n m o l),
      opt.crit.finished it ((embBackend E bhat).time d) ↔ T ≤ d.finalTime := by
    intro it d
    rw [hc]
    change le (sub (fin T) (fin d.finalTime)) 0 ↔ _
    rw [sub_fin, zero_def, le_fin, sub_nonpos]
  have hrem : ∀ d : EmbRKState ℝ s n m o l,
      opt.crit.remaining ((embBackend E bhat).time d) = fin (T - d.finalTime) := by
    intro d
    rw [hc]
    exact sub_fin _ _
  obtain ⟨f, hlim⟩ := Nat.exists_eq_succ_of_ne_zero hlim.ne'
  have hok : ∀ (x : IState (EmbRKState ℝ s n m o l)) (h : ℝ), x.sugg = fin h →
      ∃ x', iterateOnStep (embBackend E bhat) opt opt.recursionLimit (.base (pseudo p) cfg) x
        = (.base (pseudo p) cfg, x', .ok ()) := by
    intro x h hx
    rw [hlim]
    exact pseudo_iterate_ok ha f (d := computeStepEmb E.T bhat E.ode x.disc h)
      (by rw [hx]; simp only [embBackend, hf]) rfl (hm _ _)
  induction k with
  | zero =>
    intro h0 r hr0 hr it x hT hx
    rw [if_pos rfl] at hx
    simp only [Nat.cast_zero, zero_mul, add_zero] at hT
    by_cases hlt : T ≤ x.disc.finalTime
    · exact ⟨[], .done ((hfin _ _).mpr hlt), by simp⟩
    obtain ⟨x', hx'⟩ := hok x r hx
    obtain ⟨-, d, k2, k3, -⟩ := pseudo_iterate hu ha (by linarith) hx (fun d hd => .inr ⟨_, by
      rw [emb_step_time E bhat hd]; linarith, hrem d⟩) hx'
    refine ⟨[(_, x')], .step (fun h => hlt ((hfin _ _).mp h)) hx' (.done ((hfin _ _).mpr ?_)),
      by simp⟩
    rw [k3, hT, ← emb_step_time E bhat k2]
    exact le_rfl
  | succ k ih =>
    intro h0 r hr0 hr it x hT hx
    rw [if_neg (Nat.succ_ne_zero k)] at hx
    have hh0 : 0 < h0 := hr0.trans_lt hr
    push_cast at hT
    have hk : 0 ≤ (k : ℝ) * h0 := by positivity
    obtain ⟨x', hx'⟩ := hok x h0 hx
    obtain ⟨-, d, k2, k3, k4, -⟩ := pseudo_iterate hu ha hh0 hx (fun d hd => .inr ⟨_, by
      rw [emb_step_time E bhat hd]; linarith, hrem d⟩) hx'
    have hd : d.finalTime = x.disc.finalTime + h0 := emb_step_time E bhat k2
    have ht : x'.disc.finalTime = x.disc.finalTime + h0 := by
      rw [k3, ← hd]
      rfl
    obtain ⟨tr, r1, r2⟩ := ih hr0 hr (it + 1) x' (by rw [ht]; linarith) (by
        rw [k4, hrem, pyMin_fin, hd]
        congr 1
        split
        · next hk0 =>
          subst hk0
          simp only [Nat.cast_zero] at hT
          rw [min_eq_left (by linarith)]
          linarith
        · next hk0 =>
          have : (1 : ℝ) ≤ k := by exact_mod_cast Nat.one_le_iff_ne_zero.mpr hk0
          exact min_eq_right (by nlinarith))
    exact ⟨_, .step (fun h => by have := (hfin _ _).mp h; linarith) hx' r1, by simpa using r2⟩

/-- C73: if no step fails and all errors are within the tolerance (which is infinite by default),
the run finishes after as many steps. -/
theorem C73_finishes (hu : Unbounded cfg) (ha : opt.adaptive = true) {T h0 : ℝ}
    (hc : opt.crit = .finalTime T) (hi : opt.initialStep = fin h0)
    (hf : ∀ obs h, E.fails obs h = none) (hm : ∀ e v, le (E.measure e v) cfg.tol)
    (hlim : 0 < opt.recursionLimit) {i : StartingValues ℝ n m} (hT : i.initialTime + h0 ≤ T)
    {k : ℕ} {r : ℝ} (hr0 : 0 ≤ r) (hr : r < h0) (hk : T = i.initialTime + k * h0 + r)
    (ch : Choice) (w : World (EmbRKState ℝ s n m o l) (ch.Data (EmbRKState ℝ s n m o l)))
    (hw : w.ctrl = .base (pseudo p) cfg) {fuel : ℕ} (hfuel : k + 1 < fuel) :
    ∃ w' v, compute (embBackend E bhat) opt (ch.ck (embBackend E bhat) opt) fuel w i
      = (w', .ok v) := by
  have hk0 : k ≠ 0 := by
    rintro rfl
    simp only [Nat.cast_zero, zero_mul, add_zero] at hk
    linarith
  obtain ⟨tr, r1, r2⟩ := pseudo_run_exists (p := p) (bhat := bhat) hu ha hc hf hm hlim k hr0 hr 0
    (startOf (embBackend E bhat) opt w.ctrl w.tis.disc i) hk (by rw [if_neg hk0]; exact hi)
  rw [← hw] at r1
  exact ⟨_, _, compute_of_run r1 (r2.trans_lt hfuel)⟩

theorem pseudoConfig_unbounded : Unbounded pseudoConfig := ⟨rfl, rfl, rfl⟩

/-- C73 with the configuration the pseudo controller has by default: whatever the measured errors
are, as long as they are not NaN, the run to a final time finishes, ends there, and takes full steps
as long as there is time for them, and then one step for the rest. -/
theorem C73_default (ha : opt.adaptive = true) {T h0 : ℝ} (hc : opt.crit = .finalTime T)
    (hi : opt.initialStep = fin h0) (hf : ∀ obs h, E.fails obs h = none)
    (hm : ∀ e v, E.measure e v ≠ nan) (hlim : 0 < opt.recursionLimit)
    {i : StartingValues ℝ n m} (hT : i.initialTime + h0 ≤ T) {k : ℕ} {r : ℝ} (hr0 : 0 ≤ r)
    (hr : r < h0) (hk : T = i.initialTime + k * h0 + r) (ch : Choice)
    (w : World (EmbRKState ℝ s n m o l) (ch.Data (EmbRKState ℝ s n m o l)))
    (hw : w.ctrl = .base (pseudo p) pseudoConfig) {fuel : ℕ} (hfuel : k + 1 < fuel) :
    ∃ w' v, compute (embBackend E bhat) opt (ch.ck (embBackend E bhat) opt) fuel w i
      = (w', .ok v) ∧ v.time = T ∧
      IsSteps (StepOf E i.independentInputs) i.initialTime i.initialValues
        (List.replicate k h0 ++ if r = 0 then [] else [r]) v.time v.values := by
  obtain ⟨w', v, h⟩ := C73_finishes (bhat := bhat) pseudoConfig_unbounded ha hc hi hf
    (fun e v => by
      have := hm e v
      cases h : E.measure e v <;> simp_all [pseudoConfig, le]) hlim hT hr0 hr hk ch w hw hfuel
  exact ⟨w', v, h, C73_final_time hT hr0 hr hk
    ⟨opt, p, pseudoConfig, ch, fuel, w, w', ha, hc, hi, pseudoConfig_unbounded, hw, h⟩⟩

/-- Explicit Euler for `y' = -y + p + t` from time 2 to 15/4 with steps of size 1/2: three of them,
then one of size 1/4. -/
example (ch : Choice) (w : World (EmbRKState ℝ 1 1 1 0 0) (ch.Data (EmbRKState ℝ 1 1 1 0 0)))
    (hw : w.ctrl = .base (pseudo 1) pseudoConfig) :
    ∃ w' v, compute (embBackend Ex.env fun _ => 1 / 2)
        ⟨true, .finalTime (15 / 4), fin (1 / 2), 0, 0, 0, 900⟩
        (ch.ck (embBackend Ex.env fun _ => 1 / 2)
          ⟨true, .finalTime (15 / 4), fin (1 / 2), 0, 0, 0, 900⟩) 5 w Ex.inp = (w', .ok v) ∧
      v.time = 15 / 4 ∧
      IsSteps (StepOf Ex.env fun _ => 5) 2 (fun _ => 1) [1 / 2, 1 / 2, 1 / 2, 1 / 4] v.time
        v.values := by
  obtain ⟨w', v, h⟩ := C73_finishes (E := Ex.env) (bhat := fun _ => 1 / 2) (T := 15 / 4)
    (h0 := 1 / 2) (opt := ⟨true, .finalTime (15 / 4), fin (1 / 2), 0, 0, 0, 900⟩)
    pseudoConfig_unbounded rfl rfl rfl (fun _ _ => rfl) (fun _ _ => (le_fin_pinf _).mpr trivial)
    (by norm_num) (i := Ex.inp) (by norm_num [Ex.inp]) (k := 3) (r := 1 / 4) (by norm_num)
    (by norm_num) (by norm_num [Ex.inp]) ch w hw (fuel := 5) (by norm_num)
  obtain ⟨h1, h2⟩ := C73_final_time (E := Ex.env) (by norm_num [Ex.inp]) (k := 3) (r := 1 / 4)
    (by norm_num) (by norm_num) (by norm_num [Ex.inp])
    ⟨_, 1, pseudoConfig, ch, 5, w, w', rfl, rfl, rfl, pseudoConfig_unbounded, hw, h⟩
  refine ⟨w', v, h, h1, ?_⟩
  rw [if_neg (by norm_num)] at h2
  exact h2

end Verif.Props
