/-
Properties about final times and the retry loop (C17, C18, C19, C22, C30).
-/
import Verif.Integrator.Examples
import Verif.Props.Control
import Verif.Props.Integrator
import Mathlib.Algebra.Order.Floor.Semiring
import Mathlib.Tactic.Positivity

namespace Verif.Props

open Verif.RK Verif.Control Verif.XReal Verif.Integrator
open Classical

variable {D I O : Type} {B : Backend D I O} {opt : Options} {s n m o l : ℕ}

/-! ### C17 -/

theorem ceil_step {T t dt : ℝ} (hdt : 0 < dt) (ht : t < T) :
    ⌈(T - (t + dt)) / dt⌉₊ + 1 = ⌈(T - t) / dt⌉₊ := by
  have h1 : (T - (t + dt)) / dt = (T - t) / dt - 1 := by field_simp; ring
  have h2 : 0 < ⌈(T - t) / dt⌉₊ := Nat.ceil_pos.mpr (div_pos (by linarith) hdt)
  rw [h1, Nat.ceil_sub_one]
  omega

theorem run_fixed_final (E : Env s n m o l) {T dt : ℝ} (hdt : 0 < dt) (ha : opt.adaptive = false)
    (hc : opt.crit = .finalTime T) {it : ℕ} {c : Ctrl} {x : IState (RKState ℝ s n m o l)}
    {tr : List (Ctrl × IState (RKState ℝ s n m o l))} (h : Run (rkBackend E) opt it c x tr)
    (hs : x.sugg = fin dt) : tr.length = ⌈(T - x.disc.finalTime) / dt⌉₊ := by
  induction h with
  | @done it c x h =>
    simp only [hc, Crit.finished, rkBackend, sub_fin, zero_def, le_fin] at h
    symm
    rw [List.length_nil, Nat.ceil_eq_zero]
    exact div_nonpos_of_nonpos_of_nonneg h hdt.le
  | @step it c x c' x' tr h hst hr ih =>
    simp only [hc, Crit.finished, rkBackend, sub_fin, zero_def, le_fin, not_le] at h
    obtain ⟨h', d, g1, g2, g3, g4, -⟩ := iterate_accepted hst
    obtain ⟨k1, k2, -⟩ := g4 ha
    rw [List.length_cons, ih (by rw [k2, hs])]
    have hp : Path (rkBackend E) x.disc [(h', d)] x'.disc := .cons g1 (by rw [g2]; exact .nil _)
    have := path_time E hp [dt] (by simp [k1, hs])
    rw [this, List.sum_singleton]
    exact ceil_step hdt (by linarith)

/-- C17: with a final time `T` and a fixed step size `dt > 0` the result is that of a chain of
exactly `⌈(T - t0) / dt⌉` steps of size `dt`; it is at time `t0 + N dt`, which is not before `T`
and, if there was a step, before `T + dt`; if `t0 ≥ T` the inputs are handed on. -/
theorem C17_fixed_steps_final_time (E : Env s n m o l) {T dt : ℝ} (hdt : 0 < dt)
    (ha : opt.adaptive = false) (hc : opt.crit = .finalTime T) (hi : opt.initialStep = fin dt)
    {fuel : ℕ} {ch : Choice}
    {w w' : World (RKState ℝ s n m o l) (ch.Data (RKState ℝ s n m o l))}
    {i : StartingValues ℝ n m} {v : Outputs n}
    (h : compute (rkBackend E) opt (ch.ck (rkBackend E) opt) fuel w i = (w', .ok v)) :
    (∃ p, Path (rkBackend E) ((rkBackend E).clearLin ((rkBackend E).load w.tis.disc i)) p
        w'.tis.disc ∧ p.length = ⌈(T - i.initialTime) / dt⌉₊ ∧ ∀ q ∈ p, q.1 = fin dt) ∧
    v.time = i.initialTime + ⌈(T - i.initialTime) / dt⌉₊ * dt ∧
    T ≤ v.time ∧ (i.initialTime < T → v.time < T + dt) ∧
    (T ≤ i.initialTime → v.time = i.initialTime ∧ v.values = i.initialValues) := by
  obtain ⟨tr, htr, -, -, ht, -, hv, -⟩ := compute_run h
  obtain ⟨p, hp, h2, h3, h4, -⟩ := htr.path
  have hlen := run_fixed_final E hdt ha hc htr hi
  have hlen' : p.length = ⌈(T - i.initialTime) / dt⌉₊ := by rw [h2, hlen]; rfl
  have hsz : ∀ q ∈ p, q.1 = fin dt := fun q hq => by rw [h4 ha q hq]; exact hi
  rw [← ht] at hp
  have htime : v.time = i.initialTime + ⌈(T - i.initialTime) / dt⌉₊ * dt := by
    rw [hv, ← hlen']
    have := path_time E hp (List.replicate p.length dt) ?_
    · rw [List.sum_replicate, nsmul_eq_mul] at this
      exact this
    · rw [List.map_replicate, List.eq_replicate_iff]
      refine ⟨by rw [List.length_map], fun b hb => ?_⟩
      obtain ⟨q, hq, rfl⟩ := List.mem_map.mp hb
      exact hsz q hq
  have hge := Nat.le_ceil ((T - i.initialTime) / dt)
  rw [div_le_iff₀ hdt] at hge
  refine ⟨⟨p, hp, hlen', hsz⟩, htime, by rw [htime]; linarith, ?_, ?_⟩
  · intro hlt
    have := Nat.ceil_lt_add_one (div_nonneg (by linarith : 0 ≤ T - i.initialTime) hdt.le)
    rw [htime]
    have h5 : (⌈(T - i.initialTime) / dt⌉₊ : ℝ) * dt < ((T - i.initialTime) / dt + 1) * dt :=
      mul_lt_mul_of_pos_right this hdt
    rw [add_mul, div_mul_cancel₀ _ hdt.ne'] at h5
    linarith
  · intro hle
    have h0 : ⌈(T - i.initialTime) / dt⌉₊ = 0 := by
      rw [Nat.ceil_eq_zero]
      exact div_nonpos_of_nonpos_of_nonneg (by linarith) hdt.le
    refine ⟨by rw [htime, h0]; simp, ?_⟩
    rw [h0] at hlen'
    rw [List.length_eq_zero_iff] at hlen'
    subst hlen'
    rw [hv]
    generalize w'.tis.disc = d' at hp
    generalize hd : (rkBackend E).clearLin ((rkBackend E).load w.tis.disc i) = d at hp
    change ((rkBackend E).read d').values = ((rkBackend E).read ((rkBackend E).clearLin
      ((rkBackend E).load w.tis.disc i))).values
    rw [hd]
    cases hp with
    | nil => rw [← hd]; rfl

theorem exists_run_fixed_final (E : Env s n m o l) (hE : ∀ v h, E.fails v h = none) {T dt : ℝ}
    (hdt : 0 < dt) (ha : opt.adaptive = false) (hc : opt.crit = .finalTime T)
    (hl : opt.recursionLimit ≠ 0) (it : ℕ) (c : Ctrl) (x : IState (RKState ℝ s n m o l))
    (hs : x.sugg = fin dt) : ∃ tr, Run (rkBackend E) opt it c x tr := by
  obtain ⟨f, hf⟩ := Nat.exists_eq_succ_of_ne_zero hl
  induction hk : ⌈(T - x.disc.finalTime) / dt⌉₊ generalizing it x with
  | zero =>
    refine ⟨[], .done ?_⟩
    rw [Nat.ceil_eq_zero] at hk
    simp only [hc, Crit.finished, rkBackend, sub_fin, zero_def, le_fin]
    by_contra hpos
    exact absurd (div_pos (not_le.mp hpos) hdt) (not_lt.mpr hk)
  | succ k ih =>
    have hpos : x.disc.finalTime < T := by
      have : 0 < ⌈(T - x.disc.finalTime) / dt⌉₊ := by omega
      have := Nat.ceil_pos.mp this
      rw [div_pos_iff_of_pos_right hdt] at this
      linarith
    have htime : (computeStep E.T E.ode x.disc dt).finalTime = x.disc.finalTime + dt :=
      (C10_step_times E.T E.ode x.disc dt).1
    obtain ⟨tr, htr⟩ := ih (it + 1) { x with
      disc := (rkBackend E).set x.disc (computeStep E.T E.ode x.disc dt)
      stepHist := (x.sugg, x.stepHist.2) } hs (by
        have h2 := ceil_step hdt hpos
        change ⌈(T - (computeStep E.T E.ode x.disc dt).finalTime) / dt⌉₊ = k
        rw [htime]
        omega)
    refine ⟨_, .step ?_ ?_ htr⟩
    · simp only [hc, Crit.finished, rkBackend, sub_fin, zero_def, le_fin, not_le]
      linarith
    · rw [hf, iterate_fixed ha, hs]
      simp only [rkBackend, hE]

/-- C17: the run ends: with a stage problem that does not fail, `compute` returns a result. -/
theorem C17_fixed_steps_terminate (E : Env s n m o l) (hE : ∀ v h, E.fails v h = none) {T dt : ℝ}
    (hdt : 0 < dt) (ha : opt.adaptive = false) (hc : opt.crit = .finalTime T)
    (hi : opt.initialStep = fin dt) (hl : opt.recursionLimit ≠ 0) (ch : Choice)
    (w : World (RKState ℝ s n m o l) (ch.Data (RKState ℝ s n m o l))) (i : StartingValues ℝ n m)
    (fuel : ℕ) (hf : ⌈(T - i.initialTime) / dt⌉₊ < fuel) :
    ∃ w' v, compute (rkBackend E) opt (ch.ck (rkBackend E) opt) fuel w i = (w', .ok v) := by
  obtain ⟨tr, htr⟩ := exists_run_fixed_final E hE hdt ha hc hl 0 w.ctrl
    (startOf (rkBackend E) opt w.ctrl w.tis.disc i) hi
  have hlen := run_fixed_final E hdt ha hc htr hi
  refine ⟨_, _, compute_of_run htr ?_⟩
  rw [hlen]
  exact hf

/-- From 2 to the final time 3 with steps of 3/10: four steps, to 16/5. -/
example (ch : Choice) : ∃ w' v, compute (rkBackend Integrator.Ex.env)
      { adaptive := false, crit := .finalTime 3, initialStep := fin (3 / 10) }
      (ch.ck (rkBackend Integrator.Ex.env)
        { adaptive := false, crit := .finalTime 3, initialStep := fin (3 / 10) }) 5
      (Integrator.Ex.fresh { adaptive := false, crit := .finalTime 3, initialStep := fin (3 / 10) }
        ch) Integrator.Ex.inp = (w', .ok v) ∧ v.time = 16 / 5 := by
  have hceil : ⌈((3 : ℝ) - 2) / (3 / 10)⌉₊ = 4 := by
    rw [Nat.ceil_eq_iff (by norm_num)]
    norm_num
  obtain ⟨w', v, h⟩ := C17_fixed_steps_terminate
    (opt := { adaptive := false, crit := .finalTime 3, initialStep := fin (3 / 10) })
    Integrator.Ex.env (fun _ _ => rfl) (T := 3) (dt := 3 / 10) (by norm_num) rfl rfl rfl (by simp)
    ch (Integrator.Ex.fresh _ ch) Integrator.Ex.inp 5 (by
      simp only [Integrator.Ex.inp, hceil]; norm_num)
  refine ⟨w', v, h, ?_⟩
  rw [(C17_fixed_steps_final_time Integrator.Ex.env (by norm_num) rfl rfl rfl h).2.1]
  simp only [Integrator.Ex.inp, hceil]
  norm_num

/-! ### C18 -/

/-- The time a callback sees. -/
def evTime : Ev (EmbRKState ℝ s n m o l) → ℝ
  | .before _ _ _ x => x.disc.finalTime
  | .after _ _ _ x => x.disc.finalTime

/-- Neither the state nor the next attempt is past `T`. -/
def Within (T : ℝ) (x : IState (EmbRKState ℝ s n m o l)) : Prop :=
  x.disc.finalTime ≤ T ∧ ∃ h, x.sugg = fin h ∧ x.disc.finalTime + h ≤ T

theorem emb_step_time (E : Env s n m o l) (bhat : Fin s → ℝ) {d e : EmbRKState ℝ s n m o l}
    {h : ℝ} (hs : (embBackend E bhat).step d (fin h) = .ok e) :
    e.finalTime = d.finalTime + h := by
  have hp : Path (embBackend E bhat) d [(fin h, e)] ((embBackend E bhat).set d e) :=
    .cons hs (.nil _)
  have := path_time_emb E bhat hp [h] (by simp)
  rw [List.sum_singleton] at this
  exact this

theorem sugg_bounds {c : Ctrl} {i : Input} {st : Status} {h L lo : ℝ} (hdt : i.dt = fin h)
    (hr : i.rem = fin L) (hlo : c.config.lower = fin lo) (hc : (c.call true i).2 = .ok st) :
    ∃ h', st.sugg = fin h' ∧ h' ≤ (if st.acc then L else L + h) := by
  have h1 := C20_at_most_time_left c true i st h hdt (by rw [hr]; simp) hc
  have h2 := C20_at_least_lower_bound c true i st h hdt (by rw [hr]; simp) (by rw [hlo]; simp) hc
  rw [hr, hdt] at h1 h2
  rw [hlo] at h2
  have hif : (if st.acc = true then fin L else add (fin L) (fin h))
      = fin (if st.acc = true then L else L + h) := by split <;> rfl
  rw [hif] at h1 h2
  rcases h2 with h2 | ⟨h2, -⟩
  · cases hsu : st.sugg with
    | fin h' => rw [hsu] at h1; exact ⟨h', rfl, h1⟩
    | nan => rw [hsu] at h1; exact absurd h1 (not_nan_le _)
    | pinf => rw [hsu] at h1; exact absurd h1 id
    | ninf => rw [hsu] at h2; exact absurd h2 id
  · exact ⟨_, h2, _root_.le_refl _⟩

theorem iterate_within (E : Env s n m o l) (bhat : Fin s → ℝ) {T lo : ℝ}
    (ha : opt.adaptive = true) (hc : opt.crit = .finalTime T) (f : ℕ) (c : Ctrl)
    (hlo : c.config.lower = fin lo) (x : IState (EmbRKState ℝ s n m o l)) (hx : Within T x) :
    Within T (iterateOnStep (embBackend E bhat) opt f c x).2.1 ∧
    (iterateOnStep (embBackend E bhat) opt f c x).1.config.lower = fin lo := by
  induction f generalizing c x with
  | zero => exact ⟨hx, hlo⟩
  | succ f ih =>
    obtain ⟨hT, h, hh, hle⟩ := hx
    simp only [iterateOnStep]
    rcases hs : (embBackend E bhat).step x.disc x.sugg with e | d
    · exact ⟨⟨hT, h, hh, hle⟩, hlo⟩
    · dsimp only
      rw [if_pos ha]
      rcases hm : (embBackend E bhat).measure d with e | err
      · exact ⟨⟨hT, h, hh, hle⟩, hlo⟩
      · dsimp only
        have hcfg := call_config true c ⟨err, x.sugg,
          opt.crit.remaining ((embBackend E bhat).time d), x.errHist, x.stepHist⟩
        rw [hh] at hs
        have htime := emb_step_time E bhat hs
        have hrem : opt.crit.remaining ((embBackend E bhat).time d)
            = fin (T - (x.disc.finalTime + h)) := by
          rw [hc]
          simp only [Crit.remaining, embBackend, sub_fin, htime]
        rcases hcall : c.call true ⟨err, x.sugg,
          opt.crit.remaining ((embBackend E bhat).time d), x.errHist, x.stepHist⟩
          with ⟨c', e | st⟩
        · rw [hcall] at hcfg
          exact ⟨⟨hT, h, hh, hle⟩, by rw [← hlo, ← hcfg]⟩
        · rw [hcall] at hcfg
          dsimp only at hcfg ⊢
          have hlo' : c'.config.lower = fin lo := by rw [hcfg, hlo]
          obtain ⟨h', e1, e2⟩ := sugg_bounds (c := c) (i := ⟨err, x.sugg,
            opt.crit.remaining ((embBackend E bhat).time d), x.errHist, x.stepHist⟩)
            (st := st) hh hrem hlo (by rw [hcall])
          by_cases hacc : st.acc = true
          · rw [if_pos hacc] at e2 ⊢
            refine ⟨⟨?_, h', e1, ?_⟩, hlo'⟩
            · change d.finalTime ≤ T
              rw [htime]
              exact hle
            · change d.finalTime + h' ≤ T
              rw [htime]
              linarith
          · rw [if_neg hacc] at e2 ⊢
            exact ih c' hlo' _ ⟨hT, h', e1, by dsimp only; linarith⟩

theorem forward_within (E : Env s n m o l) (bhat : Fin s → ℝ) {T lo : ℝ}
    (ha : opt.adaptive = true) (hc : opt.crit = .finalTime T) (fuel it : ℕ) (c : Ctrl)
    (hlo : c.config.lower = fin lo) (x : IState (EmbRKState ℝ s n m o l)) (hx : Within T x) :
    Within T (noForward (embBackend E bhat) opt fuel it c x).st ∧
    (∀ ev ∈ (noForward (embBackend E bhat) opt fuel it c x).log, evTime ev ≤ T) ∧
    ((noForward (embBackend E bhat) opt fuel it c x).out = .ok () →
      T ≤ (noForward (embBackend E bhat) opt fuel it c x).st.disc.finalTime) := by
  induction fuel generalizing it c x with
  | zero =>
    exact ⟨hx, fun ev h => by simp [noForward] at h, fun h => by simp [noForward] at h⟩
  | succ fuel ih =>
    simp only [noForward]
    by_cases hfin : opt.crit.finished it ((embBackend E bhat).time x.disc)
    · rw [if_pos hfin]
      refine ⟨hx, fun ev h => by simp at h, fun _ => ?_⟩
      simp only [hc, Crit.finished, embBackend, sub_fin, zero_def, le_fin] at hfin
      dsimp only
      linarith
    · rw [if_neg hfin]
      obtain ⟨g1, g2⟩ := iterate_within E bhat ha hc opt.recursionLimit c hlo x hx
      have hpre : ∀ ev ∈ callbacks (fun j => Ev.before .compute j (it + 1) x)
          opt.computeCallbacks, evTime ev ≤ T := by
        intro ev hev
        obtain ⟨j, -, rfl⟩ := List.mem_map.mp hev
        exact hx.1
      simp only [runStep]
      rcases hs : iterateOnStep (embBackend E bhat) opt opt.recursionLimit c x with ⟨c', x', e | u⟩
      · rw [hs] at g1 g2
        exact ⟨g1, hpre, fun h => by simp at h⟩
      · rw [hs] at g1 g2
        obtain ⟨k1, k2, k3⟩ := ih (it + 1) c' g2 x' g1
        refine ⟨k1, fun ev hev => ?_, k3⟩
        simp only [List.mem_append] at hev
        rcases hev with (hev | hev) | hev
        · exact hpre ev hev
        · obtain ⟨j, -, rfl⟩ := List.mem_map.mp hev
          exact g1.1
        · exact k2 ev hev

/-- C18: adaptive run with final time `T` whose initial step does not go past `T`. Whatever errors
are measured, whatever chain of controllers in whatever state is used, and whether the run fails
or not, no state it goes through (none that a callback sees, nor the last one) is past `T`; and a
run that ends without error ends exactly at `T`. -/
theorem C18_never_past_final_time (E : Env s n m o l) (bhat : Fin s → ℝ) {T lo h0 : ℝ}
    (ha : opt.adaptive = true) (hc : opt.crit = .finalTime T) (hi : opt.initialStep = fin h0)
    {ch : Choice} (fuel : ℕ)
    (w : World (EmbRKState ℝ s n m o l) (ch.Data (EmbRKState ℝ s n m o l)))
    (hlo : w.ctrl.config.lower = fin lo) (i : StartingValues ℝ n m)
    (ht : i.initialTime ≤ T) (hstep : i.initialTime + h0 ≤ T) :
    let r := compute (embBackend E bhat) opt (ch.ck (embBackend E bhat) opt) fuel w i
    r.1.tis.disc.finalTime ≤ T ∧
    (∃ new, r.1.log = w.log ++ new ∧ ∀ ev ∈ new, evTime ev ≤ T) ∧
    ∀ v, r.2 = .ok v → v.time = T := by
  have hx : Within T (startOf (embBackend E bhat) opt w.ctrl w.tis.disc i) :=
    ⟨ht, h0, hi, hstep⟩
  obtain ⟨g1, g2, g3⟩ := forward_within E bhat ha hc fuel 0 w.ctrl hlo _ hx
  have e := choice_forward (B := embBackend E bhat) (opt := opt) ch fuel
    ((ch.ck (embBackend E bhat) opt).create w.ck) w.ctrl
    (startOf (embBackend E bhat) opt w.ctrl w.tis.disc i)
  intro r
  simp only [startOf] at e g1 g2 g3
  have hr : r = compute (embBackend E bhat) opt (ch.ck (embBackend E bhat) opt) fuel w i := rfl
  simp only [compute, resetErrorControl] at hr
  rw [e] at hr
  generalize noForward (embBackend E bhat) opt fuel 0 w.ctrl _ = q at hr g1 g2 g3
  rcases q with ⟨c', x', log, err | u⟩
  · rw [hr]
    exact ⟨g1.1, ⟨log, rfl, g2⟩, fun v hv => by simp at hv⟩
  · rw [hr]
    refine ⟨g1.1, ⟨log, rfl, g2⟩, fun v hv => ?_⟩
    simp only [Except.ok.injEq] at hv
    subst hv
    exact le_antisymm g1.1 (g3 rfl)

/-- The Euler problem with an error measure that always is `e`. -/
noncomputable def envErr (e : ℝ) : Env 1 1 1 0 0 := { Integrator.Ex.env with measure := fun _ _ => fin e }

/-- Adaptive up to time 11/4, starting with a step of 1/2. -/
noncomputable def optA : Options :=
  { adaptive := true, crit := .finalTime (11 / 4), initialStep := fin (1 / 2) }

/-- The freshly set up adaptive component. -/
noncomputable def freshE (opt : Options) (e : ℝ) (bhat : Fin 1 → ℝ) (c : Ctrl) (ch : Choice) :
    World (EmbRKState ℝ 1 1 1 0 0) (ch.Data (EmbRKState ℝ 1 1 1 0 0)) :=
  freshWorld opt (ch.ck (embBackend (envErr e) bhat) opt) EmbRKState.empty c

theorem accept_zero {T : ℝ} {opt : Options} (ha : opt.adaptive = true)
    (hc : opt.crit = .finalTime T) (bhat : Fin 1 → ℝ) (f : ℕ) (p h : ℝ) (hh : 0 ≤ h)
    (x : IState (EmbRKState ℝ 1 1 1 0 0)) (hx : x.sugg = fin h) :
    ∃ c' x', iterateOnStep (embBackend (envErr 0) bhat) opt (f + 1)
      (.base (integral p) Config.default) x = (c', x', .ok ()) ∧
      c' = .base (integral p) Config.default ∧
      x'.disc.finalTime = x.disc.finalTime + h ∧
      x'.sugg = fin (min (T - (x.disc.finalTime + h)) h) := by
  obtain ⟨d, hd⟩ : ∃ d, (embBackend (envErr 0) bhat).step x.disc x.sugg = .ok d := by
    rw [hx]; exact ⟨_, rfl⟩
  have ht : d.finalTime = x.disc.finalTime + h := by
    rw [hx] at hd
    exact emb_step_time _ _ hd
  have hrem : opt.crit.remaining ((embBackend (envErr 0) bhat).time d)
      = fin (T - (x.disc.finalTime + h)) := by
    rw [hc]
    simp only [Crit.remaining, embBackend, sub_fin, ht]
  have hcall := C27_zero_error_keeps_step (.base (integral p) Config.default) true
    ⟨0, x.sugg, opt.crit.remaining ((embBackend (envErr 0) bhat).time d), x.errHist, x.stepHist⟩
    h hx (by rw [hrem]; simp) rfl (by simp [Ctrl.config, Config.default, zero_def])
  simp only [iterateOnStep, hd, if_pos ha]
  have hm : (embBackend (envErr 0) bhat).measure d = .ok 0 := rfl
  rw [hm]
  dsimp only
  rcases hcc : Ctrl.call true (.base (integral p) Config.default) ⟨0, x.sugg,
    opt.crit.remaining ((embBackend (envErr 0) bhat).time d), x.errHist, x.stepHist⟩ with ⟨c', r⟩
  have hcfg : c' = .base (integral p) Config.default := by
    simp only [Ctrl.call, Prod.mk.injEq] at hcc
    exact hcc.1.symm
  rw [hcc] at hcall
  dsimp only at hcall
  subst hcall
  refine ⟨_, _, rfl, hcfg, ht, ?_⟩
  change pyMin _ (pyMax 0 (pyMin pinf x.sugg)) = _
  rw [hrem, hx, pyMin_pinf_left _ (by simp), zero_def, pyMax_fin, max_eq_right hh, pyMin_fin]

/-- A successful adaptive run: from 2 to 11/4 with steps 1/2 and 1/4. -/
theorem adaptive_ok (ch : Choice) : ∃ w' v, compute (embBackend (envErr 0) 1) optA
      (ch.ck (embBackend (envErr 0) 1) optA) 3
      (freshE optA 0 1 (.base (integral 1) Config.default) ch) Integrator.Ex.inp = (w', .ok v) ∧
      v.time = 11 / 4 := by
  have hw : (freshE optA 0 1 (.base (integral 1) Config.default) ch).ctrl
      = .base (integral 1) Config.default := rfl
  obtain ⟨c1, x1, h1, rfl, t1, s1⟩ := accept_zero (opt := optA) rfl rfl 1 899 1 (1 / 2)
    (by norm_num) (startOf (embBackend (envErr 0) 1) optA
      (freshE optA 0 1 (.base (integral 1) Config.default) ch).ctrl
      (freshE optA 0 1 (.base (integral 1) Config.default) ch).tis.disc Integrator.Ex.inp) rfl
  have t0 : (startOf (embBackend (envErr 0) 1) optA
      (freshE optA 0 1 (.base (integral 1) Config.default) ch).ctrl
      (freshE optA 0 1 (.base (integral 1) Config.default) ch).tis.disc
      Integrator.Ex.inp).disc.finalTime = 2 := rfl
  rw [t0] at t1 s1
  obtain ⟨c2, x2, h2, rfl, t2, s2⟩ := accept_zero (opt := optA) rfl rfl 1 899 1 (1 / 4)
    (by norm_num) x1 (by rw [s1]; norm_num)
  rw [t1] at t2
  have hrun : ∃ tr, tr.length = 2 ∧ Run (embBackend (envErr 0) 1) optA 0
      (freshE optA 0 1 (.base (integral 1) Config.default) ch).ctrl
      (startOf (embBackend (envErr 0) 1) optA
      (freshE optA 0 1 (.base (integral 1) Config.default) ch).ctrl
      (freshE optA 0 1 (.base (integral 1) Config.default) ch).tis.disc Integrator.Ex.inp) tr := by
    refine ⟨_, rfl, .step ?_ h1 (.step ?_ h2 (.done ?_))⟩
    · simp only [optA, Crit.finished, embBackend, sub_fin, zero_def, le_fin]
      change ¬ ((11 : ℝ) / 4 - 2 ≤ 0)
      norm_num
    · simp only [optA, Crit.finished, embBackend, sub_fin, zero_def, le_fin, t1]
      norm_num
    · simp only [optA, Crit.finished, embBackend, sub_fin, zero_def, le_fin, t2]
      norm_num
  obtain ⟨tr, hlen, hrun⟩ := hrun
  have hcomp := compute_of_run (fuel := 3) hrun (by omega)
  refine ⟨_, _, hcomp, ?_⟩
  exact (C18_never_past_final_time (envErr 0) 1 (T := 11 / 4) (lo := 0) (h0 := 1 / 2) rfl rfl rfl
    3 _ rfl Integrator.Ex.inp (by norm_num [Integrator.Ex.inp])
    (by norm_num [Integrator.Ex.inp])).2.2 _ (by rw [hcomp])

/-! ### C19 -/

/-- C19 is violated in the loop: the remaining time the controller gets is that after the step
(runge_kutta_integrator.py L583-593), so a step that is exactly as long as what is left after it is
accepted whatever its error is. Here: from 0 to 2, step 1, error 1 with tolerance 1e-6, lower
bound 0; the step to time 1 is accepted, though it is not the last one. -/
theorem C19_half_time_accepted_violated :
    ∃ x x' c', x.disc.finalTime = 0 ∧
      iterateOnStep (embBackend (envErr 1) 1)
        { adaptive := true, crit := .finalTime 2, initialStep := fin 1 } 1
        (.base (integral 1) Config.default) x = (c', x', .ok ()) ∧
      x'.disc.finalTime = 1 ∧ x'.errHist.1 = fin 1 ∧
      lt (Config.default.tol) (fin 1) ∧ Config.default.lower = 0 := by
  let x : IState (EmbRKState ℝ 1 1 1 0 0) := ⟨EmbRKState.empty, fin 1, (0, 0), (0, 0)⟩
  obtain ⟨d, hd⟩ : ∃ d, (embBackend (envErr 1) 1).step x.disc x.sugg = .ok d := ⟨_, rfl⟩
  have ht : d.finalTime = 1 := by
    have := emb_step_time _ _ hd
    rw [this]
    change (0 : ℝ) + 1 = 1
    norm_num
  have hm : (embBackend (envErr 1) 1).measure d = .ok (fin 1) := rfl
  have hrem : Crit.remaining (.finalTime 2) ((embBackend (envErr 1) 1).time d) = fin 1 := by
    simp only [Crit.remaining, embBackend, sub_fin, ht]
    norm_num
  have hacc : ∀ eh sh, accepts Config.default ⟨fin 1, fin 1, fin 1, eh, sh⟩ := fun eh sh =>
    Or.inr (Or.inl (by simp))
  have hrun : ∀ eh sh,
      (run (integral 1) Config.default ⟨fin 1, fin 1, fin 1, eh, sh⟩).acc = true := fun eh sh =>
    (run_acc _ _ _).mpr (hacc eh sh)
  refine ⟨x, ?_⟩
  simp only [iterateOnStep, hd, if_true, hm, hrem, Ctrl.call]
  rw [show x.sugg = fin 1 from rfl, if_neg (by simp [hrun])]
  simp only [hrun, if_true]
  refine ⟨_, _, rfl, rfl, ht, rfl, ?_, rfl⟩
  simp only [Config.default, lt_fin]
  norm_num

/-! ### C22 -/

/-- Retrying ends: a step problem that does not fail, started with step size `h0 ≥ lower` and at
least `lower` time left, and a controller with the property that each rejected size is followed by
at most `max(lower, κ * size)` (`good` describes the states the controller may be in). Then after
at most `N + 1` attempts, where `κ ^ N * h0 < lower + 1e-10`, the step is accepted or a controller error is
reported. -/
theorem retries_end {t lo κ : ℝ} (good : Ctrl → Prop) (x : IState D)
    (hstep : ∀ h, ∃ d err, B.step x.disc (fin h) = .ok d ∧ B.time d = fin (t + h) ∧
      B.measure d = .ok err ∧ err ≠ nan)
    (ha : opt.adaptive = true)
    (hcrit : (∃ N, opt.crit = .steps N) ∨ ∃ T, opt.crit = .finalTime T ∧ t + lo ≤ T)
    (hκ : 0 ≤ κ) (hκ1 : κ ≤ 1) (hlo0 : 0 ≤ lo)
    (hlo : ∀ c, good c → c.config.lower = fin lo)
    (hgood : ∀ c i, good c → good (c.call true i).1)
    (hshrink : ∀ c i h st, good c → i.dt = fin h → lo ≤ h → i.err ≠ nan → i.rem ≠ nan →
      (c.call true i).2 = .ok st → st.acc = false → le st.sugg (fin (max lo (κ * h))))
    (N f : ℕ) (hf : N + 1 ≤ f) (c : Ctrl) (hc : good c) (h0 : ℝ) (hx : x.sugg = fin h0)
    (hh : lo ≤ h0) (hN : κ ^ N * h0 < lo + 1 / 10 ^ 10) :
    (iterateOnStep B opt f c x).2.2 = .ok () ∨
      ∃ e, (iterateOnStep B opt f c x).2.2 = .error (.controller e) ∧
        ∃ c i h, good c ∧ i.dt = fin h ∧ lo ≤ h ∧ i.err ≠ nan ∧ i.rem ≠ nan ∧
          (c.call true i).2 = .error e := by
  induction N generalizing f c x h0 with
  | zero =>
    obtain ⟨f, rfl⟩ := Nat.exists_eq_add_of_le' hf
    rw [_root_.pow_zero, one_mul] at hN
    obtain ⟨d, err, g1, g2, g3, g4⟩ := hstep h0
    simp only [iterateOnStep, hx, g1, if_pos ha, g3]
    have hrn : opt.crit.remaining (B.time d) ≠ nan := by
      rcases hcrit with ⟨M, hM⟩ | ⟨T, hT, hle⟩
      · rw [hM]; simp [Crit.remaining]
      · rw [hT, g2]; simp [Crit.remaining]
    rcases hcall : c.call true ⟨err, fin h0, opt.crit.remaining (B.time d), x.errHist, x.stepHist⟩
      with ⟨c', e | st⟩
    · exact Or.inr ⟨e, rfl, c, _, h0, hc, rfl, hh, g4, hrn, by rw [hcall]⟩
    · left
      obtain ⟨par, hpar⟩ := call_ok_run (c := c) (top := true) (st := st) (by rw [hcall])
      have hacc : st.acc = true := by
        rw [hpar, run_acc]
        left
        simp only [hlo c hc, sub_fin, abs_fin, lt_fin]
        rw [abs_of_nonneg (by linarith)]
        linarith
      simp only [hacc, if_true]
  | succ N ih =>
    obtain ⟨f, rfl⟩ : ∃ g, f = g + 1 := ⟨f - 1, by omega⟩
    obtain ⟨d, err, g1, g2, g3, g4⟩ := hstep h0
    simp only [iterateOnStep, hx, g1, if_pos ha, g3]
    have hrem : opt.crit.remaining (B.time d) = pinf ∨
        ∃ L, opt.crit.remaining (B.time d) = fin L ∧ lo ≤ L + h0 := by
      rcases hcrit with ⟨M, hM⟩ | ⟨T, hT, hle⟩
      · left; rw [hM]; rfl
      · right
        refine ⟨T - (t + h0), ?_, by linarith⟩
        rw [hT, g2]
        simp [Crit.remaining]
    have hrn : opt.crit.remaining (B.time d) ≠ nan := by
      rcases hrem with h | ⟨L, h, -⟩ <;> rw [h] <;> simp
    rcases hcall : c.call true ⟨err, fin h0, opt.crit.remaining (B.time d), x.errHist, x.stepHist⟩
      with ⟨c', e | st⟩
    · exact Or.inr ⟨e, rfl, c, _, h0, hc, rfl, hh, g4, hrn, by rw [hcall]⟩
    · dsimp only
      have hcall2 : (c.call true ⟨err, fin h0, opt.crit.remaining (B.time d), x.errHist,
        x.stepHist⟩).2 = .ok st := by rw [hcall]
      by_cases hacc : st.acc = true
      · rw [if_pos hacc]; exact Or.inl rfl
      · rw [if_neg hacc]
        rw [Bool.not_eq_true] at hacc
        have hup := hshrink c _ h0 st hc rfl hh g4 hrn hcall2 hacc
        have hlow := C20_at_least_lower_bound c true _ st h0 rfl hrn (by rw [hlo c hc]; simp) hcall2
        have hlow' : le (fin lo) st.sugg := by
          rcases hlow with h | ⟨hs, h⟩
          · rwa [hlo c hc] at h
          · exfalso
            rw [hlo c hc] at h
            rw [hs, if_neg (by simp [hacc])] at h
            rcases hrem with h' | ⟨L, h', hL⟩
            · rw [h'] at h
              exact h
            · rw [h'] at h
              simp only [add_fin, lt_fin] at h
              linarith
        obtain ⟨h1, e1⟩ : ∃ h1, st.sugg = fin h1 := by
          cases hs : st.sugg with
          | fin h1 => exact ⟨h1, rfl⟩
          | nan => rw [hs] at hup; exact absurd hup (not_nan_le _)
          | pinf => rw [hs] at hup; exact absurd hup id
          | ninf => rw [hs] at hlow'; exact absurd hlow' id
        rw [e1, le_fin] at hup hlow'
        have hgc' : good c' := by
          have := hgood c ⟨err, fin h0, opt.crit.remaining (B.time d), x.errHist, x.stepHist⟩ hc
          rwa [hcall] at this
        refine ih { x with sugg := st.sugg } hstep f (by omega) c' hgc' h1 e1 hlow' ?_
        have hp : 0 ≤ κ ^ N := pow_nonneg hκ N
        rcases le_max_iff.mp hup with h | h
        · calc κ ^ N * h1 ≤ 1 * lo :=
                mul_le_mul (pow_le_one₀ hκ hκ1) h (by linarith) zero_le_one
            _ < lo + 1 / 10 ^ 10 := by rw [one_mul]; norm_num
        · calc κ ^ N * h1 ≤ κ ^ N * (κ * h0) := mul_le_mul_of_nonneg_left h hp
            _ = κ ^ (N + 1) * h0 := by ring
            _ < lo + 1 / 10 ^ 10 := hN

/-- C22/C30: the step problem does not fail and its errors are not NaN, the lower bound is not
negative (the default is 0), at least the lower bound of time is left. Then with the stand-alone
integral controller the step is accepted after at most `N + 1` attempts where `safety ^ N * h0 <
lower + 1e-10`, however large the errors are: steps closer than 1e-10 to the lower bound are always
accepted. Missing: less time left than the lower bound, see `C30_short_last_step_violated`. -/
theorem C30_integral_retries_bounded_partial {t lo κ tol p h0 : ℝ} (cfg : Config) (x : IState D)
    (hstep : ∀ h, ∃ d err, B.step x.disc (fin h) = .ok d ∧ B.time d = fin (t + h) ∧
      B.measure d = .ok err ∧ err ≠ nan)
    (ha : opt.adaptive = true)
    (hcrit : (∃ N, opt.crit = .steps N) ∨ ∃ T, opt.crit = .finalTime T ∧ t + lo ≤ T)
    (hp : 0 ≤ p) (hκ : cfg.safety = fin κ) (hκ0 : 0 < κ) (hκ1 : κ ≤ 1)
    (ht : cfg.tol = fin tol) (ht0 : 0 < tol) (hlo : cfg.lower = fin lo) (hlo0 : 0 ≤ lo)
    (hu : cfg.upper ≠ nan) (N f : ℕ) (hf : N + 1 ≤ f)
    (hx : x.sugg = fin h0) (hh : lo ≤ h0) (hN : κ ^ N * h0 < lo + 1 / 10 ^ 10) :
    (iterateOnStep B opt f (.base (integral p) cfg) x).2.2 = .ok () := by
  -- the controller is an integral controller throughout
  have hgood : ∀ (c : Ctrl) (i : Input), c = .base (integral p) cfg →
      (c.call true i).1 = .base (integral p) cfg := by
    rintro c i rfl; rfl
  have key : ∀ i : Input, ∀ h, i.dt = fin h → lo ≤ h → i.err ≠ nan → i.rem ≠ nan →
      (run (integral p) cfg i).acc = false →
      le (run (integral p) cfg i).sugg (fin (max lo (κ * h))) := by
    intro i h hdt hlh he hr hacc
    have hpos : 0 < h := by
      by_contra h0
      have hacc' : (run (integral p) cfg i).acc = true :=
        (run_acc _ _ _).mpr (Or.inl (by
          rw [hdt, hlo, sub_fin, abs_fin, lt_fin, show h - lo = 0 by linarith, abs_zero]
          norm_num))
      rw [hacc] at hacc'
      exact absurd hacc' (by simp)
    refine C30_integral_shrinks p hp cfg i κ h tol lo hκ ht hdt ?_ hlo hu hr ht0 hpos hκ0
    by_contra hlt
    have : le i.err (fin tol) := le_of_not_lt he (by simp) hlt
    have hacc' : (run (integral p) cfg i).acc = true :=
      (run_acc _ _ _).mpr (Or.inr (Or.inr (by rw [ht]; exact this)))
    rw [hacc] at hacc'
    exact absurd hacc' (by simp)
  have hnoerr : ∀ i : Input, ∀ h, i.dt = fin h → lo ≤ h → i.err ≠ nan → i.rem ≠ nan →
      (Ctrl.call true (.base (integral p) cfg) i).2 = .ok (run (integral p) cfg i) := by
    intro i h hdt hlh he hr
    unfold Ctrl.call
    dsimp only
    rw [if_neg]
    rintro ⟨h1, h2, -⟩
    rw [Bool.not_eq_true] at h1
    have h3 := key i h hdt hlh he hr h1
    have h4 : le (fin (max lo (κ * h))) i.dt := by
      rw [hdt, le_fin]
      exact max_le hlh (mul_le_of_le_one_left (by linarith) hκ1)
    exact not_lt_of_le (XReal.le_trans h3 h4) h2
  have h1 := retries_end (t := t) (lo := lo) (κ := κ) (fun c => c = .base (integral p) cfg) x hstep
    ha hcrit hκ0.le hκ1 hlo0 (by rintro c rfl; exact hlo) hgood
    (by
      rintro c i h st rfl hdt hlh he hr hcall hacc
      rw [hnoerr i h hdt hlh he hr, Except.ok.injEq] at hcall
      subst hcall
      exact key i h hdt hlh he hr hacc) N f hf _ rfl h0 hx hh hN
  rcases h1 with h1 | ⟨e, -, c, i, h, rfl, hdt, hlh, he, hr, hcall⟩
  · exact h1
  · rw [hnoerr i h hdt hlh he hr] at hcall
    exact absurd hcall (by simp)

/-- C30: the attempts needed are finitely many for every safety factor below one. -/
theorem C30_enough_attempts {κ lo h0 : ℝ} (hκ0 : 0 < κ) (hκ1 : κ < 1) (hlo : 0 ≤ lo)
    (hh : lo ≤ h0) : ∃ N : ℕ, κ ^ N * h0 < lo + 1 / 10 ^ 10 := by
  have h1 : 0 < h0 + 1 := by linarith
  have h2 : (0 : ℝ) < lo + 1 / 10 ^ 10 := by positivity
  obtain ⟨N, hN⟩ := exists_pow_lt_of_lt_one (div_pos h2 h1) hκ1
  refine ⟨N, ?_⟩
  rw [lt_div_iff₀ h1] at hN
  have := pow_pos hκ0 N
  linarith

/-- The default configuration (lower bound 0, tolerance 1e-6, safety factor 0.95) with error 1 in
every attempt: finitely many attempts. -/
example (x : IState (EmbRKState ℝ 1 1 1 0 0)) (hx : x.sugg = fin 1) :
    ∃ N : ℕ, ∀ f, N ≤ f → (iterateOnStep (embBackend (envErr 1) 1)
      { adaptive := true, crit := .steps 1, initialStep := fin 1 } f
      (.base (integral 1) Config.default) x).2.2 = .ok () := by
  obtain ⟨N, hN⟩ := C30_enough_attempts (κ := 95 / 100) (lo := 0) (h0 := 1) (by norm_num)
    (by norm_num) (by norm_num) (by norm_num)
  exact ⟨N + 1, fun f hf => C30_integral_retries_bounded_partial (t := x.disc.finalTime) (lo := 0)
    (κ := 95 / 100) (tol := 1 / 10 ^ 6) _ x (fun h => ⟨_, fin 1, rfl, by
      have := emb_step_time (envErr 1) 1 (d := x.disc) (h := h) rfl
      exact congrArg fin this, rfl, by simp⟩) rfl (Or.inl ⟨1, rfl⟩) zero_le_one rfl
    (by norm_num) (by norm_num) rfl (by norm_num) rfl (by norm_num) (by simp [Config.default]) N f
    hf hx (by norm_num) hN⟩

/-- Error 1 in every attempt, tolerance 1/2, lower bound 1/8, safety factor 1/2: a step of size 1 is
accepted in the fourth attempt at the latest. -/
example (x : IState (EmbRKState ℝ 1 1 1 0 0)) (hx : x.sugg = fin 1) :
    (iterateOnStep (embBackend (envErr 1) 1)
      { adaptive := true, crit := .steps 1, initialStep := fin 1 } 4
      (.base (integral 1) ⟨fin (1 / 2), fin (1 / 8), pinf, fin (1 / 2), 5⟩) x).2.2 = .ok () :=
  C30_integral_retries_bounded_partial (t := x.disc.finalTime) (lo := 1 / 8) (κ := 1 / 2) (tol := 1 / 2)
    _ x (fun h => ⟨_, fin 1, rfl, by
      have := emb_step_time (envErr 1) 1 (d := x.disc) (h := h) rfl
      exact congrArg fin this, rfl, by simp⟩) rfl (Or.inl ⟨1, rfl⟩) zero_le_one rfl
    (by norm_num) (by norm_num) rfl (by norm_num) rfl (by norm_num) (by simp) 3 4
    (by norm_num) hx (by norm_num) (by norm_num)

/-- The hypothesis of `C21_attempts` and `C21_stand_alone` is met by that step, whose first attempt is
rejected. -/
example (x : IState (EmbRKState ℝ 1 1 1 0 0)) (hx : x.sugg = fin 1) :
    let B := embBackend (envErr 1) 1
    let opt : Options := { adaptive := true, crit := .steps 1, initialStep := fin 1 }
    let c : Ctrl := .base (integral 1) ⟨fin (1 / 2), fin (1 / 8), pinf, fin (1 / 2), 5⟩
    ∃ c' x', iterateOnStep B opt 4 c x = (c', x', .ok ()) ∧
      ∀ c' x', iterateOnStep B opt 1 c x ≠ (c', x', .ok ()) := by
  intro B opt c
  have h : (iterateOnStep B opt 4 c x).2.2 = .ok () :=
    C30_integral_retries_bounded_partial (t := x.disc.finalTime) (lo := 1 / 8) (κ := 1 / 2)
      (tol := 1 / 2) _ x (fun h => ⟨_, fin 1, rfl, by
        have := emb_step_time (envErr 1) 1 (d := x.disc) (h := h) rfl
        exact congrArg fin this, rfl, by simp⟩) rfl (Or.inl ⟨1, rfl⟩) zero_le_one rfl
      (by norm_num) (by norm_num) rfl (by norm_num) rfl (by norm_num) (by simp) 3 4
      (by norm_num) hx (by norm_num) (by norm_num)
  refine ⟨(iterateOnStep B opt 4 c x).1, (iterateOnStep B opt 4 c x).2.1, ?_, fun c' x' h1 => ?_⟩
  · rw [← h]
  · obtain ⟨k, cs, hs, hk, h0, h2, -, d, err, st, g1, g2, g3, g4, -⟩ := C21_attempts rfl h1
    obtain rfl : k = 0 := by omega
    rw [h0, h2, hx] at g3
    rw [h2, hx] at g1
    have hd : B.measure d = .ok (fin 1) := by
      obtain rfl : _ = d := Except.ok.inj g1
      rfl
    rw [hd] at g2
    obtain rfl : fin 1 = err := Except.ok.inj g2
    have g := congrArg Prod.snd g3
    simp only [Ctrl.call, c] at g
    split at g
    · simp at g
    · obtain rfl := Except.ok.inj g
      revert g4
      have hr : opt.crit.remaining (B.time d) = pinf := rfl
      rw [hr]
      simp only [run, accepts]
      norm_num [XReal.sub, XReal.abs, XReal.lt, XReal.le, XReal.add, XReal.neg]

/-- A call of a chain raises only if some controller of the chain suggests more than the step. -/
theorem call_no_error (top : Bool) (c : Ctrl) (i : Input)
    (h : ∀ par, ¬ lt i.dt (run par c.config i).sugg) : ∃ st, (c.call top i).2 = .ok st := by
  have hd : ∀ par, ∃ st, (runDeco top par c.config i).2 = .ok st := by
    intro par
    simp only [runDeco]
    rw [if_neg (fun h' => h par h'.2.1)]
    exact ⟨_, rfl⟩
  cases c with
  | base par cfg =>
    simp only [Ctrl.call]
    rw [if_neg (fun h' => h par h'.2.1)]
    exact ⟨_, rfl⟩
  | deco par w ni k =>
    simp only [Ctrl.call]
    split
    · obtain ⟨st, hst⟩ := call_wrapped_ok w i
      rcases hc : w.call false i with ⟨w', r⟩
      rw [hc] at hst
      dsimp only at hst
      subst hst
      dsimp only
      split
      · exact ⟨_, rfl⟩
      · split
        · exact ⟨_, rfl⟩
        · exact hd par
    · exact hd par

/-- C22 is violated: the time left (1/20) is shorter than the lower bound (1/10) and the error (1)
is above the tolerance. Then no controller, and no chain of controllers in any state, ever accepts
the step, and none raises: the same step is repeated until the recursion limit, however large that
is. (At the bound the code never gets: the suggestion is cut to the time left, and a step is
accepted only if it is at the lower bound or as long as the time left after it.) -/
theorem C22_short_last_step_violated (c : Ctrl)
    (hc : c.config = ⟨fin (1 / 10 ^ 6), fin (1 / 10), pinf, fin (95 / 100), 5⟩)
    (x : IState (EmbRKState ℝ 1 1 1 0 0)) (hx : x.sugg = fin (1 / 20))
    (ht : x.disc.finalTime = 2) (f : ℕ) :
    (iterateOnStep (embBackend (envErr 1) 1)
      { adaptive := true, crit := .finalTime (2 + 1 / 20), initialStep := fin (1 / 20) }
      f c x).2.2 = .error .recursion := by
  induction f generalizing c x with
  | zero => rfl
  | succ f ih =>
    obtain ⟨d, hd⟩ : ∃ d, (embBackend (envErr 1) 1).step x.disc (fin (1 / 20)) = .ok d := ⟨_, rfl⟩
    have htd : d.finalTime = 2 + 1 / 20 := by rw [emb_step_time _ _ hd, ht]
    have hm : (embBackend (envErr 1) 1).measure d = .ok (fin 1) := rfl
    have hrem : Crit.remaining (.finalTime (2 + 1 / 20)) ((embBackend (envErr 1) 1).time d)
        = fin 0 := by
      simp only [Crit.remaining, embBackend, sub_fin, htd, sub_self]
    simp only [iterateOnStep, hx, hd, if_true, hm, hrem]
    have hacc : ∀ par, (run par c.config ⟨fin 1, fin (1 / 20), fin 0, x.errHist, x.stepHist⟩).acc
        = false := by
      intro par
      by_contra h
      rw [Bool.not_eq_false, run_acc, hc] at h
      rcases h with h | h | h
      · simp only [sub_fin, abs_fin, lt_fin] at h
        rw [abs_of_neg (by norm_num)] at h
        norm_num at h
      · simp only [sub_fin, abs_fin, lt_fin] at h
        norm_num at h
      · simp only [le_fin] at h
        norm_num at h
    have hsugg : ∀ par,
        (run par c.config ⟨fin 1, fin (1 / 20), fin 0, x.errHist, x.stepHist⟩).sugg
        = fin (1 / 20) := by
      intro par
      rw [run_sugg par c.config _ (1 / 20) rfl (by simp), hacc par]
      have hlow : c.config.lower = fin (1 / 10) := by rw [hc]
      rw [hlow]
      have htl : timeLeft ⟨fin 1, fin (1 / 20), fin 0, x.errHist, x.stepHist⟩ false
          = fin (1 / 20) := by
        simp [timeLeft]
      rw [htl]
      generalize pyMin c.config.upper _ = y
      have hy : le (fin (1 / 10)) (pyMax (fin (1 / 10)) y) := left_le_pyMax (by simp)
      unfold pyMin
      rw [if_neg]
      intro h
      have := lt_of_le_of_lt hy h
      simp only [lt_fin] at this
      norm_num at this
    obtain ⟨st, hst⟩ := call_no_error true c
      ⟨fin 1, fin (1 / 20), fin 0, x.errHist, x.stepHist⟩
      (fun par => by rw [hsugg]; exact XReal.lt_irrefl _)
    obtain ⟨par, hpar⟩ := call_ok_run hst
    have hcfg := call_config true c ⟨fin 1, fin (1 / 20), fin 0, x.errHist, x.stepHist⟩
    rcases hcc : c.call true ⟨fin 1, fin (1 / 20), fin 0, x.errHist, x.stepHist⟩ with ⟨c', r⟩
    rw [hcc] at hst hcfg
    dsimp only at hst hcfg
    subst hst
    dsimp only
    rw [if_neg (by rw [hpar, hacc]; simp)]
    exact ih c' (by rw [hcfg, hc]) _ (by rw [hpar]; exact hsugg par) ht

/-- C30 is violated if the time left is shorter than the lower bound: a step of size 1, not below the
lower bound 1/10, is rejected, the suggestion is cut to the time left, and this step is repeated
until the recursion limit. -/
theorem C30_short_last_step_violated
    (x : IState (EmbRKState ℝ 1 1 1 0 0)) (hx : x.sugg = fin 1)
    (ht : x.disc.finalTime = 2) (f : ℕ) :
    (iterateOnStep (embBackend (envErr 1) 1)
      { adaptive := true, crit := .finalTime (2 + 1 / 20), initialStep := fin (1 / 20) }
      f (.base (integral 1) ⟨fin (1 / 10 ^ 6), fin (1 / 10), pinf, fin (95 / 100), 5⟩) x).2.2
      = .error .recursion := by
  cases f with
  | zero => rfl
  | succ f =>
    obtain ⟨d, hd⟩ : ∃ d, (embBackend (envErr 1) 1).step x.disc (fin 1) = .ok d := ⟨_, rfl⟩
    have htd : d.finalTime = 2 + 1 := by rw [emb_step_time _ _ hd, ht]
    have hm : (embBackend (envErr 1) 1).measure d = .ok (fin 1) := rfl
    have hrem : Crit.remaining (.finalTime (2 + 1 / 20)) ((embBackend (envErr 1) 1).time d)
        = fin (-19 / 20) := by
      simp only [Crit.remaining, embBackend, sub_fin, htd]
      norm_num
    simp only [iterateOnStep, hx, hd, if_true, hm, hrem]
    have hacc : (run (integral 1) ⟨fin (1 / 10 ^ 6), fin (1 / 10), pinf, fin (95 / 100), 5⟩
        ⟨fin 1, fin 1, fin (-19 / 20), x.errHist, x.stepHist⟩).acc = false := by
      by_contra h
      rw [Bool.not_eq_false, run_acc] at h
      rcases h with h | h | h
      · simp only [sub_fin, abs_fin, lt_fin] at h
        rw [abs_of_pos (by norm_num)] at h
        norm_num at h
      · simp only [sub_fin, abs_fin, lt_fin] at h
        rw [abs_of_pos (by norm_num)] at h
        norm_num at h
      · simp only [le_fin] at h
        norm_num at h
    have hsugg : (run (integral 1) ⟨fin (1 / 10 ^ 6), fin (1 / 10), pinf, fin (95 / 100), 5⟩
        ⟨fin 1, fin 1, fin (-19 / 20), x.errHist, x.stepHist⟩).sugg = fin (1 / 20) := by
      rw [run_sugg _ _ _ 1 rfl (by simp), hacc]
      have htl : timeLeft ⟨fin 1, fin 1, fin (-19 / 20), x.errHist, x.stepHist⟩ false
          = fin (1 / 20) := by
        simp only [timeLeft, add_fin, if_false, Bool.false_eq_true]
        norm_num
      rw [htl]
      dsimp only
      generalize pyMin pinf _ = y
      have hy : le (fin (1 / 10)) (pyMax (fin (1 / 10)) y) := left_le_pyMax (by simp)
      unfold pyMin
      rw [if_neg]
      intro h
      have := lt_of_le_of_lt hy h
      simp only [lt_fin] at this
      norm_num at this
    have hcall : (Ctrl.base (integral 1)
        ⟨fin (1 / 10 ^ 6), fin (1 / 10), pinf, fin (95 / 100), 5⟩).call true
        ⟨fin 1, fin 1, fin (-19 / 20), x.errHist, x.stepHist⟩
        = (.base (integral 1) ⟨fin (1 / 10 ^ 6), fin (1 / 10), pinf, fin (95 / 100), 5⟩,
          .ok (run (integral 1) ⟨fin (1 / 10 ^ 6), fin (1 / 10), pinf, fin (95 / 100), 5⟩
            ⟨fin 1, fin 1, fin (-19 / 20), x.errHist, x.stepHist⟩)) := by
      simp only [Ctrl.call]
      rw [if_neg]
      rintro ⟨-, h, -⟩
      rw [hsugg, lt_fin] at h
      norm_num at h
    rw [hcall]
    dsimp only
    rw [if_neg (by rw [hacc]; simp)]
    exact C22_short_last_step_violated _ rfl { x with sugg := _ } hsugg ht f

/-- C22, what holds: with a lower bound that is not negative and enough time left every step ends,
accepted or with a controller error, if each rejection shrinks the step by a factor or to the lower bound. Missing:
controllers whose suggestions only shrink towards a limit above the lower bound. -/
theorem C22_retries_end_partial {t lo κ : ℝ} (good : Ctrl → Prop) (x : IState D)
    (hstep : ∀ h, ∃ d err, B.step x.disc (fin h) = .ok d ∧ B.time d = fin (t + h) ∧
      B.measure d = .ok err ∧ err ≠ nan)
    (ha : opt.adaptive = true)
    (hcrit : (∃ N, opt.crit = .steps N) ∨ ∃ T, opt.crit = .finalTime T ∧ t + lo ≤ T)
    (hκ : 0 < κ) (hκ1 : κ < 1) (hlo0 : 0 ≤ lo)
    (hlo : ∀ c, good c → c.config.lower = fin lo)
    (hgood : ∀ c i, good c → good (c.call true i).1)
    (hshrink : ∀ c i h st, good c → i.dt = fin h → lo ≤ h → i.err ≠ nan → i.rem ≠ nan →
      (c.call true i).2 = .ok st → st.acc = false → le st.sugg (fin (max lo (κ * h))))
    (c : Ctrl) (hc : good c) (h0 : ℝ) (hx : x.sugg = fin h0) (hh : lo ≤ h0) :
    ∃ N, ∀ f, N < f → (iterateOnStep B opt f c x).2.2 = .ok () ∨
      ∃ e, (iterateOnStep B opt f c x).2.2 = .error (.controller e) := by
  obtain ⟨N, hN⟩ := C30_enough_attempts hκ hκ1 hlo0 hh
  refine ⟨N, fun f hf => ?_⟩
  rcases retries_end good x hstep ha hcrit hκ.le hκ1.le hlo0 hlo hgood hshrink N f hf c hc h0 hx hh
    hN with h | ⟨e, h, -⟩
  · exact Or.inl h
  · exact Or.inr ⟨e, h⟩

end Verif.Props
