/-
The accuracy of adaptive runs in which times, values and controllers are computed in floating point
arithmetic (C112).
-/
import Verif.Props.FloatControl
import Verif.Props.Values

namespace Verif.Props

open Verif.RK Verif.RK.Spec Verif.Control Verif.XReal Verif.Integrator Verif.Tableau Verif.Fl
open Classical

/-! ### C112 -/

section
variable {D I O : Type} {B : Backend D I O} {opt : Options} {T : ℝ} {tm : D → ℝ}
  {t0 : I → ℝ} {out : O → ℝ} {est : Params → Config → Input → XReal}

/-- The accepted attempt of a step: a step of the discretization within the bounds. -/
theorem fl_accepted {t lo H : ℝ} (Ti : Timed rnd T B tm t0 out) (hT : IsFloat T)
    (ha : opt.adaptive = true) (hc : opt.crit = .finalTime T) (hlo : 0 ≤ lo) (hloH : lo ≤ H)
    (r : ℕ) {c c' : Ctrl} (hcl : c.config.lower = fin lo) (hcu : c.config.upper = fin H)
    {x x' : IState D} (hx : FlWithin tm T t False x) (hxH : ∃ h, x.sugg = fin h ∧ h ≤ H)
    (hlt : tm x.disc < T) (hok : iterateFl ⟨rnd, est⟩ B opt r c x = (c', x', .ok ())) :
    ∃ h d, 0 ≤ h ∧ h ≤ H ∧ h ≤ rnd (T - tm x.disc) ∧ B.step x.disc (fin h) = .ok d ∧
      x'.disc = B.set x.disc d ∧ ∃ h', x'.sugg = fin h' ∧ h' ≤ H := by
  induction r generalizing c x with
  | zero => simp [iterateFl] at hok
  | succ r ih =>
    obtain ⟨hfl, hxb, h, hh, hle, -⟩ := hx
    obtain ⟨hp, hle⟩ := hle hlt
    obtain ⟨h_, hh_, hhH⟩ := hxH
    rw [hh, fin.injEq] at hh_
    subst hh_
    simp only [iterateFl] at hok
    rcases hs : B.step x.disc x.sugg with e | d
    · rw [hs] at hok
      simp at hok
    rw [hs] at hok
    dsimp only at hok
    rw [if_pos ha] at hok
    rcases hm : B.measure d with e | err
    · rw [hm] at hok
      simp at hok
    rw [hm] at hok
    dsimp only at hok
    rw [hh] at hs
    have htime : tm d = rnd (tm x.disc + h) := Ti.step _ _ _ hs
    have hrem : opt.crit.remaining (B.time d) = fin (rnd (T - tm d)) := by
      rw [hc, Ti.time]
      simp only [Crit.remaining, sub_fin, sub_sub_cancel]
    have hcf := callFl_config (A := ⟨rnd, est⟩) true c
      ⟨err, x.sugg, opt.crit.remaining (B.time d), x.errHist, x.stepHist⟩
    rcases hcall : callFl ⟨rnd, est⟩ true c
      ⟨err, x.sugg, opt.crit.remaining (B.time d), x.errHist, x.stepHist⟩ with ⟨c2, e | st⟩
    · rw [hcall] at hok
      simp at hok
    rw [hcall] at hcf hok
    dsimp only at hcf hok
    have hcall2 : (callFl ⟨rnd, est⟩ true c ⟨err, x.sugg, opt.crit.remaining (B.time d), x.errHist,
      x.stepHist⟩).2 = .ok st := by rw [hcall]
    obtain ⟨h', e1, -, hlow⟩ := suggFl_bounds (c := c) (st := st) hh hrem hcl hcall2
    have hup := suggFl_upper hh (by rw [hrem]; simp) (by rw [hcl, hcu]; exact hloH) hcall2
    rw [e1, hcu, le_fin] at hup
    by_cases hacc : st.acc = true
    · rw [if_pos hacc] at hok
      simp only [Prod.mk.injEq] at hok
      obtain ⟨-, rfl, -⟩ := hok
      exact ⟨h, d, hp, hhH, hle, hs, rfl, h', e1, hup⟩
    · rw [if_neg hacc] at hok hlow
      have hrej := callFl_rejected hcall2 (by simpa using hacc)
      dsimp only at hrej
      rw [hh, e1] at hrej
      have hrej' : h' ≤ h := not_lt.mp hrej
      have hp' : 0 ≤ h' := by
        rcases hlow with hlow | hlow
        · linarith
        · rw [hlow, htime]
          have := rnd_mono (left_nonneg hT hfl hlt hp hle)
          rwa [rnd_zero] at this
      have hx2 : FlWithin tm T t False { x with sugg := st.sugg } :=
        ⟨hfl, hxb, h', e1, fun _ => ⟨hp', hrej'.trans hle⟩, False.elim⟩
      exact ih (x := { x with sugg := st.sugg }) (by rw [hcf]; exact hcl) (by rw [hcf]; exact hcu)
        hx2 ⟨h', e1, hup⟩ hlt hok

/-- The steps of a run that returns: their sizes are within the bounds, their number is limited by the
lower bound, and their sum is the time covered up to one rounding error for each. -/
theorem fl_path {t lo M H : ℝ} (Ti : Timed rnd T B tm t0 out) (hT : IsFloat T)
    (ha : opt.adaptive = true) (hc : opt.crit = .finalTime T) (fl : IsFloat lo) (hlo : 0 < lo)
    (hloH : lo ≤ H) (hlT : T = 0 ∨ 2 * lo ≤ |T|) (hM : |t| ≤ M) (hMT : |T| ≤ M)
    (hMlo : M / 2 ^ 49 ≤ lo) (fuel it : ℕ) (c : Ctrl) (hcl : c.config.lower = fin lo)
    (hcu : c.config.upper = fin H) (x : IState D) (hx : FlWithin tm T t False x)
    (hxt : t ≤ tm x.disc) (hmov : Moving tm T lo x) (hxH : ∃ h, x.sugg = fin h ∧ h ≤ H)
    (hok : (noForwardFl ⟨rnd, est⟩ B opt fuel it c x).out = .ok ()) :
    ∃ (p : List (XReal × D)) (hr : List ℝ),
      Path B x.disc p (noForwardFl ⟨rnd, est⟩ B opt fuel it c x).st.disc ∧
      p.map Prod.fst = hr.map fin ∧ (∀ h ∈ hr, 0 ≤ h ∧ h ≤ H) ∧ (T ≤ tm x.disc → hr = []) ∧
      (tm x.disc < T → hr.length * (lo / 4) ≤ T - tm x.disc + lo / 4) ∧
      |tm x.disc + hr.sum - tm (noForwardFl ⟨rnd, est⟩ B opt fuel it c x).st.disc|
        ≤ hr.length * (2 * M / 2 ^ 53) := by
  induction fuel generalizing it c x with
  | zero => simp [noForwardFl] at hok
  | succ fuel ih =>
    rw [noForwardFl] at hok ⊢
    by_cases hfin : opt.crit.finished it (B.time x.disc)
    · rw [if_pos hfin]
      refine ⟨[], [], .nil _, rfl, by simp, fun _ => rfl, fun h => ?_, by simp⟩
      rw [timed_finished Ti rnd_rounds hc] at hfin
      exact absurd hfin (not_le.mpr h)
    · rw [if_neg hfin] at hok ⊢
      have hlt : tm x.disc < T := by
        rw [timed_finished Ti rnd_rounds hc] at hfin
        exact not_le.mp hfin
      obtain ⟨g1, g2, g3⟩ := fl_iterate (sound_rnd est) Ti hT ha hc opt.recursionLimit c
        ⟨⟨lo, hcl, hlo.le⟩, False.elim⟩ x hx hxt hlt
      have hmv := moving_iterate (est := est) Ti hT ha hc fl hlo hlT hM hMT hMlo opt.recursionLimit c
        hcl x hx hxt hmov hlt
      have hcf := iterateFl_config (A := ⟨rnd, est⟩) (B := B) (opt := opt) opt.recursionLimit c x
      simp only [runStepFl] at hok ⊢
      rcases hi : iterateFl ⟨rnd, est⟩ B opt opt.recursionLimit c x with ⟨c', x', e | u⟩
      · rw [hi] at hok
        simp at hok
      · rw [hi] at g1 g2 hmv hcf hok
        obtain ⟨k1, k2⟩ := hmv rfl
        dsimp only at hcf g1 g2 k1 k2 hok ⊢
        obtain ⟨h, d, a1, a2, a3, a4, a5, a6⟩ := fl_accepted Ti hT ha hc hlo.le hloH _ hcl hcu hx hxH
          hlt hi
        obtain ⟨p, hr, b1, b2, b3, b4, b5, b6⟩ := ih (it + 1) c' (by rw [hcf]; exact hcl)
          (by rw [hcf]; exact hcu) x' g1 g2 k1 a6 hok
        have htime : tm x'.disc = rnd (tm x.disc + h) := by
          rw [a5, Ti.set]
          exact Ti.step _ _ _ a4
        rw [a5] at b1
        refine ⟨(fin h, d) :: p, h :: hr, .cons a4 b1, by simp [b2], ?_, fun hge => ?_, fun _ => ?_,
          ?_⟩
        · intro z hz
          rcases List.mem_cons.mp hz with rfl | hz
          · exact ⟨a1, a2⟩
          · exact b3 z hz
        · exact absurd hge (not_le.mpr hlt)
        · rw [List.length_cons]
          push_cast
          by_cases hx' : tm x'.disc < T
          · have := b5 hx'
            rcases k2 with k2 | k2
            · linarith
            · exact absurd k2 (not_le.mpr hx')
          · rw [b4 (not_lt.mp hx'), List.length_nil]
            push_cast
            linarith
        · rw [List.length_cons, List.sum_cons]
          push_cast
          have hM0 : 0 ≤ M := (abs_nonneg _).trans hM
          have hab : |tm x.disc + h| ≤ 2 * M := by
            have h1 := abs_le.mp hM
            have h2 := abs_le.mp hMT
            have hle2 : h ≤ (1 + 1 / 2 ^ 53) * (T - tm x.disc) := by
              have := (abs_le.mp (rnd_err (T - tm x.disc))).2
              rw [abs_of_pos (by linarith)] at this
              linarith
            rw [abs_le]
            constructor
            · linarith
            · have : (1 / 2 ^ 53 : ℝ) * (T - tm x.disc) ≤ 1 / 2 ^ 53 * (2 * M) := by
                gcongr
                linarith
              have : (1 / 2 ^ 53 : ℝ) * (2 * M) ≤ M := by
                have : (1 / 2 ^ 53 : ℝ) * 2 ≤ 1 := by norm_num
                nlinarith
              linarith
          have he : |tm x.disc + h - tm x'.disc| ≤ 2 * M / 2 ^ 53 := by
            rw [htime, abs_sub_comm]
            refine (rnd_err _).trans ?_
            calc (1 / 2 ^ 53 : ℝ) * |tm x.disc + h| ≤ 1 / 2 ^ 53 * (2 * M) := by gcongr
              _ = _ := by ring
          have := abs_add_le (tm x.disc + h - tm x'.disc)
            (tm x'.disc + hr.sum - tm (noForwardFl ⟨rnd, est⟩ B opt fuel (it + 1) c' x').st.disc)
          rw [show tm x.disc + (h + hr.sum)
              - tm (noForwardFl ⟨rnd, est⟩ B opt fuel (it + 1) c' x').st.disc
            = (tm x.disc + h - tm x'.disc)
              + (tm x'.disc + hr.sum - tm (noForwardFl ⟨rnd, est⟩ B opt fuel (it + 1) c' x').st.disc)
            by ring]
          linarith

/-- A call of `compute` that returns, in terms of the loop. -/
theorem fl_compute_ok {fuel : ℕ} {ch : Choice} {w w' : World D (ch.Data D)} {i : I} {v : O}
    (h : compute B opt (ckFl ⟨rnd, est⟩ B opt ch) fuel w i = (w', .ok v)) :
    let r := noForwardFl ⟨rnd, est⟩ B opt fuel 0 w.ctrl (startOf B opt w.ctrl w.tis.disc i)
    r.out = .ok () ∧ v = B.read w'.tis.disc ∧ w'.tis.disc = r.st.disc := by
  have e := ckFl_forward (A := ⟨rnd, est⟩) (B := B) (opt := opt) ch fuel
    ((ckFl ⟨rnd, est⟩ B opt ch).create w.ck) w.ctrl (startOf B opt w.ctrl w.tis.disc i)
  intro r
  have hr : r = noForwardFl ⟨rnd, est⟩ B opt fuel 0 w.ctrl (startOf B opt w.ctrl w.tis.disc i) := rfl
  simp only [startOf] at e hr
  simp only [compute, resetErrorControl] at h
  rw [e, ← hr] at h
  clear_value r
  rcases r with ⟨c', x', log, err | u⟩
  · simp at h
  · simp only [Prod.mk.injEq, Except.ok.injEq] at h
    obtain ⟨rfl, rfl⟩ := h
    exact ⟨rfl, rfl, rfl⟩

/-- C112, the steps: an adaptive run from `t0` to `T` with times and controllers in binary64, any
computation of the estimates, any chain with bounds `lower = lo` and `upper = H` as in
`C110_progress_partial` and any backend. If `compute` returns, the state is that after at most
`4 (T - t0) / lo + 1` steps of sizes from 0 to `H`; the time returned is at least `T`, at most
`2^-52 (T - t0)` after it, and within one rounding error for each step of `t0` plus the sum of the step
sizes. -/
theorem C112_steps {h0 lo H M : ℝ} (Ti : Timed rnd T B tm t0 out) (hT : IsFloat T)
    (ha : opt.adaptive = true) (hc : opt.crit = .finalTime T) (hi : opt.initialStep = fin h0)
    {ch : Choice} {w w' : World D (ch.Data D)} {i : I} {v : O} {fuel : ℕ}
    (hcl : w.ctrl.config.lower = fin lo) (hcu : w.ctrl.config.upper = fin H)
    (fl : IsFloat lo) (hlo : 0 < lo) (hloH : lo ≤ H) (hlT : T = 0 ∨ 2 * lo ≤ |T|)
    (hM : |t0 i| ≤ M) (hMT : |T| ≤ M) (hMlo : M / 2 ^ 49 ≤ lo)
    (hf : IsFloat (t0 i)) (ht : t0 i ≤ T) (hstep : h0 ≤ rnd (T - t0 i)) (hhH : h0 ≤ H)
    (hh : lo ≤ h0 ∨ (T - t0 i < lo ∧ h0 = T - t0 i))
    (hcomp : compute B opt (ckFl ⟨rnd, est⟩ B opt ch) fuel w i = (w', .ok v)) :
    v = B.read w'.tis.disc ∧ T ≤ out v ∧ out v ≤ T + (T - t0 i) / 2 ^ 52 ∧
    ∃ (p : List (XReal × D)) (hr : List ℝ),
      Path B (B.clearLin (B.load w.tis.disc i)) p w'.tis.disc ∧ p.map Prod.fst = hr.map fin ∧
      (∀ h ∈ hr, 0 ≤ h ∧ h ≤ H) ∧ hr.length ≤ 4 * (T - t0 i) / lo + 1 ∧
      |t0 i + hr.sum - out v| ≤ hr.length * (2 * M / 2 ^ 53) := by
  have e : tm (startOf B opt w.ctrl w.tis.disc i).disc = t0 i := Ti.load _ _
  have h00 : 0 ≤ h0 := by rcases hh with hh | ⟨-, hh⟩ <;> linarith
  have hx : FlWithin tm T (t0 i) False (startOf B opt w.ctrl w.tis.disc i) := by
    unfold FlWithin
    rw [e]
    refine ⟨hf, ?_, h0, hi, fun _ => ⟨h00, hstep⟩, False.elim⟩
    have : 0 ≤ (T - t0 i) / 2 ^ 52 := div_nonneg (by linarith) (by norm_num)
    linarith
  have hmov : Moving tm T lo (startOf B opt w.ctrl w.tis.disc i) := ⟨h0, hi, fun _ => by
    rw [e]
    exact hh.imp (fun h => by linarith) id⟩
  obtain ⟨hout, hv, hw⟩ := fl_compute_ok hcomp
  obtain ⟨g1, -, g3⟩ := fl_compute (sound_rnd est) (S := False) Ti hT ha hc hi fuel w
    ⟨⟨lo, hcl, hlo.le⟩, False.elim⟩ hf ht h00 hstep False.elim
  rw [hcomp] at g1 g3
  obtain ⟨k1, k2⟩ := g3 v rfl
  obtain ⟨pa, hl, b1, b2, b3, b4, b5, b6⟩ := fl_path Ti hT ha hc fl hlo hloH hlT hM hMT hMlo fuel 0
    w.ctrl hcl hcu _ hx e.ge hmov ⟨h0, hi, hhH⟩ hout
  rw [← hw] at b1 b6
  rw [e] at b4 b5 b6
  dsimp only at k2
  rw [← k2] at b6
  refine ⟨hv, k1, by rw [k2]; exact g1.2.1, pa, hl, b1, b2, b3, ?_, b6⟩
  rcases ht.lt_or_eq with hlt | heq
  · have h1 := b5 hlt
    have h2 : (hl.length : ℝ) * lo ≤ 4 * (T - t0 i) + lo := by linarith
    have h3 : (hl.length : ℝ) ≤ (4 * (T - t0 i) + lo) / lo := by rwa [le_div_iff₀ hlo]
    rwa [add_div, div_self hlo.ne'] at h3
  · rw [b4 heq.ge, List.length_nil]
    push_cast
    have : 0 ≤ 4 * (T - t0 i) / lo := div_nonneg (by linarith) hlo.le
    linarith

end

section
variable {n m s o l : ℕ} {f : Rhs ℝ n m} {p : Fin m → ℝ} {q : ℕ} {y : ℝ → Fin n → ℝ} {t0 t1 : ℝ}

/-- Constants of an error bound for the values in an arithmetic with rounding function `fl` and error
`u` of an operation: steps of sizes `hr`, each from 0 to `H < δ`, lead from initial values with error
`e0` to values with an error of at most `K (e0 + ε + G u N) + C H^q`, `N` the number of steps, as long
as the bracket is at most `r`. -/
structure FlBound (fl : ℝ → ℝ) (u : ℝ) (dot : List (ℝ × ℝ) → ℝ) (E : Env s n m o l)
    (bhat : Fin s → ℝ) (p : Fin m → ℝ) (y : ℝ → Fin n → ℝ) (t0 t1 ε : ℝ) (q : ℕ)
    (K r C δ G : ℝ) : Prop where
  err : ∀ (T H : ℝ) (i : StartingValues ℝ n m) (d d' : EmbRKState ℝ s n m o l)
    (pa : List (XReal × EmbRKState ℝ s n m o l)) (hr : List ℝ),
    Path (embFloat fl dot T E bhat)
      ((embFloat fl dot T E bhat).clearLin ((embFloat fl dot T E bhat).load d i)) pa d' →
    pa.map Prod.fst = hr.map fin → i.initialTime = t0 → i.independentInputs = p → 0 ≤ H → H < δ →
    (∀ h ∈ hr, 0 ≤ h ∧ h ≤ H) → t0 + hr.sum ≤ t1 →
    ‖i.initialValues - y t0‖ + ε + G * (u * hr.length) ≤ r →
    ‖d'.finalState - y (t0 + hr.sum)‖
      ≤ K * (‖i.initialValues - y t0‖ + ε + G * (u * hr.length)) + C * H ^ q

/-- C112, there are such constants: for every smooth problem and every tableau with the order
conditions and every stage solver with error `η`, the same for all arithmetics. -/
theorem C112_bound (hq : 1 ≤ q) (hf : Smooth f p q) (hy : IsSolution f p y t0 t1)
    (ht : t0 ≤ t1) (β : ℝ) :
    ∃ K r : ℝ, 0 < K ∧ 0 < r ∧ ∀ (s o l : ℕ) (E : Env s n m o l) (bhat : Fin s → ℝ) (ε η : ℝ),
      Accurate E.T β ε q → 0 ≤ η → (∀ i, SolvesNearby E.ode f p η (E.T.A i i)) →
      ∃ C δ G : ℝ, 0 < C ∧ 0 < δ ∧ 0 < G ∧ ∀ (fl : ℝ → ℝ) (u : ℝ) (dot : List (ℝ × ℝ) → ℝ),
        Rounds fl u → IsDot fl dot → FlBound fl u dot E bhat p y t0 t1 (ε + η) q K r C δ G := by
  obtain ⟨K, r, hK, hr, hE⟩ := fl_error hq hf hy ht β
  refine ⟨K, r, hK, hr, fun s o l E bhat ε η hA hη hs => ?_⟩
  obtain ⟨C, δ, G, Λ, hC, hδ, hG, hE⟩ := hE s o l E ε η hA hη hs
  refine ⟨C, δ, G, hC, hδ, hG, fun fl u dot hfl hdot => ⟨?_⟩⟩
  intro T H i d d' pa hl hp hpa hit hip hH hHδ hb hsum hrad
  have hch := Chain.path (embFlCore fl dot T E bhat).public_set hp
    (Chain.nil (pub := (embFlCore fl dot T E bhat).public) _)
  simp only [List.nil_append] at hch
  rw [FlCore.public_start (embFlCore fl dot T E bhat), hit, hip] at hch
  rw [← add_assoc] at hrad ⊢
  exact (hE fl u dot (hfl.roundsTo Λ) hdot _ _ (embFlCore fl dot T E bhat) H _ _ hl _ hch hpa hH hHδ hb hsum
    hrad).2

/-- What the step sizes of a run say about the error at the final time. -/
theorem FlBound.values {K r C δ G L ε : ℝ} {E : Env s n m o l} {bhat : Fin s → ℝ} {fl : ℝ → ℝ}
    {dot : List (ℝ × ℝ) → ℝ} (hE : FlBound fl (1 / 2 ^ 53) dot E bhat p y t0 t1 ε q K r C δ G)
    (hK : 0 ≤ K) (hG : 0 ≤ G) (hL : 0 ≤ L)
    (hlip : ∀ a ∈ Set.Icc t0 t1, ∀ b ∈ Set.Icc t0 t1, ‖y a - y b‖ ≤ L * |a - b|)
    {T lo H M : ℝ} {d d' : EmbRKState ℝ s n m o l} {i : StartingValues ℝ n m} {v : Outputs n}
    {pa : List (XReal × EmbRKState ℝ s n m o l)} {hl : List ℝ}
    (hlo : 0 < lo) (hloH : lo ≤ H) (hHδ : H < δ) (hM : |t0| ≤ M) (ht : t0 ≤ T)
    (hit : i.initialTime = t0) (hip : i.independentInputs = p)
    (ht1 : T + (2 * (T - t0) + 2 * M) * ((4 * (T - t0) / lo + 1) / 2 ^ 53) ≤ t1)
    (hrad : ‖i.initialValues - y t0‖ + ε + G * ((4 * (T - t0) / lo + 1) / 2 ^ 53) ≤ r)
    (hv : v = (embFloat fl dot T E bhat).read d') (k1 : T ≤ v.time) (k2 : v.time ≤ T + (T - t0) / 2 ^ 52)
    (b1 : Path (embFloat fl dot T E bhat)
      ((embFloat fl dot T E bhat).clearLin ((embFloat fl dot T E bhat).load d i)) pa d')
    (b2 : pa.map Prod.fst = hl.map fin) (b3 : ∀ h ∈ hl, 0 ≤ h ∧ h ≤ H)
    (b4 : hl.length ≤ 4 * (T - t0) / lo + 1)
    (b5 : |t0 + hl.sum - v.time| ≤ hl.length * (2 * M / 2 ^ 53)) :
    ‖v.values - y T‖
      ≤ K * (‖i.initialValues - y t0‖ + ε + G * ((4 * (T - t0) / lo + 1) / 2 ^ 53)) + C * H ^ q
        + L * ((2 * (T - t0) + 2 * M) * ((4 * (T - t0) / lo + 1) / 2 ^ 53)) := by
  have hM0 : 0 ≤ M := (abs_nonneg _).trans hM
  have hTt : 0 ≤ T - t0 := by linarith
  set N : ℝ := 4 * (T - t0) / lo + 1 with hN
  have hN1 : 1 ≤ N := by
    have : 0 ≤ 4 * (T - t0) / lo := div_nonneg (by linarith) hlo.le
    linarith
  have hsum : |t0 + hl.sum - T| ≤ (2 * (T - t0) + 2 * M) * (N / 2 ^ 53) := by
    have h1 : hl.length * (2 * M / 2 ^ 53) ≤ 2 * M * (N / 2 ^ 53) := by
      calc hl.length * (2 * M / 2 ^ 53) ≤ N * (2 * M / 2 ^ 53) := by gcongr
        _ = _ := by ring
    have h2 : (T - t0) / 2 ^ 52 ≤ 2 * (T - t0) * (N / 2 ^ 53) := by
      calc (T - t0) / 2 ^ 52 = 2 * (T - t0) * (1 / 2 ^ 53) := by ring
        _ ≤ 2 * (T - t0) * (N / 2 ^ 53) := by gcongr
    have h3 := abs_le.mp b5
    have h5 : 0 ≤ 2 * (T - t0) * (N / 2 ^ 53) := by positivity
    rw [add_mul, abs_le]
    constructor <;> linarith
  have hun : (1 / 2 ^ 53 : ℝ) * hl.length ≤ N / 2 ^ 53 := by
    rw [one_div, inv_mul_eq_div]
    gcongr
  have hGu := mul_le_mul_of_nonneg_left hun hG
  have hsumt : t0 + hl.sum ≤ t1 := by linarith [(abs_le.mp hsum).2]
  have hs0 := List.sum_nonneg fun h hh => (b3 h hh).1
  have hD0 : 0 ≤ (2 * (T - t0) + 2 * M) * (N / 2 ^ 53) := by positivity
  have herr := hE.err T H i _ _ pa hl b1 b2 hit hip (by linarith) hHδ b3 hsumt (by linarith)
  have hlip' := hlip (t0 + hl.sum) ⟨by linarith, hsumt⟩ T ⟨ht, by linarith⟩
  have hlip2 := mul_le_mul_of_nonneg_left hsum hL
  have hvv : v.values = d'.finalState := by rw [hv]; rfl
  have htri := norm_sub_le_norm_sub_add_norm_sub d'.finalState (y (t0 + hl.sum)) (y T)
  have hKG := mul_le_mul_of_nonneg_left (add_le_add_right hGu (‖i.initialValues - y t0‖ + ε)) hK
  rw [hvv]
  linarith

/-- C112, the values: adaptive runs to a final time `T` with the times, the values and the controllers
in binary64, any estimate of the next step size and any error measure, steps between `lo` and `H` as in
`C112_steps`. With constants as in `C112_bound` and a Lipschitz constant `L` of the solution, the error
at `T` is at most `K (e0 + ε + G N 2^-53) + C H^q + L D N 2^-53` with `N = 4 (T - t0) / lo + 1` and
`D = 2 (T - t0) + 2 M`, if the solution exists up to `T + D N 2^-53`. -/
theorem C112_values {K r C δ G L ε : ℝ} {E : Env s n m o l} {bhat : Fin s → ℝ}
    {dot : List (ℝ × ℝ) → ℝ} (hE : FlBound rnd (1 / 2 ^ 53) dot E bhat p y t0 t1 ε q K r C δ G)
    (hK : 0 ≤ K) (hG : 0 ≤ G) (hL : 0 ≤ L)
    (hlip : ∀ a ∈ Set.Icc t0 t1, ∀ b ∈ Set.Icc t0 t1, ‖y a - y b‖ ≤ L * |a - b|)
    {est : Params → Config → Input → XReal} {opt : Options} {T h0 lo H M : ℝ} {ch : Choice}
    {w w' : World (EmbRKState ℝ s n m o l) (ch.Data (EmbRKState ℝ s n m o l))}
    {i : StartingValues ℝ n m} {v : Outputs n} {fuel : ℕ} (hT : IsFloat T) (hf : IsFloat t0)
    (ha : opt.adaptive = true) (hc : opt.crit = .finalTime T) (hi : opt.initialStep = fin h0)
    (hcl : w.ctrl.config.lower = fin lo) (hcu : w.ctrl.config.upper = fin H)
    (fl : IsFloat lo) (hlo : 0 < lo) (hloH : lo ≤ H) (hHδ : H < δ) (hlT : T = 0 ∨ 2 * lo ≤ |T|)
    (hM : |t0| ≤ M) (hMT : |T| ≤ M) (hMlo : M / 2 ^ 49 ≤ lo) (ht : t0 ≤ T)
    (hstep : h0 ≤ rnd (T - t0)) (hhH : h0 ≤ H) (hh : lo ≤ h0 ∨ (T - t0 < lo ∧ h0 = T - t0))
    (hit : i.initialTime = t0) (hip : i.independentInputs = p)
    (ht1 : T + (2 * (T - t0) + 2 * M) * ((4 * (T - t0) / lo + 1) / 2 ^ 53) ≤ t1)
    (hrad : ‖i.initialValues - y t0‖ + ε + G * ((4 * (T - t0) / lo + 1) / 2 ^ 53) ≤ r)
    (hcomp : compute (embFloat rnd dot T E bhat) opt (ckFl ⟨rnd, est⟩ (embFloat rnd dot T E bhat) opt ch)
      fuel w i = (w', .ok v)) :
    T ≤ v.time ∧ v.time ≤ T + (T - t0) / 2 ^ 52 ∧
    ‖v.values - y T‖
      ≤ K * (‖i.initialValues - y t0‖ + ε + G * ((4 * (T - t0) / lo + 1) / 2 ^ 53)) + C * H ^ q
        + L * ((2 * (T - t0) + 2 * M) * ((4 * (T - t0) / lo + 1) / 2 ^ 53)) := by
  obtain ⟨hv, k1, k2, pa, hl, b1, b2, b3, b4, b5⟩ := C112_steps (est := est)
    (embFloat_timed dot T E bhat) hT ha hc hi hcl hcu fl hlo hloH hlT (by rw [hit]; exact hM) hMT hMlo
    (by rw [hit]; exact hf) (by rw [hit]; exact ht) (by rw [hit]; exact hstep) hhH
    (by rw [hit]; exact hh) hcomp
  rw [hit] at k2 b4 b5
  exact ⟨k1, k2, hE.values hK hG hL hlip hlo hloH hHδ hM ht hit hip ht1 hrad hv k1 k2 b1 b2 b3 b4 b5⟩

end

/-! ### A concrete case -/

namespace FlAdaptEx

/-- Explicit Euler for `y' = 1`, with errors 1/2 measured. -/
noncomputable def env : Env 1 1 1 0 0 := { envOne with measure := fun _ _ => fin (1 / 2) }

/-- The constants of its error bound on `[0, 1]`. -/
theorem bound : FlBound rnd (1 / 2 ^ 53) (leftDot rnd) env (fun _ => 0) (fun _ => 0)
    (fun t _ => 1 + t) 0 1 0 1 1 1 0 1 8 := by
  refine ⟨fun T H i d d' pa hr hp hpa hit hip hH hHδ hb hsum hrad => ?_⟩
  set B := embFloat rnd (leftDot rnd) T env (fun _ => 0) with hB
  have one : ∀ (d e : EmbRKState ℝ 1 1 1 0 0) (h : ℝ), B.step d (fin h) = .ok e →
      e.finalState = fun x => rnd (d.finalState x + rnd (rnd (rnd h))) := by
    intro d e h he
    have := (embFlCore rnd (leftDot rnd) T env (fun _ => 0)).step_core d h e he
    change e.toRKState = computeStepFl rnd (leftDot rnd) env.T env.ode d.toRKState h at this
    have H := computeStepFl_result (fl := rnd) (leftDot rnd) env.T env.ode d.toRKState h
    change e.toRKState.finalState = _
    rw [this, H.finalState]
    have hk : (computeStepFl rnd (leftDot rnd) env.T env.ode d.toRKState h).stageUpdates
        = fun _ _ => 1 := funext fun i => H.update i
    rw [hk]
    funext x
    simp [accumulateStepFl, leftDot, List.finRange_succ, env, envOne, Integrator.Ex.euler]
  have key : ∀ (pa : List (XReal × EmbRKState ℝ 1 1 1 0 0)) (hr : List ℝ) (d d' : EmbRKState ℝ 1 1 1 0 0)
      (t a : ℝ), Path B d pa d' → pa.map Prod.fst = hr.map fin → (∀ h ∈ hr, 0 ≤ h ∧ h ≤ H) →
      0 ≤ t → t + hr.sum ≤ 1 → |d.finalState 0 - (1 + t)| ≤ a →
      a + 8 * (1 / 2 ^ 53 * hr.length) ≤ 1 →
      |d'.finalState 0 - (1 + (t + hr.sum))| ≤ a + 8 * (1 / 2 ^ 53 * hr.length) := by
    intro pa
    induction pa with
    | nil =>
      intro hr d d' t a hp hpa hb ht hs ha hl
      have : hr = [] := by simpa using hpa.symm
      subst this
      cases hp
      simpa using ha
    | cons z pa ih =>
      intro hr d d' t a hp hpa hb ht hs ha hl
      rcases hr with _ | ⟨h, hr⟩
      · simp at hpa
      simp only [List.map_cons, List.cons.injEq] at hpa
      obtain ⟨h1, h2⟩ := hpa
      rcases z with ⟨zh, e⟩
      dsimp only at h1
      subst h1
      cases hp with
      | cons hst hp =>
      obtain ⟨g1, g2⟩ := hb h (by simp)
      have hb' : ∀ h ∈ hr, 0 ≤ h ∧ h ≤ H := fun h hh => hb h (by simp [hh])
      have hs0 := List.sum_nonneg fun h hh => (hb' h hh).1
      simp only [List.sum_cons, List.length_cons, Nat.cast_add, Nat.cast_one] at hs hl ⊢
      have hlen : (0 : ℝ) ≤ 1 / 2 ^ 53 * hr.length := by positivity
      have he : (B.set d e).finalState = e.finalState := rfl
      have hstep : |e.finalState 0 - (1 + (t + h))| ≤ a + 8 * (1 / 2 ^ 53) := by
        rw [one d e h hst, (isFloat_rnd _).rnd_eq, (isFloat_rnd _).rnd_eq]
        have e1 := abs_le.mp (rnd_err h)
        have e2 := rnd_err (d.finalState 0 + rnd h)
        rw [abs_of_nonneg g1] at e1
        have hab := abs_le.mp ha
        have e3 : |d.finalState 0 + rnd h| ≤ 6 := by
          rw [abs_le]
          constructor <;> linarith
        have e4 := abs_le.mp (e2.trans (mul_le_mul_of_nonneg_left e3 (by norm_num)))
        rw [abs_le]
        constructor <;> linarith
      have := ih hr (B.set d e) d' (t + h) (a + 8 * (1 / 2 ^ 53)) hp h2 hb' (by linarith)
        (by linarith) (by rw [he]; exact hstep) (by linarith)
      rw [← add_assoc t h]
      refine this.trans ?_
      linarith
  have h0 : |i.initialValues 0 - (1 + 0)| ≤ ‖i.initialValues - fun _ : Fin 1 => (1 + 0 : ℝ)‖ := by
    have := norm_le_pi_norm (i.initialValues - fun _ : Fin 1 => (1 + 0 : ℝ)) 0
    simpa using this
  have := key pa hr _ d' 0 _ hp hpa hb le_rfl hsum h0 (by linarith)
  have hn : ‖d'.finalState - fun _ : Fin 1 => 1 + (0 + hr.sum)‖
      ≤ ‖i.initialValues - fun _ : Fin 1 => (1 + 0 : ℝ)‖ + 8 * (1 / 2 ^ 53 * hr.length) := by
    refine (pi_norm_le_iff_of_nonneg (by positivity)).mpr fun x => ?_
    rw [Subsingleton.elim x 0]
    exact this
  linarith

/-- Runs with a stand-alone controller whose tolerance is never exceeded raise no exception. -/
theorem noForwardFl_ok {D I O : Type} {B : Backend D I O} {opt : Options} {A : Arith} {T lo : ℝ}
    {fl : ℝ → ℝ} {tm : D → ℝ} {t0 : I → ℝ} {out : O → ℝ} (Ti : Timed fl T B tm t0 out)
    (hs : ∀ d h, ∃ e, B.step d (fin h) = .ok e) (ha : opt.adaptive = true)
    (hc : opt.crit = .finalTime T) (hr : opt.recursionLimit ≠ 0) (par : Params) (cfg : Config)
    (hcl : cfg.lower = fin lo) (hm : ∀ d, ∃ e, B.measure d = .ok e ∧ le e cfg.tol) (fuel it : ℕ)
    (x : IState D) (hx : ∃ h, x.sugg = fin h)
    (hne : (noForwardFl A B opt fuel it (.base par cfg) x).out ≠ .error .fuel) :
    (noForwardFl A B opt fuel it (.base par cfg) x).out = .ok () := by
  induction fuel generalizing it x with
  | zero => exact absurd rfl hne
  | succ fuel ih =>
    rw [noForwardFl] at hne ⊢
    split
    · rfl
    · rename_i hfin
      rw [if_neg hfin] at hne
      obtain ⟨h, hh⟩ := hx
      obtain ⟨d, hd⟩ := hs x.disc h
      obtain ⟨e, he, hle⟩ := hm d
      obtain ⟨rl, hrl⟩ := Nat.exists_eq_succ_of_ne_zero hr
      have hrem : opt.crit.remaining (B.time d) = fin (T - (T - fl (T - tm d))) := by
        rw [hc, Ti.time]
        rfl
      set j : Input := ⟨e, fin h, opt.crit.remaining (B.time d), x.errHist, x.stepHist⟩ with hj
      have hacc : (runFl A par cfg j).acc = true := (runFl_acc _ _ _).mpr (.inr (.inr hle))
      have hcall : callFl A true (.base par cfg) j = (.base par cfg, .ok (runFl A par cfg j)) := by
        simp only [callFl]
        rw [if_neg (by rw [hacc]; simp)]
      obtain ⟨h', hs', -⟩ := suggFl_bounds (A := A) (c := .base par cfg) (i := j) rfl hrem hcl
        (by rw [hcall])
      have hi : iterateFl A B opt opt.recursionLimit (.base par cfg) x = (.base par cfg,
          ⟨B.set x.disc d, fin h', (x.sugg, x.stepHist.1), (e, x.errHist.1)⟩, .ok ()) := by
        rw [hrl]
        simp only [iterateFl, hh, hd, if_pos ha, he, ← hj, hcall]
        rw [if_pos hacc, hs']
      simp only [runStepFl, hi] at hne ⊢
      exact ih _ _ ⟨h', rfl⟩ hne

/-- Lower bound `2^-10`, upper bound 1/4, tolerance 1. -/
noncomputable def cfg : Config := ⟨fin 1, fin (2 ^ (-10 : ℤ)), fin (1 / 4), fin (95 / 100), 5⟩

/-- The run with the integral controller from 0 to 1/2 returns, and the error of the result is at most
`2^-37`. -/
example (ch : Choice) (w : World (EmbRKState ℝ 1 1 1 0 0) (ch.Data (EmbRKState ℝ 1 1 1 0 0)))
    (hw : w.ctrl = .base (integral 1) cfg) :
    ∃ w' v, compute (embFloat rnd (leftDot rnd) (1 / 2) env fun _ => 0) (optFl (1 / 2) (2 ^ (-10 : ℤ)))
      (ckFl ⟨rnd, estimateFl rnd pow⟩ (embFloat rnd (leftDot rnd) (1 / 2) env fun _ => 0)
        (optFl (1 / 2) (2 ^ (-10 : ℤ))) ch) 2049 w ⟨0, fun _ => 1, fun _ => 0⟩ = (w', .ok v) ∧
      ‖v.values - fun _ : Fin 1 => 1 + (1 / 2 : ℝ)‖ ≤ 2 ^ (-37 : ℤ) := by
  set B := embFloat rnd (leftDot rnd) (1 / 2) env fun _ => 0 with hB
  set opt := optFl (1 / 2) (2 ^ (-10 : ℤ)) with hopt
  have hhalf : IsFloat (1 / 2) := by
    have := isFloat_zpow (-1)
    rwa [zpow_neg_one, ← one_div] at this
  have Ti := embFloat_timed (fl := rnd) (leftDot rnd) (1 / 2) env (fun _ => 0)
  have hcl : w.ctrl.config.lower = fin (2 ^ (-10 : ℤ)) := by rw [hw]; rfl
  have hcu : w.ctrl.config.upper = fin (1 / 4) := by rw [hw]; rfl
  have hstep : (2 : ℝ) ^ (-10 : ℤ) ≤ rnd (1 / 2 - 0) := by
    rw [sub_zero, hhalf.rnd_eq]
    norm_num
  have hok : ∀ (d : EmbRKState ℝ 1 1 1 0 0) (h : ℝ), ∃ e, B.step d (fin h) = .ok e := fun d h =>
    ⟨_, rfl⟩
  have hne := C110_progress_partial (est := estimateFl rnd pow) (opt := opt) (h0 := 2 ^ (-10 : ℤ))
    (lo := 2 ^ (-10 : ℤ)) (M := 1 / 2) Ti hhalf rfl rfl rfl (by
      intro d h
      cases h <;> simp [embFloat, env, envOne]) (fun _ => by simp [embFloat, embBackend]) w
    (i := ⟨0, fun _ => 1, fun _ => 0⟩) hcl (isFloat_zpow _) (two_zpow_pos _) (.inr (by norm_num))
    (by norm_num) (by norm_num) (by norm_num) isFloat_zero (by norm_num) hstep (.inl le_rfl) 2048
    (by norm_num)
  have hres : ∃ w' v, compute B opt (ckFl ⟨rnd, estimateFl rnd pow⟩ B opt ch) 2049 w
      ⟨0, fun _ => 1, fun _ => 0⟩ = (w', .ok v) := by
    have ef := ckFl_forward (A := ⟨rnd, estimateFl rnd pow⟩) (B := B) (opt := opt) ch 2049
      ((ckFl ⟨rnd, estimateFl rnd pow⟩ B opt ch).create w.ck) w.ctrl
      (startOf B opt w.ctrl w.tis.disc ⟨0, fun _ => 1, fun _ => 0⟩)
    have g := noForwardFl_ok (A := ⟨rnd, estimateFl rnd pow⟩) (opt := opt) Ti hok rfl rfl
      (by simp [hopt, optFl]) (integral 1) cfg rfl (fun d => ⟨fin (1 / 2), rfl, by
        change (1 / 2 : ℝ) ≤ 1
        norm_num⟩) 2049 0
      (startOf B opt w.ctrl w.tis.disc ⟨0, fun _ => 1, fun _ => 0⟩) ⟨_, rfl⟩
    rw [← hw] at g
    simp only [startOf] at ef g
    simp only [compute, resetErrorControl] at hne ⊢
    rw [ef] at hne ⊢
    generalize noForwardFl ⟨rnd, estimateFl rnd pow⟩ B opt 2049 0 w.ctrl _ = q at g hne
    rcases q with ⟨c', x', log, err | u⟩
    · exfalso
      have := g fun h => hne (by simpa using h)
      simp at this
    · exact ⟨_, _, rfl⟩
  obtain ⟨w', v, h⟩ := hres
  refine ⟨w', v, h, ?_⟩
  have h0 : ((fun _ => 1 : Fin 1 → ℝ) - fun _ => 1 + 0) = 0 := by
    funext x
    simp
  have g := (C112_values bound zero_le_one (by norm_num) (L := 1) zero_le_one (by
      intro a _ b _
      refine (pi_norm_le_iff_of_nonneg (by positivity)).mpr fun x => ?_
      simp [Real.norm_eq_abs]) hhalf isFloat_zero (M := 1 / 2) rfl rfl rfl hcl hcu
    (isFloat_zpow _) (two_zpow_pos _) (by norm_num) (by norm_num) (.inr (by norm_num)) (by norm_num)
    (by norm_num) (by norm_num) (by norm_num) hstep (by norm_num) (.inl le_rfl) rfl rfl (by norm_num)
    (by dsimp only; rw [h0]; norm_num) h).2.2
  dsimp only at g
  rw [h0] at g
  refine g.trans ?_
  norm_num

end FlAdaptEx

end Verif.Props
