/-
Rounding errors of the values of runs in floating point arithmetic (C78).
-/
import Verif.Float.Runs
import Verif.Props.Float
import Mathlib.Analysis.Calculus.MeanValue

namespace Verif.Props

open Verif.RK Verif.RK.Spec Verif.Control Verif.XReal Verif.Integrator Verif.Tableau Verif.Fl
open Classical

variable {D : Type} {s n m o l : ℕ}

/-- What a run with `N` steps of size `dt` returns: the time is `t0 + N dt` up to `drift`, the values
are those of the solution at this time, and at the returned time, up to `err`. -/
def Returns (y : ℝ → Fin n → ℝ) (t0 t1 dt : ℝ) (N : ℕ) (drift err : ℝ) (v : Outputs n) : Prop :=
  |v.time - (t0 + N * dt)| ≤ drift ∧ ‖v.values - y (t0 + N * dt)‖ ≤ err ∧
    (v.time ∈ Set.Icc t0 t1 → ‖v.values - y v.time‖ ≤ err)

/-- Runs over `N` fixed steps; `B` may depend on a final time, which is not used. The rounding errors
of the run are `ρ / dt`. -/
def StepsRounded (B : Backend D (StartingValues ℝ n m) (Outputs n)) (p : Fin m → ℝ)
    (y : ℝ → Fin n → ℝ) (t0 t1 δ ρ r : ℝ) (err : ℝ → ℝ → ℝ) : Prop :=
  ∀ (opt : Options) (dt : ℝ) (N fuel : ℕ) (ch : Choice) (w w' : World D (ch.Data D))
    (i : StartingValues ℝ n m) (v : Outputs n),
    opt.adaptive = false → opt.crit = .steps N → opt.initialStep = fin dt →
    0 < dt → dt < δ → i.initialTime = t0 → i.independentInputs = p →
    ‖i.initialValues - y t0‖ + ρ / dt ≤ r → t0 + N * dt ≤ t1 →
    compute B opt (ch.ck B opt) fuel w i = (w', .ok v) →
    Returns y t0 t1 dt N (ρ / dt) (err (‖i.initialValues - y t0‖ + ρ / dt) dt) v

/-- Runs over `N + 1` fixed steps with pyrevolve, for every legal schedule. -/
def PyrevolveRounded (B : Backend D (StartingValues ℝ n m) (Outputs n)) (R : Restore D)
    (p : Fin m → ℝ) (y : ℝ → Fin n → ℝ) (t0 t1 δ ρ r : ℝ) (err : ℝ → ℝ → ℝ) : Prop :=
  ∀ (opt : Options) (dt : ℝ) (N fuel : ℕ) (sched : Schedule) (sl : ℕ → Option ℕ) (e : IState D)
    (w w' : World D (PyData D)) (i : StartingValues ℝ n m) (v : Outputs n),
    LegalF N sched.fwd 0 (fun _ => none) sl →
    opt.adaptive = false → opt.initialStep = fin dt →
    0 < dt → dt < δ → i.initialTime = t0 → i.independentInputs = p →
    ‖i.initialValues - y t0‖ + ρ / dt ≤ r → t0 + (N + 1 : ℕ) * dt ≤ t1 →
    compute B opt (pyCk B opt R e N sched) fuel w i = (w', .ok v) →
    Returns y t0 t1 dt (N + 1) (ρ / dt) (err (‖i.initialValues - y t0‖ + ρ / dt) dt) v

/-- Runs with fixed steps to a final time `T`; the number of steps is the one of C74. -/
def FinalTimeRounded (fl : ℝ → ℝ) (B : ℝ → Backend D (StartingValues ℝ n m) (Outputs n))
    (p : Fin m → ℝ) (y : ℝ → Fin n → ℝ) (t0 t1 δ ρ r : ℝ) (err : ℝ → ℝ → ℝ) : Prop :=
  ∀ (opt : Options) (T dt : ℝ) (fuel : ℕ) (ch : Choice) (w w' : World D (ch.Data D))
    (i : StartingValues ℝ n m) (v : Outputs n),
    opt.adaptive = false → opt.crit = .finalTime T → opt.initialStep = fin dt →
    0 < dt → dt < δ → i.initialTime = t0 → i.independentInputs = p →
    ‖i.initialValues - y t0‖ + ρ / dt ≤ r → t0 ≤ T → T + dt + ρ / dt ≤ t1 →
    compute (B T) opt (ch.ck (B T) opt) fuel w i = (w', .ok v) →
    T ≤ v.time ∧ v.time < T + dt + ρ / dt ∧ ∃ N, FirstAt fl dt t0 T N ∧
      Returns y t0 t1 dt N (ρ / dt) (err (‖i.initialValues - y t0‖ + ρ / dt) dt) v

section
variable {f : Rhs ℝ n m} {p : Fin m → ℝ} {q : ℕ} {y : ℝ → Fin n → ℝ} {t0 t1 : ℝ}

/-- Solutions of smooth problems are Lipschitz. -/
theorem solution_lipschitz (hf : Smooth f p q) (hy : IsSolution f p y t0 t1) :
    ∃ L : ℝ, 0 ≤ L ∧ ∀ a ∈ Set.Icc t0 t1, ∀ b ∈ Set.Icc t0 t1, ‖y a - y b‖ ≤ L * |a - b| := by
  have hyc : ContinuousOn y (Set.Icc t0 t1) := fun t ht => (hy t ht).continuousWithinAt
  have hc : ContinuousOn (fun t => f t (y t) p) (Set.Icc t0 t1) :=
    hf.continuous.comp_continuousOn (continuousOn_id.prodMk hyc)
  obtain ⟨L, hL⟩ := isCompact_Icc.exists_bound_of_continuousOn hc
  refine ⟨max L 0, le_max_right _ _, fun a ha b hb => ?_⟩
  exact Convex.norm_image_sub_le_of_norm_hasDerivWithin_le (fun t ht => hy t ht)
    (fun t ht => (hL t ht).trans (le_max_left _ _)) (convex_Icc t0 t1) hb ha

/-- The number of steps to a final time. -/
theorem firstAt_count {fl : ℝ → ℝ} {u dt t T X : ℝ} (hf : Rounds fl u) (h0 : 0 < dt) (h1 : dt ≤ 1)
    (ht : |t| ≤ X) (hT : |T| ≤ X) (htT : t ≤ T) (hu : u * (X + dt) ≤ dt / 2) {N : ℕ}
    (h : FirstAt fl dt t T N) :
    N * dt ≤ 2 * (T - t) + 1 ∧ t + N * dt ≤ T + dt + (X + 1) * (u * N) ∧
      times fl dt t N < T + dt + (X + 1) * u := by
  have hX : 0 ≤ X := (abs_nonneg _).trans ht
  have hu0 := hf.nonneg
  have hux : 0 ≤ u * (X + dt) := by positivity
  have hux1 : u * (X + dt) ≤ u * (X + 1) := by gcongr
  cases N with
  | zero =>
    simp only [Nat.cast_zero, zero_mul, times, mul_zero]
    refine ⟨by linarith, by linarith, ?_⟩
    linarith
  | succ N =>
    have h2 := h.2 N (Nat.lt_succ_self N)
    obtain ⟨h3, h4⟩ := times_near hf h0 ht hT (by linarith) (N := N) fun k hk => h.2 k (by omega)
    have hN : (0 : ℝ) ≤ N := Nat.cast_nonneg _
    rw [abs_le] at h3
    have h5 := mul_le_mul_of_nonneg_left hu hN
    have h6 := mul_le_mul_of_nonneg_left hux1 hN
    push_cast
    refine ⟨by linarith [h3.1], by linarith [h3.1], ?_⟩
    rw [times_succ]
    have h7 : |times fl dt t N + dt| ≤ X + dt := by
      rw [abs_le] at ht hT ⊢
      constructor <;> linarith [ht.1, hT.2]
    have h8 := (le_abs_self _).trans ((hf.err _).trans (mul_le_mul_of_nonneg_left h7 hu0))
    linarith

/-- Chains of steps of a fixed size. -/
theorem chain_rounded (hq : 1 ≤ q) (hf : Smooth f p q) (hy : IsSolution f p y t0 t1) (ht : t0 ≤ t1)
    (β : ℝ) :
    ∃ K r : ℝ, 0 < K ∧ 0 < r ∧ ∀ (s o l : ℕ) (E : Env s n m o l) (ε η : ℝ), Accurate E.T β ε q →
      0 ≤ η → (∀ i, SolvesNearby E.ode f p η (E.T.A i i)) →
      ∃ C δ G : ℝ, 0 < C ∧ 0 < δ ∧ δ ≤ 1 ∧ 0 < G ∧ 2 * (|t0| + |t1| + 1) * (r + 1) ≤ G ∧
        (2 * (t1 - t0) + 1) * (|t0| + |t1| + 1) ≤ G ∧
        ∀ (fl : ℝ → ℝ) (u : ℝ) (dot : List (ℝ × ℝ) → ℝ), Rounds fl u → IsDot fl dot →
        ∀ (D : Type) (B : Backend D (StartingValues ℝ n m) (Outputs n)) (Co : FlCore fl dot B E)
          (dt : ℝ) (N : ℕ) (hs : List XReal) (y0 : Fin n → ℝ) (d : D),
        Chain B Co.public (t0, y0, p) hs (Co.public d) → hs = (List.replicate N dt).map fin →
        0 < dt → dt < δ → ‖y0 - y t0‖ + G * u / dt ≤ r - ε - η →
        N * dt ≤ 2 * (t1 - t0) + 1 → t0 + N * dt ≤ t1 →
        Returns y t0 t1 dt N (G * u / dt) (K * (‖y0 - y t0‖ + G * u / dt + ε + η) + C * dt ^ q)
          (B.read d) := by
  obtain ⟨L, hL, hLip⟩ := solution_lipschitz hf hy
  obtain ⟨K, r, hK, hr, hE⟩ := fl_error hq hf hy ht β
  refine ⟨K, r, hK, hr, fun s o l E ε η hA hη hs => ?_⟩
  obtain ⟨C, δ, G, Λ, hC, hδ, hG, hE⟩ := hE s o l E ε η hA hη hs
  set X := |t0| + |t1| with hX
  have hX0 : 0 ≤ X := by positivity
  set Y := 2 * (t1 - t0) + 1 with hY
  have hY0 : 0 < Y := by linarith
  set G' := (G + L * G / K) * Y + 2 * (X + 1) * (r + 1) + Y * (X + 1) with hG'
  have hLG : 0 ≤ L * G / K := by positivity
  have hG'0 : 0 < G' := by positivity
  have g1 : G * Y ≤ G' := by
    have : 0 ≤ L * G / K * Y + 2 * (X + 1) * (r + 1) + Y * (X + 1) := by positivity
    rw [hG', add_mul]; linarith
  have g2 : (G + L * G / K) * Y ≤ G' := by
    have : 0 ≤ 2 * (X + 1) * (r + 1) + Y * (X + 1) := by positivity
    linarith
  have g3 : 2 * (X + 1) * (r + 1) ≤ G' := by
    have : 0 ≤ (G + L * G / K) * Y + Y * (X + 1) := by positivity
    linarith
  have g4 : Y * (X + 1) ≤ G' := by
    have : 0 ≤ (G + L * G / K) * Y + 2 * (X + 1) * (r + 1) := by positivity
    linarith
  have hε := hA.nonneg
  refine ⟨C, min δ 1, G', hC, lt_min hδ one_pos, min_le_right _ _, hG'0, g3, g4,
    fun fl u dot hfl hdot => ?_⟩
  have hu := hfl.nonneg
  have uN : ∀ (dt : ℝ) (N : ℕ), 0 < dt → N * dt ≤ Y → ∀ c, 0 ≤ c → c * Y ≤ G' →
      c * (u * N) ≤ G' * u / dt := by
    intro dt N hdt hN c hc hcY
    rw [le_div_iff₀ hdt]
    calc c * (u * N) * dt = c * (N * dt) * u := by ring
      _ ≤ c * Y * u := by gcongr
      _ ≤ G' * u := by gcongr
  intro D B Co dt N hs y0 d hch hhs hdt hdtδ hle hNY hNt
  have hsum : (List.replicate N dt).sum = N * dt := by simp
  have hlen : ((List.replicate N dt).length : ℝ) = N := by simp
  obtain ⟨e1, e2⟩ := hE fl u dot (hfl.roundsTo Λ) hdot D B Co dt y0 hs (List.replicate N dt) _ hch hhs
    hdt.le
    (hdtδ.trans_le (min_le_left _ _)) (fun h hh => by
      rw [List.eq_of_mem_replicate hh]; exact ⟨hdt.le, le_rfl⟩) (by rw [hsum]; exact hNt)
    (by rw [hlen]; linarith [uN dt N hdt hNY G hG.le g1])
  rw [hsum, hlen] at e1 e2
  have k1 := uN dt N hdt hNY G hG.le g1
  have k2 := uN dt N hdt hNY _ (by positivity) g2
  rw [Co.read_core]
  have hNdt : 0 ≤ N * dt := by positivity
  refine ⟨e1.trans k1, e2.trans ?_, fun hmem => ?_⟩
  · have := mul_le_mul_of_nonneg_left k1 hK.le
    linarith
  · have hl := hLip (t0 + N * dt) ⟨by linarith, hNt⟩ _ hmem
    rw [abs_sub_comm] at hl
    have htri := norm_sub_le_norm_sub_add_norm_sub (Co.core d).finalState (y (t0 + N * dt))
      (y (Co.core d).finalTime)
    have e3 := hl.trans (mul_le_mul_of_nonneg_left e1 hL)
    have e4 : K * ((G + L * G / K) * (u * N)) = K * (G * (u * N)) + L * (G * (u * N)) := by
      field_simp
    have := mul_le_mul_of_nonneg_left k2 hK.le
    change ‖(Co.core d).finalState - y (Co.core d).finalTime‖ ≤ _
    change ‖(Co.core d).finalState - y (t0 + N * dt)‖ ≤ _ at e2
    linarith

/-- What chains of steps give for runs. -/
theorem runs_rounded (hq : 1 ≤ q) (hf : Smooth f p q) (hy : IsSolution f p y t0 t1) (ht : t0 ≤ t1)
    (β : ℝ) :
    ∃ K r : ℝ, 0 < K ∧ 0 < r ∧ ∀ (s o l : ℕ) (E : Env s n m o l) (ε η : ℝ), Accurate E.T β ε q →
      0 ≤ η → (∀ i, SolvesNearby E.ode f p η (E.T.A i i)) →
      ∃ C δ G : ℝ, 0 < C ∧ 0 < δ ∧ 0 < G ∧ ∀ (fl : ℝ → ℝ) (u : ℝ) (dot : List (ℝ × ℝ) → ℝ),
        Rounds fl u → IsDot fl dot →
        (∀ (D : Type) (B : Backend D (StartingValues ℝ n m) (Outputs n)), FlCore fl dot B E →
          StepsRounded B p y t0 t1 δ (G * u) (r - ε - η)
            (fun e0 h => K * (e0 + ε + η) + C * h ^ q)) ∧
        (∀ (D : Type) (B : Backend D (StartingValues ℝ n m) (Outputs n)) (Co : FlCore fl dot B E)
          (R : Restore D), (∀ a b, Co.public (R a b) = Co.public b) →
          PyrevolveRounded B R p y t0 t1 δ (G * u) (r - ε - η)
            (fun e0 h => K * (e0 + ε + η) + C * h ^ q)) ∧
        (∀ (D : Type) (tm : D → ℝ) (B : ℝ → Backend D (StartingValues ℝ n m) (Outputs n)),
          (∀ T, FlCore fl dot (B T) E) →
          (∀ T, Timed fl T (B T) tm (fun i => i.initialTime) (fun v => v.time)) →
          FinalTimeRounded fl B p y t0 t1 δ (G * u) (r - ε - η)
            (fun e0 h => K * (e0 + ε + η) + C * h ^ q)) := by
  obtain ⟨K, r, hK, hr, hE⟩ := chain_rounded hq hf hy ht β
  refine ⟨K, r, hK, hr, fun s o l E ε η hA hη hs => ?_⟩
  obtain ⟨C, δ, G, hC, hδ, hδ1, hG, g3, g4, main⟩ := hE s o l E ε η hA hη hs
  set X := |t0| + |t1| with hX
  have hX0 : 0 ≤ X := by positivity
  have hε := hA.nonneg
  refine ⟨C, δ, G, hC, hδ, hG, fun fl u dot hfl hdot => ?_⟩
  have hu := hfl.nonneg
  have main := main fl u dot hfl hdot
  refine ⟨?_, ?_, ?_⟩
  · intro D B Co opt dt N fuel ch w w' i v ha hc hi h0 hδ' hit hip hle hN h
    obtain ⟨hs, h1, h2, h3, h4, -⟩ := fl_choice_chain Co h
    rw [hit, hip] at h1
    rw [h2]
    exact main D B Co dt N hs i.initialValues _ h1 (eq_replicate_map (h4 N hc) (h3 ha) hi) h0 hδ' hle
      (by linarith) hN
  · intro D B Co R hR opt dt N fuel sched sl e w w' i v hl ha hi h0 hδ' hit hip hle hN h
    obtain ⟨hs, h1, h2, h3, h4⟩ := py_chain Co.public_set hR hl h
    rw [Co.public_start, hit, hip] at h2
    rw [h3]
    exact main D B Co dt (N + 1) hs i.initialValues _ h2 (eq_replicate_map h1 (h4 ha) hi) h0 hδ' hle
      (by linarith) hN
  · intro D tm B Co Ti opt T dt fuel ch w w' i v ha hc hi h0 hδ' hit hip hle hT hTt h
    have hdt1 : dt ≤ 1 := (hδ'.trans_le hδ1).le
    have hρ : G * u / dt ≤ r := by
      have := norm_nonneg (i.initialValues - y t0)
      linarith
    have hρ0 : 0 ≤ G * u / dt := by positivity
    have hsmall : u * (X + dt) ≤ dt / 2 := by
      have h1 : 2 * (X + 1) * (r + 1) * u ≤ G * u := by gcongr
      have h2 : G * u ≤ r * dt := by rwa [div_le_iff₀ h0] at hρ
      have h3 : u * (X + dt) ≤ u * (X + 1) := by gcongr
      have h4 : 2 * (X + 1) * u * (r + 1) ≤ dt * (r + 1) := by nlinarith
      have := le_of_mul_le_mul_right h4 (by linarith)
      linarith
    have hXt0 : |t0| ≤ X := by rw [hX]; linarith [abs_nonneg t1]
    have hXT : |T| ≤ X := by
      rw [abs_le]
      constructor <;> linarith [neg_abs_le t0, le_abs_self t1, abs_nonneg t0, abs_nonneg t1]
    obtain ⟨pa, hpa, hpd, hfirst, hout⟩ := timed_fixed (Ti T) hfl ha hc hi h
    simp only [hit] at hfirst hout
    set N := pa.length with hNdef
    obtain ⟨b1, b2, b3⟩ := firstAt_count hfl h0 hdt1 hXt0 hXT hT hsmall hfirst
    have hNY : N * dt ≤ 2 * (t1 - t0) + 1 := by linarith
    have hYX : (X + 1) * (u * N) ≤ G * u / dt := by
      rw [le_div_iff₀ h0]
      calc (X + 1) * (u * N) * dt = (X + 1) * (N * dt) * u := by ring
        _ ≤ (X + 1) * (2 * (t1 - t0) + 1) * u := by gcongr
        _ ≤ G * u := by
          rw [mul_comm (X + 1)]
          gcongr
    have hsp := fl_choice_chain (Co T) h
    obtain ⟨hs, h1, h2, h3, -, tr, h5, h6⟩ := hsp
    have hlen : hs.length = N := by
      obtain ⟨q1, -, -⟩ := timed_fixed_run (Ti T) hfl ha hc h5 hi
      have e : tm (startOf (B T) opt w.ctrl w.tis.disc i).disc = t0 := by
        rw [← hit]; exact (Ti T).load _ _
      rw [e] at q1
      rw [h6, List.length_map]
      exact q1.unique hfirst
    rw [hit, hip] at h1
    have hret := main D (B T) (Co T) dt N hs i.initialValues _ h1
      (eq_replicate_map hlen (h3 ha) hi) h0 hδ' hle hNY (by linarith)
    rw [← h2] at hret
    refine ⟨by rw [hout]; exact hfirst.1, ?_, N, hfirst, hret⟩
    have hXG : (X + 1) * u ≤ G * u / dt := by
      rw [le_div_iff₀ h0]
      calc (X + 1) * u * dt ≤ (X + 1) * u * 1 := by gcongr
        _ ≤ 2 * (X + 1) * (r + 1) * u := by
          have : 0 ≤ (X + 1) * u := by positivity
          nlinarith
        _ ≤ G * u := by gcongr
    rw [hout]
    linarith

/-- C78, plain schemes with fixed steps: in floating point arithmetic with unit roundoff `u` the
errors of runs with steps of size `dt` grow by a multiple of `u / dt`. The constant `G` depends on the
problem, the scheme and the stage solver, not on the arithmetic, the step size or the run. -/
theorem C78_plain (hq : 1 ≤ q) (hf : Smooth f p q) (hy : IsSolution f p y t0 t1) (ht : t0 ≤ t1)
    (β : ℝ) :
    ∃ K r : ℝ, 0 < K ∧ 0 < r ∧ ∀ (s o l : ℕ) (E : Env s n m o l) (ε η : ℝ), Accurate E.T β ε q →
      0 ≤ η → (∀ i, SolvesNearby E.ode f p η (E.T.A i i)) →
      ∃ C δ G : ℝ, 0 < C ∧ 0 < δ ∧ 0 < G ∧ ∀ (fl : ℝ → ℝ) (u : ℝ) (dot : List (ℝ × ℝ) → ℝ),
        Rounds fl u → IsDot fl dot →
        (∀ T, StepsRounded (rkFloat fl dot T E) p y t0 t1 δ (G * u) (r - ε - η)
            (fun e0 h => K * (e0 + ε + η) + C * h ^ q)) ∧
        (∀ T, PyrevolveRounded (rkFloat fl dot T E) rkRestore p y t0 t1 δ (G * u) (r - ε - η)
            (fun e0 h => K * (e0 + ε + η) + C * h ^ q)) ∧
        FinalTimeRounded fl (fun T => rkFloat fl dot T E) p y t0 t1 δ (G * u) (r - ε - η)
            (fun e0 h => K * (e0 + ε + η) + C * h ^ q) := by
  obtain ⟨K, r, hK, hr, hE⟩ := runs_rounded hq hf hy ht β
  refine ⟨K, r, hK, hr, fun s o l E ε η hA hη hs => ?_⟩
  obtain ⟨C, δ, G, hC, hδ, hG, hE⟩ := hE s o l E ε η hA hη hs
  refine ⟨C, δ, G, hC, hδ, hG, fun fl u dot hfl hdot => ?_⟩
  obtain ⟨h1, h2, h3⟩ := hE fl u dot hfl hdot
  exact ⟨fun T => h1 _ _ (rkFlCore fl dot T E),
    fun T => h2 _ _ (rkFlCore fl dot T E) _ fun _ _ => rfl,
    h3 _ _ _ (fun T => rkFlCore fl dot T E) fun T => rkFloat_timed dot T E⟩

/-- C78, embedded schemes with fixed steps. -/
theorem C78_embedded (hq : 1 ≤ q) (hf : Smooth f p q) (hy : IsSolution f p y t0 t1) (ht : t0 ≤ t1)
    (β : ℝ) :
    ∃ K r : ℝ, 0 < K ∧ 0 < r ∧ ∀ (s o l : ℕ) (E : Env s n m o l) (bhat : Fin s → ℝ) (ε η : ℝ),
      Accurate E.T β ε q → 0 ≤ η → (∀ i, SolvesNearby E.ode f p η (E.T.A i i)) →
      ∃ C δ G : ℝ, 0 < C ∧ 0 < δ ∧ 0 < G ∧ ∀ (fl : ℝ → ℝ) (u : ℝ) (dot : List (ℝ × ℝ) → ℝ),
        Rounds fl u → IsDot fl dot →
        (∀ T, StepsRounded (embFloat fl dot T E bhat) p y t0 t1 δ (G * u) (r - ε - η)
            (fun e0 h => K * (e0 + ε + η) + C * h ^ q)) ∧
        (∀ T, PyrevolveRounded (embFloat fl dot T E bhat) embRestore p y t0 t1 δ (G * u) (r - ε - η)
            (fun e0 h => K * (e0 + ε + η) + C * h ^ q)) ∧
        FinalTimeRounded fl (fun T => embFloat fl dot T E bhat) p y t0 t1 δ (G * u) (r - ε - η)
            (fun e0 h => K * (e0 + ε + η) + C * h ^ q) := by
  obtain ⟨K, r, hK, hr, hE⟩ := runs_rounded hq hf hy ht β
  refine ⟨K, r, hK, hr, fun s o l E bhat ε η hA hη hs => ?_⟩
  obtain ⟨C, δ, G, hC, hδ, hG, hE⟩ := hE s o l E ε η hA hη hs
  refine ⟨C, δ, G, hC, hδ, hG, fun fl u dot hfl hdot => ?_⟩
  obtain ⟨h1, h2, h3⟩ := hE fl u dot hfl hdot
  exact ⟨fun T => h1 _ _ (embFlCore fl dot T E bhat),
    fun T => h2 _ _ (embFlCore fl dot T E bhat) _ fun _ _ => rfl,
    h3 _ _ _ (fun T => embFlCore fl dot T E bhat) fun T => embFloat_timed dot T E bhat⟩

/-- C78, runs with any controller: for the sizes `hs` of the accepted steps, which are the first
entries of the step size histories along the run, the error grows by a multiple of `u` for each
step. -/
theorem C78_adaptive (hq : 1 ≤ q) (hf : Smooth f p q) (hy : IsSolution f p y t0 t1) (ht : t0 ≤ t1)
    (β : ℝ) :
    ∃ K r : ℝ, 0 < K ∧ 0 < r ∧ ∀ (s o l : ℕ) (E : Env s n m o l) (bhat : Fin s → ℝ) (ε η : ℝ),
      Accurate E.T β ε q → 0 ≤ η → (∀ i, SolvesNearby E.ode f p η (E.T.A i i)) →
      ∃ C δ G : ℝ, 0 < C ∧ 0 < δ ∧ 0 < G ∧ ∀ (fl : ℝ → ℝ) (u : ℝ) (dot : List (ℝ × ℝ) → ℝ),
        Rounds fl u → IsDot fl dot → ∀ (T : ℝ) (opt : Options) (fuel : ℕ) (ch : Choice)
        (w w' : World (EmbRKState ℝ s n m o l) (ch.Data (EmbRKState ℝ s n m o l)))
        (i : StartingValues ℝ n m) (v : Outputs n), i.initialTime = t0 → i.independentInputs = p →
        compute (embFloat fl dot T E bhat) opt (ch.ck (embFloat fl dot T E bhat) opt) fuel w i
          = (w', .ok v) →
        ∃ tr, Run (embFloat fl dot T E bhat) opt 0 w.ctrl
            (startOf (embFloat fl dot T E bhat) opt w.ctrl w.tis.disc i) tr ∧
          ∀ (hs : List ℝ) (H : ℝ), (tr.map fun q => q.2.stepHist.1) = hs.map fin → 0 ≤ H → H < δ →
            (∀ h ∈ hs, 0 ≤ h ∧ h ≤ H) → t0 + hs.sum ≤ t1 →
            ‖i.initialValues - y t0‖ + ε + η + G * (u * hs.length) ≤ r →
            |v.time - (t0 + hs.sum)| ≤ G * (u * hs.length) ∧
              ‖v.values - y (t0 + hs.sum)‖
                ≤ K * (‖i.initialValues - y t0‖ + ε + η + G * (u * hs.length)) + C * H ^ q := by
  obtain ⟨K, r, hK, hr, hE⟩ := fl_error hq hf hy ht β
  refine ⟨K, r, hK, hr, fun s o l E bhat ε η hA hη hs => ?_⟩
  obtain ⟨C, δ, G, Λ, hC, hδ, hG, hE⟩ := hE s o l E ε η hA hη hs
  refine ⟨C, δ, G, hC, hδ, hG, fun fl u dot hfl hdot T opt fuel ch w w' i v hit hip h => ?_⟩
  obtain ⟨hs, h1, h2, -, -, tr, h5, h6⟩ := fl_choice_chain (embFlCore fl dot T E bhat) h
  refine ⟨tr, h5, fun hr' H g1 g2 g3 g4 g5 g6 => ?_⟩
  rw [hit, hip] at h1
  rw [h2, FlCore.read_core (embFlCore fl dot T E bhat)]
  exact hE fl u dot (hfl.roundsTo Λ) hdot _ _ _ H _ hs hr' _ h1 (h6.trans g1) g2 g3 g4 g5 g6

end

/-! ### Without rounding -/

/-- The exact sum of products. -/
noncomputable def exactDot (ps : List (ℝ × ℝ)) : ℝ := (ps.map fun p => p.1 * p.2).sum

theorem exactDot_isDot (fl : ℝ → ℝ) (h : ∀ x, fl x = x) : IsDot fl exactDot := by
  have : exactDot = leftDot fl := by
    funext ps
    have key : ∀ (ps : List (ℝ × ℝ)) (a : ℝ),
        ps.foldl (fun a p => fl (a + fl (p.1 * p.2))) a = a + exactDot ps := by
      intro ps
      induction ps with
      | nil => simp [exactDot]
      | cons p ps ih =>
        intro a
        rw [List.foldl_cons, ih, h, h]
        simp [exactDot, add_assoc]
    rw [leftDot, key, zero_add]
  rw [this]
  exact leftDot_isDot fl

theorem computeStepFl_exact (T : Coeffs ℝ s) (ode : ODE ℝ n m o l) (st : RKState ℝ s n m o l)
    (h : ℝ) : computeStepFl id exactDot T ode st h = computeStep T ode st h := by
  have h1 : ∀ (i : Fin s) (k : Fin s → Fin n → ℝ),
      accumulateStagesFl exactDot T i k = accumulateStages T i k := by
    intro i k
    unfold accumulateStagesFl accumulateStages
    split_ifs
    · rfl
    · funext x
      rw [exactDot, List.map_map]
      exact sum_filter i fun j => k j x * T.A i j
  have h2 : ∀ (w : Fin s → ℝ) (y : Fin n → ℝ) (k : Fin s → Fin n → ℝ),
      accumulateStepFl id exactDot w y k h = accumulateStep w y k h := by
    intro w y k
    funext x
    simp [accumulateStepFl, accumulateStep, exactDot, List.sum_ofFn, ← List.ofFn_eq_map,
      Function.comp_def]
  have h3 : computeStageFl id exactDot T ode h = computeStage T ode h := by
    funext r i
    simp [computeStageFl, computeStage, h1]
  simp [computeStepFl, computeStep, h2, h3]

/-- C78, without rounding: the backend is the one of the other claims. -/
theorem C78_without_rounding (T : ℝ) (E : Env s n m o l) (bhat : Fin s → ℝ) :
    Rounds id 0 ∧ IsDot id exactDot ∧ rkFloat id exactDot T E = rkBackend E ∧
      embFloat id exactDot T E bhat = embBackend E bhat := by
  refine ⟨id_rounds, exactDot_isDot _ fun _ => rfl, ?_, ?_⟩
  · unfold rkFloat rkBackend
    simp only [computeStepFl_exact, id_eq, sub_sub_cancel]
    congr 1
  · have h2 : ∀ (d : EmbRKState ℝ s n m o l) (h : ℝ),
        computeStepEmbFl id exactDot E.T bhat E.ode d h = computeStepEmb E.T bhat E.ode d h := by
      intro d h
      have h3 : ∀ (y : Fin n → ℝ) (k : Fin s → Fin n → ℝ),
          accumulateStepFl id exactDot bhat y k h = accumulateStep bhat y k h := by
        intro y k
        funext x
        simp [accumulateStepFl, accumulateStep, exactDot, List.sum_ofFn, ← List.ofFn_eq_map,
          Function.comp_def]
      simp only [computeStepEmbFl, computeStepEmb, computeErrorEstimate, computeStepFl_exact, h3]
      rfl
    unfold embFloat embBackend
    simp only [h2, id_eq, sub_sub_cancel]
    congr 1

/-! ### Rounding errors of the size of the bound -/

/-- Explicit Euler for `y' = 1`. -/
noncomputable def envOne : Env 1 1 1 0 0 where
  T := Integrator.Ex.euler
  ode :=
    { computeUpdate := fun _ _ _ => (⟨fun _ => 1, 0, 0⟩, 0)
      computeUpdateDerivative := fun _ _ _ _ => ⟨0, 0, 0⟩
      computeUpdateAdjoint := fun _ _ _ _ => ⟨0, 0, 0, 0⟩ }
  fails := fun _ _ => none
  nonfinite := fun _ _ => .error .backend
  measure := fun e _ => fin |e 0|

theorem rnd_one_add : rnd (1 + 2 ^ (-53 : ℤ)) = 1 := by
  have := rnd_units (A := 2 ^ 53 + 1) (k := 2 ^ 52) (q := -53) (j := 1) (by norm_num)
    (by norm_num) (.inr ⟨by norm_num, by decide⟩)
  have e : ((2 ^ 53 + 1 : ℤ) : ℝ) * 2 ^ (-53 : ℤ) = 1 + 2 ^ (-53 : ℤ) := by norm_num
  rw [e] at this
  rw [this]
  norm_num

theorem rnd_eps : rnd (2 ^ (-53 : ℤ)) = 2 ^ (-53 : ℤ) := (isFloat_zpow _).rnd_eq

theorem one_stays (st : RKState ℝ 1 1 1 0 0) (h : st.finalState = fun _ => 1) :
    (computeStepFl rnd (leftDot rnd) envOne.T envOne.ode st (2 ^ (-53 : ℤ))).finalState
      = fun _ => 1 := by
  have H := computeStepFl_result (fl := rnd) (leftDot rnd) envOne.T envOne.ode st (2 ^ (-53 : ℤ))
  rw [H.finalState, h]
  have hk : (computeStepFl rnd (leftDot rnd) envOne.T envOne.ode st
      (2 ^ (-53 : ℤ))).stageUpdates = fun _ _ => 1 := funext fun i => H.update i
  rw [hk]
  funext x
  simp only [accumulateStepFl, leftDot, List.finRange_succ, List.finRange_zero, List.map_nil,
    List.map_cons, List.foldl_cons, List.foldl_nil, envOne, Integrator.Ex.euler, mul_one, one_mul,
    zero_add, rnd_eps, rnd_one_add]

/-- C78, the rounding errors can be as large as the bound: explicit Euler is exact for `y' = 1`, but
in binary64 with steps of `2^-53 = u` the value 1 never changes, so that after `N` steps the error is
`N dt`, for `N = 2^53` steps it is 1. -/
theorem C78_stagnation {opt : Options} (T : ℝ) (N : ℕ) (ha : opt.adaptive = false)
    (hc : opt.crit = .steps N) (hi : opt.initialStep = fin (2 ^ (-53 : ℤ))) {fuel : ℕ} {ch : Choice}
    {w w' : World (RKState ℝ 1 1 1 0 0) (ch.Data (RKState ℝ 1 1 1 0 0))}
    {i : StartingValues ℝ 1 1} {v : Outputs 1} (hv : i.initialValues = fun _ => 1)
    (h : compute (rkFloat rnd (leftDot rnd) T envOne) opt
      (ch.ck (rkFloat rnd (leftDot rnd) T envOne) opt) fuel w i = (w', .ok v)) :
    v.values = (fun _ => 1) ∧
      ‖v.values - (fun t _ => 1 + t : ℝ → Fin 1 → ℝ) (N * 2 ^ (-53 : ℤ))‖ = N * 2 ^ (-53 : ℤ) := by
  have key : v.values = fun _ => 1 := by
    obtain ⟨hs, h1, h2, h3, h4, -⟩ := fl_choice_chain (rkFlCore rnd (leftDot rnd) T envOne) h
    have hall := h3 ha
    rw [hi] at hall
    rw [h2, FlCore.read_core (rkFlCore rnd (leftDot rnd) T envOne)]
    rw [hv] at h1
    have gen : ∀ (a : ℝ × (Fin 1 → ℝ) × (Fin 1 → ℝ)) (hs : List XReal) (e), Chain
        (rkFloat rnd (leftDot rnd) T envOne) (rkFlCore rnd (leftDot rnd) T envOne).public a hs e →
        (∀ x ∈ hs, x = fin (2 ^ (-53 : ℤ))) → a.2.1 = (fun _ => 1) → e.2.1 = fun _ => 1 := by
      intro a hs e hch
      induction hch with
      | nil => exact fun _ ha => ha
      | @snoc hs d x e hc hst ih =>
        intro hx ha
        have hd := ih (fun x hx' => hx x (by simp [hx'])) ha
        have hxe := hx x (by simp)
        subst hxe
        have := (rkFlCore rnd (leftDot rnd) T envOne).step_core _ _ _ hst
        change ((rkFlCore rnd (leftDot rnd) T envOne).core e).finalState = _
        rw [this]
        exact one_stays _ hd
    exact gen _ _ _ h1 hall rfl
  refine ⟨key, ?_⟩
  rw [key]
  have : ((fun _ => 1 : Fin 1 → ℝ) - (fun t _ => 1 + t : ℝ → Fin 1 → ℝ) (N * 2 ^ (-53 : ℤ)))
      = fun _ => -((N : ℝ) * 2 ^ (-53 : ℤ)) := by
    funext x
    simp
  rw [this, pi_norm_const, norm_neg, Real.norm_of_nonneg (by positivity)]

/-! ### Concrete cases -/

theorem rkFloat_compute {E : Env s n m o l} (hE : ∀ v h, E.fails v h = none) (fl : ℝ → ℝ)
    (dot : List (ℝ × ℝ) → ℝ) (T : ℝ) (opt : Options) (dt : ℝ) (N : ℕ) (ha : opt.adaptive = false)
    (hc : opt.crit = .steps N) (hi : opt.initialStep = fin dt) (hl : opt.recursionLimit ≠ 0)
    (ch : Choice) (w : World (RKState ℝ s n m o l) (ch.Data (RKState ℝ s n m o l)))
    (i : StartingValues ℝ n m) :
    ∃ w' v, compute (rkFloat fl dot T E) opt (ch.ck (rkFloat fl dot T E) opt) (N + 1) w i
      = (w', .ok v) := by
  obtain ⟨tr, htr⟩ := exists_run_fixed (B := rkFloat fl dot T E) hc ha hl w.ctrl
    (startOf (rkFloat fl dot T E) opt w.ctrl w.tis.disc i)
    (fun d => ⟨computeStepFl fl dot E.T E.ode d dt, by simp [rkFloat, startOf, hi, hE]⟩) 0
  have hlen := htr.length_steps hc (Nat.zero_le _)
  exact ⟨_, _, compute_of_run htr (by omega)⟩

/-- The run of `C78_stagnation` with `2^53` steps. -/
example (ch : Choice) (w : World (RKState ℝ 1 1 1 0 0) (ch.Data (RKState ℝ 1 1 1 0 0))) :
    ∃ w' v, compute (rkFloat rnd (leftDot rnd) 0 envOne)
      { adaptive := false, crit := .steps (2 ^ 53), initialStep := fin (2 ^ (-53 : ℤ)) }
      (ch.ck (rkFloat rnd (leftDot rnd) 0 envOne)
        { adaptive := false, crit := .steps (2 ^ 53), initialStep := fin (2 ^ (-53 : ℤ)) })
      (2 ^ 53 + 1) w ⟨0, fun _ => 1, fun _ => 0⟩ = (w', .ok v) ∧ v.values = fun _ => 1 := by
  obtain ⟨w', v, h⟩ := rkFloat_compute (E := envOne) (fun _ _ => rfl) rnd (leftDot rnd) 0
    { adaptive := false, crit := .steps (2 ^ 53), initialStep := fin (2 ^ (-53 : ℤ)) }
    (2 ^ (-53 : ℤ)) (2 ^ 53) rfl rfl rfl (by simp) ch w ⟨0, fun _ => 1, fun _ => 0⟩
  exact ⟨w', v, h, (C78_stagnation 0 (2 ^ 53) rfl rfl rfl rfl h).1⟩

/-- `y' = y²` with the classical Runge-Kutta scheme in an arithmetic where every operation has a
relative error of exactly `u`: for small step sizes and `u` small compared to the step size the runs
have an error of at most `K G u / dt + C dt^4`. -/
example (ch : Choice) : ∃ K C δ G r : ℝ, 0 < r ∧ 0 < δ ∧ 0 < G ∧ ∀ (dt u : ℝ) (N : ℕ), 0 < dt →
    dt < δ → 0 ≤ u → u < 1 → G * u / dt ≤ r → N * dt ≤ 1 / 2 → ∀ w, ∃ w' v,
      compute (rkFloat (fun x => (1 + u) * x) (leftDot fun x => (1 + u) * x) 0 (InexactEx.envS 0))
        { adaptive := false, crit := .steps N, initialStep := fin dt }
        (ch.ck (rkFloat (fun x => (1 + u) * x) (leftDot fun x => (1 + u) * x) 0 (InexactEx.envS 0))
          { adaptive := false, crit := .steps N, initialStep := fin dt })
        (N + 1) w ⟨0, fun _ => 1, fun _ => 0⟩ = (w', .ok v) ∧
      ‖v.values - InexactEx.sol (N * dt)‖ ≤ K * (G * u / dt) + C * dt ^ 4 := by
  obtain ⟨K, r, -, hr, hE⟩ := C78_plain (q := 4) (by norm_num) (InexactEx.smooth 4)
    InexactEx.sol_solves (by norm_num) (∑ i, |(InexactEx.envS 0).T.b i|)
  obtain ⟨C, δ, G, -, hδ, hG, hE⟩ := hE _ 0 0 (InexactEx.envS 0) 0 0 (InexactEx.accurate 0) le_rfl
    fun i => by
      have : (InexactEx.envS 0).T.A i i = 0 := InexactEx.strictly i i le_rfl
      rw [this]
      exact InexactEx.inexact 0 le_rfl
  refine ⟨K, C, δ, G, r, hr, hδ, hG, fun dt u N h0 hdt hu hu1 hle hN w => ?_⟩
  have hfl : Rounds (fun x => (1 + u) * x) u := ⟨hu, hu1, fun x => by
    have : (1 + u) * x - x = u * x := by ring
    rw [this, abs_mul, abs_of_nonneg hu]⟩
  obtain ⟨hR, -, -⟩ := hE _ u _ hfl (leftDot_isDot _)
  obtain ⟨w', v, hv⟩ := rkFloat_compute (E := InexactEx.envS 0) (fun _ _ => rfl)
    (fun x => (1 + u) * x) (leftDot fun x => (1 + u) * x) 0
    { adaptive := false, crit := .steps N, initialStep := fin dt } dt N rfl rfl rfl (by simp) ch w
    ⟨0, fun _ => 1, fun _ => 0⟩
  have e3 : ((fun _ => 1 : Fin 1 → ℝ) - InexactEx.sol 0) = 0 := by
    funext x; simp [InexactEx.sol]
  obtain ⟨-, e2, -⟩ := hR 0 _ dt N (N + 1) ch w w' _ v rfl rfl rfl h0 hdt rfl rfl
    (by simpa [e3] using hle) (by simpa using hN) hv
  refine ⟨w', v, hv, ?_⟩
  simpa only [e3, norm_zero, zero_add, add_zero] using e2

end Verif.Props
