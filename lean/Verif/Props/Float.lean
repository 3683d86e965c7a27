/-
Properties about the times of runs in floating point arithmetic (C74, C75).
-/
import Verif.Float.Control
import Verif.Props.FinalTime
import Mathlib.Tactic.IntervalCases

namespace Verif.Props

open Verif.RK Verif.Control Verif.XReal Verif.Integrator Verif.Fl
open Classical

variable {D I O : Type} {B : Backend D I O} {opt : Options} {s n m o l : ℕ}
  {f : ℝ → ℝ} {u T dt : ℝ} {tm : D → ℝ} {t0 : I → ℝ} {out : O → ℝ}

/-! ### C74 -/

/-- `N` is the number of steps of size `dt` after which the rounded time is not before `T` for the
first time. -/
def FirstAt (f : ℝ → ℝ) (dt t T : ℝ) (N : ℕ) : Prop :=
  T ≤ times f dt t N ∧ ∀ k < N, times f dt t k < T

theorem timed_finished (H : Timed f T B tm t0 out) (hf : Rounds f u) (hc : opt.crit = .finalTime T)
    (it : ℕ) (d : D) : opt.crit.finished it (B.time d) ↔ T ≤ tm d := by
  rw [hc, H.time]
  simp only [Crit.finished, sub_fin, zero_def, le_fin]
  rw [sub_sub_cancel, hf.nonpos, sub_nonpos]

theorem timed_fixed_run (H : Timed f T B tm t0 out) (hf : Rounds f u) (ha : opt.adaptive = false)
    (hc : opt.crit = .finalTime T) {it : ℕ} {c : Ctrl} {x : IState D}
    {tr : List (Ctrl × IState D)} (h : Run B opt it c x tr) (hs : x.sugg = fin dt) :
    FirstAt f dt (tm x.disc) T tr.length ∧
      tm (lastOf c x tr).2.disc = times f dt (tm x.disc) tr.length ∧
      ∀ q ∈ tr, q.2.stepHist.1 = fin dt := by
  induction h with
  | @done it c x h =>
    rw [timed_finished H hf hc] at h
    exact ⟨⟨h, fun k hk => by simp at hk⟩, rfl, by simp⟩
  | @step it c x c' x' tr h hst hr ih =>
    rw [timed_finished H hf hc, not_le] at h
    obtain ⟨h', d, g1, g2, g3, g4, -⟩ := iterate_accepted hst
    obtain ⟨k1, k2, -⟩ := g4 ha
    obtain ⟨⟨i1, i2⟩, i3, i4⟩ := ih (by rw [k2, hs])
    have ht : tm x'.disc = f (tm x.disc + dt) := by
      rw [g2, H.set]
      refine H.step _ _ _ ?_
      rw [← hs, ← k1]
      exact g1
    rw [ht] at i1 i2 i3
    refine ⟨⟨i1, ?_⟩, i3, ?_⟩
    · intro k hk
      cases k with
      | zero => exact h
      | succ k => exact i2 k (by simpa using hk)
    · intro q hq
      rcases List.mem_cons.mp hq with rfl | hq
      · rw [g3, k1, hs]
      · exact i4 q hq

/-- What is returned by a run with fixed steps in floating point. -/
theorem timed_fixed (H : Timed f T B tm t0 out) (hf : Rounds f u) (ha : opt.adaptive = false)
    (hc : opt.crit = .finalTime T) (hi : opt.initialStep = fin dt) {fuel : ℕ} {ch : Choice}
    {w w' : World D (ch.Data D)} {i : I} {v : O}
    (h : compute B opt (ch.ck B opt) fuel w i = (w', .ok v)) :
    ∃ p, Path B (B.clearLin (B.load w.tis.disc i)) p w'.tis.disc ∧ (∀ q ∈ p, q.1 = fin dt) ∧
      FirstAt f dt (t0 i) T p.length ∧ out v = times f dt (t0 i) p.length := by
  obtain ⟨tr, htr, -, -, ht, -, hv, -⟩ := compute_run h
  obtain ⟨p, hp, h2, h3, h4, -⟩ := htr.path
  obtain ⟨g1, g2, g3⟩ := timed_fixed_run H hf ha hc htr hi
  rw [← ht] at hp
  have e : tm (startOf B opt w.ctrl w.tis.disc i).disc = t0 i := H.load _ _
  rw [e] at g1 g2
  refine ⟨p, hp, fun q hq => by rw [h4 ha q hq]; exact hi, by rw [h2]; exact g1, ?_⟩
  rw [hv, H.read, ht, h2, g2]

/-- While the time is before `T`, the rounded times deviate from the exact ones by at most
`u (M + dt)` per step. -/
theorem times_near (hf : Rounds f u) (hdt : 0 < dt) {t M : ℝ} (hM : |t| ≤ M) (hMT : |T| ≤ M)
    (hu : u * (M + dt) ≤ dt) {N : ℕ} (hN : ∀ k < N, times f dt t k < T) :
    |times f dt t N - (t + N * dt)| ≤ N * (u * (M + dt)) ∧ t ≤ times f dt t N := by
  induction N with
  | zero => simp [times]
  | succ N ih =>
    obtain ⟨h1, h2⟩ := ih (fun k hk => hN k (by omega))
    have h3 := hN N (by omega)
    rw [times_succ]
    set a := times f dt t N with ha
    have hab : |a + dt| ≤ M + dt := by
      rw [abs_le] at hM hMT ⊢
      constructor <;> linarith [hM.1, hM.2, hMT.1, hMT.2]
    have he : |f (a + dt) - (a + dt)| ≤ u * (M + dt) :=
      (hf.err _).trans (mul_le_mul_of_nonneg_left hab hf.nonneg)
    rw [abs_le] at he h1 ⊢
    push_cast
    refine ⟨⟨by linarith [he.1, h1.1], by linarith [he.2, h1.2]⟩, by linarith [he.1]⟩

/-- The number of steps, in terms of the exact quotient and the accumulated rounding. -/
theorem firstAt_bounds (hf : Rounds f u) (hdt : 0 < dt) {t M : ℝ} (hM : |t| ≤ M) (hMT : |T| ≤ M)
    (hu : u * (M + dt) ≤ dt) {N : ℕ} (h : FirstAt f dt t T N) :
    T ≤ t + N * dt + N * (u * (M + dt)) ∧
    (N = 0 ∨ t + (N - 1) * dt - (N - 1) * (u * (M + dt)) < T) := by
  obtain ⟨h1, h2⟩ := h
  have h3 := (times_near hf hdt hM hMT hu h2).1
  rw [abs_le] at h3
  refine ⟨by linarith [h3.2], ?_⟩
  cases N with
  | zero => exact .inl rfl
  | succ N =>
    right
    have h4 := (times_near hf hdt hM hMT hu (N := N) (fun k hk => h2 k (by omega))).1
    have h5 := h2 N (by omega)
    rw [abs_le] at h4
    push_cast
    linarith [h4.1]

/-- C74, what holds in general: if `T` is reached with `n` steps up to an error that together with
`n + 2` roundings is less than a step, the run takes `n` steps or `n + 1` steps of size `dt`. Its
final time is not before `T`. -/
theorem C74_one_more_partial (H : Timed f T B tm t0 out) (hf : Rounds f u) (hdt : 0 < dt)
    (ha : opt.adaptive = false) (hc : opt.crit = .finalTime T) (hi : opt.initialStep = fin dt)
    {fuel : ℕ} {ch : Choice} {w w' : World D (ch.Data D)} {i : I} {v : O} {M : ℝ} {n : ℕ}
    (hM : |t0 i| ≤ M) (hMT : |T| ≤ M)
    (hn : |T - (t0 i + n * dt)| + (n + 2) * (u * (M + dt)) < dt)
    (h : compute B opt (ch.ck B opt) fuel w i = (w', .ok v)) :
    ∃ p, Path B (B.clearLin (B.load w.tis.disc i)) p w'.tis.disc ∧ (∀ q ∈ p, q.1 = fin dt) ∧
      (p.length = n ∨ p.length = n + 1) ∧ T ≤ out v ∧
      |out v - (t0 i + p.length * dt)| ≤ (n + 1) * (u * (M + dt)) := by
  obtain ⟨p, h1, h2, h3, h4⟩ := timed_fixed H hf ha hc hi h
  have hMp : 0 ≤ M := (abs_nonneg _).trans hM
  have hu0 : 0 ≤ u * (M + dt) := mul_nonneg hf.nonneg (by linarith)
  have hr := abs_nonneg (T - (t0 i + n * dt))
  have hu1 : u * (M + dt) ≤ dt := by nlinarith [(Nat.cast_nonneg n : (0 : ℝ) ≤ n)]
  have hr1 := neg_abs_le (T - (t0 i + n * dt))
  have hr2 := le_abs_self (T - (t0 i + n * dt))
  obtain ⟨b1, b2⟩ := firstAt_bounds hf hdt hM hMT hu1 h3
  set e := u * (M + dt)
  have hge : n ≤ p.length := by
    by_contra hlt
    have : (p.length : ℝ) + 1 ≤ n := by exact_mod_cast not_le.mp hlt
    nlinarith
  have hle : p.length ≤ n + 1 := by
    by_contra hgt
    have h5 : ((n : ℝ) + 1) + 1 ≤ p.length := by exact_mod_cast not_le.mp hgt
    rcases b2 with b2 | b2
    · omega
    · have : e < dt := by nlinarith [(Nat.cast_nonneg n : (0 : ℝ) ≤ n)]
      have : ((p.length : ℝ) - 1) * (dt - e) < T - t0 i := by linarith
      have : ((n : ℝ) + 1) * (dt - e) ≤ ((p.length : ℝ) - 1) * (dt - e) :=
        mul_le_mul_of_nonneg_right (by linarith) (by linarith)
      nlinarith
  refine ⟨p, h1, h2, by omega, ?_, ?_⟩
  · rw [h4]; exact h3.1
  · rw [h4]
    refine (times_near hf hdt hM hMT hu1 h3.2).1.trans (mul_le_mul_of_nonneg_right ?_ hu0)
    exact_mod_cast hle

/-- C74 for both Runge-Kutta discretizations with rounded times, whatever problem and scheme: `n` or
`n + 1` steps, not ending before `T`. -/
theorem C74_runge_kutta_partial (E : Env s n m o l) (bhat : Fin s → ℝ) (hf : Rounds f u)
    (hdt : 0 < dt) (ha : opt.adaptive = false) (hc : opt.crit = .finalTime T)
    (hi : opt.initialStep = fin dt) {fuel : ℕ} {ch : Choice} {i : StartingValues ℝ n m}
    {v : Outputs n} {M : ℝ} {N : ℕ} (hM : |i.initialTime| ≤ M) (hMT : |T| ≤ M)
    (hn : |T - (i.initialTime + N * dt)| + (N + 2) * (u * (M + dt)) < dt) :
    (∀ w w', compute (rkTimed f T E) opt (ch.ck (rkTimed f T E) opt) fuel w i = (w', .ok v) →
      T ≤ v.time ∧ ∃ K : ℕ, (K = N ∨ K = N + 1) ∧
        |v.time - (i.initialTime + K * dt)| ≤ (N + 1) * (u * (M + dt))) ∧
    (∀ w w', compute (embTimed f T E bhat) opt (ch.ck (embTimed f T E bhat) opt) fuel w i
        = (w', .ok v) →
      T ≤ v.time ∧ ∃ K : ℕ, (K = N ∨ K = N + 1) ∧
        |v.time - (i.initialTime + K * dt)| ≤ (N + 1) * (u * (M + dt))) := by
  refine ⟨fun w w' h => ?_, fun w w' h => ?_⟩
  · obtain ⟨p, -, -, h3, h4, h5⟩ :=
      C74_one_more_partial (rkTimed_timed f T E) hf hdt ha hc hi hM hMT hn h
    exact ⟨h4, _, h3, h5⟩
  · obtain ⟨p, -, -, h3, h4, h5⟩ :=
      C74_one_more_partial (embTimed_timed f T E bhat) hf hdt ha hc hi hM hMT hn h
    exact ⟨h4, _, h3, h5⟩

/-- The number of a finished count is unique. -/
theorem FirstAt.unique {t : ℝ} {N K : ℕ} (h : FirstAt f dt t T N) (h' : FirstAt f dt t T K) :
    N = K := by
  rcases lt_trichotomy N K with hlt | heq | hlt
  · exact absurd (h'.2 N hlt) (not_lt.mpr h.1)
  · exact heq
  · exact absurd (h.2 K hlt) (not_lt.mpr h'.1)

/-- Multiples of a power of two stay exact as long as they have 53 bits. -/
theorem times_exact {a b q : ℤ} {N : ℕ} (hN : ∀ k ≤ N, |b + k * a| < 2 ^ 53) :
    ∀ k ≤ N, times rnd (a * 2 ^ q) (b * 2 ^ q) k = (b * 2 ^ q : ℝ) + k * (a * 2 ^ q) := by
  intro k
  induction k with
  | zero => simp [times]
  | succ k ih =>
    intro hk
    rw [times_succ, ih (by omega)]
    have hfl : IsFloat ((b * 2 ^ q : ℝ) + k * (a * 2 ^ q) + a * 2 ^ q) :=
      ⟨b + (k + 1 : ℕ) * a, q, hN (k + 1) hk, by push_cast; ring⟩
    rw [hfl.rnd_eq]
    push_cast
    ring

/-- C74, exact times: if initial time and step size are multiples of a power of two such that the
times have at most 53 significant bits, a run in binary64 takes exactly `⌈(T - t0) / dt⌉` steps and
ends at `t0 + N dt`. -/
theorem C74_exact_partial (H : Timed rnd T B tm t0 out) (hdt : 0 < dt)
    (ha : opt.adaptive = false) (hc : opt.crit = .finalTime T) (hi : opt.initialStep = fin dt)
    {fuel : ℕ} {ch : Choice} {w w' : World D (ch.Data D)} {i : I} {v : O} {a b q : ℤ}
    (hq : dt = a * 2 ^ q) (hb : t0 i = b * 2 ^ q)
    (hN : ∀ k ≤ ⌈(T - t0 i) / dt⌉₊, |b + k * a| < 2 ^ 53)
    (h : compute B opt (ch.ck B opt) fuel w i = (w', .ok v)) :
    ∃ p, Path B (B.clearLin (B.load w.tis.disc i)) p w'.tis.disc ∧ (∀ q ∈ p, q.1 = fin dt) ∧
      p.length = ⌈(T - t0 i) / dt⌉₊ ∧ out v = t0 i + ⌈(T - t0 i) / dt⌉₊ * dt := by
  obtain ⟨p, h1, h2, h3, h4⟩ := timed_fixed H rnd_rounds ha hc hi h
  have hex := times_exact (q := q) hN
  rw [← hq, ← hb] at hex
  have hfirst : FirstAt rnd dt (t0 i) T ⌈(T - t0 i) / dt⌉₊ := by
    constructor
    · rw [hex _ le_rfl]
      have := Nat.le_ceil ((T - t0 i) / dt)
      rw [div_le_iff₀ hdt] at this
      linarith
    · intro k hk
      rw [hex k hk.le]
      have := Nat.lt_ceil.mp hk
      rw [lt_div_iff₀ hdt] at this
      linarith
  have hlen := h3.unique hfirst
  refine ⟨p, h1, h2, hlen, ?_⟩
  rw [h4, hlen, hex _ le_rfl]

/-- The double nearest to 1/10: Python's `0.1`. -/
noncomputable def tenth : ℝ := 7205759403792794 * 2 ^ (-56 : ℤ)

theorem tenth_nearest : rnd (1 / 10) = tenth := by
  have h2 : (2 : ℝ) ^ (52 : ℤ) = 4503599627370496 := by norm_num
  have h3 : (2 : ℝ) ^ (53 : ℤ) = 9007199254740992 := by norm_num
  have h4 : (2 : ℝ) ^ (-56 : ℤ) = 1 / 72057594037927936 := by norm_num
  rw [Verif.Fl.rnd_eq (e := -56) (by rw [h2, h4, abs_of_pos] <;> norm_num)
    (by rw [h3, h4, abs_of_pos] <;> norm_num), rne_eq (k := 7205759403792794)]
  · unfold tenth; norm_cast
  · left
    rw [h4, abs_lt]
    constructor <;> norm_num

/-- The time after `k` additions of `0.1`, in units of 2^-56. -/
def tenthTimes : List ℤ :=
  [0, 7205759403792794, 14411518807585588, 21617278211378384,
    28823037615171176, 36028797018963968, 43234556422756760, 50440315826549552,
    57646075230342344, 64851834634135136, 72057594037927928, 79263353441720720]

theorem tenth_times (k : ℕ) (hk : k < 12) :
    times rnd tenth 0 k = (tenthTimes.getD k 0 : ℝ) * 2 ^ (-56 : ℤ) := by
  have step : ∀ (a A r : ℤ) (j : ℕ), A = a + 7205759403792794 → 2 ^ (52 + j) ≤ A →
      A < 2 ^ (53 + j) →
      (2 * |A - r * 2 ^ j| < 2 ^ j ∨ (2 * |A - r * 2 ^ j| = 2 ^ j ∧ Even r)) →
      rnd ((a : ℝ) * 2 ^ (-56 : ℤ) + tenth) = ((r * 2 ^ j : ℤ) : ℝ) * 2 ^ (-56 : ℤ) := by
    intro a A r j hA h1 h2 h3
    rw [← rnd_units h1 h2 h3, hA, tenth]
    congr 1
    push_cast
    ring
  have s0 := step 0 7205759403792794 7205759403792794 0 (by decide) (by decide) (by decide) (by decide)
  have s1 := step 7205759403792794 14411518807585588 7205759403792794 1 (by decide) (by decide) (by decide) (by decide)
  have s2 := step 14411518807585588 21617278211378382 5404319552844596 2 (by decide) (by decide) (by decide) (by decide)
  have s3 := step 21617278211378384 28823037615171178 7205759403792794 2 (by decide) (by decide) (by decide) (by decide)
  have s4 := step 28823037615171176 36028797018963970 4503599627370496 3 (by decide) (by decide) (by decide) (by decide)
  have s5 := step 36028797018963968 43234556422756762 5404319552844595 3 (by decide) (by decide) (by decide) (by decide)
  have s6 := step 43234556422756760 50440315826549554 6305039478318694 3 (by decide) (by decide) (by decide) (by decide)
  have s7 := step 50440315826549552 57646075230342346 7205759403792793 3 (by decide) (by decide) (by decide) (by decide)
  have s8 := step 57646075230342344 64851834634135138 8106479329266892 3 (by decide) (by decide) (by decide) (by decide)
  have s9 := step 64851834634135136 72057594037927930 9007199254740991 3 (by decide) (by decide) (by decide) (by decide)
  have s10 := step 72057594037927928 79263353441720722 4953959590107545 4 (by decide) (by decide) (by decide) (by decide)
  have e0 : times rnd tenth 0 0 = ((0 : ℤ) : ℝ) * 2 ^ (-56 : ℤ) := by simp [times]
  have e1 : times rnd tenth 0 1 = ((7205759403792794 : ℤ) : ℝ) * 2 ^ (-56 : ℤ) := by
    rw [times_succ, e0, s0]; norm_num
  have e2 : times rnd tenth 0 2 = ((14411518807585588 : ℤ) : ℝ) * 2 ^ (-56 : ℤ) := by
    rw [times_succ, e1, s1]; norm_num
  have e3 : times rnd tenth 0 3 = ((21617278211378384 : ℤ) : ℝ) * 2 ^ (-56 : ℤ) := by
    rw [times_succ, e2, s2]; norm_num
  have e4 : times rnd tenth 0 4 = ((28823037615171176 : ℤ) : ℝ) * 2 ^ (-56 : ℤ) := by
    rw [times_succ, e3, s3]; norm_num
  have e5 : times rnd tenth 0 5 = ((36028797018963968 : ℤ) : ℝ) * 2 ^ (-56 : ℤ) := by
    rw [times_succ, e4, s4]; norm_num
  have e6 : times rnd tenth 0 6 = ((43234556422756760 : ℤ) : ℝ) * 2 ^ (-56 : ℤ) := by
    rw [times_succ, e5, s5]; norm_num
  have e7 : times rnd tenth 0 7 = ((50440315826549552 : ℤ) : ℝ) * 2 ^ (-56 : ℤ) := by
    rw [times_succ, e6, s6]; norm_num
  have e8 : times rnd tenth 0 8 = ((57646075230342344 : ℤ) : ℝ) * 2 ^ (-56 : ℤ) := by
    rw [times_succ, e7, s7]; norm_num
  have e9 : times rnd tenth 0 9 = ((64851834634135136 : ℤ) : ℝ) * 2 ^ (-56 : ℤ) := by
    rw [times_succ, e8, s8]; norm_num
  have e10 : times rnd tenth 0 10 = ((72057594037927928 : ℤ) : ℝ) * 2 ^ (-56 : ℤ) := by
    rw [times_succ, e9, s9]; norm_num
  have e11 : times rnd tenth 0 11 = ((79263353441720720 : ℤ) : ℝ) * 2 ^ (-56 : ℤ) := by
    rw [times_succ, e10, s10]; norm_num
  interval_cases k
  · exact e0
  · exact e1
  · exact e2
  · exact e3
  · exact e4
  · exact e5
  · exact e6
  · exact e7
  · exact e8
  · exact e9
  · exact e10
  · exact e11

theorem tenth_firstAt : FirstAt rnd tenth 0 1 11 := by
  have h4 : (2 : ℝ) ^ (-56 : ℤ) = 1 / 72057594037927936 := by norm_num
  constructor
  · rw [tenth_times 11 (by norm_num), h4]
    norm_num [tenthTimes]
  · intro k hk
    rw [tenth_times k (by omega), h4]
    interval_cases k <;> norm_num [tenthTimes]

/-- C74 is violated: with steps of `0.1` from time 0 to the final time 1, where ten steps are enough
in exact arithmetic also for the double nearest to 1/10, every run in binary64 takes eleven steps,
because ten additions give 0.9999999999999999; it ends at 1.0999999999999999. -/
theorem C74_tenth_violated (H : Timed rnd 1 B tm t0 out) (ha : opt.adaptive = false)
    (hc : opt.crit = .finalTime 1) (hi : opt.initialStep = fin (rnd (1 / 10)))
    {fuel : ℕ} {ch : Choice} {w w' : World D (ch.Data D)} {i : I} {v : O} (hz : t0 i = 0)
    (h : compute B opt (ch.ck B opt) fuel w i = (w', .ok v)) :
    ⌈((1 : ℝ) - t0 i) / rnd (1 / 10)⌉₊ = 10 ∧
    (∃ p, Path B (B.clearLin (B.load w.tis.disc i)) p w'.tis.disc ∧ p.length = 11 ∧
      ∀ q ∈ p, q.1 = fin (rnd (1 / 10))) ∧
    (1.09 : ℝ) < out v ∧ out v < 1.1 := by
  have h4 : (2 : ℝ) ^ (-56 : ℤ) = 1 / 72057594037927936 := by norm_num
  obtain ⟨p, h1, h2, h3, h5⟩ := timed_fixed H rnd_rounds ha hc hi h
  rw [tenth_nearest, hz] at *
  have hlen := h3.unique tenth_firstAt
  refine ⟨?_, ⟨p, h1, hlen, h2⟩, ?_⟩
  · rw [Nat.ceil_eq_iff (by norm_num), tenth, h4]
    norm_num
  · rw [h5, hlen, tenth_times 11 (by norm_num), h4]
    norm_num [tenthTimes]

/-- C74 is violated, no progress: with a step size that is too small for the time, here from time 1
to 2 with steps of 2^-53, the time stays where it is and no run ever returns a result, however many
steps it is given. -/
theorem C74_no_progress_violated (H : Timed rnd 2 B tm t0 out) (ha : opt.adaptive = false)
    (hc : opt.crit = .finalTime 2) (hi : opt.initialStep = fin (2 ^ (-53 : ℤ)))
    (fuel : ℕ) {ch : Choice} (w : World D (ch.Data D)) {i : I} (hz : t0 i = 1) (v : O) :
    (compute B opt (ch.ck B opt) fuel w i).2 ≠ .ok v := by
  intro h
  obtain ⟨p, -, -, h3, -⟩ := timed_fixed H rnd_rounds ha hc hi (Prod.ext rfl h)
  rw [hz] at h3
  have hstay : ∀ k, times rnd (2 ^ (-53 : ℤ)) 1 k = 1 := by
    intro k
    induction k with
    | zero => rfl
    | succ k ih =>
      rw [times_succ, ih]
      have := rnd_units (A := 2 ^ 53 + 1) (k := 2 ^ 52) (q := -53) (j := 1) (by norm_num)
        (by norm_num) (.inr ⟨by norm_num, by decide⟩)
      have e : ((2 ^ 53 + 1 : ℤ) : ℝ) * 2 ^ (-53 : ℤ) = 1 + 2 ^ (-53 : ℤ) := by norm_num
      rw [e] at this
      rw [this]
      norm_num
  have := h3.1
  rw [hstay] at this
  norm_num at this

theorem run_of_firstAt (H : Timed f T B tm t0 out) (hf : Rounds f u) (ha : opt.adaptive = false)
    (hc : opt.crit = .finalTime T) (hl : opt.recursionLimit ≠ 0)
    (hok : ∀ d h, ∃ e, B.step d (fin h) = .ok e) (c : Ctrl) {N : ℕ} :
    ∀ (it : ℕ) (x : IState D), x.sugg = fin dt → FirstAt f dt (tm x.disc) T N →
    ∃ tr, Run B opt it c x tr ∧ tr.length = N := by
  obtain ⟨r, hr⟩ := Nat.exists_eq_succ_of_ne_zero hl
  induction N with
  | zero =>
    intro it x hs h
    exact ⟨[], .done ((timed_finished H hf hc _ _).mpr h.1), rfl⟩
  | succ N ih =>
    intro it x hs h
    obtain ⟨e, he⟩ := hok x.disc dt
    have ht := H.step _ _ _ he
    obtain ⟨tr, h1, h2⟩ := ih (it + 1)
      { x with disc := B.set x.disc e, stepHist := (x.sugg, x.stepHist.2) } hs (by
        dsimp only
        rw [H.set, ht]
        exact ⟨h.1, fun k hk => h.2 (k + 1) (by omega)⟩)
    refine ⟨_, .step ?_ ?_ h1, by rw [List.length_cons, h2]⟩
    · rw [timed_finished H hf hc, not_le]
      exact h.2 0 (by omega)
    · rw [hr, iterate_fixed ha, hs, he]

/-- C74, the run ends: if the step size is larger than a rounding error of the times, and no step
fails, `compute` returns a result. -/
theorem C74_ends_partial (H : Timed f T B tm t0 out) (hf : Rounds f u) (hdt : 0 < dt)
    (ha : opt.adaptive = false) (hc : opt.crit = .finalTime T) (hi : opt.initialStep = fin dt)
    (hl : opt.recursionLimit ≠ 0) (hok : ∀ d h, ∃ e, B.step d (fin h) = .ok e) {ch : Choice}
    (w : World D (ch.Data D)) {i : I} {M : ℝ} (hM : |t0 i| ≤ M) (hMT : |T| ≤ M)
    (hu : u * (M + dt) < dt) (fuel : ℕ)
    (hfuel : ⌈(T - t0 i) / (dt - u * (M + dt))⌉₊ < fuel) :
    ∃ w' v, compute B opt (ch.ck B opt) fuel w i = (w', .ok v) := by
  set K := ⌈(T - t0 i) / (dt - u * (M + dt))⌉₊ with hK
  have hex : ∃ k, k ≤ K ∧ T ≤ times f dt (t0 i) k := by
    by_contra hno
    push Not at hno
    have h1 := (times_near hf hdt hM hMT hu.le (fun k hk => hno k (le_of_lt hk) : ∀ k < K, _)).1
    have h2 := hno K le_rfl
    have h3 := Nat.le_ceil ((T - t0 i) / (dt - u * (M + dt)))
    rw [← hK, div_le_iff₀ (by linarith)] at h3
    rw [abs_le] at h1
    linarith [h1.1]
  have hex' : ∃ k, T ≤ times f dt (t0 i) k := hex.imp fun k h => h.2
  have hfirst : FirstAt f dt (t0 i) T (Nat.find hex') :=
    ⟨Nat.find_spec hex', fun k hk => not_le.mp (Nat.find_min hex' hk)⟩
  obtain ⟨k, hk1, hk2⟩ := hex
  have hle : Nat.find hex' ≤ K := (Nat.find_min' hex' hk2).trans hk1
  obtain ⟨tr, h1, h2⟩ := run_of_firstAt H hf ha hc hl hok w.ctrl 0
    (startOf B opt w.ctrl w.tis.disc i) hi (by
      have : tm (startOf B opt w.ctrl w.tis.disc i).disc = t0 i := H.load _ _
      rw [this]; exact hfirst)
  exact ⟨_, _, compute_of_run h1 (by omega)⟩

/-- Starting at time 0. -/
def inpZero : StartingValues ℝ 1 1 := ⟨0, fun _ => 1, fun _ => 1⟩

/-- Fixed steps of `0.1` to the final time 1. -/
noncomputable def optTenth : Options :=
  { adaptive := false, crit := .finalTime 1, initialStep := fin (rnd (1 / 10)) }

theorem rkTimed_ok (E : Env s n m o l) (hE : ∀ v h, E.fails v h = none) (d : RKState ℝ s n m o l)
    (h : ℝ) : ∃ e, (rkTimed f T E).step d (fin h) = .ok e := by
  simp only [rkTimed, rkBackend, hE]
  exact ⟨_, rfl⟩

/-- The run with steps of `0.1` exists: it takes eleven steps and ends after 1.09. -/
example (ch : Choice) : ∃ w' v, compute (rkTimed rnd 1 Integrator.Ex.env) optTenth
      (ch.ck (rkTimed rnd 1 Integrator.Ex.env) optTenth) 100
      (freshWorld optTenth (ch.ck (rkTimed rnd 1 Integrator.Ex.env) optTenth) RKState.empty
        (.base (integral 1) Config.default)) inpZero = (w', .ok v) ∧ 1.09 < v.time := by
  have hden : tenth - 1 / 2 ^ 53 * (1 + tenth) > 1 / 11 := by
    have h4 : (2 : ℝ) ^ (-56 : ℤ) = 1 / 72057594037927936 := by norm_num
    rw [tenth, h4]
    norm_num
  have hceil : ⌈((1 : ℝ) - 0) / (tenth - 1 / 2 ^ 53 * (1 + tenth))⌉₊ < 100 := by
    have : ⌈((1 : ℝ) - 0) / (tenth - 1 / 2 ^ 53 * (1 + tenth))⌉₊ ≤ 11 := by
      rw [Nat.ceil_le, div_le_iff₀ (by linarith)]
      push_cast
      linarith
    omega
  have h0 : 0 < tenth := by unfold tenth; positivity
  obtain ⟨w', v, h⟩ := C74_ends_partial (rkTimed_timed rnd 1 Integrator.Ex.env) rnd_rounds h0
    (opt := optTenth) rfl rfl (by rw [← tenth_nearest]; rfl) (by simp [optTenth])
    (rkTimed_ok Integrator.Ex.env (fun _ _ => rfl)) (ch := ch)
    (freshWorld optTenth (ch.ck (rkTimed rnd 1 Integrator.Ex.env) optTenth) RKState.empty
        (.base (integral 1) Config.default)) (i := inpZero) (M := 1) (by simp [inpZero]) (by simp)
    (by linarith) 100 hceil
  exact ⟨w', v, h, (C74_tenth_violated (rkTimed_timed rnd 1 Integrator.Ex.env) rfl rfl rfl rfl h).2.2.1⟩

/-- The general bound applies to it: ten or eleven steps. -/
example : |(1 : ℝ) - (0 + (10 : ℕ) * tenth)| + ((10 : ℕ) + 2) * (1 / 2 ^ 53 * (1 + tenth))
    < tenth := by
  have h4 : (2 : ℝ) ^ (-56 : ℤ) = 1 / 72057594037927936 := by norm_num
  rw [tenth, h4, abs_of_neg (by norm_num)]
  norm_num

/-- Steps of 1/8 from 0 to 1 meet the hypotheses of `C74_exact_partial`: eight steps. -/
example : ∀ k ≤ ⌈((1 : ℝ) - 0) / (1 / 8)⌉₊, |(0 : ℤ) + k * 1| < 2 ^ 53 := by
  intro k hk
  have : ⌈((1 : ℝ) - 0) / (1 / 8)⌉₊ = 8 := by
    rw [Nat.ceil_eq_iff (by norm_num)]; norm_num
  rw [this] at hk
  rw [abs_of_nonneg (by positivity)]
  omega

/-! ### C75 -/

/-- What the runs in floating point need of the arithmetic of the controller: rounding keeps the sign
of what is not negative, and numbers in binary64. -/
structure Sound (A : Arith) : Prop where
  nonneg : ∀ x, 0 ≤ x → 0 ≤ A.rd x
  keeps : ∀ x, A.rd (rnd x) = rnd x

theorem sound_exact : Sound .exact := ⟨fun _ h => h, fun _ => rfl⟩

/-- Sums rounded to binary64, any computation of the estimates. -/
theorem sound_rnd (est : Params → Config → Input → XReal) : Sound ⟨rnd, est⟩ :=
  ⟨fun x h => by simpa [rnd_zero] using rnd_mono h, fun x => (isFloat_rnd x).rnd_eq⟩

/-- A suggestion is a number between the lower bound and the time left. -/
theorem suggFl_bounds {A : Arith} {top : Bool} {c : Ctrl} {i : Input} {st : Status} {h r lo : ℝ}
    (hdt : i.dt = fin h) (hr : i.rem = fin r) (hlo : c.config.lower = fin lo)
    (hc : (callFl A top c i).2 = .ok st) :
    ∃ h', st.sugg = fin h' ∧ h' ≤ A.rd (if st.acc then r else r + h) ∧
      (lo ≤ h' ∨ h' = A.rd (if st.acc then r else r + h)) := by
  obtain ⟨par, rfl⟩ := callFl_ok_run hc
  rw [runFl_sugg par _ i h hdt]
  have hL : timeLeftFl A i (runFl A par c.config i).acc
      = fin (A.rd (if (runFl A par c.config i).acc then r else r + h)) := by
    unfold timeLeftFl
    rw [hdt, hr]
    split <;> rfl
  rw [hL, hlo]
  generalize A.rd (if (runFl A par c.config i).acc then r else r + h) = L
  generalize pyMin c.config.upper _ = y
  unfold pyMin
  split
  · rename_i hlt
    unfold pyMax at hlt ⊢
    split
    · rename_i hy
      rw [if_pos hy] at hlt
      cases y with
      | fin z => exact ⟨z, rfl, _root_.le_of_lt hlt, .inl (_root_.le_of_lt hy)⟩
      | nan => exact absurd hlt id
      | pinf => exact absurd hlt id
      | ninf => exact absurd hy id
    · rename_i hy
      rw [if_neg hy] at hlt
      exact ⟨lo, rfl, _root_.le_of_lt hlt, .inl le_rfl⟩
  · exact ⟨L, rfl, le_rfl, .inr rfl⟩

/-- A suggestion is at most the upper bound. -/
theorem suggFl_upper {A : Arith} {top : Bool} {c : Ctrl} {i : Input} {st : Status} {h : ℝ}
    (hdt : i.dt = fin h) (hr : i.rem ≠ nan) (hb : le c.config.lower c.config.upper)
    (hc : (callFl A top c i).2 = .ok st) : le st.sugg c.config.upper := by
  obtain ⟨par, rfl⟩ := callFl_ok_run hc
  rw [runFl_sugg par _ i h hdt]
  refine XReal.le_trans (pyMin_le_right (timeLeftFl_ne_nan hdt hr)
    (pyMax_ne_nan (ne_nan_of_le_left hb))) ?_
  exact pyMax_le hb (pyMin_le_left (ne_nan_of_le_right hb))

/-- The step size up to which no rounding leads past `T`. -/
noncomputable def shortStep (T : ℝ) : ℝ := max (-T) (T / 2)

/-- Times for which the remaining time is exact: not below `T / 2` (for negative `T`, `2 T`). -/
def Close (T t : ℝ) : Prop := T = 0 ∨ min (T / 2) (2 * T) ≤ t

theorem Close.mono {t y : ℝ} (h : Close T t) (hy : t ≤ y) : Close T y := h.imp id fun h => h.trans hy

theorem Close.exact {t : ℝ} (hT : IsFloat T) (ht : IsFloat t) (htT : t < T) (h : Close T t) :
    IsFloat (T - t) := by
  rcases h with rfl | h
  · rw [zero_sub]
    exact ht.neg
  rcases le_or_gt T 0 with h0 | h0
  · rw [min_eq_right (by linarith)] at h
    have := sterbenz ht.neg hT.neg (by linarith) (by linarith) (by linarith)
    convert this using 1
    ring
  · rw [min_eq_left (by linarith)] at h
    exact sterbenz hT ht (by linarith) (by linarith) (by linarith)

/-- Where a step can lead that is not longer than the rounded remaining time. -/
theorem step_to {t h : ℝ} (hT : IsFloat T) (ht : IsFloat t) (htT : t < T)
    (h1 : h ≤ rnd (T - t)) :
    rnd (t + h) ≤ T + (T - t) / 2 ^ 52 ∧ (Close T t ∨ h ≤ shortStep T → rnd (t + h) ≤ T) := by
  constructor
  · rcases le_or_gt (t + h) T with hle | hgt
    · have := le_float hT hle
      have : 0 ≤ (T - t) / 2 ^ 52 := div_nonneg (by linarith) (by norm_num)
      linarith
    · have e1 := abs_le.mp (rnd_err (T - t))
      rw [abs_of_pos (by linarith)] at e1
      have e2 := rnd_nearest (t + h) hT
      rw [abs_of_neg (by linarith : T - (t + h) < 0)] at e2
      have e3 := le_abs_self (rnd (t + h) - (t + h))
      have e4 : (T - t) / 2 ^ 52 = 2 * (1 / 2 ^ 53 * (T - t)) := by ring
      linarith [e1.2]
  · intro hc
    refine le_float hT ?_
    by_cases hcl : Close T t
    · rw [(hcl.exact hT ht htT).rnd_eq] at h1
      linarith
    · have hsh := hc.resolve_left hcl
      unfold Close at hcl
      push Not at hcl
      obtain ⟨hne, hlt⟩ := hcl
      unfold shortStep at hsh
      rcases le_or_gt T 0 with h0 | h0
      · rw [min_eq_right (by linarith)] at hlt
        rw [max_eq_left (by linarith)] at hsh
        linarith
      · rw [min_eq_left (by linarith)] at hlt
        rw [max_eq_right (by linarith)] at hsh
        linarith

/-- What a rejected step leaves is not negative. -/
theorem left_nonneg {t h : ℝ} (hT : IsFloat T) (ht : IsFloat t) (htT : t < T)
    (h0 : 0 ≤ h) (h1 : h ≤ rnd (T - t)) : 0 ≤ rnd (T - rnd (t + h)) + h := by
  obtain ⟨a, -⟩ := step_to hT ht htT h1
  by_cases hle : rnd (t + h) ≤ T
  · have : 0 ≤ rnd (T - rnd (t + h)) := by
      have := rnd_mono (sub_nonneg.mpr hle)
      rwa [rnd_zero] at this
    linarith
  · have hgt : T < t + h := by
      by_contra hc
      exact hle (le_float hT (not_lt.mp hc))
    rw [not_le] at hle
    have e := abs_le.mp (rnd_err (T - rnd (t + h)))
    rw [abs_of_neg (by linarith)] at e
    have hd : rnd (t + h) - T ≤ h / 2 ^ 52 := by
      have : (T - t) / 2 ^ 52 ≤ h / 2 ^ 52 := by
        gcongr
        linarith
      linarith
    have h2 : h / 2 ^ 52 + 1 / 2 ^ 53 * (h / 2 ^ 52) ≤ h := by
      have : (1 / 2 ^ 52 + 1 / 2 ^ 53 * (1 / 2 ^ 52) : ℝ) ≤ 1 := by norm_num
      have := mul_le_mul_of_nonneg_left this h0
      calc _ = h * (1 / 2 ^ 52 + 1 / 2 ^ 53 * (1 / 2 ^ 52)) := by ring
        _ ≤ _ := by linarith
    have h3 : (1 : ℝ) / 2 ^ 53 * -(T - rnd (t + h)) ≤ 1 / 2 ^ 53 * (h / 2 ^ 52) := by
      gcongr
      linarith
    linarith [e.1]

/-- Times and steps of an adaptive run in binary64 that started at `t`; with `S` the steps are
short. -/
def FlWithin (tm : D → ℝ) (T t : ℝ) (S : Prop) (x : IState D) : Prop :=
  IsFloat (tm x.disc) ∧ tm x.disc ≤ T + (T - t) / 2 ^ 52 ∧
  ∃ h, x.sugg = fin h ∧ (tm x.disc < T → 0 ≤ h ∧ h ≤ rnd (T - tm x.disc)) ∧
    (S → tm x.disc ≤ T ∧ (Close T (tm x.disc) ∨ h ≤ shortStep T))

/-- Configurations of controllers: with `S` the upper bound is short, unless the run starts close to
`T`. -/
def FlConfig (T t : ℝ) (S : Prop) (cfg : Config) : Prop :=
  (∃ lo, cfg.lower = fin lo ∧ 0 ≤ lo) ∧
  (S → Close T t ∨ (le cfg.lower cfg.upper ∧ le cfg.upper (fin (shortStep T))))

theorem fl_iterate {A : Arith} (hA : Sound A) {S : Prop} {t : ℝ} (H : Timed rnd T B tm t0 out) (hT : IsFloat T)
    (ha : opt.adaptive = true) (hc : opt.crit = .finalTime T) (r : ℕ) (c : Ctrl)
    (hcfg : FlConfig T t S c.config) (x : IState D) (hx : FlWithin tm T t S x)
    (hxt : t ≤ tm x.disc) (hlt : tm x.disc < T) :
    FlWithin tm T t S (iterateFl A B opt r c x).2.1 ∧
    t ≤ tm (iterateFl A B opt r c x).2.1.disc ∧
    FlConfig T t S (iterateFl A B opt r c x).1.config := by
  induction r generalizing c x with
  | zero => exact ⟨hx, hxt, hcfg⟩
  | succ r ih =>
    obtain ⟨hfl, hxb, h, hh, hle, hS⟩ := id hx
    obtain ⟨hp, hle⟩ := hle hlt
    simp only [iterateFl]
    rcases hs : B.step x.disc x.sugg with e | d
    · exact ⟨hx, hxt, hcfg⟩
    dsimp only
    rw [if_pos ha]
    rcases hm : B.measure d with e | err
    · exact ⟨hx, hxt, hcfg⟩
    dsimp only
    have hcf := callFl_config (A := A) true c ⟨err, x.sugg, opt.crit.remaining (B.time d), x.errHist,
      x.stepHist⟩
    rw [hh] at hs
    have htime : tm d = rnd (tm x.disc + h) := H.step _ _ _ hs
    have hrem : opt.crit.remaining (B.time d) = fin (rnd (T - tm d)) := by
      rw [hc, H.time]
      simp only [Crit.remaining, sub_fin, sub_sub_cancel]
    rcases hcall : callFl A true c ⟨err, x.sugg, opt.crit.remaining (B.time d), x.errHist, x.stepHist⟩
      with ⟨c', e | st⟩
    · rw [hcall] at hcf
      dsimp only at hcf ⊢
      exact ⟨hx, hxt, by rw [hcf]; exact hcfg⟩
    rw [hcall] at hcf
    dsimp only at hcf ⊢
    obtain ⟨⟨lo, hlo, hlo0⟩, hup⟩ := id hcfg
    have hcall2 : (callFl A true c ⟨err, x.sugg, opt.crit.remaining (B.time d), x.errHist,
      x.stepHist⟩).2 = .ok st := by rw [hcall]
    obtain ⟨h', e1, e2, hlow⟩ := suggFl_bounds (c := c) (st := st) hh hrem hlo hcall2
    have hcfg' : FlConfig T t S c'.config := by rw [hcf]; exact hcfg
    -- with short steps the next one is short, too
    have hshort : S → ∀ y, t ≤ y → Close T y ∨ h' ≤ shortStep T := by
      intro hs y hy
      rcases hup hs with hup | ⟨u1, u2⟩
      · exact .inl (hup.mono hy)
      · right
        have := suggFl_upper hh (by rw [hrem]; simp) u1 hcall2
        rw [e1] at this
        exact XReal.le_trans this u2
    by_cases hacc : st.acc = true
    · rw [if_pos hacc] at e2 hlow ⊢
      obtain ⟨a1, a2⟩ := step_to hT hfl hlt hle
      have hge : tm x.disc ≤ tm d := by
        rw [htime]
        exact float_le hfl (by linarith)
      refine ⟨⟨?_, ?_, h', e1, ?_, ?_⟩, ?_, hcfg'⟩
      · dsimp only
        rw [H.set, htime]
        exact isFloat_rnd _
      · dsimp only
        rw [H.set, htime]
        refine a1.trans ?_
        gcongr
      · dsimp only
        rw [H.set]
        intro hlt'
        rw [hA.keeps] at e2 hlow
        refine ⟨?_, e2⟩
        rcases hlow with hlow | hlow
        · exact hlo0.trans hlow
        · rw [hlow]
          have := rnd_mono (sub_nonneg.mpr hlt'.le)
          rwa [rnd_zero] at this
      · dsimp only
        rw [H.set]
        intro hs
        refine ⟨?_, hshort hs _ (hxt.trans hge)⟩
        rw [htime]
        exact a2 (hS hs).2
      · dsimp only
        rw [H.set]
        linarith
    · rw [if_neg hacc] at e2 hlow ⊢
      have hrej := callFl_rejected hcall2 (by simpa using hacc)
      dsimp only at hrej
      rw [hh, e1] at hrej
      have hrej' : h' ≤ h := not_lt.mp hrej
      refine ih c' hcfg' _ ⟨hfl, hxb, h', e1, fun _ => ⟨?_, hrej'.trans hle⟩, fun hs =>
        ⟨(hS hs).1, ?_⟩⟩ hxt hlt
      · rcases hlow with hlow | hlow
        · exact hlo0.trans hlow
        · rw [hlow, htime]
          exact hA.nonneg _ (left_nonneg hT hfl hlt hp hle)
      · exact (hS hs).2.imp id fun h2 => hrej'.trans h2

/-- The state a callback sees. -/
def evDisc : Ev D → D
  | .before _ _ _ x => x.disc
  | .after _ _ _ x => x.disc

theorem fl_forward {A : Arith} (hA : Sound A) {S : Prop} {t : ℝ} (H : Timed rnd T B tm t0 out) (hT : IsFloat T)
    (ha : opt.adaptive = true) (hc : opt.crit = .finalTime T) (fuel it : ℕ) (c : Ctrl)
    (hcfg : FlConfig T t S c.config) (x : IState D) (hx : FlWithin tm T t S x)
    (hxt : t ≤ tm x.disc) :
    FlWithin tm T t S (noForwardFl A B opt fuel it c x).st ∧
    (∀ ev ∈ (noForwardFl A B opt fuel it c x).log,
      tm (evDisc ev) ≤ T + (T - t) / 2 ^ 52 ∧ (S → tm (evDisc ev) ≤ T)) ∧
    ((noForwardFl A B opt fuel it c x).out = .ok () → T ≤ tm (noForwardFl A B opt fuel it c x).st.disc) := by
  induction fuel generalizing it c x with
  | zero =>
    exact ⟨hx, fun ev h => by simp [noForwardFl] at h, fun h => by simp [noForwardFl] at h⟩
  | succ fuel ih =>
    simp only [noForwardFl]
    by_cases hfin : opt.crit.finished it (B.time x.disc)
    · rw [if_pos hfin]
      exact ⟨hx, fun ev h => by simp at h, fun _ => (timed_finished H rnd_rounds hc _ _).mp hfin⟩
    · rw [if_neg hfin]
      have hlt : tm x.disc < T := by
        rw [timed_finished H rnd_rounds hc] at hfin
        exact not_le.mp hfin
      obtain ⟨g1, g2, g3⟩ := fl_iterate hA H hT ha hc opt.recursionLimit c hcfg x hx hxt hlt
      have bnd : ∀ y : IState D, FlWithin tm T t S y →
          tm y.disc ≤ T + (T - t) / 2 ^ 52 ∧ (S → tm y.disc ≤ T) := by
        rintro y ⟨-, y3, h, -, -, y4⟩
        exact ⟨y3, fun hs => (y4 hs).1⟩
      have hpre : ∀ ev ∈ callbacks (fun j => Ev.before .compute j (it + 1) x)
          opt.computeCallbacks, tm (evDisc ev) ≤ T + (T - t) / 2 ^ 52 ∧
            (S → tm (evDisc ev) ≤ T) := by
        intro ev hev
        obtain ⟨j, -, rfl⟩ := List.mem_map.mp hev
        exact bnd x hx
      simp only [runStepFl]
      rcases hs : iterateFl A B opt opt.recursionLimit c x with ⟨c', x', e | u⟩
      · rw [hs] at g1 g2 g3
        exact ⟨g1, hpre, fun h => by simp at h⟩
      · rw [hs] at g1 g2 g3
        obtain ⟨k1, k2, k3⟩ := ih (it + 1) c' g3 x' g1 g2
        refine ⟨k1, fun ev hev => ?_, k3⟩
        simp only [List.mem_append] at hev
        rcases hev with (hev | hev) | hev
        · exact hpre ev hev
        · obtain ⟨j, -, rfl⟩ := List.mem_map.mp hev
          exact bnd x' g1
        · exact k2 ev hev

theorem fl_compute {A : Arith} (hA : Sound A) {S : Prop} {h0 : ℝ} (H : Timed rnd T B tm t0 out) (hT : IsFloat T)
    (ha : opt.adaptive = true) (hc : opt.crit = .finalTime T) (hi : opt.initialStep = fin h0)
    {ch : Choice} (fuel : ℕ) (w : World D (ch.Data D)) {i : I}
    (hcfg : FlConfig T (t0 i) S w.ctrl.config) (hf : IsFloat (t0 i))
    (ht : t0 i ≤ T) (hh : 0 ≤ h0) (hstep : h0 ≤ rnd (T - t0 i))
    (hS : S → Close T (t0 i) ∨ h0 ≤ shortStep T) :
    let r := compute B opt (ckFl A B opt ch) fuel w i
    FlWithin tm T (t0 i) S r.1.tis ∧
    (∃ new, r.1.log = w.log ++ new ∧ ∀ ev ∈ new,
      tm (evDisc ev) ≤ T + (T - t0 i) / 2 ^ 52 ∧ (S → tm (evDisc ev) ≤ T)) ∧
    ∀ v, r.2 = .ok v → T ≤ out v ∧ out v = tm r.1.tis.disc := by
  have hx : FlWithin tm T (t0 i) S (startOf B opt w.ctrl w.tis.disc i) := by
    have e : tm (startOf B opt w.ctrl w.tis.disc i).disc = t0 i := H.load _ _
    unfold FlWithin
    rw [e]
    refine ⟨hf, ?_, h0, hi, fun _ => ⟨hh, hstep⟩, fun hs => ⟨ht, hS hs⟩⟩
    have : 0 ≤ (T - t0 i) / 2 ^ 52 := div_nonneg (by linarith) (by norm_num)
    linarith
  obtain ⟨g1, g2, g3⟩ := fl_forward hA H hT ha hc fuel 0 w.ctrl hcfg _ hx (H.load _ _).ge
  have e := ckFl_forward (A := A) (B := B) (opt := opt) ch fuel ((ckFl A B opt ch).create w.ck) w.ctrl
    (startOf B opt w.ctrl w.tis.disc i)
  intro r
  simp only [startOf] at e g1 g2 g3
  have hr : r = compute B opt (ckFl A B opt ch) fuel w i := rfl
  simp only [compute, resetErrorControl] at hr
  rw [e] at hr
  generalize noForwardFl A B opt fuel 0 w.ctrl _ = q at hr g1 g2 g3
  rcases q with ⟨c', x', log, err | u⟩
  · rw [hr]
    exact ⟨g1, ⟨log, rfl, g2⟩, fun v hv => by simp at hv⟩
  · rw [hr]
    refine ⟨g1, ⟨log, rfl, g2⟩, fun v hv => ?_⟩
    simp only [Except.ok.injEq] at hv
    subst hv
    rw [H.read]
    exact ⟨g3 rfl, rfl⟩

/-- C75, what holds for all steps: an adaptive run in binary64 from `t0` to the final time `T`, with
any chain of controllers with lower bound not below 0, goes at most `2^-52 (T - t0)` past `T`, and a
run that ends without error does not end before `T`. -/
theorem C75_bound_partial {h0 lo : ℝ} (H : Timed rnd T B tm t0 out) (hT : IsFloat T)
    (ha : opt.adaptive = true) (hc : opt.crit = .finalTime T) (hi : opt.initialStep = fin h0)
    {ch : Choice} (fuel : ℕ) (w : World D (ch.Data D)) {i : I} (hlo : w.ctrl.config.lower = fin lo)
    (hlo0 : 0 ≤ lo) (hf : IsFloat (t0 i))
    (ht : t0 i ≤ T) (hh : 0 ≤ h0) (hstep : h0 ≤ rnd (T - t0 i)) :
    let r := compute B opt (ch.ck B opt) fuel w i
    tm r.1.tis.disc ≤ T + (T - t0 i) / 2 ^ 52 ∧
    (∃ new, r.1.log = w.log ++ new ∧ ∀ ev ∈ new, tm (evDisc ev) ≤ T + (T - t0 i) / 2 ^ 52) ∧
    ∀ v, r.2 = .ok v → T ≤ out v ∧ out v ≤ T + (T - t0 i) / 2 ^ 52 := by
  rw [← ckFl_exact]
  obtain ⟨g1, ⟨new, g2, g3⟩, g4⟩ := fl_compute sound_exact (S := False) H hT ha hc hi fuel w
    ⟨⟨lo, hlo, hlo0⟩, False.elim⟩ hf ht hh hstep False.elim
  refine ⟨g1.2.1, ⟨new, g2, fun ev hev => (g3 ev hev).1⟩, fun v hv => ?_⟩
  obtain ⟨k1, k2⟩ := g4 v hv
  exact ⟨k1, by rw [k2]; exact g1.2.1⟩

/-- C75 for the embedded Runge-Kutta discretization with rounded times, whatever problem, scheme and
chain of controllers with lower bound not below 0. -/
theorem C75_runge_kutta_partial (E : Env s n m o l) (bhat : Fin s → ℝ) {h0 lo : ℝ} (hT : IsFloat T)
    (ha : opt.adaptive = true) (hc : opt.crit = .finalTime T) (hi : opt.initialStep = fin h0)
    {ch : Choice} (fuel : ℕ)
    (w : World (EmbRKState ℝ s n m o l) (ch.Data (EmbRKState ℝ s n m o l)))
    {i : StartingValues ℝ n m} (hlo : w.ctrl.config.lower = fin lo)
    (hlo0 : 0 ≤ lo) (hf : IsFloat i.initialTime)
    (ht : i.initialTime ≤ T) (hh : 0 ≤ h0) (hstep : h0 ≤ rnd (T - i.initialTime)) {w' v}
    (h : compute (embTimed rnd T E bhat) opt (ch.ck (embTimed rnd T E bhat) opt) fuel w i
      = (w', .ok v)) :
    T ≤ v.time ∧ v.time ≤ T + (T - i.initialTime) / 2 ^ 52 :=
  (C75_bound_partial (embTimed_timed rnd T E bhat) hT ha hc hi fuel w hlo hlo0 hf ht hh
    hstep).2.2 v (by rw [h])

/-- C75, short steps: if the steps are bounded by half of the final time (`-T` for negative `T`), or the
run starts in the second half (after `2 T` for negative `T`), or `T` is zero, no time of the run in
binary64 is past `T`, and a run that ends without error ends exactly at `T`. -/
theorem C75_exact_partial {h0 lo : ℝ} (H : Timed rnd T B tm t0 out) (hT : IsFloat T)
    (ha : opt.adaptive = true) (hc : opt.crit = .finalTime T) (hi : opt.initialStep = fin h0)
    {ch : Choice} (fuel : ℕ) (w : World D (ch.Data D)) {i : I} (hlo : w.ctrl.config.lower = fin lo)
    (hlo0 : 0 ≤ lo) (hf : IsFloat (t0 i))
    (ht : t0 i ≤ T) (hh : 0 ≤ h0) (hstep : h0 ≤ rnd (T - t0 i))
    (hS : (T = 0 ∨ min (T / 2) (2 * T) ≤ t0 i) ∨ (h0 ≤ max (-T) (T / 2) ∧
      le w.ctrl.config.lower w.ctrl.config.upper ∧
      le w.ctrl.config.upper (fin (max (-T) (T / 2))))) :
    let r := compute B opt (ch.ck B opt) fuel w i
    tm r.1.tis.disc ≤ T ∧
    (∃ new, r.1.log = w.log ++ new ∧ ∀ ev ∈ new, tm (evDisc ev) ≤ T) ∧
    ∀ v, r.2 = .ok v → out v = T := by
  rw [← ckFl_exact]
  obtain ⟨g1, ⟨new, g2, g3⟩, g4⟩ := fl_compute sound_exact (S := True) H hT ha hc hi fuel w
    ⟨⟨lo, hlo, hlo0⟩, fun _ => hS.imp id fun h => h.2⟩ hf ht hh hstep
    (fun _ => hS.imp id fun h => h.1)
  obtain ⟨-, -, h, -, -, g5⟩ := g1
  refine ⟨(g5 trivial).1, ⟨new, g2, fun ev hev => (g3 ev hev).2 trivial⟩, fun v hv => ?_⟩
  obtain ⟨k1, k2⟩ := g4 v hv
  exact le_antisymm (by rw [k2]; exact (g5 trivial).1) k1

theorem past_step : rnd (2 ^ 52 + 5 - 3 / 2) = 2 ^ 52 + 4 ∧
    rnd (3 / 2 + (2 ^ 52 + 4)) = 2 ^ 52 + 6 := by
  have h1 := rnd_units (A := 2 ^ 53 + 7) (k := 2 ^ 52 + 4) (q := -1) (j := 1) (by norm_num)
    (by norm_num) (.inr ⟨by norm_num, by decide⟩)
  have h2 := rnd_units (A := 2 ^ 53 + 11) (k := 2 ^ 52 + 6) (q := -1) (j := 1) (by norm_num)
    (by norm_num) (.inr ⟨by norm_num, by decide⟩)
  constructor
  · convert h1 using 1 <;> norm_num
  · convert h2 using 1 <;> norm_num

theorem isFloat_past : IsFloat (2 ^ 52 + 5) := ⟨2 ^ 52 + 5, 0, by norm_num, by norm_num⟩

/-- A run of one step with error 0, which every controller accepts. -/
theorem one_step_run {h0 : ℝ} (H : Timed rnd T B tm t0 out)
    (hok : ∀ d h, ∃ e, B.step d (fin h) = .ok e) (hm : ∀ d, B.measure d = .ok 0)
    (ha : opt.adaptive = true) (hc : opt.crit = .finalTime T) (hi : opt.initialStep = fin h0)
    (hl : opt.recursionLimit ≠ 0) {ch : Choice} (fuel : ℕ) (w : World D (ch.Data D)) {i : I}
    (htol : le 0 w.ctrl.config.tol) (hfuel : 1 < fuel) (hlt : t0 i < T)
    (hge : T ≤ rnd (t0 i + h0)) :
    ∃ w' v, compute B opt (ch.ck B opt) fuel w i = (w', .ok v) ∧ out v = rnd (t0 i + h0) := by
  obtain ⟨r, hr⟩ := Nat.exists_eq_succ_of_ne_zero hl
  set x := startOf B opt w.ctrl w.tis.disc i with hx
  have hx0 : tm x.disc = t0 i := H.load _ _
  have hxs : x.sugg = fin h0 := hi
  obtain ⟨d, hd⟩ := hok x.disc h0
  have htime : tm d = rnd (t0 i + h0) := by rw [H.step _ _ _ hd, hx0]
  have hrem : opt.crit.remaining (B.time d) ≠ nan := by
    rw [hc, H.time]
    simp [Crit.remaining]
  have hcall := C27_zero_error_keeps_step w.ctrl true ⟨0, x.sugg, opt.crit.remaining (B.time d),
    x.errHist, x.stepHist⟩ _ hxs hrem rfl htol
  obtain ⟨c', x', hst, hx'⟩ : ∃ c' x', iterateOnStep B opt opt.recursionLimit w.ctrl x
      = (c', x', .ok ()) ∧ x'.disc = B.set x.disc d := by
    rw [hr]
    simp only [iterateOnStep]
    rw [hxs] at hcall ⊢
    rw [hd]
    dsimp only
    rw [if_pos ha, hm]
    dsimp only
    rcases hcc : w.ctrl.call true ⟨0, fin h0, opt.crit.remaining (B.time d), x.errHist,
      x.stepHist⟩ with ⟨c', q⟩
    rw [hcc] at hcall
    dsimp only at hcall
    subst hcall
    exact ⟨_, _, rfl, rfl⟩
  have hrun : Run B opt 0 w.ctrl x [(c', x')] := by
    refine .step ?_ hst (.done ?_)
    · rw [timed_finished H rnd_rounds hc, hx0, not_le]
      exact hlt
    · rw [timed_finished H rnd_rounds hc, hx', H.set, htime]
      exact hge
  refine ⟨_, _, compute_of_run hrun (by simpa using hfuel), ?_⟩
  rw [H.read]
  change tm x'.disc = _
  rw [hx', H.set, htime]

/-- C75 is violated by long steps: from 3/2 to the final time 2^52 + 5 with one step of the length of
the (rounded) remaining time, which is accepted by every controller as the error is 0, the run ends
at 2^52 + 6, the next double after the final time. -/
theorem C75_past_final_time_violated (H : Timed rnd (2 ^ 52 + 5) B tm t0 out)
    (hok : ∀ d h, ∃ e, B.step d (fin h) = .ok e) (hm : ∀ d, B.measure d = .ok 0)
    (ha : opt.adaptive = true) (hc : opt.crit = .finalTime (2 ^ 52 + 5)) {i : I}
    (hi : opt.initialStep = fin (rnd (2 ^ 52 + 5 - t0 i))) (hl : opt.recursionLimit ≠ 0)
    {ch : Choice} (fuel : ℕ) (w : World D (ch.Data D)) (hz : t0 i = 3 / 2)
    (htol : le 0 w.ctrl.config.tol) (hfuel : 1 < fuel) :
    ∃ w' v, compute B opt (ch.ck B opt) fuel w i = (w', .ok v) ∧ out v = 2 ^ 52 + 6 := by
  rw [hz, past_step.1] at hi
  have := one_step_run H hok hm ha hc hi hl fuel w (i := i) htol hfuel (by rw [hz]; norm_num)
    (by rw [hz, past_step.2]; norm_num)
  rwa [hz, past_step.2] at this

theorem past_negative : rnd (-3 / 2 - -(2 ^ 52 + 5)) = 2 ^ 52 + 4 ∧
    rnd (-(2 ^ 52 + 5) + (2 ^ 52 + 4)) = -1 := by
  have h1 := rnd_units (A := 2 ^ 53 + 7) (k := 2 ^ 52 + 4) (q := -1) (j := 1) (by norm_num)
    (by norm_num) (.inr ⟨by norm_num, by decide⟩)
  have h2 : IsFloat (-1) := ⟨-1, 0, by norm_num, by norm_num⟩
  constructor
  · convert h1 using 1 <;> norm_num
  · rw [show (-(2 ^ 52 + 5) + (2 ^ 52 + 4) : ℝ) = -1 by norm_num]
    exact h2.rnd_eq

/-- C75 with negative times: from -(2^52 + 5) to the final time -3/2 with one step of the length of the
(rounded) remaining time, the run ends at -1. -/
theorem C75_negative_final_time_violated (H : Timed rnd (-3 / 2) B tm t0 out)
    (hok : ∀ d h, ∃ e, B.step d (fin h) = .ok e) (hm : ∀ d, B.measure d = .ok 0)
    (ha : opt.adaptive = true) (hc : opt.crit = .finalTime (-3 / 2)) {i : I}
    (hi : opt.initialStep = fin (rnd (-3 / 2 - t0 i))) (hl : opt.recursionLimit ≠ 0)
    {ch : Choice} (fuel : ℕ) (w : World D (ch.Data D)) (hz : t0 i = -(2 ^ 52 + 5))
    (htol : le 0 w.ctrl.config.tol) (hfuel : 1 < fuel) :
    ∃ w' v, compute B opt (ch.ck B opt) fuel w i = (w', .ok v) ∧ out v = -1 := by
  rw [hz, past_negative.1] at hi
  have := one_step_run H hok hm ha hc hi hl fuel w (i := i) htol hfuel (by rw [hz]; norm_num)
    (by rw [hz, past_negative.2]; norm_num)
  rwa [hz, past_negative.2] at this

theorem embTimed_ok (E : Env s n m o l) (bhat : Fin s → ℝ) (hE : ∀ v h, E.fails v h = none)
    (d : EmbRKState ℝ s n m o l) (h : ℝ) : ∃ e, (embTimed f T E bhat).step d (fin h) = .ok e := by
  simp only [embTimed, embBackend, hE]
  exact ⟨_, rfl⟩

/-- An adaptive run to `T` with first step `h0`. -/
noncomputable def optFl (T h0 : ℝ) : Options :=
  { adaptive := true, crit := .finalTime T, initialStep := fin h0 }

/-- A new component for it. -/
noncomputable def freshFl (T h0 : ℝ) (ch : Choice) :
    World (EmbRKState ℝ 1 1 1 0 0) (ch.Data (EmbRKState ℝ 1 1 1 0 0)) :=
  freshWorld (optFl T h0) (ch.ck (embTimed rnd T (envErr 0) 1) (optFl T h0)) EmbRKState.empty
    (.base (integral 1) Config.default)

/-- The hypotheses are met: a run that ends past the final time, within the bound. -/
example (ch : Choice) : ∃ w' v, compute (embTimed rnd (2 ^ 52 + 5) (envErr 0) 1)
      (optFl (2 ^ 52 + 5) (2 ^ 52 + 4)) (ch.ck (embTimed rnd (2 ^ 52 + 5) (envErr 0) 1)
        (optFl (2 ^ 52 + 5) (2 ^ 52 + 4))) 2 (freshFl (2 ^ 52 + 5) (2 ^ 52 + 4) ch)
        ⟨3 / 2, fun _ => 1, fun _ => 1⟩ = (w', .ok v) ∧
      v.time = 2 ^ 52 + 6 ∧ v.time ≤ 2 ^ 52 + 5 + (2 ^ 52 + 5 - 3 / 2) / 2 ^ 52 := by
  obtain ⟨w', v, h1, h2⟩ := C75_past_final_time_violated (opt := optFl (2 ^ 52 + 5) (2 ^ 52 + 4))
    (embTimed_timed rnd (2 ^ 52 + 5) (envErr 0) 1)
    (embTimed_ok _ _ fun _ _ => rfl) (fun _ => rfl) rfl rfl
    (i := (⟨3 / 2, fun _ => 1, fun _ => 1⟩ : StartingValues ℝ 1 1))
    (by simp only [past_step.1]; rfl) (by simp [optFl]) 2 (freshFl (2 ^ 52 + 5) (2 ^ 52 + 4) ch) rfl
    (by simp [freshFl, freshWorld, Ctrl.config, Config.default, zero_def]) (by norm_num)
  refine ⟨w', v, h1, h2, ?_⟩
  have := (C75_bound_partial (embTimed_timed rnd (2 ^ 52 + 5) (envErr 0) 1) isFloat_past
    (opt := optFl (2 ^ 52 + 5) (2 ^ 52 + 4)) (h0 := 2 ^ 52 + 4) (lo := 0) rfl rfl rfl 2
    (freshFl (2 ^ 52 + 5) (2 ^ 52 + 4) ch)
    (i := (⟨3 / 2, fun _ => 1, fun _ => 1⟩ : StartingValues ℝ 1 1)) rfl le_rfl
    ⟨3, -1, by norm_num, by norm_num⟩ (by norm_num) (by norm_num)
    (by simp only [past_step.1]; exact le_rfl)).2.2 v (by rw [h1])
  exact this.2

/-- From 1 to 3/2 in one step, in the second half: exactly 3/2. -/
example (ch : Choice) : ∃ w' v, compute (embTimed rnd (3 / 2) (envErr 0) 1)
      (optFl (3 / 2) (1 / 2)) (ch.ck (embTimed rnd (3 / 2) (envErr 0) 1) (optFl (3 / 2) (1 / 2))) 2
      (freshFl (3 / 2) (1 / 2) ch) ⟨1, fun _ => 1, fun _ => 1⟩ = (w', .ok v) ∧ v.time = 3 / 2 := by
  have h1 : IsFloat (3 / 2) := ⟨3, -1, by norm_num, by norm_num⟩
  have h2 : IsFloat (1 / 2) := ⟨1, -1, by norm_num, by norm_num⟩
  obtain ⟨w', v, h3, -⟩ := one_step_run (opt := optFl (3 / 2) (1 / 2)) (h0 := 1 / 2)
    (embTimed_timed rnd (3 / 2) (envErr 0) 1) (embTimed_ok _ _ fun _ _ => rfl) (fun _ => rfl)
    rfl rfl rfl (by simp [optFl]) 2 (freshFl (3 / 2) (1 / 2) ch)
    (i := (⟨1, fun _ => 1, fun _ => 1⟩ : StartingValues ℝ 1 1))
    (by simp [freshFl, freshWorld, Ctrl.config, Config.default, zero_def]) (by norm_num)
    (by norm_num) (by rw [show (1 + 1 / 2 : ℝ) = 3 / 2 by norm_num, h1.rnd_eq])
  refine ⟨w', v, h3, ?_⟩
  exact (C75_exact_partial (embTimed_timed rnd (3 / 2) (envErr 0) 1) h1
    (opt := optFl (3 / 2) (1 / 2)) (h0 := 1 / 2) (lo := 0) rfl rfl rfl 2
    (freshFl (3 / 2) (1 / 2) ch)
    (i := (⟨1, fun _ => 1, fun _ => 1⟩ : StartingValues ℝ 1 1)) rfl le_rfl
    ⟨1, 0, by norm_num, by norm_num⟩ (by norm_num) (by norm_num)
    (by
      rw [show (3 / 2 - (⟨1, fun _ => 1, fun _ => 1⟩ : StartingValues ℝ 1 1).initialTime : ℝ)
        = 1 / 2 by norm_num, h2.rnd_eq])
    (.inl (.inr (by norm_num)))).2.2 v (by rw [h3])

/-- Negative times: a run that ends past the final time. -/
example (ch : Choice) : ∃ w' v, compute (embTimed rnd (-3 / 2) (envErr 0) 1)
      (optFl (-3 / 2) (2 ^ 52 + 4)) (ch.ck (embTimed rnd (-3 / 2) (envErr 0) 1)
        (optFl (-3 / 2) (2 ^ 52 + 4))) 2 (freshFl (-3 / 2) (2 ^ 52 + 4) ch)
        ⟨-(2 ^ 52 + 5), fun _ => 1, fun _ => 1⟩ = (w', .ok v) ∧ v.time = -1 :=
  C75_negative_final_time_violated (opt := optFl (-3 / 2) (2 ^ 52 + 4))
    (embTimed_timed rnd (-3 / 2) (envErr 0) 1)
    (embTimed_ok _ _ fun _ _ => rfl) (fun _ => rfl) rfl rfl
    (i := (⟨-(2 ^ 52 + 5), fun _ => 1, fun _ => 1⟩ : StartingValues ℝ 1 1))
    (by simp only [past_negative.1]; rfl) (by simp [optFl]) 2 (freshFl (-3 / 2) (2 ^ 52 + 4) ch) rfl
    (by simp [freshFl, freshWorld, Ctrl.config, Config.default, zero_def]) (by norm_num)

end Verif.Props
