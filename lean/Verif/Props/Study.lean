/-
C94: the number of steps of the homogeneous runs of the convergence study.
-/
import Verif.Problems.Study
import Verif.Float.Round
import Verif.Props.Pseudo

namespace Verif.Props

open Verif.Problems Verif.Fl Verif.RK Verif.RK.Spec Verif.Control Verif.XReal Verif.Integrator

/-! ### C94 -/

/-- The value of a rounded number, for concrete numbers. -/
theorem rnd_val {x : ℝ} (k e : ℤ) (h1 : (2 : ℝ) ^ (52 : ℤ) * 2 ^ e ≤ |x|)
    (h2 : |x| < 2 ^ (53 : ℤ) * 2 ^ e) (h3 : |x / 2 ^ e - k| < 1 / 2) : rnd x = k * 2 ^ e := by
  rw [rnd_eq h1 h2, rne_eq (.inl h3)]

theorem isFloat_nat {n : ℕ} (h : n < 2 ^ 53) : IsFloat n :=
  ⟨n, 0, by rw [abs_of_nonneg (by positivity)]; exact_mod_cast h, by simp⟩

/-- C94: a homogeneous run ends less than one step before the time objective, and not after it (up
to the rounding of the quotient). -/
theorem C94_covers {T h : ℝ} (hT : 0 ≤ T) (hh : 0 < h) (hq : T < 2 ^ 53 * h) :
    ∃ n : ℕ, homogeneousRun rnd T h = .ok (h, n) ∧ n * h ≤ T * (1 + 1 / 2 ^ 53) ∧
      T < (n + 1) * h := by
  have hq0 : 0 ≤ T / h := by positivity
  have hf0 : 0 ≤ rnd (T / h) := float_le isFloat_zero hq0
  refine ⟨⌊rnd (T / h)⌋.toNat, ?_, ?_, ?_⟩
  · unfold homogeneousRun truncate
    rw [if_neg hh.ne', if_pos hf0, Int.toNat_of_nonneg (Int.floor_nonneg.mpr hf0)]
  all_goals
    have hn : ((⌊rnd (T / h)⌋.toNat : ℕ) : ℝ) = (⌊rnd (T / h)⌋ : ℝ) := by
      exact_mod_cast congrArg (fun z : ℤ => (z : ℝ)) (Int.toNat_of_nonneg (Int.floor_nonneg.mpr hf0))
  · have h1 := Int.floor_le (rnd (T / h))
    have h2 := (abs_le.mp (rnd_err (T / h))).2
    rw [abs_of_nonneg hq0] at h2
    have h3 : ((⌊rnd (T / h)⌋.toNat : ℕ) : ℝ) ≤ T / h * (1 + 1 / 2 ^ 53) := by rw [hn]; linarith
    calc _ ≤ T / h * (1 + 1 / 2 ^ 53) * h := mul_le_mul_of_nonneg_right h3 hh.le
      _ = _ := by field_simp
  · by_contra hc
    rw [not_lt, ← le_div_iff₀ hh] at hc
    set n := ⌊rnd (T / h)⌋.toNat with hdef
    have hlt : T / h < 2 ^ 53 := by rwa [div_lt_iff₀ hh]
    have hn53 : n + 1 < 2 ^ 53 := by
      have : ((n + 1 : ℕ) : ℝ) < ((2 ^ 53 : ℕ) : ℝ) := by push_cast; linarith
      exact_mod_cast this
    have h1 := float_le (isFloat_nat hn53) (x := T / h) (by push_cast; exact hc)
    have h2 := Int.lt_floor_add_one (rnd (T / h))
    push_cast at h1
    rw [← hn] at h2
    linarith

/-- The number of steps: as many as fit, if the quotient is not rounded to a whole number. -/
example : ∃ n : ℕ, homogeneousRun rnd 1 (3 / 8) = .ok (3 / 8, n) ∧ n * (3 / 8 : ℝ) ≤ 1 * (1 + 1 / 2 ^ 53) ∧
    (1 : ℝ) < (n + 1) * (3 / 8) := C94_covers (by norm_num) (by norm_num) (by norm_num)

/-- The last step can be missing although the time objective is a multiple of the step size as they
are written: for 0.3 and 0.1 there are two steps. -/
theorem C94_missing_step : homogeneousRun rnd (rnd (3 / 10)) (rnd (1 / 10)) = .ok (rnd (1 / 10), 2) := by
  have e1 : rnd (3 / 10) = (5404319552844595 : ℤ) * 2 ^ (-54 : ℤ) := by
    apply rnd_val <;> norm_num [abs_lt, abs_of_pos]
  have e2 : rnd (1 / 10) = (7205759403792794 : ℤ) * 2 ^ (-56 : ℤ) := by
    apply rnd_val <;> norm_num [abs_lt, abs_of_pos]
  unfold homogeneousRun truncate
  have e3 : rnd (rnd (3 / 10) / rnd (1 / 10)) = (6755399441055743 : ℤ) * 2 ^ (-51 : ℤ) := by
    rw [e1, e2]
    apply rnd_val <;> norm_num [abs_lt, abs_of_pos]
  rw [if_neg (by rw [e2]; norm_num), e3, if_pos (by norm_num)]
  congr 2
  norm_num [Int.floor_eq_iff]

theorem steps_10_1_1000 : homogeneousRun rnd 10 (rnd (1 / 1000)) = .ok (rnd (1 / 1000), 10000) := by
  have e1 : rnd (1 / 1000) = (4611686018427388 : ℤ) * 2 ^ (-62 : ℤ) := by
    apply rnd_val <;> norm_num [abs_lt, abs_of_pos]
  have e2 : rnd (10 / rnd (1 / 1000)) = (5497558138880000 : ℤ) * 2 ^ (-39 : ℤ) := by
    rw [e1]
    apply rnd_val <;> norm_num [abs_lt, abs_of_pos]
  unfold homogeneousRun truncate
  rw [if_neg (by rw [e1]; norm_num), e2, if_pos (by norm_num)]
  congr 2
  norm_num [Int.floor_eq_iff]

theorem steps_10_2_1000 : homogeneousRun rnd 10 (rnd (2 / 1000)) = .ok (rnd (2 / 1000), 5000) := by
  have e1 : rnd (2 / 1000) = (4611686018427388 : ℤ) * 2 ^ (-61 : ℤ) := by
    apply rnd_val <;> norm_num [abs_lt, abs_of_pos]
  have e2 : rnd (10 / rnd (2 / 1000)) = (5497558138880000 : ℤ) * 2 ^ (-40 : ℤ) := by
    rw [e1]
    apply rnd_val <;> norm_num [abs_lt, abs_of_pos]
  unfold homogeneousRun truncate
  rw [if_neg (by rw [e1]; norm_num), e2, if_pos (by norm_num)]
  congr 2
  norm_num [Int.floor_eq_iff]

theorem steps_10_4_1000 : homogeneousRun rnd 10 (rnd (4 / 1000)) = .ok (rnd (4 / 1000), 2500) := by
  have e1 : rnd (4 / 1000) = (4611686018427388 : ℤ) * 2 ^ (-60 : ℤ) := by
    apply rnd_val <;> norm_num [abs_lt, abs_of_pos]
  have e2 : rnd (10 / rnd (4 / 1000)) = (5497558138880000 : ℤ) * 2 ^ (-41 : ℤ) := by
    rw [e1]
    apply rnd_val <;> norm_num [abs_lt, abs_of_pos]
  unfold homogeneousRun truncate
  rw [if_neg (by rw [e1]; norm_num), e2, if_pos (by norm_num)]
  congr 2
  norm_num [Int.floor_eq_iff]

theorem steps_10_5_1000 : homogeneousRun rnd 10 (rnd (5 / 1000)) = .ok (rnd (5 / 1000), 2000) := by
  have e1 : rnd (5 / 1000) = (5764607523034235 : ℤ) * 2 ^ (-60 : ℤ) := by
    apply rnd_val <;> norm_num [abs_lt, abs_of_pos]
  have e2 : rnd (10 / rnd (5 / 1000)) = (8796093022208000 : ℤ) * 2 ^ (-42 : ℤ) := by
    rw [e1]
    apply rnd_val <;> norm_num [abs_lt, abs_of_pos]
  unfold homogeneousRun truncate
  rw [if_neg (by rw [e1]; norm_num), e2, if_pos (by norm_num)]
  congr 2
  norm_num [Int.floor_eq_iff]

theorem steps_10_1_100 : homogeneousRun rnd 10 (rnd (1 / 100)) = .ok (rnd (1 / 100), 1000) := by
  have e1 : rnd (1 / 100) = (5764607523034235 : ℤ) * 2 ^ (-59 : ℤ) := by
    apply rnd_val <;> norm_num [abs_lt, abs_of_pos]
  have e2 : rnd (10 / rnd (1 / 100)) = (8796093022208000 : ℤ) * 2 ^ (-43 : ℤ) := by
    rw [e1]
    apply rnd_val <;> norm_num [abs_lt, abs_of_pos]
  unfold homogeneousRun truncate
  rw [if_neg (by rw [e1]; norm_num), e2, if_pos (by norm_num)]
  congr 2
  norm_num [Int.floor_eq_iff]

theorem steps_1_1_100 : homogeneousRun rnd 1 (rnd (1 / 100)) = .ok (rnd (1 / 100), 100) := by
  have e1 : rnd (1 / 100) = (5764607523034235 : ℤ) * 2 ^ (-59 : ℤ) := by
    apply rnd_val <;> norm_num [abs_lt, abs_of_pos]
  have e2 : rnd (1 / rnd (1 / 100)) = (7036874417766400 : ℤ) * 2 ^ (-46 : ℤ) := by
    rw [e1]
    apply rnd_val <;> norm_num [abs_lt, abs_of_pos]
  unfold homogeneousRun truncate
  rw [if_neg (by rw [e1]; norm_num), e2, if_pos (by norm_num)]
  congr 2
  norm_num [Int.floor_eq_iff]

theorem steps_1_2_100 : homogeneousRun rnd 1 (rnd (2 / 100)) = .ok (rnd (2 / 100), 50) := by
  have e1 : rnd (2 / 100) = (5764607523034235 : ℤ) * 2 ^ (-58 : ℤ) := by
    apply rnd_val <;> norm_num [abs_lt, abs_of_pos]
  have e2 : rnd (1 / rnd (2 / 100)) = (7036874417766400 : ℤ) * 2 ^ (-47 : ℤ) := by
    rw [e1]
    apply rnd_val <;> norm_num [abs_lt, abs_of_pos]
  unfold homogeneousRun truncate
  rw [if_neg (by rw [e1]; norm_num), e2, if_pos (by norm_num)]
  congr 2
  norm_num [Int.floor_eq_iff]

theorem steps_1_4_100 : homogeneousRun rnd 1 (rnd (4 / 100)) = .ok (rnd (4 / 100), 25) := by
  have e1 : rnd (4 / 100) = (5764607523034235 : ℤ) * 2 ^ (-57 : ℤ) := by
    apply rnd_val <;> norm_num [abs_lt, abs_of_pos]
  have e2 : rnd (1 / rnd (4 / 100)) = (7036874417766400 : ℤ) * 2 ^ (-48 : ℤ) := by
    rw [e1]
    apply rnd_val <;> norm_num [abs_lt, abs_of_pos]
  unfold homogeneousRun truncate
  rw [if_neg (by rw [e1]; norm_num), e2, if_pos (by norm_num)]
  congr 2
  norm_num [Int.floor_eq_iff]

theorem steps_1_5_100 : homogeneousRun rnd 1 (rnd (5 / 100)) = .ok (rnd (5 / 100), 20) := by
  have e1 : rnd (5 / 100) = (7205759403792794 : ℤ) * 2 ^ (-57 : ℤ) := by
    apply rnd_val <;> norm_num [abs_lt, abs_of_pos]
  have e2 : rnd (1 / rnd (5 / 100)) = (5629499534213120 : ℤ) * 2 ^ (-48 : ℤ) := by
    rw [e1]
    apply rnd_val <;> norm_num [abs_lt, abs_of_pos]
  unfold homogeneousRun truncate
  rw [if_neg (by rw [e1]; norm_num), e2, if_pos (by norm_num)]
  congr 2
  norm_num [Int.floor_eq_iff]

theorem steps_1_1_10 : homogeneousRun rnd 1 (rnd (1 / 10)) = .ok (rnd (1 / 10), 10) := by
  have e1 : rnd (1 / 10) = (7205759403792794 : ℤ) * 2 ^ (-56 : ℤ) := by
    apply rnd_val <;> norm_num [abs_lt, abs_of_pos]
  have e2 : rnd (1 / rnd (1 / 10)) = (5629499534213120 : ℤ) * 2 ^ (-49 : ℤ) := by
    rw [e1]
    apply rnd_val <;> norm_num [abs_lt, abs_of_pos]
  unfold homogeneousRun truncate
  rw [if_neg (by rw [e1]; norm_num), e2, if_pos (by norm_num)]
  congr 2
  norm_num [Int.floor_eq_iff]

/-- C94: for the problems that are shipped the homogeneous runs have exactly as many steps as the
step sizes, as they are written, fit into the time objective. -/
theorem C94_shipped :
    studySteps rnd protheroTime protheroSteps = .ok [10000, 5000, 2500, 2000, 1000] ∧
    studySteps rnd kapsTime kapsSteps = .ok [100, 50, 25, 20, 10] := by
  have r10 : rnd 10 = 10 := (isFloat_nat (n := 10) (by norm_num)).rnd_eq
  have r1 : rnd 1 = 1 := (by exact_mod_cast (isFloat_nat (n := 1) (by norm_num)).rnd_eq)
  constructor
  · simp only [studySteps, protheroTime, protheroSteps, List.mapM_cons, List.mapM_nil]
    push_cast
    rw [r10, steps_10_1_1000, steps_10_2_1000, steps_10_4_1000, steps_10_5_1000, steps_10_1_100]
    rfl
  · simp only [studySteps, kapsTime, kapsSteps, List.mapM_cons, List.mapM_nil]
    push_cast
    rw [r1, steps_1_1_100, steps_1_2_100, steps_1_4_100, steps_1_5_100, steps_1_1_10]
    rfl

section

variable {s n m o l : ℕ} {E : Env s n m o l} {bhat : Fin s → ℝ}

/-- C94: the run with these parameters and the pseudo controller takes as many steps of this size
and ends less than one step before the time objective. -/
theorem C94_run {T h : ℝ} (hT : 0 ≤ T) (hh : 0 < h) (hq : T < 2 ^ 53 * h) :
    ∃ N : ℕ, homogeneousRun rnd T h = .ok (h, N) ∧
      ∀ {i : StartingValues ℝ n m} {v : Outputs n}, PseudoRun E bhat h (.steps N) i v →
        IsSteps (StepOf E i.independentInputs) i.initialTime i.initialValues (List.replicate N h)
          v.time v.values ∧
        i.initialTime + T - h < v.time ∧ v.time ≤ i.initialTime + T * (1 + 1 / 2 ^ 53) := by
  obtain ⟨N, h1, h2, h3⟩ := C94_covers hT hh hq
  refine ⟨N, h1, fun {i v} hr => ?_⟩
  have hs := C73_steps hh hr
  have ht := hs.time
  rw [List.sum_replicate, nsmul_eq_mul] at ht
  exact ⟨hs, by rw [ht]; linarith, by rw [ht]; linarith⟩

/-- Such runs exist. -/
theorem pseudo_steps_exists {opt : Options} {p : ℝ} {cfg : Config} (hu : Unbounded cfg)
    (ha : opt.adaptive = true) {N : ℕ} (hc : opt.crit = .steps N)
    (hf : ∀ obs h, E.fails obs h = none) (hm : ∀ e v, le (E.measure e v) cfg.tol)
    (hlim : 0 < opt.recursionLimit) {h0 : ℝ} (hh : 0 < h0) (k : ℕ) :
    ∀ (it : ℕ) (x : IState (EmbRKState ℝ s n m o l)), it + k = N → x.sugg = fin h0 →
    ∃ tr, Run (embBackend E bhat) opt it (.base (pseudo p) cfg) x tr ∧ tr.length = k := by
  obtain ⟨f, hlim⟩ := Nat.exists_eq_succ_of_ne_zero hlim.ne'
  induction k with
  | zero =>
    intro it x hN _
    exact ⟨[], .done (by rw [hc]; simp only [Crit.finished]; omega), rfl⟩
  | succ k ih =>
    intro it x hN hx
    obtain ⟨x', hx'⟩ : ∃ x', iterateOnStep (embBackend E bhat) opt opt.recursionLimit
        (.base (pseudo p) cfg) x = (.base (pseudo p) cfg, x', .ok ()) := by
      rw [hlim]
      exact pseudo_iterate_ok ha f (d := computeStepEmb E.T bhat E.ode x.disc h0)
        (by rw [hx]; simp only [embBackend, hf]) rfl (hm _ _)
    have hrem : ∀ t, opt.crit.remaining t = pinf := by simp [hc, Crit.remaining]
    obtain ⟨-, d, -, -, k4, -⟩ := pseudo_iterate hu ha hh hx (fun d _ => .inl (hrem _)) hx'
    obtain ⟨tr, r1, r2⟩ := ih (it + 1) x' (by omega) (by
      rw [k4, hrem, pyMin_pinf_left _ (by simp)])
    exact ⟨_, .step (by rw [hc]; simp only [Crit.finished]; omega) hx' r1, by simpa using r2⟩

/-- C94: if the model does not fail and the tolerance is not exceeded (it is infinite by default),
the run finishes. -/
theorem C94_finishes {T h : ℝ} (hT : 0 ≤ T) (hh : 0 < h) (hq : T < 2 ^ 53 * h) :
    ∃ N : ℕ, homogeneousRun rnd T h = .ok (h, N) ∧
      ∀ {opt : Options} {p : ℝ} {cfg : Config}, Unbounded cfg → opt.adaptive = true →
      opt.crit = .steps N → opt.initialStep = fin h → (∀ obs h, E.fails obs h = none) →
      (∀ e v, le (E.measure e v) cfg.tol) → 0 < opt.recursionLimit →
      ∀ (ch : Choice) (w : World (EmbRKState ℝ s n m o l) (ch.Data (EmbRKState ℝ s n m o l)))
        (i : StartingValues ℝ n m), w.ctrl = .base (pseudo p) cfg → ∀ {fuel : ℕ}, N < fuel →
      ∃ w' v, compute (embBackend E bhat) opt (ch.ck (embBackend E bhat) opt) fuel w i
          = (w', .ok v) ∧
        i.initialTime + T - h < v.time ∧ v.time ≤ i.initialTime + T * (1 + 1 / 2 ^ 53) := by
  obtain ⟨N, h1, h2⟩ := C94_run (E := E) (bhat := bhat) hT hh hq
  refine ⟨N, h1, ?_⟩
  intro opt p cfg hu ha hc hi hf hm hlim ch w i hw fuel hfuel
  obtain ⟨tr, r1, r2⟩ := pseudo_steps_exists (p := p) (bhat := bhat) hu ha hc hf hm hlim hh N 0
    (startOf (embBackend E bhat) opt w.ctrl w.tis.disc i) (by omega) hi
  rw [← hw] at r1
  have hcomp := compute_of_run (ch := ch) r1 (fuel := fuel) (by omega)
  exact ⟨_, _, hcomp, (h2 ⟨opt, p, cfg, ch, fuel, w, _, ha, hc, hi, hu, hw, hcomp⟩).2⟩

/-- Explicit Euler for `y' = -y + p + t` from time 2 with the time objective 1 and the step size
3/8. -/
example (ch : Choice) (w : World (EmbRKState ℝ 1 1 1 0 0) (ch.Data (EmbRKState ℝ 1 1 1 0 0)))
    (hw : w.ctrl = .base (pseudo 1) pseudoConfig) :
    ∃ N w' v, compute (embBackend Ex.env fun _ => 1 / 2) ⟨true, .steps N, fin (3 / 8), 0, 0, 0, 900⟩
        (ch.ck (embBackend Ex.env fun _ => 1 / 2) ⟨true, .steps N, fin (3 / 8), 0, 0, 0, 900⟩)
        (N + 1) w Ex.inp = (w', .ok v) ∧ 2 + 1 - 3 / 8 < v.time ∧
      v.time ≤ 2 + 1 * (1 + 1 / 2 ^ 53) := by
  obtain ⟨N, -, h⟩ := C94_finishes (E := Ex.env) (bhat := fun _ => 1 / 2) (T := 1) (h := 3 / 8)
    (by norm_num) (by norm_num) (by norm_num)
  obtain ⟨w', v, h1, h2⟩ := h (opt := ⟨true, .steps N, fin (3 / 8), 0, 0, 0, 900⟩)
    pseudoConfig_unbounded rfl rfl rfl (fun _ _ => rfl) (fun _ _ => (le_fin_pinf _).mpr trivial)
    (by norm_num) ch w Ex.inp hw (Nat.lt_succ_self N)
  exact ⟨N, w', v, h1, h2⟩

end

end Verif.Props
