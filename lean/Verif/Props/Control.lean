/-
Properties of the error controllers: C19 (acceptance), C20 (bounds), C23 (retry limit),
C25 (exceptions), C27 (zero error), C28 (NaN error), C29 (families), C30 (integral controller).

A controller chain is any `Ctrl` in any reachable or unreachable attribute state. The
properties that involve the retry loop are in `Verif.Props.Integrator`.
-/
import Verif.Control.Lemmas

namespace Verif.Props

open Verif.Control Verif.XReal
open Classical

/-! ### C19 -/

/-- C19: any status a chain returns is accepted exactly if the step is at the lower bound, is as
long as the time left *after* it, or meets the tolerance. (The property asks for "is the last
step" in place of the second case, see `C19_half_time_accepted_violated`.) -/
theorem C19_acceptance_partial (c : Ctrl) (top : Bool) (i : Input) (st : Status) (h l r : ℝ)
    (hdt : i.dt = fin h) (hl : c.config.lower = fin l) (hr : i.rem = fin r)
    (hc : (c.call top i).2 = .ok st) :
    st.acc = true ↔ |h - l| < 1 / 10 ^ 10 ∨ |h - r| < 1 / 10 ^ 10 ∨ le i.err c.config.tol := by
  obtain ⟨par, rfl⟩ := call_ok_run hc
  rw [run_acc]
  unfold accepts
  rw [hdt, hl, hr]
  simp

/-- C19 without a final time (the remaining time is infinite): accepted exactly if at the lower
bound or within the tolerance. -/
theorem C19_acceptance_no_final_time (c : Ctrl) (top : Bool) (i : Input) (st : Status) (h l : ℝ)
    (hdt : i.dt = fin h) (hl : c.config.lower = fin l) (hr : i.rem = pinf)
    (hc : (c.call top i).2 = .ok st) :
    st.acc = true ↔ |h - l| < 1 / 10 ^ 10 ∨ le i.err c.config.tol := by
  obtain ⟨par, rfl⟩ := call_ok_run hc
  rw [run_acc]
  unfold accepts
  rw [hdt, hl, hr]
  simp [sub, neg, add, XReal.abs, XReal.lt, sub_eq_add_neg]

/-! ### C20 -/

/-- C20: a suggestion is at most the upper bound. Missing: crossed bounds, see
`C20_crossed_bounds_violated`. -/
theorem C20_at_most_upper_bound_partial (c : Ctrl) (top : Bool) (i : Input) (st : Status) (h : ℝ)
    (hdt : i.dt = fin h) (hr : i.rem ≠ nan) (hb : le c.config.lower c.config.upper)
    (hc : (c.call top i).2 = .ok st) : le st.sugg c.config.upper := by
  obtain ⟨par, rfl⟩ := call_ok_run hc
  rw [run_sugg par _ i h hdt hr]
  refine XReal.le_trans (pyMin_le_right (timeLeft_ne_nan hdt hr)
    (pyMax_ne_nan (ne_nan_of_le_left hb))) ?_
  exact pyMax_le hb (pyMin_le_left (ne_nan_of_le_right hb))

/-- C20 is violated for crossed bounds, which `ErrorControllerConfig` does not refuse: with a lower
bound above the upper bound and enough time left, every suggestion is the lower bound and so above
the upper bound. -/
theorem C20_crossed_bounds_violated (c : Ctrl) (top : Bool) (i : Input) (st : Status)
    (h lo up : ℝ) (hdt : i.dt = fin h) (hlo : c.config.lower = fin lo)
    (hup : c.config.upper = fin up) (hx : up < lo) (hr : i.rem = pinf)
    (hc : (c.call top i).2 = .ok st) :
    st.sugg = c.config.lower ∧ ¬ le st.sugg c.config.upper := by
  obtain ⟨par, rfl⟩ := call_ok_run hc
  have hs : (run par c.config i).sugg = fin lo := by
    rw [run_sugg par _ i h hdt (by rw [hr]; simp), hlo, hup]
    have htl : timeLeft i (run par c.config i).acc = pinf := by
      unfold timeLeft
      split <;> simp [hr, hdt]
    rw [htl, pyMin_pinf_left _ (pyMax_ne_nan (by simp))]
    generalize (if i.err ≠ 0 then estimate par c.config i else i.dt) = y
    have h1 : le (pyMin (fin up) y) (fin up) := pyMin_le_left (by simp)
    unfold pyMax
    rw [if_neg]
    intro h2
    have := XReal.lt_of_lt_of_le h2 h1
    rw [lt_fin] at this
    linarith
  rw [hs, hlo, hup, le_fin]
  exact ⟨rfl, not_le.mpr hx⟩

example : ∃ st, ((Ctrl.base (integral 1) ⟨fin 1, fin 2, fin 1, fin 1, 5⟩).call true
    ⟨fin 0, fin 1, pinf, (fin 0, fin 0), (fin 0, fin 0)⟩).2 = .ok st := by
  have h : (run (integral 1) ⟨fin 1, fin 2, fin 1, fin 1, 5⟩
      ⟨fin 0, fin 1, pinf, (fin 0, fin 0), (fin 0, fin 0)⟩).acc = true :=
    (run_acc _ _ _).mpr (Or.inr (Or.inr (by simp)))
  refine ⟨run (integral 1) ⟨fin 1, fin 2, fin 1, fin 1, 5⟩
      ⟨fin 0, fin 1, pinf, (fin 0, fin 0), (fin 0, fin 0)⟩, ?_⟩
  simp [Ctrl.call, h]

/-- C20: a suggestion is at most the time left (after a rejection the rejected step counts as
time left). -/
theorem C20_at_most_time_left (c : Ctrl) (top : Bool) (i : Input) (st : Status) (h : ℝ)
    (hdt : i.dt = fin h) (hr : i.rem ≠ nan) (hc : (c.call top i).2 = .ok st) :
    le st.sugg (if st.acc then i.rem else add i.rem i.dt) := by
  obtain ⟨par, rfl⟩ := call_ok_run hc
  rw [run_sugg par _ i h hdt hr]
  exact pyMin_le_left (timeLeft_ne_nan hdt hr)

/-- C20: a suggestion is at least the lower bound, unless the time left is smaller; then it is
the time left. -/
theorem C20_at_least_lower_bound (c : Ctrl) (top : Bool) (i : Input) (st : Status) (h : ℝ)
    (hdt : i.dt = fin h) (hr : i.rem ≠ nan) (hl : c.config.lower ≠ nan)
    (hc : (c.call top i).2 = .ok st) :
    le c.config.lower st.sugg ∨
      (st.sugg = (if st.acc then i.rem else add i.rem i.dt) ∧ lt st.sugg c.config.lower) := by
  obtain ⟨par, rfl⟩ := call_ok_run hc
  have hs := run_sugg par c.config i h hdt hr
  have hn := timeLeft_ne_nan (acc := (run par c.config i).acc) hdt hr
  by_cases hlt : lt (run par c.config i).sugg c.config.lower
  · right
    refine ⟨?_, hlt⟩
    rcases pyMin_eq_or (timeLeft i (run par c.config i).acc) (pyMax c.config.lower
      (pyMin c.config.upper (if i.err ≠ 0 then estimate par c.config i else i.dt))) with e | e
    · rw [hs, e]; rfl
    · rw [hs, e] at hlt
      exact absurd hlt (not_lt_of_le (left_le_pyMax hl))
  · left
    refine le_of_not_lt hl ?_ hlt
    rw [hs]
    exact pyMin_ne_nan hn

/-- C20: a suggestion is never NaN, whatever errors, histories and exponents are. -/
theorem C20_never_nan (c : Ctrl) (top : Bool) (i : Input) (st : Status) (h : ℝ)
    (hdt : i.dt = fin h) (hr : i.rem ≠ nan) (hc : (c.call top i).2 = .ok st) : st.sugg ≠ nan := by
  obtain ⟨par, rfl⟩ := call_ok_run hc
  rw [run_sugg par _ i h hdt hr]
  exact pyMin_ne_nan (timeLeft_ne_nan hdt hr)

/-- C20 is not vacuous: a NaN error with a NaN history still gives a usable suggestion. -/
example : ((Ctrl.base (integral 4) ⟨fin 1, fin 1, fin 3, fin 1, 5⟩).call true
    ⟨nan, fin 3, fin 10, (nan, nan), (0, 0)⟩).2 = .ok ⟨fin 3, false⟩ := by
  have h1 : (⟨nan, fin 3, fin 10, (nan, nan), (0, 0)⟩ : Input).err ≠ 0 := by
    simp [zero_def]
  have hne : (1 : ℝ) / (1 + 4) ≠ 0 := by norm_num
  have hacc : ¬ accepts ⟨fin 1, fin 1, fin 3, fin 1, 5⟩
      ⟨nan, fin 3, fin 10, (nan, nan), (0, 0)⟩ := by
    unfold accepts
    norm_num [abs_of_nonneg, abs_of_nonpos]
  have hest : estimate (integral 4) ⟨fin 1, fin 1, fin 3, fin 1, 5⟩
      ⟨nan, fin 3, fin 10, (nan, nan), (0, 0)⟩ = nan := by
    simp only [estimate, div, integral, pow_nan hne, mul_nan, nan_mul, ne_eq, not_true_eq_false, if_false]
  have hrun : run (integral 4) ⟨fin 1, fin 1, fin 3, fin 1, 5⟩
      ⟨nan, fin 3, fin 10, (nan, nan), (0, 0)⟩ = ⟨fin 3, false⟩ := by
    unfold run
    simp only [hacc, hest, h1, ne_eq, not_false_eq_true, if_true, decide_false,
      Bool.false_eq_true, if_false, pyMin_nan_right, pyMax_fin, mul_fin, add_fin, pyMin_fin]
    norm_num
  unfold Ctrl.call
  rw [hrun]
  simp

/-! ### C25 -/

/-- C25: a stand-alone controller raises its error exactly if it rejects the step and suggests a
larger one. -/
theorem C25_standalone_raises_iff (par : Params) (cfg : Config) (i : Input) :
    (∃ e, ((Ctrl.base par cfg).call true i).2 = .error e) ↔
      ¬ accepts cfg i ∧ lt i.dt (run par cfg i).sugg := by
  have ha := run_acc par cfg i
  unfold Ctrl.call
  dsimp only
  constructor
  · rintro ⟨e, he⟩
    split at he
    · rename_i h
      exact ⟨fun hacc => h.1 (ha.mpr hacc), h.2.1⟩
    · cases he
  · rintro ⟨h1, h2⟩
    refine ⟨.outer, ?_⟩
    rw [if_pos ⟨fun h => h1 (ha.mp h), h2, rfl⟩]

/-- C25: a chained controller uses its own (inner) exponents exactly if it is in the mode left
behind by an earlier inner rejection, or if the wrapped controller rejects without suggesting a
smaller step or has used up its retries; otherwise it hands on the status of the wrapped one. -/
theorem C25_fallback_iff (top : Bool) (par : Params) (w : Ctrl) (ni : Bool) (k : ℕ) (i : Input)
    (so : Status) (hw : (w.call false i).2 = .ok so) :
    let fallback := ni = false ∨
      (so.acc = false ∧ ¬ (lt so.sugg i.dt ∧ k + 1 ≤ w.config.maxIter))
    (¬ fallback → ((Ctrl.deco par w ni k).call top i).2 = .ok so) ∧
    (fallback → ((Ctrl.deco par w ni k).call top i).2 = (runDeco top par w.config i).2) := by
  intro fallback
  unfold Ctrl.call
  generalize hr : w.call false i = r at hw
  rcases r with ⟨w', e | s'⟩
  · cases hw
  · injection hw with hw
    subst hw
    constructor
    · intro hf
      have h1 : ni = true := by
        by_contra h
        exact hf (Or.inl (by simpa using h))
      rw [if_pos h1]
      dsimp only
      split
      · rfl
      · rename_i hacc
        split
        · rfl
        · rename_i h2
          exact absurd (Or.inr ⟨by simpa using hacc, h2⟩) hf
    · intro hf
      rcases hf with h1 | ⟨h1, h2⟩
      · subst h1
        simp
      · split
        · dsimp only
          rw [if_neg (by simp [h1]), if_neg h2]
        · rfl

/-- C25: a chained controller raises exactly if it falls back to its inner exponents and these
reject the step and suggest a larger one. -/
theorem C25_chain_raises_iff (par : Params) (w : Ctrl) (ni : Bool) (k : ℕ) (i : Input)
    (so : Status) (hw : (w.call false i).2 = .ok so) :
    (∃ e, ((Ctrl.deco par w ni k).call true i).2 = .error e) ↔
      (ni = false ∨ (so.acc = false ∧ ¬ (lt so.sugg i.dt ∧ k + 1 ≤ w.config.maxIter)))
        ∧ ¬ accepts w.config i ∧ lt i.dt (run par w.config i).sugg := by
  have hf := C25_fallback_iff true par w ni k i so hw
  dsimp only at hf
  have ha := run_acc par w.config i
  by_cases h : ni = false ∨ (so.acc = false ∧ ¬ (lt so.sugg i.dt ∧ k + 1 ≤ w.config.maxIter))
  · rw [hf.2 h]
    unfold runDeco
    dsimp only
    constructor
    · rintro ⟨e, he⟩
      split at he
      · rename_i h'
        exact ⟨h, fun hacc => h'.1 (ha.mpr hacc), h'.2.1⟩
      · cases he
    · rintro ⟨-, h1, h2⟩
      exact ⟨.inner, by rw [if_pos ⟨fun h => h1 (ha.mp h), h2, rfl⟩]⟩
  · rw [hf.1 h]
    constructor
    · rintro ⟨e, he⟩; cases he
    · rintro ⟨h', -⟩; exact absurd h' h

/-- C25: a wrapped controller never raises, so the hypothesis of the two theorems above is
always met. -/
theorem C25_wrapped_never_raises (w : Ctrl) (i : Input) : ∃ so, (w.call false i).2 = .ok so :=
  call_wrapped_ok w i

/-- Wrapping a controller that decides: the chain decides the same. -/
theorem wraps_decide (p : ℝ) (cfg : Config) (i : Input) (so : Status)
    (hd : so.acc = true ∨ (lt so.sugg i.dt ∧ 1 ≤ cfg.maxIter)) :
    ∀ (gs : List (ℝ → Params)) (w : Ctrl), w.config = cfg →
      (∀ top, (w.call top i).2 = .ok so) →
      ∃ c, gs.foldl (fun c f => some (mk (f p) cfg c)) (some w) = some c ∧ c.config = cfg ∧
        ∀ top, (c.call top i).2 = .ok so
  | [], w, hw, h => ⟨w, rfl, hw, h⟩
  | g :: gs, w, hw, h => by
      refine wraps_decide p cfg i so hd gs (mk (g p) cfg (some w)) hw (fun top => ?_)
      refine (C25_fallback_iff top (g p) w true 0 i so (h false)).1 ?_
      rintro (h' | ⟨h1, h2⟩)
      · cases h'
      · rcases hd with hd | hd
        · rw [hd] at h1; cases h1
        · exact h2 (by rw [hw]; exact hd)

/-- C25: in a newly built chain the controller of the first factory decides as long as it accepts
the step or suggests a smaller one (and retries are allowed): no other controller is asked. -/
theorem C25_first_controller_decides (p : ℝ) (cfg : Config) (f : ℝ → Params)
    (gs : List (ℝ → Params)) (i : Input)
    (hd : (run (f p) cfg i).acc = true ∨
      (lt (run (f p) cfg i).sugg i.dt ∧ ¬ lt i.dt (run (f p) cfg i).sugg ∧ 1 ≤ cfg.maxIter)) :
    ∃ c, buildChain p cfg (f :: gs) = some c ∧ (c.call true i).2 = .ok (run (f p) cfg i) := by
  obtain ⟨c, h1, _, h3⟩ := wraps_decide p cfg i (run (f p) cfg i)
    (hd.imp id fun h => ⟨h.1, h.2.2⟩) gs (.base (f p) cfg) rfl (fun top => by
      unfold Ctrl.call
      rcases hd with hd | hd <;> simp [hd])
  exact ⟨c, h1, h3 true⟩

/-- C25: with two factories the second one is asked exactly if the first one rejects the step
without suggesting a smaller one (or no retries are allowed). -/
theorem C25_second_controller_asked (p : ℝ) (cfg : Config) (f g : ℝ → Params) (i : Input)
    (hrej : (run (f p) cfg i).acc = false)
    (hgrow : ¬ (lt (run (f p) cfg i).sugg i.dt ∧ 1 ≤ cfg.maxIter)) :
    ∃ c, buildChain p cfg [f, g] = some c ∧
      (c.call true i).2 = (runDeco true (g p) cfg i).2 := by
  refine ⟨_, rfl, ?_⟩
  refine (C25_fallback_iff true (g p) (.base (f p) cfg) true 0 i (run (f p) cfg i) (by
    unfold Ctrl.call; simp)).2 (Or.inr ⟨hrej, hgrow⟩)

-- an accepted step: error below the tolerance
example : ∃ c, buildChain 1 ⟨fin 1, fin 1, fin 3, fin 1, 5⟩ [integral, pseudo] = some c ∧
    (c.call true ⟨fin (1 / 2), fin 2, fin 10, (0, 0), (0, 0)⟩).2 =
      .ok (run (integral 1) ⟨fin 1, fin 1, fin 3, fin 1, 5⟩
        ⟨fin (1 / 2), fin 2, fin 10, (0, 0), (0, 0)⟩) :=
  C25_first_controller_decides 1 _ integral [pseudo] _ (Or.inl (by
    rw [run_acc]
    refine Or.inr (Or.inr ?_)
    simp only [le_fin]
    norm_num))

/-! ### C23 -/

/-- Successive calls of a controller. -/
noncomputable def callMany (c : Ctrl) : List Input → Ctrl × List (Except CErr Status)
  | [] => (c, [])
  | i :: is => ((callMany (c.call true i).1 is).1,
      (c.call true i).2 :: (callMany (c.call true i).1 is).2)

/-- C23, the code does not do what the property says: with a positive `max_iter`, however many
rejected attempts there are in a row, as long as the outer controller suggests smaller steps it is
never replaced by the inner one (the counter is reset to zero by each of them). -/
theorem C23_limit_never_applies_violated (par : Params) (opar : Params) (cfg : Config)
    (hm : 1 ≤ cfg.maxIter) (is : List Input)
    (hi : ∀ i ∈ is, ¬ accepts cfg i ∧ lt (run opar cfg i).sugg i.dt) :
    callMany (.deco par (.base opar cfg) true 0) is
      = (.deco par (.base opar cfg) true 0, is.map fun i => .ok (run opar cfg i)) := by
  induction is with
  | nil => rfl
  | cons i is ih =>
    have h1 := hi i (by simp)
    have hacc : (run opar cfg i).acc = false := by
      by_contra h
      exact h1.1 ((run_acc opar cfg i).mp (by simpa using h))
    have hcall : (Ctrl.deco par (.base opar cfg) true 0).call true i
        = (.deco par (.base opar cfg) true 0, .ok (run opar cfg i)) := by
      simp [Ctrl.call, hacc, h1.2, Ctrl.config, hm]
    have ih := ih fun j hj => hi j (List.mem_cons_of_mem _ hj)
    simp only [callMany, hcall, ih, List.map_cons]

/-- A concrete run: `max_iter = 1`, yet ten rejected attempts in a row are all answered by the
outer controller. -/
example (opar par : Params) (cfg : Config) (i : Input) (hm : cfg.maxIter = 1)
    (hi : ¬ accepts cfg i ∧ lt (run opar cfg i).sugg i.dt) :
    (callMany (.deco par (.base opar cfg) true 0) (List.replicate 10 i)).2
      = List.replicate 10 (.ok (run opar cfg i)) := by
  rw [C23_limit_never_applies_violated par opar cfg (by omega) _ fun j hj => by
    rw [List.eq_of_mem_replicate hj]; exact hi]
  simp

/-- Input and controller meeting the hypotheses: halving on rejection. -/
example : ∃ (cfg : Config) (opar : Params) (i : Input), cfg.maxIter = 1 ∧ ¬ accepts cfg i ∧
    lt (run opar cfg i).sugg i.dt := by
  refine ⟨⟨fin 1, 0, pinf, fin (1/2), 1⟩, { alpha := 0 },
    ⟨fin 2, fin 1, fin 10, (fin 1, fin 1), (0, 0)⟩, rfl, ?_, ?_⟩
  · unfold accepts
    simp only [zero_def, sub_fin, abs_fin, lt_fin, le_fin]
    norm_num [abs_of_neg]
  · rw [run_sugg _ _ _ 1 rfl (by simp)]
    have : estimate { alpha := 0 } ⟨fin 1, 0, pinf, fin (1/2), 1⟩
        ⟨fin 2, fin 1, fin 10, (fin 1, fin 1), (0, 0)⟩ = fin (1/2) := by
      unfold estimate
      simp [XReal.pow_zero, div_fin, zero_def]
    have hacc : (run { alpha := 0 } ⟨fin 1, 0, pinf, fin (1/2), 1⟩
        ⟨fin 2, fin 1, fin 10, (fin 1, fin 1), (0, 0)⟩).acc = false := by
      by_contra h
      have := (run_acc _ _ _).mp (Bool.not_eq_false _ ▸ h)
      unfold accepts at this
      simp only [zero_def, sub_fin, abs_fin, lt_fin, le_fin] at this
      norm_num [abs_of_neg] at this
    rw [this, hacc]
    simp only [zero_def, ne_eq, fin_inj, OfNat.ofNat_ne_zero, not_false_eq_true, if_true,
      timeLeft, Bool.false_eq_true, if_false, add_fin]
    rw [pyMin_pinf_left _ (by simp), pyMax_fin, pyMin_fin]
    norm_num

/-- C23, what does hold: the retries are limited in the extreme case `max_iter = 0`: every
rejection by the outer controller is passed to the inner one. -/
theorem C23_zero_retries_partial (par : Params) (w : Ctrl) (k : ℕ) (i : Input) (so : Status)
    (top : Bool) (hw : (w.call false i).2 = .ok so) (hrej : so.acc = false)
    (hm : w.config.maxIter = 0) :
    ((Ctrl.deco par w true k).call top i).2 = (runDeco top par w.config i).2 :=
  (C25_fallback_iff top par w true k i so hw).2 (Or.inr ⟨hrej, by omega⟩)

/-- C23, exact role of the counter: it counts the fallbacks since the last call answered by the
outer controller, and the limit only bites when that number has reached `max_iter`. -/
theorem C23_counter_partial (par : Params) (w : Ctrl) (k : ℕ) (i : Input) (so : Status)
    (top : Bool) (hw : (w.call false i).2 = .ok so) :
    ∃ w' ni', ((Ctrl.deco par w true k).call top i).1
      = .deco par w' ni' (if so.acc = false ∧ ¬ (lt so.sugg i.dt ∧ k + 1 ≤ w.config.maxIter)
          then k + 1 else 0) := by
  unfold Ctrl.call
  generalize hr : w.call false i = r at hw
  rcases r with ⟨w', e | s'⟩
  · cases hw
  · injection hw with hw
    subst hw
    simp only [if_true]
    by_cases h1 : s'.acc = true
    · exact ⟨w', true, by simp [h1]⟩
    · by_cases h2 : lt s'.sugg i.dt ∧ k + 1 ≤ w.config.maxIter
      · exact ⟨w', true, by simp [h2]⟩
      · rw [if_neg h1, if_neg h2, if_pos ⟨by simpa using h1, h2⟩]
        exact ⟨w', _, rfl⟩

/-! ### C27 -/

/-- C27: a step with measured error zero is accepted by any chain in any state and does not
raise; the suggestion is the step size just used, clamped to the bounds and the time left. -/
theorem C27_zero_error_keeps_step (c : Ctrl) (top : Bool) (i : Input) (h : ℝ)
    (hdt : i.dt = fin h) (hr : i.rem ≠ nan) (he : i.err = 0) (ht : le 0 c.config.tol) :
    (c.call top i).2 = .ok ⟨pyMin i.rem (pyMax c.config.lower (pyMin c.config.upper i.dt)),
      true⟩ := by
  have hacc : accepts c.config i := Or.inr (Or.inr (by rw [he]; exact ht))
  have hrun : ∀ par, run par c.config i
      = ⟨pyMin i.rem (pyMax c.config.lower (pyMin c.config.upper i.dt)), true⟩ := by
    intro par
    have h1 : (run par c.config i).acc = true := (run_acc par c.config i).mpr hacc
    have h2 := run_sugg par c.config i h hdt hr
    rw [h1, he] at h2
    simp only [ne_eq, not_true_eq_false, if_false, timeLeft, if_true] at h2
    cases hs : run par c.config i
    rw [hs] at h1 h2
    dsimp only at h1 h2
    rw [h1, h2]
  have herr : ∀ par top', (runDeco top' par c.config i).2
      = .ok ⟨pyMin i.rem (pyMax c.config.lower (pyMin c.config.upper i.dt)), true⟩ := by
    intro par top'
    unfold runDeco
    simp [hrun par]
  cases hc : (c.call top i).2 with
  | ok st =>
    obtain ⟨par, hpar⟩ := call_ok_run hc
    rw [hpar, hrun par]
  | error e =>
    exfalso
    cases c with
    | base par cfg =>
      unfold Ctrl.call at hc
      rw [show run par cfg i = _ from hrun par] at hc
      simp at hc
    | deco par w ni k =>
      obtain ⟨so, hso⟩ := call_wrapped_ok w i
      have hf := C25_fallback_iff top par w ni k i so hso
      dsimp only at hf
      by_cases hfb : ni = false ∨ (so.acc = false ∧ ¬ (lt so.sugg i.dt ∧ k + 1 ≤ w.config.maxIter))
      · rw [hf.2 hfb, show (runDeco top par w.config i).2 = _ from herr par top] at hc
        cases hc
      · rw [hf.1 hfb] at hc
        cases hc

/-- C27: inside the bounds and with enough time left the step size is kept exactly. -/
theorem C27_zero_error_same_step (c : Ctrl) (top : Bool) (i : Input) (h l u r t : ℝ)
    (hdt : i.dt = fin h) (hr : i.rem = fin r) (he : i.err = 0)
    (hl : c.config.lower = fin l) (hu : c.config.upper = fin u) (ht : c.config.tol = fin t)
    (h1 : l ≤ h) (h2 : h ≤ u) (h3 : h ≤ r) (h4 : 0 ≤ t) :
    (c.call top i).2 = .ok ⟨fin h, true⟩ := by
  rw [C27_zero_error_keeps_step c top i h hdt (by rw [hr]; simp) he (by rw [ht]; exact h4), hdt,
    hr, hl, hu, pyMin_fin, pyMax_fin, pyMin_fin, min_eq_right h2, max_eq_right h1,
    min_eq_right h3]

/-- C27, what does hold for later suggestions: if the exponents satisfy `beta ≤ 0` and
`gamma ≥ 0` (pseudo, integral, h0_110, h_211, h0_211, pid, h_312, h0_312), errors in the history
may be zero and the next suggestion is still positive. -/
theorem C27_progress_partial (par : Params) (cfg : Config) (i : Input)
    (κ h t e e0 e1 s0 s1 u : ℝ) (hβ : par.beta ≤ 0) (hγ : 0 ≤ par.gamma)
    (hκ : cfg.safety = fin κ) (hh : i.dt = fin h) (ht : cfg.tol = fin t) (he : i.err = fin e)
    (h0 : i.errHist.1 = fin e0) (h1 : i.errHist.2 = fin e1) (hs0 : i.stepHist.1 = fin s0)
    (hs1 : i.stepHist.2 = fin s1) (hu : cfg.upper = pinf ∨ cfg.upper = fin u) (pu : 0 < u)
    (hl : cfg.lower ≠ nan)
    (pκ : 0 < κ) (pt : 0 < t) (pe : 0 ≤ e) (pe0 : 0 ≤ e0) (pe1 : 0 ≤ e1)
    (ph : 0 < h) (ps0 : 0 ≤ s0) (ps1 : 0 ≤ s1) (hr : lt 0 (timeLeft i (run par cfg i).acc))
    (hrn : i.rem ≠ nan) : lt 0 (run par cfg i).sugg := by
  have mul_pos' : ∀ x y : XReal, lt 0 x → lt 0 y → lt 0 (mul x y) := by
    intro x y hx hy
    cases x <;> cases y <;> simp_all [zero_def, XReal.lt, mul, infSign]
  have pow_pos' : ∀ (a : ℝ) (y : ℝ), 0 < a → lt 0 (pow (fin a) y) := by
    intro a y ha
    rw [pow_fin ha]
    exact Real.rpow_pos_of_pos ha y
  have f1 : e ≠ 0 → lt 0 (pow (div (fin t) (fin e)) par.alpha) := by
    intro hne
    have : 0 < e := lt_of_le_of_ne pe (Ne.symm hne)
    rw [div_fin _ hne]
    exact pow_pos' _ _ (by positivity)
  have f2 : lt 0 (pow (div (fin e0) (fin t)) par.beta) := by
    rw [div_fin _ pt.ne']
    rcases eq_or_lt_of_le pe0 with hz | hp
    · rw [← hz, zero_div]
      unfold pow
      split
      · exact one_pos
      · have : ¬ 0 < par.beta := not_lt.mpr hβ
        simp [this, zero_def, XReal.lt]
    · exact pow_pos' _ _ (by positivity)
  have f3 : lt 0 (pow (div (fin t) (fin e1)) par.gamma) := by
    rcases eq_or_lt_of_le pe1 with hz | hp
    · rw [← hz]
      simp only [div, if_true, infSign, pt]
      unfold pow
      split
      · exact one_pos
      · rename_i hne
        have : 0 < par.gamma := lt_of_le_of_ne hγ (Ne.symm hne)
        simp [this, zero_def, XReal.lt]
    · rw [div_fin _ hp.ne']
      exact pow_pos' _ _ (by positivity)
  have hnew : lt 0 (if i.err ≠ 0 then estimate par cfg i else i.dt) := by
    split
    · rename_i hne
      have hne' : e ≠ 0 := fun hz => hne (by rw [he, hz]; rfl)
      unfold estimate
      rw [hκ, hh, ht, he, h0, h1, hs0, hs1]
      have b0 : lt 0 (mul (fin κ) (fin h)) := mul_pos pκ ph
      have b3 := mul_pos' _ _ (mul_pos' _ _ (mul_pos' _ _ b0 (f1 hne')) f2) f3
      dsimp only
      by_cases hz0 : s0 = 0
      · rw [if_neg (by simp [hz0, zero_def])]
        exact b3
      · have p0 : 0 < s0 := lt_of_le_of_ne ps0 (Ne.symm hz0)
        rw [if_pos (by simp [zero_def, fin_inj, hz0]), div_fin _ hz0]
        have b4 := mul_pos' _ _ b3 (pow_pos' (h / s0) par.a (by positivity))
        by_cases hz1 : s1 = 0
        · rw [if_neg (by simp [hz1, zero_def])]
          exact b4
        · have p1 : 0 < s1 := lt_of_le_of_ne ps1 (Ne.symm hz1)
          rw [if_pos (by simp [zero_def, fin_inj, hz1]), div_fin _ hz1]
          exact mul_pos' _ _ b4 (pow_pos' (s0 / s1) par.b (by positivity))
    · rw [hh]; exact ph
  rw [run_sugg par cfg i h hh hrn]
  have hup : lt 0 cfg.upper := by
    rcases hu with hu | hu <;> rw [hu]
    · trivial
    · exact pu
  have hmin : lt 0 (pyMin cfg.upper (if i.err ≠ 0 then estimate par cfg i else i.dt)) := by
    rcases pyMin_eq_or cfg.upper (if i.err ≠ 0 then estimate par cfg i else i.dt) with e | e <;>
      rw [e] <;> assumption
  have hmax : lt 0 (pyMax cfg.lower (pyMin cfg.upper
      (if i.err ≠ 0 then estimate par cfg i else i.dt))) := by
    generalize pyMin cfg.upper (if i.err ≠ 0 then estimate par cfg i else i.dt) = x at hmin
    unfold pyMax
    split
    · exact hmin
    · rename_i hn
      exact XReal.lt_of_lt_of_le hmin (le_of_not_lt (ne_nan_of_lt_right hmin) hl hn)
  rcases pyMin_eq_or (timeLeft i (run par cfg i).acc) (pyMax cfg.lower (pyMin cfg.upper
      (if i.err ≠ 0 then estimate par cfg i else i.dt))) with e | e <;> rw [e] <;> assumption

/-- The controllers `C27_progress_partial` applies to. -/
example (p : ℝ) (hp : 1 ≤ p) : ∀ par ∈ [pseudo p, integral p, h0_110 p, h_211 p, h0_211 p, pid p,
    h_312 p, h0_312 p], par.beta ≤ 0 ∧ 0 ≤ par.gamma := by
  have h0 : 0 < p := by linarith
  simp only [List.forall_mem_cons, pseudo, integral, h0_110, h_211, h0_211, pid, h_312, h0_312,
    neg_div]
  refine ⟨?_, ?_, ?_, ?_, ?_, ?_, ?_, ?_, by simp⟩ <;> constructor <;>
    first | positivity | (apply neg_nonpos_of_nonneg; positivity) | norm_num

/-- C27, the code does not do what the property says: after a step with error zero the `pc`
controller (and `h0_220`) suggests step size zero when the lower bound is zero, although the
current error meets the tolerance. -/
theorem C27_pc_stalls_violated :
    ((Ctrl.base (pc 1) ⟨fin 1, 0, pinf, fin (95 / 100), 5⟩).call true
      ⟨fin 1, fin 1, fin 10, (0, fin 1), (fin 1, fin 1)⟩).2 = .ok ⟨0, true⟩ := by
  have hest : estimate (pc 1) ⟨fin 1, 0, pinf, fin (95 / 100), 5⟩
      ⟨fin 1, fin 1, fin 10, (0, fin 1), (fin 1, fin 1)⟩ = fin 0 := by
    unfold estimate pc
    simp only [zero_def]
    rw [div_fin _ one_ne_zero, div_fin _ one_ne_zero]
    norm_num [XReal.pow]
  have hacc : accepts ⟨fin 1, 0, pinf, fin (95 / 100), 5⟩
      ⟨fin 1, fin 1, fin 10, (0, fin 1), (fin 1, fin 1)⟩ := Or.inr (Or.inr (by simp))
  have hs := run_sugg (pc 1) ⟨fin 1, 0, pinf, fin (95 / 100), 5⟩
      ⟨fin 1, fin 1, fin 10, (0, fin 1), (fin 1, fin 1)⟩ 1 rfl (by simp)
  have ha := (run_acc (pc 1) _ _).mpr hacc
  rw [ha, hest] at hs
  simp only [timeLeft, if_true, zero_def, ne_eq, fin_inj, one_ne_zero, not_false_eq_true] at hs
  rw [pyMin_pinf_left _ (by simp), pyMax_fin, pyMin_fin] at hs
  have hrun : run (pc 1) ⟨fin 1, 0, pinf, fin (95 / 100), 5⟩
      ⟨fin 1, fin 1, fin 10, (0, fin 1), (fin 1, fin 1)⟩ = ⟨0, true⟩ := by
    cases hst : run (pc 1) ⟨fin 1, 0, pinf, fin (95 / 100), 5⟩
      ⟨fin 1, fin 1, fin 10, (0, fin 1), (fin 1, fin 1)⟩
    simp only [zero_def] at hst ha hs ⊢
    rw [hst] at ha hs
    dsimp only at ha hs
    rw [ha, hs]
    norm_num
  unfold Ctrl.call
  rw [hrun]
  simp

/-! ### C28 -/

/-- C28: with a NaN error no chain accepts the step, unless it is at the lower bound or as long
as the time left. -/
theorem C28_nan_rejected (c : Ctrl) (top : Bool) (i : Input) (st : Status) (h l r : ℝ)
    (hdt : i.dt = fin h) (hl : c.config.lower = fin l) (hr : i.rem = fin r) (he : i.err = nan)
    (h1 : 1 / 10 ^ 10 ≤ |h - l|) (h2 : 1 / 10 ^ 10 ≤ |h - r|)
    (hc : (c.call top i).2 = .ok st) : st.acc = false := by
  have := C19_acceptance_partial c top i st h l r hdt hl hr hc
  rw [he] at this
  by_contra hacc
  rcases this.mp (by simpa using hacc) with h' | h' | h'
  · linarith
  · linarith
  · exact not_nan_le _ h'

/-- C28: a stand-alone controller (with nonzero `alpha`) raises on a NaN error when time is left
and the step size is below the upper bound. -/
theorem C28_nan_reported_partial (par : Params) (cfg : Config) (i : Input) (h l r : ℝ)
    (hα : par.alpha ≠ 0) (hdt : i.dt = fin h) (hl : cfg.lower = fin l) (hr : i.rem = fin r)
    (he : i.err = nan) (h1 : 1 / 10 ^ 10 ≤ |h - l|) (h2 : 1 / 10 ^ 10 ≤ |h - r|)
    (hu : lt (fin h) cfg.upper) (hpos : 0 < r) :
    ((Ctrl.base par cfg).call true i).2 = .error .outer := by
  have hest : estimate par cfg i = nan := by
    unfold estimate
    rw [he]
    have : div cfg.tol nan = nan := by cases cfg.tol <;> rfl
    rw [this, pow_nan hα]
    simp
  have hacc : (run par cfg i).acc = false := by
    by_contra h'
    have h3 : accepts cfg i := (run_acc par cfg i).mp (by simpa using h')
    unfold accepts at h3
    rw [hdt, hl, hr, he] at h3
    simp only [sub_fin, abs_fin, lt_fin] at h3
    rcases h3 with h3 | h3 | h3
    · linarith
    · linarith
    · exact not_nan_le _ h3
  have hne : i.err ≠ 0 := by rw [he, zero_def]; simp
  have hs : lt (fin h) (run par cfg i).sugg := by
    rw [run_sugg par cfg i h hdt (by rw [hr]; simp), hacc, hest, if_pos hne, pyMin_nan_right]
    have h4 : lt (fin h) (pyMax cfg.lower cfg.upper) := by
      unfold pyMax
      split
      · exact hu
      · rename_i hn
        exact XReal.lt_of_lt_of_le hu
          (le_of_not_lt (ne_nan_of_lt_right hu) (by rw [hl]; simp) hn)
    have h5 : lt (fin h) (timeLeft i false) := by
      simp only [timeLeft, Bool.false_eq_true, if_false, hr, hdt, add_fin, lt_fin]
      linarith
    rcases pyMin_eq_or (timeLeft i false) (pyMax cfg.lower cfg.upper) with e | e <;> rw [e] <;>
      assumption
  unfold Ctrl.call
  dsimp only
  rw [if_pos ⟨by simp [hacc], by rw [hdt]; exact hs, rfl⟩]

example : ((Ctrl.base (integral 4) Config.default).call true
    ⟨nan, fin 1, fin 10, (fin 1, fin 1), (0, 0)⟩).2 = .error .outer := by
  refine C28_nan_reported_partial (integral 4) Config.default _ 1 0 10 ?_ rfl rfl rfl rfl ?_ ?_ ?_ ?_
  · norm_num [integral]
  · norm_num
  · norm_num [abs_of_neg]
  · simp [Config.default, XReal.lt]
  · norm_num

/-- C28, the code does not do what the property says: at the upper bound a NaN error is neither
accepted nor reported; the controller asks for exactly the same attempt again, and its own state
does not change, so the retry never ends. -/
theorem C28_nan_at_upper_bound_violated :
    ∃ (cfg : Config) (i : Input), i.err = nan ∧ lt 0 i.rem ∧
      (Ctrl.base (integral 4) cfg).call true i
        = (.base (integral 4) cfg, .ok ⟨i.dt, false⟩) := by
  refine ⟨⟨fin 1, 0, fin 3, fin 1, 5⟩, ⟨nan, fin 3, fin 10, (fin 1, fin 1), (0, 0)⟩, rfl, ?_, ?_⟩
  · simp [zero_def]
  · have hne : (1 : ℝ) / (1 + 4) ≠ 0 := by norm_num
    have hest : estimate (integral 4) ⟨fin 1, 0, fin 3, fin 1, 5⟩
        ⟨nan, fin 3, fin 10, (fin 1, fin 1), (0, 0)⟩ = nan := by
      simp only [estimate, div, integral, pow_nan hne, mul_nan, nan_mul, ne_eq, not_true_eq_false, if_false]
    have hacc : (run (integral 4) ⟨fin 1, 0, fin 3, fin 1, 5⟩
        ⟨nan, fin 3, fin 10, (fin 1, fin 1), (0, 0)⟩).acc = false := by
      by_contra h'
      have := (run_acc _ _ _).mp (Bool.not_eq_false _ ▸ h')
      unfold accepts at this
      simp only [zero_def, sub_fin, abs_fin, lt_fin, not_nan_le, or_false] at this
      norm_num [abs_of_neg] at this
    have hs := run_sugg (integral 4) ⟨fin 1, 0, fin 3, fin 1, 5⟩
        ⟨nan, fin 3, fin 10, (fin 1, fin 1), (0, 0)⟩ 3 rfl (by simp)
    rw [hacc, hest] at hs
    simp only [zero_def, ne_eq, reduceCtorEq, not_false_eq_true, if_true, pyMin_nan_right,
      pyMax_fin, timeLeft, Bool.false_eq_true, if_false, add_fin, pyMin_fin] at hs
    norm_num at hs
    unfold Ctrl.call
    simp only [zero_def] at hacc ⊢
    cases hst : run (integral 4) ⟨fin 1, fin 0, fin 3, fin 1, 5⟩
        ⟨nan, fin 3, fin 10, (fin 1, fin 1), (fin 0, fin 0)⟩
    rw [hst] at hacc hs
    dsimp only at hacc hs
    rw [hacc, hs]
    simp

/-! ### C29 -/

/-- C29: named controllers are the documented members of their general families. -/
theorem C29_family_members (p : ℝ) (hp : p ≠ 0) :
    h_312 p = h_312_general p (1 / 8) (-3 / 8) (-1 / 8) ∧
    h0_312 p = h_312_general p (1 / 4) (-3 / 4) (-1 / 4) ∧
    h_321 p = h_321_general p (1 / 3) (-1 / 18) (5 / 6) ∧
    h0_330 p = h_330_general p 3 3 1 ∧
    h0_110 p = integral p ∧ h0_220 p = pc p := by
  refine ⟨?_, ?_, ?_, ?_, rfl, rfl⟩
  · simp only [h_312, h_312_general, Params.mk.injEq]
    refine ⟨?_, ?_, ?_, trivial, trivial⟩ <;> field_simp <;> norm_num
  · simp only [h0_312, h_312_general, Params.mk.injEq]
    refine ⟨?_, ?_, ?_, trivial, trivial⟩ <;> field_simp <;> norm_num
  · simp only [h_321, h_321_general, Params.mk.injEq]
    refine ⟨?_, ?_, ?_, trivial, ?_⟩
    · field_simp
    · field_simp
    · field_simp; norm_num
    · norm_num
  · simp only [h0_330, h_330_general]

/-- C29, the code does not do what the property says: `h0_321` is not a member of the family
`h_321_general` for any parameters. -/
theorem C29_h0_321_not_in_family_violated (p : ℝ) (hp : p ≠ 0) :
    ∀ va vb a, h0_321 p ≠ h_321_general p va vb a := by
  intro va vb a h
  simp only [h0_321, h_321_general, Params.mk.injEq] at h
  obtain ⟨h1, h2, h3, -, -⟩ := h
  field_simp at h1 h2 h3
  linarith

/-- C29: with an exactly met tolerance and constant histories every controller proposes
`safety * dt`. -/
theorem C29_met_tolerance (par : Params) (cfg : Config) (i : Input) (κ h t : ℝ)
    (hκ : cfg.safety = fin κ) (ht : cfg.tol = fin t) (hi : i.dt = fin h) (he : i.err = fin t)
    (hh : i.errHist = (fin t, fin t)) (hs : i.stepHist = (fin h, fin h)) (pt : 0 < t)
    (ph : 0 < h) : estimate par cfg i = fin (κ * h) := by
  rw [estimate_fin par cfg i κ h t t t t h h hκ hi ht he (by rw [hh]) (by rw [hh]) (by rw [hs])
    (by rw [hs]) pt pt pt pt ph ph.le ph.le]
  simp [div_self pt.ne', div_self ph.ne']

/-- The reaction of a controller to a constant error: `safety * dt * (tol/err)^total` with
`total = alpha - beta + gamma`. -/
theorem C29_constant_error (par : Params) (cfg : Config) (i : Input) (κ h t e : ℝ)
    (hκ : cfg.safety = fin κ) (ht : cfg.tol = fin t) (hi : i.dt = fin h) (he : i.err = fin e)
    (hh : i.errHist = (fin e, fin e)) (hs : i.stepHist = (fin h, fin h)) (pt : 0 < t)
    (pe : 0 < e) (ph : 0 < h) :
    estimate par cfg i = fin (κ * h * (t / e) ^ (par.alpha - par.beta + par.gamma)) := by
  rw [estimate_fin par cfg i κ h t e e e h h hκ hi ht he (by rw [hh]) (by rw [hh]) (by rw [hs])
    (by rw [hs]) pt pe pe pe ph ph.le ph.le]
  have hpos : 0 < t / e := by positivity
  have : (e / t) ^ par.beta = (t / e) ^ (-par.beta) := by
    rw [Real.rpow_neg hpos.le, ← Real.inv_rpow hpos.le, inv_div]
  rw [this, div_self ph.ne', Real.one_rpow, Real.one_rpow, sub_eq_add_neg, Real.rpow_add hpos,
    Real.rpow_add hpos]
  simp only [ph.ne', if_false, mul_one]
  congr 1
  ring

/-- The total error exponents of all named controllers. -/
theorem C29_total_exponents (p : ℝ) (hp : 0 < p) :
    let tot := fun par : Params => par.alpha - par.beta + par.gamma
    tot (pseudo p) = 0 ∧ tot (integral p) = 1 / (1 + p) ∧ tot (h_211 p) = 1 / (2 * p) ∧
    tot (h0_211 p) = 1 / p ∧ tot (pc p) = 1 / p ∧ tot (pid p) = 2 / (9 * p) ∧
    tot (h_312 p) = 1 / (2 * p) ∧ tot (h0_312 p) = 1 / p ∧ tot (ppid p) = 1 / (10 * p) ∧
    tot (h_321 p) = 1 / (9 * p) ∧ tot (h0_321 p) = 1 / (12 * p) ∧ tot (h0_330 p) = 1 / p := by
  have : p ≠ 0 := hp.ne'
  have : 1 + p ≠ 0 := by positivity
  simp only [pseudo, integral, h_211, h0_211, pc, pid, h_312, h0_312, ppid, h_321, h0_321, h0_330]
  refine ⟨?_, ?_, ?_, ?_, ?_, ?_, ?_, ?_, ?_, ?_, ?_, ?_⟩ <;> field_simp <;> norm_num

/-- All named controllers. -/
noncomputable def named (p : ℝ) : List Params :=
  [pseudo p, integral p, h0_110 p, h_211 p, h0_211 p, pc p, h0_220 p, pid p, h_312 p, h0_312 p,
    ppid p, h_321 p, h0_321 p, h0_330 p]

/-- C29: a constant error not above the tolerance never makes the unclamped suggestion smaller
than `safety * dt`, for every named controller. -/
theorem C29_good_error_does_not_shrink (p : ℝ) (hp : 1 ≤ p) (par : Params) (hpar : par ∈ named p)
    (cfg : Config) (i : Input) (κ h t e : ℝ)
    (hκ : cfg.safety = fin κ) (ht : cfg.tol = fin t) (hi : i.dt = fin h) (he : i.err = fin e)
    (hh : i.errHist = (fin e, fin e)) (hs : i.stepHist = (fin h, fin h)) (pe : 0 < e)
    (het : e ≤ t) (ph : 0 < h) (pκ : 0 ≤ κ) :
    ∃ d, estimate par cfg i = fin d ∧ κ * h ≤ d := by
  have pt : 0 < t := lt_of_lt_of_le pe het
  have p0 : 0 < p := by linarith
  refine ⟨_, C29_constant_error par cfg i κ h t e hκ ht hi he hh hs pt pe ph, ?_⟩
  have htot : 0 ≤ par.alpha - par.beta + par.gamma := by
    have := C29_total_exponents p p0
    dsimp only at this
    obtain ⟨t1, t2, t3, t4, t5, t6, t7, t8, t9, t10, t11, t12⟩ := this
    simp only [named, List.mem_cons, List.not_mem_nil, or_false] at hpar
    rcases hpar with rfl | rfl | rfl | rfl | rfl | rfl | rfl | rfl | rfl | rfl | rfl | rfl | rfl |
      rfl
    · rw [t1]
    · rw [t2]; positivity
    · change 0 ≤ (integral p).alpha - (integral p).beta + (integral p).gamma
      rw [t2]; positivity
    · rw [t3]; positivity
    · rw [t4]; positivity
    · rw [t5]; positivity
    · change 0 ≤ (pc p).alpha - (pc p).beta + (pc p).gamma
      rw [t5]; positivity
    · rw [t6]; positivity
    · rw [t7]; positivity
    · rw [t8]; positivity
    · rw [t9]; positivity
    · rw [t10]; positivity
    · rw [t11]; positivity
    · rw [t12]; positivity
  have h1 : (1 : ℝ) ≤ (t / e) ^ (par.alpha - par.beta + par.gamma) :=
    Real.one_le_rpow ((one_le_div pe).mpr het) htot
  nlinarith [mul_nonneg pκ ph.le]

/-- C29: the deadbeat controllers h0_211, h0_220, h0_312 and h0_330 have total error exponent
`1/p`. -/
theorem C29_deadbeat_exponent_partial (p : ℝ) (hp : 0 < p) :
    ∀ par ∈ [h0_211 p, h0_220 p, h0_312 p, h0_330 p],
      par.alpha - par.beta + par.gamma = 1 / p := by
  obtain ⟨-, -, -, t4, t5, -, -, t8, -, -, -, t12⟩ := C29_total_exponents p hp
  simp only [List.forall_mem_cons]
  exact ⟨t4, t5, t8, t12, by simp⟩

/-- C29, the code does not do what the property says: `h0_321` reacts with exponent `1/(12p)` and
`h0_110` with `1/(p+1)`, not with the deadbeat exponent `1/p`. -/
theorem C29_deadbeat_exponent_violated (p : ℝ) (hp : 0 < p) :
    (h0_321 p).alpha - (h0_321 p).beta + (h0_321 p).gamma ≠ 1 / p ∧
    (h0_110 p).alpha - (h0_110 p).beta + (h0_110 p).gamma ≠ 1 / p := by
  have tt := C29_total_exponents p hp
  dsimp only at tt
  obtain ⟨-, t2, -, -, -, -, -, -, -, -, t11, -⟩ := tt
  have : p ≠ 0 := hp.ne'
  have h1 : 1 + p ≠ 0 := by positivity
  constructor
  · rw [t11]
    intro h
    field_simp at h
    norm_num at h
  · change (integral p).alpha - (integral p).beta + (integral p).gamma ≠ 1 / p
    rw [t2]
    intro h
    field_simp at h
    linarith

/-! ### C30 -/

/-- The estimate of the integral controller does not look at the histories. -/
theorem estimate_integral (p : ℝ) (cfg : Config) (i : Input) (κ h q : ℝ)
    (hκ : cfg.safety = fin κ) (hi : i.dt = fin h)
    (hq : pow (div cfg.tol i.err) (1 / (1 + p)) = fin q) :
    estimate (integral p) cfg i = fin (κ * h * q) := by
  unfold estimate
  rw [hκ, hi]
  simp only [integral, XReal.pow_zero, hq, mul_fin, mul_one]
  split <;> [split; skip] <;> rfl

/-- C30: after a rejection (error above the tolerance, possibly infinite) the integral controller
suggests at most `max(lower, safety * dt)`, whatever the histories are. -/
theorem C30_integral_shrinks (p : ℝ) (hp : 0 ≤ p) (cfg : Config) (i : Input) (κ h t l : ℝ)
    (hκ : cfg.safety = fin κ) (ht : cfg.tol = fin t) (hi : i.dt = fin h) (he : lt (fin t) i.err)
    (hl : cfg.lower = fin l) (hu : cfg.upper ≠ nan) (hr : i.rem ≠ nan)
    (pt : 0 < t) (ph : 0 < h) (pκ : 0 < κ) :
    le (run (integral p) cfg i).sugg (fin (max l (κ * h))) := by
  obtain ⟨q, hq, hq1⟩ : ∃ q, pow (div cfg.tol i.err) (1 / (1 + p)) = fin q ∧ q ≤ 1 := by
    have hα : 0 < 1 / (1 + p) := by positivity
    rw [ht]
    cases hie : i.err with
    | nan => rw [hie] at he; exact absurd he (not_lt_nan _)
    | ninf => rw [hie] at he; exact absurd he (not_lt_ninf _)
    | pinf => exact ⟨0, by simp only [div, XReal.pow, if_neg hα.ne', if_pos hα, _root_.lt_irrefl, if_false,
        if_true], zero_le_one⟩
    | fin e =>
      rw [hie] at he
      have pe : 0 < e := lt_trans pt he
      refine ⟨_, by rw [div_fin _ pe.ne', pow_fin (by positivity)], ?_⟩
      exact Real.rpow_le_one (by positivity) ((div_le_one pe).mpr (_root_.le_of_lt he)) hα.le
  have hest := estimate_integral p cfg i κ h q hκ hi hq
  have hne : i.err ≠ 0 := by
    intro h0
    rw [h0, zero_def] at he
    exact absurd (lt_trans pt he) (_root_.lt_irrefl _)
  rw [run_sugg _ cfg i h hi hr, if_pos hne, hest]
  refine XReal.le_trans (pyMin_le_right (timeLeft_ne_nan hi hr)
    (pyMax_ne_nan (by rw [hl]; simp))) ?_
  refine pyMax_le ?_ ?_
  · rw [hl]; exact le_max_left _ _
  · refine XReal.le_trans (pyMin_le_right hu (by simp)) ?_
    simp only [le_fin]
    refine _root_.le_trans ?_ (le_max_right _ _)
    exact mul_le_of_le_one_right (by positivity) hq1

/-- C30: hence, with safety factor at most one, a stand-alone integral controller never raises
on such a rejection. -/
theorem C30_integral_never_raises (p : ℝ) (hp : 0 ≤ p) (cfg : Config) (i : Input)
    (κ h t l : ℝ) (hκ : cfg.safety = fin κ) (ht : cfg.tol = fin t) (hi : i.dt = fin h)
    (he : lt (fin t) i.err) (hl : cfg.lower = fin l) (hu : cfg.upper ≠ nan) (hr : i.rem ≠ nan)
    (pt : 0 < t) (ph : 0 < h) (pκ : 0 < κ) (hκ1 : κ ≤ 1) (hlh : l ≤ h) :
    ((Ctrl.base (integral p) cfg).call true i).2 = .ok (run (integral p) cfg i) := by
  have h1 := C30_integral_shrinks p hp cfg i κ h t l hκ ht hi he hl hu hr pt ph pκ
  have h2 : ¬ lt i.dt (run (integral p) cfg i).sugg := by
    rw [hi]
    refine not_lt_of_le (XReal.le_trans h1 ?_)
    simp only [le_fin]
    exact max_le hlh (mul_le_of_le_one_left ph.le hκ1)
  unfold Ctrl.call
  simp [h2]

/-- An infinite error, tolerance 1e-6, step 1, NaN in the histories. -/
example : le (run (integral 4) Config.default
    ⟨pinf, fin 1, fin 10, (nan, nan), (nan, nan)⟩).sugg (fin (max 0 (95 / 100 * 1))) :=
  C30_integral_shrinks 4 (by norm_num) _ _ (95 / 100) 1 (1 / 10 ^ 6) 0 rfl rfl rfl (by simp) rfl
    (by simp [Config.default]) (by simp) (by norm_num) (by norm_num) (by norm_num)

end Verif.Props
