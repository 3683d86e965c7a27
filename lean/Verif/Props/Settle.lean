/-
Properties C89 (the step sizes settle where the error estimate is the tolerance times a fixed
factor) and C90 (deadbeat controllers).

For a scheme and an embedded scheme whose smaller order is `p` (the number the integrator passes
to the controllers, runge_kutta_integrator.py L393-403) the leading term of the error estimate is
a multiple of the power `p + 1` of the step size. The closed loop of a controller and such an
error is `Verif.Control.Loop`.
-/
import Verif.Control.Feedback
import Verif.Props.Control
import Mathlib.Analysis.SpecificLimits.Basic

namespace Verif.Props

open Verif.Control Verif.XReal
open Classical

/-- The controllers whose loop is stable for every order. -/
noncomputable def settling : List (ℝ → Params) :=
  [integral, h0_110, h_211, h0_211, pid, h_312, h0_312, ppid, h_321, h0_321]

/-- A controller and an order for which the loop is stable. -/
def Settling (f : ℝ → Params) (p : ℕ) : Prop :=
  1 ≤ p ∧ (f ∈ settling ∨ (4 ≤ p ∧ (f = pc ∨ f = h0_220)) ∨ (8 ≤ p ∧ f = h0_330))

theorem stable_of (par : Params) (k : ℕ) (c2 c1 c0 d : ℝ) (h2 : 1 + par.a - par.alpha * k = c2)
    (h1 : par.b - par.a + par.beta * k = c1) (h0 : par.b + par.gamma * k = c0)
    (hd : par.alpha - par.beta + par.gamma = d) (pd : 0 < d) (J : Jury (-c2) (-c1) c0) :
    StableLoop par k := by
  unfold StableLoop
  rw [h2, h1, h0, hd]
  exact ⟨J, pd⟩

theorem jury_of {a2 a1 a0 : ℝ} (h1 : -1 < a0) (h2 : a0 < 1) (h3 : 0 < 1 + a2 + a1 + a0)
    (h4 : 0 < 1 - a2 + a1 - a0) (h5 : a0 ^ 2 - 1 < a1 - a0 * a2) (h6 : a1 - a0 * a2 < 1 - a0 ^ 2) :
    Jury a2 a1 a0 :=
  ⟨abs_lt.mpr ⟨h1, h2⟩, h3, h4, abs_lt.mpr ⟨by linarith, h6⟩⟩

theorem stable_shipped (f : ℝ → Params) (p : ℕ) (h : Settling f p) : StableLoop (f p) (p + 1) := by
  obtain ⟨hp, hf⟩ := h
  have hp1 : (1 : ℝ) ≤ p := by exact_mod_cast hp
  have p0 : (0 : ℝ) < p := by linarith
  have pn : (p : ℝ) ≠ 0 := p0.ne'
  have pn1 : (1 : ℝ) + p ≠ 0 := by positivity
  obtain ⟨e, he⟩ : ∃ e : ℝ, e = 1 / p := ⟨_, rfl⟩
  have e0 : 0 < e := by rw [he]; positivity
  have e1 : e ≤ 1 := by rw [he, div_le_one p0]; exact hp1
  simp only [settling, List.mem_cons, List.not_mem_nil, or_false] at hf
  have tt := And.intro e0 e1
  rcases hf with (rfl | rfl | rfl | rfl | rfl | rfl | rfl | rfl | rfl | rfl) | ⟨hp4, rfl | rfl⟩ |
    ⟨hp8, rfl⟩
  · refine stable_of _ _ 0 0 0 (1 / (1 + p)) ?_ ?_ ?_ ?_ (by positivity) ?_ <;>
      try (simp only [integral]; push_cast; field_simp; ring1)
    constructor <;> norm_num
  · refine stable_of _ _ 0 0 0 (1 / (1 + p)) ?_ ?_ ?_ ?_ (by positivity) ?_ <;>
      try (simp only [h0_110, integral]; push_cast; field_simp; ring1)
    constructor <;> norm_num
  · refine stable_of _ _ (1 / 2 - e / 4) (-e / 4) 0 (e / 2) ?_ ?_ ?_ ?_ (by positivity) ?_ <;>
      try (simp only [h_211, he]; push_cast; field_simp; (try ring1); done)
    exact jury_of (by nlinarith) (by nlinarith) (by nlinarith) (by nlinarith) (by nlinarith)
      (by nlinarith)
  · refine stable_of _ _ (-e / 2) (-e / 2) 0 e ?_ ?_ ?_ ?_ (by positivity) ?_ <;>
      try (simp only [h0_211, he]; push_cast; field_simp; (try ring1); done)
    exact jury_of (by nlinarith) (by nlinarith) (by nlinarith) (by nlinarith) (by nlinarith)
      (by nlinarith)
  · refine stable_of _ _ (1 - (1 + e) / 18) (-(1 + e) / 9) ((1 + e) / 18) (2 * e / 9) ?_ ?_ ?_ ?_
      (by positivity) ?_ <;>
      try (simp only [pid, he]; push_cast; field_simp; (try ring1); done)
    exact jury_of (by nlinarith) (by nlinarith) (by nlinarith) (by nlinarith) (by nlinarith)
      (by nlinarith)
  · refine stable_of _ _ (1 / 2 - e / 8) (-e / 4) (e / 8) (e / 2) ?_ ?_ ?_ ?_ (by positivity) ?_ <;>
      try (simp only [h_312, he]; push_cast; field_simp; (try ring1); done)
    exact jury_of (by nlinarith) (by nlinarith) (by nlinarith) (by nlinarith) (by nlinarith)
      (by nlinarith)
  · refine stable_of _ _ (-e / 4) (-e / 2) (e / 4) e ?_ ?_ ?_ ?_ (by positivity) ?_ <;>
      try (simp only [h0_312, he]; push_cast; field_simp; (try ring1); done)
    exact jury_of (by nlinarith) (by nlinarith) (by nlinarith) (by nlinarith) (by nlinarith)
      (by nlinarith)
  · refine stable_of _ _ (2 - 3 * (1 + e) / 10) (-(1 + e) / 20 - 1) (-(1 + e) / 4) (e / 10) ?_ ?_ ?_
      ?_ (by positivity) ?_ <;>
      try (simp only [ppid, he]; push_cast; field_simp; (try ring1); done)
    exact jury_of (by nlinarith) (by nlinarith) (by nlinarith) (by nlinarith) (by nlinarith)
      (by nlinarith)
  · refine stable_of _ _ (11 / 6 - (1 + e) / 3) (-(1 + e) / 18 - 2 / 3) (1 / 6 - 5 * (1 + e) / 18)
      (e / 9) ?_ ?_ ?_ ?_ (by positivity) ?_ <;>
      try (simp only [h_321, he]; push_cast; field_simp; (try ring1); done)
    exact jury_of (by nlinarith) (by nlinarith) (by nlinarith) (by nlinarith) (by nlinarith)
      (by nlinarith)
  · refine stable_of _ _ (11 / 12 - e / 3) (-e / 2) (-3 * e / 4) (e / 12) ?_ ?_ ?_ ?_
      (by positivity) ?_ <;>
      try (simp only [h0_321, he]; push_cast; field_simp; (try ring1); done)
    exact jury_of (by nlinarith) (by nlinarith) (by nlinarith) (by nlinarith) (by nlinarith)
      (by nlinarith)
  · have e4 : e ≤ 1 / 4 := by
      rw [he, div_le_div_iff₀ p0 (by norm_num)]
      have : (4 : ℝ) ≤ p := by exact_mod_cast hp4
      linarith
    refine stable_of _ _ (-2 * e) e 0 e ?_ ?_ ?_ ?_ (by positivity) ?_ <;>
      try (simp only [pc, he]; push_cast; field_simp; (try ring1); done)
    exact jury_of (by nlinarith) (by nlinarith) (by nlinarith) (by nlinarith) (by nlinarith)
      (by nlinarith)
  · have e4 : e ≤ 1 / 4 := by
      rw [he, div_le_div_iff₀ p0 (by norm_num)]
      have : (4 : ℝ) ≤ p := by exact_mod_cast hp4
      linarith
    refine stable_of _ _ (-2 * e) e 0 e ?_ ?_ ?_ ?_ (by positivity) ?_ <;>
      try (simp only [h0_220, pc, he]; push_cast; field_simp; (try ring1); done)
    exact jury_of (by nlinarith) (by nlinarith) (by nlinarith) (by nlinarith) (by nlinarith)
      (by nlinarith)
  · have e8 : e ≤ 1 / 8 := by
      rw [he, div_le_div_iff₀ p0 (by norm_num)]
      have : (8 : ℝ) ≤ p := by exact_mod_cast hp8
      linarith
    refine stable_of _ _ (-3 * e) (3 * e) e e ?_ ?_ ?_ ?_ (by positivity) ?_ <;>
      try (simp only [h0_330, he]; push_cast; field_simp; (try ring1); done)
    exact jury_of (by nlinarith) (by nlinarith) (by nlinarith) (by nlinarith) (by nlinarith)
      (by nlinarith)

/-- The named controllers are the ones of the list, the three whose loop is stable only for high
orders, and `pseudo`, which does not control anything. -/
theorem C89_list_complete (p : ℝ) (par : Params) (h : par ∈ named p) :
    (∃ f ∈ settling, par = f p) ∨ par = pc p ∨ par = h0_220 p ∨ par = h0_330 p ∨
      par = pseudo p := by
  simp only [named, List.mem_cons, List.not_mem_nil, or_false] at h
  simp only [settling, List.mem_cons, List.not_mem_nil, or_false, exists_eq_or_imp, exists_eq_left]
  tauto

/-- C89: as long as steps are accepted and the bounds are not active, the step sizes follow the
target: the deviation (in logarithms) of the start is forgotten geometrically, and a variation
`ε` of the error coefficient moves the step sizes by a multiple of `ε` at most. The constants
depend on the controller and the order only. Missing: `pc`, `h0_220` for orders up to three and
`h0_330` for orders up to seven, see `C89_unstable_violated` and `C89_undamped_violated`. -/
theorem C89_follows_partial (f : ℝ → Params) (p : ℕ) (h : Settling f p) :
    ∃ K s : ℝ, 0 ≤ K ∧ 0 ≤ s ∧ s < 1 ∧
      ∀ (cfg : Config) (fs : List (ℝ → Params)) (c : Ctrl) (κ t φ0 hs : ℝ),
      buildChain p cfg (f :: fs) = some c → cfg.safety = fin κ → cfg.tol = fin t →
      0 < κ → 0 < t → 0 < φ0 → Target (f p) (p + 1) κ t φ0 hs →
      ∀ (φ : ℕ → ℝ) (rem : ℕ → XReal) (N : ℕ) (h : ℕ → ℝ) (M ε : ℝ),
      (∀ n, 0 < φ n ∧ |Real.log (φ n / φ0)| ≤ ε) → Loop c (p + 1) φ rem N h → Free cfg rem N h →
      (∀ n < 3, |Real.log (h n / hs)| ≤ M) →
      ∀ n ≤ N + 2, |Real.log (h n / hs)| ≤ K * (M * s ^ n + ε) := by
  obtain ⟨K, s, hK, hs0, hs1, H⟩ := follows (stable_shipped f p h)
  exact ⟨K, s, hK, hs0, hs1, fun cfg fs c κ t φ0 hs hc =>
    H cfg c κ t φ0 hs (fresh_buildChain p cfg f fs hc)⟩

/-- C89: with a safety factor below one and a target strictly between the bounds, all steps are
accepted and no bound becomes active, if the first three step sizes are close to the target, the
error coefficient varies little, and more than twice the target remains. Missing: the same
controllers and orders. -/
theorem C89_accepted_near_target_partial (f : ℝ → Params) (p : ℕ) (h : Settling f p)
    (cfg : Config) (fs : List (ℝ → Params)) (c : Ctrl) (κ t φ0 hs : ℝ)
    (hc : buildChain p cfg (f :: fs) = some c) (hκ : cfg.safety = fin κ) (ht : cfg.tol = fin t)
    (pκ : 0 < κ) (hκ1 : κ < 1) (pt : 0 < t) (pφ : 0 < φ0) (hT : Target (f p) (p + 1) κ t φ0 hs)
    (hl : lt cfg.lower (fin hs)) (hu : lt (fin hs) cfg.upper) :
    ∃ δ > 0, ∀ (φ : ℕ → ℝ) (h0 h1 h2 : ℝ), 0 < h0 → 0 < h1 → 0 < h2 →
      |Real.log (h0 / hs)| ≤ δ → |Real.log (h1 / hs)| ≤ δ → |Real.log (h2 / hs)| ≤ δ →
      (∀ n, 0 < φ n ∧ |Real.log (φ n / φ0)| ≤ δ) →
      ∃ h, h 0 = h0 ∧ h 1 = h1 ∧ h 2 = h2 ∧ ∀ (rem : ℕ → XReal) (N : ℕ),
        (∀ n < N, lt (fin (2 * hs)) (rem n)) →
          Loop c (p + 1) φ rem N h ∧ Free cfg rem N h :=
  stays (stable_shipped f p h) cfg c κ t φ0 hs (fresh_buildChain p cfg f fs hc) hκ ht pκ hκ1 pt pφ
    hT hl hu

/-- C89: hence with a constant error coefficient and no final time the step sizes converge to the
target. Missing: the same controllers and orders. -/
theorem C89_settles_partial (f : ℝ → Params) (p : ℕ) (h : Settling f p)
    (cfg : Config) (fs : List (ℝ → Params)) (c : Ctrl) (κ t φ0 hs : ℝ)
    (hc : buildChain p cfg (f :: fs) = some c) (hκ : cfg.safety = fin κ) (ht : cfg.tol = fin t)
    (pκ : 0 < κ) (hκ1 : κ < 1) (pt : 0 < t) (pφ : 0 < φ0) (hT : Target (f p) (p + 1) κ t φ0 hs)
    (hl : lt cfg.lower (fin hs)) (hu : lt (fin hs) cfg.upper) :
    ∃ δ > 0, ∀ h0 h1 h2 : ℝ, 0 < h0 → 0 < h1 → 0 < h2 →
      |Real.log (h0 / hs)| ≤ δ → |Real.log (h1 / hs)| ≤ δ → |Real.log (h2 / hs)| ≤ δ →
      ∃ h : ℕ → ℝ, h 0 = h0 ∧ h 1 = h1 ∧ h 2 = h2 ∧
        (∀ N, Loop c (p + 1) (fun _ => φ0) (fun _ => pinf) N h) ∧
        Filter.Tendsto h Filter.atTop (nhds hs) := by
  have hsp := hT.1
  obtain ⟨δ, hδ, H⟩ := C89_accepted_near_target_partial f p h cfg fs c κ t φ0 hs hc hκ ht pκ hκ1 pt
    pφ hT hl hu
  obtain ⟨K, s, hK, hs0, hs1, G⟩ := C89_follows_partial f p h
  refine ⟨δ, hδ, fun h0 h1 h2 p0 p1 p2 d0 d1 d2 => ?_⟩
  have hφ : ∀ r : ℝ, 0 ≤ r → ∀ n : ℕ, 0 < (fun _ : ℕ => φ0) n ∧
      |Real.log ((fun _ : ℕ => φ0) n / φ0)| ≤ r := fun r hr n =>
    ⟨pφ, by simp only [div_self pφ.ne', Real.log_one, abs_zero]; exact hr⟩
  obtain ⟨hh, e0, e1, e2, hh'⟩ := H (fun _ => φ0) h0 h1 h2 p0 p1 p2 d0 d1 d2 (hφ δ hδ.le)
  have hL := fun N => hh' (fun _ => pinf) N (fun _ _ => trivial)
  refine ⟨hh, e0, e1, e2, fun N => (hL N).1, ?_⟩
  have bound : ∀ n, |Real.log (hh n / hs)| ≤ K * (δ * s ^ n) := fun n => by
    have := G cfg fs c κ t φ0 hs hc hκ ht pκ pt pφ hT (fun _ => φ0) (fun _ => pinf) n hh δ 0
      (hφ 0 le_rfl) (hL n).1 (hL n).2 (fun n hn => by
        match n, hn with
        | 0, _ => rw [e0]; exact d0
        | 1, _ => rw [e1]; exact d1
        | 2, _ => rw [e2]; exact d2) n (by omega)
    rwa [add_zero] at this
  have hz : Filter.Tendsto (fun n => K * (δ * s ^ n)) Filter.atTop (nhds 0) := by
    have := ((tendsto_pow_atTop_nhds_zero_of_lt_one hs0 hs1).const_mul δ).const_mul K
    simpa only [mul_zero] using this
  have hlog := squeeze_zero_norm (f := fun n => Real.log (hh n / hs)) (fun n => by
    rw [Real.norm_eq_abs]; exact bound n) hz
  have hexp := ((Real.continuous_exp.tendsto 0).comp hlog).const_mul hs
  rw [Real.exp_zero, mul_one] at hexp
  refine hexp.congr fun n => ?_
  have hp := (hL n).1.pos n (by omega)
  simp only [Function.comp]
  rw [Real.exp_log (by positivity)]
  field_simp

/-- C89, the code does not do what the property says: with `pc` or `h0_220` for orders one and
two and with `h0_330` for orders up to six, there are step sizes arbitrarily close to the target
after which a step is rejected (or the controller raises). -/
theorem C89_unstable_violated (f : ℝ → Params) (p : ℕ) (hp : 1 ≤ p)
    (h : (p ≤ 2 ∧ (f = pc ∨ f = h0_220)) ∨ (p ≤ 6 ∧ f = h0_330))
    (cfg : Config) (fs : List (ℝ → Params)) (c : Ctrl) (κ t φ0 hs : ℝ)
    (hc : buildChain p cfg (f :: fs) = some c) (hκ : cfg.safety = fin κ) (ht : cfg.tol = fin t)
    (pκ : 0 < κ) (pt : 0 < t) (pφ : 0 < φ0) (hT : Target (f p) (p + 1) κ t φ0 hs)
    (hl : cfg.lower = fin 0) (hu : cfg.upper = pinf) (hlarge : 1 / 10 ^ 10 ≤ hs) (δ : ℝ)
    (hδ : 0 < δ) :
    ∃ h0 h1 h2, 0 < h0 ∧ 0 < h1 ∧ 0 < h2 ∧ |Real.log (h0 / hs)| ≤ δ ∧ |Real.log (h1 / hs)| ≤ δ ∧
      |Real.log (h2 / hs)| ≤ δ ∧ ∃ N, ∀ h : ℕ → ℝ, h 0 = h0 → h 1 = h1 → h 2 = h2 →
        ¬ Loop c (p + 1) (fun _ => φ0) (fun _ => pinf) N h := by
  have hp1 : (1 : ℝ) ≤ p := by exact_mod_cast hp
  have p0 : (0 : ℝ) < p := by linarith
  have key : 0 < (f p).alpha - (f p).beta + (f p).gamma ∧ ∃ m < -1, LoopRoot (f p) (p + 1) m := by
    rcases h with ⟨h2, rfl | rfl⟩ | ⟨h6, rfl⟩
    · have hp2 : (p : ℝ) ≤ 2 := by exact_mod_cast h2
      refine ⟨?_, root_below _ _ _ ?_⟩
      · have : (pc p).alpha - (pc p).beta + (pc p).gamma = 1 / p := by
          simp only [pc]; field_simp; ring
        rw [this]; positivity
      · have : -1 + -(1 + (pc p).a - (pc p).alpha * ((p + 1 : ℕ) : ℝ))
            - -((pc p).b - (pc p).a + (pc p).beta * ((p + 1 : ℕ) : ℝ))
            + ((pc p).b + (pc p).gamma * ((p + 1 : ℕ) : ℝ)) = (3 - p) / p := by
          simp only [pc]; push_cast; field_simp; ring
        rw [this]
        exact div_pos (by linarith) p0
    · have hp2 : (p : ℝ) ≤ 2 := by exact_mod_cast h2
      refine ⟨?_, root_below _ _ _ ?_⟩
      · have : (h0_220 p).alpha - (h0_220 p).beta + (h0_220 p).gamma = 1 / p := by
          simp only [h0_220, pc]; field_simp; ring
        rw [this]; positivity
      · have : -1 + -(1 + (h0_220 p).a - (h0_220 p).alpha * ((p + 1 : ℕ) : ℝ))
            - -((h0_220 p).b - (h0_220 p).a + (h0_220 p).beta * ((p + 1 : ℕ) : ℝ))
            + ((h0_220 p).b + (h0_220 p).gamma * ((p + 1 : ℕ) : ℝ)) = (3 - p) / p := by
          simp only [h0_220, pc]; push_cast; field_simp; ring
        rw [this]
        exact div_pos (by linarith) p0
    · have hp6 : (p : ℝ) ≤ 6 := by exact_mod_cast h6
      refine ⟨?_, root_below _ _ _ ?_⟩
      · have : (h0_330 p).alpha - (h0_330 p).beta + (h0_330 p).gamma = 1 / p := by
          simp only [h0_330]; field_simp; ring
        rw [this]; positivity
      · have : -1 + -(1 + (h0_330 p).a - (h0_330 p).alpha * ((p + 1 : ℕ) : ℝ))
            - -((h0_330 p).b - (h0_330 p).a + (h0_330 p).beta * ((p + 1 : ℕ) : ℝ))
            + ((h0_330 p).b + (h0_330 p).gamma * ((p + 1 : ℕ) : ℝ)) = (7 - p) / p := by
          simp only [h0_330]; push_cast; field_simp; ring
        rw [this]
        exact div_pos (by linarith) p0
  obtain ⟨htot, m, hm1, hm⟩ := key
  exact rejects (by omega) hm hm1 htot cfg c κ t φ0 hs (fresh_buildChain p cfg f fs hc) hκ ht pκ pt
    pφ hT hl hu hlarge δ hδ

/-- C89, the code does not do what the property says: with `pc` or `h0_220` for order three and
with `h0_330` for order seven, there are accepted steps arbitrarily close to the target which
oscillate around it for ever. -/
theorem C89_undamped_violated (f : ℝ → Params) (p : ℕ)
    (h : (p = 3 ∧ (f = pc ∨ f = h0_220)) ∨ (p = 7 ∧ f = h0_330))
    (cfg : Config) (fs : List (ℝ → Params)) (c : Ctrl) (κ t φ0 hs : ℝ)
    (hc : buildChain p cfg (f :: fs) = some c) (hκ : cfg.safety = fin κ) (ht : cfg.tol = fin t)
    (pκ : 0 < κ) (hκ1 : κ < 1) (pt : 0 < t) (pφ : 0 < φ0) (hT : Target (f p) (p + 1) κ t φ0 hs)
    (hl : cfg.lower = fin 0) (hu : cfg.upper = pinf) (δ : ℝ) (hδ : 0 < δ) :
    ∃ d > 0, d ≤ δ ∧ ∃ h : ℕ → ℝ, (∀ N, Loop c (p + 1) (fun _ => φ0) (fun _ => pinf) N h) ∧
      ∀ n, Real.log (h n / hs) = d * (-1) ^ n := by
  have key : 0 < (f p).alpha - (f p).beta + (f p).gamma ∧ LoopRoot (f p) (p + 1) (-1) := by
    unfold LoopRoot
    rcases h with ⟨rfl, rfl | rfl⟩ | ⟨rfl, rfl⟩
    · simp only [pc]; norm_num
    · simp only [h0_220, pc]; norm_num
    · simp only [h0_330]; norm_num
  exact oscillates key.2 key.1 cfg c κ t φ0 hs (fresh_buildChain p cfg f fs hc) hκ ht pκ hκ1 pt
    pφ hT hl hu δ hδ

/-! ### C90 -/

/-- C90: if the error is a constant times the power `p` of the step size, the deadbeat controllers
suggest the target after any three step sizes. Missing: `h0_110` and `h0_321`, see
`C90_h0_110_violated` and `C90_h0_321_violated`. -/
theorem C90_deadbeat_partial (f : ℝ → Params) (hf : f ∈ [h0_211, pc, h0_220, h0_312, h0_330])
    (p : ℕ) (hp : 1 ≤ p) (cfg : Config) (κ t φ hs : ℝ) (hκ : cfg.safety = fin κ)
    (ht : cfg.tol = fin t) (pκ : 0 < κ) (pt : 0 < t) (pφ : 0 < φ) (hT : Target (f p) p κ t φ hs)
    (rem : XReal) (h2 h1 h0 : ℝ) (ph2 : 0 < h2) (ph1 : 0 < h1) (ph0 : 0 < h0) :
    estimate (f p) cfg ⟨fin (φ * h2 ^ p), fin h2, rem, (fin (φ * h1 ^ p), fin (φ * h0 ^ p)),
      (fin h1, fin h0)⟩ = fin hs := by
  have p0 : (0 : ℝ) < p := by exact_mod_cast hp
  have key : 0 < (f p).alpha - (f p).beta + (f p).gamma ∧ 1 + (f p).a - (f p).alpha * p = 0 ∧
      (f p).b - (f p).a + (f p).beta * p = 0 ∧ (f p).b + (f p).gamma * p = 0 := by
    simp only [List.mem_cons, List.not_mem_nil, or_false] at hf
    have e : ∀ x : ℝ, x = 1 / p → 0 < x := fun x hx => by rw [hx]; positivity
    rcases hf with rfl | rfl | rfl | rfl | rfl
    · refine ⟨e _ ?_, ?_, ?_, ?_⟩ <;> simp only [h0_211] <;> field_simp <;> ring
    · refine ⟨e _ ?_, ?_, ?_, ?_⟩ <;> simp only [pc] <;> field_simp <;> ring
    · refine ⟨e _ ?_, ?_, ?_, ?_⟩ <;> simp only [h0_220, pc] <;> field_simp <;> ring
    · refine ⟨e _ ?_, ?_, ?_, ?_⟩ <;> simp only [h0_312] <;> field_simp <;> ring
    · refine ⟨e _ ?_, ?_, ?_, ?_⟩ <;> simp only [h0_330] <;> field_simp <;> ring
  obtain ⟨htot, k2, k1, k0⟩ := key
  rw [estimate_rel hκ ht pκ pt pφ htot hT rem φ φ φ h2 h1 h0 pφ pφ pφ ph2 ph1 ph0, k2, k1, k0,
    div_self pφ.ne', Real.log_one]
  simp

/-- C90, the code does not do what the property says: `h0_110` misses the target after any step
size other than the target. -/
theorem C90_h0_110_violated (p : ℕ) (hp : 1 ≤ p) (cfg : Config) (κ t φ hs : ℝ)
    (hκ : cfg.safety = fin κ) (ht : cfg.tol = fin t) (pκ : 0 < κ) (pt : 0 < t) (pφ : 0 < φ)
    (hT : Target (h0_110 p) p κ t φ hs) (rem : XReal) (h2 h1 h0 : ℝ) (ph2 : 0 < h2) (ph1 : 0 < h1)
    (ph0 : 0 < h0) (hne : h2 ≠ hs) :
    estimate (h0_110 p) cfg ⟨fin (φ * h2 ^ p), fin h2, rem, (fin (φ * h1 ^ p), fin (φ * h0 ^ p)),
      (fin h1, fin h0)⟩ ≠ fin hs := by
  have p0 : (0 : ℝ) < p := by exact_mod_cast hp
  have hsp := hT.1
  have htot : 0 < (h0_110 p).alpha - (h0_110 p).beta + (h0_110 p).gamma := by
    simp only [h0_110, integral, sub_zero, add_zero]; positivity
  rw [estimate_rel hκ ht pκ pt pφ htot hT rem φ φ φ h2 h1 h0 pφ pφ pφ ph2 ph1 ph0,
    div_self pφ.ne', Real.log_one]
  intro h
  have h' := fin_inj.mp h
  have hx : Real.log (h2 / hs) ≠ 0 := by
    refine Real.log_ne_zero_of_pos_of_ne_one (by positivity) ?_
    intro e
    rw [div_eq_one_iff_eq hsp.ne'] at e
    exact hne e
  have hc : 1 + (h0_110 p).a - (h0_110 p).alpha * p = 1 / (1 + p) := by
    simp only [h0_110, integral]; field_simp; ring
  rw [hc] at h'
  simp only [h0_110, integral, mul_zero, zero_mul, sub_zero, add_zero] at h'
  have e1 : Real.exp (1 / (1 + (p : ℝ)) * Real.log (h2 / hs)) = 1 :=
    mul_left_cancel₀ hsp.ne' (by rw [h', mul_one])
  rw [Real.exp_eq_one_iff] at e1
  rcases mul_eq_zero.mp e1 with h | h
  · have : (0 : ℝ) < 1 / (1 + p) := by positivity
    linarith
  · exact hx h

/-- C90, the code does not do what the property says: after three equal step sizes other than the
target `h0_321` makes up for a twelfth of the deviation only. -/
theorem C90_h0_321_violated (p : ℕ) (hp : 1 ≤ p) (cfg : Config) (κ t φ hs : ℝ)
    (hκ : cfg.safety = fin κ) (ht : cfg.tol = fin t) (pκ : 0 < κ) (pt : 0 < t) (pφ : 0 < φ)
    (hT : Target (h0_321 p) p κ t φ hs) (rem : XReal) (h : ℝ) (ph : 0 < h) :
    ∃ d, estimate (h0_321 p) cfg ⟨fin (φ * h ^ p), fin h, rem, (fin (φ * h ^ p), fin (φ * h ^ p)),
      (fin h, fin h)⟩ = fin d ∧ Real.log (d / hs) = 11 / 12 * Real.log (h / hs) := by
  have p0 : (0 : ℝ) < p := by exact_mod_cast hp
  have hsp := hT.1
  have htot : 0 < (h0_321 p).alpha - (h0_321 p).beta + (h0_321 p).gamma := by
    have : (h0_321 p).alpha - (h0_321 p).beta + (h0_321 p).gamma = 1 / (12 * p) := by
      simp only [h0_321]; field_simp; norm_num
    rw [this]; positivity
  refine ⟨_, estimate_rel hκ ht pκ pt pφ htot hT rem φ φ φ h h h pφ pφ pφ ph ph ph, ?_⟩
  rw [mul_div_cancel_left₀ _ hsp.ne', Real.log_exp, div_self pφ.ne', Real.log_one]
  have c2 : 1 + (h0_321 p).a - (h0_321 p).alpha * p = 11 / 12 := by
    simp only [h0_321]; field_simp; norm_num
  have c1 : (h0_321 p).b - (h0_321 p).a + (h0_321 p).beta * p = 0 := by
    simp only [h0_321]; field_simp; norm_num
  have c0 : (h0_321 p).b + (h0_321 p).gamma * p = 0 := by
    simp only [h0_321]; field_simp; norm_num
  rw [c2, c1, c0]
  ring

namespace SettleEx

/-- The default configuration with tolerance `1 / 100` (error_controller.py L48-52). -/
noncomputable def cfg : Config := { Config.default with tol := fin (1 / 100) }

/-- A target exists for every controller, every order and every coefficient. -/
theorem target (par : Params) (k : ℕ) (hk : k ≠ 0) (κ t φ : ℝ) (pκ : 0 < κ) (pt : 0 < t)
    (pφ : 0 < φ) : ∃ hs, Target par k κ t φ hs := by
  refine ⟨(t * κ ^ (1 / (par.alpha - par.beta + par.gamma)) / φ) ^ ((1 : ℝ) / k), ?_, ?_⟩
  · have := Real.rpow_pos_of_pos pκ (1 / (par.alpha - par.beta + par.gamma))
    positivity
  · have := Real.rpow_pos_of_pos pκ (1 / (par.alpha - par.beta + par.gamma))
    rw [← Real.rpow_natCast, ← Real.rpow_mul (by positivity), one_div_mul_cancel (by
      exact_mod_cast hk), Real.rpow_one]
    field_simp

/-- The step sizes of `h_321` around an integral controller, order four, errors `5 h^5`, tolerance
`1 / 100` and the default safety factor converge. -/
example : ∃ hs > 0, ∃ δ > 0, ∀ h0 h1 h2 : ℝ, 0 < h0 → 0 < h1 → 0 < h2 →
    |Real.log (h0 / hs)| ≤ δ → |Real.log (h1 / hs)| ≤ δ → |Real.log (h2 / hs)| ≤ δ →
    ∃ h : ℕ → ℝ, h 0 = h0 ∧ h 1 = h1 ∧ h 2 = h2 ∧
      (∀ N, Loop (.deco (integral 4) (.base (h_321 4) cfg) true 0) 5 (fun _ => 5) (fun _ => pinf) N
        h) ∧ Filter.Tendsto h Filter.atTop (nhds hs) := by
  obtain ⟨hs, hT⟩ := target (h_321 ((4 : ℕ) : ℝ)) 5 (by norm_num) (95 / 100) (1 / 100) 5
    (by norm_num) (by norm_num) (by norm_num)
  refine ⟨hs, hT.1, ?_⟩
  have := C89_settles_partial h_321 4 ⟨by norm_num, Or.inl (by simp [settling])⟩ cfg [integral]
    _ (95 / 100) (1 / 100) 5 hs rfl rfl rfl (by norm_num) (by norm_num) (by norm_num) (by norm_num)
    hT (by change (0 : ℝ) < hs; exact hT.1) trivial
  simpa only [mk, Nat.cast_ofNat] using this

/-- The step sizes of `pc` for order one do not, errors `h^2`. -/
example : ∃ hs > 0, ∀ δ > 0, ∃ h0 h1 h2 : ℝ, 0 < h0 ∧ 0 < h1 ∧ 0 < h2 ∧
    |Real.log (h0 / hs)| ≤ δ ∧ |Real.log (h1 / hs)| ≤ δ ∧ |Real.log (h2 / hs)| ≤ δ ∧
    ∃ N, ∀ h : ℕ → ℝ, h 0 = h0 → h 1 = h1 → h 2 = h2 →
      ¬ Loop (.base (pc 1) cfg) 2 (fun _ => 1) (fun _ => pinf) N h := by
  obtain ⟨hs, hT⟩ := target (pc ((1 : ℕ) : ℝ)) 2 (by norm_num) (95 / 100) (1 / 100) 1
    (by norm_num) (by norm_num) (by norm_num)
  have hbig : 1 / 10 ^ 10 ≤ hs := by
    have e := hT.2
    have h0 := hT.1
    have : (95 / 100 : ℝ) ^ (1 / ((pc ((1 : ℕ) : ℝ)).alpha - (pc ((1 : ℕ) : ℝ)).beta
        + (pc ((1 : ℕ) : ℝ)).gamma)) = 95 / 100 := by
      have : (1 / ((pc ((1 : ℕ) : ℝ)).alpha - (pc ((1 : ℕ) : ℝ)).beta
        + (pc ((1 : ℕ) : ℝ)).gamma)) = 1 := by simp only [pc]; norm_num
      rw [this, Real.rpow_one]
    rw [this] at e
    by_contra hcon
    have hlt := not_le.mp hcon
    have : hs * hs < 1 / 10 ^ 10 * (1 / 10 ^ 10) := by nlinarith
    have e' : hs * hs = 1 / 100 * (95 / 100) := by rw [← e]; ring
    rw [e'] at this
    norm_num at this
  refine ⟨hs, hT.1, fun δ hδ => ?_⟩
  have := C89_unstable_violated pc 1 le_rfl (Or.inl ⟨by norm_num, Or.inl rfl⟩) cfg []
    _ (95 / 100) (1 / 100) 1 hs rfl rfl rfl (by norm_num) (by norm_num) (by norm_num)
    hT rfl rfl hbig δ hδ
  simpa only [mk, Nat.cast_one] using this

/-- The step sizes of `h0_330` for order seven oscillate. -/
example : ∃ hs > 0, ∀ δ > 0, ∃ d > 0, d ≤ δ ∧ ∃ h : ℕ → ℝ,
    (∀ N, Loop (.base (h0_330 7) cfg) 8 (fun _ => 1) (fun _ => pinf) N h) ∧
      ∀ n, Real.log (h n / hs) = d * (-1) ^ n := by
  obtain ⟨hs, hT⟩ := target (h0_330 ((7 : ℕ) : ℝ)) 8 (by norm_num) (95 / 100) (1 / 100) 1
    (by norm_num) (by norm_num) (by norm_num)
  refine ⟨hs, hT.1, fun δ hδ => ?_⟩
  have := C89_undamped_violated h0_330 7 (Or.inr ⟨rfl, rfl⟩) cfg []
    _ (95 / 100) (1 / 100) 1 hs rfl rfl rfl (by norm_num) (by norm_num) (by norm_num) (by norm_num)
    hT rfl rfl δ hδ
  simpa only [mk, Nat.cast_ofNat] using this

/-- Errors `h^2`, tolerance `1 / 100`, safety factor `1`: after the steps 3, 2 and 1 the deadbeat
controller suggests `1 / 10`. -/
example : estimate (h0_211 2) { cfg with safety := fin 1 } ⟨fin (1 * 1 ^ 2), fin 1, pinf,
    (fin (1 * 2 ^ 2), fin (1 * 3 ^ 2)), (fin 2, fin 3)⟩ = fin (1 / 10) := by
  have := C90_deadbeat_partial h0_211 (by simp) 2 (by norm_num) { cfg with safety := fin 1 } 1
    (1 / 100) 1 (1 / 10) rfl rfl (by norm_num) (by norm_num) (by norm_num)
    ⟨by norm_num, by rw [Real.one_rpow]; norm_num⟩ pinf 1 2 3 (by norm_num) (by norm_num)
    (by norm_num)
  simpa only [Nat.cast_ofNat] using this

end SettleEx

end Verif.Props
