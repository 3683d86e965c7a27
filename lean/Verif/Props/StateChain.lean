/-
C39 and controllers with memory: the attributes of error controllers are not part of a checkpoint.
-/
import Verif.Integrator.Model

namespace Verif.Props

open Verif.Integrator Verif.Control Verif.XReal

/-- A tolerance of 1 and one allowed iteration of the outer controller. -/
noncomputable def memCfg : Config := ⟨fin 1, fin 0, pinf, fin 1, 1⟩

/-- A decorator around a controller that uses the last error. -/
noncomputable def memCtrl (b : Bool) (k : ℕ) : Ctrl :=
  .deco { alpha := 1 } (.base { alpha := 0, beta := 2 } memCfg) b k

/-- The errors: `8` for step size 4, `1/8` for `1/2`, otherwise `1/2`; always `1/2` in the third
step. -/
noncomputable def memErr (d : ℕ × ℝ) : ℝ :=
  if d.1 = 3 then 1 / 2 else if d.2 = 4 then 8 else if d.2 = 1 / 2 then 1 / 8 else 1 / 2

/-- A discretization whose states are the number of steps and the last step size. -/
noncomputable def memBackend : Backend (ℕ × ℝ) Unit (ℕ × ℝ) where
  step := fun d h => match h with
    | .fin r => .ok (d.1 + 1, r)
    | _ => .error .backend
  time := fun d => fin d.1
  measure := fun d => .ok (fin (memErr d))
  set := fun _ d => d
  load := fun d _ => d
  cacheHit := fun _ _ => false
  clearLin := id
  read := id
  deriv := fun _ p _ => p
  adj := fun _ p _ => p
  seed := fun p _ => p
  writeOut := fun _ v => v
  writeIn := fun _ i => i

/-- Adaptive stepping. -/
noncomputable def memOpt : Options := ⟨true, .steps 3, fin 4, 0, 0, 0, 900⟩

theorem mem_run (al be e h g : ℝ) (g2 : XReal) (sh : XReal × XReal) (he : 0 < e) (hh : 1 / 100 < h)
    (hg : 0 < g) :
    run { alpha := al, beta := be } memCfg ⟨fin e, fin h, pinf, (fin g, g2), sh⟩
      = ⟨fin (h * (1 / e) ^ al * g ^ be), decide (e ≤ 1)⟩ := by
  have hpos : 0 < h * (1 / e) ^ al * g ^ be := by positivity
  have hacc : accepts memCfg ⟨fin e, fin h, pinf, (fin g, g2), sh⟩ ↔ e ≤ 1 := by
    simp only [accepts, memCfg, sub_fin, abs_fin, lt_fin, le_fin]
    constructor
    · rintro (h1 | h1 | h1)
      · rw [sub_zero, abs_of_pos (by linarith)] at h1
        norm_num at h1
        linarith
      · simp [sub, neg, add, XReal.abs, lt] at h1
      · exact h1
    · exact fun h => Or.inr (Or.inr h)
  have hest : estimate { alpha := al, beta := be } memCfg ⟨fin e, fin h, pinf, (fin g, g2), sh⟩
      = fin (h * (1 / e) ^ al * g ^ be) := by
    simp only [estimate, memCfg, XReal.pow_zero, div_fin 1 (ne_of_gt he), div_fin g one_ne_zero,
      pow_fin (div_pos one_pos he), div_one, pow_fin hg, mul_fin, mul_one, one_mul, ite_self]
  have hne : (fin e : XReal) ≠ 0 := by
    rw [zero_def]; intro h; exact (ne_of_gt he) (fin_inj.mp h)
  simp only [run, hest, if_pos hne]
  have h1 : pyMin memCfg.upper (fin (h * (1 / e) ^ al * g ^ be))
      = fin (h * (1 / e) ^ al * g ^ be) := by
    simp [pyMin, memCfg]
  have h2 : pyMax memCfg.lower (fin (h * (1 / e) ^ al * g ^ be))
      = fin (h * (1 / e) ^ al * g ^ be) := by
    rw [pyMax, if_pos]
    exact hpos
  rw [h1, h2]
  have h3 : ∀ b : Bool, pyMin (add pinf (mul (fin (if b then 0 else 1)) (fin h)))
      (fin (h * (1 / e) ^ al * g ^ be)) = fin (h * (1 / e) ^ al * g ^ be) := by
    intro b; simp [pyMin]
  rw [h3]
  simp only [hacc]

theorem mem_inner (e h g : ℝ) (g2 : XReal) (sh : XReal × XReal) (he : 0 < e) (hh : 1 / 100 < h)
    (hg : 0 < g) :
    run { alpha := 0, beta := 2 } memCfg ⟨fin e, fin h, pinf, (fin g, g2), sh⟩
      = ⟨fin (h * g ^ 2), decide (e ≤ 1)⟩ := by
  rw [mem_run 0 2 e h g g2 sh he hh hg]
  simp

theorem mem_outer (e h g : ℝ) (g2 : XReal) (sh : XReal × XReal) (he : 0 < e) (hh : 1 / 100 < h)
    (hg : 0 < g) :
    run { alpha := 1 } memCfg ⟨fin e, fin h, pinf, (fin g, g2), sh⟩
      = ⟨fin (h / e), decide (e ≤ 1)⟩ := by
  rw [mem_run 1 0 e h g g2 sh he hh hg]
  simp [div_eq_mul_inv]

/-- An accepted first attempt. -/
theorem mem_accept (k : ℕ) (e h g : ℝ) (g2 : XReal) (sh : XReal × XReal) (he : 0 < e) (he1 : e ≤ 1)
    (hh : 1 / 100 < h) (hg : 0 < g) :
    (memCtrl true k).call true ⟨fin e, fin h, pinf, (fin g, g2), sh⟩
      = (memCtrl true 0, .ok ⟨fin (h * g ^ 2), true⟩) := by
  simp only [memCtrl, Ctrl.call, mem_inner e h g g2 sh he hh hg, he1]
  simp

/-- A rejected first attempt where the wrapped controller is left. -/
theorem mem_reject_outer (k : ℕ) (e h g : ℝ) (g2 : XReal) (sh : XReal × XReal) (he1 : 1 < e)
    (hh : 1 / 100 < h) (hg : 0 < g) (hk : h ≤ h * g ^ 2 ∨ 1 ≤ k) :
    (memCtrl true k).call true ⟨fin e, fin h, pinf, (fin g, g2), sh⟩
      = (memCtrl false (k + 1), .ok ⟨fin (h / e), false⟩) := by
  have he : 0 < e := by linarith
  have h1 : ¬ h < h / e := by
    rw [not_lt, div_le_iff₀ he]
    nlinarith
  have h2 : ¬ (h * g ^ 2 < h ∧ k + 1 ≤ 1) := by
    rintro ⟨a, b⟩
    rcases hk with hk | hk
    · linarith
    · omega
  simp only [memCtrl, Ctrl.call, mem_inner e h g g2 sh he hh hg, not_le.mpr he1, decide_false,
    Bool.false_eq_true, ↓reduceIte, not_false_eq_true, and_false, and_true, lt_fin, Ctrl.config,
    runDeco, mem_outer e h g g2 sh he hh hg, h1]
  rw [show memCfg.maxIter = 1 from rfl, if_neg h2]

/-- A rejected first attempt where the wrapped controller goes on. -/
theorem mem_reject_inner (e h g : ℝ) (g2 : XReal) (sh : XReal × XReal) (he1 : 1 < e)
    (hh : 1 / 100 < h) (hg : 0 < g) (hlt : h * g ^ 2 < h) :
    (memCtrl true 0).call true ⟨fin e, fin h, pinf, (fin g, g2), sh⟩
      = (memCtrl true 0, .ok ⟨fin (h * g ^ 2), false⟩) := by
  have he : 0 < e := by linarith
  simp only [memCtrl, Ctrl.call, mem_inner e h g g2 sh he hh hg, not_le.mpr he1, decide_false,
    Bool.false_eq_true, ↓reduceIte, not_false_eq_true, and_false, lt_fin, Ctrl.config, hlt]
  rw [show memCfg.maxIter = 1 from rfl]
  simp

/-- An accepted attempt of the decorator. -/
theorem mem_accept_outer (k : ℕ) (e h g : ℝ) (g2 : XReal) (sh : XReal × XReal) (he : 0 < e)
    (he1 : e ≤ 1) (hh : 1 / 100 < h) (hg : 0 < g) :
    (memCtrl false k).call true ⟨fin e, fin h, pinf, (fin g, g2), sh⟩
      = (memCtrl true k, .ok ⟨fin (h / e), true⟩) := by
  have hr : runDeco true { alpha := 1 } memCfg ⟨fin e, fin h, pinf, (fin g, g2), sh⟩
      = (true, .ok ⟨fin (h / e), true⟩) := by
    rw [runDeco, mem_outer e h g g2 sh he hh hg]
    simp [he1]
  simp only [memCtrl, Ctrl.call, Ctrl.config, hr]
  simp

theorem mem_iterate (f : ℕ) (c : Ctrl) (d : ℕ × ℝ) (h e : ℝ) (sh eh : XReal × XReal) (c' : Ctrl)
    (st : Status) (he : memErr (d.1 + 1, h) = e)
    (hc : c.call true ⟨fin e, fin h, pinf, eh, sh⟩ = (c', .ok st)) :
    iterateOnStep memBackend memOpt (f + 1) c ⟨d, fin h, sh, eh⟩
      = if st.acc then (c', ⟨(d.1 + 1, h), st.sugg, (fin h, sh.1), (fin e, eh.1)⟩, .ok ())
        else iterateOnStep memBackend memOpt f c' ⟨d, st.sugg, sh, eh⟩ := by
  rw [iterateOnStep]
  simp only [memBackend, memOpt, ↓reduceIte, he, Crit.remaining, hc]

theorem mem_runStep (it : ℕ) (c c' : Ctrl) (x x' : IState (ℕ × ℝ))
    (h : iterateOnStep memBackend memOpt 900 c x = (c', x', .ok ())) :
    runStep memBackend memOpt it c x = ⟨c', x', [], .ok ()⟩ := by
  rw [runStep]
  rw [show memOpt.recursionLimit = 900 from rfl, h]
  rfl

/-- C39 fails for chains of controllers: the counter of a decorator is not part of the state, so
not part of a checkpoint. Here three steps are done from some state; the checkpoint made after the
first one is loaded after the third one; the next step is not the second one of the first time
(step size 1/16 instead of 1/2). -/
theorem C39_controller_memory_violated :
    let B := memBackend
    let x0 : IState (ℕ × ℝ) := ⟨(0, 0), fin 4, (fin 0, fin 0), (fin 1, fin 1)⟩
    let r1 := runStep B memOpt 1 (memCtrl true 0) x0
    let r2 := runStep B memOpt 2 r1.ctrl r1.st
    let r3 := runStep B memOpt 3 r2.ctrl r2.st
    let again := runStep B memOpt 2 r3.ctrl r1.st
    r1.out = .ok () ∧ r2.out = .ok () ∧ r3.out = .ok () ∧ again.out = .ok () ∧
      r2.st.disc = (2, 1 / 2) ∧ again.st.disc = (2, 1 / 16) := by
  intro B x0
  have h1 : runStep B memOpt 1 (memCtrl true 0) x0 = ⟨memCtrl true 1,
      ⟨(1, 1 / 2), fin 4, (fin (1 / 2), fin 0), (fin (1 / 8), fin 1)⟩, [], .ok ()⟩ := by
    apply mem_runStep
    rw [mem_iterate 899 _ _ 4 8 _ _ _ _ (by norm_num [memErr])
      (mem_reject_outer 0 8 4 1 _ _ (by norm_num) (by norm_num) (by norm_num) (by norm_num))]
    rw [if_neg (by simp), show (4 : ℝ) / 8 = 1 / 2 by norm_num, mem_iterate 898 _ _ (1 / 2) (1 / 8) _ _
      _ _ (by norm_num [memErr]) (mem_accept_outer _ (1 / 8) (1 / 2) 1 _ _ (by norm_num)
        (by norm_num) (by norm_num) (by norm_num))]
    rw [if_pos rfl]
    norm_num
  have h2 : runStep B memOpt 2 (memCtrl true 1)
      ⟨(1, 1 / 2), fin 4, (fin (1 / 2), fin 0), (fin (1 / 8), fin 1)⟩ = ⟨memCtrl true 2,
      ⟨(2, 1 / 2), fin 4, (fin (1 / 2), fin (1 / 2)), (fin (1 / 8), fin (1 / 8))⟩, [], .ok ()⟩ := by
    apply mem_runStep
    rw [mem_iterate 899 _ _ 4 8 _ _ _ _ (by norm_num [memErr])
      (mem_reject_outer 1 8 4 (1 / 8) _ _ (by norm_num) (by norm_num) (by norm_num) (by norm_num))]
    rw [if_neg (by simp), show (4 : ℝ) / 8 = 1 / 2 by norm_num, mem_iterate 898 _ _ (1 / 2) (1 / 8) _ _
      _ _ (by norm_num [memErr]) (mem_accept_outer _ (1 / 8) (1 / 2) (1 / 8) _ _ (by norm_num)
        (by norm_num) (by norm_num) (by norm_num))]
    rw [if_pos rfl]
    norm_num
  have h3 : runStep B memOpt 3 (memCtrl true 2)
      ⟨(2, 1 / 2), fin 4, (fin (1 / 2), fin (1 / 2)), (fin (1 / 8), fin (1 / 8))⟩ = ⟨memCtrl true 0,
      ⟨(3, 4), fin (1 / 16), (fin 4, fin (1 / 2)), (fin (1 / 2), fin (1 / 8))⟩, [], .ok ()⟩ := by
    apply mem_runStep
    rw [mem_iterate 899 _ _ 4 (1 / 2) _ _ _ _ (by norm_num [memErr])
      (mem_accept 2 (1 / 2) 4 (1 / 8) _ _ (by norm_num) (by norm_num) (by norm_num) (by norm_num))]
    rw [if_pos rfl]
    norm_num
  have h4 : runStep B memOpt 2 (memCtrl true 0)
      ⟨(1, 1 / 2), fin 4, (fin (1 / 2), fin 0), (fin (1 / 8), fin 1)⟩ = ⟨memCtrl true 0,
      ⟨(2, 1 / 16), fin (1 / 1024), (fin (1 / 16), fin (1 / 2)), (fin (1 / 2), fin (1 / 8))⟩, [],
        .ok ()⟩ := by
    apply mem_runStep
    rw [mem_iterate 899 _ _ 4 8 _ _ _ _ (by norm_num [memErr])
      (mem_reject_inner 8 4 (1 / 8) _ _ (by norm_num) (by norm_num) (by norm_num) (by norm_num))]
    rw [if_neg (by simp), show (4 : ℝ) * (1 / 8) ^ 2 = 1 / 16 by norm_num, mem_iterate 898 _ _ (1 / 16)
      (1 / 2) _ _ _ _ (by norm_num [memErr]) (mem_accept _ (1 / 2) (1 / 16) (1 / 8) _ _
        (by norm_num) (by norm_num) (by norm_num) (by norm_num))]
    rw [if_pos rfl]
    norm_num
  simp only [h1, h2, h3, h4]
  simp

end Verif.Props
