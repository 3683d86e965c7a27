/-
Norms of states and error measures in floating point arithmetic.

Source: /repo/src/rkopenmdao/discretized_ode/openmdao_ode.py 380-435 (`compute_state_norm`)
        /repo/src/rkopenmdao/error_measurer.py

`Verif.OpenMDAO.Norm` computes with real numbers. Here sums, powers, the reciprocal of the order, the
norm of NumPy and the sum over the ranks are functions that only have to be accurate; maxima and
minima are exact in floating point arithmetic. With exact arithmetic the functions are those of
`Verif.OpenMDAO.Norm` (`stateNormFl_exact`).

Simplifications: as in `Verif.OpenMDAO.Norm`, and the exponents of the numbers are unbounded.
-/
import Verif.OpenMDAO.NormLemmas
import Verif.Float.Values
import Mathlib.Analysis.SpecialFunctions.Exp
import Mathlib.Analysis.SpecialFunctions.Log.Basic

namespace Verif.Fl

open Verif.Metadata Verif.OM

/-- The arithmetic of a norm: sum of two numbers, `a ** y`, `1.0 / order` (openmdao_ode.py 434),
`np.linalg.norm` (413) and the sum over the ranks (431). -/
structure NormArith where
  add : ℝ → ℝ → ℝ
  pw : ℝ → ℝ → ℝ
  inv : ℝ → ℝ
  np : Order → List ℝ → Option ℝ
  red : List ℝ → ℝ

/-- Exact arithmetic. -/
noncomputable def NormArith.exact (em : Option ℝ) : NormArith :=
  ⟨fun a b => a + b, fun a y => a ^ y, fun p => 1 / p, npNorm em, List.sum⟩

/-- `_partial_norm_intermediate`, openmdao_ode.py 407-413. -/
noncomputable def partialNormFl (A : NormArith) (o : Order) (x : ℕ → ℝ) (q : Quantity) : Option ℝ :=
  (A.np o (slice q x)).map fun v => A.pw v (exponent o)

/-- `_add_to_intermediate`, openmdao_ode.py 415-423. -/
noncomputable def addToFl (A : NormArith) : Order → ℝ → ℝ → ℝ
  | .inf, v, w => max v w
  | .ninf, v, w => min v w
  | .fin _, v, w => A.add v w

/-- `_allreduce_own_intermediate`, openmdao_ode.py 425-431, for the values of all ranks. -/
noncomputable def allreduceFl (A : NormArith) : Order → List ℝ → ℝ
  | _, [] => 0
  | .inf, v :: vs => vs.foldl max v
  | .ninf, v :: vs => vs.foldl min v
  | .fin _, vs => A.red vs

/-- `_normalize`, openmdao_ode.py 433-435. -/
noncomputable def normalizeFl (A : NormArith) : Order → ℝ → ℝ
  | .inf, v => A.pw v 1
  | .ninf, v => A.pw v 1
  | .fin p, v => if p = 0 then A.pw v 1 else A.pw v (A.inv p)

/-- Body of the loop in lines 384-398 of openmdao_ode.py. -/
noncomputable def normStepFl (A : NormArith) (excl : List String) (o : Order) (x : ℕ → ℝ) (v : ℝ × ℝ)
    (q : Quantity) : Option (ℝ × ℝ) :=
  if q.name ∈ excl then some v
  else (partialNormFl A o x q).map fun w =>
    if q.arr.distributed then (addToFl A o v.1 w, v.2) else (v.1, addToFl A o v.2 w)

/-- The two intermediate values of a rank, openmdao_ode.py 381-398. -/
noncomputable def intermediatesFl (A : NormArith) (excl : List String) (o : Order)
    (a : Meta × (ℕ → ℝ)) : Option (ℝ × ℝ) :=
  a.1.quantities.foldlM (normStepFl A excl o a.2) (0, 0)

/-- `compute_state_norm` on rank `r`, openmdao_ode.py 380-405. -/
noncomputable def stateNormFl (A : NormArith) (excl : List String) (o : Order)
    (ranks : List (Meta × (ℕ → ℝ))) (r : ℕ) : Option ℝ := do
  let vs ← ranks.mapM (intermediatesFl A excl o)
  let own ← vs[r]?
  return normalizeFl A o (addToFl A o (allreduceFl A o (vs.map Prod.fst)) own.2)

/-- `ImprovedErrorMeasurer.get_measure`, error_measurer.py 72-82, with quotients and the sum rounded by
`f`; `none` is a division by zero. -/
noncomputable def improvedMeasureFl (f : ℝ → ℝ) {S : Type} (norm : S → ℝ) (eta eps : ℝ)
    (err state : S) : Option ℝ :=
  if eps = 0 then none
  else if f (norm state + f (eta / eps)) = 0 then none
  else some (f (norm err / f (norm state + f (eta / eps))))

/-! ### With exact arithmetic nothing changes -/

theorem normStepFl_exact (em : Option ℝ) (excl : List String) (o : Order) :
    normStepFl (.exact em) excl o = normStep em excl o := by
  funext x v q
  cases o <;> rfl

theorem stateNormFl_exact (em : Option ℝ) (excl : List String) (o : Order)
    (ranks : List (Meta × (ℕ → ℝ))) (r : ℕ) :
    stateNormFl (.exact em) excl o ranks r = stateNorm em excl o ranks r := by
  have h : intermediatesFl (.exact em) excl o = intermediates em excl o := by
    funext a
    simp only [intermediatesFl, intermediates, normStepFl_exact]
  have hr : ∀ vs, allreduceFl (.exact em) o vs = allreduce o vs := by
    intro vs
    cases o <;> cases vs <;> rfl
  unfold stateNormFl stateNorm
  rw [h]
  simp only [hr]
  cases o <;> rfl

theorem improvedMeasureFl_exact {S : Type} (norm : S → ℝ) (eta eps : ℝ) (err state : S) :
    improvedMeasureFl id norm eta eps err state = improvedMeasure norm eta eps err state := rfl

/-! ### Relative accuracy -/

/-- `a` is `b` up to a factor between `exp (-L)` and `exp L`. -/
structure Near (L a b : ℝ) : Prop where
  lower : Real.exp (-L) * b ≤ a
  upper : a ≤ Real.exp L * b

variable {L M a b c d : ℝ}

theorem Near.refl (b : ℝ) : Near 0 b b := ⟨by simp, by simp⟩

theorem Near.nonneg (h : Near L a b) (hb : 0 ≤ b) : 0 ≤ a :=
  (mul_nonneg (Real.exp_pos _).le hb).trans h.lower

theorem Near.mono (h : Near L a b) (hb : 0 ≤ b) (hL : L ≤ M) : Near M a b :=
  ⟨(mul_le_mul_of_nonneg_right (Real.exp_le_exp.mpr (by linarith)) hb).trans h.lower,
    h.upper.trans (mul_le_mul_of_nonneg_right (Real.exp_le_exp.mpr hL) hb)⟩

theorem Near.trans (h : Near L a b) (h' : Near M b c) : Near (L + M) a c := by
  constructor
  · refine _root_.le_trans ?_ h.lower
    rw [show -(L + M) = -L + -M by ring, Real.exp_add, mul_assoc]
    exact mul_le_mul_of_nonneg_left h'.lower (Real.exp_pos _).le
  · refine h.upper.trans ?_
    rw [Real.exp_add, mul_assoc]
    exact mul_le_mul_of_nonneg_left h'.upper (Real.exp_pos _).le

theorem Near.add (h : Near L a b) (h' : Near L c d) : Near L (a + c) (b + d) :=
  ⟨by rw [mul_add]; exact add_le_add h.lower h'.lower,
    by rw [mul_add]; exact add_le_add h.upper h'.upper⟩

theorem Near.rpow (h : Near L a b) (hb : 0 ≤ b) {y : ℝ} (hy : 0 ≤ y) :
    Near (L * y) (a ^ y) (b ^ y) := by
  have ha := h.nonneg hb
  constructor
  · have := Real.rpow_le_rpow (mul_nonneg (Real.exp_pos _).le hb) h.lower hy
    rwa [Real.mul_rpow (Real.exp_pos _).le hb, ← Real.exp_mul, neg_mul] at this
  · have := Real.rpow_le_rpow ha h.upper hy
    rwa [Real.mul_rpow (Real.exp_pos _).le hb, ← Real.exp_mul] at this

theorem Near.div (h : Near L a b) (h' : Near M c d) (hb : 0 ≤ b) (hd : 0 < d) :
    Near (L + M) (a / c) (b / d) := by
  have ha := h.nonneg hb
  have hc : 0 < c := (mul_pos (Real.exp_pos _) hd).trans_le h'.lower
  constructor
  · rw [show -(L + M) = -L + -M by ring, Real.exp_add, ← mul_div_assoc, div_le_div_iff₀ hd hc]
    have e : Real.exp (-M) * c ≤ d := by
      have := mul_le_mul_of_nonneg_left h'.upper (Real.exp_pos (-M)).le
      rwa [← mul_assoc, ← Real.exp_add, neg_add_cancel, Real.exp_zero, one_mul] at this
    calc Real.exp (-L) * Real.exp (-M) * b * c
        = (Real.exp (-L) * b) * (Real.exp (-M) * c) := by ring
      _ ≤ a * d := mul_le_mul h.lower e (mul_nonneg (Real.exp_pos _).le hc.le) ha
  · rw [Real.exp_add, ← mul_div_assoc, div_le_div_iff₀ hc hd]
    have e : d ≤ Real.exp M * c := by
      have := mul_le_mul_of_nonneg_left h'.lower (Real.exp_pos M).le
      rwa [← mul_assoc, ← Real.exp_add, add_neg_cancel, Real.exp_zero, one_mul] at this
    calc a * d ≤ (Real.exp L * b) * (Real.exp M * c) :=
          mul_le_mul h.upper e hd.le (mul_nonneg (Real.exp_pos _).le hb)
      _ = Real.exp L * Real.exp M * b * c := by ring

theorem Near.eq_zero_iff (h : Near L a b) : a = 0 ↔ b = 0 := by
  constructor
  · rintro rfl
    have h1 := h.lower
    have h2 := h.upper
    have p1 := Real.exp_pos (-L)
    have p2 := Real.exp_pos L
    rcases lt_trichotomy b 0 with hb | hb | hb
    · exact absurd h2 (not_le.mpr (mul_neg_of_pos_of_neg p2 hb))
    · exact hb
    · exact absurd h1 (not_le.mpr (mul_pos p1 hb))
  · rintro rfl
    have h1 := h.lower
    have h2 := h.upper
    rw [mul_zero] at h1 h2
    exact le_antisymm h2 h1

/-- For small `L` this is a relative error of `2 L`. -/
theorem Near.relative (h : Near L a b) (hb : 0 ≤ b) (h0 : 0 ≤ L) (h1 : L ≤ 1) :
    |a - b| ≤ 2 * L * b := by
  have e1 := Real.abs_exp_sub_one_le (x := L) (by rwa [abs_of_nonneg h0])
  have e2 := Real.abs_exp_sub_one_le (x := -L) (by rwa [abs_neg, abs_of_nonneg h0])
  rw [abs_neg] at e2
  rw [abs_of_nonneg h0] at e1 e2
  have u1 := mul_le_mul_of_nonneg_right (abs_le.mp e1).2 hb
  have u2 := mul_le_mul_of_nonneg_right (abs_le.mp e2).1 hb
  rw [abs_le]
  constructor
  · linarith [h.lower]
  · linarith [h.upper]

theorem Rounds.near {f : ℝ → ℝ} {u : ℝ} (hf : Rounds f u) {x : ℝ} (hx : 0 ≤ x) :
    Near (-Real.log (1 - u)) (f x) x := by
  have h := abs_le.mp (hf.err x)
  rw [abs_of_nonneg hx] at h
  have h1 : 0 < 1 - u := by linarith [hf.lt_one]
  constructor
  · rw [neg_neg, Real.exp_log h1]
    linarith [h.1]
  · rw [Real.exp_neg, Real.exp_log h1]
    have : 1 + u ≤ (1 - u)⁻¹ := by
      rw [← one_div, le_div_iff₀ h1]
      nlinarith [hf.nonneg]
    have := mul_le_mul_of_nonneg_right this hx
    linarith [h.2]

theorem near_sum {l l' : List ℝ} (h : List.Forall₂ (Near L) l l') : Near L l.sum l'.sum := by
  induction h with
  | nil => exact ⟨by simp, by simp⟩
  | cons h _ ih =>
    rw [List.sum_cons, List.sum_cons]
    exact h.add ih

/-- Sums of numbers that are not negative, in any order. -/
theorem Summed.near {f : ℝ → ℝ} {u : ℝ} (hf : Rounds f u) {k : ℕ} {l : List ℝ} {s : ℝ}
    (h : Summed f k l s) (hl : ∀ x ∈ l, 0 ≤ x) : Near (k * -Real.log (1 - u)) s l.sum := by
  have h0 : 0 ≤ -Real.log (1 - u) := by
    have := Real.log_nonpos (x := 1 - u) (by linarith [hf.lt_one]) (by linarith [hf.nonneg])
    linarith
  induction h with
  | nil => exact ⟨by simp, by simp⟩
  | single x => exact ⟨by simp, by simp⟩
  | @add d xs ys l a b _ _ hp iha ihb =>
    have hx : ∀ x ∈ xs, 0 ≤ x := fun x h => hl x (hp.mem_iff.mpr (List.mem_append_left _ h))
    have hy : ∀ x ∈ ys, 0 ≤ x := fun x h => hl x (hp.mem_iff.mpr (List.mem_append_right _ h))
    have n := (iha hx).add (ihb hy)
    have s0 : 0 ≤ xs.sum + ys.sum := add_nonneg (List.sum_nonneg hx) (List.sum_nonneg hy)
    rw [hp.sum_eq, List.sum_append]
    have := (hf.near (n.nonneg s0)).trans n
    convert this using 1
    push_cast
    ring
  | @more d l a _ ih =>
    refine (ih hl).mono (List.sum_nonneg hl) ?_
    push_cast
    nlinarith

/-! ### The norm of a state -/

/-- An arithmetic that is accurate for the norm of order `p` and parts of at most `K` entries: `t` for a
sum, `v` for a power and `n` for the norms of NumPy, as exponents of `Near`; the reciprocal of the
order is exact. -/
structure NormAccurate (A : NormArith) (p t v n : ℝ) (K : ℕ) : Prop where
  sums : 0 ≤ t
  powers : 0 ≤ v
  norms : 0 ≤ n
  add : ∀ a b, 0 ≤ a → 0 ≤ b → Near t (A.add a b) (a + b)
  pw : ∀ a y, 0 ≤ a → Near v (A.pw a y) (a ^ y)
  inv : A.inv p = 1 / p
  np : ∀ l : List ℝ, l.length ≤ K →
    ∃ x, A.np (.fin p) l = some x ∧ Near n x ((l.map fun a => |a| ^ p).sum ^ (1 / p))
  red : ∀ l : List ℝ, (∀ x ∈ l, 0 ≤ x) → Near (l.length * t) (A.red l) l.sum

variable {A : NormArith} {p t v n : ℝ} {K : ℕ} {em : Option ℝ} {excl : List String}

theorem powers_nonneg (p : ℝ) (l : List ℝ) : 0 ≤ (l.map fun a => |a| ^ p).sum :=
  List.sum_nonneg fun x hx => by
    obtain ⟨a, _, rfl⟩ := List.mem_map.mp hx
    positivity

theorem partialNorm_near (hA : NormAccurate A p t v n K) (hp : 0 < p) (x : ℕ → ℝ) (q : Quantity)
    (hq : (slice q x).length ≤ K) :
    ∃ w w', partialNormFl A (.fin p) x q = some w ∧ partialNorm em (.fin p) x q = some w' ∧
      0 ≤ w' ∧ Near (n * p + v) w w' := by
  obtain ⟨y, hy, hn⟩ := hA.np _ hq
  have h0 := Real.rpow_nonneg (powers_nonneg p (slice q x)) (1 / p)
  refine ⟨A.pw y p, (((slice q x).map fun a => |a| ^ p).sum ^ (1 / p)) ^ p, ?_, ?_, ?_, ?_⟩
  · simp only [partialNormFl, hy, exponent, if_neg hp.ne', Option.map_some]
  · simp only [partialNorm, npNorm, exponent, if_neg hp.ne', Option.map_some]
  · exact Real.rpow_nonneg h0 p
  · have := (hA.pw y p (hn.nonneg h0)).trans (hn.rpow h0 hp.le)
    rwa [add_comm] at this

/-- Both intermediate values are accurate. -/
theorem fold_near (hA : NormAccurate A p t v n K) (hp : 0 < p) (x : ℕ → ℝ) (qs : List Quantity)
    (hq : ∀ q ∈ qs, (slice q x).length ≤ K) {L : ℝ} (hL : n * p + v ≤ L) {w w' : ℝ × ℝ}
    (h1 : 0 ≤ w'.1) (h2 : 0 ≤ w'.2) (n1 : Near L w.1 w'.1) (n2 : Near L w.2 w'.2) :
    ∃ z z', qs.foldlM (normStepFl A excl (.fin p) x) w = some z ∧
      qs.foldlM (normStep em excl (.fin p) x) w' = some z' ∧ 0 ≤ z'.1 ∧ 0 ≤ z'.2 ∧
      Near (L + qs.length * t) z.1 z'.1 ∧ Near (L + qs.length * t) z.2 z'.2 := by
  have ht := hA.sums
  induction qs generalizing L w w' with
  | nil => exact ⟨w, w', rfl, rfl, h1, h2, by simpa using n1, by simpa using n2⟩
  | cons q qs ih =>
    have hq' := fun r hr => hq r (List.mem_cons_of_mem _ hr)
    simp only [List.foldlM_cons, Option.bind_eq_bind]
    have eL : L + t + qs.length * t = L + (q :: qs).length * t := by
      rw [List.length_cons]; push_cast; ring
    by_cases he : q.name ∈ excl
    · rw [show normStepFl A excl (.fin p) x w q = some w from if_pos he,
        show normStep em excl (.fin p) x w' q = some w' from if_pos he,
        Option.bind_some, Option.bind_some, ← eL]
      exact ih hq' (by linarith) h1 h2 (n1.mono h1 (by linarith)) (n2.mono h2 (by linarith))
    · obtain ⟨y, y', e1, e2, y0, yn⟩ := partialNorm_near (em := em) hA hp x q (hq q List.mem_cons_self)
      have step : ∀ {a a' : ℝ}, 0 ≤ a' → Near L a a' → Near (L + t) (A.add a y) (a' + y') := by
        intro a a' h0 hn
        have yn' := yn.mono y0 hL
        have := (hA.add a y (hn.nonneg h0) (yn'.nonneg y0)).trans (hn.add yn')
        rwa [add_comm] at this
      simp only [normStepFl, normStep, if_neg he, e1, e2, Option.map_some, Option.bind_some]
      rw [← eL]
      by_cases hd : q.arr.distributed = true
      · simp only [if_pos hd, addToFl, addTo]
        exact ih hq' (by linarith) (add_nonneg h1 y0) h2 (step h1 n1) (n2.mono h2 (by linarith))
      · simp only [if_neg hd, addToFl, addTo]
        exact ih hq' (by linarith) h1 (add_nonneg h2 y0) (n1.mono h1 (by linarith)) (step h2 n2)

theorem mapM_near {α : Type} {f g : α → Option (ℝ × ℝ)} {R : ℝ × ℝ → ℝ × ℝ → Prop} (l : List α)
    (h : ∀ a ∈ l, ∃ z z', f a = some z ∧ g a = some z' ∧ R z z') :
    ∃ zs zs', l.mapM f = some zs ∧ l.mapM g = some zs' ∧ List.Forall₂ R zs zs' ∧
      zs.length = l.length := by
  induction l with
  | nil => exact ⟨[], [], rfl, rfl, .nil, rfl⟩
  | cons a l ih =>
    obtain ⟨z, z', h1, h2, h3⟩ := h a List.mem_cons_self
    obtain ⟨zs, zs', g1, g2, g3, g4⟩ := ih fun b hb => h b (List.mem_cons_of_mem _ hb)
    exact ⟨z :: zs, z' :: zs', by simp [List.mapM_cons, h1, g1], by simp [List.mapM_cons, h2, g2],
      .cons h3 g3, by simp [g4]⟩

/-- The norm of a state on any rank is accurate. -/
theorem stateNorm_near (hA : NormAccurate A p t v n K) (hp : 0 < p) (ranks : List (Meta × (ℕ → ℝ)))
    (hK : ∀ a ∈ ranks, ∀ q ∈ a.1.quantities, (slice q a.2).length ≤ K) {Q : ℕ}
    (hQ : ∀ a ∈ ranks, a.1.quantities.length ≤ Q) {r : ℕ} (hr : r < ranks.length) :
    ∃ z z', stateNormFl A excl (.fin p) ranks r = some z ∧
      stateNorm em excl (.fin p) ranks r = some z' ∧ 0 ≤ z' ∧
      Near ((n * p + v + (Q + ranks.length + 1) * t) / p + v) z z' := by
  have ht := hA.sums
  have hm : 0 ≤ n * p + v := add_nonneg (mul_nonneg hA.norms hp.le) hA.powers
  obtain ⟨zs, zs', e1, e2, hR, hlen⟩ := mapM_near (R := fun z z' => 0 ≤ z'.1 ∧ 0 ≤ z'.2 ∧
      Near (n * p + v + Q * t) z.1 z'.1 ∧ Near (n * p + v + Q * t) z.2 z'.2)
    (f := intermediatesFl A excl (.fin p)) (g := intermediates em excl (.fin p)) ranks (by
      intro a ha
      have z0 : Near (n * p + v) 0 0 := ⟨by simp, by simp⟩
      obtain ⟨z, z', f1, f2, p1, p2, m1, m2⟩ := fold_near (em := em) (excl := excl) hA hp a.2
        a.1.quantities (hK a ha) le_rfl (w := (0, 0)) (w' := (0, 0)) le_rfl le_rfl z0 z0
      have hl : (a.1.quantities.length : ℝ) * t ≤ Q * t :=
        mul_le_mul_of_nonneg_right (by exact_mod_cast hQ a ha) ht
      exact ⟨z, z', f1, f2, p1, p2, m1.mono p1 (by linarith), m2.mono p2 (by linarith)⟩)
  have hlen' : zs'.length = ranks.length := hR.length_eq ▸ hlen
  have hrz : r < zs.length := hlen ▸ hr
  have hrz' : r < zs'.length := hlen'.symm ▸ hr
  obtain ⟨o1, o2, o3, o4⟩ := hR.get hrz hrz'
  have hsum : List.Forall₂ (Near (n * p + v + Q * t)) (zs.map Prod.fst) (zs'.map Prod.fst) := by
    rw [List.forall₂_map_left_iff, List.forall₂_map_right_iff]
    exact hR.imp fun _ _ h => h.2.2.1
  have hpos' : ∀ x ∈ zs'.map Prod.fst, 0 ≤ x := by
    clear hsum e1 e2 hlen hlen' hrz hrz' o1 o2 o3 o4
    induction hR with
    | nil => simp
    | cons h _ ih =>
      intro x hx
      rw [List.map_cons, List.mem_cons] at hx
      rcases hx with rfl | hx
      · exact h.1
      · exact ih x hx
  have hpos : ∀ x ∈ zs.map Prod.fst, 0 ≤ x := by
    clear e1 e2 hlen hlen' hrz hrz' o1 o2 o3 o4 hpos' hsum
    induction hR with
    | nil => simp
    | cons h _ ih =>
      intro x hx
      rw [List.map_cons, List.mem_cons] at hx
      rcases hx with rfl | hx
      · exact h.2.2.1.nonneg h.1
      · exact ih x hx
  have hred := (hA.red _ hpos).trans (near_sum hsum)
  rw [List.length_map, hlen] at hred
  have s0 : 0 ≤ (zs'.map Prod.fst).sum := List.sum_nonneg hpos'
  have own := o4.mono o2 (M := ranks.length * t + (n * p + v + Q * t)) (by
    have : 0 ≤ (ranks.length : ℝ) * t := mul_nonneg (Nat.cast_nonneg _) ht
    linarith)
  have tot := (hA.add _ _ (hred.nonneg s0) (own.nonneg o2)).trans (hred.add own)
  have t0 := add_nonneg s0 o2
  have fin := (hA.pw _ (1 / p) (tot.nonneg t0)).trans (tot.rpow t0 (by positivity))
  have hne : zs ≠ [] := fun h => by simp [h] at hrz
  have hne' : zs' ≠ [] := fun h => by simp [h] at hrz'
  have r1 : allreduceFl A (.fin p) (zs.map Prod.fst) = A.red (zs.map Prod.fst) := by
    cases zs with
    | nil => exact absurd rfl hne
    | cons => rfl
  have r2 : allreduce (.fin p) (zs'.map Prod.fst) = (zs'.map Prod.fst).sum := by
    cases zs' with
    | nil => exact absurd rfl hne'
    | cons => rfl
  refine ⟨A.pw (A.add (A.red (zs.map Prod.fst)) zs[r].2) (1 / p),
    ((zs'.map Prod.fst).sum + zs'[r].2) ^ (1 / p), ?_, ?_, Real.rpow_nonneg t0 (1 / p), ?_⟩
  · simp only [stateNormFl, e1, Option.bind_eq_bind, Option.bind_some, List.getElem?_eq_getElem hrz,
      Option.pure_def, normalizeFl, if_neg hp.ne', hA.inv, addToFl, r1]
  · simp only [stateNorm, e2, Option.bind_eq_bind, Option.bind_some, List.getElem?_eq_getElem hrz',
      Option.pure_def, OM.normalize, if_neg hp.ne', addTo, r2]
  · have e : (n * p + v + (Q + ranks.length + 1) * t) / p + v
        = v + (t + (ranks.length * t + (n * p + v + Q * t))) * (1 / p) := by ring
    rw [e]
    exact fin

/-! ### The Euclidean norm -/

/-- Rounded sums, `1.0 / order` rounded, the Euclidean norm of NumPy for vectors, `sqrt(dot(x, x))`, with
a rounded square root; the other norms of NumPy are not needed. `pw` is the power and `red` the sum over
the ranks. -/
noncomputable def euclidean (f : ℝ → ℝ) (dot : List (ℝ × ℝ) → ℝ) (pw : ℝ → ℝ → ℝ)
    (red : List ℝ → ℝ) : NormArith where
  add := fun a b => f (a + b)
  pw := pw
  inv := fun p => f (1 / p)
  np := fun _ l => some (f (Real.sqrt (dot (l.map fun a => (a, a)))))
  red := red

theorem neg_log_nonneg {u : ℝ} (h0 : 0 ≤ u) (h1 : u < 1) : 0 ≤ -Real.log (1 - u) := by
  have := Real.log_nonpos (x := 1 - u) (by linarith) (by linarith)
  linarith

theorem neg_log_le {u : ℝ} (h0 : 0 ≤ u) (h1 : u ≤ 1 / 2) : -Real.log (1 - u) ≤ 2 * u := by
  have hp : 0 < 1 - u := by linarith
  have := Real.log_le_sub_one_of_pos (inv_pos.mpr hp)
  rw [Real.log_inv] at this
  refine this.trans ?_
  rw [sub_le_iff_le_add, ← one_div, div_le_iff₀ hp]
  nlinarith

/-- A relative error of `w`. -/
theorem near_of_relative {w a b : ℝ} (h1 : w < 1) (hw : 0 ≤ w) (hb : 0 ≤ b)
    (h : |a - b| ≤ w * b) : Near (-Real.log (1 - w)) a b := by
  have hr : Rounds (fun x => if x = b then a else x) w := by
    refine ⟨hw, h1, fun x => ?_⟩
    by_cases hx : x = b
    · rw [if_pos hx, hx, abs_of_nonneg hb]
      exact h
    · rw [if_neg hx, sub_self, abs_zero]
      exact mul_nonneg hw (abs_nonneg x)
  have := hr.near hb
  rwa [if_pos rfl] at this

theorem euclidean_accurate {f : ℝ → ℝ} {u w : ℝ} (hf : Rounds f u) (h2 : f (1 / 2) = 1 / 2)
    {dot : List (ℝ × ℝ) → ℝ} (hd : IsDot f dot) {pw : ℝ → ℝ → ℝ} (hw : 0 ≤ w) (hw1 : w < 1)
    (hpw : ∀ a y, 0 ≤ a → |pw a y - a ^ y| ≤ w * a ^ y) {red : List ℝ → ℝ}
    (hred : ∀ l : List ℝ, Summed f l.length l (red l)) (K : ℕ) :
    NormAccurate (euclidean f dot pw red) 2 (-Real.log (1 - u)) (-Real.log (1 - w))
      ((K + 3) / 2 * -Real.log (1 - u)) K := by
  have ht := neg_log_nonneg hf.nonneg hf.lt_one
  set t := -Real.log (1 - u) with htd
  refine ⟨ht, neg_log_nonneg hw hw1, by positivity, fun a b ha hb => hf.near (add_nonneg ha hb),
    fun a y ha => near_of_relative hw1 hw (Real.rpow_nonneg ha y) (hpw a y ha), h2, fun l hl => ?_,
    fun l h => (hred l).near hf h⟩
  refine ⟨_, rfl, ?_⟩
  obtain ⟨ts, hts, hs⟩ := hd (l.map fun a => (a, a))
  have hsq : List.Forall₂ (Near t) ts (l.map fun a => |a| ^ (2 : ℝ)) := by
    rw [List.forall₂_map_left_iff] at hts
    rw [List.forall₂_map_right_iff]
    refine (List.Forall₂.imp (fun a x h => ?_) hts).flip
    have e : |a| ^ (2 : ℝ) = a * a := by
      rw [show (2 : ℝ) = (2 : ℕ) by norm_num, Real.rpow_natCast, sq_abs, sq]
    show Near t x (|a| ^ (2 : ℝ))
    rw [e]
    rcases h with rfl | rfl
    · exact (Near.refl _).mono (mul_self_nonneg a) ht
    · exact hf.near (mul_self_nonneg a)
  have hts0 : ∀ x ∈ ts, 0 ≤ x := by
    clear hs
    intro x hx
    obtain ⟨k, hk, rfl⟩ := List.getElem_of_mem hx
    have hk' : k < (l.map fun a => |a| ^ (2 : ℝ)).length := hsq.length_eq ▸ hk
    refine (hsq.get hk hk').nonneg ?_
    simp only [List.get_eq_getElem, List.getElem_map]
    positivity
  have n1 := (hs.near hf hts0).trans (near_sum hsq)
  have s0 := powers_nonneg 2 l
  have n2 := n1.rpow s0 (y := 1 / 2) (by norm_num)
  rw [← Real.sqrt_eq_rpow] at n2
  have n3 := (hf.near (Real.sqrt_nonneg _)).trans n2
  refine n3.mono (Real.rpow_nonneg s0 _) ?_
  rw [← htd, List.length_map]
  have : (l.length : ℝ) * t ≤ K * t := mul_le_mul_of_nonneg_right (by exact_mod_cast hl) ht
  nlinarith

/-- Adding from left to right, starting with zero. -/
noncomputable def leftSum (f : ℝ → ℝ) (l : List ℝ) : ℝ := l.foldl (fun a x => f (a + x)) 0

/-- This is one of the possible orders. -/
theorem leftSum_summed (f : ℝ → ℝ) (l : List ℝ) : Summed f l.length l (leftSum f l) := by
  have key : ∀ (ys : List ℝ) (d : ℕ) (xs : List ℝ) (a : ℝ), Summed f d xs a →
      Summed f (d + ys.length) (xs ++ ys) (ys.foldl (fun a x => f (a + x)) a) := by
    intro ys
    induction ys with
    | nil => intro d xs a h; simpa using h
    | cons y ys ih =>
      intro d xs a h
      have hup : ∀ d, Summed f d [y] y := by
        intro d
        induction d with
        | zero => exact .single _
        | succ d ih => exact .more ih
      have := ih (d + 1) (xs ++ [y]) _ (.add h (hup d) (List.Perm.refl _))
      rw [List.length_cons, List.foldl_cons, show d + (ys.length + 1) = d + 1 + ys.length by omega]
      simpa using this
  simpa [leftSum] using key l 0 [] 0 .nil

/-! ### Ranks -/

/-- The value for the quantities that are not distributed depends on these only. -/
theorem fold_second {o : Order} {x x' : ℕ → ℝ} {qs qs' : List Quantity}
    (h : List.Forall₂ (fun q q' => q.name = q'.name ∧ q.arr.distributed = q'.arr.distributed ∧
      (q.arr.distributed = false → slice q x = slice q' x')) qs qs') {v v' w w' : ℝ × ℝ}
    (hv : v.2 = v'.2) (h1 : qs.foldlM (normStepFl A excl o x) v = some w)
    (h2 : qs'.foldlM (normStepFl A excl o x') v' = some w') : w.2 = w'.2 := by
  induction h generalizing v v' with
  | nil => cases h1; cases h2; exact hv
  | @cons q q' qs qs' hq _ ih =>
    obtain ⟨hn, hd, hs⟩ := hq
    simp only [List.foldlM_cons, Option.bind_eq_bind, Option.bind_eq_some_iff] at h1 h2
    obtain ⟨u, e1, h1⟩ := h1
    obtain ⟨u', e2, h2⟩ := h2
    refine ih ?_ h1 h2
    unfold normStepFl at e1 e2
    rw [← hn, ← hd] at e2
    by_cases he : q.name ∈ excl
    · rw [if_pos he] at e1 e2
      cases e1; cases e2; exact hv
    · rw [if_neg he, Option.map_eq_some_iff] at e1 e2
      obtain ⟨y, f1, rfl⟩ := e1
      obtain ⟨y', f2, rfl⟩ := e2
      by_cases hdd : q.arr.distributed = true
      · simp only [if_pos hdd]
        exact hv
      · have hf := hs (by simpa using hdd)
        have : y = y' := by
          unfold partialNormFl at f1 f2
          rw [← hf, f1] at f2
          exact Option.some.inj f2
        simp only [if_neg hdd, hv, this]

end Verif.Fl
