/-
Properties of norms and error measures in floating point arithmetic (C111).
-/
import Verif.Float.Norm
import Verif.Props.Norm
import Verif.Float.Model

namespace Verif.Props

open Verif.Metadata Verif.OM Verif.Fl

/-! ### C111 -/

variable {P : Problem} {n : ℕ} {req ind : List String} {ms : List Meta} {xs : List (ℕ → ℝ)}
  {G : List (String × List ℝ)}

/-- C111, the Euclidean norm in binary64: with `Q` quantities, `R` ranks and at most `K` entries of a
quantity on a rank, the reported norm has a relative error of at most
`(K + Q + R + 4) 2^-52 + 6 w`, where `w` is the relative error of the power function; it is zero only if
all values not excluded are zero. Sums can be computed in any order. -/
theorem C111_euclidean (h : setup P n req ind = .ok ms) (hlen : xs.length = ms.length)
    (hG : Stored (ms.zip xs) G) (excl : List String) {r : ℕ} (hr : r < ms.length)
    {dot : List (ℝ × ℝ) → ℝ} (hd : IsDot rnd dot) {pw : ℝ → ℝ → ℝ} {w : ℝ} (hw : 0 ≤ w)
    (hpw : ∀ a y, 0 ≤ a → |pw a y - a ^ y| ≤ w * a ^ y) {red : List ℝ → ℝ}
    (hred : ∀ l : List ℝ, Summed rnd l.length l (red l)) {K Q : ℕ}
    (hK : ∀ m ∈ ms, ∀ q ∈ m.quantities, q.arr.stop - q.arr.start ≤ K)
    (hQ : ∀ m ∈ ms, m.quantities.length ≤ Q)
    (hs : ((K : ℝ) + Q + ms.length + 4) / 2 ^ 52 + 6 * w ≤ 1) :
    let N := Real.sqrt ((((G.filter fun g => decide (g.1 ∉ excl)).flatMap Prod.snd).map
      fun a => a ^ 2).sum)
    ∃ z, stateNormFl (euclidean rnd dot pw red) excl (.fin 2) (ms.zip xs) r = some z ∧ 0 ≤ z ∧
      |z - N| ≤ (((K : ℝ) + Q + ms.length + 4) / 2 ^ 52 + 6 * w) * N ∧
      (z = 0 ↔ ∀ g ∈ G, g.1 ∉ excl → ∀ a ∈ g.2, a = 0) := by
  intro N
  have hw1 : w ≤ 1 / 6 := by
    have : 0 ≤ ((K : ℝ) + Q + ms.length + 4) / 2 ^ 52 := by positivity
    linarith
  have hf2 : rnd (1 / 2) = 1 / 2 := by
    have := (isFloat_zpow (-1)).rnd_eq
    norm_num at this ⊢
    exact this
  have hA := euclidean_accurate rnd_rounds hf2 hd hw (by linarith) hpw hred K
  have hz : (ms.zip xs).length = ms.length := by simp [hlen]
  obtain ⟨z, z', e1, e2, h0, hn⟩ := stateNorm_near (em := none) (excl := excl) (Q := Q) hA (by norm_num)
    (ms.zip xs) (fun a ha q hq => by
      simpa [slice] using hK a.1 (zip_meta ha) q hq) (fun a ha => hQ a.1 (zip_meta ha))
    (r := r) (hz ▸ hr)
  have hN : z' = N := by
    have := C48_p_norm_partial h hlen hG none (p := 2) (by norm_num) excl hr
    rw [e2, Option.some.injEq] at this
    rw [this, ← Real.sqrt_eq_rpow]
    simp only [N]
    congr 2
    refine List.map_congr_left fun a _ => ?_
    rw [show (2 : ℝ) = (2 : ℕ) by norm_num, Real.rpow_natCast, sq_abs]
  have t0 := neg_log_nonneg rnd_rounds.nonneg rnd_rounds.lt_one
  have t1 := neg_log_le (u := 1 / 2 ^ 53) (by norm_num) (by norm_num)
  have v0 := neg_log_nonneg hw (by linarith : w < 1)
  have v1 := neg_log_le hw (by linarith)
  set t := -Real.log (1 - 1 / 2 ^ 53)
  set v := -Real.log (1 - w)
  rw [hz] at hn
  have hL : ((K + 3) / 2 * t * 2 + v + (Q + ms.length + 1) * t) / 2 + v
      ≤ (((K : ℝ) + Q + ms.length + 4) / 2 ^ 52 + 6 * w) / 2 := by
    have e : ((K + 3) / 2 * t * 2 + v + (Q + ms.length + 1) * t) / 2 + v
        = ((K : ℝ) + Q + ms.length + 4) / 2 * t + 3 / 2 * v := by ring
    have b := mul_le_mul_of_nonneg_left t1
      (by positivity : 0 ≤ ((K : ℝ) + Q + ms.length + 4) / 2)
    rw [e]
    have e2 : ((K : ℝ) + Q + ms.length + 4) / 2 * (2 * (1 / 2 ^ 53))
        = ((K : ℝ) + Q + ms.length + 4) / 2 ^ 52 / 2 := by ring
    rw [e2] at b
    linarith
  have hrel := (hn.mono h0 hL).relative h0 (by positivity) (by linarith)
  refine ⟨z, e1, hn.nonneg h0, ?_, ?_⟩
  · rw [← hN]
    linarith
  · rw [hn.eq_zero_iff, ← C48_zero h hlen hG none (p := 2) (by norm_num) excl hr, e2,
      Option.some.injEq]

/-- C111, the maximum norm: no rounding at all, if NumPy computes maxima and `x ** 1.0` is `x`. -/
theorem C111_maximum (h : setup P n req ind = .ok ms) (hlen : xs.length = ms.length)
    (hG : Stored (ms.zip xs) G) {em : Option ℝ} (excl : List String)
    (hem : ∀ m ∈ ms, ∀ q ∈ m.quantities, q.name ∉ excl → q.arr.stop ≤ q.arr.start → em = some 0)
    {r : ℕ} (hr : r < ms.length) {A : NormArith} (hnp : A.np .inf = npNorm em .inf)
    (hpw : ∀ a, A.pw a 1 = a) :
    stateNormFl A excl .inf (ms.zip xs) r
      = some (((G.filter fun g => decide (g.1 ∉ excl)).flatMap Prod.snd).foldr
          (fun a b => max |a| b) 0) := by
  rw [← C48_max_norm_partial h hlen hG excl hem hr]
  have hs : normStepFl A excl .inf = normStep em excl .inf := by
    funext x v q
    simp only [normStepFl, normStep, partialNormFl, partialNorm, hnp, exponent, hpw, Real.rpow_one]
    rfl
  have hi : intermediatesFl A excl .inf = intermediates em excl .inf := by
    funext a
    simp only [intermediatesFl, intermediates, hs]
  have hr : ∀ vs, allreduceFl A .inf vs = allreduce .inf vs := by
    intro vs
    cases vs <;> rfl
  unfold stateNormFl stateNorm
  rw [hi]
  simp only [hr, normalizeFl, OM.normalize, hpw, Real.rpow_one]
  rfl

/-- C111, decisions: comparing the reported norm with a tolerance gives the answer of exact arithmetic,
except for norms within the relative error of `C111_euclidean` of the tolerance. -/
theorem C111_decision (h : setup P n req ind = .ok ms) (hlen : xs.length = ms.length)
    (hG : Stored (ms.zip xs) G) (excl : List String) {r : ℕ} (hr : r < ms.length)
    {dot : List (ℝ × ℝ) → ℝ} (hd : IsDot rnd dot) {pw : ℝ → ℝ → ℝ} {w : ℝ} (hw : 0 ≤ w)
    (hpw : ∀ a y, 0 ≤ a → |pw a y - a ^ y| ≤ w * a ^ y) {red : List ℝ → ℝ}
    (hred : ∀ l : List ℝ, Summed rnd l.length l (red l)) {K Q : ℕ}
    (hK : ∀ m ∈ ms, ∀ q ∈ m.quantities, q.arr.stop - q.arr.start ≤ K)
    (hQ : ∀ m ∈ ms, m.quantities.length ≤ Q)
    (hs : ((K : ℝ) + Q + ms.length + 4) / 2 ^ 52 + 6 * w ≤ 1) (tol : ℝ) :
    let N := Real.sqrt ((((G.filter fun g => decide (g.1 ∉ excl)).flatMap Prod.snd).map
      fun a => a ^ 2).sum)
    let ρ := ((K : ℝ) + Q + ms.length + 4) / 2 ^ 52 + 6 * w
    ∃ z, stateNormFl (euclidean rnd dot pw red) excl (.fin 2) (ms.zip xs) r = some z ∧
      ((1 + ρ) * N ≤ tol → z ≤ tol) ∧ (tol < (1 - ρ) * N → tol < z) := by
  intro N ρ
  obtain ⟨z, hz, -, he, -⟩ := C111_euclidean h hlen hG excl hr hd hw hpw hred hK hQ hs
  have hb : |z - N| ≤ ρ * N := he
  clear_value N ρ
  obtain ⟨h1, h2⟩ := abs_le.mp hb
  exact ⟨z, hz, fun _ => by linarith, fun _ => by linarith⟩

theorem zip_second {a : Meta × (ℕ → ℝ)} {r : ℕ} (h : (ms.zip xs)[r]? = some a) :
    ms[r]? = some a.1 ∧ a ∈ ms.zip xs :=
  ⟨(List.getElem?_zip_eq_some.mp h).1, List.mem_of_getElem? h⟩

/-- C111, ranks: all ranks report exactly the same number, whatever the arithmetic and the order of the
norm are. -/
theorem C111_ranks_agree (h : setup P n req ind = .ok ms)
    (hG : Stored (ms.zip xs) G) (A : NormArith) (excl : List String) (o : Order) {r r' : ℕ} {z z' : ℝ}
    (hz : stateNormFl A excl o (ms.zip xs) r = some z)
    (hz' : stateNormFl A excl o (ms.zip xs) r' = some z') : z = z' := by
  simp only [stateNormFl, Option.bind_eq_bind, Option.bind_eq_some_iff] at hz hz'
  obtain ⟨vs, hvs, w, hw, hz⟩ := hz
  obtain ⟨vs', hvs', w', hw', hz'⟩ := hz'
  obtain rfl : vs = vs' := Option.some.inj (hvs.symm.trans hvs')
  have key : ∀ {k : ℕ} {w : ℝ × ℝ}, vs[k]? = some w → ∃ a, (ms.zip xs)[k]? = some a ∧
      intermediatesFl A excl o a = some w := by
    clear hz hz' hw hw' hvs' hG
    generalize ms.zip xs = l at hvs
    induction l generalizing vs with
    | nil => cases hvs; intro k w hk; simp at hk
    | cons a l ih =>
      rw [List.mapM_cons] at hvs
      simp only [Option.bind_eq_bind, Option.bind_eq_some_iff] at hvs
      obtain ⟨u, hu, us, hus, hp⟩ := hvs
      cases hp
      intro k w hk
      cases k with
      | zero => exact ⟨a, rfl, by simpa [hu] using hk⟩
      | succ k => exact ih us hus (by simpa using hk)
  obtain ⟨a, ha, hi⟩ := key hw
  obtain ⟨a', ha', hi'⟩ := key hw'
  obtain ⟨hm, hmem⟩ := zip_second ha
  obtain ⟨hm', hmem'⟩ := zip_second ha'
  have hnames := setup_names h hm hm'
  have hl : a.1.quantities.length = a'.1.quantities.length := by
    simpa using congrArg List.length hnames
  have hsec : w.2 = w'.2 := by
    refine fold_second (v := (0, 0)) (v' := (0, 0)) (List.forall₂_iff_get.mpr ⟨hl, fun j hj hj' => ?_⟩)
      rfl hi hi'
    have q1 : a.1.quantities[j]? = some (a.1.quantities.get ⟨j, hj⟩) := by simp
    have q2 : a'.1.quantities[j]? = some (a'.1.quantities.get ⟨j, hj'⟩) := by simp
    generalize a.1.quantities.get ⟨j, hj⟩ = q at q1
    generalize a'.1.quantities.get ⟨j, hj'⟩ = q' at q2
    have f1 := setup_flag h (List.mem_of_getElem? hm) q1
    have f2 := setup_flag h (List.mem_of_getElem? hm') q2
    refine ⟨?_, ?_, fun hd => ?_⟩
    · have := congrArg (fun l => l[j]?) hnames
      simpa [q1, q2] using this
    · have := f1.trans f2.symm
      cases h1 : q.arr.distributed <;> cases h2 : q'.arr.distributed <;> simp_all
    · obtain ⟨b, hb, hbn⟩ := hG.names
      obtain ⟨k, hk⟩ := List.mem_iff_getElem?.mp hb
      have hbl : b.1.quantities.length = a.1.quantities.length := by
        simpa using congrArg List.length (setup_names h (zip_second hk).1 hm)
      have hGl : j < G.length := by
        have := congrArg List.length hbn
        simp only [List.length_map] at this
        omega
      rcases hG.values j G[j] (List.getElem?_eq_getElem hGl) with hrep | hsp
      · obtain ⟨p1, g1, -, e1⟩ := hrep a hmem
        obtain ⟨p2, g2, -, e2⟩ := hrep a' hmem'
        rw [q1] at g1
        rw [q2] at g2
        cases g1; cases g2
        rw [slice_eq, slice_eq, e1, e2]
      · obtain ⟨⟨b, hb, p, hp, hne⟩, -⟩ := hsp
        exact absurd (f1.mp hd b.1 (zip_meta hb) p hp) hne
  simp only [Option.pure_def, Option.some.injEq] at hz hz'
  rw [← hz, ← hz', hsec]

/-- C111, the improved measure in binary64: if the norms of error and state are computed with relative
errors of at most `ρ ≤ 1 / 32`, then so is the measure with one of at most `8 ρ + 12 2^-53`. -/
theorem C111_improved {S : Type} {norm norm' : S → ℝ} {ρ eta eps : ℝ} (hn : ∀ x, 0 ≤ norm x)
    (h0 : 0 ≤ ρ) (hρ : ρ ≤ 1 / 32) (h : ∀ x, |norm' x - norm x| ≤ ρ * norm x) (he : 0 < eta)
    (hs : 0 < eps) (err state : S) :
    ∃ z m, improvedMeasureFl rnd norm' eta eps err state = some z ∧
      improvedMeasure norm eta eps err state = some m ∧
      |z - m| ≤ (8 * ρ + 12 / 2 ^ 53) * m := by
  have hq : 0 < eta / eps := div_pos he hs
  have t0 := neg_log_nonneg rnd_rounds.nonneg rnd_rounds.lt_one
  have t1 := neg_log_le (u := 1 / 2 ^ 53) (by norm_num) (by norm_num)
  have v0 := neg_log_nonneg h0 (by linarith)
  have v1 := neg_log_le h0 (by linarith)
  have hne : ∀ x, Near (-Real.log (1 - ρ)) (norm' x) (norm x) := fun x =>
    near_of_relative (by linarith) h0 (hn x) (h x)
  have hd : 0 < norm state + eta / eps := by have := hn state; linarith
  have n1 := rnd_rounds.near hq.le
  set t := -Real.log (1 - 1 / 2 ^ 53)
  set v := -Real.log (1 - ρ)
  have n2 := ((hne state).mono (hn state) (by linarith : v ≤ v + t)).add
    (n1.mono hq.le (by linarith : t ≤ v + t))
  have n3 := (rnd_rounds.near (n2.nonneg hd.le)).trans n2
  have hc : 0 < rnd (norm' state + rnd (eta / eps)) :=
    (mul_pos (Real.exp_pos _) hd).trans_le n3.lower
  have n4 := (hne err).div n3 (hn err) hd
  have m0 := div_nonneg (hn err) hd.le
  have n5 := (rnd_rounds.near (n4.nonneg m0)).trans n4
  refine ⟨rnd (norm' err / rnd (norm' state + rnd (eta / eps))),
    norm err / (norm state + eta / eps), ?_, ?_, ?_⟩
  · unfold improvedMeasureFl
    rw [if_neg hs.ne', if_neg hc.ne']
  · unfold improvedMeasure
    rw [if_neg hs.ne', if_neg hd.ne']
  · have hL : t + (v + (t + (v + t))) ≤ (8 * ρ + 12 / 2 ^ 53) / 2 := by
      have : (2 : ℝ) * (1 / 2 ^ 53) * 3 = 12 / 2 ^ 53 / 2 := by norm_num
      linarith
    have := (n5.mono m0 hL).relative m0 (by positivity) (by
      have : (12 : ℝ) / 2 ^ 53 ≤ 1 / 2 := by norm_num
      linarith)
    linarith

/-- The hypotheses are met: two ranks, `x = (3, -4)` split over them and `y = 12` on both, sums from left
to right, an exact power. The Euclidean norm is 13. -/
example : ∃ z, stateNormFl (euclidean rnd (leftDot rnd) (fun a y => a ^ y) (leftSum rnd)) [] (.fin 2)
    (normMetas.zip normStates) 1 = some z ∧ |z - 13| ≤ 13 * (9 / 2 ^ 52) ∧ z ≠ 0 := by
  obtain ⟨z, hz, -, he, h0⟩ := C111_euclidean (K := 1) (Q := 2) (w := 0) (pw := fun a y => a ^ y)
    normProblem_setup rfl normStored [] (r := 1) (by decide) (leftDot_isDot rnd) le_rfl (fun a y ha => by simp)
    (leftSum_summed rnd) (by decide +kernel) (by decide +kernel) (by norm_num [normMetas])
  refine ⟨z, hz, ?_, fun hc => ?_⟩
  · have e : Real.sqrt 169 = 13 := by
      rw [show (169 : ℝ) = 13 ^ 2 by norm_num, Real.sqrt_sq (by norm_num)]
    norm_num [List.filter_cons, normMetas, e] at he ⊢
    linarith
  · have := h0.mp hc ("y", [12]) (by simp) (by simp) 12 (by simp)
    norm_num at this

/-- Both ranks report the same number. -/
example {z z' : ℝ} (A : NormArith) (o : Order)
    (hz : stateNormFl A [] o (normMetas.zip normStates) 0 = some z)
    (hz' : stateNormFl A [] o (normMetas.zip normStates) 1 = some z') : z = z' :=
  C111_ranks_agree normProblem_setup normStored A [] o hz hz'

example : stateNormFl (.exact none) [] .inf (normMetas.zip normStates) 0 = some 12 := by
  rw [C111_maximum normProblem_setup rfl normStored (em := none) [] (by decide +kernel) (by decide) rfl
    (fun a => Real.rpow_one a)]
  norm_num [List.filter_cons]

/-- The default parameters of the improved measure, norms with a relative error of `2^-40`. -/
example : ∃ z, improvedMeasureFl rnd (fun x : ℝ => (1 + 1 / 2 ^ 40) * |x|) (1 / 10 ^ 6) (1 / 10 ^ 6) 1 3
    = some z ∧ |z - 1 / 4| ≤ (8 / 2 ^ 40 + 12 / 2 ^ 53) / 4 := by
  obtain ⟨z, m, h1, h2, h3⟩ := C111_improved (norm := fun x : ℝ => |x|)
    (norm' := fun x : ℝ => (1 + 1 / 2 ^ 40) * |x|) (ρ := 1 / 2 ^ 40) (eta := 1 / 10 ^ 6)
    (eps := 1 / 10 ^ 6) (fun x => abs_nonneg x) (by norm_num) (by norm_num) (fun x => by
      rw [show (1 + 1 / 2 ^ 40) * |x| - |x| = 1 / 2 ^ 40 * |x| by ring,
        abs_of_nonneg (by positivity)]) (by norm_num) (by norm_num) 1 3
  refine ⟨z, h1, ?_⟩
  obtain rfl : 1 / 4 = m := by
    norm_num [improvedMeasure] at h2
    linarith
  refine h3.trans (le_of_eq ?_)
  ring

end Verif.Props
