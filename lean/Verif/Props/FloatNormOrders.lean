/-
Norms of other orders in floating point arithmetic (C111).
-/
import Verif.Float.NormOrders
import Verif.Props.FloatNorm

namespace Verif.Props

open Verif.Metadata Verif.OM Verif.Fl

variable {P : Problem} {n : ℕ} {req ind : List String} {ms : List Meta} {xs : List (ℕ → ℝ)}
  {G : List (String × List ℝ)}

/-- C111, norms whose order is a power of two, `1`, `2`, `4` or `1 / 2` among them, in binary64: with `Q`
quantities, `R` ranks and at most `K` entries of a quantity on a rank, the relative error is at most
`(K + Q + R + 1) 2^-51 / p + 8 w (1 + 1 / p)`. -/
theorem C111_orders (h : setup P n req ind = .ok ms) (hlen : xs.length = ms.length)
    (hG : Stored (ms.zip xs) G) (excl : List String) {r : ℕ} (hr : r < ms.length)
    {p : ℝ} {e : ℤ} (hp : p = 2 ^ e) {sm : List ℝ → ℝ} (hsm : ∀ l : List ℝ, Summed rnd l.length l (sm l))
    {pn pw : ℝ → ℝ → ℝ} {w : ℝ} (hw : 0 ≤ w)
    (hpn : ∀ a, 0 ≤ a → |pn a p - a ^ p| ≤ w * a ^ p)
    (hpn' : ∀ a, 0 ≤ a → |pn a (1 / p) - a ^ (1 / p)| ≤ w * a ^ (1 / p))
    (hpw : ∀ a y, 0 ≤ a → |pw a y - a ^ y| ≤ w * a ^ y) {red : List ℝ → ℝ}
    (hred : ∀ l : List ℝ, Summed rnd l.length l (red l)) {K Q : ℕ}
    (hK : ∀ m ∈ ms, ∀ q ∈ m.quantities, q.arr.stop - q.arr.start ≤ K)
    (hQ : ∀ m ∈ ms, m.quantities.length ≤ Q)
    (hs : ((K : ℝ) + Q + ms.length + 1) / 2 ^ 51 / p + 8 * w * (1 + 1 / p) ≤ 1) :
    let N := (((G.filter fun g => decide (g.1 ∉ excl)).flatMap Prod.snd).map
      fun a => |a| ^ p).sum ^ (1 / p)
    ∃ z, stateNormFl (powered rnd sm pn pw red) excl (.fin p) (ms.zip xs) r = some z ∧ 0 ≤ z ∧
      |z - N| ≤ (((K : ℝ) + Q + ms.length + 1) / 2 ^ 51 / p + 8 * w * (1 + 1 / p)) * N ∧
      (z = 0 ↔ ∀ g ∈ G, g.1 ∉ excl → ∀ a ∈ g.2, a = 0) := by
  intro N
  have hp0 : 0 < p := hp ▸ zpow_pos (by norm_num) e
  have hq0 : 0 < 1 / p := by positivity
  have hw1 : w ≤ 1 / 8 := by
    have h1 : 0 ≤ ((K : ℝ) + Q + ms.length + 1) / 2 ^ 51 / p := by positivity
    have h2 : 0 ≤ w * (1 / p) := by positivity
    nlinarith
  have hf2 : rnd (1 / p) = 1 / p := by
    have := (isFloat_zpow (-e)).rnd_eq
    rwa [zpow_neg, ← one_div, ← hp] at this
  have hA := powered_accurate rnd_rounds hp0 hf2 hsm hw (by linarith) hpn hpn' hpw hred K
  have hz : (ms.zip xs).length = ms.length := by simp [hlen]
  obtain ⟨z, z', e1, e2, h0, hn⟩ := stateNorm_near (em := none) (excl := excl) (Q := Q) hA hp0
    (ms.zip xs) (fun a ha q hq => by
      simpa [slice] using hK a.1 (zip_meta ha) q hq) (fun a ha => hQ a.1 (zip_meta ha))
    (r := r) (hz ▸ hr)
  have hN : z' = N := by
    have := C48_p_norm_partial h hlen hG none hp0 excl hr
    rwa [e2, Option.some.injEq] at this
  have t0 := neg_log_nonneg rnd_rounds.nonneg rnd_rounds.lt_one
  have t1 := neg_log_le (u := 1 / 2 ^ 53) (by norm_num) (by norm_num)
  have v0 := neg_log_nonneg hw (by linarith : w < 1)
  have v1 := neg_log_le hw (by linarith)
  set t := -Real.log (1 - 1 / 2 ^ 53)
  set v := -Real.log (1 - w)
  rw [hz] at hn
  have hL : (((v + K * t) * (1 / p) + v) * p + v + (Q + ms.length + 1) * t) / p + v
      ≤ (((K : ℝ) + Q + ms.length + 1) / 2 ^ 51 / p + 8 * w * (1 + 1 / p)) / 2 := by
    have e : (((v + K * t) * (1 / p) + v) * p + v + (Q + ms.length + 1) * t) / p + v
        = ((K : ℝ) + Q + ms.length + 1) * (1 / p) * t + 2 * (1 + 1 / p) * v := by
      field_simp
      ring
    have b1 := mul_le_mul_of_nonneg_left t1
      (by positivity : 0 ≤ ((K : ℝ) + Q + ms.length + 1) * (1 / p))
    have b2 := mul_le_mul_of_nonneg_left v1 (by positivity : 0 ≤ 2 * (1 + 1 / p))
    have e3 : ((K : ℝ) + Q + ms.length + 1) * (1 / p) * (2 * (1 / 2 ^ 53))
        = ((K : ℝ) + Q + ms.length + 1) / 2 ^ 51 / p / 2 := by
      field_simp
    rw [e]
    linarith
  have hrel := (hn.mono h0 hL).relative h0 (by positivity) (by linarith)
  refine ⟨z, e1, hn.nonneg h0, ?_, ?_⟩
  · rw [← hN]
    linarith
  · rw [hn.eq_zero_iff, ← C48_zero h hlen hG none hp0 excl hr, e2, Option.some.injEq]

/-- The sum norm (order 1), for which NumPy takes no powers, on the states of two ranks; exactly it
is 19. -/
example : ∃ z, stateNormFl (powered rnd (leftSum rnd) (fun a _ => a) (fun a y => a ^ y) (leftSum rnd)) []
    (.fin 1) (normMetas.zip normStates) 1 = some z ∧ |z - 19| ≤ 19 * (6 / 2 ^ 51) ∧ z ≠ 0 := by
  obtain ⟨z, hz, -, he, h0⟩ := C111_orders (K := 1) (Q := 2) (w := 0) (e := 0)
    (pn := fun a _ => a) (pw := fun a y => a ^ y)
    normProblem_setup rfl normStored [] (r := 1) (by decide) (p := 1) (by norm_num)
    (leftSum_summed rnd) le_rfl (fun a _ => by simp) (fun a _ => by simp) (fun a y _ => by simp)
    (leftSum_summed rnd) (by decide +kernel) (by decide +kernel) (by norm_num [normMetas])
  refine ⟨z, hz, ?_, fun hc => ?_⟩
  · norm_num [List.filter_cons, normMetas] at he ⊢
    linarith
  · have := h0.mp hc ("y", [12]) (by simp) (by simp) 12 (by simp)
    norm_num at this

end Verif.Props
