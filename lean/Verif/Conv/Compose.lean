/-
Composition of a smooth function with a series over rooted trees. No code is modelled here.
-/
import Verif.Conv.Tree
import Mathlib.Analysis.Calculus.TaylorIntegral
import Mathlib.Analysis.Asymptotics.Lemmas
import Mathlib.Analysis.Normed.Module.FiniteDimension

namespace Verif.Conv

open Verif.Tableau Finset Filter Topology Asymptotics

variable {X : Type*} [NormedAddCommGroup X] [NormedSpace ℝ X]

/-- The coefficients after composition with `F`. -/
noncomputable def graft (α : RTree → ℝ) : RTree → ℝ
  | .node ts => ((ts.length.factorial : ℝ))⁻¹ * (ts.map α).prod

theorem graft_node {m : ℕ} (α : RTree → ℝ) (r : Fin m → RTree) :
    graft α (.node (List.ofFn r)) = ((m.factorial : ℝ))⁻¹ * ∏ i, α (r i) := by
  rw [graft, List.map_ofFn, List.prod_ofFn, List.length_ofFn]; rfl

/-- The part of a series with trees of at most `k` vertices. -/
noncomputable def series (F : X → X) (x : X) (h : ℝ) (α : RTree → ℝ) (k : ℕ) : X :=
  ∑ t ∈ trees k, (h ^ t.order * α t) • elem F x t

/-- The same with one power of the step size less. -/
noncomputable def series' (F : X → X) (x : X) (h : ℝ) (α : RTree → ℝ) (k : ℕ) : X :=
  ∑ t ∈ trees k, (h ^ (t.order - 1) * α t) • elem F x t

theorem smul_series' (F : X → X) (x : X) (h : ℝ) (α : RTree → ℝ) (k : ℕ) :
    h • series' F x h α k = series F x h α k := by
  rw [series', series, Finset.smul_sum]
  refine Finset.sum_congr rfl fun t _ => ?_
  rw [smul_smul, ← mul_assoc, ← pow_succ', Nat.sub_add_cancel (order_pos t)]

section bounds
variable [ProperSpace X] {F : X → X} {k : ℕ}

theorem bound_iterated (hF : ContDiff ℝ (k + 1 : ℕ) F) (R : ℝ) (m : ℕ) (hm : m ≤ k + 1) :
    ∃ C, ∀ y ∈ Metric.closedBall (0 : X) R, ‖iteratedFDeriv ℝ m F y‖ ≤ C :=
  (isCompact_closedBall (0 : X) R).exists_bound_of_continuousOn
    (hF.continuous_iteratedFDeriv (by exact_mod_cast hm)).continuousOn

theorem bound_elem (hF : ContDiff ℝ (k + 1 : ℕ) F) (R : ℝ) :
    ∀ (n : ℕ) (t : RTree), t.order ≤ n → n ≤ k + 2 →
      ∃ C, ∀ y ∈ Metric.closedBall (0 : X) R, ‖elem F y t‖ ≤ C := by
  intro n
  induction n with
  | zero => intro t ht; have := order_pos t; omega
  | succ n ih =>
    intro t ht hn
    obtain ⟨m, r, rfl⟩ : ∃ (m : ℕ) (r : Fin m → RTree), t = .node (List.ofFn r) := by
      cases t with
      | node ts => exact ⟨ts.length, ts.get, by simp⟩
    rw [order_node] at ht
    have hle : ∀ i, (r i).order ≤ n := fun i => by
      have := Finset.single_le_sum (f := fun i => (r i).order)
        (fun _ _ => Nat.zero_le _) (mem_univ i)
      omega
    have hm : m ≤ ∑ i, (r i).order := by
      calc m = ∑ _i : Fin m, 1 := by simp
        _ ≤ _ := Finset.sum_le_sum fun i _ => order_pos _
    choose C hC using fun i => ih (r i) (hle i) (by omega)
    obtain ⟨C0, hC0⟩ := bound_iterated hF R m (by omega)
    refine ⟨C0 * ∏ i, C i, fun y hy => ?_⟩
    rw [elem_node]
    refine (ContinuousMultilinearMap.le_opNorm _ _).trans ?_
    refine mul_le_mul (hC0 y hy) ?_ (Finset.prod_nonneg fun i _ => norm_nonneg _)
      ((norm_nonneg _).trans (hC0 y hy))
    exact Finset.prod_le_prod (fun i _ => norm_nonneg _) fun i _ => hC i y hy

end bounds

section compose
variable [ProperSpace X] {F : X → X} {k : ℕ} {Ω : Type*} {l : Filter Ω} {h : Ω → ℝ}
  {x δ : Ω → X} {R : ℝ}

theorem isBigO_fsum {ι Y : Type*} [NormedAddCommGroup Y] {s : Finset ι} {f : ι → Ω → Y} {g : Ω → ℝ}
    (H : ∀ i ∈ s, f i =O[l] g) : (fun ω => ∑ i ∈ s, f i ω) =O[l] g := by
  have := IsBigO.sum H
  refine this.congr_left fun ω => ?_
  rw [Finset.sum_apply]

theorem pow_isBigO (hh : Tendsto h l (𝓝 0)) {a b : ℕ} (hab : a ≤ b) :
    (fun ω => h ω ^ b) =O[l] fun ω => h ω ^ a := by
  obtain ⟨c, rfl⟩ := Nat.exists_eq_add_of_le hab
  have h1 : (fun ω => h ω ^ c) =O[l] fun _ => (1 : ℝ) := (hh.pow c).isBigO_one ℝ
  simpa [pow_add] using (isBigO_refl (fun ω => h ω ^ a) l).mul h1

theorem elem_isBigO (hF : ContDiff ℝ (k + 1 : ℕ) F) (hx : ∀ᶠ ω in l, ‖x ω‖ ≤ R) (t : RTree)
    (ht : t.order ≤ k + 2) : (fun ω => elem F (x ω) t) =O[l] fun _ => (1 : ℝ) := by
  obtain ⟨C, hC⟩ := bound_elem hF R (k + 2) t ht le_rfl
  refine IsBigO.of_bound C (hx.mono fun ω hω => ?_)
  simpa using hC (x ω) (by simpa using hω)

theorem series_isBigO (hh : Tendsto h l (𝓝 0)) (hF : ContDiff ℝ (k + 1 : ℕ) F)
    (hx : ∀ᶠ ω in l, ‖x ω‖ ≤ R) (α : RTree → ℝ) (n : ℕ) (hn : n ≤ k + 2) :
    (fun ω => series F (x ω) (h ω) α n) =O[l] h := by
  refine isBigO_fsum fun t ht => ?_
  have h1 := elem_isBigO hF hx t ((mem_trees.mp ht).trans hn)
  have h2 : (fun ω => h ω ^ t.order * α t) =O[l] h := by
    have := (pow_isBigO hh (order_pos t)).mul (isBigO_const_const (α t) (one_ne_zero' ℝ) l)
    simpa using this
  simpa using h2.smul h1

/-- Composition with `F`. -/
theorem compose (hh : Tendsto h l (𝓝 0)) (hF : ContDiff ℝ (k + 1 : ℕ) F)
    (hx : ∀ᶠ ω in l, ‖x ω‖ ≤ R) (α : RTree → ℝ)
    (hδ : (fun ω => δ ω - series F (x ω) (h ω) α k) =O[l] fun ω => h ω ^ (k + 1)) :
    (fun ω => F (x ω + δ ω) - series' F (x ω) (h ω) (graft α) (k + 1))
      =O[l] fun ω => h ω ^ (k + 1) := by
  classical
  have hser := series_isBigO hh hF hx α k (by omega)
  have hδh : δ =O[l] h := by
    have h1 : (fun ω => h ω ^ (k + 1)) =O[l] h := by simpa using pow_isBigO hh (a := 1) (b := k + 1) (by omega)
    simpa using (hδ.trans h1).add hser
  have hδ0 : Tendsto δ l (𝓝 0) := hδh.trans_tendsto hh
  have hδ1 : ∀ᶠ ω in l, ‖δ ω‖ ≤ 1 := by
    have := hδ0.norm
    rw [norm_zero] at this
    exact this.eventually_le_const one_pos
  -- Taylor's theorem
  have htaylor : (fun ω => F (x ω + δ ω) - ∑ m ∈ range (k + 1),
      ((m.factorial : ℝ))⁻¹ • iteratedFDeriv ℝ m F (x ω) fun _ => δ ω)
      =O[l] fun ω => h ω ^ (k + 1) := by
    obtain ⟨C, hC⟩ := bound_iterated hF (R + 1) (k + 1) le_rfl
    refine IsBigO.trans (g := fun ω => ‖δ ω‖ ^ (k + 1)) ?_ ?_
    · refine IsBigO.of_bound (((k.factorial : ℝ))⁻¹ * C) ?_
      filter_upwards [hx, hδ1] with ω h1 h2
      have hseg : ∀ t ∈ Set.Icc (0 : ℝ) 1, x ω + t • δ ω ∈ Metric.closedBall (0 : X) (R + 1) := by
        intro t ht
        rw [mem_closedBall_zero_iff]
        refine (norm_add_le _ _).trans (add_le_add h1 ?_)
        rw [norm_smul, Real.norm_of_nonneg ht.1]
        exact mul_le_one₀ ht.2 (norm_nonneg _) h2
      have hC0 : 0 ≤ C := (norm_nonneg _).trans (hC _ (hseg 0 (by simp)))
      rw [map_add_eq_sum_add_integral_iteratedFDeriv (n := k) (f := F) (x := x ω) (y := δ ω)
        (fun t _ => (by exact_mod_cast hF.contDiffAt)), add_sub_cancel_left, norm_smul, mul_assoc]
      rw [Real.norm_of_nonneg (by positivity)]
      refine mul_le_mul_of_nonneg_left ?_ (by positivity)
      have := intervalIntegral.norm_integral_le_of_norm_le_const (a := 0) (b := 1)
        (C := C * ‖‖δ ω‖ ^ (k + 1)‖)
        (f := fun t : ℝ => (1 - t) ^ k • iteratedFDeriv ℝ (k + 1) F (x ω + t • δ ω) fun _ => δ ω) ?_
      · simpa using this
      · intro t ht
        rw [Set.uIoc_of_le zero_le_one] at ht
        have ht' : t ∈ Set.Icc (0 : ℝ) 1 := ⟨ht.1.le, ht.2⟩
        rw [norm_smul]
        refine le_trans (mul_le_of_le_one_left (norm_nonneg _) ?_) ?_
        · rw [norm_pow, Real.norm_of_nonneg (by linarith [ht'.2])]
          exact pow_le_one₀ (by linarith [ht'.2]) (by linarith [ht'.1])
        · refine (ContinuousMultilinearMap.le_opNorm _ _).trans ?_
          rw [Finset.prod_const, Finset.card_univ, Fintype.card_fin, norm_pow, norm_norm]
          exact mul_le_mul_of_nonneg_right (hC _ (hseg t ht')) (by positivity)
    · exact (hδh.norm_left).pow (k + 1)
  -- every term of the Taylor polynomial
  have hterm : ∀ m ∈ range (k + 1), (fun ω =>
      ((m.factorial : ℝ))⁻¹ • (iteratedFDeriv ℝ m F (x ω) fun _ => δ ω)
        - ∑ r ∈ tuples m k, (h ω ^ ((RTree.node (List.ofFn r)).order - 1)
          * graft α (.node (List.ofFn r))) • elem F (x ω) (.node (List.ofFn r)))
      =O[l] fun ω => h ω ^ (k + 1) := by
    intro m hm
    have hmk : m ≤ k := by simpa [Nat.lt_succ_iff] using hm
    obtain ⟨C, hC⟩ := bound_iterated hF R m (by omega)
    have hC1 : (fun ω => ‖iteratedFDeriv ℝ m F (x ω)‖) =O[l] fun _ => (1 : ℝ) := by
      refine IsBigO.of_bound C (hx.mono fun ω hω => ?_)
      simpa using hC (x ω) (by simpa using hω)
    -- replace `δ` by the series
    have hrep : (fun ω => (iteratedFDeriv ℝ m F (x ω) fun _ => δ ω)
        - iteratedFDeriv ℝ m F (x ω) fun _ => series F (x ω) (h ω) α k)
        =O[l] fun ω => h ω ^ (k + 1) := by
      rcases Nat.eq_zero_or_pos m with rfl | hm0
      · simp only [iteratedFDeriv_zero_apply, sub_self]
        exact isBigO_zero _ _
      · have hmax : (fun ω => max ‖fun _ : Fin m => δ ω‖
            ‖fun _ : Fin m => series F (x ω) (h ω) α k‖ ^ (m - 1)) =O[l] fun _ => (1 : ℝ) := by
          have h1 : Tendsto (fun ω => ‖fun _ : Fin m => δ ω‖) l (𝓝 0) := by
            rw [tendsto_zero_iff_norm_tendsto_zero] at hδ0
            refine squeeze_zero (fun ω => norm_nonneg _) (fun ω => ?_) hδ0
            exact pi_norm_const_le (δ ω)
          have h2 : Tendsto (fun ω => ‖fun _ : Fin m => series F (x ω) (h ω) α k‖) l (𝓝 0) := by
            have := hser.trans_tendsto hh
            rw [tendsto_zero_iff_norm_tendsto_zero] at this
            exact squeeze_zero (fun ω => norm_nonneg _) (fun ω => pi_norm_const_le _) this
          exact ((h1.max h2).pow (m - 1)).isBigO_one ℝ
        have hdiff : (fun ω => (‖(fun _ : Fin m => δ ω)
            - fun _ : Fin m => series F (x ω) (h ω) α k‖ : ℝ)) =O[l] fun ω => h ω ^ (k + 1) := by
          refine IsBigO.trans (IsBigO.of_bound 1 (Eventually.of_forall fun ω => ?_)) hδ
          rw [norm_norm, one_mul]
          exact pi_norm_const_le (δ ω - series F (x ω) (h ω) α k)
        have hprod := ((hC1.mul (isBigO_const_const (m : ℝ) (one_ne_zero' ℝ) l)).mul hmax).mul hdiff
        refine IsBigO.trans (IsBigO.of_bound 1 (Eventually.of_forall fun ω => ?_))
          (by simpa using hprod)
        have := ContinuousMultilinearMap.norm_image_sub_le (iteratedFDeriv ℝ m F (x ω))
          (fun _ => δ ω) (fun _ => series F (x ω) (h ω) α k)
        rw [Fintype.card_fin] at this
        rw [one_mul]
        exact this.trans (Real.le_norm_self _)
    -- expand
    have hexp : ∀ ω, (iteratedFDeriv ℝ m F (x ω) fun _ => series F (x ω) (h ω) α k)
        = ∑ r ∈ Fintype.piFinset fun _ : Fin m => trees k,
          (h ω ^ (∑ i, (r i).order) * ∏ i, α (r i)) • elem F (x ω) (.node (List.ofFn r)) := by
      intro ω
      simp only [series]
      rw [ContinuousMultilinearMap.map_sum_finset]
      refine Finset.sum_congr rfl fun r _ => ?_
      rw [ContinuousMultilinearMap.map_smul_univ, Finset.prod_mul_distrib, elem_node,
        Finset.prod_pow_eq_pow_sum]
    have hsplit : (fun ω => (iteratedFDeriv ℝ m F (x ω) fun _ => series F (x ω) (h ω) α k)
        - ∑ r ∈ tuples m k,
          (h ω ^ (∑ i, (r i).order) * ∏ i, α (r i)) • elem F (x ω) (.node (List.ofFn r)))
        =O[l] fun ω => h ω ^ (k + 1) := by
      have heq : ∀ ω, (iteratedFDeriv ℝ m F (x ω) fun _ => series F (x ω) (h ω) α k)
          - ∑ r ∈ tuples m k,
            (h ω ^ (∑ i, (r i).order) * ∏ i, α (r i)) • elem F (x ω) (.node (List.ofFn r))
          = ∑ r ∈ (Fintype.piFinset fun _ : Fin m => trees k).filter
              (fun r => ¬ ∑ i, (r i).order ≤ k),
            (h ω ^ (∑ i, (r i).order) * ∏ i, α (r i)) • iteratedFDeriv ℝ m F (x ω)
              fun i => elem F (x ω) (r i) := by
        intro ω
        rw [hexp, tuples, ← Finset.sum_filter_add_sum_filter_not _
          (fun r : Fin m → RTree => ∑ i, (r i).order ≤ k), add_sub_cancel_left]
        exact Finset.sum_congr rfl fun r _ => by rw [elem_node]
      simp only [heq]
      refine isBigO_fsum fun r hr => ?_
      rw [mem_filter, Fintype.mem_piFinset] at hr
      have hel : (fun ω => iteratedFDeriv ℝ m F (x ω) fun i => elem F (x ω) (r i))
          =O[l] fun _ => (1 : ℝ) := by
        have h1 : (fun ω => ‖iteratedFDeriv ℝ m F (x ω)‖ * ∏ i, ‖elem F (x ω) (r i)‖)
            =O[l] fun _ => (1 : ℝ) := by
          have h2 : (fun ω => ∏ i, ‖elem F (x ω) (r i)‖) =O[l] fun _ => ∏ _i : Fin m, (1 : ℝ) :=
            IsBigO.finsetProd fun i _ =>
              (elem_isBigO hF hx (r i) ((mem_trees.mp (hr.1 i)).trans (by omega))).norm_left
          simpa using hC1.mul h2
        refine IsBigO.trans (IsBigO.of_bound 1 (Eventually.of_forall fun ω => ?_)) h1
        rw [one_mul]
        exact (ContinuousMultilinearMap.le_opNorm _ _).trans (Real.le_norm_self _)
      have hpw : (fun ω => h ω ^ (∑ i, (r i).order) * ∏ i, α (r i))
          =O[l] fun ω => h ω ^ (k + 1) := by
        simpa using (pow_isBigO hh (show k + 1 ≤ ∑ i, (r i).order by have := hr.2; omega)).mul
          (isBigO_const_const (∏ i, α (r i)) (one_ne_zero' ℝ) l)
      simpa using hpw.smul hel
    have hsum := (hrep.add hsplit).const_smul_left (((m.factorial : ℝ))⁻¹)
    refine hsum.congr_left fun ω => ?_
    simp only [Pi.smul_apply, sub_add_sub_cancel, smul_sub, Finset.smul_sum]
    congr 1
    refine Finset.sum_congr rfl fun r _ => ?_
    rw [order_node, graft_node, smul_smul, Nat.add_sub_cancel_left]
    congr 1
    ring
  have hall := htaylor.add (isBigO_fsum hterm)
  refine hall.congr_left fun ω => ?_
  rw [series', sum_trees, Finset.sum_sub_distrib, sub_add_sub_cancel]

end compose

end Verif.Conv
