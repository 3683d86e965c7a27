/-
The leading term of the difference of two Runge-Kutta steps with the same stages. No code is
modelled here.
-/
import Verif.Conv.Estimate

namespace Verif.Conv

open Verif.Tableau Verif.RK.Spec Finset Filter Topology Asymptotics

section autonomous
variable {X : Type*} [NormedAddCommGroup X] [NormedSpace ℝ X] {F : X → X}

/-- The coefficient of `h^(p+1)` in `h` times the combination of the stages with weights `d`: the sum
over the trees with `p + 1` vertices. -/
noncomputable def leading {s : ℕ} (F : X → X) (A : Fin s → Fin s → ℝ) (d : Fin s → ℝ) (p : ℕ)
    (x : X) : X :=
  ∑ τ ∈ (trees (p + 1)).filter (fun τ => τ.order = p + 1),
    (coeff τ * ∑ i, d i * τ.weight A i) • elem F x τ

/-- Elementary differentials depend on the function near the point only. -/
theorem elem_congr {G : X → X} {x : X} (h : F =ᶠ[𝓝 x] G) (τ : RTree) : elem F x τ = elem G x τ := by
  suffices H : ∀ N, ∀ τ : RTree, τ.order ≤ N → elem F x τ = elem G x τ from H _ τ le_rfl
  intro N
  induction N with
  | zero => intro τ hτ; have := order_pos τ; omega
  | succ N ih =>
    intro τ hτ
    obtain ⟨m, r, rfl⟩ := node_cases τ
    rw [order_node] at hτ
    rw [elem_node, elem_node, (h.iteratedFDeriv ℝ m).eq_of_nhds]
    congr 1
    funext i
    refine ih (r i) ?_
    have := Finset.single_le_sum (f := fun i => (r i).order) (fun _ _ => Nat.zero_le _)
      (mem_univ i)
    omega

theorem leading_congr {s : ℕ} {G : X → X} {x : X} (h : F =ᶠ[𝓝 x] G) (A : Fin s → Fin s → ℝ)
    (d : Fin s → ℝ) (p : ℕ) : leading F A d p x = leading G A d p x := by
  unfold leading
  exact Finset.sum_congr rfl fun τ _ => by rw [elem_congr h]

theorem elem_continuous {p : ℕ} (hF : ContDiff ℝ p F) (τ : RTree) (hτ : τ.order ≤ p + 1) :
    Continuous fun x => elem F x τ := by
  suffices H : ∀ N, ∀ τ : RTree, τ.order ≤ N → τ.order ≤ p + 1 → Continuous fun x => elem F x τ from
    H _ τ le_rfl hτ
  intro N
  induction N with
  | zero => intro τ hτ; have := order_pos τ; omega
  | succ N ih =>
    intro τ hτ hp
    obtain ⟨m, r, rfl⟩ := node_cases τ
    rw [order_node] at hτ hp
    have hle : ∀ i, (r i).order ≤ ∑ i, (r i).order := fun i =>
      Finset.single_le_sum (f := fun i => (r i).order) (fun _ _ => Nat.zero_le _) (mem_univ i)
    have hm : m ≤ ∑ i, (r i).order := by
      calc m = ∑ _i : Fin m, 1 := by simp
        _ ≤ _ := Finset.sum_le_sum fun i _ => order_pos (r i)
    simp only [elem_node]
    exact (hF.continuous_iteratedFDeriv (by exact_mod_cast (by omega : m ≤ p))).eval
      (continuous_pi fun i => ih (r i) (by have := hle i; omega) (by have := hle i; omega))

theorem leading_continuous {s p : ℕ} (hF : ContDiff ℝ p F) (A : Fin s → Fin s → ℝ)
    (d : Fin s → ℝ) : Continuous (leading F A d p) := by
  unfold leading
  refine continuous_finsetSum _ fun τ hτ => ?_
  exact (elem_continuous hF τ (mem_trees.mp (Finset.mem_filter.mp hτ).1)).const_smul _

variable [ProperSpace X]

/-- Combinations of the stages with weights `d` that annihilate the elementary weights up to order
`p`, with accuracy `ε`, up to the next power of the step size. -/
theorem combination_leading_autonomous {p : ℕ} (hF : ContDiff ℝ (p + 1 : ℕ) F) (R : ℝ) :
    ∃ K : ℝ, 0 ≤ K ∧ ∀ (s : ℕ) (A : Fin s → Fin s → ℝ) (d : Fin s → ℝ) (ε B : ℝ), 0 ≤ ε →
      (∀ τ : RTree, τ.order ≤ p → |∑ i, d i * τ.weight A i| ≤ ε) →
      ∃ C δ : ℝ, 0 ≤ C ∧ 0 < δ ∧ ∀ (x : X) (h : ℝ) (k : Fin s → X), ‖x‖ ≤ R → 0 ≤ h → h < δ →
        (∀ i, ‖k i‖ ≤ B) → (∀ i, k i = F (x + h • ∑ j, A i j • k j)) →
        ‖h • ∑ i, d i • k i - h ^ (p + 1) • leading F A d p x‖
          ≤ K * ε * h + C * h ^ (p + 2) := by
  obtain ⟨K, hK0, hK⟩ := bound_differentials hF R
  refine ⟨K, hK0, fun s A d ε B hε ho => ?_⟩
  set S : Set (X × ℝ × (Fin s → X)) := {q | ‖q.1‖ ≤ R ∧ 0 ≤ q.2.1 ∧ (∀ i, ‖q.2.2 i‖ ≤ B) ∧
      ∀ i, q.2.2 i = F (q.1 + q.2.1 • ∑ j, A i j • q.2.2 j)} with hS
  set hfun : X × ℝ × (Fin s → X) → ℝ := fun q => q.2.1 with hhf
  have hst := stages_expansion (A := A) (l := small hfun S) (h := hfun) (x := fun q => q.1)
    (K := fun i q => q.2.2 i) (R := R) hF (small_tendsto hfun S)
    (small_eventually _ _ fun q hq => hq.1)
    (fun i => small_eventually _ _ fun q hq => hq.2.2.2 i)
    (fun i => IsBigO.of_bound B (small_eventually _ _ fun q hq => by
      simpa using hq.2.2.1 i)) (p + 1) le_rfl
  have hsum : (fun q : X × ℝ × (Fin s → X) => hfun q • ∑ i, d i •
      (q.2.2 i - series' F q.1 (hfun q) (stageCoeff A i) (p + 1)))
      =O[small hfun S] fun q => hfun q ^ (p + 2) := by
    have := (isBigO_refl hfun (small hfun S)).smul
      (isBigO_fsum (s := Finset.univ) fun i _ => (hst i).const_smul_left (d i))
    simpa [pow_succ'] using this
  obtain ⟨C, δ, hC, hδ, hN⟩ := bound_of_isBigO hsum
  refine ⟨C, min 1 δ, hC, lt_min one_pos hδ, fun x h k h1 h2 h4 h5 h6 => ?_⟩
  have h41 := (h4.trans_le (min_le_left _ _)).le
  have e1 := hN (x, h, k) ⟨h1, h2, h5, h6⟩
    (by simpa [hhf, abs_of_nonneg h2] using h4.trans_le (min_le_right _ _))
  simp only [hhf, abs_of_nonneg h2] at e1
  have hsplit : h • ∑ i, d i • series' F x h (stageCoeff A i) (p + 1)
      = h ^ (p + 1) • leading F A d p x
        + ∑ τ ∈ (trees (p + 1)).filter (fun τ => ¬ τ.order = p + 1),
          (h ^ τ.order * (coeff τ * ∑ i, d i * τ.weight A i)) • elem F x τ := by
    have : h • ∑ i, d i • series' F x h (stageCoeff A i) (p + 1)
        = ∑ τ ∈ trees (p + 1),
          (h ^ τ.order * (coeff τ * ∑ i, d i * τ.weight A i)) • elem F x τ := by
      simp only [series', Finset.smul_sum, smul_smul]
      rw [Finset.sum_comm]
      refine Finset.sum_congr rfl fun τ hτ => ?_
      rw [← Finset.sum_smul]
      congr 1
      have hp : h ^ τ.order = h * h ^ (τ.order - 1) := by
        rw [← pow_succ', Nat.sub_add_cancel (order_pos τ)]
      rw [hp, Finset.mul_sum, Finset.mul_sum]
      refine Finset.sum_congr rfl fun i _ => ?_
      rw [stageCoeff]; ring
    rw [this, ← Finset.sum_filter_add_sum_filter_not _ (fun τ : RTree => τ.order = p + 1), leading,
      Finset.smul_sum]
    congr 1
    refine Finset.sum_congr rfl fun τ hτ => ?_
    rw [smul_smul, (Finset.mem_filter.mp hτ).2]
  have hser : ‖∑ τ ∈ (trees (p + 1)).filter (fun τ => ¬ τ.order = p + 1),
      (h ^ τ.order * (coeff τ * ∑ i, d i * τ.weight A i)) • elem F x τ‖ ≤ K * ε * h := by
    refine (norm_sum_le _ _).trans ?_
    have hterm : ∀ τ ∈ (trees (p + 1)).filter (fun τ => ¬ τ.order = p + 1),
        ‖(h ^ τ.order * (coeff τ * ∑ i, d i * τ.weight A i)) • elem F x τ‖
          ≤ h * ε * (|coeff τ| * ‖elem F x τ‖) := by
      intro τ hτ
      obtain ⟨t1, t2⟩ := Finset.mem_filter.mp hτ
      rw [norm_smul, Real.norm_eq_abs, abs_mul, abs_mul, abs_of_nonneg (pow_nonneg h2 _)]
      have g1 : h ^ τ.order ≤ h := by
        calc h ^ τ.order ≤ h ^ 1 := pow_le_pow_of_le_one h2 h41 (order_pos τ)
          _ = h := pow_one h
      have g2 := ho τ (by have := mem_trees.mp t1; omega)
      calc h ^ τ.order * (|coeff τ| * |∑ i, d i * τ.weight A i|) * ‖elem F x τ‖
          ≤ h * (|coeff τ| * ε) * ‖elem F x τ‖ := by gcongr
        _ = _ := by ring
    refine (Finset.sum_le_sum hterm).trans ?_
    rw [← Finset.mul_sum]
    calc _ ≤ h * ε * ∑ τ ∈ trees (p + 1), |coeff τ| * ‖elem F x τ‖ := by
          gcongr
          exact Finset.filter_subset _ _
      _ ≤ h * ε * K := by gcongr; exact hK _ h1
      _ = _ := by ring
  have hdec : h • ∑ i, d i • k i - h ^ (p + 1) • leading F A d p x
      = (∑ τ ∈ (trees (p + 1)).filter (fun τ => ¬ τ.order = p + 1),
          (h ^ τ.order * (coeff τ * ∑ i, d i * τ.weight A i)) • elem F x τ)
      + h • ∑ i, d i • (k i - series' F x h (stageCoeff A i) (p + 1)) := by
    have : h • ∑ i, d i • (k i - series' F x h (stageCoeff A i) (p + 1))
        = h • ∑ i, d i • k i - h • ∑ i, d i • series' F x h (stageCoeff A i) (p + 1) := by
      simp only [smul_sub, Finset.sum_sub_distrib]
    rw [this, hsplit]
    abel
  rw [hdec]
  exact (norm_add_le _ _).trans (add_le_add hser e1)

end autonomous

variable {E : Type*} [NormedAddCommGroup E] [NormedSpace ℝ E] {f : ℝ → E → E}

/-- The leading term for right-hand sides that depend on time. -/
noncomputable def leadingTerm {s : ℕ} (f : ℝ → E → E) (A : Fin s → Fin s → ℝ) (d : Fin s → ℝ)
    (p : ℕ) (t : ℝ) (u : E) : E :=
  (leading (fun q : ℝ × E => ((1 : ℝ), f q.1 q.2)) A d p (t, u)).2

theorem leadingTerm_continuous {s p : ℕ} (hf : ContDiff ℝ p (fun q : ℝ × E => f q.1 q.2))
    (A : Fin s → Fin s → ℝ) (d : Fin s → ℝ) :
    Continuous fun q : ℝ × E => leadingTerm f A d p q.1 q.2 :=
  (leading_continuous (contDiff_const.prodMk hf) A d).snd

/-- The leading term of order two is the derivative of the right-hand side along the solution. -/
theorem leadingTerm_one {s : ℕ} (A : Fin s → Fin s → ℝ) (d : Fin s → ℝ) (t : ℝ) (u : E)
    (hf : DifferentiableAt ℝ (fun q : ℝ × E => f q.1 q.2) (t, u)) :
    leadingTerm f A d 1 t u
      = (∑ i, d i * ∑ j, A i j) • fderiv ℝ (fun q : ℝ × E => f q.1 q.2) (t, u) (1, f t u) := by
  have htrees : (trees (1 + 1)).filter (fun τ => τ.order = 1 + 1)
      = {RTree.node [RTree.node []]} := by
    ext τ
    rw [Finset.mem_filter, mem_trees, Finset.mem_singleton]
    constructor
    · rintro ⟨-, h⟩
      rcases τ with ⟨_ | ⟨⟨_ | ⟨b, ts'⟩⟩, _ | ⟨c, ts⟩⟩⟩
      · simp [RTree.order, orderL] at h
      · rfl
      · have := order_pos c
        simp [RTree.order, orderL] at h
        omega
      · have := order_pos b
        simp [RTree.order, orderL] at h
        omega
      · have := order_pos c
        simp [RTree.order, orderL] at h
        omega
    · rintro rfl
      simp [RTree.order, orderL]
  have he : elem (fun q : ℝ × E => ((1 : ℝ), f q.1 q.2)) (t, u) (RTree.node [RTree.node []])
      = ((0 : ℝ), fderiv ℝ (fun q : ℝ × E => f q.1 q.2) (t, u) (1, f t u)) := by
    have h0 : elem (fun q : ℝ × E => ((1 : ℝ), f q.1 q.2)) (t, u) (RTree.node [])
        = ((1 : ℝ), f t u) := by
      rw [elem_node_of_length _ _ [] 0 rfl, iteratedFDeriv_zero_apply]
    rw [elem_node_of_length _ _ [RTree.node []] 1 rfl, iteratedFDeriv_one_apply]
    have hd : fderiv ℝ (fun q : ℝ × E => ((1 : ℝ), f q.1 q.2)) (t, u)
        = (0 : ℝ × E →L[ℝ] ℝ).prod (fderiv ℝ (fun q : ℝ × E => f q.1 q.2) (t, u)) :=
      ((hasFDerivAt_const (1 : ℝ) (t, u)).prodMk hf.hasFDerivAt).fderiv
    rw [hd]
    simp only [List.get_eq_getElem, Fin.val_cast, Fin.val_zero, List.getElem_cons_zero]
    rw [h0]
    rfl
  rw [leadingTerm, leading, htrees, Finset.sum_singleton, he]
  have hc : coeff (RTree.node [RTree.node []]) = 1 := by simp [coeff]
  have hw : ∀ i, (RTree.node [RTree.node []]).weight A i = ∑ j, A i j := by
    intro i
    simp [RTree.weight, weightL]
  simp only [hc, hw, one_mul, Prod.smul_mk, smul_zero]

variable [FiniteDimensional ℝ E]

/-- Combinations of inexact stages with weights `d` that annihilate the elementary weights up to
order `p`, up to the next power of the step size. -/
theorem combination_leading {p : ℕ} (hfs : ContDiff ℝ (p + 1 : ℕ) (fun q : ℝ × E => f q.1 q.2))
    (R β : ℝ) :
    ∃ K : ℝ, 0 ≤ K ∧ ∀ (s : ℕ) (A : Fin s → Fin s → ℝ) (d c : Fin s → ℝ) (ε ε' M : ℝ), 0 ≤ ε →
      0 ≤ ε' → ∑ i, |d i| ≤ β → (∀ i, |(∑ j, A i j) - c i| ≤ ε) →
      (∀ τ : RTree, τ.order ≤ p → |∑ i, d i * τ.weight A i| ≤ ε') →
      ∃ C δ : ℝ, 0 ≤ C ∧ 0 < δ ∧ ∀ (t h η : ℝ) (u : E) (k : Fin s → E), |t| ≤ R → ‖u‖ ≤ R → 0 ≤ h →
        h < δ → 0 ≤ η → ‖k‖ ≤ M → InexactStages η A c f h t u k →
        ‖h • ∑ i, d i • k i - h ^ (p + 1) • leadingTerm f A d p t u‖
          ≤ K * (ε + ε' + η) * h + C * h ^ (p + 2) := by
  obtain ⟨F, N, M', L, hF, hN0, -, -, hFf, hrep⟩ := replace_stages (p := p + 1) (by omega) hfs
    (R + 1)
  set G : ℝ × E → ℝ × E := fun q => (1, F q.1 q.2) with hGdef
  have hG : ContDiff ℝ (p + 1 : ℕ) G := contDiff_const.prodMk hF
  have hlead : ∀ (s : ℕ) (A : Fin s → Fin s → ℝ) (d : Fin s → ℝ) (t : ℝ) (u : E), |t| ≤ R →
      ‖u‖ ≤ R → leadingTerm f A d p t u = (leading G A d p (t, u)).2 := by
    intro s A d t u ht hu
    rw [leadingTerm]
    congr 1
    refine leading_congr ?_ A d p
    have ho1 : IsOpen {q : ℝ × E | |q.1| < R + 1} := isOpen_lt (by fun_prop) (by fun_prop)
    have ho2 : IsOpen {q : ℝ × E | ‖q.2‖ < R + 1} := isOpen_lt (by fun_prop) (by fun_prop)
    have hopen : {q : ℝ × E | |q.1| < R + 1 ∧ ‖q.2‖ < R + 1} ∈ 𝓝 (t, u) :=
      (ho1.inter ho2).mem_nhds
        ⟨by change |t| < R + 1; linarith, by change ‖u‖ < R + 1; linarith⟩
    filter_upwards [hopen] with q hq
    change ((1 : ℝ), f q.1 q.2) = (1, F q.1 q.2)
    rw [hFf q.1 q.2 hq.1.le hq.2.le]
  obtain ⟨K, hK0, hK⟩ := combination_leading_autonomous hG R
  refine ⟨K + |β| * 2 + |β| * (2 * N), by positivity, fun s A d c ε ε' M hε hε' hd hc ho => ?_⟩
  obtain ⟨δ, hδ, hδ1, hrep⟩ := hrep s A c ε M hε hc
  obtain ⟨C, δ', hC, hδ', hE⟩ := hK s A d ε' (max 1 M') hε' ho
  refine ⟨C, min δ δ', hC, lt_min hδ hδ', fun t h η u k ht hu h0 hlt hη hkM hk => ?_⟩
  obtain ⟨-, k', hk', hk'M, hkk'⟩ := hrep t h η u k (by linarith) (by linarith) h0
    (hlt.trans_le (min_le_left _ _)) hη hkM hk
  have hle1 : h ≤ 1 := (hlt.trans_le ((min_le_left _ _).trans hδ1)).le
  set k'' : Fin s → ℝ × E := fun i => (1, k' i) with hKdef
  have hsum : ∀ a : Fin s → ℝ, ∑ j, a j • k'' j = (∑ j, a j, ∑ j, a j • k' j) := by
    intro a
    ext1
    · simp [hKdef, Prod.fst_sum]
    · simp [hKdef, Prod.snd_sum]
  have e1 : ‖h • ∑ i, d i • k' i - h ^ (p + 1) • leadingTerm f A d p t u‖
      ≤ K * ε' * h + C * h ^ (p + 2) := by
    have := hE (t, u) h k'' (by rw [Prod.norm_def]; exact max_le ht hu) h0
      (hlt.trans_le (min_le_right _ _)) (fun i => by
        rw [hKdef, Prod.norm_def]
        exact max_le (by simp) (((norm_le_pi_norm k' i).trans hk'M).trans (le_max_right _ _)))
      (fun i => by
        rw [hsum]
        simp only [hGdef, hKdef, Prod.smul_mk, Prod.mk_add_mk, smul_eq_mul]
        have := hk' i
        rw [mul_comm h, ← this])
    rw [hsum] at this
    refine le_trans ?_ this
    rw [hlead s A d t u ht hu, Prod.norm_def]
    exact le_max_right _ _
  have e3 : ‖h • ∑ i, d i • (k - k') i‖ ≤ (|β| * 2 * η + |β| * (2 * N) * ε) * h := by
    rw [norm_smul, Real.norm_of_nonneg h0]
    have hbβ : ∑ i, |d i| ≤ |β| := hd.trans (le_abs_self _)
    calc h * ‖∑ i, d i • (k - k') i‖ ≤ h * (|β| * (2 * (η + N * (ε * h)))) := by
          gcongr
          exact (norm_weights d _).trans (by gcongr)
      _ ≤ h * (|β| * (2 * (η + N * (ε * 1)))) := by gcongr
      _ = _ := by ring
  have e4 : h • ∑ i, d i • k i - h ^ (p + 1) • leadingTerm f A d p t u
      = (h • ∑ i, d i • k' i - h ^ (p + 1) • leadingTerm f A d p t u)
        + h • ∑ i, d i • (k - k') i := by
    simp only [Pi.sub_apply, smul_sub, Finset.sum_sub_distrib]
    abel
  rw [e4]
  refine (norm_add_le _ _).trans ?_
  have x1 : 0 ≤ K * ε * h := by positivity
  have x2 : 0 ≤ K * η * h := by positivity
  have x3 : 0 ≤ |β| * 2 * (ε + ε') * h := by positivity
  have x4 : 0 ≤ |β| * (2 * N) * (ε' + η) * h := by positivity
  nlinarith

end Verif.Conv
