/-
Runs of the shipped test problems converge to the solutions that are shipped with them (C87).
-/
import Verif.Components.Stage
import Verif.Conv.Uniform
import Verif.Props.Components

namespace Verif.Props

open Verif.RK Verif.RK.Spec Verif.Control Verif.XReal Verif.Integrator Verif.Tableau Verif.Comp
open Classical

variable {s n m o l : ℕ}

/-! ### The runs -/

/-- Runs of a plain scheme: a number of steps, to a final time, with pyrevolve. -/
structure PlainRuns (E : Env s n m o l) (p : Fin m → ℝ) (y : ℝ → Fin n → ℝ) (t0 t1 δ r : ℝ)
    (err : ℝ → ℝ → ℝ) : Prop where
  steps : StepsWithin (rkBackend E) p y t0 t1 δ r err
  finalTime : FinalTimeWithin (rkBackend E) p y t0 t1 δ r err
  pyrevolve : PyrevolveWithin (rkBackend E) rkRestore p y t0 t1 δ r err

/-- Runs with the pseudo controller over a number of steps, as in the study with homogeneous steps,
homogeneous.py. -/
def PseudoWithin (E : Env s n m o l) (bhat : Fin s → ℝ) (p : Fin m → ℝ) (y : ℝ → Fin n → ℝ)
    (t0 t1 δ r : ℝ) (err : ℝ → ℝ → ℝ) : Prop :=
  ∀ (h0 : ℝ) (N : ℕ) (i : StartingValues ℝ n m) (v : Outputs n), 0 < h0 → h0 < δ →
    i.initialTime = t0 → i.independentInputs = p → ‖i.initialValues - y t0‖ ≤ r →
    t0 + N * h0 ≤ t1 → PseudoRun E bhat h0 (.steps N) i v →
    v.time = t0 + N * h0 ∧ ‖v.values - y v.time‖ ≤ err ‖i.initialValues - y t0‖ h0

/-- Runs of an embedded scheme: also adaptive ones, and those with the pseudo controller. -/
structure EmbRuns (E : Env s n m o l) (bhat : Fin s → ℝ) (p : Fin m → ℝ) (y : ℝ → Fin n → ℝ)
    (t0 t1 δ r : ℝ) (err : ℝ → ℝ → ℝ) : Prop where
  steps : StepsWithin (embBackend E bhat) p y t0 t1 δ r err
  finalTime : FinalTimeWithin (embBackend E bhat) p y t0 t1 δ r err
  pyrevolve : PyrevolveWithin (embBackend E bhat) embRestore p y t0 t1 δ r err
  adaptive : AdaptiveWithin E bhat p y t0 t1 δ r err
  pseudo : PseudoWithin E bhat p y t0 t1 δ r err

/-- Every evaluation is one of the backend `B`, from some state of the stage problem. -/
def Evaluates (ode : ODE ℝ n m o l) (B : OM.Vectors ℝ → ODE ℝ n m o l) : Prop :=
  ∀ z h a, ∃ v0, ode.computeUpdate z h a = (B v0).computeUpdate z h a

section
variable {E : Env s n m o l} {p : Fin m → ℝ} {y : ℝ → Fin n → ℝ} {t0 t1 δ r : ℝ} {err : ℝ → ℝ → ℝ}

theorem StepError.plain (h : StepError E p y t0 t1 δ r err) : PlainRuns E p y t0 t1 δ r err := by
  obtain ⟨g1, g2, g3⟩ := runs_of_steps (rkCore E) (fun _ => rfl) (R := rkRestore) (err := err)
    (fun _ _ => rfl) h
  exact ⟨g1, g2, g3⟩

theorem StepError.emb (h : StepError E p y t0 t1 δ r err) (bhat : Fin s → ℝ) :
    EmbRuns E bhat p y t0 t1 δ r err := by
  obtain ⟨g1, g2, g3⟩ := runs_of_steps (embCore E bhat) (fun _ => rfl) (R := embRestore)
    (err := err) (fun _ _ => rfl) h
  refine ⟨g1, g2, g3, adaptive_of_steps (err := err) bhat h, ?_⟩
  intro h0 N i v hh hlt hti hpi hr ht1 hrun
  have htr := C73_steps hh hrun
  rw [hti, hpi] at htr
  have htime := htr.time
  rw [List.sum_replicate, nsmul_eq_mul] at htime
  exact ⟨htime, h h0 v.time _ _ _ hh.le hlt (replicate_bounds hh.le) htr
    (by rw [htime]; exact ht1) hr⟩

end

/-! ### Bounds for the shipped tableaux -/

theorem list_bound {α : Type} (g : α → ℝ) : ∀ es : List α, ∃ β : ℝ, ∀ e ∈ es, g e ≤ β
  | [] => ⟨0, fun _ h => absurd h (by simp)⟩
  | e :: es => by
    obtain ⟨β, hβ⟩ := list_bound g es
    refine ⟨max (g e) β, fun x hx => ?_⟩
    rcases List.mem_cons.mp hx with rfl | hx
    · exact le_max_left _ _
    · exact (hβ x hx).trans (le_max_right _ _)

/-- A bound of the weights of all shipped tableaux. -/
theorem shipped_weights : ∃ β : ℝ, (∀ e ∈ plainShipped, ∑ i, |e.tab.b i| ≤ β) ∧
    ∀ e ∈ embShipped, ∑ i, |e.tab.b i| ≤ β := by
  obtain ⟨β, h⟩ := list_bound (fun e : PlainEntry => ∑ i, |e.tab.b i|) plainShipped
  obtain ⟨β', h'⟩ := list_bound (fun e : EmbEntry => ∑ i, |e.tab.b i|) embShipped
  exact ⟨max β β', fun e he => (h e he).trans (le_max_left _ _),
    fun e he => (h' e he).trans (le_max_right _ _)⟩

theorem plain_accurate {β : ℝ} {q : ℕ} (e : PlainEntry) (he : e ∈ plainShipped)
    (hp : e.tab.p = some q) (hb : ∑ i, |e.tab.b i| ≤ β) : Accurate e.tab.coeffs β e.tol q := by
  obtain ⟨q', g1, g2, g3, g4, g5⟩ := C05_plain_tableaux e he
  obtain rfl : q = q' := Option.some.inj (hp.symm.trans g1)
  exact ⟨g4, (abs_nonneg _).trans g2, hb, g3, g5⟩

theorem emb_accurate {β : ℝ} {q : ℕ} (e : EmbEntry) (he : e ∈ embShipped)
    (hp : e.tab.p = some q) (hb : ∑ i, |e.tab.b i| ≤ β) : Accurate e.tab.coeffs β e.tol q := by
  obtain ⟨q', r, g1, -, g2, -, g3, g4, g5, -⟩ := C05_embedded_tableaux e he
  obtain rfl : q = q' := Option.some.inj (hp.symm.trans g1)
  exact ⟨g4, (abs_nonneg _).trans g2, hb, g3, g5⟩

/-- A step size below which `1 + h a c` does not vanish. -/
theorem small_step (T : Coeffs ℝ s) (c : ℝ) : ∃ h1 : ℝ, 0 < h1 ∧ ∀ h, 0 ≤ h → h ≤ h1 → ∀ i,
    1 + c * h * T.A i i ≠ 0 := by
  set S := ∑ i, |T.A i i| with hS
  have hS0 : 0 ≤ S := Finset.sum_nonneg fun _ _ => abs_nonneg _
  have hpos : 0 < 2 * ((|c| + 1) * (S + 1)) := by positivity
  refine ⟨1 / (2 * ((|c| + 1) * (S + 1))), by positivity, fun h h0 hle i hz => ?_⟩
  have h1 : |T.A i i| ≤ S :=
    Finset.single_le_sum (f := fun i => |T.A i i|) (fun _ _ => abs_nonneg _) (Finset.mem_univ i)
  have h2 : |c * h * T.A i i| ≤ 1 / 2 := by
    rw [abs_mul, abs_mul, abs_of_nonneg h0]
    calc |c| * h * |T.A i i| ≤ (|c| + 1) * h * (S + 1) := by
          gcongr <;> linarith
      _ = h * ((|c| + 1) * (S + 1)) := by ring
      _ ≤ 1 / (2 * ((|c| + 1) * (S + 1))) * ((|c| + 1) * (S + 1)) := by
          gcongr
      _ = 1 / 2 := by field_simp
  have h3 := neg_abs_le (c * h * T.A i i)
  linarith

/-! ### The linear problem -/

/-- `y' = -y`. -/
def linearRhs : Rhs ℝ 1 0 := fun _ y _ => -y

theorem linear_regular (q : ℕ) : Regular linearRhs ![] q := by
  refine ⟨?_, 1, zero_le_one, fun t u v => ?_⟩
  · unfold linearRhs
    fun_prop
  · simp only [linearRhs, neg_sub_neg, one_mul]
    rw [norm_sub_rev]

theorem linear_isSolution (y0 t0 t1 : ℝ) :
    IsSolution linearRhs ![] (fun t _ => simpleLinearSolution t y0 t0) t0 t1 := by
  intro t _
  rw [hasDerivWithinAt_pi]
  exact fun x => ((C56_solution y0 t0).2 t).hasDerivWithinAt

theorem linear_solves {ode : ODE ℝ 1 0 0 (OM.pointSize linearLayout)} {fwd rev}
    (hE : Evaluates ode (linearOde fwd rev)) {h a : ℝ} (hd : 1 + h * a ≠ 0) :
    SolvesStage ode linearRhs h a := by
  intro z
  obtain ⟨v0, e⟩ := hE z h a
  rw [e, linearOde_update]
  funext x
  obtain rfl : x = 0 := Subsingleton.elim _ _
  simp only [linearRhs, simpleLinear, Pi.neg_apply]
  field_simp
  ring

theorem linear_error {q : ℕ} (hq : 1 ≤ q) (y0 t0 t1 β : ℝ) : ∃ K : ℝ, 0 < K ∧
    ∀ (s : ℕ) (T : Coeffs ℝ s) (ε : ℝ), Accurate T β ε q → ∃ C δ : ℝ, 0 < C ∧ 0 < δ ∧
      ∀ (r : ℝ) (fwd rev) (E : Env s 1 0 0 (OM.pointSize linearLayout)), E.T = T →
        Evaluates E.ode (linearOde fwd rev) →
        StepError E ![] (fun t _ => simpleLinearSolution t y0 t0) t0 t1 δ r
          fun e0 H => K * (e0 + ε) + C * H ^ q := by
  obtain ⟨K, hK, hE⟩ := regular_error hq (linear_regular q) (linear_isSolution y0 t0 t1) β
  refine ⟨K, hK, fun s T ε hA => ?_⟩
  obtain ⟨h1, hh1, hne⟩ := small_step T 1
  obtain ⟨C, δ, hC, hδ, hE⟩ := hE s T ε hA h1 hh1
  refine ⟨C, δ, hC, hδ, fun r fwd rev E hT hev => hE r _ _ E hT fun h h0 hle i => ?_⟩
  refine linear_solves hev ?_
  have := hne h h0 hle i
  rwa [one_mul] at this

/-- C87, the linear problem with the plain shipped tableaux: runs from any initial values near `y0`
(the distance is `e0`) converge to `simple_linear_solution` with the order of the scheme, up to the
accuracy of its coefficients. -/
theorem C87_linear {q : ℕ} (hq : 1 ≤ q) (y0 t0 t1 : ℝ) : ∃ K : ℝ, 0 < K ∧
    ∀ e ∈ plainShipped, e.tab.p = some q → ∃ C δ : ℝ, 0 < C ∧ 0 < δ ∧
      ∀ (r : ℝ) (fwd rev) (E : Env e.tab.stages 1 0 0 (OM.pointSize linearLayout)),
        E.T = e.tab.coeffs → Evaluates E.ode (linearOde fwd rev) →
        PlainRuns E ![] (fun t _ => simpleLinearSolution t y0 t0) t0 t1 δ r
          fun e0 h => K * (e0 + e.tol) + C * h ^ q := by
  obtain ⟨β, hβ, -⟩ := shipped_weights
  obtain ⟨K, hK, hE⟩ := linear_error hq y0 t0 t1 β
  refine ⟨K, hK, fun e he hp => ?_⟩
  obtain ⟨C, δ, hC, hδ, hE⟩ := hE _ _ _ (plain_accurate e he hp (hβ e he))
  exact ⟨C, δ, hC, hδ, fun r fwd rev E hT hev => (hE r fwd rev E hT hev).plain⟩

/-- C87, the linear problem with the shipped embedded tableaux. -/
theorem C87_linear_embedded {q : ℕ} (hq : 1 ≤ q) (y0 t0 t1 : ℝ) : ∃ K : ℝ, 0 < K ∧
    ∀ e ∈ embShipped, e.tab.p = some q → ∃ C δ : ℝ, 0 < C ∧ 0 < δ ∧
      ∀ (r : ℝ) (fwd rev) (E : Env e.tab.stages 1 0 0 (OM.pointSize linearLayout)),
        E.T = e.tab.coeffs → Evaluates E.ode (linearOde fwd rev) →
        EmbRuns E e.tab.bhat ![] (fun t _ => simpleLinearSolution t y0 t0) t0 t1 δ r
          fun e0 h => K * (e0 + e.tol) + C * h ^ q := by
  obtain ⟨β, -, hβ⟩ := shipped_weights
  obtain ⟨K, hK, hE⟩ := linear_error hq y0 t0 t1 β
  refine ⟨K, hK, fun e he hp => ?_⟩
  obtain ⟨C, δ, hC, hδ, hE⟩ := hE _ _ _ (emb_accurate e he hp (hβ e he))
  exact ⟨C, δ, hC, hδ, fun r fwd rev E hT hev => (hE r fwd rev E hT hev).emb _⟩

/-! ### The problem of Prothero and Robinson -/

/-- `x' = λ (x - sin(t + π/4)) + cos(t + π/4)`. -/
noncomputable def protheroRhs (lam : ℝ) : Rhs ℝ 1 0 := fun t x _ _ =>
  lam * (x 0 - Real.sin (t + Real.pi / 4)) + Real.cos (t + Real.pi / 4)

theorem prothero_regular (lam : ℝ) (q : ℕ) : Regular (protheroRhs lam) ![] q := by
  refine ⟨?_, |lam|, abs_nonneg _, fun t u v => ?_⟩
  · refine contDiff_pi.mpr fun _ => ?_
    have h1 : ContDiff ℝ q fun z : ℝ × (Fin 1 → ℝ) => z.2 0 := by fun_prop
    have h2 : ContDiff ℝ q fun z : ℝ × (Fin 1 → ℝ) => Real.sin (z.1 + Real.pi / 4) :=
      Real.contDiff_sin.comp (by fun_prop)
    have h3 : ContDiff ℝ q fun z : ℝ × (Fin 1 → ℝ) => Real.cos (z.1 + Real.pi / 4) :=
      Real.contDiff_cos.comp (by fun_prop)
    exact (contDiff_const.mul (h1.sub h2)).add h3
  · refine (pi_norm_le_iff_of_nonneg (by positivity)).mpr fun x => ?_
    have e : (protheroRhs lam t u ![] - protheroRhs lam t v ![]) x = lam * (u - v) 0 := by
      simp only [protheroRhs, Pi.sub_apply]
      ring
    rw [e, norm_mul, Real.norm_eq_abs]
    exact mul_le_mul_of_nonneg_left (norm_le_pi_norm _ _) (abs_nonneg _)

/-- The solution with initial value `x0` at `t0`. -/
noncomputable def protheroExact (lam x0 t0 t : ℝ) : ℝ :=
  Real.sin (t + Real.pi / 4) + (x0 - Real.sin (t0 + Real.pi / 4)) * Real.exp (lam * (t - t0))

theorem prothero_isSolution (lam x0 t0 t1 : ℝ) :
    IsSolution (protheroRhs lam) ![] (fun t _ => protheroExact lam x0 t0 t) t0 t1 := by
  intro t _
  rw [hasDerivWithinAt_pi]
  intro x
  refine HasDerivAt.hasDerivWithinAt ?_
  have h1 : HasDerivAt (fun t => Real.sin (t + Real.pi / 4)) (Real.cos (t + Real.pi / 4)) t := by
    have := ((hasDerivAt_id t).add_const (Real.pi / 4)).sin
    simpa using this
  have h2 : HasDerivAt (fun t => Real.exp (lam * (t - t0)))
      (lam * Real.exp (lam * (t - t0))) t := by
    have := (((hasDerivAt_id t).sub_const t0).const_mul lam).exp
    simpa [mul_comm] using this
  refine (h1.add (h2.const_mul (x0 - Real.sin (t0 + Real.pi / 4)))).congr_deriv ?_
  simp only [protheroRhs, protheroExact]
  ring

theorem prothero_solves {lam : ℝ} {ode : ODE ℝ 1 0 0 (OM.pointSize protheroLayout)} {fwd rev}
    (hE : Evaluates ode (protheroOde lam fwd rev)) {h a : ℝ} (hd : 1 - lam * h * a ≠ 0) :
    SolvesStage ode (protheroRhs lam) h a := by
  intro z
  obtain ⟨v0, e⟩ := hE z h a
  rw [e, protheroOde_update]
  funext x
  have := (C55_stage_equation lam h a z.time (z.stepInput 0) (z.stageInput 0) _ hd).mpr rfl
  simp only [protheroRhs]
  refine this.trans ?_
  ring

theorem prothero_error {q : ℕ} (hq : 1 ≤ q) (lam x0 t0 t1 β : ℝ) : ∃ K : ℝ, 0 < K ∧
    ∀ (s : ℕ) (T : Coeffs ℝ s) (ε : ℝ), Accurate T β ε q → ∃ C δ : ℝ, 0 < C ∧ 0 < δ ∧
      ∀ (r : ℝ) (fwd rev) (E : Env s 1 0 0 (OM.pointSize protheroLayout)), E.T = T →
        Evaluates E.ode (protheroOde lam fwd rev) →
        StepError E ![] (fun t _ => protheroExact lam x0 t0 t) t0 t1 δ r
          fun e0 H => K * (e0 + ε) + C * H ^ q := by
  obtain ⟨K, hK, hE⟩ := regular_error hq (prothero_regular lam q)
    (prothero_isSolution lam x0 t0 t1) β
  refine ⟨K, hK, fun s T ε hA => ?_⟩
  obtain ⟨h1, hh1, hne⟩ := small_step T (-lam)
  obtain ⟨C, δ, hC, hδ, hE⟩ := hE s T ε hA h1 hh1
  refine ⟨C, δ, hC, hδ, fun r fwd rev E hT hev => hE r _ _ E hT fun h h0 hle i => ?_⟩
  refine prothero_solves hev ?_
  have := hne h h0 hle i
  intro h2
  exact this (by linear_combination h2)

/-- From the initial value of the study (at any time) the shipped `solution` is the exact one. -/
theorem prothero_study (lam t0 : ℝ) : (fun t (_ : Fin 1) => protheroRobinsonSolution t
    (Real.sin (t0 + Real.pi / 4)) t0)
    = fun t _ => protheroExact lam (Real.sin (t0 + Real.pi / 4)) t0 t := by
  funext t _
  simp [protheroRobinsonSolution, protheroExact, phi]

/-- C87, the problem of Prothero and Robinson with any parameter and the plain shipped tableaux: runs
converge to the exact solution with the order of the scheme, up to the accuracy of its
coefficients. For an initial value on `sin(t0 + π/4)`, such as the default one at time 0, the
shipped `solution` is the exact one. -/
theorem C87_prothero_robinson {q : ℕ} (hq : 1 ≤ q) (lam x0 t0 t1 : ℝ) : ∃ K : ℝ, 0 < K ∧
    ∀ e ∈ plainShipped, e.tab.p = some q → ∃ C δ : ℝ, 0 < C ∧ 0 < δ ∧
      ∀ (r : ℝ) (fwd rev) (E : Env e.tab.stages 1 0 0 (OM.pointSize protheroLayout)),
        E.T = e.tab.coeffs → Evaluates E.ode (protheroOde lam fwd rev) →
        PlainRuns E ![] (fun t _ => Real.sin (t + Real.pi / 4) +
            (x0 - Real.sin (t0 + Real.pi / 4)) * Real.exp (lam * (t - t0))) t0 t1 δ r
          (fun e0 h => K * (e0 + e.tol) + C * h ^ q) ∧
        (x0 = Real.sin (t0 + Real.pi / 4) →
          PlainRuns E ![] (fun t _ => protheroRobinsonSolution t x0 t0) t0 t1 δ r
            fun e0 h => K * (e0 + e.tol) + C * h ^ q) := by
  obtain ⟨β, hβ, -⟩ := shipped_weights
  obtain ⟨K, hK, hE⟩ := prothero_error hq lam x0 t0 t1 β
  refine ⟨K, hK, fun e he hp => ?_⟩
  obtain ⟨C, δ, hC, hδ, hE⟩ := hE _ _ _ (plain_accurate e he hp (hβ e he))
  refine ⟨C, δ, hC, hδ, fun r fwd rev E hT hev => ⟨(hE r fwd rev E hT hev).plain, ?_⟩⟩
  rintro rfl
  rw [prothero_study lam]
  exact (hE r fwd rev E hT hev).plain

/-- C87, the problem of Prothero and Robinson with the shipped embedded tableaux. -/
theorem C87_prothero_robinson_embedded {q : ℕ} (hq : 1 ≤ q) (lam x0 t0 t1 : ℝ) : ∃ K : ℝ, 0 < K ∧
    ∀ e ∈ embShipped, e.tab.p = some q → ∃ C δ : ℝ, 0 < C ∧ 0 < δ ∧
      ∀ (r : ℝ) (fwd rev) (E : Env e.tab.stages 1 0 0 (OM.pointSize protheroLayout)),
        E.T = e.tab.coeffs → Evaluates E.ode (protheroOde lam fwd rev) →
        EmbRuns E e.tab.bhat ![] (fun t _ => Real.sin (t + Real.pi / 4) +
            (x0 - Real.sin (t0 + Real.pi / 4)) * Real.exp (lam * (t - t0))) t0 t1 δ r
          (fun e0 h => K * (e0 + e.tol) + C * h ^ q) ∧
        (x0 = Real.sin (t0 + Real.pi / 4) →
          EmbRuns E e.tab.bhat ![] (fun t _ => protheroRobinsonSolution t x0 t0) t0 t1 δ r
            fun e0 h => K * (e0 + e.tol) + C * h ^ q) := by
  obtain ⟨β, -, hβ⟩ := shipped_weights
  obtain ⟨K, hK, hE⟩ := prothero_error hq lam x0 t0 t1 β
  refine ⟨K, hK, fun e he hp => ?_⟩
  obtain ⟨C, δ, hC, hδ, hE⟩ := hE _ _ _ (emb_accurate e he hp (hβ e he))
  refine ⟨C, δ, hC, hδ, fun r fwd rev E hT hev => ⟨(hE r fwd rev E hT hev).emb _, ?_⟩⟩
  rintro rfl
  rw [prothero_study lam]
  exact (hE r fwd rev E hT hev).emb _

/-! ### Kaps' problem -/

/-- `y1' = (-(1 + 2 ε) y1 + y2²) / ε`, `y2' = y1 - y2 - y2²`. -/
noncomputable def kapsRhs (ε : ℝ) : Rhs ℝ 2 0 := fun _ y _ =>
  ![(-(1 + 2 * ε) * y 0 + y 1 ^ 2) / ε, y 0 - y 1 - y 1 ^ 2]

theorem kaps_smooth (ε : ℝ) (q : ℕ) : Smooth (kapsRhs ε) ![] q := by
  refine contDiff_pi.mpr fun x => ?_
  have h0 : ContDiff ℝ q fun z : ℝ × (Fin 2 → ℝ) => z.2 0 := by fun_prop
  have h1 : ContDiff ℝ q fun z : ℝ × (Fin 2 → ℝ) => z.2 1 := by fun_prop
  fin_cases x
  · exact ((contDiff_const.mul h0).add (h1.pow 2)).div_const ε
  · exact (h0.sub h1).sub (h1.pow 2)

theorem kaps_isSolution {ε : ℝ} (hε : ε ≠ 0) (t1 : ℝ) : IsSolution (kapsRhs ε) ![]
    (fun t => ![(kapsSolution t (1, 1) 0).1, (kapsSolution t (1, 1) 0).2]) 0 t1 := by
  intro t _
  have h := (C54_kaps_solution_partial ε 0 hε (1, 1)).mpr (.inl rfl) t
  rw [hasDerivWithinAt_pi]
  intro x
  refine HasDerivAt.hasDerivWithinAt ?_
  fin_cases x
  · exact h.1
  · exact h.2

/-- The Newton solver of the group converges: for bounded inputs and small steps the residuals of the
four equations are at most `τ`, and `y_2` is not the far solution of the quadratic equation of the second
component, which is of size `1 / (h a)`. -/
def NewtonConverges (ε τ : ℝ) (h1 : ℝ → ℝ) (a : ℝ) (newton : Newton) : Prop :=
  ∀ (R h : ℝ) (v : OM.Vectors ℝ), 0 ≤ h → h ≤ h1 R →
    |v.outputs "_auto_ivc.v0" 0| ≤ R → |v.outputs "_auto_ivc.v1" 0| ≤ R →
    |v.outputs "_auto_ivc.v2" 0| ≤ R → |v.outputs "_auto_ivc.v3" 0| ≤ R →
    let o := newton v h a
    let r := groupResidual ε h a v o
    (|r.1.y1| ≤ τ ∧ |r.1.stage| ≤ τ ∧ |r.2.y2| ≤ τ ∧ |r.2.stage| ≤ τ) ∧ |h * a * o.2.y2| ≤ 1 / 4

/-- The bounds of `y_2` and `y_1` for old values plus increments up to `U`. -/
def kapsBound2 (U : ℝ) : ℝ := 6 * U + 9
noncomputable def kapsBound1 (ε U : ℝ) : ℝ := 2 * U + 3 + kapsBound2 U / (2 * ε)

/-- Outputs of the group with small residuals that are not on the far branch are bounded. -/
theorem kaps_bounded {ε H U u1 u2 y1 y2 s1 s2 r1 r2 r3 r4 : ℝ} (hε : 0 < ε) (hU : 0 ≤ U)
    (hH : |H| ≤ 1 / 4) (hHε : |H| * (1 + 2 * ε) ≤ ε / 2) (hu1 : |u1| ≤ U) (hu2 : |u2| ≤ U)
    (e1 : u1 + H * s1 - y1 = r1) (e2 : -(1 + 2 * ε) * y1 + y2 ^ 2 - ε * s1 = r2)
    (e3 : u2 + H * s2 - y2 = r3) (e4 : y1 - y2 - y2 ^ 2 - s2 = r4)
    (h1 : |r1| ≤ 1) (h2 : |r2| ≤ 1) (h3 : |r3| ≤ 1) (h4 : |r4| ≤ 1) (hb : |H * y2| ≤ 1 / 4) :
    |y2| ≤ kapsBound2 U ∧ |y1| ≤ kapsBound1 ε U := by
  have hH0 : 0 ≤ |H| := abs_nonneg _
  have hHε' : |H| ≤ ε / 2 := le_trans (le_mul_of_one_le_right hH0 (by linarith)) hHε
  -- the first component
  have k1 : y1 * (ε + H * (1 + 2 * ε)) = ε * u1 + H * y2 * y2 - H * r2 - ε * r1 := by
    linear_combination (-ε) * e1 - H * e2
  have k1' : |y1| * (ε / 2) ≤ ε * U + 1 / 4 * |y2| + |H| + ε := by
    calc |y1| * (ε / 2) ≤ |y1| * |ε + H * (1 + 2 * ε)| := by
          refine mul_le_mul_of_nonneg_left ?_ (abs_nonneg _)
          have a1 : |H * (1 + 2 * ε)| ≤ ε / 2 := by
            rw [abs_mul, abs_of_pos (by linarith : (0:ℝ) < 1 + 2 * ε)]
            exact hHε
          have a2 := neg_abs_le (H * (1 + 2 * ε))
          have a3 := le_abs_self (ε + H * (1 + 2 * ε))
          linarith
      _ = |ε * u1 + H * y2 * y2 - H * r2 - ε * r1| := by rw [← abs_mul, k1]
      _ ≤ |ε * u1| + |H * y2 * y2| + |H * r2| + |ε * r1| := by
          refine (abs_sub _ _).trans (add_le_add ((abs_sub _ _).trans
            (add_le_add (abs_add_le _ _) le_rfl)) le_rfl)
      _ ≤ ε * U + 1 / 4 * |y2| + |H| * 1 + ε * 1 := by
          rw [abs_mul ε, abs_mul (H * y2), abs_mul H r2, abs_mul ε, abs_of_pos hε]
          gcongr
      _ = _ := by ring
  have k1'' : |y1| ≤ 2 * U + 3 + |y2| / (2 * ε) := by
    have : |y1| * (ε / 2) ≤ (2 * U + 3 + |y2| / (2 * ε)) * (ε / 2) := by
      refine k1'.trans ?_
      have : (2 * U + 3 + |y2| / (2 * ε)) * (ε / 2) = ε * U + 3 / 2 * ε + 1 / 4 * |y2| := by
        field_simp
        ring
      rw [this]
      linarith
    exact le_of_mul_le_mul_right this (by linarith)
  -- the second component
  have k2 : y2 * (1 + H + H * y2) = u2 + H * y1 - H * r4 - r3 := by
    linear_combination -e3 - H * e4
  have k2' : |y2| * (1 / 2) ≤ U + |H| * |y1| + |H| + 1 := by
    calc |y2| * (1 / 2) ≤ |y2| * |1 + H + H * y2| := by
          refine mul_le_mul_of_nonneg_left ?_ (abs_nonneg _)
          have a1 := neg_abs_le H
          have a2 := neg_abs_le (H * y2)
          have a3 := le_abs_self (1 + H + H * y2)
          linarith
      _ = |u2 + H * y1 - H * r4 - r3| := by rw [← abs_mul, k2]
      _ ≤ |u2| + |H * y1| + |H * r4| + |r3| := by
          refine (abs_sub _ _).trans (add_le_add ((abs_sub _ _).trans
            (add_le_add (abs_add_le _ _) le_rfl)) le_rfl)
      _ ≤ U + |H| * |y1| + |H| * 1 + 1 := by
          rw [abs_mul H y1, abs_mul H r4]
          gcongr
      _ = _ := by ring
  have k3 : |H| * |y1| ≤ (2 * U + 3) / 4 + |y2| / 4 := by
    calc |H| * |y1| ≤ |H| * (2 * U + 3 + |y2| / (2 * ε)) := by gcongr
      _ = |H| * (2 * U + 3) + |H| * (|y2| / (2 * ε)) := by ring
      _ ≤ 1 / 4 * (2 * U + 3) + ε / 2 * (|y2| / (2 * ε)) := by gcongr
      _ = _ := by field_simp; ring
  have hy2 : |y2| ≤ kapsBound2 U := by
    unfold kapsBound2
    linarith
  refine ⟨hy2, k1''.trans ?_⟩
  unfold kapsBound1
  gcongr

/-- The stage equation with small residuals of the group. -/
theorem kaps_stage {ε H B u1 u2 y1 y2 s1 s2 r1 r2 r3 r4 τ : ℝ} (hε : 0 < ε) (hτ : τ ≤ 1)
    (e1 : u1 + H * s1 - y1 = r1) (e2 : -(1 + 2 * ε) * y1 + y2 ^ 2 - ε * s1 = r2)
    (e3 : u2 + H * s2 - y2 = r3) (e4 : y1 - y2 - y2 ^ 2 - s2 = r4)
    (h1 : |r1| ≤ τ) (h2 : |r2| ≤ τ) (h3 : |r3| ≤ τ) (h4 : |r4| ≤ τ) (hB : |y2| ≤ B) :
    |s1 - (-(1 + 2 * ε) * (u1 + H * s1) + (u2 + H * s2) ^ 2) / ε| ≤ (3 + 2 * ε + 2 * B) / ε * τ ∧
    |s2 - ((u1 + H * s1) - (u2 + H * s2) - (u2 + H * s2) ^ 2)| ≤ (4 + 2 * B) * τ := by
  have hτ0 : 0 ≤ τ := (abs_nonneg _).trans h1
  have hr3 : |r3 * r3| ≤ τ * 1 := by
    rw [abs_mul]
    exact mul_le_mul h3 (h3.trans hτ) (abs_nonneg _) hτ0
  have hB0 : 0 ≤ B := (abs_nonneg _).trans hB
  have hyr : |2 * y2 * r3| ≤ 2 * B * τ := by
    rw [abs_mul, abs_mul, abs_two]
    gcongr
  constructor
  · have e : s1 - (-(1 + 2 * ε) * (u1 + H * s1) + (u2 + H * s2) ^ 2) / ε
        = ((1 + 2 * ε) * r1 - 2 * y2 * r3 - r3 * r3 - r2) / ε := by
      have a1 : u1 + H * s1 = y1 + r1 := by linear_combination e1
      have a2 : u2 + H * s2 = y2 + r3 := by linear_combination e3
      rw [a1, a2]
      field_simp
      linear_combination -e2
    rw [e, abs_div, abs_of_pos hε, div_mul_eq_mul_div]
    refine div_le_div_of_nonneg_right ?_ hε.le
    calc |(1 + 2 * ε) * r1 - 2 * y2 * r3 - r3 * r3 - r2|
        ≤ |(1 + 2 * ε) * r1| + |2 * y2 * r3| + |r3 * r3| + |r2| :=
          (abs_sub _ _).trans (add_le_add ((abs_sub _ _).trans
            (add_le_add (abs_sub _ _) le_rfl)) le_rfl)
      _ ≤ (1 + 2 * ε) * τ + 2 * B * τ + τ * 1 + τ := by
          refine add_le_add (add_le_add (add_le_add ?_ hyr) hr3) h2
          rw [abs_mul, abs_of_pos (by linarith : (0:ℝ) < 1 + 2 * ε)]
          gcongr
      _ = _ := by ring
  · have e : s2 - ((u1 + H * s1) - (u2 + H * s2) - (u2 + H * s2) ^ 2)
        = r3 + 2 * y2 * r3 + r3 * r3 - r4 - r1 := by
      have a1 : u1 + H * s1 = y1 + r1 := by linear_combination e1
      have a2 : u2 + H * s2 = y2 + r3 := by linear_combination e3
      rw [a1, a2]
      linear_combination -e4
    rw [e]
    calc |r3 + 2 * y2 * r3 + r3 * r3 - r4 - r1|
        ≤ |r3| + |2 * y2 * r3| + |r3 * r3| + |r4| + |r1| :=
          (abs_sub _ _).trans (add_le_add ((abs_sub _ _).trans
            (add_le_add ((abs_add_le _ _).trans (add_le_add (abs_add_le _ _) le_rfl)) le_rfl))
            le_rfl)
      _ ≤ τ + 2 * B * τ + τ * 1 + τ + τ := by linarith
      _ = _ := by ring

/-- Bounds of inputs up to `R`, of updates and of the factor of the residual. -/
noncomputable def kapsU (R : ℝ) : ℝ := 2 * max R 0
noncomputable def kapsM (ε R : ℝ) : ℝ :=
  ((1 + 2 * ε) * kapsBound1 ε (kapsU R) + kapsBound2 (kapsU R) ^ 2 + 1) / ε +
    (kapsBound1 ε (kapsU R) + kapsBound2 (kapsU R) + kapsBound2 (kapsU R) ^ 2 + 1)
noncomputable def kapsEta (ε R : ℝ) : ℝ :=
  (3 + 2 * ε + 2 * kapsBound2 (kapsU R)) / ε + (4 + 2 * kapsBound2 (kapsU R))
noncomputable def kapsH (ε : ℝ) (h1 : ℝ → ℝ) (α R : ℝ) : ℝ :=
  min (min 1 (h1 R)) (min (1 / 4) (ε / (2 * (1 + 2 * ε))) / (α + 1))

theorem kapsU_nonneg (R : ℝ) : 0 ≤ kapsU R := by
  unfold kapsU
  positivity

theorem kapsEta_pos {ε : ℝ} (hε : 0 < ε) (R : ℝ) : 0 < kapsEta ε R := by
  have := kapsU_nonneg R
  unfold kapsEta kapsBound2
  positivity

theorem kapsEta_mono {ε : ℝ} (hε : 0 < ε) : Monotone (kapsEta ε) := by
  intro R R' h
  have : kapsU R ≤ kapsU R' := by
    unfold kapsU
    gcongr
  unfold kapsEta kapsBound2
  gcongr

theorem kapsH_pos {ε α : ℝ} (hε : 0 < ε) (hα : 0 ≤ α) {h1 : ℝ → ℝ} (hh1 : ∀ R, 0 < h1 R) (R : ℝ) :
    0 < kapsH ε h1 α R := by
  have := hh1 R
  unfold kapsH
  positivity

theorem kaps_upTo {ε τ α a : ℝ} (hε : 0 < ε) (hτ : τ ≤ 1) (hα : |a| ≤ α) {h1 : ℝ → ℝ}
    {newton : Newton} {fwd rev} (hN : NewtonConverges ε τ h1 a newton)
    {ode : ODE ℝ 2 0 0 (OM.pointSize kapsLayout)} (hE : Evaluates ode (kapsOde newton fwd rev)) :
    SolvesUpTo (kapsM ε) (kapsH ε h1 α) (fun R => kapsEta ε R * τ) ode (kapsRhs ε) ![] a := by
  intro R h z h0 hle _ g1 g2 _
  obtain ⟨v0, e⟩ := hE z h a
  obtain ⟨v, v1, v2, v3, v4, hup⟩ := kapsOde_update newton fwd rev v0 z h a
  rw [e, hup]
  have hα0 : 0 ≤ α := (abs_nonneg _).trans hα
  have hR : 0 ≤ R := (norm_nonneg _).trans g1
  have hh1 : h ≤ 1 := hle.trans ((min_le_left _ _).trans (min_le_left _ _))
  have hh2 : h ≤ h1 R := hle.trans ((min_le_left _ _).trans (min_le_right _ _))
  have hh3 : h * (α + 1) ≤ min (1 / 4) (ε / (2 * (1 + 2 * ε))) := by
    rw [← le_div_iff₀ (by linarith)]
    exact hle.trans (min_le_right _ _)
  have hHα : |h * a| ≤ h * (α + 1) := by
    rw [abs_mul, abs_of_nonneg h0]
    exact mul_le_mul_of_nonneg_left (by linarith) h0
  have hH : |h * a| ≤ 1 / 4 := hHα.trans (hh3.trans (min_le_left _ _))
  have hHε : |h * a| * (1 + 2 * ε) ≤ ε / 2 := by
    have h4 := hHα.trans (hh3.trans (min_le_right _ _))
    have hp : 0 < 1 + 2 * ε := by linarith
    calc |h * a| * (1 + 2 * ε) ≤ ε / (2 * (1 + 2 * ε)) * (1 + 2 * ε) := by gcongr
      _ = ε / 2 := by field_simp
  have b0 := (norm_le_pi_norm z.stepInput 0).trans g1
  have b1 := (norm_le_pi_norm z.stepInput 1).trans g1
  have b2 := (norm_le_pi_norm z.stageInput 0).trans g2
  have b3 := (norm_le_pi_norm z.stageInput 1).trans g2
  rw [Real.norm_eq_abs] at b0 b1 b2 b3
  have hb : ∀ x y : ℝ, |x| ≤ R → |y| ≤ R → |x + h * y| ≤ kapsU R := by
    intro x y hx hy
    refine (abs_add_le _ _).trans ?_
    rw [abs_mul, abs_of_nonneg h0]
    have : h * |y| ≤ 1 * R := mul_le_mul hh1 hy (abs_nonneg _) zero_le_one
    unfold kapsU
    rw [max_eq_left hR]
    linarith
  obtain ⟨⟨n1, n2, n3, n4⟩, n5⟩ := hN R h v h0 hh2 (by rw [v1]; exact b0) (by rw [v2]; exact b2)
    (by rw [v3]; exact b1) (by rw [v4]; exact b3)
  rw [groupResidual_eq, v1, v2] at n1 n2
  rw [groupResidual_eq, v3, v4] at n3 n4
  generalize newton v h a = w at *
  obtain ⟨⟨y1, s1⟩, ⟨y2, s2⟩⟩ := w
  simp only [residual1, residual2] at n1 n2 n3 n4 n5
  simp only
  set u1 := z.stepInput 0 + h * z.stageInput 0 with hu1
  set u2 := z.stepInput 1 + h * z.stageInput 1 with hu2
  have B1 : |u1| ≤ kapsU R := hb _ _ b0 b2
  have B2 : |u2| ≤ kapsU R := hb _ _ b1 b3
  obtain ⟨k2, k1⟩ := kaps_bounded hε (kapsU_nonneg R) hH hHε B1 B2 rfl rfl rfl rfl (n1.trans hτ)
    (n2.trans hτ) (n3.trans hτ) (n4.trans hτ) n5
  obtain ⟨k3, k4⟩ := kaps_stage hε hτ rfl rfl rfl rfl n1 n2 n3 n4 k2
  have hτ0 : 0 ≤ τ := (abs_nonneg _).trans n1
  have hB2 : 0 ≤ kapsBound2 (kapsU R) := (abs_nonneg _).trans k2
  have hB1 : 0 ≤ kapsBound1 ε (kapsU R) := (abs_nonneg _).trans k1
  have hy2 : y2 ^ 2 ≤ kapsBound2 (kapsU R) ^ 2 := by
    rw [← sq_abs]
    gcongr
  have hM1 : 0 ≤ ((1 + 2 * ε) * kapsBound1 ε (kapsU R) + kapsBound2 (kapsU R) ^ 2 + 1) / ε := by
    positivity
  have hM2 : 0 ≤ kapsBound1 ε (kapsU R) + kapsBound2 (kapsU R) + kapsBound2 (kapsU R) ^ 2 + 1 := by
    positivity
  have hs1 : |s1| ≤ ((1 + 2 * ε) * kapsBound1 ε (kapsU R) + kapsBound2 (kapsU R) ^ 2 + 1) / ε := by
    rw [le_div_iff₀ hε]
    have e : s1 * ε = -((1 + 2 * ε) * y1) + y2 ^ 2 - (-(1 + 2 * ε) * y1 + y2 ^ 2 - ε * s1) := by
      ring
    calc |s1| * ε = |s1 * ε| := by rw [abs_mul, abs_of_pos hε]
      _ ≤ |-((1 + 2 * ε) * y1)| + |y2 ^ 2| + |-(1 + 2 * ε) * y1 + y2 ^ 2 - ε * s1| := by
          rw [e]
          exact (abs_sub _ _).trans (add_le_add (abs_add_le _ _) le_rfl)
      _ ≤ (1 + 2 * ε) * kapsBound1 ε (kapsU R) + kapsBound2 (kapsU R) ^ 2 + 1 := by
          refine add_le_add (add_le_add ?_ ?_) (n2.trans hτ)
          · rw [abs_neg, abs_mul, abs_of_pos (by linarith : (0:ℝ) < 1 + 2 * ε)]
            gcongr
          · rw [abs_of_nonneg (sq_nonneg _)]
            exact hy2
  have hs2 : |s2| ≤ kapsBound1 ε (kapsU R) + kapsBound2 (kapsU R) + kapsBound2 (kapsU R) ^ 2 + 1 := by
    have e : s2 = y1 - y2 - y2 ^ 2 - (y1 - y2 - y2 ^ 2 - s2) := by ring
    calc |s2| ≤ |y1| + |y2| + |y2 ^ 2| + |y1 - y2 - y2 ^ 2 - s2| := by
          conv_lhs => rw [e]
          exact (abs_sub _ _).trans (add_le_add ((abs_sub _ _).trans
            (add_le_add (abs_sub _ _) le_rfl)) le_rfl)
      _ ≤ _ := by
          refine add_le_add (add_le_add (add_le_add k1 k2) ?_) (n4.trans hτ)
          rw [abs_of_nonneg (sq_nonneg _)]
          exact hy2
  have hη1 : 0 ≤ (3 + 2 * ε + 2 * kapsBound2 (kapsU R)) / ε * τ := by positivity
  have hη2 : 0 ≤ (4 + 2 * kapsBound2 (kapsU R)) * τ := by positivity
  constructor
  · refine (pi_norm_le_iff_of_nonneg ?_).mpr fun x => ?_
    · unfold kapsM
      linarith
    · unfold kapsM
      fin_cases x
      · exact hs1.trans (by linarith)
      · exact hs2.trans (by linarith)
  · have e : ∀ x, z.stepInput x + h * z.stageInput x + h * a * ![s1, s2] x
        = ![u1 + h * a * s1, u2 + h * a * s2] x := by
      intro x
      fin_cases x <;> rfl
    refine (pi_norm_le_iff_of_nonneg ?_).mpr fun x => ?_
    · unfold kapsEta
      linarith
    · unfold kapsEta
      simp only [e]
      fin_cases x
      · refine le_trans k3 ?_
        linarith
      · refine le_trans k4 ?_
        linarith

theorem kaps_error {q : ℕ} (hq : 1 ≤ q) {ε : ℝ} (hε : 0 < ε) (t1 β : ℝ) : ∃ K r : ℝ, 0 < K ∧
    0 < r ∧ ∀ (s : ℕ) (T : Coeffs ℝ s) (tol : ℝ), Accurate T β tol q → ∀ h1 : ℝ → ℝ,
      (∀ R, 0 < h1 R) → ∃ c C δ : ℝ, 0 < c ∧ 0 < C ∧ 0 < δ ∧
      ∀ (τ : ℝ) (newton : Newton) (fwd rev) (E : Env s 2 0 0 (OM.pointSize kapsLayout)), 0 ≤ τ →
        E.T = T → (∀ i, NewtonConverges ε τ h1 (T.A i i) newton) →
        Evaluates E.ode (kapsOde newton fwd rev) →
        StepError E ![] (fun t => ![(kapsSolution t (1, 1) 0).1, (kapsSolution t (1, 1) 0).2])
          0 t1 δ (r - tol - c * τ) fun e0 H => K * (e0 + tol + c * τ) + C * H ^ q := by
  obtain ⟨K, r, hK, hr, hE⟩ := upTo_error hq (kaps_smooth ε q) (kaps_isSolution hε.ne' t1) β
  refine ⟨K, r, hK, hr, fun s T tol hA h1 hh1 => ?_⟩
  set α := ∑ i, |T.A i i| with hα
  have hα0 : 0 ≤ α := Finset.sum_nonneg fun _ _ => abs_nonneg _
  obtain ⟨R, C, δ, hC, hδ, hE⟩ := hE s T tol hA (kapsM ε) (kapsH ε h1 α) (kapsH_pos hε hα0 hh1)
  refine ⟨max (kapsEta ε R) (r + 1), C, δ, lt_max_of_lt_left (kapsEta_pos hε R), hC, hδ,
    fun τ newton fwd rev E hτ hT hN hev => ?_⟩
  by_cases h : τ ≤ 1
  · have := hE _ _ E (fun R => kapsEta ε R * τ) hT
      (fun _ _ hR => mul_le_mul_of_nonneg_right (kapsEta_mono hε hR) hτ)
      (mul_nonneg (kapsEta_pos hε R).le hτ) fun i => kaps_upTo hε h
        (Finset.single_le_sum (f := fun i => |T.A i i|) (fun _ _ => abs_nonneg _)
          (Finset.mem_univ i)) (hN i) hev
    have hle : kapsEta ε R * τ ≤ max (kapsEta ε R) (r + 1) * τ :=
      mul_le_mul_of_nonneg_right (le_max_left _ _) hτ
    intro H t' u u' hs a1 a2 a3 a4 a5 a6
    refine (this H t' u u' hs a1 a2 a3 a4 a5 (a6.trans (by linarith))).trans ?_
    have := mul_le_mul_of_nonneg_left hle hK.le
    linarith
  · intro H t' u u' hs a1 a2 a3 a4 a5 a6
    exfalso
    have b1 : r + 1 ≤ max (kapsEta ε R) (r + 1) * τ := by
      calc r + 1 ≤ max (kapsEta ε R) (r + 1) * 1 := by rw [mul_one]; exact le_max_right _ _
        _ ≤ _ := by
          refine mul_le_mul_of_nonneg_left (not_le.mp h).le ?_
          exact le_max_of_le_right (by linarith)
    have b2 := norm_nonneg (u - ![(kapsSolution 0 (1, 1) 0).1, (kapsSolution 0 (1, 1) 0).2])
    have b3 := hA.nonneg
    linarith

/-- C87, Kaps' problem with any `ε > 0` and the plain shipped tableaux: if the Newton solver of the
group ends with residuals of at most `τ`, runs from initial values near `(1, 1)` at time 0 converge to
`kaps_solution` with the order of the scheme, up to the accuracy of its coefficients and a multiple of
`τ`. The constants do not depend on `τ` and the values the solver ends with. -/
theorem C87_kaps {q : ℕ} (hq : 1 ≤ q) {ε : ℝ} (hε : 0 < ε) (t1 : ℝ) : ∃ K r : ℝ, 0 < K ∧
    0 < r ∧ ∀ e ∈ plainShipped, e.tab.p = some q → ∀ h1 : ℝ → ℝ, (∀ R, 0 < h1 R) →
      ∃ c C δ : ℝ, 0 < c ∧ 0 < C ∧ 0 < δ ∧
      ∀ (τ : ℝ) (newton : Newton) (fwd rev)
        (E : Env e.tab.stages 2 0 0 (OM.pointSize kapsLayout)), 0 ≤ τ → E.T = e.tab.coeffs →
        (∀ i, NewtonConverges ε τ h1 (e.tab.A i i) newton) →
        Evaluates E.ode (kapsOde newton fwd rev) →
        PlainRuns E ![] (fun t => ![(kapsSolution t (1, 1) 0).1, (kapsSolution t (1, 1) 0).2])
          0 t1 δ (r - e.tol - c * τ) fun e0 h => K * (e0 + e.tol + c * τ) + C * h ^ q := by
  obtain ⟨β, hβ, -⟩ := shipped_weights
  obtain ⟨K, r, hK, hr, hE⟩ := kaps_error hq hε t1 β
  refine ⟨K, r, hK, hr, fun e he hp h1 hh1 => ?_⟩
  obtain ⟨c, C, δ, hc, hC, hδ, hE⟩ := hE _ _ _ (plain_accurate e he hp (hβ e he)) h1 hh1
  exact ⟨c, C, δ, hc, hC, hδ, fun τ newton fwd rev E hτ hT hN hev =>
    (hE τ newton fwd rev E hτ hT hN hev).plain⟩

/-- C87, Kaps' problem with the shipped embedded tableaux. -/
theorem C87_kaps_embedded {q : ℕ} (hq : 1 ≤ q) {ε : ℝ} (hε : 0 < ε) (t1 : ℝ) : ∃ K r : ℝ, 0 < K ∧
    0 < r ∧ ∀ e ∈ embShipped, e.tab.p = some q → ∀ h1 : ℝ → ℝ, (∀ R, 0 < h1 R) →
      ∃ c C δ : ℝ, 0 < c ∧ 0 < C ∧ 0 < δ ∧
      ∀ (τ : ℝ) (newton : Newton) (fwd rev)
        (E : Env e.tab.stages 2 0 0 (OM.pointSize kapsLayout)), 0 ≤ τ → E.T = e.tab.coeffs →
        (∀ i, NewtonConverges ε τ h1 (e.tab.A i i) newton) →
        Evaluates E.ode (kapsOde newton fwd rev) →
        EmbRuns E e.tab.bhat ![]
          (fun t => ![(kapsSolution t (1, 1) 0).1, (kapsSolution t (1, 1) 0).2])
          0 t1 δ (r - e.tol - c * τ) fun e0 h => K * (e0 + e.tol + c * τ) + C * h ^ q := by
  obtain ⟨β, -, hβ⟩ := shipped_weights
  obtain ⟨K, r, hK, hr, hE⟩ := kaps_error hq hε t1 β
  refine ⟨K, r, hK, hr, fun e he hp h1 hh1 => ?_⟩
  obtain ⟨c, C, δ, hc, hC, hδ, hE⟩ := hE _ _ _ (emb_accurate e he hp (hβ e he)) h1 hh1
  exact ⟨c, C, δ, hc, hC, hδ, fun τ newton fwd rev E hτ hT hN hev =>
    (hE τ newton fwd rev E hτ hT hN hev).emb _⟩

/-! ### Examples -/

namespace TestProblemsEx

/-- The exact solution of the stage equations of Kaps' problem. -/
noncomputable def exactKaps (ε H u1 u2 : ℝ) : Out1 ℝ × Out2 ℝ :=
  let D := ε + H * (1 + 2 * ε)
  let A := H * ε * (1 + 2 * H) / D
  let C := u2 + H * ε * u1 / D
  let y2 := 2 * C / (1 + H + √((1 + H) ^ 2 + 4 * A * C))
  let y1 := (ε * u1 + H * y2 ^ 2) / D
  (⟨y1, (-(1 + 2 * ε) * y1 + y2 ^ 2) / ε⟩, ⟨y2, y1 - y2 - y2 ^ 2⟩)

noncomputable def exactNewton (ε : ℝ) : Newton := fun v h a =>
  exactKaps ε (h * a) (v.outputs "_auto_ivc.v0" 0 + h * v.outputs "_auto_ivc.v1" 0)
    (v.outputs "_auto_ivc.v2" 0 + h * v.outputs "_auto_ivc.v3" 0)

/-- Such a solver exists, for all coefficients in `[0, α]`, and with `τ = 0`. -/
theorem exactNewton_converges {ε α a : ℝ} (hε : 0 < ε) (h0a : 0 ≤ a) (ha : a ≤ α) :
    NewtonConverges ε 0 (fun R => 1 / (32 * ((1 + |R|) * (1 + α)))) a (exactNewton ε) := by
  intro R h v h0 hle b1 b2 b3 b4
  have hR : 0 ≤ R := (abs_nonneg _).trans b1
  dsimp only at hle
  rw [abs_of_nonneg hR] at hle
  have hα : 0 ≤ α := h0a.trans ha
  simp only [groupResidual_eq, exactNewton, exactKaps, residual1, residual2]
  generalize v.outputs "_auto_ivc.v0" 0 = v1 at *
  generalize v.outputs "_auto_ivc.v1" 0 = v2 at *
  generalize v.outputs "_auto_ivc.v2" 0 = v3 at *
  generalize v.outputs "_auto_ivc.v3" 0 = v4 at *
  have hpos : 0 < 32 * ((1 + R) * (1 + α)) := by positivity
  have hprod : h * ((1 + R) * (1 + α)) ≤ 1 / 32 := by
    rw [le_div_iff₀ hpos] at hle
    linarith
  have hh : h ≤ 1 / 32 := by
    have : h * 1 ≤ h * ((1 + R) * (1 + α)) := by
      refine mul_le_mul_of_nonneg_left ?_ h0
      nlinarith [mul_nonneg hR hα]
    linarith
  have hHR : h * a * R ≤ 1 / 32 := by
    have : h * a * R ≤ h * ((1 + R) * (1 + α)) := by
      rw [mul_assoc]
      refine mul_le_mul_of_nonneg_left ?_ h0
      nlinarith [mul_le_mul_of_nonneg_right ha hR, mul_nonneg hR hα]
    linarith
  have hH1 : h * a ≤ 1 / 32 := by
    have : h * a ≤ h * ((1 + R) * (1 + α)) := by
      refine mul_le_mul_of_nonneg_left ?_ h0
      nlinarith [mul_nonneg hR hα]
    linarith
  have hH0 : 0 ≤ h * a := mul_nonneg h0 h0a
  set H := h * a with hH
  have hb : ∀ x y : ℝ, |x| ≤ R → |y| ≤ R → |x + h * y| ≤ 2 * R := by
    intro x y hx hy
    refine (abs_add_le _ _).trans ?_
    rw [abs_mul, abs_of_nonneg h0]
    have : h * |y| ≤ 1 * R := mul_le_mul (by linarith) hy (abs_nonneg _) zero_le_one
    linarith
  have B1 := hb _ _ b1 b2
  have B2 := hb _ _ b3 b4
  set u1 := v1 + h * v2 with hu1
  set u2 := v3 + h * v4 with hu2
  set D := ε + H * (1 + 2 * ε) with hD
  have hDε : ε ≤ D := by
    have : 0 ≤ H * (1 + 2 * ε) := by positivity
    linarith
  have hD0 : 0 < D := by linarith
  set A := H * ε * (1 + 2 * H) / D with hA
  set C := u2 + H * ε * u1 / D with hC
  have hA0 : 0 ≤ A := by positivity
  have hAH : A ≤ H := by
    rw [hA, div_le_iff₀ hD0, mul_assoc]
    refine mul_le_mul_of_nonneg_left ?_ hH0
    rw [hD]
    linarith
  have hCb : |C| ≤ 4 * R := by
    have : |H * ε * u1 / D| ≤ 2 * R := by
      rw [abs_div, abs_of_pos hD0, div_le_iff₀ hD0, abs_mul, abs_of_nonneg (by positivity)]
      calc H * ε * |u1| ≤ 1 * D * (2 * R) := by
            refine mul_le_mul (mul_le_mul (by linarith) hDε hε.le zero_le_one) B1 (abs_nonneg _) ?_
            positivity
        _ = 2 * R * D := by ring
    refine (abs_add_le _ _).trans ?_
    linarith
  have hrad : 0 ≤ (1 + H) ^ 2 + 4 * A * C := by
    have h1 : |A * C| ≤ H * (4 * R) := by
      rw [abs_mul, abs_of_nonneg hA0]
      exact mul_le_mul hAH hCb (abs_nonneg _) hH0
    have h2 := neg_abs_le (A * C)
    nlinarith
  set W := √((1 + H) ^ 2 + 4 * A * C) with hW
  have hW0 : 0 ≤ W := Real.sqrt_nonneg _
  have hW2 : W ^ 2 = (1 + H) ^ 2 + 4 * A * C := Real.sq_sqrt hrad
  have hden : 0 < 1 + H + W := by linarith
  set y2 := 2 * C / (1 + H + W) with hy2
  have hy : y2 * (1 + H + W) = 2 * C := by
    rw [hy2]
    field_simp
  have hquad : A * y2 ^ 2 + (1 + H) * y2 - C = 0 := by
    have : (A * y2 ^ 2 + (1 + H) * y2 - C) * (1 + H + W) ^ 2 = 0 := by
      have e : A * (y2 * (1 + H + W)) ^ 2 + (1 + H) * (y2 * (1 + H + W)) * (1 + H + W)
          - C * (1 + H + W) ^ 2 = 0 := by
        rw [hy]
        linear_combination (-C) * hW2
      linear_combination e
    exact (mul_eq_zero.mp this).resolve_right (by positivity)
  have hyb : |y2| ≤ 8 * R := by
    rw [hy2, abs_div, abs_of_pos hden, div_le_iff₀ hden, abs_mul, abs_two]
    nlinarith [abs_nonneg C]
  have hAD : A * D = H * ε * (1 + 2 * H) := by
    rw [hA]
    field_simp
  have hCD : C * D = u2 * D + H * ε * u1 := by
    rw [hC]
    field_simp
  have key : u2 + H * ((ε * u1 + H * y2 ^ 2) / D - y2 - y2 ^ 2) - y2 = 0 := by
    have : (u2 + H * ((ε * u1 + H * y2 ^ 2) / D - y2 - y2 ^ 2) - y2) * D = 0 := by
      have e : (u2 + H * ((ε * u1 + H * y2 ^ 2) / D - y2 - y2 ^ 2) - y2) * D
          = u2 * D + H * (ε * u1 + H * y2 ^ 2) - H * (y2 + y2 ^ 2) * D - y2 * D := by
        field_simp
        ring
      rw [e]
      linear_combination (-D) * hquad - hCD + y2 ^ 2 * hAD - y2 ^ 2 * H * hD
    exact (mul_eq_zero.mp this).resolve_right hD0.ne'
  have key1 : u1 + H * ((-(1 + 2 * ε) * ((ε * u1 + H * y2 ^ 2) / D) + y2 ^ 2) / ε)
      - (ε * u1 + H * y2 ^ 2) / D = 0 := by
    rw [hD]
    rw [hD] at hD0
    field_simp
    ring
  refine ⟨⟨?_, ?_, ?_, ?_⟩, ?_⟩
  · rw [key1, abs_zero]
  · have : -(1 + 2 * ε) * ((ε * u1 + H * y2 ^ 2) / D) + y2 ^ 2
        - ε * ((-(1 + 2 * ε) * ((ε * u1 + H * y2 ^ 2) / D) + y2 ^ 2) / ε) = 0 := by
      field_simp
      ring
    rw [this, abs_zero]
  · rw [key, abs_zero]
  · simp
  · rw [abs_mul, abs_of_nonneg hH0]
    calc H * |y2| ≤ H * (8 * R) := by gcongr
      _ ≤ 1 / 4 := by linarith

noncomputable def midpoint : PlainEntry := ⟨implicitMidpoint.map (Rat.castHom ℝ), 0⟩

def noSolve : OM.Vectors ℝ → ℝ → ℝ → OM.Vec ℝ → OM.Vec ℝ := fun _ _ _ x => x

noncomputable def kapsMidpoint (ε : ℝ) : Env midpoint.tab.stages 2 0 0 (OM.pointSize kapsLayout) where
  T := midpoint.tab.coeffs
  ode := kapsOde (exactNewton ε) noSolve noSolve ⟨fun _ _ => 0, fun _ _ => 0⟩
  fails _ _ := none
  nonfinite _ _ := .error .backend
  measure _ _ := fin 0

/-- Kaps' problem with the implicit midpoint rule and a solver for the stages converges with order
two. -/
example (ch : Choice) : ∃ C δ : ℝ, 0 < C ∧ 0 < δ ∧ ∀ (dt : ℝ) (N : ℕ), 0 ≤ dt → dt < δ →
    N * dt ≤ 1 → ∀ w, ∃ w' v, compute (rkBackend (kapsMidpoint 0.01))
      { adaptive := false, crit := .steps N, initialStep := fin dt }
      (ch.ck (rkBackend (kapsMidpoint 0.01))
        { adaptive := false, crit := .steps N, initialStep := fin dt })
      (N + 1) w ⟨0, ![1, 1], ![]⟩ = (w', .ok v) ∧
      ‖v.values - ![Real.exp (-(2 * v.time)), Real.exp (-v.time)]‖ ≤ C * dt ^ 2 := by
  obtain ⟨K, r, -, hr, hE⟩ := C87_kaps (q := 2) (by norm_num) (ε := 0.01) (by norm_num) 1
  obtain ⟨c, C, δ, -, hC, hδ, hE⟩ := hE midpoint
    (List.mem_cons_of_mem _ (List.mem_cons_of_mem _ List.mem_cons_self)) rfl
    (fun R => 1 / (32 * ((1 + |R|) * (1 + 1 / 2)))) (fun R => by positivity)
  obtain ⟨hR, -, -⟩ := hE 0 (exactNewton 0.01) noSolve noSolve (kapsMidpoint 0.01) le_rfl rfl
    (fun i => by
      have e : midpoint.tab.A i i = 1 / 2 := by
        have : ∀ i, implicitMidpoint.A i i = 1 / 2 := by decide +kernel
        exact (congrArg (Rat.castHom ℝ) (this i)).trans (by norm_num)
      rw [e]
      exact exactNewton_converges (by norm_num) (by norm_num) le_rfl)
    (fun z h a => ⟨_, rfl⟩)
  refine ⟨C, δ, hC, hδ, fun dt N h0 hdt hN w => ?_⟩
  obtain ⟨w', v, hv⟩ := Integrator.Ex.compute_ok (kapsMidpoint 0.01) (fun _ _ => rfl)
    { adaptive := false, crit := .steps N, initialStep := fin dt } dt N rfl rfl rfl (by simp) ch w
    ⟨0, ![1, 1], ![]⟩ (N + 1) (Nat.lt_succ_self N)
  have e3 : ((![1, 1] : Fin 2 → ℝ) - ![(kapsSolution 0 (1, 1) 0).1, (kapsSolution 0 (1, 1) 0).2])
      = 0 := by
    funext x
    fin_cases x <;> simp [kapsSolution]
  obtain ⟨-, e2⟩ := hR _ dt N (N + 1) ch w w' _ v rfl rfl rfl h0 hdt rfl rfl
    (by rw [e3]; simpa [midpoint] using hr.le) (by simpa using hN) hv
  refine ⟨w', v, hv, ?_⟩
  rw [e3] at e2
  simpa [midpoint, kapsSolution] using e2

noncomputable def rk4 : PlainEntry := ⟨rungeKuttaFour.map (Rat.castHom ℝ), 0⟩

noncomputable def linearRk4 : Env rk4.tab.stages 1 0 0 (OM.pointSize linearLayout) where
  T := rk4.tab.coeffs
  ode := linearOde noSolve noSolve ⟨fun _ _ => 0, fun _ _ => 0⟩
  fails _ _ := none
  nonfinite _ _ := .error .backend
  measure _ _ := fin 0

/-- The linear problem with the classical scheme. -/
example (ch : Choice) (y0 t0 : ℝ) : ∃ C δ : ℝ, 0 < C ∧ 0 < δ ∧ ∀ (dt : ℝ) (N : ℕ), 0 ≤ dt → dt < δ →
    N * dt ≤ 1 → ∀ w, ∃ w' v, compute (rkBackend linearRk4)
      { adaptive := false, crit := .steps N, initialStep := fin dt }
      (ch.ck (rkBackend linearRk4) { adaptive := false, crit := .steps N, initialStep := fin dt })
      (N + 1) w ⟨t0, fun _ => y0, ![]⟩ = (w', .ok v) ∧
      ‖v.values - fun _ => y0 / Real.exp (-t0) * Real.exp (-v.time)‖ ≤ C * dt ^ 4 := by
  obtain ⟨K, -, hE⟩ := C87_linear (q := 4) (by norm_num) y0 t0 (t0 + 1)
  obtain ⟨C, δ, hC, hδ, hE⟩ := hE rk4 (List.mem_cons_of_mem _ (List.mem_cons_of_mem _
    (List.mem_cons_of_mem _ (List.mem_cons_of_mem _ List.mem_cons_self)))) rfl
  obtain ⟨hR, -, -⟩ := hE 1 noSolve noSolve linearRk4 rfl (fun z h a => ⟨_, rfl⟩)
  refine ⟨C, δ, hC, hδ, fun dt N h0 hdt hN w => ?_⟩
  obtain ⟨w', v, hv⟩ := Integrator.Ex.compute_ok linearRk4 (fun _ _ => rfl)
    { adaptive := false, crit := .steps N, initialStep := fin dt } dt N rfl rfl rfl (by simp) ch w
    ⟨t0, fun _ => y0, ![]⟩ (N + 1) (Nat.lt_succ_self N)
  have e3 : ((fun _ => y0 : Fin 1 → ℝ) - fun _ => simpleLinearSolution t0 y0 t0) = 0 := by
    funext x
    simp [simpleLinearSolution]
  obtain ⟨-, e2⟩ := hR _ dt N (N + 1) ch w w' _ v rfl rfl rfl h0 hdt rfl rfl
    (by rw [e3]; simp) (by simpa using hN) hv
  refine ⟨w', v, hv, ?_⟩
  rw [e3] at e2
  simpa [rk4, simpleLinearSolution] using e2

end TestProblemsEx

end Verif.Props
