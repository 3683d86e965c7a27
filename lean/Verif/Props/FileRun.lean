/-
C41 for whole runs: the integrator with the HDF5 callback.
-/
import Verif.File.Callback
import Verif.Props.FileWriter
import Verif.Props.Integrator

namespace Verif.Props

open Verif.Metadata Verif.File Verif.Integrator Verif.Control Verif.RK

variable {D : Type} {s n m o l : ℕ}

/-- State number `k` of a run. -/
def nth (x : IState D) (states : List (IState D)) (k : ℕ) : IState D := (x :: states).getD k x

/-- The file after the calls of a chain of steps, for any backend whose steps begin with the shift of
the state. -/
theorem run_file {I O : Type} {B : Backend D I O} {opt : Options} (core : D → RKState ℝ s n m o l)
    (hshift : ∀ d h d', B.step d h = .ok d' → (core (B.set d d')).startTime = (core d).finalTime ∧
      (core (B.set d d')).startState = (core d).finalState)
    {P : Problem} {ranks : ℕ} {req ind : List String} {ms : List Meta}
    (hs : setup P ranks req ind = .ok ms) (hranks : 0 < ranks) {names : List String}
    {vars : String → Var} (hnames : (ms.headD {}).quantities.map Quantity.name = names)
    (hnd : names.Nodup) (ht : "time" ∉ names) (he : "error_measure" ∉ names)
    (hord : ∀ nm ∈ names, Ordinary P nm (vars nm))
    (hpl : ∀ nm ∈ names, Whole ranks (vars nm) ∨ ∃ ns rest, Rows ranks (vars nm) ns rest)
    {period : ℕ} (hper : 0 < period) {embedded : Bool} {glob : (Fin n → ℝ) → String → ℕ → ℝ}
    {views : IState D → List Snap} (hv : Views core ms embedded glob views)
    {x : IState D} {states : List (IState D)} (hchain : List.IsChain (Accepted B opt) (x :: states))
    (hne : states ≠ []) (old : Option File) :
    ∃ f, runFile period ms embedded 1 old (states.map views) = .ok (some f) ∧
      FileHolds names (fun nm => (vars nm).globalShape) f
        (0 :: (List.range' 1 states.length).filter fun k => period ∣ k)
        (fun k => (core (nth x states k).disc).finalTime)
        (fun k => glob (core (nth x states k).disc).finalState)
        (fun k => if embedded then
          some (if k = 0 then 0 else toReal (nth x states k).errHist.1) else none) := by
  obtain ⟨f, h1, h2⟩ := C41_file_partial hs hranks hnames hnd ht he hord hpl hper
    (embedded := embedded)
    (t := fun k => (core (nth x states k).disc).finalTime)
    (G := fun k => glob (core (nth x states k).disc).finalState)
    (err := fun k => if k = 0 then 0 else toReal (nth x states k).errHist.1) (by simp)
    (states.map views) (by simpa using hne)
    (by
      intro i a hi
      rw [List.getElem?_map, Option.map_eq_some_iff] at hi
      obtain ⟨y, hy, rfl⟩ := hi
      have hn : nth x states (i + 1) = y := by
        simp [nth, List.getD_eq_getElem?_getD, hy]
      have h0 : nth x states 0 = x := rfl
      have first : i + 1 = 1 → (core y.disc).startTime = (core x.disc).finalTime ∧
          (core y.disc).startState = (core x.disc).finalState := by
        intro hi
        have : i = 0 := by omega
        subst this
        cases states with
        | nil => simp at hy
        | cons z states =>
          simp only [List.getElem?_cons_zero, Option.some.injEq] at hy
          subst hy
          rw [List.isChain_cons_cons] at hchain
          obtain ⟨st, d, g1, g2, -⟩ := hchain.1.ex
          rw [g2]
          exact hshift _ _ _ g1
      refine ⟨?_, ?_, ?_, ?_, ?_⟩
      · intro hi b hb
        rw [hv.startTime y b hb, (first hi).1, h0]
      · intro hi
        have := hv.startState y
        rw [(first hi).2] at this
        exact this
      · intro b hb
        rw [hv.finalTime y b hb]
        exact congrArg (fun z : IState D => (core z.disc).finalTime) hn.symm
      · have := hv.finalState y
        rw [← hn] at this ⊢
        exact this
      · intro b hb
        rw [hv.err y b hb]
        simp [hn]) old
  refine ⟨f, h1, ?_⟩
  simpa using h2

/-- `C40_compute_callbacks` with the number of steps. -/
theorem compute_calls {I O : Type} {B : Backend D I O} {opt : Options} {fuel : ℕ} {ch : Choice}
    {w w' : World D (ch.Data D)} {i : I} {v : O}
    (h : compute B opt (ch.ck B opt) fuel w i = (w', .ok v)) :
    ∃ states : List (IState D),
      List.IsChain (Accepted B opt) (startOf B opt w.ctrl w.tis.disc i :: states) ∧
      w'.tis = states.getLastD (startOf B opt w.ctrl w.tis.disc i) ∧
      w'.log = w.log ++ (List.zip (List.range states.length)
          (List.zip (startOf B opt w.ctrl w.tis.disc i :: states) states)).flatMap
        (fun q =>
          (List.range opt.computeCallbacks).map (fun j => .before .compute j (q.1 + 1) q.2.1) ++
          (List.range opt.computeCallbacks).map (fun j => .after .compute j (q.1 + 1) q.2.2)) ∧
      ∀ N, opt.crit = .steps N → states.length = N := by
  obtain ⟨tr, htr, -, -, ht, hlog, -⟩ := compute_run h
  refine ⟨tr.map Prod.snd, run_chain htr, ?_, ?_, ?_⟩
  · rw [ht]; exact lastOf_getLastD ..
  · rw [hlog, runLog_flat, List.length_map]
    simp
  · intro N hc
    have := htr.length_steps hc (Nat.zero_le _)
    rw [List.length_map]
    omega

/-- C41 for a run of the integrator with an embedded scheme and the HDF5 callback as number `j` of its
list: in `compute` the calls of the callbacks leave a file with the groups 0 and all multiples of the
period up to the number of steps (or the old file, without steps), whatever was there before. Group 0
holds initial time and values of the inputs and error zero, group `k` the time, values and error of
the state after step `k`.

Missing: what is missing in `C41_file_partial`; `hfin` says that a step with a size that is not a
number does not do the shift of the state in another way. -/
theorem C41_compute_file_partial {E : Env s n m o l} {bhat : Fin s → ℝ} {opt : Options} {fuel : ℕ}
    {ch : Choice} {w w' : World (EmbRKState ℝ s n m o l) (ch.Data (EmbRKState ℝ s n m o l))}
    {i : StartingValues ℝ n m} {v : Outputs n}
    (h : compute (embBackend E bhat) opt (ch.ck (embBackend E bhat) opt) fuel w i = (w', .ok v))
    (hfin : ∀ a st d, E.nonfinite a st = .ok d →
      d.startTime = a.initialTime ∧ d.startState = a.initialValues)
    {P : Problem} {ranks : ℕ} {req ind : List String} {ms : List Meta}
    (hs : setup P ranks req ind = .ok ms) (hranks : 0 < ranks) {names : List String}
    {vars : String → Var} (hnames : (ms.headD {}).quantities.map Quantity.name = names)
    (hnd : names.Nodup) (ht : "time" ∉ names) (he : "error_measure" ∉ names)
    (hord : ∀ nm ∈ names, Ordinary P nm (vars nm))
    (hpl : ∀ nm ∈ names, Whole ranks (vars nm) ∨ ∃ ns rest, Rows ranks (vars nm) ns rest)
    {period : ℕ} (hper : 0 < period) {glob : (Fin n → ℝ) → String → ℕ → ℝ}
    {views : IState (EmbRKState ℝ s n m o l) → List Snap}
    (hv : Views EmbRKState.toRKState ms true glob views) {j : ℕ} (hj : j < opt.computeCallbacks) :
    ∃ (x : IState (EmbRKState ℝ s n m o l)) (states : List (IState (EmbRKState ℝ s n m o l)))
      (calls : List (Ev (EmbRKState ℝ s n m o l))),
      x.disc.finalTime = i.initialTime ∧ x.disc.finalState = i.initialValues ∧
      x.errHist.1 = w.ctrl.config.tol ∧
      List.IsChain (Accepted (embBackend E bhat) opt) (x :: states) ∧
      w'.tis = nth x states states.length ∧ w'.log = w.log ++ calls ∧
      (∀ N, opt.crit = .steps N → states.length = N) ∧
      (states = [] → calls = []) ∧
      (states ≠ [] → ∀ old : Option File,
        ∃ f, calls.foldlM (onEvent period ms true views j) old = .ok (some f) ∧
          FileHolds names (fun nm => (vars nm).globalShape) f
            (0 :: (List.range' 1 states.length).filter fun k => period ∣ k)
            (fun k => (nth x states k).disc.finalTime)
            (fun k => glob (nth x states k).disc.finalState)
            (fun k => some (if k = 0 then 0 else toReal (nth x states k).errHist.1))) := by
  obtain ⟨states, h1, h2, h3, hN⟩ := compute_calls h
  refine ⟨_, states, _, rfl, rfl, rfl, h1, ?_, h3, hN, ?_, fun hne old => ?_⟩
  · rw [h2]
    cases states using List.reverseRecOn with
    | nil => rfl
    | append_singleton l a => simp [nth]
  · rintro rfl; rfl
  · rw [List.range_eq_range' (n := states.length), fold_run period ms true views hj]
    exact run_file (B := embBackend E bhat) (embedded := true) EmbRKState.toRKState
      (by
        intro d st d' hd
        cases st with
        | fin r =>
          simp only [embBackend] at hd
          split at hd
          · cases hd
          · cases hd
            have := computeStep_result E.T E.ode d.toRKState r
            exact ⟨this.startTime, this.startState⟩
        | _ => exact hfin _ _ _ hd)
      hs hranks hnames hnd ht he hord hpl hper hv h1 hne old

/-- C41 for a run of the integrator with a scheme without error estimation, see
`C41_compute_file_partial`. -/
theorem C41_compute_file_plain_partial {E : Env s n m o l} {opt : Options} {fuel : ℕ}
    {ch : Choice} {w w' : World (RKState ℝ s n m o l) (ch.Data (RKState ℝ s n m o l))}
    {i : StartingValues ℝ n m} {v : Outputs n}
    (h : compute (rkBackend E) opt (ch.ck (rkBackend E) opt) fuel w i = (w', .ok v))
    (hfin : ∀ a st d, E.nonfinite a st = .ok d →
      d.startTime = a.initialTime ∧ d.startState = a.initialValues)
    {P : Problem} {ranks : ℕ} {req ind : List String} {ms : List Meta}
    (hs : setup P ranks req ind = .ok ms) (hranks : 0 < ranks) {names : List String}
    {vars : String → Var} (hnames : (ms.headD {}).quantities.map Quantity.name = names)
    (hnd : names.Nodup) (ht : "time" ∉ names) (he : "error_measure" ∉ names)
    (hord : ∀ nm ∈ names, Ordinary P nm (vars nm))
    (hpl : ∀ nm ∈ names, Whole ranks (vars nm) ∨ ∃ ns rest, Rows ranks (vars nm) ns rest)
    {period : ℕ} (hper : 0 < period) {glob : (Fin n → ℝ) → String → ℕ → ℝ}
    {views : IState (RKState ℝ s n m o l) → List Snap}
    (hv : Views id ms false glob views) {j : ℕ} (hj : j < opt.computeCallbacks) :
    ∃ (x : IState (RKState ℝ s n m o l)) (states : List (IState (RKState ℝ s n m o l)))
      (calls : List (Ev (RKState ℝ s n m o l))),
      x.disc.finalTime = i.initialTime ∧ x.disc.finalState = i.initialValues ∧
      List.IsChain (Accepted (rkBackend E) opt) (x :: states) ∧
      w'.tis = nth x states states.length ∧ w'.log = w.log ++ calls ∧
      (∀ N, opt.crit = .steps N → states.length = N) ∧
      (states = [] → calls = []) ∧
      (states ≠ [] → ∀ old : Option File,
        ∃ f, calls.foldlM (onEvent period ms false views j) old = .ok (some f) ∧
          FileHolds names (fun nm => (vars nm).globalShape) f
            (0 :: (List.range' 1 states.length).filter fun k => period ∣ k)
            (fun k => (nth x states k).disc.finalTime)
            (fun k => glob (nth x states k).disc.finalState) (fun _ => none)) := by
  obtain ⟨states, h1, h2, h3, hN⟩ := compute_calls h
  refine ⟨_, states, _, rfl, rfl, h1, ?_, h3, hN, ?_, fun hne old => ?_⟩
  · rw [h2]
    cases states using List.reverseRecOn with
    | nil => rfl
    | append_singleton l a => simp [nth]
  · rintro rfl; rfl
  · rw [List.range_eq_range' (n := states.length), fold_run period ms false views hj]
    have step : ∀ (d : RKState ℝ s n m o l) (st : XReal) (d' : RKState ℝ s n m o l),
        (rkBackend E).step d st = .ok d' →
        (id ((rkBackend E).set d d') : RKState ℝ s n m o l).startTime = d.finalTime ∧
        (id ((rkBackend E).set d d') : RKState ℝ s n m o l).startState = d.finalState := by
      have nf : ∀ (d : RKState ℝ s n m o l) (st : XReal) (d' : RKState ℝ s n m o l),
          (E.nonfinite (rkObs d) st).map EmbRKState.toRKState = .ok d' →
          d'.startTime = d.finalTime ∧ d'.startState = d.finalState := by
        intro d st d' hd
        cases hq : E.nonfinite (rkObs d) st with
        | error e => rw [hq] at hd; cases hd
        | ok q => rw [hq] at hd; cases hd; exact hfin _ _ _ hq
      intro d st d' hd
      cases st with
      | fin r =>
        simp only [rkBackend] at hd
        split at hd
        · cases hd
        · cases hd
          have := computeStep_result E.T E.ode d r
          exact ⟨this.startTime, this.startState⟩
      | _ => exact nf _ _ _ hd
    have := run_file (B := rkBackend E) (embedded := false) id step
      hs hranks hnames hnd ht he hord hpl hper hv h1 hne old
    simpa using this

theorem fixed_errHist {E : Env s n m o l} {bhat : Fin s → ℝ} {opt : Options}
    (had : opt.adaptive = false) {x : IState (EmbRKState ℝ s n m o l)}
    {states : List (IState (EmbRKState ℝ s n m o l))}
    (hchain : List.IsChain (Accepted (embBackend E bhat) opt) (x :: states)) (k : ℕ) :
    (nth x states k).errHist.1 = x.errHist.1 := by
  have : ∀ (states : List (IState (EmbRKState ℝ s n m o l))) (x : IState _),
      List.IsChain (Accepted (embBackend E bhat) opt) (x :: states) →
      ∀ y ∈ x :: states, y.errHist.1 = x.errHist.1 := by
    intro states
    induction states with
    | nil => intro x _ y hy; rw [List.mem_singleton.mp hy]
    | cons z states ih =>
      intro x hc y hy
      rw [List.isChain_cons_cons] at hc
      rcases List.mem_cons.mp hy with rfl | hy
      · rfl
      · obtain ⟨st, d, -, -, -, h4, -⟩ := hc.1.ex
        rw [ih z hc.2 y hy, (h4 had).2.2.2]
  unfold nth
  rw [List.getD_eq_getElem?_getD]
  cases hk : (x :: states)[k]? with
  | none => rfl
  | some y => exact this states x hchain y (List.mem_of_getElem? hk)

/-- C41 fails for an embedded scheme with fixed steps: whatever the error estimates are, the error
measure in every group but 0 is the tolerance of the controller, since error histories are only
written by adaptive steps. -/
theorem C41_fixed_step_error_violated {E : Env s n m o l} {bhat : Fin s → ℝ} {opt : Options}
    (had : opt.adaptive = false) {fuel : ℕ}
    {ch : Choice} {w w' : World (EmbRKState ℝ s n m o l) (ch.Data (EmbRKState ℝ s n m o l))}
    {i : StartingValues ℝ n m} {v : Outputs n}
    (h : compute (embBackend E bhat) opt (ch.ck (embBackend E bhat) opt) fuel w i = (w', .ok v))
    (hfin : ∀ a st d, E.nonfinite a st = .ok d →
      d.startTime = a.initialTime ∧ d.startState = a.initialValues)
    {P : Problem} {ranks : ℕ} {req ind : List String} {ms : List Meta}
    (hs : setup P ranks req ind = .ok ms) (hranks : 0 < ranks) {names : List String}
    {vars : String → Var} (hnames : (ms.headD {}).quantities.map Quantity.name = names)
    (hnd : names.Nodup) (ht : "time" ∉ names) (he : "error_measure" ∉ names)
    (hord : ∀ nm ∈ names, Ordinary P nm (vars nm))
    (hpl : ∀ nm ∈ names, Whole ranks (vars nm) ∨ ∃ ns rest, Rows ranks (vars nm) ns rest)
    {period : ℕ} (hper : 0 < period) {glob : (Fin n → ℝ) → String → ℕ → ℝ}
    {views : IState (EmbRKState ℝ s n m o l) → List Snap}
    (hv : Views EmbRKState.toRKState ms true glob views) {j : ℕ} (hj : j < opt.computeCallbacks)
    (hsteps : w'.log ≠ w.log) (old : Option File) :
    ∃ (calls : List (Ev (EmbRKState ℝ s n m o l))) (f : File), w'.log = w.log ++ calls ∧
      calls.foldlM (onEvent period ms true views j) old = .ok (some f) ∧
      ∀ k g, 0 < k → File.get f (toString k) = some g →
        ∃ ds, File.get g "error_measure" = some ds ∧ ds.cell [0] = toReal w.ctrl.config.tol := by
  obtain ⟨x, states, calls, -, -, h3, h4, -, h6, -, h7, h8⟩ := C41_compute_file_partial h hfin hs hranks
    hnames hnd ht he hord hpl hper hv hj
  have hne : states ≠ [] := by
    intro e
    rw [h7 e, List.append_nil] at h6
    exact hsteps h6
  obtain ⟨f, g1, g2⟩ := h8 hne old
  refine ⟨calls, f, h6, g1, ?_⟩
  intro k g hk hg
  have hmem : toString k ∈ f.map Prod.fst := get_isSome.mp (by rw [hg]; rfl)
  rw [g2.keys] at hmem
  obtain ⟨k', hk', e⟩ := List.mem_map.mp hmem
  obtain rfl := toString_inj e
  obtain ⟨g', hg', hh⟩ := g2.groups k' hk'
  rw [hg] at hg'
  cases hg'
  obtain ⟨ds, q1, -, q3⟩ := hh.error _ rfl
  refine ⟨ds, q1, ?_⟩
  rw [q3, if_neg (by omega), fixed_errHist had h4, h3]

section examples

namespace FileRunEx

/-- One quantity with one entry on one rank. -/
def problem : Problem :=
  { vars := [
      ⟨"t", .input, ["time_variable"], [1], [some [1]]⟩,
      ⟨"y_old", .input, ["y", "step_input_var"], [1], [some [1]]⟩,
      ⟨"y_acc", .input, ["y", "accumulated_stage_var"], [1], [some [1]]⟩,
      ⟨"y_up", .output, ["y", "stage_output_var"], [1], [some [1]]⟩],
    emptyTagsMatchAll := false }

/-- Its metadata. -/
def metas : List Meta := (setup problem 1 ["y"] []).toOption.getD []

theorem setup_ok : setup problem 1 ["y"] [] = .ok metas := by decide +kernel

/-- What the rank sees. -/
def view (x : IState (RKState ℝ 1 1 1 0 0)) : List Snap :=
  [⟨x.disc.startTime, fun _ => x.disc.startState 0, x.disc.finalTime,
    fun _ => x.disc.finalState 0, none⟩]

theorem held (v : ℝ) : Held metas [fun _ => v] (fun _ _ => v) := by
  have hm : ∃ a, metas = [a] := ⟨metas.headD {}, by decide +kernel⟩
  obtain ⟨a, ha⟩ := hm
  rw [ha]
  exact .cons (fun _ _ _ _ => rfl) .nil

theorem views : Views id metas false (fun v _ _ => v 0) view := by
  constructor
  · intro x a ha; rw [List.mem_singleton.mp ha]; rfl
  · intro x a ha; rw [List.mem_singleton.mp ha]; rfl
  · intro x; exact held _
  · intro x; exact held _
  · intro x a ha; rw [List.mem_singleton.mp ha]; rfl

end FileRunEx

open FileRunEx in
/-- Three steps, every second one written. -/
example : ∃ (w' : World _ _) (v : _) (calls : List _) (f : File),
    compute (rkBackend Integrator.Ex.env) Integrator.Ex.opt3
      (noCk (rkBackend Integrator.Ex.env) Integrator.Ex.opt3) 4
      (Integrator.Ex.fresh Integrator.Ex.opt3 .no) Integrator.Ex.inp = (w', .ok v) ∧
    w'.log = (Integrator.Ex.fresh Integrator.Ex.opt3 .no).log ++ calls ∧
    calls.foldlM (onEvent 2 metas false view 0) none = .ok (some f) ∧
    f.map Prod.fst = ["0", "2"] := by
  obtain ⟨w', v, h⟩ := Integrator.Ex.fresh_compute_ok .no 4 (by omega)
    (Integrator.Ex.fresh Integrator.Ex.opt3 .no) Integrator.Ex.inp
  obtain ⟨x, states, calls, h1, h2, h3, h4, h5, hN, h6, h7⟩ := C41_compute_file_plain_partial h
    (by intro a st d hd; cases hd) setup_ok (by omega) (names := ["y"])
    (vars := fun _ => ⟨"y_up", .output, ["y", "stage_output_var"], [1], [some [1]]⟩)
    (by decide +kernel) (by decide) (by decide) (by decide)
    (by
      intro nm hnm
      rw [List.mem_singleton.mp hnm]
      constructor <;> decide)
    (by intro nm _; exact Or.inl (by unfold Whole; decide))
    (period := 2) (by omega) views (j := 0) (by decide)
  have hlen : states.length = 3 := hN 3 rfl
  obtain ⟨f, g1, g2⟩ := h7 (by rintro rfl; simp at hlen) none
  refine ⟨w', v, calls, f, h, h5, g1, ?_⟩
  rw [g2.keys, hlen]
  decide +kernel

end examples

end Verif.Props
