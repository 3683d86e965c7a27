/-
C104: the file of a run that is interrupted.
-/
import Verif.Integrator.Faults
import Verif.Props.FileRun

namespace Verif.Props

open Verif.Metadata Verif.File Verif.Integrator Verif.Control Verif.RK

variable {D : Type} {s n m o l : ℕ}

/-! ### The calls of an interrupted run and the file -/

/-- The calls up to the first callback that raises either contain that of callback `j` or not. -/
theorem fold_callsF (F : Faults D) (pt : ℕ → Pt) (ev : ℕ → Ev D)
    (g : Option File → Ev D → Except File.Err (Option File)) {j : ℕ}
    (hg : ∀ i, i ≠ j → ∀ f, g f (ev i) = .ok f) : ∀ js : List ℕ, js.Nodup →
    ((∀ f, (callsF F pt ev js).1.foldlM g f = .ok f) ∨
      ∀ f, (callsF F pt ev js).1.foldlM g f = g f (ev j)) ∧
    ((callsF F pt ev js).2 = .ok () → j ∈ js →
      ∀ f, (callsF F pt ev js).1.foldlM g f = g f (ev j)) ∧
    (j ∉ js → ∀ f, (callsF F pt ev js).1.foldlM g f = .ok f) := by
  intro js
  induction js with
  | nil => intro _; exact ⟨Or.inl fun f => rfl, fun _ h => by simp at h, fun _ f => rfl⟩
  | cons i js ih =>
    intro hn
    rw [List.nodup_cons] at hn
    obtain ⟨h1, h2, h3⟩ := ih hn.2
    simp only [callsF]
    by_cases hi : i = j
    · subst hi
      have := h3 hn.1
      rcases F.raises (pt i) with _ | e
      · have hf : ∀ f, (ev i :: (callsF F pt ev js).1).foldlM g f = g f (ev i) := by
          intro f
          rw [List.foldlM_cons]
          cases g f (ev i) with
          | error e => rfl
          | ok f' => exact this f'
        exact ⟨Or.inr hf, fun _ _ => hf, fun h => absurd (by simp) h⟩
      · have hf : ∀ f, [ev i].foldlM g f = g f (ev i) := by
          intro f
          rw [List.foldlM_cons]
          cases g f (ev i) with
          | error e => rfl
          | ok f' => rfl
        exact ⟨Or.inr hf, fun _ _ => hf, fun h => absurd (by simp) h⟩
    · rcases F.raises (pt i) with _ | e
      · have hf : ∀ f, (ev i :: (callsF F pt ev js).1).foldlM g f
            = (callsF F pt ev js).1.foldlM g f := by
          intro f
          rw [List.foldlM_cons, hg i hi]
          rfl
        refine ⟨?_, ?_, ?_⟩
        · rcases h1 with h1 | h1
          · exact Or.inl fun f => (hf f).trans (h1 f)
          · exact Or.inr fun f => (hf f).trans (h1 f)
        · intro ho hj f
          exact (hf f).trans (h2 ho ((List.mem_cons.mp hj).resolve_left fun e => hi e.symm) f)
        · intro hj f
          exact (hf f).trans (h3 (fun h => hj (by simp [h])) f)
      · have hf : ∀ f, [ev i].foldlM g f = .ok f := by
          intro f
          rw [List.foldlM_cons, hg i hi]
          rfl
        exact ⟨Or.inl hf, fun h => by simp at h, fun _ => hf⟩

/-- No callback raises. -/
def Quiet (F : Faults D) : Prop :=
  ∀ k cb it, F.raises (.before k cb it) = none ∧ F.raises (.after k cb it) = none

theorem callsF_quiet (F : Faults D) (pt : ℕ → Pt) (ev : ℕ → Ev D) (h : ∀ j, F.raises (pt j) = none)
    (js : List ℕ) : (callsF F pt ev js).2 = .ok () := by
  induction js with
  | nil => rfl
  | cons j js ih => simp only [callsF, h]; exact ih

/-- What happened to the file in a step: nothing, groups were created, or they were also written. -/
theorem fold_runStepF {I O : Type} {B : Backend D I O} {opt : Options} (F : Faults D)
    (period : ℕ) (ms : List Meta) (embedded : Bool) (views : IState D → List Snap)
    {j : ℕ} (hj : j < opt.computeCallbacks) (it : ℕ) (c : Ctrl) (x : IState D) :
    (((∃ e, (runStepF B opt F it c x).out = .error e) ∧ ¬ Quiet F) ∧
      ∀ f, (runStepF B opt F it c x).log.foldlM (onEvent period ms embedded views j) f = .ok f) ∨
    ((∃ e, (runStepF B opt F it c x).out = .error e) ∧
      ∀ f, (runStepF B opt F it c x).log.foldlM (onEvent period ms embedded views j) f
        = (before period (ms.headD {}) embedded it f).map some) ∨
    ((Accepted B opt x (runStepF B opt F it c x).st ∧
        (Quiet F → (runStepF B opt F it c x).out = .ok ())) ∧
      ∀ f, (runStepF B opt F it c x).log.foldlM (onEvent period ms embedded views j) f
        = (stepFile period ms embedded it f (views (runStepF B opt F it c x).st)).map some) := by
  have hb := fold_callsF F (fun j => .before .compute j it) (fun j => .before .compute j it x)
    (onEvent period ms embedded views j) (j := j)
    (fun i hi f => by simp [onEvent, hi]) (List.range opt.computeCallbacks) List.nodup_range
  have he : ∀ f, onEvent period ms embedded views j f (Ev.before .compute j it x)
      = (before period (ms.headD {}) embedded it f).map some := by
    intro f; simp [onEvent]
  simp only [he] at hb
  simp only [runStepF]
  rcases h1 : callsF F (fun j => .before .compute j it) (fun j => .before .compute j it x)
    (List.range opt.computeCallbacks) with ⟨l1, e | u⟩
  · rw [h1] at hb
    rcases hb.1 with h | h
    · refine Or.inl ⟨⟨⟨e, rfl⟩, fun hq => ?_⟩, h⟩
      have := callsF_quiet F (fun j => .before .compute j it) (fun j => .before .compute j it x)
        (fun j => (hq _ _ _).1) (List.range opt.computeCallbacks)
      rw [h1] at this
      cases this
    · exact Or.inr (Or.inl ⟨⟨e, rfl⟩, h⟩)
  · rw [h1] at hb
    have hb' := hb.2.1 rfl (List.mem_range.mpr hj)
    dsimp only at hb' ⊢
    rcases h2 : iterateF B opt F it opt.recursionLimit 0 c x with ⟨c', x', e | u⟩
    · exact Or.inr (Or.inl ⟨⟨e, rfl⟩, hb'⟩)
    · dsimp only
      have hacc : Accepted B opt x x' := by
        have := iterateF_ok (congrArg (fun r => r.2.2) h2)
        rw [h2] at this
        exact iterate_accepted this.symm
      have ha := fold_callsF F (fun j => .after .compute j it) (fun j => .after .compute j it x')
        (onEvent period ms embedded views j) (j := j)
        (fun i hi f => by simp [onEvent, hi]) (List.range opt.computeCallbacks) List.nodup_range
      have he' : ∀ f, onEvent period ms embedded views j f (Ev.after .compute j it x')
          = (after period ms it f (views x')).map some := by
        intro f; simp [onEvent]
      simp only [he'] at ha
      have hstep : ∀ f, ((before period (ms.headD {}) embedded it f).map some).bind
          (fun f' => (after period ms it f' (views x')).map some)
          = (stepFile period ms embedded it f (views x')).map some := by
        intro f
        unfold stepFile
        cases before period (ms.headD {}) embedded it f <;> rfl
      by_cases hout : (callsF F (fun j => .after .compute j it)
        (fun j => .after .compute j it x') (List.range opt.computeCallbacks)).2 = .ok ()
      · refine Or.inr (Or.inr ⟨⟨hacc, fun _ => hout⟩, fun f => ?_⟩)
        rw [List.foldlM_append, hb', ← hstep]
        have := ha.2.1 hout (List.mem_range.mpr hj)
        simp only [this]
        rfl
      · have hex : ∃ e, (callsF F (fun j => .after .compute j it)
            (fun j => .after .compute j it x') (List.range opt.computeCallbacks)).2 = .error e := by
          rcases hq : (callsF F (fun j => .after .compute j it)
            (fun j => .after .compute j it x') (List.range opt.computeCallbacks)).2 with e | u
          · exact ⟨e, rfl⟩
          · exact absurd hq hout
        rcases ha.1 with h | h
        · refine Or.inr (Or.inl ⟨hex, fun f => ?_⟩)
          rw [List.foldlM_append, hb']
          simp only [h]
          cases before period (ms.headD {}) embedded it f <;> rfl
        · refine Or.inr (Or.inr ⟨⟨hacc, fun hq => callsF_quiet F _ _
            (fun j => (hq _ _ _).2) _⟩, fun f => ?_⟩)
          rw [List.foldlM_append, hb', ← hstep]
          simp only [h]
          rfl

/-- The states of an interrupted run the file has seen, and whether one more step was begun. -/
theorem fold_allForwardF {I O : Type} {B : Backend D I O} {opt : Options} (F : Faults D)
    (period : ℕ) (ms : List Meta) (embedded : Bool) (views : IState D → List Snap)
    {j : ℕ} (hj : j < opt.computeCallbacks) (fuel it : ℕ) (stor : List (IState D)) (c : Ctrl)
    (x : IState D) :
    ∃ (states : List (IState D)) (more : Bool), List.IsChain (Accepted B opt) (x :: states) ∧
      ((allForwardF B opt F fuel it stor c x).1 = stor ++ states ∨
        (allForwardF B opt F fuel it stor c x).1 = stor ++ states.dropLast ∧ more = false) ∧
      ((allForwardF B opt F fuel it stor c x).2.out = .ok () → more = false ∧
        (allForwardF B opt F fuel it stor c x).1 = stor ++ states) ∧
      (Quiet F → ∀ e, (allForwardF B opt F fuel it stor c x).2.out = .error e → e ≠ .fuel →
        more = true ∧ (allForwardF B opt F fuel it stor c x).1 = stor ++ states) ∧
      ∀ f, (allForwardF B opt F fuel it stor c x).2.log.foldlM
          (onEvent period ms embedded views j) f
        = (runFile period ms embedded (it + 1) f (states.map views)).bind fun f' =>
            if more then (before period (ms.headD {}) embedded (it + states.length + 1) f').map some
            else .ok f' := by
  induction fuel generalizing it stor c x with
  | zero =>
    refine ⟨[], false, by simp, by simp [allForwardF], by simp [allForwardF], ?_, fun f => rfl⟩
    intro _ e h hne
    simp only [allForwardF, Except.error.injEq] at h
    exact absurd h.symm hne
  | succ fuel ih =>
    simp only [allForwardF]
    split
    · exact ⟨[], false, by simp, by simp, by simp, by simp, fun f => rfl⟩
    · have hs := fold_runStepF (B := B) (opt := opt) F period ms embedded views hj (it + 1) c x
      have hrun : ∀ (y : IState D) (ys : List (IState D)) f,
          runFile period ms embedded (it + 1) f ((y :: ys).map views)
            = ((stepFile period ms embedded (it + 1) f (views y)).map some).bind fun f' =>
                runFile period ms embedded (it + 1 + 1) f' (ys.map views) := by
        intro y ys f
        rw [List.map_cons, runFile]
        cases stepFile period ms embedded (it + 1) f (views y) <;> rfl
      rcases hr : runStepF B opt F (it + 1) c x with ⟨c', x', log, e | u⟩
      · rw [hr] at hs
        dsimp only at hs ⊢
        rcases hs with ⟨⟨-, hq⟩, h⟩ | ⟨-, h⟩ | ⟨⟨ha, hq⟩, h⟩
        · exact ⟨[], false, by simp, by simp, by simp, fun q => absurd q hq,
            fun f => by rw [h]; rfl⟩
        · exact ⟨[], true, by simp, by simp, by simp, by simp, fun f => by rw [h]; rfl⟩
        · refine ⟨[x'], false, by simpa using ha, by simp, by simp,
            fun q => by simpa using hq q, fun f => ?_⟩
          rw [h, hrun]
          cases stepFile period ms embedded (it + 1) f (views x') <;> rfl
      · rw [hr] at hs
        dsimp only at hs ⊢
        rcases hs with ⟨⟨⟨e, he⟩, -⟩, -⟩ | ⟨⟨e, he⟩, -⟩ | ⟨⟨ha, -⟩, h⟩
        · cases he
        · cases he
        · obtain ⟨states, more, h1, h2, h3, hq, h4⟩ := ih (it + 1) (stor ++ [x']) c' x'
          by_cases hne : states = [] ∧ more = false ∧
              (allForwardF B opt F fuel (it + 1) (stor ++ [x']) c' x').1
                = stor ++ [x'] ++ states.dropLast
          · obtain ⟨rfl, rfl, h5⟩ := hne
            refine ⟨[x'], false, by simpa using ha, Or.inl (by simpa using h5),
              fun _ => ⟨rfl, by simpa using h5⟩, fun q e h hne => ?_, fun f => ?_⟩
            · exact absurd (hq q e h hne).1 (by simp)
            rw [List.foldlM_append, h, hrun]
            cases stepFile period ms embedded (it + 1) f (views x') with
            | error e => rfl
            | ok f' => exact h4 (some f')
          · refine ⟨x' :: states, more, List.isChain_cons_cons.mpr ⟨ha, h1⟩, ?_, ?_, ?_, fun f => ?_⟩
            · rcases h2 with h2 | h2
              · exact Or.inl (by simpa using h2)
              · have hs : states ≠ [] := fun e => hne ⟨e, h2.2, h2.1⟩
                refine Or.inr ⟨?_, h2.2⟩
                rw [List.dropLast_cons_of_ne_nil hs, h2.1]
                simp
            · intro ho
              have := h3 ho
              exact ⟨this.1, by simpa using this.2⟩
            · intro q e h hne
              have := hq q e h hne
              exact ⟨this.1, by simpa using this.2⟩
            · rw [List.foldlM_append, h, hrun]
              cases stepFile period ms embedded (it + 1) f (views x') with
              | error e => rfl
              | ok f' =>
                have := h4 (some f')
                rw [show it + 1 + states.length + 1 = it + (x' :: states).length + 1 by
                  simp only [List.length_cons]; omega] at this
                exact this

/-! ### Steps begin with the shift of the state -/

theorem emb_shift {E : Env s n m o l} {bhat : Fin s → ℝ}
    (hfin : ∀ a st d, E.nonfinite a st = .ok d →
      d.startTime = a.initialTime ∧ d.startState = a.initialValues)
    (d : EmbRKState ℝ s n m o l) (st : XReal) (d' : EmbRKState ℝ s n m o l)
    (hd : (embBackend E bhat).step d st = .ok d') :
    ((embBackend E bhat).set d d').startTime = d.finalTime ∧
      ((embBackend E bhat).set d d').startState = d.finalState := by
  cases st with
  | fin r =>
    simp only [embBackend] at hd
    split at hd
    · cases hd
    · cases hd
      have := computeStep_result E.T E.ode d.toRKState r
      exact ⟨this.startTime, this.startState⟩
  | _ => exact hfin _ _ _ hd

theorem rk_shift {E : Env s n m o l}
    (hfin : ∀ a st d, E.nonfinite a st = .ok d →
      d.startTime = a.initialTime ∧ d.startState = a.initialValues)
    (d : RKState ℝ s n m o l) (st : XReal) (d' : RKState ℝ s n m o l)
    (hd : (rkBackend E).step d st = .ok d') :
    ((rkBackend E).set d d').startTime = d.finalTime ∧
      ((rkBackend E).set d d').startState = d.finalState := by
  have nf : ∀ (d : RKState ℝ s n m o l) (st : XReal) (d' : RKState ℝ s n m o l),
      (E.nonfinite (rkObs d) st).map EmbRKState.toRKState = .ok d' →
      d'.startTime = d.finalTime ∧ d'.startState = d.finalState := by
    intro d st d' hd
    cases hq : E.nonfinite (rkObs d) st with
    | error e => rw [hq] at hd; cases hd
    | ok q => rw [hq] at hd; cases hd; exact hfin _ _ _ hq
  cases st with
  | fin r =>
    simp only [rkBackend] at hd
    split at hd
    · cases hd
    · cases hd
      have := computeStep_result E.T E.ode d r
      exact ⟨this.startTime, this.startState⟩
  | _ => exact nf _ _ _ hd

/-! ### The file -/

/-- The numbers of the groups of a file if `n` steps were begun. -/
def groupsOf (period n : ℕ) : List ℕ := 0 :: (List.range' 1 n).filter fun k => period ∣ k

theorem groupsOf_eq (period n : ℕ) : groupsOf period n = written period n := by
  unfold groupsOf written
  congr 1
  apply List.filter_congr
  intro k _
  rw [decide_eq_decide]
  exact ⟨Nat.mod_eq_zero_of_dvd, Nat.dvd_of_mod_eq_zero⟩

theorem emptyGroup_holds {ms : List Meta} {names : List String} {shape : String → List ℕ}
    (hl : Layout ms names shape) (embedded : Bool) :
    Holds names shape (emptyGroup (ms.headD {}) embedded) 0 (fun _ _ => 0)
      (if embedded then some 0 else none) := by
  have hm : ms.headD {} ∈ ms := by
    have := hl.nonempty
    cases ms with
    | nil => exact absurd rfl this
    | cons a l => simp
  have hnames := hl.sameNames _ hm
  have hn := hl.nodup
  have hk : ((ms.headD {}).quantities.map fun q => (q.name, zeros q.arr.globalShape)).map Prod.fst
      = names := by
    rw [List.map_map, ← hnames]; rfl
  refine ⟨?_, ?_, ?_, ?_⟩
  · unfold emptyGroup
    rw [List.cons_append, List.map_cons, List.map_append, hk]
    cases embedded <;> simp
  · exact ⟨zeros [1], by unfold emptyGroup; rw [List.cons_append, get_cons]; simp, rfl, rfl⟩
  · intro nm hnm
    rw [← hnames] at hnm
    obtain ⟨q, hq, rfl⟩ := List.mem_map.mp hnm
    refine ⟨zeros q.arr.globalShape, ?_, hl.global _ hm q hq, fun _ _ => rfl⟩
    unfold emptyGroup
    rw [List.cons_append, get_cons]
    have : ¬ "time" = q.name := fun e =>
      hl.time (by rw [e, ← hnames]; exact List.mem_map_of_mem hq)
    rw [if_neg this, get_append, get_map_zeros (by rw [hnames]; exact hn) hq]
    rfl
  · intro x hx
    have hE : embedded = true := by
      cases embedded with
      | false => simp at hx
      | true => rfl
    subst hE
    have hx0 : x = 0 := by simpa using hx.symm
    refine ⟨zeros [1], ?_, rfl, hx0.symm⟩
    unfold emptyGroup
    rw [List.cons_append, get_cons, if_neg (by decide), get_append,
      get_none (by rw [hk]; exact hl.error)]
    simp [get_cons]

/-- The file after complete steps and possibly the beginning of another one. -/
theorem begun_file {ms : List Meta} {names : List String} {shape : String → List ℕ}
    (hl : Layout ms names shape) {period : ℕ} (hper : 0 < period) {embedded : Bool}
    {N : ℕ} {t : ℕ → ℝ} {G : ℕ → String → ℕ → ℝ} {e : ℕ → Option ℝ} {old : Option File}
    (hold : 0 < N → ∃ f0, old = some f0 ∧ FileHolds names shape f0 (groupsOf period N) t G e) :
    ∃ f, before period (ms.headD {}) embedded (N + 1) old = .ok f ∧
      FileHolds names shape f (groupsOf period (N + 1))
        (fun k => if 0 < N ∧ k ≤ N then t k else 0)
        (fun k => if 0 < N ∧ k ≤ N then G k else fun _ _ => 0)
        (fun k => if 0 < N ∧ k ≤ N then e k else if embedded then some 0 else none) := by
  simp only [groupsOf_eq] at hold ⊢
  rcases Nat.eq_zero_or_pos N with rfl | hN
  · obtain ⟨f, h1, h2, h3, h4⟩ := before_ok hl hper (embedded := embedded) (it := 0 + 1) (f := old)
      (f0 := []) rfl (by
        rw [List.map_nil, List.nil_append, ← written_one]
        exact map_toString_nodup (written_nodup _ _))
    refine ⟨f, h1, ?_, ?_⟩
    · rw [h2, List.map_nil, List.nil_append, ← written_one]
    · intro k hk
      rw [show (0 : ℕ) + 1 = 1 from rfl, written_one] at hk
      refine ⟨_, h3 k hk, ?_⟩
      simpa using emptyGroup_holds hl embedded
  · obtain ⟨f0, rfl, h0⟩ := hold hN
    obtain ⟨f, h1, h2, h3, h4⟩ := before_ok hl hper (embedded := embedded) (it := N + 1)
      (f := some f0) (f0 := f0)
      (by unfold openFile; rw [if_neg (by simpa using (by omega : N + 1 ≠ 1))]) (by
        rw [h0.keys, ← List.map_append, ← written_succ period N hN]
        exact map_toString_nodup (written_nodup _ _))
    refine ⟨f, h1, ?_, ?_⟩
    · rw [h2, h0.keys, ← List.map_append, ← written_succ period N hN]
    · intro k hk
      have hnd := written_nodup period (N + 1)
      rw [written_succ period N hN] at hk hnd
      have hle : ∀ k ∈ written period N, k ≤ N := by
        intro k hk
        unfold written at hk
        rcases List.mem_cons.mp hk with rfl | hk
        · omega
        · have := (List.mem_filter.mp hk).1
          rw [List.mem_range'_1] at this
          omega
      rcases List.mem_append.mp hk with hk | hk
      · obtain ⟨g, hg, hH⟩ := h0.groups k hk
        refine ⟨g, ?_, ?_⟩
        · rw [h4, hg]
          intro hc
          obtain ⟨j, hj, hjk⟩ := List.mem_map.mp hc
          exact (List.nodup_append.mp hnd).2.2 k hk k (toString_inj hjk ▸ hj) rfl
        · have hc : 0 < N ∧ k ≤ N := ⟨hN, hle k hk⟩
          simpa only [if_pos hc] using hH
      · refine ⟨_, h3 k hk, ?_⟩
        have hk' : k = N + 1 := by
          unfold newKeys at hk
          rw [if_neg (by omega)] at hk
          by_cases h : (N + 1) % period = 0
          · rw [if_pos h] at hk; simpa using hk
          · rw [if_neg h] at hk; simp at hk
        have hc : ¬ (0 < N ∧ k ≤ N) := by omega
        simpa only [if_neg hc] using emptyGroup_holds hl embedded

/-- The file of a `compute` that may have been interrupted, for any backend whose steps begin with the
shift of the state. -/
theorem interrupted_file {I O : Type} {B : Backend D I O} {opt : Options}
    (core : D → RKState ℝ s n m o l)
    (hshift : ∀ d h d', B.step d h = .ok d' → (core (B.set d d')).startTime = (core d).finalTime ∧
      (core (B.set d d')).startState = (core d).finalState)
    (F : Faults D) (fuel : ℕ) (w : World D (List (IState D))) (i : I)
    {P : Problem} {ranks : ℕ} {req ind : List String} {ms : List Meta}
    (hs : setup P ranks req ind = .ok ms) (hranks : 0 < ranks) {names : List String}
    {vars : String → Var} (hnames : (ms.headD {}).quantities.map Quantity.name = names)
    (hnd : names.Nodup) (ht : "time" ∉ names) (he : "error_measure" ∉ names)
    (hord : ∀ nm ∈ names, Ordinary P nm (vars nm))
    (hpl : ∀ nm ∈ names, Whole ranks (vars nm) ∨ ∃ ns rest, Rows ranks (vars nm) ns rest)
    {period : ℕ} (hper : 0 < period) {embedded : Bool} {glob : (Fin n → ℝ) → String → ℕ → ℝ}
    {views : IState D → List Snap} (hv : Views core ms embedded glob views)
    {j : ℕ} (hj : j < opt.computeCallbacks) :
    ∃ (states : List (IState D)) (begun : ℕ) (calls : List (Ev D)),
      List.IsChain (Accepted B opt) (startOf B opt w.ctrl w.tis.disc i :: states) ∧
      ((computeF B opt F fuel w i).1.ck = states ∨
        (computeF B opt F fuel w i).1.ck = states.dropLast ∧ begun = states.length) ∧
      (begun = states.length ∨ begun = states.length + 1) ∧
      ((∃ v, (computeF B opt F fuel w i).2 = .ok v) → begun = states.length ∧
        (computeF B opt F fuel w i).1.ck = states) ∧
      (Quiet F → ∀ e, (computeF B opt F fuel w i).2 = .error e → e ≠ .fuel →
        begun = states.length + 1 ∧ (computeF B opt F fuel w i).1.ck = states) ∧
      (computeF B opt F fuel w i).1.log = w.log ++ calls ∧
      (∀ old, begun = 0 → calls.foldlM (onEvent period ms embedded views j) old = .ok old) ∧
      (∀ old, begun ≠ 0 → ∃ f, calls.foldlM (onEvent period ms embedded views j) old
          = .ok (some f) ∧
        FileHolds names (fun nm => (vars nm).globalShape) f (groupsOf period begun)
          (fun k => if 0 < states.length ∧ k ≤ states.length then
            (core (nth (startOf B opt w.ctrl w.tis.disc i) states k).disc).finalTime else 0)
          (fun k => if 0 < states.length ∧ k ≤ states.length then
            glob (core (nth (startOf B opt w.ctrl w.tis.disc i) states k).disc).finalState
            else fun _ _ => 0)
          (fun k => if embedded then some (if 0 < k ∧ k ≤ states.length then
            toReal (nth (startOf B opt w.ctrl w.tis.disc i) states k).errHist.1 else 0)
            else none)) := by
  have hl := layout_of_setup hs hranks hnames hnd ht he hord hpl
  obtain ⟨states, more, h1, h2, h3, hq, h4⟩ := fold_allForwardF (B := B) (opt := opt) F period ms
    embedded views hj fuel 0 [] w.ctrl (startOf B opt w.ctrl w.tis.disc i)
  simp only [List.nil_append, Nat.zero_add] at h2 h3 hq h4
  have hck : (computeF B opt F fuel w i).1.ck
      = (allForwardF B opt F fuel 0 [] w.ctrl (startOf B opt w.ctrl w.tis.disc i)).1 := by
    simp only [computeF, startOf]
    split <;> rfl
  have hlog : (computeF B opt F fuel w i).1.log = w.log ++
      (allForwardF B opt F fuel 0 [] w.ctrl (startOf B opt w.ctrl w.tis.disc i)).2.log := by
    simp only [computeF, startOf]
    split <;> rfl
  have hout : (∃ v, (computeF B opt F fuel w i).2 = .ok v) →
      (allForwardF B opt F fuel 0 [] w.ctrl (startOf B opt w.ctrl w.tis.disc i)).2.out = .ok () := by
    rintro ⟨v, hv⟩
    simp only [computeF] at hv
    split at hv
    · cases hv
    · assumption
  refine ⟨states, states.length + more.toNat, _, h1, ?_, ?_, ?_, ?_, hlog,
    fun old h0 => ?_, fun old h0 => ?_⟩
  · rw [hck]
    rcases h2 with h2 | ⟨h2, rfl⟩
    · exact Or.inl h2
    · exact Or.inr ⟨h2, rfl⟩
  · cases more
    · exact Or.inl rfl
    · exact Or.inr rfl
  · intro hv
    obtain ⟨rfl, h5⟩ := h3 (hout hv)
    exact ⟨rfl, hck.trans h5⟩
  · intro q e herr hne
    have hout : (allForwardF B opt F fuel 0 [] w.ctrl (startOf B opt w.ctrl w.tis.disc i)).2.out
        = .error e := by
      simp only [computeF] at herr
      split at herr
      · rename_i e' he'
        rw [show e' = e from by simpa using herr] at he'
        exact he'
      · cases herr
    obtain ⟨rfl, h5⟩ := hq q e hout hne
    exact ⟨rfl, hck.trans h5⟩
  · have e1 : states = [] := List.length_eq_zero_iff.mp (by omega)
    have e2 : more = false := by cases more with | false => rfl | true => simp at h0
    rw [h4, e1, e2]
    rfl
  · rw [h4]
    have hfile : 0 < states.length → ∃ f0, runFile period ms embedded 1 old (states.map views)
          = .ok (some f0) ∧
        FileHolds names (fun nm => (vars nm).globalShape) f0 (groupsOf period states.length)
          (fun k => (core (nth (startOf B opt w.ctrl w.tis.disc i) states k).disc).finalTime)
          (fun k => glob (core (nth (startOf B opt w.ctrl w.tis.disc i) states k).disc).finalState)
          (fun k => if embedded then some (if k = 0 then 0 else
            toReal (nth (startOf B opt w.ctrl w.tis.disc i) states k).errHist.1) else none) :=
      fun hpos => run_file core hshift hs hranks hnames hnd ht he hord hpl hper hv h1
        (List.length_pos_iff.mp hpos) old
    cases more with
    | false =>
      have hpos : 0 < states.length := by simpa [Nat.pos_iff_ne_zero] using h0
      obtain ⟨f0, g1, g2⟩ := hfile hpos
      refine ⟨f0, by rw [g1]; rfl, g2.keys, fun k hk => ?_⟩
      rw [Bool.toNat_false, Nat.add_zero] at hk
      obtain ⟨g, hg, hH⟩ := g2.groups k hk
      refine ⟨g, hg, ?_⟩
      have hle : k ≤ states.length := by
        rcases List.mem_cons.mp hk with rfl | hk
        · omega
        · have := (List.mem_filter.mp hk).1
          rw [List.mem_range'_1] at this
          omega
      have hc : 0 < states.length ∧ k ≤ states.length := ⟨hpos, hle⟩
      simp only [if_pos hc]
      convert hH using 3
      by_cases hk0 : k = 0
      · simp [hk0]
      · rw [if_neg hk0, if_pos ⟨by omega, hle⟩]
    | true =>
      have hrun : ∃ f0, runFile period ms embedded 1 old (states.map views) = .ok f0 ∧
          (0 < states.length → ∃ f1, f0 = some f1 ∧
            FileHolds names (fun nm => (vars nm).globalShape) f1 (groupsOf period states.length)
              (fun k => (core (nth (startOf B opt w.ctrl w.tis.disc i) states k).disc).finalTime)
              (fun k => glob
                (core (nth (startOf B opt w.ctrl w.tis.disc i) states k).disc).finalState)
              (fun k => if embedded then some (if k = 0 then 0 else
                toReal (nth (startOf B opt w.ctrl w.tis.disc i) states k).errHist.1)
                else none)) := by
        rcases Nat.eq_zero_or_pos states.length with h | h
        · rw [List.length_eq_zero_iff.mp h]
          exact ⟨old, rfl, fun h => absurd h (by simp)⟩
        · obtain ⟨f0, g1, g2⟩ := hfile h
          exact ⟨some f0, g1, fun _ => ⟨f0, rfl, g2⟩⟩
      obtain ⟨f0, g1, g2⟩ := hrun
      obtain ⟨f, g3, g4⟩ := begun_file hl hper (embedded := embedded) g2
      refine ⟨f, by rw [g1]; exact congrArg (Except.map some) g3, g4.keys, fun k hk => ?_⟩
      obtain ⟨g, hg, hH⟩ := g4.groups k hk
      refine ⟨g, hg, ?_⟩
      convert hH using 1
      by_cases hc : 0 < states.length ∧ k ≤ states.length
      · rw [if_pos hc]
        by_cases hk0 : k = 0
        · simp [hk0]
        · have : 0 < k ∧ k ≤ states.length := ⟨by omega, hc.2⟩
          simp only [if_neg hk0, if_pos this]
      · have : ¬ (0 < k ∧ k ≤ states.length) := by omega
        simp only [if_neg hc, if_neg this]

/-! ### C104 -/

/-- C104 for a scheme with error estimation. Whatever raises during `compute` (stage problems, error
measure, callbacks other than the HDF5 callback; `F`), the file is in one of these states: `states`
are those after the completed steps the callback was told of, `begun` is the number of steps it was
told the beginning of. Without a beginning the file is as it was. Otherwise it has the group 0 and
those of the multiples of the period up to `begun`; the groups of completed steps hold time, values
and error measure of the state after the step, group 0 those of the inputs as soon as the first step
is complete. All other groups hold zeros only.

At most one step has begun and is not complete. The stored checkpoints are those of `states`, except
that the last one is missing if a callback after the HDF5 callback raised.

Missing: the claim itself for the group of the interrupted step, see `C104_zeros_violated`; what is
missing in `C41_file_partial`. -/
theorem C104_interrupted_file_partial {E : Env s n m o l} {bhat : Fin s → ℝ} {opt : Options}
    (F : Faults (EmbRKState ℝ s n m o l)) (fuel : ℕ)
    (w : World (EmbRKState ℝ s n m o l) (List (IState (EmbRKState ℝ s n m o l))))
    (i : StartingValues ℝ n m)
    (hfin : ∀ a st d, E.nonfinite a st = .ok d →
      d.startTime = a.initialTime ∧ d.startState = a.initialValues)
    {P : Problem} {ranks : ℕ} {req ind : List String} {ms : List Meta}
    (hs : setup P ranks req ind = .ok ms) (hranks : 0 < ranks) {names : List String}
    {vars : String → Var} (hnames : (ms.headD {}).quantities.map Quantity.name = names)
    (hnd : names.Nodup) (ht : "time" ∉ names) (he : "error_measure" ∉ names)
    (hord : ∀ nm ∈ names, Ordinary P nm (vars nm))
    (hpl : ∀ nm ∈ names, Whole ranks (vars nm) ∨ ∃ ns rest, Rows ranks (vars nm) ns rest)
    {period : ℕ} (hper : 0 < period) {glob : (Fin n → ℝ) → String → ℕ → ℝ}
    {views : IState (EmbRKState ℝ s n m o l) → List Snap}
    (hv : Views EmbRKState.toRKState ms true glob views) {j : ℕ} (hj : j < opt.computeCallbacks) :
    let r := computeF (embBackend E bhat) opt F fuel w i
    ∃ (x : IState (EmbRKState ℝ s n m o l)) (states : List (IState (EmbRKState ℝ s n m o l)))
      (begun : ℕ) (calls : List (Ev (EmbRKState ℝ s n m o l))),
      x.disc.finalTime = i.initialTime ∧ x.disc.finalState = i.initialValues ∧
      List.IsChain (Accepted (embBackend E bhat) opt) (x :: states) ∧
      (r.1.ck = states ∨ r.1.ck = states.dropLast ∧ begun = states.length) ∧
      (begun = states.length ∨ begun = states.length + 1) ∧
      ((∃ v, r.2 = .ok v) → begun = states.length ∧ r.1.ck = states) ∧
      r.1.log = w.log ++ calls ∧
      (∀ old, begun = 0 → calls.foldlM (onEvent period ms true views j) old = .ok old) ∧
      (∀ old, begun ≠ 0 → ∃ f, calls.foldlM (onEvent period ms true views j) old = .ok (some f) ∧
        FileHolds names (fun nm => (vars nm).globalShape) f
          (0 :: (List.range' 1 begun).filter fun k => period ∣ k)
          (fun k => if 0 < states.length ∧ k ≤ states.length then
            (nth x states k).disc.finalTime else 0)
          (fun k => if 0 < states.length ∧ k ≤ states.length then
            glob (nth x states k).disc.finalState else fun _ _ => 0)
          (fun k => some (if 0 < k ∧ k ≤ states.length then
            toReal (nth x states k).errHist.1 else 0))) := by
  intro r
  obtain ⟨states, begun, calls, h1, h2, h3, h4, -, h5, h6, h7⟩ := interrupted_file
    (B := embBackend E bhat) (opt := opt) EmbRKState.toRKState (emb_shift hfin) F fuel w i hs hranks
    hnames hnd ht he hord hpl hper hv hj
  exact ⟨_, states, begun, calls, rfl, rfl, h1, h2, h3, h4, h5, h6, h7⟩

/-- C104 for a scheme without error estimation, see `C104_interrupted_file_partial`. -/
theorem C104_interrupted_file_plain_partial {E : Env s n m o l} {opt : Options}
    (F : Faults (RKState ℝ s n m o l)) (fuel : ℕ)
    (w : World (RKState ℝ s n m o l) (List (IState (RKState ℝ s n m o l))))
    (i : StartingValues ℝ n m)
    (hfin : ∀ a st d, E.nonfinite a st = .ok d →
      d.startTime = a.initialTime ∧ d.startState = a.initialValues)
    {P : Problem} {ranks : ℕ} {req ind : List String} {ms : List Meta}
    (hs : setup P ranks req ind = .ok ms) (hranks : 0 < ranks) {names : List String}
    {vars : String → Var} (hnames : (ms.headD {}).quantities.map Quantity.name = names)
    (hnd : names.Nodup) (ht : "time" ∉ names) (he : "error_measure" ∉ names)
    (hord : ∀ nm ∈ names, Ordinary P nm (vars nm))
    (hpl : ∀ nm ∈ names, Whole ranks (vars nm) ∨ ∃ ns rest, Rows ranks (vars nm) ns rest)
    {period : ℕ} (hper : 0 < period) {glob : (Fin n → ℝ) → String → ℕ → ℝ}
    {views : IState (RKState ℝ s n m o l) → List Snap}
    (hv : Views id ms false glob views) {j : ℕ} (hj : j < opt.computeCallbacks) :
    let r := computeF (rkBackend E) opt F fuel w i
    ∃ (x : IState (RKState ℝ s n m o l)) (states : List (IState (RKState ℝ s n m o l)))
      (begun : ℕ) (calls : List (Ev (RKState ℝ s n m o l))),
      x.disc.finalTime = i.initialTime ∧ x.disc.finalState = i.initialValues ∧
      List.IsChain (Accepted (rkBackend E) opt) (x :: states) ∧
      (r.1.ck = states ∨ r.1.ck = states.dropLast ∧ begun = states.length) ∧
      (begun = states.length ∨ begun = states.length + 1) ∧
      ((∃ v, r.2 = .ok v) → begun = states.length ∧ r.1.ck = states) ∧
      r.1.log = w.log ++ calls ∧
      (∀ old, begun = 0 → calls.foldlM (onEvent period ms false views j) old = .ok old) ∧
      (∀ old, begun ≠ 0 → ∃ f, calls.foldlM (onEvent period ms false views j) old = .ok (some f) ∧
        FileHolds names (fun nm => (vars nm).globalShape) f
          (0 :: (List.range' 1 begun).filter fun k => period ∣ k)
          (fun k => if 0 < states.length ∧ k ≤ states.length then
            (nth x states k).disc.finalTime else 0)
          (fun k => if 0 < states.length ∧ k ≤ states.length then
            glob (nth x states k).disc.finalState else fun _ _ => 0)
          (fun _ => none)) := by
  intro r
  obtain ⟨states, begun, calls, h1, h2, h3, h4, -, h5, h6, h7⟩ := interrupted_file
    (B := rkBackend E) (opt := opt) id (rk_shift hfin) F fuel w i hs hranks
    hnames hnd ht he hord hpl hper hv hj
  exact ⟨_, states, begun, calls, rfl, rfl, h1, h2, h3, h4, h5, h6, by simpa [groupsOf] using h7⟩

/-- C104 is violated by every exception from a stage problem, the error measure or the controller in a
run in which no callback raises: the file has groups for the interrupted step `k` (if it is due) that
claim time 0, state 0 and error 0, and `read_last_local_error` returns that error, as of a perfect
step. If the first step is interrupted, group 0 claims initial time 0 and initial values 0, whatever
the inputs are. -/
theorem C104_zeros_violated {E : Env s n m o l} {bhat : Fin s → ℝ} {opt : Options}
    {F : Faults (EmbRKState ℝ s n m o l)} (hF : Quiet F) {fuel : ℕ}
    {w : World (EmbRKState ℝ s n m o l) (List (IState (EmbRKState ℝ s n m o l)))}
    {i : StartingValues ℝ n m} {e : Integrator.Err}
    (herr : (computeF (embBackend E bhat) opt F fuel w i).2 = .error e) (hfuel : e ≠ .fuel)
    (hfin : ∀ a st d, E.nonfinite a st = .ok d →
      d.startTime = a.initialTime ∧ d.startState = a.initialValues)
    {P : Problem} {ranks : ℕ} {req ind : List String} {ms : List Meta}
    (hs : setup P ranks req ind = .ok ms) (hranks : 0 < ranks) {names : List String}
    {vars : String → Var} (hnames : (ms.headD {}).quantities.map Quantity.name = names)
    (hnd : names.Nodup) (ht : "time" ∉ names) (he : "error_measure" ∉ names)
    (hord : ∀ nm ∈ names, Ordinary P nm (vars nm))
    (hpl : ∀ nm ∈ names, Whole ranks (vars nm) ∨ ∃ ns rest, Rows ranks (vars nm) ns rest)
    {period : ℕ} (hper : 0 < period) {glob : (Fin n → ℝ) → String → ℕ → ℝ}
    {views : IState (EmbRKState ℝ s n m o l) → List Snap}
    (hv : Views EmbRKState.toRKState ms true glob views) {j : ℕ} (hj : j < opt.computeCallbacks)
    (old : Option File) :
    let r := computeF (embBackend E bhat) opt F fuel w i
    ∃ (calls : List (Ev (EmbRKState ℝ s n m o l))) (f : File),
      r.1.log = w.log ++ calls ∧
      calls.foldlM (onEvent period ms true views j) old = .ok (some f) ∧
      (period ∣ r.1.ck.length + 1 →
        (∃ g, File.get f (toString (r.1.ck.length + 1)) = some g ∧
          Holds names (fun nm => (vars nm).globalShape) g 0 (fun _ _ => 0) (some 0)) ∧
        readLastError f = .ok 0) ∧
      (r.1.ck.length = 0 → ∃ g, File.get f "0" = some g ∧
        Holds names (fun nm => (vars nm).globalShape) g 0 (fun _ _ => 0) (some 0)) := by
  intro r
  obtain ⟨states, begun, calls, -, -, -, -, hq, h5, -, h7⟩ := interrupted_file
    (B := embBackend E bhat) (opt := opt) EmbRKState.toRKState (emb_shift hfin) F fuel w i hs hranks
    hnames hnd ht he hord hpl hper hv hj
  obtain ⟨rfl, hck⟩ := hq hF e herr hfuel
  obtain ⟨f, g1, g2⟩ := h7 old (by omega)
  refine ⟨calls, f, h5, g1, ?_, ?_⟩
  · intro hdue
    change period ∣ (computeF (embBackend E bhat) opt F fuel w i).1.ck.length + 1 at hdue
    rw [hck] at hdue
    have hmem : states.length + 1 ∈ groupsOf period (states.length + 1) := by
      refine List.mem_cons_of_mem _ (List.mem_filter.mpr ⟨?_, by simpa using hdue⟩)
      rw [List.mem_range'_1]
      omega
    refine ⟨?_, C43_last_error g2 hmem ?_ (by simp)⟩
    · obtain ⟨g, hg, hH⟩ := g2.groups _ hmem
      refine ⟨g, ?_, by simpa using hH⟩
      change File.get f (toString
        ((computeF (embBackend E bhat) opt F fuel w i).1.ck.length + 1)) = some g
      rw [hck]
      exact hg
    · intro k hk
      rcases List.mem_cons.mp hk with rfl | hk
      · omega
      · have := (List.mem_filter.mp hk).1
        rw [List.mem_range'_1] at this
        omega
  · intro h0
    change (computeF (embBackend E bhat) opt F fuel w i).1.ck.length = 0 at h0
    rw [hck] at h0
    obtain ⟨g, hg, hH⟩ := g2.groups 0 (by simp [groupsOf])
    exact ⟨g, hg, by simpa [h0] using hH⟩

section examples

namespace FaultFileEx

/-- The stage problem raises in the second step. -/
def secondSolve : Faults (EmbRKState ℝ 1 1 1 0 0) where
  raises
    | .solve 2 0 => some .backend
    | _ => none
  torn := id

/-- What the rank sees. -/
noncomputable def view (x : IState (EmbRKState ℝ 1 1 1 0 0)) : List Snap :=
  [⟨x.disc.startTime, fun _ => x.disc.startState 0, x.disc.finalTime,
    fun _ => x.disc.finalState 0, some (toReal x.errHist.1)⟩]

theorem views : Views EmbRKState.toRKState FileRunEx.metas true (fun v _ _ => v 0) view := by
  constructor
  · intro x a ha; rw [List.mem_singleton.mp ha]
  · intro x a ha; rw [List.mem_singleton.mp ha]
  · intro x; exact FileRunEx.held _
  · intro x; exact FileRunEx.held _
  · intro x a ha; rw [List.mem_singleton.mp ha]; rfl

/-- The freshly set up component. -/
noncomputable def world :
    World (EmbRKState ℝ 1 1 1 0 0) (List (IState (EmbRKState ℝ 1 1 1 0 0))) :=
  freshWorld Integrator.Ex.opt3 (allCk (embBackend Integrator.Ex.env fun _ => 0) Integrator.Ex.opt3)
    EmbRKState.empty Integrator.Ex.ctrl

theorem interrupted :
    let r := computeF (embBackend Integrator.Ex.env fun _ => 0) Integrator.Ex.opt3 secondSolve 5
      world Integrator.Ex.inp
    r.2 = .error .backend ∧ r.1.ck.length = 1 := by
  have f0 : ∀ t, ¬ Integrator.Ex.opt3.crit.finished 0 t := fun t => by
    simp [Integrator.Ex.opt3, Crit.finished]
  have f1 : ∀ t, ¬ Integrator.Ex.opt3.crit.finished 1 t := fun t => by
    simp [Integrator.Ex.opt3, Crit.finished]
  have s1 : ∀ (c : Ctrl) (x : IState (EmbRKState ℝ 1 1 1 0 0)), x.sugg = .fin (1 / 2) →
      ∃ x' log, runStepF (embBackend Integrator.Ex.env fun _ => 0) Integrator.Ex.opt3 secondSolve
        (0 + 1) c x = ⟨c, x', log, .ok ()⟩ := by
    rintro c ⟨d, _, a, b⟩ rfl
    exact ⟨_, _, rfl⟩
  have s2 : ∀ (c : Ctrl) (x : IState (EmbRKState ℝ 1 1 1 0 0)),
      ∃ log, runStepF (embBackend Integrator.Ex.env fun _ => 0) Integrator.Ex.opt3 secondSolve
        (0 + 1 + 1) c x = ⟨c, x, log, .error .backend⟩ := fun c x => ⟨_, rfl⟩
  have hl : ∀ (c : Ctrl) (x : IState (EmbRKState ℝ 1 1 1 0 0)), x.sugg = .fin (1 / 2) →
      ∃ x' log, allForwardF (embBackend Integrator.Ex.env fun _ => 0) Integrator.Ex.opt3 secondSolve
        5 0 [] c x = ([x'], ⟨c, x', log, .error .backend⟩) := by
    intro c x hx
    obtain ⟨x', l1, e1⟩ := s1 c x hx
    obtain ⟨l2, e2⟩ := s2 c x'
    refine ⟨x', l1 ++ l2, ?_⟩
    simp only [allForwardF, if_neg (f0 _), if_neg (f1 _), e1, e2]
    rfl
  obtain ⟨x', log, e⟩ := hl world.ctrl
    (startOf (embBackend Integrator.Ex.env fun _ => 0) Integrator.Ex.opt3 world.ctrl world.tis.disc
      Integrator.Ex.inp) rfl
  simp only [startOf] at e
  simp only [computeF, resetErrorControl]
  rw [e]
  exact ⟨rfl, rfl⟩

end FaultFileEx

open FaultFileEx in
/-- Interrupted in the second of three steps: group 2 claims time 0 and error 0, although the run
began at time 2. -/
example : ∃ (calls : List _) (f : File) (g : File.Group),
    (computeF (embBackend Integrator.Ex.env fun _ => 0) Integrator.Ex.opt3 secondSolve 5
      world Integrator.Ex.inp).1.log = world.log ++ calls ∧
    calls.foldlM (onEvent 1 FileRunEx.metas true view 0) none = .ok (some f) ∧
    File.get f "2" = some g ∧ (∃ ds, File.get g "time" = some ds ∧ ds.cell [0] = 0) ∧
    readLastError f = .ok 0 := by
  obtain ⟨calls, f, h1, h2, h3, -⟩ := C104_zeros_violated (F := secondSolve)
    (fun _ _ _ => ⟨rfl, rfl⟩) interrupted.1 (by simp)
    (by intro a st d hd; cases hd) FileRunEx.setup_ok (by omega) (names := ["y"])
    (vars := fun _ => ⟨"y_up", .output, ["y", "stage_output_var"], [1], [some [1]]⟩)
    (by decide +kernel) (by decide) (by decide) (by decide)
    (by
      intro nm hnm
      rw [List.mem_singleton.mp hnm]
      constructor <;> decide)
    (by intro nm _; exact Or.inl (by unfold Whole; decide))
    (period := 1) (by omega) views (j := 0) (by decide) none
  obtain ⟨⟨g, hg, hH⟩, hlast⟩ := h3 (by simp)
  rw [interrupted.2] at hg
  obtain ⟨ds, q1, -, q3⟩ := hH.time
  exact ⟨calls, f, g, h1, h2, hg, ⟨ds, q1, q3⟩, hlast⟩

end examples

end Verif.Props
