/-
Properties of what the default callbacks print (C115).
-/
import Verif.Integrator.Printed
import Verif.Props.PyrevolveChain

namespace Verif.Props

open Verif.RK Verif.RK.Spec Verif.Control Verif.XReal Verif.Integrator
open Classical

variable {opt : Options} {D I O : Type} {B : Backend D I O}

/-- The lines for `N` steps with the numbers `number 0, number 1, ...` of the function `name`, if the
clock was read `r` times before. -/
def stepLines (clock : ℕ → ℝ) (r N : ℕ) (number : ℕ → ℕ) (name : String) : List Line :=
  (List.range N).flatMap fun j => [.starting (number j) name, .finishing (number j) name,
    .took (clock (r + 2 * j + 1) - clock (r + 2 * j))]

theorem zip_range_map {N : ℕ} {l : List ℕ} {number : ℕ → ℕ} (hl : l = (List.range N).map number) :
    List.zip (List.range N) l = (List.range N).map fun j => (j, number j) := by
  subst hl
  rw [List.zip_map_right]
  induction N with
  | zero => rfl
  | succ N ih =>
    rw [List.range_succ, List.zip_append rfl, List.map_append, List.map_append, ih]
    rfl

theorem printed_of_steps {clock : ℕ → ℝ} {k : Kind} {q : List (ℕ × IState D × IState D)} {N : ℕ}
    {number : ℕ → ℕ} (hq : q.map Prod.fst = (List.range N).map number) (s : Watch) :
    (printAll clock s (q.flatMap fun e => stepCalls k e.1 e.2.1 e.2.2)).2
      = stepLines clock s.reads N number k.name ∧
    (printAll clock s (q.flatMap fun e => stepCalls k e.1 e.2.1 e.2.2)).1.reads = s.reads + 2 * N := by
  have hlen : q.length = N := by simpa using congrArg List.length hq
  obtain ⟨h1, h2⟩ := printAll_steps clock k q s
  rw [h1, h2, hlen, zip_range_map hq, List.flatMap_map]
  exact ⟨rfl, rfl⟩

theorem zip_fst {α : Type} {N : ℕ} {l : List α} (hl : l.length = N) :
    (List.zip (List.range N) l).map Prod.fst = List.range N :=
  List.map_fst_zip (by simp [hl])

theorem printed_runLog (clock : ℕ → ℝ) (k : Kind) (x : IState D) (tr : List (Ctrl × IState D))
    (s : Watch) :
    (printAll clock s (runLog k 2 0 x tr)).2
      = stepLines clock s.reads tr.length (· + 1) k.name ∧
    (printAll clock s (runLog k 2 0 x tr)).1.reads = s.reads + 2 * tr.length := by
  have hq : runLog k 2 0 x tr = ((List.zip (List.range tr.length)
      (List.zip (x :: tr.map Prod.snd) (tr.map Prod.snd))).map fun q => (q.1 + 1, q.2)).flatMap
        fun e => stepCalls k e.1 e.2.1 e.2.2 := by
    rw [runLog_flat, List.flatMap_map]
    simp [stepCalls]
  rw [hq]
  refine printed_of_steps ?_ s
  rw [List.map_map, show (Prod.fst ∘ fun q : ℕ × IState D × IState D => (q.1 + 1, q.2))
    = (· + 1) ∘ Prod.fst from rfl, ← List.map_map, zip_fst (by simp)]

/-- C115, `compute` without checkpoints or with all checkpoints: every step prints three lines: that
it starts, that it finished, and the difference of the two readings of the clock around it; the steps
have the numbers 1, 2, ... `l` are the sizes of the steps that lead to the result. -/
theorem C115_compute {clock : ℕ → ℝ} {fuel : ℕ} {ch : Choice} {w w' : World D (ch.Data D)} {i : I}
    {v : O} (hcb : opt.computeCallbacks = 2)
    (h : compute B opt (ch.ck B opt) fuel w i = (w', .ok v)) (s : Watch) :
    ∃ l new, Path B (B.clearLin (B.load w.tis.disc i)) l w'.tis.disc ∧
      (∀ N, opt.crit = .steps N → l.length = N) ∧ w'.log = w.log ++ new ∧
      (printAll clock s new).2 = stepLines clock s.reads l.length (· + 1) "compute" ∧
      (printAll clock s new).1.reads = s.reads + 2 * l.length := by
  obtain ⟨tr, htr, -, -, ht, hlog, -⟩ := compute_run h
  obtain ⟨l, hl1, hl2, -⟩ := htr.path
  rw [hcb] at hlog
  refine ⟨l, _, by rw [ht]; exact hl1, fun N hN => ?_, hlog, ?_⟩
  · have := htr.length_steps hN (Nat.zero_le _)
    omega
  · rw [hl2]
    exact printed_runLog clock .compute _ tr s

/-- C115 for forward products. -/
theorem C115_forward {clock : ℕ → ℝ} {σ : Type} {fuel : ℕ} {w w' : World D σ} {i di : I} {dO v : O}
    (hcb : opt.fwdCallbacks = 2) (h : fwd B opt fuel w i di dO = (w', .ok v)) (s : Watch) :
    ∃ l last new, Path B (B.load w.tis.disc i) l last ∧
      (∀ N, opt.crit = .steps N → l.length = N) ∧ w'.log = w.log ++ new ∧
      (printAll clock s new).2
        = stepLines clock s.reads l.length (· + 1) "compute_jacvec_product_fwd" ∧
      (printAll clock s new).1.reads = s.reads + 2 * l.length := by
  obtain ⟨tr, htr, -, -, hlog, -⟩ := fwd_run h
  obtain ⟨l, hl1, hl2, -⟩ := htr.path
  rw [hcb] at hlog
  refine ⟨l, _, _, hl1, fun N hN => ?_, hlog, ?_⟩
  · have := htr.length_steps hN (Nat.zero_le _)
    omega
  · rw [hl2]
    exact printed_runLog clock .fwd _ tr s

/-- C115 for reverse products after `compute` with all checkpoints: the numbers count down. -/
theorem C115_reverse {clock : ℕ → ℝ} {fuel : ℕ} {w w' : World D (List (IState D))} {i : I} {v : O}
    (hcb : opt.revCallbacks = 2) (h : compute B opt (allCk B opt) fuel w i = (w', .ok v))
    (hhit : B.cacheHit (B.load w.tis.disc i) i = true) (dO : O) (dI : I) (s : Watch) :
    ∃ l new, Path B (B.clearLin (B.load w.tis.disc i)) l w'.tis.disc ∧
      (∀ N, opt.crit = .steps N → l.length = N) ∧
      (rev B opt (allCk B opt) fuel w' i dO dI).1.log = w'.log ++ new ∧
      (printAll clock s new).2
        = stepLines clock s.reads l.length (fun j => l.length - j) "compute_jacvec_product_rev" ∧
      (printAll clock s new).1.reads = s.reads + 2 * l.length := by
  obtain ⟨tr, htr, -, -, ht, -, -, hcache, -⟩ := compute_run (ch := .all) h
  have hst := compute_stores h htr
  have hlog : (rev B opt (allCk B opt) fuel w' i dO dI).1.log
        = w'.log ++ revLog opt.revCallbacks (tr.map Prod.snd).reverse := by
    simp only [rev, revPrep, cacheOk, hcache, hhit, if_true, allCk, hst, allReverse_snd]
  obtain ⟨l, hl1, hl2, -⟩ := htr.path
  rw [revLog_flat, hcb] at hlog
  refine ⟨l, _, by rw [ht]; exact hl1, fun N hN => ?_, hlog, ?_⟩
  · have := htr.length_steps hN (Nat.zero_le _)
    omega
  · have hq : (List.zip (List.range (tr.map Prod.snd).length) (tr.map Prod.snd)).reverse.flatMap
        (fun q => (List.range 2).map (fun j => Ev.before .rev j (q.1 + 1) q.2) ++
          (List.range 2).map (fun j => .after .rev j (q.1 + 1) q.2))
        = ((List.zip (List.range (tr.map Prod.snd).length) (tr.map Prod.snd)).reverse.map
          fun q => (q.1 + 1, q.2, q.2)).flatMap fun e => stepCalls .rev e.1 e.2.1 e.2.2 := by
      rw [List.flatMap_map]
      rfl
    rw [hq]
    refine printed_of_steps ?_ s
    rw [List.map_map, show (Prod.fst ∘ fun q : ℕ × IState D => (q.1 + 1, q.2, q.2))
      = (· + 1) ∘ Prod.fst from rfl, ← List.map_map, List.map_reverse, zip_fst rfl, hl2,
      List.length_map, List.map_reverse]
    refine List.ext_getElem (by simp) fun j h1 h2 => ?_
    simp only [List.length_map, List.length_range, List.length_reverse] at h1 h2
    simp only [List.getElem_reverse, List.getElem_map, List.getElem_range, List.length_map,
      List.length_range]
    omega

/-- C115, the times printed are not negative if the clock does not go back. -/
theorem C115_elapsed {clock : ℕ → ℝ} (hm : Monotone clock) {r N : ℕ} {number : ℕ → ℕ} {name : String}
    {t : ℝ} (h : .took t ∈ stepLines clock r N number name) : 0 ≤ t := by
  simp only [stepLines, List.mem_flatMap, List.mem_cons, List.not_mem_nil, or_false, reduceCtorEq,
    false_or, Line.took.injEq] at h
  obtain ⟨j, -, rfl⟩ := h
  exact sub_nonneg.mpr (hm (Nat.le_succ _))

theorem noForward_error {fuel it : ℕ} {c : Ctrl} {x : IState D} {e : Integrator.Err}
    (h : (noForward B opt fuel it c x).out = .error e) (he : e ≠ .fuel) :
    ∃ (tr : List (Ctrl × IState D)) (c' : Ctrl) (y : IState D),
      ¬ opt.crit.finished (it + tr.length) (B.time y.disc) ∧
      (iterateOnStep B opt opt.recursionLimit c' y).2.2 = .error e ∧
      (noForward B opt fuel it c x).log = runLog .compute opt.computeCallbacks it x tr
        ++ callbacks (fun j => .before .compute j (it + tr.length + 1) y) opt.computeCallbacks := by
  induction fuel generalizing it c x with
  | zero =>
    simp only [noForward, Except.error.injEq] at h
    exact absurd h.symm he
  | succ f ih =>
    rw [noForward] at h ⊢
    by_cases hf : opt.crit.finished it (B.time x.disc)
    · simp [hf] at h
    · rw [if_neg hf] at h ⊢
      rcases hr : iterateOnStep B opt opt.recursionLimit c x with ⟨c', x', e' | u⟩
      · simp only [runStep, hr] at h ⊢
        injection h with h
        subst h
        exact ⟨[], c, x, hf, by rw [hr], rfl⟩
      · simp only [runStep, hr] at h ⊢
        obtain ⟨tr, c2, y, h1, h2, h3⟩ := ih h
        refine ⟨(c', x') :: tr, c2, y, ?_, h2, ?_⟩
        · rw [List.length_cons]
          convert h1 using 2
          omega
        · rw [h3, runLog, List.length_cons]
          simp only [callbacks, List.append_assoc]
          congr 4
          funext j
          congr 1
          omega

/-- C115, a step that raises an exception: the lines of the steps before it, and that it starts. The
next step of the function, in a later operation, prints its own times. -/
theorem C115_exception {clock : ℕ → ℝ} {fuel : ℕ} {ch : Choice} {w w' : World D (ch.Data D)} {i : I}
    {e : Integrator.Err} (hcb : opt.computeCallbacks = 2)
    (h : compute B opt (ch.ck B opt) fuel w i = (w', .error e)) (he : e ≠ .fuel) (s : Watch) :
    ∃ N new c y, ¬ opt.crit.finished N (B.time y.disc) ∧
      (iterateOnStep B opt opt.recursionLimit c y).2.2 = .error e ∧ w'.log = w.log ++ new ∧
      (printAll clock s new).2
        = stepLines clock s.reads N (· + 1) "compute" ++ [.starting (N + 1) "compute"] ∧
      (printAll clock s new).1.reads = s.reads + 2 * N + 1 := by
  have key := choice_forward (B := B) (opt := opt) ch fuel ((ch.ck B opt).create w.ck) w.ctrl
    (startOf B opt w.ctrl w.tis.disc i)
  have h0 : (noForward B opt fuel 0 w.ctrl (startOf B opt w.ctrl w.tis.disc i)).out = .error e ∧
      w'.log = w.log ++ (noForward B opt fuel 0 w.ctrl (startOf B opt w.ctrl w.tis.disc i)).log := by
    simp only [compute, resetErrorControl] at h
    simp only [startOf] at key ⊢
    rw [key] at h
    generalize noForward B opt fuel 0 w.ctrl _ = r at h
    obtain ⟨c', x', log, e' | u⟩ := r
    · simp only [Prod.mk.injEq, Except.error.injEq] at h
      exact ⟨by rw [h.2], by rw [← h.1]⟩
    · simp at h
  obtain ⟨tr, c', y, h1, h2, h3⟩ := noForward_error h0.1 he
  rw [hcb] at h3
  simp only [Nat.zero_add] at h1 h3
  refine ⟨tr.length, _, c', y, h1, h2, by rw [h0.2, h3], ?_⟩
  obtain ⟨a1, a2⟩ := printAll_append clock s
    (runLog .compute 2 0 (startOf B opt w.ctrl w.tis.disc i) tr)
    (callbacks (fun j => .before .compute j (tr.length + 1) y) 2)
  obtain ⟨b1, b2⟩ := printed_runLog clock .compute (startOf B opt w.ctrl w.tis.disc i) tr s
  rw [a1, a2, b1]
  refine ⟨?_, ?_⟩
  · congr 1
  · rw [← b2]
    rfl

/-- C115 with pyrevolve and schedules that load no checkpoint in the forward phase: as for the other
checkpointers, but the numbers start at 0 (C16). -/
theorem C115_pyrevolve_violated {clock : ℕ → ℝ} {R : Restore D} {e : IState D} {N fuel : ℕ}
    {sched : Schedule} {sl : ℕ → Option ℕ} (hcb : opt.computeCallbacks = 2)
    (hl : LegalF N sched.fwd 0 (fun _ => none) sl)
    (hno : NoRestore sched.fwd) (hN : opt.crit = .steps (N + 1)) (hf : N + 1 < fuel)
    {w w' : World D (PyData D)} {i : I} {v : O}
    (h : compute B opt (pyCk B opt R e N sched) fuel w i = (w', .ok v)) (s : Watch) :
    ∃ new, w'.log = w.log ++ new ∧
      (printAll clock s new).2 = stepLines clock s.reads (N + 1) id "compute" ∧
      (printAll clock s new).2 ≠ stepLines clock s.reads (N + 1) (· + 1) "compute" := by
  obtain ⟨states, h1, -, -, h4⟩ := C40_pyrevolve_compute_order_partial hl hno hN hf h
  have hq : (List.zip (List.range states.length)
      (List.zip (startOf B opt w.ctrl w.tis.disc i :: states) states)).flatMap
        (fun q => Block.calls opt (.step q.1 q.2.1 q.2.2))
      = (List.zip (List.range states.length)
      (List.zip (startOf B opt w.ctrl w.tis.disc i :: states) states)).flatMap
        fun e => stepCalls .compute e.1 e.2.1 e.2.2 := by
    refine List.flatMap_congr fun q _ => ?_
    simp [Block.calls, stepCalls, hcb]
  rw [hq] at h4
  have hp := (printed_of_steps (clock := clock) (k := .compute) (number := id) (N := N + 1)
    (q := List.zip (List.range states.length)
      (List.zip (startOf B opt w.ctrl w.tis.disc i :: states) states))
    (by rw [zip_fst (by simp), h1, List.map_id]) s).1
  refine ⟨_, h4, hp, ?_⟩
  rw [hp]
  intro hh
  have := congrArg (fun l => l[0]?) hh
  simp [stepLines, List.range_succ_eq_map] at this

theorem fwdLoop_error {fuel it : ℕ} {c : Ctrl} {x : IState D} {p : D} {e : Integrator.Err}
    (h : (fwdLoop B opt fuel it c x p).1.out = .error e) (he : e ≠ .fuel) :
    ∃ (tr : List (Ctrl × IState D)) (c' : Ctrl) (y : IState D),
      ¬ opt.crit.finished (it + tr.length) (B.time y.disc) ∧
      (iterateOnStep B opt opt.recursionLimit c' y).2.2 = .error e ∧
      (fwdLoop B opt fuel it c x p).1.log = runLog .fwd opt.fwdCallbacks it x tr
        ++ callbacks (fun j => .before .fwd j (it + tr.length + 1) y) opt.fwdCallbacks := by
  induction fuel generalizing it c x p with
  | zero =>
    simp only [fwdLoop, Except.error.injEq] at h
    exact absurd h.symm he
  | succ f ih =>
    rw [fwdLoop] at h ⊢
    by_cases hf : opt.crit.finished it (B.time x.disc)
    · simp [hf] at h
    · rw [if_neg hf] at h ⊢
      rcases hr : iterateOnStep B opt opt.recursionLimit c x with ⟨c', x', e' | u⟩
      · simp only [runStepFwd, hr] at h ⊢
        injection h with h
        subst h
        exact ⟨[], c, x, hf, by rw [hr], rfl⟩
      · simp only [runStepFwd, hr] at h ⊢
        obtain ⟨tr, c2, y, h1, h2, h3⟩ := ih h
        refine ⟨(c', x') :: tr, c2, y, ?_, h2, ?_⟩
        · rw [List.length_cons]
          convert h1 using 2
          omega
        · rw [h3, runLog, List.length_cons]
          simp only [callbacks, List.append_assoc]
          congr 4
          funext j
          congr 1
          omega

/-- C115, a step of a forward product that raises an exception. -/
theorem C115_exception_forward {clock : ℕ → ℝ} {σ : Type} {fuel : ℕ} {w w' : World D σ} {i di : I}
    {dO : O} {e : Integrator.Err} (hcb : opt.fwdCallbacks = 2)
    (h : fwd B opt fuel w i di dO = (w', .error e)) (he : e ≠ .fuel) (s : Watch) :
    ∃ N new c y, ¬ opt.crit.finished N (B.time y.disc) ∧
      (iterateOnStep B opt opt.recursionLimit c y).2.2 = .error e ∧ w'.log = w.log ++ new ∧
      (printAll clock s new).2
        = stepLines clock s.reads N (· + 1) "compute_jacvec_product_fwd"
          ++ [.starting (N + 1) "compute_jacvec_product_fwd"] ∧
      (printAll clock s new).1.reads = s.reads + 2 * N + 1 := by
  simp only [fwd] at h
  generalize hx : resetErrorControl opt w.ctrl _ = x at h
  generalize B.load w.pert di = p at h
  have h0 : (fwdLoop B opt fuel 0 w.ctrl x p).1.out = .error e ∧
      w'.log = w.log ++ (fwdLoop B opt fuel 0 w.ctrl x p).1.log := by
    generalize fwdLoop B opt fuel 0 w.ctrl x p = r at h
    obtain ⟨⟨c', x', log, e' | u⟩, p'⟩ := r
    · simp only [Prod.mk.injEq, Except.error.injEq] at h
      exact ⟨by rw [h.2], by rw [← h.1]⟩
    · simp at h
  obtain ⟨tr, c', y, h1, h2, h3⟩ := fwdLoop_error h0.1 he
  rw [hcb] at h3
  simp only [Nat.zero_add] at h1 h3
  refine ⟨tr.length, _, c', y, h1, h2, by rw [h0.2, h3], ?_⟩
  obtain ⟨a1, a2⟩ := printAll_append clock s (runLog .fwd 2 0 x tr)
    (callbacks (fun j => .before .fwd j (tr.length + 1) y) 2)
  obtain ⟨b1, b2⟩ := printed_runLog clock .fwd x tr s
  rw [a1, a2, b1]
  refine ⟨?_, ?_⟩
  · congr 1
  · rw [← b2]
    rfl

/-- C115, reverse products that raise an exception without checkpoints or with all checkpoints: it
comes from the `compute` they begin with, which prints what `C115_exception` says, or there are no
checkpoints and nothing follows the lines of a complete `compute`, if one was needed. -/
theorem C115_exception_reverse {fuel : ℕ} {ch : Choice} {w w' : World D (ch.Data D)} {i dI : I} {dO : O}
    {e : Integrator.Err} (h : rev B opt (ch.ck B opt) fuel w i dO dI = (w', .error e)) :
    (∃ w1, compute B opt (ch.ck B opt) fuel w i = (w1, .error e) ∧ w'.log = w1.log) ∨
    (ch = .no ∧ e = .notImplemented ∧
      (w'.log = w.log ∨ ∃ w1 v, compute B opt (ch.ck B opt) fuel w i = (w1, .ok v) ∧
        w'.log = w1.log)) := by
  have hprep : ∀ w1, revPrep B opt (ch.ck B opt) fuel w i = (w1, .ok ()) →
      w1 = w ∨ ∃ v, compute B opt (ch.ck B opt) fuel w i = (w1, .ok v) := by
    intro w1 h1
    rw [revPrep] at h1
    split at h1
    · simp only [Prod.mk.injEq, and_true] at h1
      exact Or.inl h1.symm
    · rcases hc : compute B opt (ch.ck B opt) fuel w i with ⟨w2, e' | v⟩
      · rw [hc] at h1; simp at h1
      · rw [hc] at h1
        simp only [Prod.mk.injEq, and_true] at h1
        rw [← h1]
        exact Or.inr ⟨v, rfl⟩
  simp only [rev] at h
  rcases hp : revPrep B opt (ch.ck B opt) fuel w i with ⟨w1, e' | u⟩
  · rw [hp] at h
    simp only [Prod.mk.injEq, Except.error.injEq] at h
    obtain ⟨rfl, rfl⟩ := h
    refine Or.inl ⟨w1, ?_, rfl⟩
    rw [revPrep] at hp
    split at hp
    · simp at hp
    · rcases hc : compute B opt (ch.ck B opt) fuel w i with ⟨w2, e2 | v⟩
      · rw [hc] at hp
        simpa using hp
      · rw [hc] at hp
        simp at hp
  · rw [hp] at h
    cases ch with
    | all => simp [Choice.ck, allCk] at h
    | no =>
      simp only [Choice.ck, noCk, Prod.mk.injEq, Except.error.injEq, List.append_nil] at h
      obtain ⟨rfl, rfl⟩ := h
      refine Or.inr ⟨rfl, rfl, ?_⟩
      rcases hprep w1 hp with rfl | ⟨v, hv⟩
      · exact Or.inl rfl
      · exact Or.inr ⟨w1, v, hv, rfl⟩

/-- Kind and number of a step. -/
def Block.label : Block D → Kind × ℕ
  | .step it _ _ => (.compute, it)
  | .rev it _ => (.rev, it)

/-- The states around a step. -/
def Block.states : Block D → IState D × IState D
  | .step _ x y => (x, y)
  | .rev _ x => (x, x)

theorem revEvents_blocks (hr : opt.revCallbacks = 2) (bs : List (Block D)) {n : ℕ}
    (h : revEvents (bs.flatMap (Block.calls opt)) = revCalls 2 n) :
    ((bs.map Block.label).filter fun e => e.1 = .rev).map Prod.snd
      = (List.range n).map fun j => n - j := by
  induction bs generalizing n with
  | nil =>
    cases n with
    | zero => rfl
    | succ n => simp [revEvents, revCalls, List.range_succ] at h
  | cons b bs ih =>
    rw [List.flatMap_cons, revEvents_append] at h
    cases b with
    | step it x y =>
      have h0 : revEvents (Block.calls opt (.step it x y)) = [] := by
        simp [revEvents, Block.calls, List.filterMap_map]
      rw [h0, List.nil_append] at h
      simpa [Block.label] using ih h
    | rev it x =>
      have h0 : revEvents (Block.calls opt (.rev it x)) =
          [(true, 0, it), (true, 1, it), (false, 0, it), (false, 1, it)] := by
        simp [revEvents, Block.calls, hr, List.range_succ]
      rw [h0] at h
      cases n with
      | zero => simp [revCalls] at h
      | succ n =>
        simp only [revCalls, List.range_succ, List.range_zero, List.nil_append, List.cons_append,
          List.map_cons, List.map_nil, List.cons.injEq, Prod.mk.injEq, true_and] at h
        obtain ⟨rfl, -, -, -, h⟩ := h
        have := ih h
        simp only [List.map_cons, Block.label, decide_true, List.filter_cons_of_pos]
        rw [this, List.range_succ_eq_map, List.map_cons, List.map_map]
        simp [Function.comp_def]

/-- C115 for reverse products with pyrevolve, any legal schedule and any error controllers, with or
without an earlier `compute`: three lines for every step, with the times of its own two readings of the
clock. The steps are those of the forward run, some of them repeated, and those of the reverse mode,
which have the numbers `N + 1, ..., 1`. -/
theorem C115_pyrevolve_reverse {clock : ℕ → ℝ} {R : Restore D} {e : IState D} {N fuel : ℕ}
    {sched : Schedule} (hc : opt.computeCallbacks = 2) (hr : opt.revCallbacks = 2)
    (hl : Legal N sched) {w w' : World D (PyData D)} {i dI g : I} {dO : O}
    (h : rev B opt (pyCk B opt R e N sched) fuel w i dO dI = (w', .ok g)) (s : Watch) :
    ∃ (new : List (Ev D)) (q : List (Kind × ℕ)), w'.log = w.log ++ new ∧
      (printAll clock s new).2 = (List.zip (List.range q.length) q).flatMap (fun e =>
        [.starting e.2.2 e.2.1.name, .finishing e.2.2 e.2.1.name,
          .took (clock (s.reads + 2 * e.1 + 1) - clock (s.reads + 2 * e.1))]) ∧
      (∀ e ∈ q, e.1 = .compute ∨ e.1 = .rev) ∧
      (q.filter fun e => e.1 = .rev).map Prod.snd = (List.range (N + 1)).map fun j => N + 1 - j := by
  obtain ⟨new, h1, ⟨bs, -, rfl⟩, h3⟩ := C40_pyrevolve_rev_callbacks hl h
  rw [hr] at h3
  refine ⟨_, bs.map Block.label, h1, ?_, ?_, revEvents_blocks hr bs h3⟩
  · have hq : bs.flatMap (Block.calls opt) =
        (bs.map fun b => (b.label.1, b.label.2, b.states)).flatMap
          fun e => stepCalls e.1 e.2.1 e.2.2.1 e.2.2.2 := by
      rw [List.flatMap_map]
      refine List.flatMap_congr fun b _ => ?_
      cases b <;> simp [Block.calls, stepCalls, Block.label, Block.states, hc, hr]
    rw [hq, (printAll_kinds clock _ s).1, List.map_map, List.length_map, List.length_map]
    rfl
  · simp only [List.mem_map]
    rintro _ ⟨b, -, rfl⟩
    cases b
    · exact Or.inl rfl
    · exact Or.inr rfl

/-- A case: a reverse product of a fresh component with pyrevolve and one checkpoint, for every number of
steps. -/
example (k : ℕ) (dO : Outputs 1) :
    let opt : Options :=
      { Integrator.Ex.opt3 with crit := .steps (k + 2), computeCallbacks := 2, revCallbacks := 2 }
    let B := rkBackend Integrator.Ex.env
    let ck := pyCk B opt rkRestore (Integrator.Ex.fresh opt .all).tis (k + 1) (single k)
    ∃ w' g, rev B opt ck (k + 3) (freshWorld opt ck RKState.empty Integrator.Ex.ctrl)
      Integrator.Ex.inp dO ⟨0, 0, 0⟩ = (w', .ok g) := by
  intro opt B ck
  have h := C33_pyrevolve_reverse_partial (opt := opt) Integrator.Ex.env
    Integrator.Ex.env_noStageState
    (single_legal k) rfl (by omega) (e := (Integrator.Ex.fresh opt .all).tis)
    (w := freshWorld opt ck RKState.empty Integrator.Ex.ctrl) (fuel := k + 3)
    (w0 := Integrator.Ex.fresh opt .all) (Or.inl rfl) rfl rfl rfl
    rfl rfl Integrator.Ex.inp ⟨0, 0, 0⟩ dO
  obtain ⟨tr, htr⟩ := exists_run_fixed (B := rkBackend Integrator.Ex.env) (opt := opt)
    (n := k + 2) rfl rfl (by simp [opt, Integrator.Ex.opt3]) Integrator.Ex.ctrl
    (startOf (rkBackend Integrator.Ex.env) opt Integrator.Ex.ctrl
      (Integrator.Ex.fresh opt .all).tis.disc Integrator.Ex.inp)
    (fun d => ⟨computeStep Integrator.Ex.env.T Integrator.Ex.env.ode d (1 / 2), by
      simp [rkBackend, startOf, opt, Integrator.Ex.opt3, Integrator.Ex.env]⟩) 0
  have hlen := htr.length_steps (opt := opt) (n := k + 2) rfl (Nat.zero_le _)
  rw [rev_of_run rfl htr (by omega)] at h
  rcases hr : rev B opt ck (k + 3) (freshWorld opt ck RKState.empty Integrator.Ex.ctrl)
      Integrator.Ex.inp dO ⟨0, 0, 0⟩ with ⟨w', o⟩
  rw [hr] at h
  exact ⟨w', _, by rw [show o = _ from h]⟩

/-- A case: a forward product whose first step raises prints one line. -/
example (di : StartingValues ℝ 1 1) (dO : Outputs 1) :
    let opt : Options := { Integrator.Ex.opt3 with fwdCallbacks := 2, recursionLimit := 0 }
    ∃ w', fwd (rkBackend Integrator.Ex.env) opt 4 (Integrator.Ex.fresh opt .all) Integrator.Ex.inp di dO
        = (w', .error .recursion) ∧
      (printAll (fun n => (n : ℝ)) ⟨0, fun _ => 0⟩ w'.log).2
        = [.starting 1 "compute_jacvec_product_fwd"] := by
  intro opt
  have hf : ¬ opt.crit.finished 0 ((rkBackend Integrator.Ex.env).time
      (resetErrorControl opt (Integrator.Ex.fresh opt .all).ctrl
        { (Integrator.Ex.fresh opt .all).tis with
          disc := (rkBackend Integrator.Ex.env).load (Integrator.Ex.fresh opt .all).tis.disc
            Integrator.Ex.inp }).disc) := by
    simp [opt, Integrator.Ex.opt3, Crit.finished]
  refine ⟨(fwd (rkBackend Integrator.Ex.env) opt 4 (Integrator.Ex.fresh opt .all) Integrator.Ex.inp
    di dO).1, ?_, ?_⟩ <;>
  · rw [fwd, fwdLoop, if_neg hf]
    rfl

/-- A case: three steps of the example of the integrator with the default callbacks, in `compute` and a
reverse product, with the clock `n ^ 2`. -/
example : ∃ w' v, compute (rkBackend Integrator.Ex.env)
      { Integrator.Ex.opt3 with computeCallbacks := 2 }
      (Choice.all.ck (rkBackend Integrator.Ex.env) { Integrator.Ex.opt3 with computeCallbacks := 2 }) 4
      (Integrator.Ex.fresh { Integrator.Ex.opt3 with computeCallbacks := 2 } .all) Integrator.Ex.inp
      = (w', .ok v) ∧
    (printAll (fun n => (n : ℝ) ^ 2) ⟨0, fun _ => 0⟩ w'.log).2
      = [.starting 1 "compute", .finishing 1 "compute", .took 1,
        .starting 2 "compute", .finishing 2 "compute", .took 5,
        .starting 3 "compute", .finishing 3 "compute", .took 9] := by
  obtain ⟨w', v, h⟩ := C16_compute_succeeds (opt := { Integrator.Ex.opt3 with computeCallbacks := 2 })
    Integrator.Ex.env (fun _ _ => rfl) (1 / 2) 3 rfl rfl rfl (by simp [Integrator.Ex.opt3]) .all
    (Integrator.Ex.fresh { Integrator.Ex.opt3 with computeCallbacks := 2 } .all) Integrator.Ex.inp 4
    (by omega)
  obtain ⟨l, new, -, h1, h2, h3, -⟩ := C115_compute (clock := fun n => (n : ℝ) ^ 2) (by rfl) h
    ⟨0, fun _ => 0⟩
  refine ⟨w', v, h, ?_⟩
  rw [h2]
  change (printAll _ _ ([] ++ new)).2 = _
  rw [List.nil_append, h3, h1 3 rfl]
  norm_num [stepLines, List.range_succ]

end Verif.Props
