/-
Properties of the messages of adaptive steps (C118).
-/
import Verif.Integrator.Messages
import Verif.Props.FinalTime

namespace Verif.Props

open Verif.RK Verif.Control Verif.XReal Verif.Integrator

variable {opt : Options} {D I O : Type} {B : Backend D I O}

/-- The messages of attempts with the step sizes `h 0`, `h 1`, ...: `k` failed ones. -/
def failedMsgs (h : ℕ → XReal) (k : ℕ) : List Msg :=
  (List.range k).flatMap fun j => [.start j (h j), .done j (h j) false (h (j + 1))]

/-- The same with numbers from `i` on. -/
def failedFrom (i : ℕ) (h : ℕ → XReal) (k : ℕ) : List Msg :=
  (List.range k).flatMap fun j => [.start (i + j) (h j), .done (i + j) (h j) false (h (j + 1))]

theorem failedFrom_zero (h : ℕ → XReal) (k : ℕ) : failedFrom 0 h k = failedMsgs h k := by
  simp [failedFrom, failedMsgs]

theorem failedFrom_succ (i : ℕ) (h : ℕ → XReal) (h0 : XReal) (k : ℕ) :
    failedFrom i (fun j => Nat.casesOn j h0 h) (k + 1)
      = [.start i h0, .done i h0 false (h 0)] ++ failedFrom (i + 1) h k := by
  rw [failedFrom, List.range_succ_eq_map, List.flatMap_cons, List.flatMap_map]
  congr 1
  refine List.flatMap_congr fun j _ => ?_
  have : i + (j + 1) = i + 1 + j := by omega
  simp only [Nat.succ_eq_add_one, this]

/-- An attempt from the state `x` with the step size `h` that an error controller rejects with the
suggestion `next`. -/
def Rejected (B : Backend D I O) (opt : Options) (x : IState D) (h next : XReal) : Prop :=
  ∃ (c c' : Ctrl) (d : D) (err : XReal) (st : Status), B.step x.disc h = .ok d ∧
    B.measure d = .ok err ∧
    c.call true ⟨err, h, opt.crit.remaining (B.time d), x.errHist, x.stepHist⟩ = (c', .ok st) ∧
    st.acc = false ∧ next = st.sugg

theorem iterateMsg_ok (ha : opt.adaptive = true) {f i : ℕ} {c c' : Ctrl} {x x' : IState D}
    {ms : List Msg} (h : iterateMsg B opt f i c x = (ms, c', x', .ok ())) :
    ∃ (k : ℕ) (z : ℕ → XReal), k < f ∧ z 0 = x.sugg ∧ z k = x'.stepHist.1 ∧ z (k + 1) = x'.sugg ∧
      (∀ j < k, Rejected B opt x (z j) (z (j + 1))) ∧
      (∃ d, B.step x.disc (z k) = .ok d ∧ x'.disc = B.set x.disc d) ∧
      ms = failedFrom i z k ++ [.start (i + k) (z k), .done (i + k) (z k) true (z (k + 1))] := by
  induction f generalizing i c x ms with
  | zero => simp [iterateMsg] at h
  | succ f ih =>
    rw [iterateMsg] at h
    cases hs : B.step x.disc x.sugg with
    | error e => rw [hs] at h; simp at h
    | ok d =>
      rw [hs] at h
      simp only [ha, if_true] at h
      cases hm : B.measure d with
      | error e => rw [hm] at h; simp at h
      | ok err =>
        rw [hm] at h
        dsimp only at h
        rcases hc : c.call true ⟨err, x.sugg, opt.crit.remaining (B.time d), x.errHist, x.stepHist⟩
          with ⟨c1, e | st⟩
        · rw [hc] at h; simp at h
        · rw [hc] at h
          dsimp only at h
          by_cases hacc : st.acc = true
          · rw [if_pos hacc] at h
            simp only [Prod.mk.injEq, and_true] at h
            obtain ⟨rfl, -, rfl⟩ := h
            refine ⟨0, fun j => Nat.casesOn j x.sugg fun _ => st.sugg, by omega, rfl, rfl, rfl,
              fun j hj => absurd hj (by omega), ⟨d, hs, rfl⟩, ?_⟩
            simp [failedFrom, hacc]
          · rw [if_neg hacc] at h
            rcases hr : iterateMsg B opt f (i + 1) c1 { x with sugg := st.sugg } with ⟨ms', r⟩
            rw [hr] at h
            simp only [Prod.mk.injEq] at h
            obtain ⟨rfl, rfl⟩ := h
            obtain ⟨k, z, hk, h0, h1, h2, h3, h4, rfl⟩ := ih hr
            refine ⟨k + 1, fun j => Nat.casesOn j x.sugg z, by omega, rfl, h1, h2, ?_, h4, ?_⟩
            · rintro (_ | j) hj
              · exact ⟨c, c1, d, err, st, hs, hm, hc, by simpa using hacc, h0⟩
              · exact h3 j (by omega)
            rw [failedFrom_succ]
            have e : st.acc = false := by simpa using hacc
            have e2 : i + (k + 1) = i + 1 + k := by omega
            simp only [e, h0, e2, List.append_assoc, List.cons_append, List.nil_append]

/-- C118: an adaptive step that succeeds prints, for each of its attempts 0, 1, ..., that it starts and
how it ends, with the step size. The first size is the suggestion the step starts with, every further
size is the one announced by the failed attempt before; only the last attempt is reported as
successful, it has the size the step is recorded with, and announces the suggestion for the next step.
All attempts start from the state before the step; the failed ones were rejected by an error controller,
the last one is the new state. There are at most as many attempts as the recursion limit allows. -/
theorem C118_messages (ha : opt.adaptive = true) {f : ℕ} {c c' : Ctrl} {x x' : IState D}
    (h : iterateOnStep B opt f c x = (c', x', .ok ())) :
    ∃ (k : ℕ) (z : ℕ → XReal), k < f ∧ z 0 = x.sugg ∧ z k = x'.stepHist.1 ∧ z (k + 1) = x'.sugg ∧
      (∀ j < k, Rejected B opt x (z j) (z (j + 1))) ∧
      (∃ d, B.step x.disc (z k) = .ok d ∧ x'.disc = B.set x.disc d) ∧
      (iterateMsg B opt f 0 c x).1
        = failedMsgs z k ++ [.start k (z k), .done k (z k) true (z (k + 1))] := by
  have h2 := iterateMsg_snd B opt f 0 c x
  rcases hr : iterateMsg B opt f 0 c x with ⟨ms, r⟩
  rw [hr, h] at h2
  dsimp only at h2
  subst h2
  obtain ⟨k, z, h1, h3, h4, h5, h6, h7, h8⟩ := iterateMsg_ok ha hr
  refine ⟨k, z, h1, h3, h4, h5, h6, h7, ?_⟩
  rw [failedFrom_zero] at h8
  simpa using h8

/-- C118: with fixed steps nothing is printed. -/
theorem C118_fixed (ha : opt.adaptive = false) (f i : ℕ) (c : Ctrl) (x : IState D) :
    (iterateMsg B opt f i c x).1 = [] := by
  cases f with
  | zero => rfl
  | succ f =>
    rw [iterateMsg]
    cases B.step x.disc x.sugg <;> simp [ha]

theorem iterateMsg_error (ha : opt.adaptive = true) {f i : ℕ} {c c' : Ctrl} {x x' : IState D}
    {ms : List Msg} {e : Integrator.Err} (h : iterateMsg B opt f i c x = (ms, c', x', .error e)) :
    ∃ (k : ℕ) (z : ℕ → XReal), z 0 = x.sugg ∧ z k = x'.sugg ∧
      (∀ j < k, Rejected B opt x (z j) (z (j + 1))) ∧
      ((k = f ∧ e = .recursion ∧ ms = failedFrom i z k) ∨
        (k < f ∧ ms = failedFrom i z k ++ [.start (i + k) (z k)])) := by
  induction f generalizing i c x ms with
  | zero =>
    simp only [iterateMsg, Prod.mk.injEq, Except.error.injEq] at h
    obtain ⟨rfl, -, rfl, rfl⟩ := h
    exact ⟨0, fun _ => x.sugg, rfl, rfl, fun j hj => absurd hj (by omega), Or.inl ⟨rfl, rfl, rfl⟩⟩
  | succ f ih =>
    rw [iterateMsg] at h
    cases hs : B.step x.disc x.sugg with
    | error e' =>
      rw [hs] at h
      simp only [ha, if_true, Prod.mk.injEq] at h
      obtain ⟨rfl, -, rfl, -⟩ := h
      exact ⟨0, fun _ => x.sugg, rfl, rfl, fun j hj => absurd hj (by omega), Or.inr ⟨by omega, by simp [failedFrom]⟩⟩
    | ok d =>
      rw [hs] at h
      simp only [ha, if_true] at h
      cases hm : B.measure d with
      | error e =>
        rw [hm] at h
        simp only [Prod.mk.injEq] at h
        obtain ⟨rfl, -, rfl, -⟩ := h
        exact ⟨0, fun _ => x.sugg, rfl, rfl, fun j hj => absurd hj (by omega), Or.inr ⟨by omega, by simp [failedFrom]⟩⟩
      | ok err =>
        rw [hm] at h
        dsimp only at h
        rcases hc : c.call true ⟨err, x.sugg, opt.crit.remaining (B.time d), x.errHist, x.stepHist⟩
          with ⟨c1, e | st⟩
        · rw [hc] at h
          simp only [Prod.mk.injEq] at h
          obtain ⟨rfl, -, rfl, -⟩ := h
          exact ⟨0, fun _ => x.sugg, rfl, rfl, fun j hj => absurd hj (by omega), Or.inr ⟨by omega, by simp [failedFrom]⟩⟩
        · rw [hc] at h
          dsimp only at h
          by_cases hacc : st.acc = true
          · rw [if_pos hacc] at h
            simp at h
          · rw [if_neg hacc] at h
            rcases hr : iterateMsg B opt f (i + 1) c1 { x with sugg := st.sugg } with ⟨ms', r⟩
            rw [hr] at h
            simp only [Prod.mk.injEq] at h
            obtain ⟨rfl, rfl⟩ := h
            have e1 : st.acc = false := by simpa using hacc
            obtain ⟨k, z, h0, h1, h3, h2⟩ := ih hr
            refine ⟨k + 1, fun j => Nat.casesOn j x.sugg z, rfl, h1, ?_, ?_⟩
            · rintro (_ | j) hj
              · exact ⟨c, c1, d, err, st, hs, hm, hc, e1, h0⟩
              · exact h3 j (by omega)
            rw [failedFrom_succ]
            have e2 : i + (k + 1) = i + 1 + k := by omega
            rcases h2 with ⟨h3, h4, rfl⟩ | ⟨h3, rfl⟩
            · refine Or.inl ⟨by omega, h4, ?_⟩
              simp only [e1, h0, List.append_assoc, List.cons_append, List.nil_append]
            · refine Or.inr ⟨by omega, ?_⟩
              simp only [e1, h0, e2, List.append_assoc, List.cons_append, List.nil_append]

/-- C118: an adaptive step that raises prints the messages of its failed attempts, each with the size
announced by the one before, and then that the attempt starts that raises; if the recursion limit is
reached, all attempts failed. The size of the last attempt is left as the suggestion. -/
theorem C118_exception (ha : opt.adaptive = true) {f : ℕ} {c c' : Ctrl} {x x' : IState D}
    {e : Integrator.Err} (h : iterateOnStep B opt f c x = (c', x', .error e)) :
    ∃ (k : ℕ) (z : ℕ → XReal), z 0 = x.sugg ∧ z k = x'.sugg ∧
      (∀ j < k, Rejected B opt x (z j) (z (j + 1))) ∧
      ((k = f ∧ e = .recursion ∧ (iterateMsg B opt f 0 c x).1 = failedMsgs z k) ∨
        (k < f ∧ (iterateMsg B opt f 0 c x).1 = failedMsgs z k ++ [.start k (z k)])) := by
  have h2 := iterateMsg_snd B opt f 0 c x
  rcases hr : iterateMsg B opt f 0 c x with ⟨ms, r⟩
  rw [hr, h] at h2
  dsimp only at h2
  subst h2
  obtain ⟨k, z, h1, h3, h5, h4⟩ := iterateMsg_error ha hr
  refine ⟨k, z, h1, h3, h5, ?_⟩
  simpa only [failedFrom_zero, Nat.zero_add] using h4

/-- A case: error 1 in every attempt, tolerance 1/2, lower bound 1/8, safety factor 1/2. A step of size 1
succeeds with at most four attempts and has these messages. -/
example (x : IState (EmbRKState ℝ 1 1 1 0 0)) (hx : x.sugg = fin 1) :
    let B := embBackend (envErr 1) 1
    let opt : Options := { adaptive := true, crit := .steps 1, initialStep := fin 1 }
    let c : Ctrl := .base (integral 1) ⟨fin (1 / 2), fin (1 / 8), pinf, fin (1 / 2), 5⟩
    ∃ (k : ℕ) (z : ℕ → XReal), k < 4 ∧ z 0 = fin 1 ∧ (iterateMsg B opt 4 0 c x).1
        = failedMsgs z k ++ [.start k (z k), .done k (z k) true (z (k + 1))] := by
  intro B opt c
  have h : (iterateOnStep B opt 4 c x).2.2 = .ok () :=
    C30_integral_retries_bounded_partial (t := x.disc.finalTime) (lo := 1 / 8) (κ := 1 / 2)
      (tol := 1 / 2) _ x (fun h => ⟨_, fin 1, rfl, by
        have := emb_step_time (envErr 1) 1 (d := x.disc) (h := h) rfl
        exact congrArg fin this, rfl, by simp⟩) rfl (Or.inl ⟨1, rfl⟩) zero_le_one rfl
      (by norm_num) (by norm_num) rfl (by norm_num) rfl (by norm_num) (by simp) 3 4
      (by norm_num) hx (by norm_num) (by norm_num)
  have h2 : iterateOnStep B opt 4 c x
      = ((iterateOnStep B opt 4 c x).1, (iterateOnStep B opt 4 c x).2.1, .ok ()) := by rw [← h]
  obtain ⟨k, z, h3, h4, -, -, -, -, h5⟩ := C118_messages rfl h2
  exact ⟨k, z, h3, h4.trans hx, h5⟩

/-- A case: no attempt is allowed, or the only one fails. -/
example (x : IState (EmbRKState ℝ 1 1 1 0 0)) :
    let opt : Options := { adaptive := true, crit := .steps 1, initialStep := fin 1 }
    iterateOnStep (embBackend (envErr 1) 1) opt 0 (.base (integral 1) Config.default) x
      = (.base (integral 1) Config.default, x, .error .recursion) := rfl

end Verif.Props
