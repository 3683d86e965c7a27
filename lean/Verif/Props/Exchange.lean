/-
The exchange of step size and stage factor with the components (C93).
-/
import Verif.OpenMDAO.Exchange
import Mathlib.Tactic.Linarith
import Mathlib.Data.Rat.Defs
import Mathlib.Tactic.NormNum

namespace Verif.Props

open Verif.Exchange

variable {K : Type}

/-! ### Specification -/

/-- `t` is a subsystem of `s`, at any depth. -/
inductive Below : Sys → Sys → Prop
  | sub {s t : Sys} : t ∈ s.subs → Below s t
  | deep {s u t : Sys} : u ∈ s.subs → Below u t → Below s t

/-- The two models consist of the same systems, unsteady or not, apart from the references. -/
inductive SameSystems : Sys → Sys → Prop
  | mk {n : String} {r r' : Option ℕ} {ss ss' : List Sys} : r.isSome = r'.isSome →
      List.Forall₂ SameSystems ss ss' → SameSystems (.mk n r ss) (.mk n r' ss')

/-- The `k`-th instance belongs to problem `p`. -/
def Belongs (w : World K) (k p : ℕ) : Prop := ∃ o, w.odes[k]? = some o ∧ o.problem = p

/-- The `k`-th instance is the last one created for problem `p`. -/
def Latest (w : World K) (k p : ℕ) : Prop := Belongs w k p ∧ ∀ j, k < j → ¬ Belongs w j p

/-! ### Lemmas -/

namespace ExchangeLemmas

mutual
theorem same_refl : ∀ s : Sys, SameSystems s s
  | .mk _ _ ss => .mk rfl (same_refl_list ss)
theorem same_refl_list : ∀ ss : List Sys, List.Forall₂ SameSystems ss ss
  | [] => .nil
  | s :: ss => .cons (same_refl s) (same_refl_list ss)
end

mutual
theorem overwrite_same (r : ℕ) : ∀ s t : Sys, SameSystems t s → SameSystems t (overwrite r s)
  | .mk n ref ss, .mk _ _ ts, .mk h1 h2 =>
    .mk (by rw [h1]; cases ref <;> rfl) (overwriteList_same r ss ts h2)
theorem overwriteList_same (r : ℕ) : ∀ ss ts : List Sys, List.Forall₂ SameSystems ts ss →
    List.Forall₂ SameSystems ts (overwriteList r ss)
  | [], _, .nil => .nil
  | s :: ss, t :: ts, .cons h1 h2 => .cons (overwrite_same r s t h1) (overwriteList_same r ss ts h2)
end

theorem attach_same (r : ℕ) {s t : Sys} (h : SameSystems t s) : SameSystems t (attach r s) := by
  cases h with
  | mk h1 h2 => exact .mk h1 (overwriteList_same r _ _ h2)

mutual
theorem overwrite_ref (r : ℕ) : ∀ s t : Sys, t = overwrite r s ∨ Below (overwrite r s) t →
    t.ref.isSome = true → t.ref = some r
  | .mk n ref ss, t, h, ht => by
    rcases h with rfl | h
    · cases ref with
      | none => cases ht
      | some _ => rfl
    · refine overwriteList_ref r ss t ?_ ht
      cases h with
      | sub h => exact ⟨t, h, .inl rfl⟩
      | deep h h' => exact ⟨_, h, .inr h'⟩
theorem overwriteList_ref (r : ℕ) : ∀ (ss : List Sys) (t : Sys),
    (∃ u ∈ overwriteList r ss, t = u ∨ Below u t) → t.ref.isSome = true → t.ref = some r
  | [], _, ⟨_, hu, _⟩, _ => by cases hu
  | s :: ss, t, ⟨u, hu, h⟩, ht => by
    rcases List.mem_cons.mp hu with rfl | hu
    · exact overwrite_ref r s t h ht
    · exact overwriteList_ref r ss t ⟨u, hu, h⟩ ht
end

theorem attach_ref (r : ℕ) {s t : Sys} (h : Below (attach r s) t) (ht : t.ref.isSome = true) :
    t.ref = some r := by
  obtain ⟨n, ref, ss⟩ := s
  refine overwriteList_ref r ss t ?_ ht
  cases h with
  | sub h => exact ⟨t, h, .inl rfl⟩
  | deep h h' => exact ⟨_, h, .inr h'⟩

theorem attach_own (r : ℕ) (s : Sys) : (attach r s).ref = s.ref := by
  cases s; rfl

theorem modify_ne {l : List Sys} {p q : ℕ} (h : p ≠ q) (f : Sys → Sys) :
    (l.modify p f)[q]? = l[q]? := by
  rw [List.getElem?_modify]
  cases l[q]? <;> simp [h]

theorem modify_eq (l : List Sys) (p : ℕ) (f : Sys → Sys) : (l.modify p f)[p]? = l[p]?.map f := by
  rw [List.getElem?_modify]
  cases l[p]? <;> simp

/-- What holds after any sequence of operations: the references of the instances are those of
objects created with them, in their order, and the components of a problem refer to the object of
the last instance. -/
structure Inv (w0 w : World K) : Prop where
  size : w.heap.length = w0.heap.length + w.odes.length
  refs : ∀ k o, w.odes[k]? = some o → o.ref = w0.heap.length + k
  comps : ∀ k o m, w.odes[k]? = some o → (∀ j, k < j → ¬ Belongs w j o.problem) →
    w.models[o.problem]? = some m → ∀ s, Below m s → s.ref.isSome = true → s.ref = some o.ref
  roots : ∀ (p : ℕ) (m : Sys), w.models[p]? = some m → ∃ m0, w0.models[p]? = some m0 ∧ m.ref = m0.ref ∧
    SameSystems m0 m
  old : ∀ r : ℕ, r < w0.heap.length → w.heap[r]? = w0.heap[r]?

theorem inv_init (w0 : World K) (h0 : w0.odes = []) : Inv w0 w0 :=
  ⟨by simp [h0], by simp [h0], by simp [h0], fun p m h => ⟨m, h, rfl, same_refl m⟩, fun _ _ => rfl⟩

theorem inv_create {w0 w : World K} (I : Inv w0 w) (dflt : Data K) (p : ℕ) :
    Inv w0 (create dflt p w) := by
  refine ⟨?_, fun k o hk => ?_, fun k o m hk hl hm s hs hr => ?_, fun q m hm => ?_, fun r hr => ?_⟩
  · simp only [create, List.length_append, List.length_singleton, I.size]
    omega
  · simp only [create] at hk
    rcases Nat.lt_trichotomy k w.odes.length with h | h | h
    · rw [List.getElem?_append_left h] at hk
      exact I.refs k o hk
    · subst h
      rw [List.getElem?_concat_length] at hk
      cases hk
      exact I.size
    · rw [List.getElem?_eq_none (by simp; omega)] at hk
      cases hk
  · simp only [create] at hk hm
    have last : Belongs (create dflt p w) w.odes.length p :=
      ⟨_, by simp only [create]; exact List.getElem?_concat_length, rfl⟩
    rcases Nat.lt_trichotomy k w.odes.length with h | h | h
    · have hne : o.problem ≠ p := fun e => hl _ h (e ▸ last)
      rw [modify_ne hne.symm] at hm
      rw [List.getElem?_append_left h] at hk
      refine I.comps k o m hk (fun j hj hb => hl j hj ?_) hm s hs hr
      obtain ⟨o', ho', e⟩ := hb
      refine ⟨o', ?_, e⟩
      simp only [create]
      rw [List.getElem?_append_left, ho']
      by_contra hc
      rw [List.getElem?_eq_none (by omega)] at ho'
      cases ho'
    · subst h
      rw [List.getElem?_concat_length] at hk
      cases hk
      rw [modify_eq] at hm
      cases hq : w.models[p]? with
      | none => rw [hq] at hm; cases hm
      | some m1 =>
        rw [hq] at hm
        cases hm
        exact attach_ref _ hs hr
    · rw [List.getElem?_eq_none (by simp; omega)] at hk
      cases hk
  · simp only [create] at hm
    by_cases hp : p = q
    · subst hp
      rw [modify_eq] at hm
      cases hq : w.models[p]? with
      | none => rw [hq] at hm; cases hm
      | some m1 =>
        rw [hq] at hm
        obtain ⟨m0, e1, e2, e3⟩ := I.roots p m1 hq
        cases hm
        exact ⟨m0, e1, (attach_own _ _).trans e2, attach_same _ e3⟩
    · rw [modify_ne hp] at hm
      exact I.roots q m hm
  · simp only [create]
    rw [List.getElem?_append_left (by have := I.size; omega)]
    exact I.old r hr

theorem inv_evaluate {w0 w : World K} (I : Inv w0 w) {k : ℕ} {o : Ode} (hk : w.odes[k]? = some o)
    (h a : K) : Inv w0 (evaluate o h a w) := by
  refine ⟨?_, I.refs, I.comps, I.roots, fun r hr => ?_⟩
  · simp only [evaluate, List.length_set, I.size]
  · simp only [evaluate]
    rw [List.getElem?_set_ne (by rw [I.refs k o hk]; omega)]
    exact I.old r hr

theorem inv_step {w0 w : World K} (I : Inv w0 w) (dflt : Data K) (op : Op K) :
    Inv w0 (step dflt w op) := by
  cases op with
  | create p => exact inv_create I dflt p
  | evaluate k h a =>
    simp only [step]
    cases hk : w.odes[k]? with
    | none => exact I
    | some o => exact inv_evaluate I hk h a

theorem inv_run {w0 : World K} (h0 : w0.odes = []) (dflt : Data K) (ops : List (Op K)) :
    Inv w0 (run dflt w0 ops) := by
  suffices ∀ w, Inv w0 w → Inv w0 (ops.foldl (step dflt) w) from this _ (inv_init w0 h0)
  induction ops with
  | nil => exact fun w I => I
  | cons op ops ih => exact fun w I => ih _ (inv_step I dflt op)

end ExchangeLemmas

open ExchangeLemmas

/-! ### C93 -/

/-- C93. Whatever was created and evaluated before: in an evaluation with the instance that was
created last for a problem, every unsteady subsystem of its model, at any depth, reads the step size
and the stage factor of this evaluation.

Partial: the instance has to be the last one, and the model itself is left out, see below. -/
theorem C93_current_values_partial (w0 : World K) (h0 : w0.odes = []) (dflt : Data K)
    (ops : List (Op K)) {k p : ℕ} (hk : Latest (run dflt w0 ops) k p) (h a : K) {m s : Sys}
    (hm : (run dflt w0 (ops ++ [.evaluate k h a])).models[p]? = some m) (hs : Below m s)
    (hu : s.ref.isSome = true) :
    seen (run dflt w0 (ops ++ [.evaluate k h a])) s = some ⟨h, a⟩ := by
  have I := inv_run h0 dflt ops
  obtain ⟨⟨o, ho, rfl⟩, hl⟩ := hk
  have e : run dflt w0 (ops ++ [.evaluate k h a]) = evaluate o h a (run dflt w0 ops) := by
    simp only [run, List.foldl_append, List.foldl_cons, List.foldl_nil, step]
    simp only [run] at ho
    rw [ho]
  rw [e] at hm ⊢
  have hr := I.comps k o m ho hl hm s hs hu
  have hk' : k < (run dflt w0 ops).odes.length := by
    by_contra hc
    rw [List.getElem?_eq_none (by omega)] at ho
    cases ho
  simp only [seen, hr, evaluate, Option.bind_some]
  rw [List.getElem?_set_self]
  have h1 := I.size
  have h2 := I.refs k o ho
  omega

/-- C93. The models stay the same apart from the references. -/
theorem C93_systems_kept (w0 : World K) (h0 : w0.odes = []) (dflt : Data K) (ops : List (Op K))
    {p : ℕ} {m : Sys} (hm : (run dflt w0 ops).models[p]? = some m) :
    ∃ m0, w0.models[p]? = some m0 ∧ SameSystems m0 m := by
  obtain ⟨m0, h1, -, h2⟩ := (inv_run h0 dflt ops).roots p m hm
  exact ⟨m0, h1, h2⟩

/-- C93 is violated if two instances are created for one problem: in evaluations with the first one
no component reads the values of the evaluation; they still read what they would have read without
it. -/
theorem C93_second_instance_violated (w0 : World K) (h0 : w0.odes = []) (dflt : Data K)
    (ops : List (Op K)) {k j p : ℕ} (hk : Belongs (run dflt w0 ops) k p) (hkj : k < j)
    (hj : Belongs (run dflt w0 ops) j p) (h a : K) {m s : Sys}
    (hm : (run dflt w0 (ops ++ [.evaluate k h a])).models[p]? = some m) (hs : Below m s)
    (hu : s.ref.isSome = true) :
    seen (run dflt w0 (ops ++ [.evaluate k h a])) s = seen (run dflt w0 ops) s := by
  have I := inv_run h0 dflt ops
  obtain ⟨o, ho, rfl⟩ := hk
  have e : run dflt w0 (ops ++ [.evaluate k h a]) = evaluate o h a (run dflt w0 ops) := by
    simp only [run, List.foldl_append, List.foldl_cons, List.foldl_nil, step]
    simp only [run] at ho
    rw [ho]
  rw [e] at hm ⊢
  -- the last instance for the problem
  obtain ⟨l, hl1, hl2, hl3⟩ : ∃ l, j ≤ l ∧ Belongs (run dflt w0 ops) l o.problem ∧
      ∀ i, l < i → ¬ Belongs (run dflt w0 ops) i o.problem := by
    by_contra hc
    push Not at hc
    have : ∀ n : ℕ, ∃ i, n ≤ i ∧ j ≤ i ∧ Belongs (run dflt w0 ops) i o.problem := by
      intro n
      induction n with
      | zero => exact ⟨j, Nat.zero_le _, le_rfl, hj⟩
      | succ n ih =>
        obtain ⟨i, h1, h2, h3⟩ := ih
        obtain ⟨i', h4, h5⟩ := hc i h2 h3
        exact ⟨i', by omega, by omega, h5⟩
    obtain ⟨i, h1, -, o', ho', -⟩ := this (run dflt w0 ops).odes.length
    rw [List.getElem?_eq_none h1] at ho'
    cases ho'
  obtain ⟨ol, hol, hpl⟩ := hl2
  rw [← hpl] at hm hl3
  have hr := I.comps l ol m hol hl3 hm s hs hu
  simp only [seen, hr, evaluate, Option.bind_some]
  rw [List.getElem?_set_ne]
  rw [I.refs k o ho, I.refs l ol hol]
  omega

/-- C93 is violated for a model that is an unsteady component itself: it reads its own object, which
no evaluation changes. -/
theorem C93_model_itself_violated (w0 : World K) (h0 : w0.odes = []) (dflt : Data K)
    (ops : List (Op K)) {p r : ℕ} {m m0 : Sys} (hm0 : w0.models[p]? = some m0)
    (hr : m0.ref = some r) (hr0 : r < w0.heap.length)
    (hm : (run dflt w0 ops).models[p]? = some m) :
    seen (run dflt w0 ops) m = w0.heap[r]? := by
  have I := inv_run h0 dflt ops
  obtain ⟨m0', h1, h2, -⟩ := I.roots p m hm
  rw [hm0] at h1
  cases h1
  simp only [seen, h2, hr, Option.bind_some]
  exact I.old r hr0

/-! ### Examples -/

namespace ExchangeEx

/-- The values of a new object, om_data_exchange.py 24-25. -/
def dflt : Data ℚ := ⟨1 / 1000, 1⟩

/-- A group with an unsteady component and a group with another one and a steady component. -/
def model : Sys :=
  .mk "" none [.mk "c1" (some 0) [], .mk "g" none [.mk "c2" (some 1) [], .mk "s" none []]]

/-- Two such problems, nothing created yet; the second model is an unsteady component. -/
def w0 : World ℚ := ⟨[dflt, dflt, dflt], [model, .mk "c" (some 2) []], []⟩

/-- After the creation of an instance and an evaluation the values of a second evaluation are
read. -/
example : seen (run dflt w0 [.create 0, .evaluate 0 (1 / 2) 3, .evaluate 0 (1 / 4) 5])
    (.mk "c2" (some 3) []) = some ⟨1 / 4, 5⟩ := by
  refine C93_current_values_partial w0 rfl dflt [.create 0, .evaluate 0 (1 / 2) 3] (p := 0)
    ⟨⟨_, rfl, rfl⟩, fun j hj hb => ?_⟩ (1 / 4) 5 (m := attach 3 model) rfl
    (.deep (u := .mk "g" none [.mk "c2" (some 3) [], .mk "s" none []]) ?_ (.sub ?_)) rfl
  · obtain ⟨o, ho, -⟩ := hb
    rw [List.getElem?_eq_none (by change 1 ≤ j; omega)] at ho
    cases ho
  · exact List.mem_cons_of_mem _ List.mem_cons_self
  · exact List.mem_cons_self

/-- With a second instance the first one evaluates with the default step size, whatever is asked
for. -/
example (h a : ℚ) : seen (run dflt w0 [.create 0, .create 0, .evaluate 0 h a])
    (.mk "c2" (some 4) []) = some dflt := by
  refine (C93_second_instance_violated w0 rfl dflt [.create 0, .create 0] (k := 0) (j := 1) (p := 0)
    ⟨_, rfl, rfl⟩ one_pos ⟨_, rfl, rfl⟩ h a (m := attach 4 (attach 3 model)) rfl
    (.deep (u := .mk "g" none [.mk "c2" (some 4) [], .mk "s" none []]) ?_ (.sub ?_)) rfl).trans rfl
  · exact List.mem_cons_of_mem _ List.mem_cons_self
  · exact List.mem_cons_self

/-- A model that is a component itself. -/
example (h a : ℚ) : seen (run dflt w0 [.create 1, .evaluate 0 h a]) (.mk "c" (some 2) [])
    = some dflt :=
  C93_model_itself_violated w0 rfl dflt [.create 1, .evaluate 0 h a] (p := 1) (r := 2)
    (m := .mk "c" (some 2) []) (m0 := .mk "c" (some 2) []) rfl rfl (by decide) rfl

end ExchangeEx

end Verif.Props
