/-
If the operations of the ranks are those of a single rank on parts of the data, the ranks run in
lockstep: they do the same operations as a single rank would do, and end with the parts of its
results.
-/
import Verif.Parallel.Serial

namespace Verif.Parallel

open Verif.Control Verif.XReal Verif.Integrator
open Classical

variable {D I O α β : Type} {R : ℕ} {DD II OO αα ββ : Fin R → Type}

/-- An operation of a single rank. -/
inductive SCall where
  | step (h : XReal)
  | measure
  | deriv (h : XReal)
  | adj (h : XReal)

/-- The same operation on all ranks, with the same step size. -/
def SCall.all (R : ℕ) : SCall → Call R
  | .step h => .step fun _ => h
  | .measure => .measure
  | .deriv h => .deriv fun _ => h
  | .adj h => .adj fun _ => h

/-- The operations of a program on a single rank. -/
def Prog.trace (B : Backend D I O) : Prog D α → List SCall
  | .done _ => []
  | .step d h k => .step h :: (k (B.step d h)).trace B
  | .measure d k => .measure :: (k (B.measure d)).trace B
  | .deriv d p h k => .deriv h :: (k (B.deriv d p h)).trace B
  | .adj d p h k => .adj h :: (k (B.adj d p h)).trace B

theorem trace_bind {B : Backend D I O} (P : Prog D α) (f : α → Prog D β) :
    (P.bind f).trace B = P.trace B ++ (f (P.run B)).trace B := by
  induction P with
  | done a => rfl
  | step d h k ih => exact congrArg (SCall.step h :: ·) (ih _)
  | measure d k ih => exact congrArg (SCall.measure :: ·) (ih _)
  | deriv d p h k ih => exact congrArg (SCall.deriv h :: ·) (ih _)
  | adj d p h k ih => exact congrArg (SCall.adj h :: ·) (ih _)

theorem Together.bind {C : Collective DD} {PP : ∀ r, Prog (DD r) (αα r)} {calls calls'}
    {out : ∀ r, αα r} {out' : ∀ r, ββ r} (ff : ∀ r, αα r → Prog (DD r) (ββ r))
    (h : Together C PP calls out) (h' : Together C (fun r => ff r (out r)) calls' out') :
    Together C (fun r => (PP r).bind (ff r)) (calls ++ calls') out' := by
  induction h with
  | done a => exact h'
  | step d h k t ih => exact .step d h (fun r x => (k r x).bind (ff r)) (ih h')
  | measure d k t ih => exact .measure d (fun r x => (k r x).bind (ff r)) (ih h')
  | deriv d p h k t ih => exact .deriv d p h (fun r x => (k r x).bind (ff r)) (ih h')
  | adj d p h k t ih => exact .adj d p h (fun r x => (k r x).bind (ff r)) (ih h')

/-- There is at most one way to run programs together. -/
theorem Together.unique {C : Collective DD} {PP : ∀ r, Prog (DD r) (αα r)} {calls calls'}
    {out out' : ∀ r, αα r} (hR : 0 < R) (h : Together C PP calls out)
    (h' : Together C PP calls' out') : calls = calls' ∧ out = out' := by
  induction h generalizing calls' out' with
  | done a =>
    generalize hQ : (fun r => Prog.done (a r) : ∀ r, Prog (DD r) (αα r)) = QQ at h'
    cases h' with
    | done b =>
      refine ⟨rfl, funext fun r => ?_⟩
      have := congrFun hQ r
      simpa using this
    | _ => have := congrFun hQ ⟨0, hR⟩; simp at this
  | step d h k t ih =>
    generalize hQ : (fun r => Prog.step (d r) (h r) (k r) : ∀ r, Prog (DD r) (αα r)) = QQ at h'
    cases h' with
    | step d' h' k' t' =>
      have e : ∀ r, d r = d' r ∧ h r = h' r ∧ k r = k' r := fun r => by
        simpa using congrFun hQ r
      obtain rfl : d = d' := funext fun r => (e r).1
      obtain rfl : h = h' := funext fun r => (e r).2.1
      obtain rfl : k = k' := funext fun r => (e r).2.2
      obtain ⟨rfl, rfl⟩ := ih t'
      exact ⟨rfl, rfl⟩
    | _ => have := congrFun hQ ⟨0, hR⟩; simp at this
  | measure d k t ih =>
    generalize hQ : (fun r => Prog.measure (d r) (k r) : ∀ r, Prog (DD r) (αα r)) = QQ at h'
    cases h' with
    | measure d' k' t' =>
      have e : ∀ r, d r = d' r ∧ k r = k' r := fun r => by simpa using congrFun hQ r
      obtain rfl : d = d' := funext fun r => (e r).1
      obtain rfl : k = k' := funext fun r => (e r).2
      obtain ⟨rfl, rfl⟩ := ih t'
      exact ⟨rfl, rfl⟩
    | _ => have := congrFun hQ ⟨0, hR⟩; simp at this
  | deriv d p h k t ih =>
    generalize hQ : (fun r => Prog.deriv (d r) (p r) (h r) (k r) : ∀ r, Prog (DD r) (αα r)) = QQ
      at h'
    cases h' with
    | deriv d' p' h' k' t' =>
      have e : ∀ r, d r = d' r ∧ p r = p' r ∧ h r = h' r ∧ k r = k' r := fun r => by
        simpa using congrFun hQ r
      obtain rfl : d = d' := funext fun r => (e r).1
      obtain rfl : p = p' := funext fun r => (e r).2.1
      obtain rfl : h = h' := funext fun r => (e r).2.2.1
      obtain rfl : k = k' := funext fun r => (e r).2.2.2
      obtain ⟨rfl, rfl⟩ := ih t'
      exact ⟨rfl, rfl⟩
    | _ => have := congrFun hQ ⟨0, hR⟩; simp at this
  | adj d p h k t ih =>
    generalize hQ : (fun r => Prog.adj (d r) (p r) (h r) (k r) : ∀ r, Prog (DD r) (αα r)) = QQ
      at h'
    cases h' with
    | adj d' p' h' k' t' =>
      have e : ∀ r, d r = d' r ∧ p r = p' r ∧ h r = h' r ∧ k r = k' r := fun r => by
        simpa using congrFun hQ r
      obtain rfl : d = d' := funext fun r => (e r).1
      obtain rfl : p = p' := funext fun r => (e r).2.1
      obtain rfl : h = h' := funext fun r => (e r).2.2.1
      obtain rfl : k = k' := funext fun r => (e r).2.2.2
      obtain ⟨rfl, rfl⟩ := ih t'
      exact ⟨rfl, rfl⟩
    | _ => have := congrFun hQ ⟨0, hR⟩; simp at this

theorem Together.step_inv {C : Collective DD} {d : ∀ r, DD r} {h : Fin R → XReal}
    {k : ∀ r, Except Err (DD r) → Prog (DD r) (αα r)} {calls} {out : ∀ r, αα r} (hR : 0 < R)
    (t : Together C (fun r => .step (d r) (h r) (k r)) calls out) :
    ∃ calls', Together C (fun r => k r (C.step d h r)) calls' out := by
  generalize hQ : (fun r => Prog.step (d r) (h r) (k r) : ∀ r, Prog (DD r) (αα r)) = QQ at t
  cases t with
  | step d' h' k' t' =>
    have e : ∀ r, d r = d' r ∧ h r = h' r ∧ k r = k' r := fun r => by
      simpa using congrFun hQ r
    obtain rfl : d = d' := funext fun r => (e r).1
    obtain rfl : h = h' := funext fun r => (e r).2.1
    obtain rfl : k = k' := funext fun r => (e r).2.2
    exact ⟨_, t'⟩
  | _ => have := congrFun hQ ⟨0, hR⟩; simp at this

theorem Together.measure_inv {C : Collective DD} {d : ∀ r, DD r}
    {k : ∀ r, Except Err XReal → Prog (DD r) (αα r)} {calls} {out : ∀ r, αα r} (hR : 0 < R)
    (t : Together C (fun r => .measure (d r) (k r)) calls out) :
    ∃ calls', Together C (fun r => k r (C.measure d r)) calls' out := by
  generalize hQ : (fun r => Prog.measure (d r) (k r) : ∀ r, Prog (DD r) (αα r)) = QQ at t
  cases t with
  | measure d' k' t' =>
    have e : ∀ r, d r = d' r ∧ k r = k' r := fun r => by simpa using congrFun hQ r
    obtain rfl : d = d' := funext fun r => (e r).1
    obtain rfl : k = k' := funext fun r => (e r).2
    exact ⟨_, t'⟩
  | _ => have := congrFun hQ ⟨0, hR⟩; simp at this

theorem Together.deriv_inv {C : Collective DD} {d p : ∀ r, DD r} {h : Fin R → XReal}
    {k : ∀ r, DD r → Prog (DD r) (αα r)} {calls} {out : ∀ r, αα r} (hR : 0 < R)
    (t : Together C (fun r => .deriv (d r) (p r) (h r) (k r)) calls out) :
    ∃ calls', Together C (fun r => k r (C.deriv d p h r)) calls' out := by
  generalize hQ : (fun r => Prog.deriv (d r) (p r) (h r) (k r) : ∀ r, Prog (DD r) (αα r)) = QQ at t
  cases t with
  | deriv d' p' h' k' t' =>
    have e : ∀ r, d r = d' r ∧ p r = p' r ∧ h r = h' r ∧ k r = k' r := fun r => by
      simpa using congrFun hQ r
    obtain rfl : d = d' := funext fun r => (e r).1
    obtain rfl : p = p' := funext fun r => (e r).2.1
    obtain rfl : h = h' := funext fun r => (e r).2.2.1
    obtain rfl : k = k' := funext fun r => (e r).2.2.2
    exact ⟨_, t'⟩
  | _ => have := congrFun hQ ⟨0, hR⟩; simp at this

theorem Together.adj_inv {C : Collective DD} {d p : ∀ r, DD r} {h : Fin R → XReal}
    {k : ∀ r, DD r → Prog (DD r) (αα r)} {calls} {out : ∀ r, αα r} (hR : 0 < R)
    (t : Together C (fun r => .adj (d r) (p r) (h r) (k r)) calls out) :
    ∃ calls', Together C (fun r => k r (C.adj d p h r)) calls' out := by
  generalize hQ : (fun r => Prog.adj (d r) (p r) (h r) (k r) : ∀ r, Prog (DD r) (αα r)) = QQ at t
  cases t with
  | adj d' p' h' k' t' =>
    have e : ∀ r, d r = d' r ∧ p r = p' r ∧ h r = h' r ∧ k r = k' r := fun r => by
      simpa using congrFun hQ r
    obtain rfl : d = d' := funext fun r => (e r).1
    obtain rfl : p = p' := funext fun r => (e r).2.1
    obtain rfl : h = h' := funext fun r => (e r).2.2.1
    obtain rfl : k = k' := funext fun r => (e r).2.2.2
    exact ⟨_, t'⟩
  | _ => have := congrFun hQ ⟨0, hR⟩; simp at this

/-- The second of two programs is run with the results of the first one. -/
theorem Together.bind_inv {C : Collective DD} {PP : ∀ r, Prog (DD r) (αα r)} {calls calls'}
    {out : ∀ r, αα r} {out' : ∀ r, ββ r} (ff : ∀ r, αα r → Prog (DD r) (ββ r)) (hR : 0 < R)
    (h : Together C PP calls out)
    (h' : Together C (fun r => (PP r).bind (ff r)) calls' out') :
    ∃ calls'', Together C (fun r => ff r (out r)) calls'' out' := by
  induction h generalizing calls' with
  | done a => exact ⟨_, h'⟩
  | step d h k t ih => exact (h'.step_inv hR).elim fun _ t' => ih t'
  | measure d k t ih => exact (h'.measure_inv hR).elim fun _ t' => ih t'
  | deriv d p h k t ih => exact (h'.deriv_inv hR).elim fun _ t' => ih t'
  | adj d p h k t ih => exact (h'.adj_inv hR).elim fun _ t' => ih t'

/-- Which operation a program asks for next. -/
def Prog.kind : Prog D α → ℕ
  | .done _ => 0
  | .step .. => 1
  | .measure .. => 2
  | .deriv .. => 3
  | .adj .. => 4

/-- Ranks that wait in different operations cannot go on. -/
theorem Together.kinds {C : Collective DD} {PP : ∀ r, Prog (DD r) (αα r)} {calls}
    {out : ∀ r, αα r} (h : Together C PP calls out) (r r' : Fin R) :
    (PP r).kind = (PP r').kind := by
  cases h <;> rfl

/-- The operations of the ranks (`L`, `C`) are those of a single rank (`B`) on parts of the data:
`J` relates the data of a single rank with those of all ranks, `JI` inputs and `JO` outputs. -/
structure Parts (B : Backend D I O) (L : ∀ r, Local (DD r) (II r) (OO r)) (C : Collective DD)
    (J : D → (∀ r, DD r) → Prop) (JI : I → (∀ r, II r) → Prop) (JO : O → (∀ r, OO r) → Prop) :
    Prop where
  step_ok : ∀ {d dd h d'}, J d dd → B.step d h = .ok d' →
    ∃ dd' : ∀ r, DD r, (∀ r, C.step dd (fun _ => h) r = .ok (dd' r)) ∧ J d' dd'
  step_error : ∀ {d dd h e}, J d dd → B.step d h = .error e →
    ∀ r, C.step dd (fun _ => h) r = .error e
  measure : ∀ {d dd}, J d dd → ∀ r, C.measure dd r = B.measure d
  time : ∀ {d dd}, J d dd → ∀ r, (L r).time (dd r) = B.time d
  set : ∀ {a aa b bb}, J a aa → J b bb → J (B.set a b) fun r => (L r).set (aa r) (bb r)
  load : ∀ {d dd i ii}, J d dd → JI i ii → J (B.load d i) fun r => (L r).load (dd r) (ii r)
  clearLin : ∀ {d dd}, J d dd → J (B.clearLin d) fun r => (L r).clearLin (dd r)
  read : ∀ {d dd}, J d dd → JO (B.read d) fun r => (L r).read (dd r)
  deriv : ∀ {d dd p pp h}, J d dd → J p pp → J (B.deriv d p h) (C.deriv dd pp fun _ => h)
  adj : ∀ {d dd p pp h}, J d dd → J p pp → J (B.adj d p h) (C.adj dd pp fun _ => h)
  seed : ∀ {d dd v vv}, J d dd → JO v vv → J (B.seed d v) fun r => (L r).seed (dd r) (vv r)
  writeOut : ∀ {d dd v vv}, J d dd → JO v vv →
    JO (B.writeOut d v) fun r => (L r).writeOut (dd r) (vv r)
  writeIn : ∀ {d dd i ii}, J d dd → JI i ii →
    JI (B.writeIn d i) fun r => (L r).writeIn (dd r) (ii r)
  cacheHit : ∀ {d dd i ii}, J d dd → JI i ii →
    (B.cacheHit d i = true ↔ ∀ r, (L r).cacheHit (dd r) (ii r) = true)

/-- Options of a rank; the numbers of callbacks may differ between ranks. -/
structure SameOptions (a b : Options) : Prop where
  adaptive : b.adaptive = a.adaptive
  crit : b.crit = a.crit
  initialStep : b.initialStep = a.initialStep
  recursionLimit : b.recursionLimit = a.recursionLimit

/-- The integration state on the ranks: parts of the data, the same step sizes and errors. -/
structure JX (J : D → (∀ r, DD r) → Prop) (x : IState D) (xx : ∀ r, IState (DD r)) : Prop where
  disc : J x.disc fun r => (xx r).disc
  sugg : ∀ r, (xx r).sugg = x.sugg
  stepHist : ∀ r, (xx r).stepHist = x.stepHist
  errHist : ∀ r, (xx r).errHist = x.errHist

/-- The same outcome on all ranks: the same exception, or results that are related. -/
def JE {V : Type} {VV : Fin R → Type} (rel : V → (∀ r, VV r) → Prop) :
    Except Err V → (∀ r, Except Err (VV r)) → Prop
  | .error e, vv => ∀ r, vv r = .error e
  | .ok v, vv => ∃ uu : ∀ r, VV r, (∀ r, vv r = .ok (uu r)) ∧ rel v uu

/-- Stored states. -/
inductive Stored (J : D → (∀ r, DD r) → Prop) :
    List (IState D) → (∀ r, List (IState (DD r))) → Prop
  | nil : Stored J [] fun _ => []
  | cons {x xx l ll} (h : JX J x xx) (t : Stored J l ll) :
      Stored J (x :: l) fun r => xx r :: ll r

/-- Data of a checkpointer. -/
def JC (J : D → (∀ r, DD r) → Prop) : (ch : Choice) → ch.Data D → (∀ r, ch.Data (DD r)) → Prop
  | .no, _, _ => True
  | .all, l, ll => Stored J l ll

/-- The cached state: on all ranks or on none. -/
def JO? (J : D → (∀ r, DD r) → Prop) : Option D → (∀ r, Option (DD r)) → Prop
  | none, vv => ∀ r, vv r = none
  | some d, vv => ∃ dd : ∀ r, DD r, (∀ r, vv r = some (dd r)) ∧ J d dd

/-- The component on the ranks. -/
structure JW (J : D → (∀ r, DD r) → Prop) {ch : Choice} (w : World D (ch.Data D))
    (ww : ∀ r, World (DD r) (ch.Data (DD r))) : Prop where
  tis : JX J w.tis fun r => (ww r).tis
  pert : J w.pert fun r => (ww r).pert
  ctrl : ∀ r, (ww r).ctrl = w.ctrl
  cached : JO? J w.cached fun r => (ww r).cached
  ck : JC J ch w.ck fun r => (ww r).ck

/-- The ranks run together, with the operations and results of a single rank. -/
def Lock (B : Backend D I O) (C : Collective DD) (rel : α → (∀ r, αα r) → Prop) (P : Prog D α)
    (PP : ∀ r, Prog (DD r) (αα r)) : Prop :=
  ∃ out, Together C PP ((P.trace B).map (SCall.all R)) out ∧ rel (P.run B) out

section
variable {B : Backend D I O} {L : ∀ r, Local (DD r) (II r) (OO r)} {C : Collective DD}
  {J : D → (∀ r, DD r) → Prop} {JI : I → (∀ r, II r) → Prop} {JV : O → (∀ r, OO r) → Prop}
  {rel : α → (∀ r, αα r) → Prop} {rel' : β → (∀ r, ββ r) → Prop}

theorem lock_done {a : α} {aa : ∀ r, αα r} (h : rel a aa) :
    Lock B C rel (.done a) fun r => .done (aa r) := ⟨aa, .done aa, h⟩

theorem Lock.bind_run {P : Prog D α} {PP : ∀ r, Prog (DD r) (αα r)} {f : α → Prog D β}
    {ff : ∀ r, αα r → Prog (DD r) (ββ r)} (h : Lock B C rel P PP)
    (hf : ∀ aa, rel (P.run B) aa → Lock B C rel' (f (P.run B)) fun r => ff r (aa r)) :
    Lock B C rel' (P.bind f) fun r => (PP r).bind (ff r) := by
  obtain ⟨out, t, ho⟩ := h
  obtain ⟨out', t', ho'⟩ := hf _ ho
  refine ⟨out', ?_, ?_⟩
  · rw [trace_bind, List.map_append]
    exact t.bind ff t'
  · rw [run_bind]
    exact ho'

theorem Lock.bind {P : Prog D α} {PP : ∀ r, Prog (DD r) (αα r)} {f : α → Prog D β}
    {ff : ∀ r, αα r → Prog (DD r) (ββ r)} (h : Lock B C rel P PP)
    (hf : ∀ a aa, rel a aa → Lock B C rel' (f a) fun r => ff r (aa r)) :
    Lock B C rel' (P.bind f) fun r => (PP r).bind (ff r) := h.bind_run fun aa ha => hf _ aa ha

variable (hP : Parts B L C J JI JV)
include hP

theorem lock_step {d : D} {dd : ∀ r, DD r} {h : XReal} {hh : Fin R → XReal}
    {k : Except Err D → Prog D α} {kk : ∀ r, Except Err (DD r) → Prog (DD r) (αα r)}
    (hJ : J d dd) (hh' : ∀ r, hh r = h)
    (he : ∀ e, Lock B C rel (k (.error e)) fun r => kk r (.error e))
    (hk : ∀ d' dd', J d' dd' → Lock B C rel (k (.ok d')) fun r => kk r (.ok (dd' r))) :
    Lock B C rel (.step d h k) fun r => .step (dd r) (hh r) (kk r) := by
  obtain rfl : hh = fun _ => h := funext hh'
  rcases hs : B.step d h with e | d'
  · obtain ⟨out, t, ho⟩ := he e
    refine ⟨out, ?_, ?_⟩
    · rw [Prog.trace, hs]
      refine .step dd _ kk ?_
      simpa only [hP.step_error hJ hs] using t
    · rw [Prog.run, hs]; exact ho
  · obtain ⟨dd', hs', hJ'⟩ := hP.step_ok hJ hs
    obtain ⟨out, t, ho⟩ := hk d' dd' hJ'
    refine ⟨out, ?_, ?_⟩
    · rw [Prog.trace, hs]
      refine .step dd _ kk ?_
      simpa only [hs'] using t
    · rw [Prog.run, hs]; exact ho

theorem lock_measure {d : D} {dd : ∀ r, DD r} {k : Except Err XReal → Prog D α}
    {kk : ∀ r, Except Err XReal → Prog (DD r) (αα r)} (hJ : J d dd)
    (hk : ∀ v, Lock B C rel (k v) fun r => kk r v) :
    Lock B C rel (.measure d k) fun r => .measure (dd r) (kk r) := by
  obtain ⟨out, t, ho⟩ := hk (B.measure d)
  refine ⟨out, .measure dd kk ?_, ho⟩
  simpa only [hP.measure hJ] using t

theorem lock_deriv {d p : D} {dd pp : ∀ r, DD r} {h : XReal} {hh : Fin R → XReal}
    {k : D → Prog D α} {kk : ∀ r, DD r → Prog (DD r) (αα r)}
    (hJ : J d dd) (hp : J p pp) (hh' : ∀ r, hh r = h)
    (hk : ∀ q qq, J q qq → Lock B C rel (k q) fun r => kk r (qq r)) :
    Lock B C rel (.deriv d p h k) fun r => .deriv (dd r) (pp r) (hh r) (kk r) := by
  obtain rfl : hh = fun _ => h := funext hh'
  obtain ⟨out, t, ho⟩ := hk _ _ (hP.deriv hJ hp (h := h))
  exact ⟨out, .deriv dd pp _ kk t, ho⟩

theorem lock_adj {d p : D} {dd pp : ∀ r, DD r} {h : XReal} {hh : Fin R → XReal}
    {k : D → Prog D α} {kk : ∀ r, DD r → Prog (DD r) (αα r)}
    (hJ : J d dd) (hp : J p pp) (hh' : ∀ r, hh r = h)
    (hk : ∀ q qq, J q qq → Lock B C rel (k q) fun r => kk r (qq r)) :
    Lock B C rel (.adj d p h k) fun r => .adj (dd r) (pp r) (hh r) (kk r) := by
  obtain rfl : hh = fun _ => h := funext hh'
  obtain ⟨out, t, ho⟩ := hk _ _ (hP.adj hJ hp (h := h))
  exact ⟨out, .adj dd pp _ kk t, ho⟩

end

/-! ### The component -/

/-- Controller, state and outcome on the ranks. -/
def RelIter (J : D → (∀ r, DD r) → Prop) (a : Ctrl × IState D × Except Err Unit)
    (aa : ∀ r, Ctrl × IState (DD r) × Except Err Unit) : Prop :=
  (∀ r, (aa r).1 = a.1) ∧ (JX J a.2.1 fun r => (aa r).2.1) ∧ ∀ r, (aa r).2.2 = a.2.2

/-- The same for the functions with callbacks. -/
def RelRes (J : D → (∀ r, DD r) → Prop) (a : Res D) (aa : ∀ r, Res (DD r)) : Prop :=
  (∀ r, (aa r).ctrl = a.ctrl) ∧ (JX J a.st fun r => (aa r).st) ∧ ∀ r, (aa r).out = a.out

/-- Component and outcome on the ranks. -/
def RelWorld (J : D → (∀ r, DD r) → Prop) {ch : Choice} {V : Type} {VV : Fin R → Type}
    (rel : V → (∀ r, VV r) → Prop) (a : World D (ch.Data D) × Except Err V)
    (aa : ∀ r, World (DD r) (ch.Data (DD r)) × Except Err (VV r)) : Prop :=
  (JW J a.1 fun r => (aa r).1) ∧ JE rel a.2 fun r => (aa r).2

/-- Storage and outcome on the ranks. -/
def RelStor (J : D → (∀ r, DD r) → Prop) (ch : Choice) (a : ch.Data D × Res D)
    (aa : ∀ r, ch.Data (DD r) × Res (DD r)) : Prop :=
  (JC J ch a.1 fun r => (aa r).1) ∧ RelRes J a.2 fun r => (aa r).2

/-- Outcome and perturbation on the ranks. -/
def RelFwd (J : D → (∀ r, DD r) → Prop) (a : Res D × D) (aa : ∀ r, Res (DD r) × DD r) : Prop :=
  (RelRes J a.1 fun r => (aa r).1) ∧ J a.2 fun r => (aa r).2

theorem RelIter.shape {J : D → (∀ r, DD r) → Prop} {a : Ctrl × IState D × Except Err Unit}
    {aa : ∀ r, Ctrl × IState (DD r) × Except Err Unit} (h : RelIter J a aa) :
    ∃ yy : ∀ r, IState (DD r), aa = (fun r => (a.1, yy r, a.2.2)) ∧ JX J a.2.1 yy :=
  ⟨fun r => (aa r).2.1, funext fun r => Prod.ext (h.1 r) (Prod.ext rfl (h.2.2 r)), h.2.1⟩

theorem RelRes.shape {J : D → (∀ r, DD r) → Prop} {a : Res D} {aa : ∀ r, Res (DD r)}
    (h : RelRes J a aa) : ∃ (yy : ∀ r, IState (DD r)) (lg : ∀ r, List (Ev (DD r))),
      aa = (fun r => ⟨a.ctrl, yy r, lg r, a.out⟩) ∧ JX J a.st yy := by
  refine ⟨fun r => (aa r).st, fun r => (aa r).log, funext fun r => ?_, h.2.1⟩
  rw [← h.1 r, ← h.2.2 r]

theorem RelStor.shape {J : D → (∀ r, DD r) → Prop} {ch : Choice} {a : ch.Data D × Res D}
    {aa : ∀ r, ch.Data (DD r) × Res (DD r)} (h : RelStor J ch a aa) :
    ∃ (yy : ∀ r, IState (DD r)) (lg : ∀ r, List (Ev (DD r))) (ss : ∀ r, ch.Data (DD r)),
      aa = (fun r => (ss r, ⟨a.2.ctrl, yy r, lg r, a.2.out⟩)) ∧ JC J ch a.1 ss ∧
        JX J a.2.st yy := by
  obtain ⟨yy, lg, e, hy⟩ := h.2.shape
  exact ⟨yy, lg, fun r => (aa r).1, funext fun r => Prod.ext rfl (congrFun e r), h.1, hy⟩

theorem RelFwd.shape {J : D → (∀ r, DD r) → Prop} {a : Res D × D} {aa : ∀ r, Res (DD r) × DD r}
    (h : RelFwd J a aa) : ∃ (yy : ∀ r, IState (DD r)) (lg : ∀ r, List (Ev (DD r)))
      (qq : ∀ r, DD r), aa = (fun r => (⟨a.1.ctrl, yy r, lg r, a.1.out⟩, qq r)) ∧ JX J a.1.st yy ∧
        J a.2 qq := by
  obtain ⟨yy, lg, e, hy⟩ := h.1.shape
  exact ⟨yy, lg, fun r => (aa r).2, funext fun r => Prod.ext (congrFun e r) rfl, hy, h.2⟩

section
variable {B : Backend D I O} {L : ∀ r, Local (DD r) (II r) (OO r)} {C : Collective DD}
  {J : D → (∀ r, DD r) → Prop} {JI : I → (∀ r, II r) → Prop} {JV : O → (∀ r, OO r) → Prop}
  {opt : Options} {opts : Fin R → Options}
  (hP : Parts B L C J JI JV) (ho : ∀ r, SameOptions opt (opts r))

theorem stored_append {l l' : List (IState D)} {ll ll' : ∀ r, List (IState (DD r))}
    (h : Stored J l ll) (h' : Stored J l' ll') : Stored J (l ++ l') fun r => ll r ++ ll' r := by
  induction h with
  | nil => exact h'
  | cons hx t ih => exact .cons hx ih

theorem stored_reverse {l : List (IState D)} {ll : ∀ r, List (IState (DD r))}
    (h : Stored J l ll) : Stored J l.reverse fun r => (ll r).reverse := by
  induction h with
  | nil => exact .nil
  | cons hx t ih =>
    simp only [List.reverse_cons]
    exact stored_append ih (.cons hx .nil)

theorem stored_length {l : List (IState D)} {ll : ∀ r, List (IState (DD r))}
    (h : Stored J l ll) (r : Fin R) : (ll r).length = l.length := by
  induction h with
  | nil => rfl
  | cons hx t ih => simp [ih]

include hP ho

theorem lock_iterate (f : ℕ) (c : Ctrl) {x : IState D} {xx : ∀ r, IState (DD r)}
    (hx : JX J x xx) : Lock B C (RelIter J) (iterateP (Local.of B) opt f c x)
      fun r => iterateP (L r) (opts r) f c (xx r) := by
  induction f generalizing c x xx with
  | zero => exact lock_done ⟨fun _ => rfl, hx, fun _ => rfl⟩
  | succ f ih =>
    simp only [iterateP]
    refine lock_step hP hx.disc hx.sugg (fun e => ?_) fun d dd hd => ?_
    · exact lock_done ⟨fun _ => rfl, hx, fun _ => rfl⟩
    · dsimp only
      simp only [(ho _).adaptive]
      split
      · refine lock_measure hP hd fun v => ?_
        rcases v with e | err
        · exact lock_done ⟨fun _ => rfl, hx, fun _ => rfl⟩
        · dsimp only
          simp only [hx.sugg, hx.stepHist, hx.errHist, (ho _).crit, hP.time hd,
            show (Local.of B).time = B.time from rfl]
          rcases c.call true ⟨err, x.sugg, opt.crit.remaining (B.time d), x.errHist, x.stepHist⟩
            with ⟨c', e | st⟩
          · exact lock_done ⟨fun _ => rfl, hx, fun _ => rfl⟩
          · dsimp only
            split
            · exact lock_done ⟨fun _ => rfl,
                ⟨hP.set hx.disc hd, fun _ => rfl, fun _ => rfl, fun _ => rfl⟩, fun _ => rfl⟩
            · exact ih c' ⟨hx.disc, fun _ => rfl, fun _ => rfl, fun _ => rfl⟩
      · exact lock_done ⟨fun _ => rfl, ⟨hP.set hx.disc hd, hx.sugg,
          fun r => by simp only [hx.sugg, hx.stepHist], hx.errHist⟩, fun _ => rfl⟩

theorem lock_runStep (it : ℕ) (c : Ctrl) {x : IState D} {xx : ∀ r, IState (DD r)}
    (hx : JX J x xx) : Lock B C (RelRes J) (runStepP (Local.of B) opt it c x)
      fun r => runStepP (L r) (opts r) it c (xx r) := by
  simp only [runStepP, (ho _).recursionLimit]
  refine (lock_iterate hP ho opt.recursionLimit c hx).bind fun a aa ha => ?_
  obtain ⟨yy, rfl, hy⟩ := ha.shape
  rcases a with ⟨c', x', e | ⟨⟩⟩ <;> exact lock_done ⟨fun _ => rfl, hy, fun _ => rfl⟩

theorem lock_noForward (f it : ℕ) (c : Ctrl) {x : IState D} {xx : ∀ r, IState (DD r)}
    (hx : JX J x xx) : Lock B C (RelRes J) (noForwardP (Local.of B) opt f it c x)
      fun r => noForwardP (L r) (opts r) f it c (xx r) := by
  induction f generalizing it c x xx with
  | zero => exact lock_done ⟨fun _ => rfl, hx, fun _ => rfl⟩
  | succ f ih =>
    simp only [noForwardP, (ho _).crit, hP.time hx.disc,
      show (Local.of B).time = B.time from rfl]
    split
    · exact lock_done ⟨fun _ => rfl, hx, fun _ => rfl⟩
    · refine (lock_runStep hP ho (it + 1) c hx).bind fun a aa ha => ?_
      obtain ⟨yy, lg, rfl, hy⟩ := ha.shape
      rcases a with ⟨c', x', log, e | ⟨⟩⟩
      · exact lock_done ⟨fun _ => rfl, hy, fun _ => rfl⟩
      · refine (ih (it + 1) c' hy).bind fun b bb hb => ?_
        exact lock_done ⟨hb.1, hb.2.1, hb.2.2⟩

theorem lock_allForward (f it : ℕ) (c : Ctrl) {l : List (IState D)}
    {ll : ∀ r, List (IState (DD r))} {x : IState D} {xx : ∀ r, IState (DD r)}
    (hl : Stored J l ll) (hx : JX J x xx) :
    Lock B C (RelStor J .all) (allForwardP (Local.of B) opt f it l c x)
      fun r => allForwardP (L r) (opts r) f it (ll r) c (xx r) := by
  induction f generalizing it c l ll x xx with
  | zero => exact lock_done ⟨hl, fun _ => rfl, hx, fun _ => rfl⟩
  | succ f ih =>
    simp only [allForwardP, (ho _).crit, hP.time hx.disc,
      show (Local.of B).time = B.time from rfl]
    split
    · exact lock_done ⟨hl, fun _ => rfl, hx, fun _ => rfl⟩
    · refine (lock_runStep hP ho (it + 1) c hx).bind fun a aa ha => ?_
      obtain ⟨yy, lg, rfl, hy⟩ := ha.shape
      rcases a with ⟨c', x', log, e | ⟨⟩⟩
      · exact lock_done ⟨hl, fun _ => rfl, hy, fun _ => rfl⟩
      · refine (ih (it + 1) c' (stored_append hl (.cons hy .nil)) hy).bind fun b bb hb => ?_
        exact lock_done ⟨hb.1, hb.2.1, hb.2.2.1, hb.2.2.2⟩

theorem lock_forward (ch : Choice) (f : ℕ) (c : Ctrl) {s : ch.Data D} {ss : ∀ r, ch.Data (DD r)}
    {x : IState D} {xx : ∀ r, IState (DD r)} (hs : JC J ch s ss) (hx : JX J x xx) :
    Lock B C (RelStor J ch) (forwardP (Local.of B) opt ch f s c x)
      fun r => forwardP (L r) (opts r) ch f (ss r) c (xx r) := by
  cases ch with
  | no =>
    refine (lock_noForward hP ho f 0 c hx).bind fun a aa ha => ?_
    exact lock_done ⟨trivial, ha⟩
  | all => exact lock_allForward hP ho f 0 c hs hx

theorem lock_compute (ch : Choice) (f : ℕ) {w : World D (ch.Data D)}
    {ww : ∀ r, World (DD r) (ch.Data (DD r))} {i : I} {ii : ∀ r, II r} (hw : JW J w ww)
    (hi : JI i ii) : Lock B C (RelWorld J JV) (computeP (Local.of B) opt ch f w i)
      fun r => computeP (L r) (opts r) ch f (ww r) (ii r) := by
  have hd := hP.load hw.tis.disc hi
  have hx : JX J { resetErrorControl opt w.ctrl { w.tis with disc := B.load w.tis.disc i } with
        disc := B.clearLin (B.load w.tis.disc i) }
      fun r => { resetErrorControl (opts r) w.ctrl
          { (ww r).tis with disc := (L r).load (ww r).tis.disc (ii r) } with
        disc := (L r).clearLin ((L r).load (ww r).tis.disc (ii r)) } :=
    ⟨hP.clearLin hd, fun r => (ho r).initialStep, fun _ => rfl, fun _ => rfl⟩
  have hc : JC J ch (createP ch w.ck) fun r => createP ch (ww r).ck := by
    cases ch with
    | no => trivial
    | all => exact .nil
  simp only [computeP, hw.ctrl]
  refine (lock_forward hP ho ch f w.ctrl hc hx).bind fun a aa ha => ?_
  obtain ⟨yy, lg, ss, rfl, hs, hy⟩ := ha.shape
  have hw' : JW J { w with tis := a.2.st, ctrl := a.2.ctrl, cached := some (B.load w.tis.disc i), ck := a.1, log := w.log ++ a.2.log } fun r => { ww r with tis := yy r, ctrl := a.2.ctrl, cached := some ((L r).load (ww r).tis.disc (ii r)), ck := ss r, log := (ww r).log ++ lg r } :=
    ⟨hy, hw.pert, fun _ => rfl, ⟨_, fun _ => rfl, hd⟩, hs⟩
  rcases a with ⟨s, c', x', log, e | ⟨⟩⟩
  · exact lock_done ⟨hw', fun _ => rfl⟩
  · exact lock_done ⟨hw', _, fun _ => rfl, hP.read hy.disc⟩

theorem lock_runStepFwd (it : ℕ) (c : Ctrl) {x : IState D} {xx : ∀ r, IState (DD r)} {p : D}
    {pp : ∀ r, DD r} (hx : JX J x xx) (hp : J p pp) :
    Lock B C (RelFwd J) (runStepFwdP (Local.of B) opt it c x p)
      fun r => runStepFwdP (L r) (opts r) it c (xx r) (pp r) := by
  simp only [runStepFwdP, (ho _).recursionLimit]
  refine (lock_iterate hP ho opt.recursionLimit c hx).bind fun a aa ha => ?_
  obtain ⟨yy, rfl, hy⟩ := ha.shape
  rcases a with ⟨c', x', e | ⟨⟩⟩
  · exact lock_done ⟨⟨fun _ => rfl, hy, fun _ => rfl⟩, hp⟩
  · refine lock_deriv hP hy.disc hp (fun r => by rw [hy.stepHist]) fun q qq hq => ?_
    exact lock_done ⟨⟨fun _ => rfl, hy, fun _ => rfl⟩, hq⟩

theorem lock_fwdLoop (f it : ℕ) (c : Ctrl) {x : IState D} {xx : ∀ r, IState (DD r)} {p : D}
    {pp : ∀ r, DD r} (hx : JX J x xx) (hp : J p pp) :
    Lock B C (RelFwd J) (fwdLoopP (Local.of B) opt f it c x p)
      fun r => fwdLoopP (L r) (opts r) f it c (xx r) (pp r) := by
  induction f generalizing it c x xx p pp with
  | zero => exact lock_done ⟨⟨fun _ => rfl, hx, fun _ => rfl⟩, hp⟩
  | succ f ih =>
    simp only [fwdLoopP, (ho _).crit, hP.time hx.disc,
      show (Local.of B).time = B.time from rfl]
    split
    · exact lock_done ⟨⟨fun _ => rfl, hx, fun _ => rfl⟩, hp⟩
    · refine (lock_runStepFwd hP ho (it + 1) c hx hp).bind fun a aa ha => ?_
      obtain ⟨yy, lg, qq, rfl, hy, hq⟩ := ha.shape
      rcases a with ⟨⟨c', x', log, e | ⟨⟩⟩, q⟩
      · exact lock_done ⟨⟨fun _ => rfl, hy, fun _ => rfl⟩, hq⟩
      · refine (ih (it + 1) c' hy hq).bind fun b bb hb => ?_
        exact lock_done ⟨⟨hb.1.1, hb.1.2.1, hb.1.2.2⟩, hb.2⟩

theorem lock_fwd {ch : Choice} (f : ℕ) {w : World D (ch.Data D)}
    {ww : ∀ r, World (DD r) (ch.Data (DD r))} {i di : I} {ii dii : ∀ r, II r} {v : O}
    {vv : ∀ r, OO r} (hw : JW J w ww) (hi : JI i ii) (hdi : JI di dii) (hv : JV v vv) :
    Lock B C (RelWorld J JV) (fwdP (Local.of B) opt f w i di v)
      fun r => fwdP (L r) (opts r) f (ww r) (ii r) (dii r) (vv r) := by
  have hx : JX J (resetErrorControl opt w.ctrl { w.tis with disc := B.load w.tis.disc i })
      fun r => resetErrorControl (opts r) w.ctrl
          { (ww r).tis with disc := (L r).load (ww r).tis.disc (ii r) } :=
    ⟨hP.load hw.tis.disc hi, fun r => (ho r).initialStep, fun _ => rfl, fun _ => rfl⟩
  simp only [fwdP, hw.ctrl]
  refine (lock_fwdLoop hP ho f 0 w.ctrl hx (hP.load hw.pert hdi)).bind fun a aa ha => ?_
  obtain ⟨yy, lg, qq, rfl, hy, hq⟩ := ha.shape
  have hw' : JW J { w with tis := a.1.st, ctrl := a.1.ctrl, pert := a.2, log := w.log ++ a.1.log }
      fun r => { ww r with tis := yy r, ctrl := a.1.ctrl, pert := qq r, log := (ww r).log ++ lg r } :=
    ⟨hy, hq, fun _ => rfl, hw.cached, hw.ck⟩
  rcases a with ⟨⟨c', x', log, e | ⟨⟩⟩, q⟩
  · exact lock_done ⟨hw', fun _ => rfl⟩
  · exact lock_done ⟨hw', _, fun _ => rfl, hP.writeOut hq hv⟩

omit ho in
theorem lock_allReverse {l : List (IState D)} {ll : ∀ r, List (IState (DD r))} {p : D}
    {pp : ∀ r, DD r} (hl : Stored J l ll) (hp : J p pp) :
    Lock B C (fun a aa => J a.1 fun r => (aa r).1) (allReverseP opt l p)
      fun r => allReverseP (opts r) (ll r) (pp r) := by
  induction hl generalizing p pp with
  | nil => exact lock_done hp
  | cons hx t ih =>
    simp only [allReverseP, runStepRevP, Prog.bind]
    refine lock_adj hP hx.disc hp (fun r => by rw [hx.stepHist]) fun q qq hq => ?_
    refine (ih hq).bind fun b bb hb => ?_
    exact lock_done hb

omit ho in
theorem lock_reverse (ch : Choice) (c : Ctrl) {s : ch.Data D} {ss : ∀ r, ch.Data (DD r)}
    {x : IState D} {xx : ∀ r, IState (DD r)} {p : D} {pp : ∀ r, DD r} (hs : JC J ch s ss)
    (hx : JX J x xx) (hp : J p pp) :
    Lock B C (fun a aa => (JC J ch a.1 fun r => (aa r).1) ∧ RelFwd J a.2 fun r => (aa r).2)
      (reverseP opt ch s c x p) fun r => reverseP (opts r) ch (ss r) c (xx r) (pp r) := by
  cases ch with
  | no => exact lock_done ⟨trivial, ⟨fun _ => rfl, hx, fun _ => rfl⟩, hp⟩
  | all =>
    refine (lock_allReverse hP (stored_reverse hs) hp).bind fun a aa ha => ?_
    exact lock_done ⟨.nil, ⟨fun _ => rfl, hx, fun _ => rfl⟩, ha⟩

theorem lock_revPrep (ch : Choice) (f : ℕ) {w : World D (ch.Data D)}
    {ww : ∀ r, World (DD r) (ch.Data (DD r))} {i : I} {ii : ∀ r, II r} (hw : JW J w ww)
    (hi : JI i ii) (hc : ∀ r, cacheOkP (L r) (ww r) (ii r) = cacheOkP (Local.of B) w i) :
    Lock B C (RelWorld J fun _ _ => True) (revPrepP (Local.of B) opt ch f w i)
      fun r => revPrepP (L r) (opts r) ch f (ww r) (ii r) := by
  simp only [revPrepP, hc]
  split
  · exact lock_done ⟨hw, _, fun _ => rfl, trivial⟩
  · refine (lock_compute hP ho ch f hw hi).bind fun a aa ha => ?_
    obtain ⟨h1, h2⟩ := ha
    rcases a with ⟨w', e | v⟩
    · obtain ⟨ww', rfl⟩ : ∃ ww', aa = fun r => (ww' r, .error e) :=
        ⟨fun r => (aa r).1, funext fun r => Prod.ext rfl (h2 r)⟩
      exact lock_done ⟨h1, fun _ => rfl⟩
    · obtain ⟨uu, h2, -⟩ := h2
      obtain ⟨ww', rfl⟩ : ∃ ww', aa = fun r => (ww' r, .ok (uu r)) :=
        ⟨fun r => (aa r).1, funext fun r => Prod.ext rfl (h2 r)⟩
      exact lock_done ⟨h1, _, fun _ => rfl, trivial⟩

theorem lock_rev (ch : Choice) (f : ℕ) {w : World D (ch.Data D)}
    {ww : ∀ r, World (DD r) (ch.Data (DD r))} {i di : I} {ii dii : ∀ r, II r} {v : O}
    {vv : ∀ r, OO r} (hw : JW J w ww)
    (hi : JI i ii) (hv : JV v vv) (hdi : JI di dii)
    (hc : ∀ r, cacheOkP (L r) (ww r) (ii r) = cacheOkP (Local.of B) w i) :
    Lock B C (RelWorld J JI) (revP (Local.of B) opt ch f w i v di)
      fun r => revP (L r) (opts r) ch f (ww r) (ii r) (vv r) (dii r) := by
  simp only [revP]
  refine (lock_revPrep hP ho ch f hw hi hc).bind fun a aa ha => ?_
  obtain ⟨h1, h2⟩ := ha
  rcases a with ⟨w', e | v⟩
  · obtain ⟨ww', rfl⟩ : ∃ ww', aa = fun r => (ww' r, .error e) :=
      ⟨fun r => (aa r).1, funext fun r => Prod.ext rfl (h2 r)⟩
    exact lock_done ⟨h1, fun _ => rfl⟩
  · obtain ⟨uu, h2, -⟩ := h2
    obtain ⟨ww', rfl⟩ : ∃ ww', aa = fun r => (ww' r, .ok ()) :=
      ⟨fun r => (aa r).1, funext fun r => Prod.ext rfl (h2 r)⟩
    dsimp only at h1 ⊢
    simp only [h1.ctrl]
    refine (lock_reverse hP ch w'.ctrl h1.ck h1.tis (hP.seed h1.pert hv)).bind fun b bb hb => ?_
    obtain ⟨hb1, hb2⟩ := hb
    obtain ⟨yy, lg, qq, e, hy, hq⟩ := hb2.shape
    obtain ⟨ss, rfl⟩ : ∃ ss : ∀ r, ch.Data (DD r),
        bb = fun r => (ss r, ⟨b.2.1.ctrl, yy r, lg r, b.2.1.out⟩, qq r) :=
      ⟨fun r => (bb r).1, funext fun r => Prod.ext rfl (congrFun e r)⟩
    rcases b with ⟨s, ⟨c', x', log, e | ⟨⟩⟩, q⟩
    · exact lock_done ⟨⟨hy, hq, fun _ => rfl, h1.cached, hb1⟩, fun _ => rfl⟩
    · exact lock_done ⟨⟨hy, hq, fun _ => rfl, fun _ => rfl, hb1⟩, _, fun _ => rfl,
        hP.writeIn hq hdi⟩

omit ho in
/-- Whether all ranks or none have their inputs cached is the same as for a single rank. -/
theorem cache_agrees {ch : Choice} {w : World D (ch.Data D)}
    {ww : ∀ r, World (DD r) (ch.Data (DD r))} {i : I} {ii : ∀ r, II r} (hw : JW J w ww)
    (hi : JI i ii)
    (hc : ∀ r r', cacheOkP (L r) (ww r) (ii r) = cacheOkP (L r') (ww r') (ii r')) (r : Fin R) :
    cacheOkP (L r) (ww r) (ii r) = cacheOkP (Local.of B) w i := by
  have hcd := hw.cached
  unfold cacheOkP at hc ⊢
  rcases hwc : w.cached with _ | d
  · rw [hwc] at hcd
    have h0 : ∀ r, (ww r).cached = none := hcd
    rw [h0 r]
  · rw [hwc] at hcd
    obtain ⟨dd, h0, hd⟩ := hcd
    simp only [h0] at hc ⊢
    have key := hP.cacheHit hd hi
    change _ = B.cacheHit d i
    rw [Bool.eq_iff_iff, key]
    exact ⟨fun h r' => by rw [← hc r r', h], fun h => h r⟩

/-- Operations asked for on the ranks. -/
inductive JOps (JI : I → (∀ r, II r) → Prop) (JV : O → (∀ r, OO r) → Prop) :
    List (Op I O) → (∀ r, List (Op (II r) (OO r))) → Prop
  | nil : JOps JI JV [] fun _ => []
  | compute {i ii l ll} (h : JI i ii) (t : JOps JI JV l ll) :
      JOps JI JV (.compute i :: l) fun r => .compute (ii r) :: ll r
  | fwd {i ii di dii v vv l ll} (h : JI i ii) (h' : JI di dii) (h'' : JV v vv)
      (t : JOps JI JV l ll) :
      JOps JI JV (.fwd i di v :: l) fun r => .fwd (ii r) (dii r) (vv r) :: ll r
  | rev {i ii di dii v vv l ll} (h : JI i ii) (h' : JI di dii) (h'' : JV v vv)
      (t : JOps JI JV l ll) :
      JOps JI JV (.rev i v di :: l) fun r => .rev (ii r) (vv r) (dii r) :: ll r

/-- Reverse products are asked for with the inputs of the last `compute` only, or of the last
reverse product; `cur` are these inputs at the beginning. -/
inductive Current : Option I → List (Op I O) → Prop
  | nil (cur) : Current cur []
  | compute {cur i l} (t : Current (some i) l) : Current cur (.compute i :: l)
  | fwd {cur i di v l} (t : Current cur l) : Current cur (.fwd i di v :: l)
  | rev {cur i di v l} (h : cur = none ∨ cur = some i) (t : Current (some i) l) :
      Current cur (.rev i v di :: l)

/-- What is cached was loaded from the current inputs. -/
def CachedFrom (B : Backend D I O) (cur : Option I) {σ : Type} (w : World D σ) : Prop :=
  w.cached = none ∨ ∃ d i, cur = some i ∧ w.cached = some (B.load d i)

omit hP ho in
theorem fwd_cached {σ : Type} (f : ℕ) (w : World D σ) (i di : I) (v : O) :
    (fwd B opt f w i di v).1.cached = w.cached := by
  simp only [fwd]
  split <;> rfl

omit hP ho in
theorem compute_cached {σ : Type} (ck : Checkpointer D σ) (f : ℕ) (w : World D σ) (i : I) :
    (compute B opt ck f w i).1.cached = some (B.load w.tis.disc i) := by
  simp only [compute]
  split <;> rfl

omit hP ho in
theorem rev_cached {σ : Type} (ck : Checkpointer D σ) (f : ℕ) (w : World D σ) (i di : I) (v : O)
    {cur : Option I} (hc : cur = none ∨ cur = some i) (h : CachedFrom B cur w) :
    CachedFrom B (some i) (rev B opt ck f w i v di).1 := by
  have h1 : CachedFrom B (some i) (revPrep B opt ck f w i).1 := by
    rw [revPrep]
    split
    · rcases h with h | ⟨d, j, hj, h⟩
      · exact .inl h
      · rcases hc with rfl | rfl
        · cases hj
        · exact .inr ⟨d, j, hj, h⟩
    · have := compute_cached (B := B) (opt := opt) ck f w i
      rcases hcp : compute B opt ck f w i with ⟨w', e | u⟩ <;> rw [hcp] at this <;>
        exact .inr ⟨_, _, rfl, this⟩
  rw [rev]
  rcases hp : revPrep B opt ck f w i with ⟨w1, e | ⟨⟩⟩ <;> rw [hp] at h1
  · exact h1
  · dsimp only
    split
    · exact h1
    · exact .inl rfl

theorem lock_ops (ch : Choice) (f : ℕ) (hload : ∀ d i, B.cacheHit (B.load d i) i = true)
    {ops : List (Op I O)} {oops : ∀ r, List (Op (II r) (OO r))} {cur : Option I}
    (hops : JOps JI JV ops oops) (hcur : Current cur ops) {w : World D (ch.Data D)}
    {ww : ∀ r, World (DD r) (ch.Data (DD r))} (hw : JW J w ww) (hcw : CachedFrom B cur w) :
    Lock B C (JW J) (opsP (Local.of B) opt ch f w ops)
      fun r => opsP (L r) (opts r) ch f (ww r) (oops r) := by
  induction hops generalizing cur w ww with
  | nil => exact lock_done hw
  | @compute i ii l ll hi t ih =>
    cases hcur with
    | compute hcur =>
      simp only [opsP]
      refine Lock.bind_run (rel := JW J) (Lock.bind (lock_compute hP ho ch f hw hi)
        fun a aa ha => lock_done ha.1) fun aa ha => ih hcur ha ?_
      rw [opP_run]
      exact .inr ⟨_, i, rfl, compute_cached ..⟩
  | @fwd i ii di dii v vv l ll hi hdi hv t ih =>
    cases hcur with
    | fwd hcur =>
      simp only [opsP]
      refine Lock.bind_run (rel := JW J) (Lock.bind (lock_fwd hP ho f hw hi hdi hv)
        fun a aa ha => lock_done ha.1) fun aa ha => ih hcur ha ?_
      rw [opP_run]
      unfold CachedFrom
      rw [doOp, fwd_cached]
      exact hcw
  | @rev i ii di dii v vv l ll hi hdi hv t ih =>
    cases hcur with
    | rev h hcur =>
      simp only [opsP]
      have hc : ∀ r, cacheOkP (L r) (ww r) (ii r) = cacheOkP (Local.of B) w i := by
        have hcd := hw.cached
        unfold cacheOkP
        rcases hcw with hn | ⟨d, j, hj, hn⟩ <;> rw [hn] at hcd ⊢
        · intro r
          have h0 : ∀ r, (ww r).cached = none := hcd
          rw [h0 r]
        · obtain ⟨dd, h0, hd⟩ := hcd
          obtain rfl : j = i := by
            rcases h with rfl | rfl
            · cases hj
            · exact (Option.some.inj hj).symm
          intro r
          dsimp only at h0
          rw [h0 r]
          dsimp only
          rw [(hP.cacheHit hd hi).mp (hload d j) r]
          exact (hload d j).symm
      refine Lock.bind_run (rel := JW J) (Lock.bind (lock_rev hP ho ch f hw hi hv hdi hc)
        fun a aa ha => lock_done ha.1) fun aa ha => ih hcur ha ?_
      rw [opP_run]
      exact rev_cached _ f w i di v h hcw

end

end Verif.Parallel
