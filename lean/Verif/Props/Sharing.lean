/-
C122: which controllers share a configuration.
-/
import Verif.Control.Sharing

namespace Verif.Props

open Verif.Control Verif.XReal

/-- The address of the configuration of the first controller of a chain. -/
theorem chain_from (dflt : String → ℕ) (p : ℝ) (r : ℕ) (cs : List (Factory × Option ℕ)) (b : Obj)
    (hb : ∀ x ∈ b.refs, x = r) (hr : b.ref = r) : ∃ o,
    cs.foldl (fun c f => some (makeObj dflt p f.1 f.2 c)) (some b) = some o ∧
      (∀ x ∈ o.refs, x = r) ∧ o.ref = r ∧
      ∀ σ, some (o.look σ) = (cs.map fun c => c.1.par).foldl
        (fun c f => some (mk (f p) (σ r) c)) (some (b.look σ)) := by
  induction cs generalizing b with
  | nil => exact ⟨b, rfl, hb, hr, fun _ => rfl⟩
  | cons c cs ih =>
    simp only [List.foldl_cons, List.map_cons]
    refine ih (makeObj dflt p c.1 c.2 (some b)) ?_ hr
    intro x hx
    simp only [makeObj, Obj.refs, List.mem_cons] at hx
    rcases hx with rfl | hx
    · exact hr
    · exact hb x hx

/-- C122: all controllers of a chain refer to one configuration: the one given to the innermost
controller, or else the default of its factory. Configurations given to the other calls are not
used. With the present contents of that configuration it is the chain of the other properties. -/
theorem C122_chain (dflt : String → ℕ) (p : ℝ) (f : Factory) (c : Option ℕ)
    (cs : List (Factory × Option ℕ)) : ∃ o, makeChain dflt p ((f, c) :: cs) = some o ∧
      (∀ x ∈ o.refs, x = c.getD (dflt f.name)) ∧ o.ref = c.getD (dflt f.name) ∧
      ∀ σ, some (o.look σ)
        = buildChain p (σ (c.getD (dflt f.name))) (f.par :: cs.map fun c => c.1.par) := by
  obtain ⟨o, h1, h2, h3, h4⟩ := chain_from dflt p (c.getD (dflt f.name)) cs
    (makeObj dflt p f c none) (by simp [makeObj, Obj.refs]) rfl
  exact ⟨o, h1, h2, h3, h4⟩

theorem chain_ref {dflt : String → ℕ} {p : ℝ} {f : Factory} {c : Option ℕ}
    {cs : List (Factory × Option ℕ)} {o : Obj} (h : makeChain dflt p ((f, c) :: cs) = some o) :
    o.ref = c.getD (dflt f.name) ∧ ∀ σ, some (o.look σ)
        = buildChain p (σ (c.getD (dflt f.name))) (f.par :: cs.map fun c => c.1.par) := by
  obtain ⟨o', h1, -, h3, h4⟩ := C122_chain dflt p f c cs
  rw [h] at h1
  cases h1
  exact ⟨h3, h4⟩

/-- C122: changing the configuration of a controller leaves every controller as it is that was made
with another configuration; one that was made with the same configuration becomes the controller that
the same calls make with the changed contents. -/
theorem C122_write (dflt : String → ℕ) (p q : ℝ) (f f' : Factory) (c c' : Option ℕ)
    (cs cs' : List (Factory × Option ℕ)) (o d : Obj)
    (ho : makeChain dflt p ((f, c) :: cs) = some o) (hd : makeChain dflt q ((f', c') :: cs') = some d)
    (σ : Store) (g : Config → Config) :
    (c.getD (dflt f.name) ≠ c'.getD (dflt f'.name) → d.look (o.write σ g) = d.look σ) ∧
    (c.getD (dflt f.name) = c'.getD (dflt f'.name) → some (d.look (o.write σ g))
      = buildChain q (g (σ (c'.getD (dflt f'.name)))) (f'.par :: cs'.map fun c => c.1.par)) := by
  obtain ⟨h1, -⟩ := chain_ref ho
  obtain ⟨-, h4⟩ := chain_ref hd
  constructor
  · intro hn
    have : o.write σ g (c'.getD (dflt f'.name)) = σ (c'.getD (dflt f'.name)) := by
      simp [Obj.write, h1, Function.update_of_ne hn.symm]
    have e := h4 (o.write σ g)
    rw [this, ← h4 σ] at e
    exact Option.some.inj e
  · intro he
    have : o.write σ g (c'.getD (dflt f'.name)) = g (σ (c'.getD (dflt f'.name))) := by
      simp [Obj.write, h1, he]
    rw [h4, this]

/-- C122: controllers with configurations of their own are independent, and so are controllers of
factories with different defaults. -/
theorem C122_independent (dflt : String → ℕ) (p q : ℝ) (f f' : Factory)
    (cs cs' : List (Factory × Option ℕ)) (a b : ℕ) (hab : a ≠ b) (hinj : Function.Injective dflt)
    (hf : f.name ≠ f'.name) (ha : ∀ n, dflt n ≠ a) (o d : Obj) (c c' : Option ℕ)
    (hc : (c, c') ∈ [(some a, some b), (some a, none), (none, some a), (none, none)])
    (ho : makeChain dflt p ((f, c) :: cs) = some o) (hd : makeChain dflt q ((f', c') :: cs') = some d)
    (σ : Store) (g : Config → Config) : d.look (o.write σ g) = d.look σ := by
  refine (C122_write dflt p q f f' c c' cs cs' o d ho hd σ g).1 ?_
  simp only [List.mem_cons, Prod.mk.injEq, List.not_mem_nil, or_false] at hc
  rcases hc with ⟨rfl, rfl⟩ | ⟨rfl, rfl⟩ | ⟨rfl, rfl⟩ | ⟨rfl, rfl⟩
  · simpa using hab
  · simpa using (ha f'.name).symm
  · simpa using ha f.name
  · simpa using fun h => hf (hinj h)

/-- The factory `integral`, error_controllers.py L32-49. -/
noncomputable def integralFactory : Factory := ⟨"integral", Control.integral⟩

/-- C122 is violated by controllers without a configuration of their own: two controllers made by
separate calls of one factory share its default. After the tolerance of the first one is set to 1, the
second one accepts a step that it did not accept before. -/
theorem C122_default_violated (dflt : String → ℕ) (p q : ℝ) : ∃ o d σ i,
    makeChain dflt p [(integralFactory, none)] = some o ∧
    makeChain dflt q [(integralFactory, none)] = some d ∧
    (∀ st, ((d.look σ).call true i).2 = .ok st → st.acc = false) ∧
    ∃ st, ((d.look (o.write σ fun cfg => { cfg with tol := fin 1 })).call true i).2 = .ok st ∧
      st.acc = true := by
  let i : Input := ⟨fin 1, fin 1, fin 5, (fin 1, fin 1), (0, 0)⟩
  have h1 : (run (Control.integral q) Config.default i).acc = false := by
    simp only [run, decide_eq_false_iff_not]
    intro h
    rcases h with h | h | h
    · change |(1 : ℝ) - 0| < 1 / 10 ^ 10 at h
      norm_num at h
    · change |(1 : ℝ) - 5| < 1 / 10 ^ 10 at h
      norm_num at h
    · change (1 : ℝ) ≤ 1 / 10 ^ 6 at h
      norm_num at h
  have h2 : (run (Control.integral q) { Config.default with tol := fin 1 } i).acc = true := by
    simp only [run, decide_eq_true_eq]
    right; right
    change (1 : ℝ) ≤ 1
    exact le_rfl
  refine ⟨.base (Control.integral p) (dflt "integral"), .base (Control.integral q) (dflt "integral"),
    fun _ => Config.default, i, rfl, rfl, ?_,
    run (Control.integral q) { Config.default with tol := fin 1 } i, ?_, h2⟩
  · intro st hst
    simp only [Obj.look, Ctrl.call] at hst
    split at hst
    · cases hst
    · cases hst
      exact h1
  · simp only [Obj.look, Obj.write, Obj.ref, Ctrl.call, Function.update_self, h2, not_true_eq_false,
      false_and, if_false]

/-- A chain of two with a configuration given only to the second call: the default is used. -/
example : ∃ o, makeChain (fun n => if n = "integral" then 1 else 2) 1
      [(integralFactory, none), (⟨"pseudo", Control.pseudo⟩, some 7)] = some o ∧ o.refs = [1, 1] :=
  ⟨_, rfl, rfl⟩

end Verif.Props
