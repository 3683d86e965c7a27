/-
C123: the names of the controllers of a chain.
-/
import Verif.Control.Names

namespace Verif.Props

open Verif.Control

/-- Without an occurrence nothing is replaced. -/
theorem replaceFirst_none (old new : List Char) (l : List Char) (h : ¬ old <:+: l) :
    replaceFirst old new l = l := by
  induction l with
  | nil => rfl
  | cons c cs ih =>
    have h1 : ¬ old.isPrefixOf (c :: cs) = true := fun hp =>
      h (List.isPrefixOf_iff_prefix.mp hp).isInfix
    rw [replaceFirst, if_neg h1, ih fun hi => h (List.infix_cons hi)]

theorem replaceFirst_outer (n : List Char) (h : ¬ "Inner ".toList <:+: n) :
    replaceFirst "Inner ".toList " ".toList ("Outermost ".toList ++ n) = "Outermost ".toList ++ n := by
  have := replaceFirst_none "Inner ".toList " ".toList n h
  simp [replaceFirst, List.isPrefixOf] at this ⊢
  exact this

theorem replaceFirst_inner (n : List Char) (h : ¬ "Inner ".toList <:+: n) :
    replaceFirst "Inner ".toList " ".toList ("Innermost ".toList ++ n) = "Innermost ".toList ++ n := by
  have := replaceFirst_none "Inner ".toList " ".toList n h
  simp [replaceFirst, List.isPrefixOf] at this ⊢
  exact this

/-- The name that the first call uses. -/
def firstName (f : Bool × List Char) : List Char :=
  if f.1 then "ErrorController".toList else f.2

theorem chainNamed_from (cs : List (Bool × List Char)) (b : NObj) (hcs : ∀ f ∈ cs, ¬ "Inner ".toList <:+: f.2)
    (hb : (b.rename (replaceFirst "Inner ".toList " ".toList)) = b) : ∃ o,
    cs.foldl (fun c f => some (makeNamed f.1 f.2 c)) (some b) = some o ∧
      o.names = b.names ++ cs.map fun f => "Innermost ".toList ++ f.2 := by
  induction cs generalizing b with
  | nil => exact ⟨b, rfl, by simp⟩
  | cons f cs ih =>
    obtain ⟨o, h1, h2⟩ := ih (makeNamed f.1 f.2 (some b)) (fun g hg => hcs g (by simp [hg])) (by
      simp only [makeNamed, NObj.rename, replaceFirst_inner f.2 (hcs f (by simp))])
    refine ⟨o, h1, ?_⟩
    rw [h2]
    simp only [makeNamed, NObj.names, hb, List.map_cons, List.append_assoc, List.singleton_append]

/-- C123: the names of a chain from the inside to the outside, if none of the names has `"Inner "`
in it: the innermost controller has the prefix `"Outermost "`, all others have `"Innermost "`. -/
theorem C123_names (f : Bool × List Char) (cs : List (Bool × List Char))
    (h : ∀ g ∈ f :: cs, ¬ "Inner ".toList <:+: g.2) : ∃ o, chainNamed (f :: cs) = some o ∧
      o.names = ("Outermost ".toList ++ firstName f) ::
        cs.map fun g => "Innermost ".toList ++ g.2 := by
  have hf : ¬ "Inner ".toList <:+: firstName f := by
    unfold firstName
    split
    · decide
    · exact h f (by simp)
  obtain ⟨o, h1, h2⟩ := chainNamed_from cs (makeNamed f.1 f.2 none) (fun g hg => h g (by simp [hg]))
    (congrArg NObj.base (replaceFirst_outer _ hf))
  exact ⟨o, h1, h2⟩

/-- C123: a name that is given is shown whole, after the prefix, except by `pseudo` in the first
place. -/
theorem C123_given (f : Bool × List Char) (cs : List (Bool × List Char)) (hp : f.1 = false)
    (h : ∀ g ∈ f :: cs, ¬ "Inner ".toList <:+: g.2) : ∃ o, chainNamed (f :: cs) = some o ∧
      o.names.map (List.drop 10) = (f :: cs).map Prod.snd := by
  obtain ⟨o, h1, h2⟩ := C123_names f cs h
  refine ⟨o, h1, ?_⟩
  rw [h2]
  simp [firstName, hp, Function.comp_def]

/-- C123 is violated by the places: the innermost controller of every chain is called outermost and,
if there are several, the outermost is called innermost. -/
theorem C123_place_violated (f g : Bool × List Char) (cs : List (Bool × List Char))
    (h : ∀ x ∈ f :: (cs ++ [g]), ¬ "Inner ".toList <:+: x.2) :
    ∃ o inside outside, chainNamed (f :: (cs ++ [g])) = some o ∧ o.names.head? = some inside ∧
      o.names.getLast? = some outside ∧ "Outermost ".toList <+: inside ∧
      "Innermost ".toList <+: outside := by
  obtain ⟨o, h1, h2⟩ := C123_names f (cs ++ [g]) h
  refine ⟨o, _, _, h1, by rw [h2]; rfl, ?_, List.prefix_append _ _, List.prefix_append _ g.2⟩
  rw [h2, List.map_append, ← List.cons_append]
  exact List.getLast?_concat

/-- C123 is violated by `pseudo` in the first place: its name is not used. -/
theorem C123_pseudo_violated (n : List Char) :
    chainNamed [(true, n)] = some (.base ("Outermost ".toList ++ "ErrorController".toList)) := rfl

theorem replaceFirst_cut (n : List Char) :
    replaceFirst "Inner ".toList " ".toList ("Outermost ".toList ++ ("Inner ".toList ++ n))
      = "Outermost ".toList ++ ' ' :: n := by
  simp [replaceFirst, List.isPrefixOf]

/-- C123 is violated by names with `"Inner "` in them: it is cut out when the controller is wrapped. -/
theorem C123_inner_violated (n n' : List Char) : ∃ o,
    chainNamed [(false, "Inner ".toList ++ n), (false, n')] = some o ∧
      o.names = ["Outermost ".toList ++ ' ' :: n, "Innermost ".toList ++ n'] := by
  refine ⟨_, rfl, ?_⟩
  show [replaceFirst _ _ ("Outermost ".toList ++ ("Inner ".toList ++ n)), _] = _
  rw [replaceFirst_cut]

/-- Two shipped factories with their default names: no `"Inner "`. -/
example : ∀ g ∈ [(false, "PID".toList), (true, "pseudo-Controller".toList)],
    ¬ "Inner ".toList <:+: g.2 := by decide

end Verif.Props
