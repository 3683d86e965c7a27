/-
C120: the text of error controllers.
-/
import Mathlib.Data.List.Forall2
import Mathlib.Data.Nat.Digits.Defs
import Mathlib.Tactic.Linarith
import Verif.Control.Text

namespace Verif.Props

open Verif.Control

namespace ControlText

theorem length_le_max {l : List (List Char)} {i : List Char} (h : i ∈ l) :
    i.length ≤ (l.map List.length).foldr max 0 := by
  induction l with
  | nil => simp at h
  | cons x l ih =>
    simp only [List.map_cons, List.foldr_cons]
    rcases List.mem_cons.1 h with rfl | h
    · exact le_max_left _ _
    · exact (ih h).trans (le_max_right _ _)

theorem foldr_max_append (l l' : List ℕ) :
    (l ++ l').foldr max 0 = max (l.foldr max 0) (l'.foldr max 0) := by
  induction l with
  | nil => simp
  | cons x l ih => simp [ih, max_assoc]

theorem center_length (w : ℕ) (s : List Char) (h : s.length ≤ w) : (center w s).length = w := by
  have : (w - s.length) / 2 + ((w - s.length) % 2) * (w % 2) ≤ w - s.length := by
    rcases Nat.mod_two_eq_zero_or_one (w - s.length) with h1 | h1 <;>
      rcases Nat.mod_two_eq_zero_or_one w with h2 | h2 <;> rw [h1, h2] <;> omega
  simp only [center, List.length_append, List.length_replicate]
  omega

/-- The objects of a chain, those inside first. -/
def parts : Named → List Attrs
  | .base o => [o]
  | .deco o w => parts w ++ [o]

end ControlText

open ControlText

variable (fmt : ℝ → List Char)

/-- C120: the text is a box, whose lines have the same length if the name fits: a frame around the name
and the entries. -/
theorem C120_box (o : Attrs) (hn : o.name.length ≤ (strBox fmt o).1.width - 2) :
    ∃ left right : List Char, ∃ body : List (List Char),
      (∀ x ∈ left ++ right, x = ' ') ∧ left.length ≤ right.length + 1 ∧
      right.length ≤ left.length + 1 ∧
      (strBox fmt o).2 = [List.replicate (strBox fmt o).1.width '-',
        ['|'] ++ left ++ o.name ++ right ++ ['|'], List.replicate (strBox fmt o).1.width '-'] ++ body
        ++ [List.replicate (strBox fmt o).1.width '-'] ∧
      List.Forall₂ (fun line i => ∃ blanks : List Char, blanks ≠ [] ∧ (∀ x ∈ blanks, x = ' ') ∧
        line = ['|', ' '] ++ i ++ blanks ++ ['|']) body (strList fmt o) ∧
      ∀ line ∈ (strBox fmt o).2, line.length = (strBox fmt o).1.width := by
  have hw : (strBox fmt o).1.width = boxWidth fmt o := rfl
  have h4 : 4 ≤ boxWidth fmt o := Nat.le_add_left _ _
  rw [hw] at hn ⊢
  have hi : ∀ i ∈ strList fmt o, i.length + 4 ≤ boxWidth fmt o := fun i h =>
    Nat.add_le_add_right (length_le_max h) 4
  have hpad : (boxWidth fmt o - 2 - o.name.length) / 2
      + ((boxWidth fmt o - 2 - o.name.length) % 2) * ((boxWidth fmt o - 2) % 2)
        ≤ (boxWidth fmt o - 2 - o.name.length) / 2 + (boxWidth fmt o - 2 - o.name.length) % 2 := by
    rcases Nat.mod_two_eq_zero_or_one (boxWidth fmt o - 2) with h2 | h2 <;> rw [h2] <;> omega
  set w := boxWidth fmt o with hwdef
  set l := (w - 2 - o.name.length) / 2 + ((w - 2 - o.name.length) % 2) * ((w - 2) % 2) with hl
  have hpad' : l ≥ (w - 2 - o.name.length) / 2 := Nat.le_add_right _ _
  refine ⟨List.replicate l ' ', List.replicate (w - 2 - o.name.length - l) ' ',
    (strList fmt o).map (fun i => "| ".toList ++ i ++ List.replicate (w - 3 - i.length) ' '
        ++ ['|']), ?_, ?_, ?_, ?_, ?_, ?_⟩
  · simp only [List.mem_append, List.mem_replicate]; tauto
  · simp only [List.length_replicate]; omega
  · simp only [List.length_replicate]; omega
  · rw [strBox, center, ← hwdef, ← hl]
    simp only [List.append_assoc]
  · rw [List.forall₂_map_left_iff, List.forall₂_same]
    refine fun i h => ⟨_, ?_, ?_, rfl⟩
    · have := hi i h
      intro h0
      have := congrArg List.length h0
      simp only [List.length_replicate, List.length_nil] at this
      omega
    · simp only [List.mem_replicate]; tauto
  · intro line hl
    simp only [strBox, List.mem_append, List.mem_cons, List.mem_map, List.not_mem_nil, or_false, ← hwdef] at hl
    rcases hl with ((rfl | rfl | rfl) | ⟨i, h, rfl⟩) | rfl
    · simp
    · have := center_length _ _ hn
      simp only [List.length_append, this, List.length_singleton]
      omega
    · simp
    · have := hi i h
      simp only [List.length_append, List.length_replicate, List.length_singleton]
      have : "| ".toList.length = 2 := by decide
      omega
    · simp

/-- C120: the entries are the configuration, the exponents that are not zero, and the private
attributes that are not zero. -/
theorem C120_entries (o : Attrs) (i : List Char) :
    i ∈ strList fmt o ↔ i = "config: ".toList ++ o.config ∨
      (o.alpha ≠ 0 ∧ i = "alpha: ".toList ++ fmt o.alpha) ∨
      (o.beta ≠ 0 ∧ i = "beta: ".toList ++ fmt o.beta) ∨
      (o.gamma ≠ 0 ∧ i = "gamma: ".toList ++ fmt o.gamma) ∨
      (o.a ≠ 0 ∧ i = "a: ".toList ++ fmt o.a) ∨ (o.b ≠ 0 ∧ i = "b: ".toList ++ fmt o.b) ∨
      (o.innerMost = true ∧ i = "_inner_most: True".toList) ∨
      (o.width ≠ 0 ∧ i = "_width: ".toList ++ (toString o.width).toList) ∨
      (∃ n, o.deco = some (true, n) ∧ i = "_is_not_inner: True".toList) ∨
      (∃ t n, o.deco = some (t, n) ∧ n ≠ 0 ∧
        i = "_outer_counter: ".toList ++ (toString n).toList) := by
  have he : ∀ (var : String) (v : List Char) (P : Prop) [Decidable P],
      i ∈ entry var v P ↔ P ∧ i = var.toList ++ ": ".toList ++ v := by
    intro var v P _
    unfold entry
    split <;> simp_all
  have hd : i ∈ decoList o.deco ↔
      (∃ n, o.deco = some (true, n) ∧ i = "_is_not_inner: True".toList) ∨
      (∃ t n, o.deco = some (t, n) ∧ n ≠ 0 ∧
        i = "_outer_counter: ".toList ++ (toString n).toList) := by
    rcases o.deco with _ | ⟨t, n⟩
    · simp [decoList]
    · rw [decoList, List.mem_append, he, he]
      refine or_congr ⟨?_, ?_⟩ ⟨?_, ?_⟩
      · rintro ⟨rfl, rfl⟩; exact ⟨n, rfl, rfl⟩
      · rintro ⟨m, h, rfl⟩; simp only [Option.some.injEq, Prod.mk.injEq] at h; exact ⟨h.1, rfl⟩
      · rintro ⟨h, rfl⟩; exact ⟨t, n, rfl, h, rfl⟩
      · rintro ⟨t', m, h, h0, rfl⟩
        simp only [Option.some.injEq, Prod.mk.injEq] at h
        obtain ⟨rfl, rfl⟩ := h
        exact ⟨h0, rfl⟩
  unfold strList frontList
  simp only [List.mem_append, hd]
  rw [he, he, he, he, he, he, he, he]
  simp only [or_assoc, true_and]
  rfl

/-- C120: printing changes a controller: when it is printed for the second time, there is a line more,
with the width of the box. -/
theorem C120_twice_violated (o : Attrs) (h0 : o.width = 0) :
    (strBox fmt (strBox fmt o).1).2.length = (strBox fmt o).2.length + 1 ∧
    (strBox fmt (strBox fmt o).1).2 ≠ (strBox fmt o).2 := by
  have h : (strBox fmt (strBox fmt o).1).2.length = (strBox fmt o).2.length + 1 := by
    have hw : (strBox fmt o).1.width ≠ 0 := Nat.succ_ne_zero _
    have hl : (strList fmt (strBox fmt o).1).length = (strList fmt o).length + 1 := by
      have hf : frontList fmt (strBox fmt o).1 = frontList fmt o := rfl
      have hd : (strBox fmt o).1.deco = o.deco := rfl
      simp only [strList, List.length_append, entry, hw, h0, ne_eq, not_false_iff, if_true, not_true,
        if_false, List.length_singleton, List.length_nil, hf, hd]
      omega
    simp only [strBox, List.length_append, List.length_map, List.length_cons, List.length_nil] at hl ⊢
    omega
  exact ⟨h, fun h' => by rw [h'] at h; omega⟩

/-- C120: from the second time on, the text stays the same, if the text of the configuration has at least
16 characters, as that of `ErrorControllerConfig` has. -/
theorem C120_stable (o : Attrs) (h0 : o.width = 0) (hc : 16 ≤ o.config.length) :
    strBox fmt (strBox fmt (strBox fmt o).1).1 = strBox fmt (strBox fmt o).1 := by
  set o1 := (strBox fmt o).1 with h1
  have hw : o1.width = boxWidth fmt o := rfl
  have hw0 : o1.width ≠ 0 := Nat.succ_ne_zero _
  have hL : 24 ≤ boxWidth fmt o - 4 := by
    have h := length_le_max (show "config: ".toList ++ o.config ∈ strList fmt o from
      (C120_entries fmt o _).2 (.inl rfl))
    rw [List.length_append] at h
    have h8 : "config: ".toList.length = 8 := by decide
    have : boxWidth fmt o - 4 = ((strList fmt o).map List.length).foldr max 0 := by
      rw [boxWidth, Nat.add_sub_cancel]
    omega
  have hdig : (natText o1.width).length ≤ boxWidth fmt o - 12 := by
    have hlt : o1.width < 10 ^ (boxWidth fmt o - 12) := by
      rw [hw]
      have h2 : boxWidth fmt o - 12 < 2 ^ (boxWidth fmt o - 12) := Nat.lt_two_pow_self
      have h3 : 4 ^ (boxWidth fmt o - 12) ≤ 10 ^ (boxWidth fmt o - 12) :=
        Nat.pow_le_pow_left (by norm_num) _
      have h4 : 4 ^ (boxWidth fmt o - 12) = 2 ^ (boxWidth fmt o - 12) * 2 ^ (boxWidth fmt o - 12) := by
        rw [← mul_pow]; norm_num
      have h5 : boxWidth fmt o ≤ 2 * (boxWidth fmt o - 12) := by omega
      nlinarith
    have := (Nat.length_repr_le_iff (by omega)).2 hlt
    rwa [natText, String.length_toList]
  set wl := "_width".toList ++ ": ".toList ++ natText o1.width with hwl
  have hwl' : wl.length ≤ ((strList fmt o).map List.length).foldr max 0 := by
    have h8 : "_width".toList.length = 6 ∧ ": ".toList.length = 2 := by decide
    have : boxWidth fmt o - 4 = ((strList fmt o).map List.length).foldr max 0 := by
      rw [boxWidth, Nat.add_sub_cancel]
    rw [hwl, List.length_append, List.length_append]
    omega
  have hX : ∃ X Y, strList fmt o = X ++ Y ∧ strList fmt o1 = X ++ [wl] ++ Y := by
    refine ⟨frontList fmt o, decoList o.deco, ?_, ?_⟩
    · simp [strList, entry, h0]
    · have hf : frontList fmt o1 = frontList fmt o := rfl
      have hd : o1.deco = o.deco := rfl
      rw [strList, entry, if_pos hw0, hf, hd]
  obtain ⟨X, Y, e1, e2⟩ := hX
  have hb : boxWidth fmt o1 = boxWidth fmt o := by
    rw [e1, List.map_append, foldr_max_append] at hwl'
    rw [boxWidth, boxWidth, e1, e2]
    simp only [List.map_append, foldr_max_append, List.map_cons, List.map_nil, List.foldr_cons,
      List.foldr_nil]
    omega
  have h2 : (strBox fmt o1).1 = o1 := by
    show ({ o1 with width := boxWidth fmt o1 } : Attrs) = o1
    rw [hb]
    rfl
  rw [h2]

/-- C120: the text of a chain: the boxes from the inside to the outside, three lines apart. -/
theorem C120_chain (o : Attrs) (w : Named) :
    ((Named.deco o w).str fmt).2 = (w.str fmt).2
      ++ [List.replicate 8 ' ', List.replicate ((strBox fmt o).1.width / 2) ' ' ++ ['+'],
        List.replicate 8 ' '] ++ (strBox fmt o).2 ∧
    parts ((Named.deco o w).str fmt).1 = (parts (Named.deco o w)).map (fun o => (strBox fmt o).1) := by
  refine ⟨rfl, ?_⟩
  have : ∀ w : Named, parts (w.str fmt).1 = (parts w).map (fun o => (strBox fmt o).1) := by
    intro w
    induction w with
    | base o => rfl
    | deco o w ih => rw [Named.str, parts, parts, ih]; simp
  exact this _

/-- A plain controller that has not been printed. -/
private def plain : Attrs :=
  ⟨"ErrorControllerConfig(tol=1e-06)".toList, 1, 0, 0, 0, 0, true, "Outermost I".toList, 0, none⟩

example : plain.width = 0 ∧ 16 ≤ plain.config.length ∧
    plain.name.length ≤ (strBox (fun _ => ['1']) plain).1.width - 2 ∧
    strList (fun _ => ['1']) plain = ["config".toList ++ ": ".toList ++ plain.config,
      "alpha".toList ++ ": ".toList ++ ['1'], "_inner_most".toList ++ ": ".toList ++ "True".toList] := by
  have key : ∀ o : Attrs, o.alpha ≠ 0 → o.beta = 0 → o.gamma = 0 → o.a = 0 → o.b = 0 →
      o.innerMost = true → o.width = 0 → o.deco = none → strList (fun _ => ['1']) o
        = ["config".toList ++ ": ".toList ++ o.config, "alpha".toList ++ ": ".toList ++ ['1'],
          "_inner_most".toList ++ ": ".toList ++ "True".toList] := by
    intro o h1 h2 h3 h4 h5 h6 h7 h8
    rw [strList, frontList, h8, decoList]
    unfold entry
    rw [if_pos trivial, if_pos h1, if_neg (not_not.2 h2), if_neg (not_not.2 h3),
      if_neg (not_not.2 h4), if_neg (not_not.2 h5), if_pos h6, if_neg (not_not.2 h7)]
    simp only [List.append_nil, List.cons_append, List.nil_append]
  have h := key plain one_ne_zero rfl rfl rfl rfl rfl rfl rfl
  refine ⟨rfl, by decide, ?_, h⟩
  show plain.name.length ≤ boxWidth _ plain - 2
  rw [boxWidth, h]
  decide

/-- A decorator around it. -/
example : parts (.deco { plain with name := "Innermost I".toList, deco := some (true, 0) } (.base plain))
    = [plain, { plain with name := "Innermost I".toList, deco := some (true, 0) }] := rfl

end Verif.Props
