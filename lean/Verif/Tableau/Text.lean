/-
Model of the text of Butcher tableaux.

Source: /repo/src/rkopenmdao/butcher_tableau.py L9-17, L193-223, L372-407

Simplifications:
* texts are lists of characters, and the text of a number (`str` for plain tableaux, `repr` for
  embedded ones) is a parameter;
* blank are the characters of `Char.isWhitespace`, Python has a few more outside of ASCII.
-/
import Mathlib.Data.List.DropRight
import Verif.Tableau.Model

namespace Verif.Tableau

/-- A text. -/
abbrev Text := List Char

/-- `str.ljust`. -/
def ljust (w : ℕ) (e : Text) : Text := e ++ List.replicate (w - e.length) ' '

/-- `str.rstrip`. -/
def rstrip (s : Text) : Text := s.rdropWhile Char.isWhitespace

/-- `_get_column_widths` of all the entries, L9-17. The maximum of no entries raises in Python; here
it is 0. -/
def colMax (es : List Text) : ℕ := (es.map List.length).foldr max 0

/-- The rows of the matrix behind their nodes, L214-218 and L394-398: every row is added to the text so
far, the whole of which is stripped. -/
def addRows (w : ℕ) (s : Text) (rows : List (Text × List Text)) : Text :=
  rows.foldl (fun s r => rstrip (s ++ ljust (w + 1) r.1 ++ ['|'] ++ r.2.flatMap (ljust (w + 1)))
    ++ ['\n']) s

/-- A line of the character `x` over all columns, L219, L399, L403. -/
def rule (x : Char) (w n : ℕ) : Text :=
  List.replicate (w + 1) x ++ ['|'] ++ List.replicate ((w + 1) * n) x ++ ['\n']

/-- A line of weights, L220-222, L400-402, L404-406. -/
def weights (w : ℕ) (b : List Text) : Text :=
  List.replicate (w + 1) ' ' ++ ['|'] ++ b.flatMap (ljust (w + 1))

/-- `ButcherTableau.__str__`, L193-223, with the texts of all entries. -/
def strPlain (name : Text) (rows : List (Text × List Text)) (b : List Text) : Text :=
  let w := colMax (rows.flatMap Prod.snd ++ b ++ rows.map Prod.fst)
  rstrip (addRows w (name ++ ['\n']) rows ++ rule '_' w rows.length ++ weights w b)

/-- `EmbeddedButcherTableau.__str__`, L372-407, with the texts of all entries. -/
def strEmb (name : Text) (rows : List (Text × List Text)) (b bhat : List Text) : Text :=
  let w := colMax (rows.flatMap Prod.snd ++ b ++ rows.map Prod.fst ++ bhat)
  rstrip (addRows w (name ++ " (Embedded)".toList ++ ['\n']) rows ++ rule '_' w rows.length
    ++ weights w b ++ ['\n'] ++ rule '-' w rows.length ++ weights w bhat)

/-- The texts of the rows of a tableau, L200-205. -/
def rowTexts {K : Type} (fmt : K → Text) (T : Tableau K) : List (Text × List Text) :=
  List.ofFn fun i => (fmt (T.c i), List.ofFn fun j => fmt (T.A i j))

/-- `str(tableau)` of a plain tableau, L193-223. -/
def Tableau.str {K : Type} (fmt : K → Text) (T : Tableau K) : Text :=
  strPlain T.name.toList (rowTexts fmt T) (List.ofFn fun j => fmt (T.b j))

/-- `str(tableau)` of an embedded tableau, L372-407. -/
def EmbTableau.str {K : Type} (fmt : K → Text) (T : EmbTableau K) : Text :=
  strEmb T.name.toList (rowTexts fmt T.toTableau) (List.ofFn fun j => fmt (T.b j))
    (List.ofFn fun j => fmt (T.bhat j))

/-! ### Lemmas -/

/-- Text that can be told apart from the table around it. -/
def Solid (e : Text) : Prop := e ≠ [] ∧ ∀ x ∈ e, x.isWhitespace = false ∧ x ≠ '|'

theorem rstrip_blanks (s : Text) (k : ℕ) : rstrip (s ++ List.replicate k ' ') = rstrip s := by
  induction k with
  | zero => simp
  | succ k ih =>
    rw [List.replicate_succ', ← List.append_assoc, rstrip, List.rdropWhile_concat_pos _ _ _ (by decide)]
    exact ih

theorem rstrip_solid (s e : Text) (he : Solid e) : rstrip (s ++ e) = s ++ e := by
  obtain ⟨l, x, rfl⟩ := List.eq_nil_or_concat e |>.resolve_left he.1
  rw [List.concat_eq_append, ← List.append_assoc, rstrip, List.rdropWhile_concat_neg]
  have := (he.2 x (by simp)).1
  simp [this]

/-- A row of entries without the blanks at its end. -/
def short (w : ℕ) (es : List Text) : Text :=
  es.dropLast.flatMap (ljust (w + 1)) ++ es.getLast?.getD []

theorem rstrip_row (s : Text) (w : ℕ) (es : List Text) (h0 : es ≠ []) (hs : ∀ e ∈ es, Solid e) :
    rstrip (s ++ es.flatMap (ljust (w + 1))) = s ++ short w es := by
  obtain ⟨l, x, rfl⟩ := List.eq_nil_or_concat es |>.resolve_left h0
  have hx : Solid x := hs x (by simp)
  have : s ++ (l ++ [x]).flatMap (ljust (w + 1))
      = (s ++ l.flatMap (ljust (w + 1)) ++ x) ++ List.replicate (w + 1 - x.length) ' ' := by
    simp [ljust]
  rw [List.concat_eq_append, this, rstrip_blanks, rstrip_solid _ _ hx]
  simp [short]

theorem addRows_eq (w : ℕ) (s : Text) (rows : List (Text × List Text))
    (h0 : ∀ r ∈ rows, r.2 ≠ []) (hs : ∀ r ∈ rows, ∀ e ∈ r.2, Solid e) :
    addRows w s rows
      = s ++ rows.flatMap (fun r => ljust (w + 1) r.1 ++ ['|'] ++ short w r.2 ++ ['\n']) := by
  induction rows generalizing s with
  | nil => simp [addRows]
  | cons r rows ih =>
    rw [addRows, List.foldl_cons, ← addRows, ih _ (fun q hq => h0 q (by simp [hq]))
      (fun q hq => hs q (by simp [hq])), rstrip_row _ _ _ (h0 r (by simp)) (hs r (by simp))]
    simp

theorem length_le_colMax {es : List Text} {e : Text} (h : e ∈ es) : e.length ≤ colMax es := by
  induction es with
  | nil => simp at h
  | cons x es ih =>
    simp only [colMax, List.map_cons, List.foldr_cons]
    rcases List.mem_cons.1 h with rfl | h
    · exact le_max_left _ _
    · exact (ih h).trans (le_max_right _ _)

end Verif.Tableau
