/-
Model of the text of error controllers.

Source: /repo/src/rkopenmdao/error_controller.py L98-111, L254-284, L321-336, L385-390

Simplifications:
* a text is the list of its lines, which Python joins with line breaks; the texts of numbers and of the
  configuration are parameters, without line breaks;
* an exponent is not `None`.
-/
import Mathlib.Data.Real.Basic

namespace Verif.Control

/-- The attributes of a controller in the order of their first assignment, L98-111 and L321-336, without
`error_controller`, which is not printed (L274-275); `deco` are `_is_not_inner` and `_outer_counter` of
a decorator, and `config` is the text of the configuration. -/
structure Attrs where
  config : List Char
  alpha : ℝ
  beta : ℝ
  gamma : ℝ
  a : ℝ
  b : ℝ
  innerMost : Bool
  name : List Char
  width : ℕ
  deco : Option (Bool × ℕ)

/-- An entry `var: value` of `_str_list`, unless the value is zero (`False` is), L272-276. -/
def entry (var : String) (value : List Char) (nonzero : Prop) [Decidable nonzero] :
    List (List Char) :=
  if nonzero then [var.toList ++ ": ".toList ++ value] else []

/-- `str` of a natural number. -/
def natText (n : ℕ) : List Char := (toString n).toList

/-- The entries of the attributes that only decorators have, L334 and L336. -/
def decoList : Option (Bool × ℕ) → List (List Char)
  | none => []
  | some d => entry "_is_not_inner" "True".toList (d.1 = true)
    ++ entry "_outer_counter" (natText d.2) (d.2 ≠ 0)

open Classical in
/-- The entries of the attributes up to `_inner_most`, L100-109; a configuration is never equal to
zero. -/
noncomputable def frontList (fmt : ℝ → List Char) (o : Attrs) : List (List Char) :=
  entry "config" o.config True ++ entry "alpha" (fmt o.alpha) (o.alpha ≠ 0)
    ++ entry "beta" (fmt o.beta) (o.beta ≠ 0) ++ entry "gamma" (fmt o.gamma) (o.gamma ≠ 0)
    ++ entry "a" (fmt o.a) (o.a ≠ 0) ++ entry "b" (fmt o.b) (o.b ≠ 0)
    ++ entry "_inner_most" "True".toList (o.innerMost = true)

/-- `_str_list`, L269-276. -/
noncomputable def strList (fmt : ℝ → List Char) (o : Attrs) : List (List Char) :=
  frontList fmt o ++ entry "_width" (natText o.width) (o.width ≠ 0) ++ decoList o.deco

/-- `str.center` of CPython. -/
def center (w : ℕ) (s : List Char) : List Char :=
  let pad := w - s.length
  let left := pad / 2 + (pad % 2) * (w % 2)
  List.replicate left ' ' ++ s ++ List.replicate (pad - left) ' '

/-- `width`, L277. -/
noncomputable def boxWidth (fmt : ℝ → List Char) (o : Attrs) : ℕ :=
  ((strList fmt o).map List.length).foldr max 0 + 4

/-- `ErrorController.__str__`, L269-284: the object afterwards and the lines. -/
noncomputable def strBox (fmt : ℝ → List Char) (o : Attrs) : Attrs × List (List Char) :=
  let w := boxWidth fmt o
  ({ o with width := w },
    [List.replicate w '-', ['|'] ++ center (w - 2) o.name ++ ['|'], List.replicate w '-']
      ++ (strList fmt o).map (fun i => "| ".toList ++ i ++ List.replicate (w - 3 - i.length) ' '
        ++ ['|'])
      ++ [List.replicate w '-'])

/-- A controller with what it wraps. -/
inductive Named where
  | base (o : Attrs)
  | deco (o : Attrs) (wrapped : Named)

/-- `__str__` of both classes, L254-284 and L385-390. -/
noncomputable def Named.str (fmt : ℝ → List Char) : Named → Named × List (List Char)
  | .base o =>
    let r := strBox fmt o
    (.base r.1, r.2)
  | .deco o w =>
    -- L387
    let r := strBox fmt o
    -- L388
    let q := w.str fmt
    (.deco r.1 q.1, q.2 ++ [List.replicate 8 ' ', List.replicate (r.1.width / 2) ' ' ++ ['+'],
      List.replicate 8 ' '] ++ r.2)

end Verif.Control
