/-
Model of the names of controllers: what the factories and the constructors make of the argument
`name`.

Source: /repo/src/rkopenmdao/error_controller.py L95, L110, L319, L323-325, L335
        /repo/src/rkopenmdao/error_controllers.py L17-475

Simplification: texts are lists of characters.
-/
import Mathlib.Data.List.Infix

namespace Verif.Control

/-- `text.replace(old, new, 1)` for a text `old` that is not empty: the first occurrence from the
left is replaced. -/
def replaceFirst (old new : List Char) : List Char → List Char
  | [] => []
  | c :: cs => if old.isPrefixOf (c :: cs) then new ++ (c :: cs).drop old.length
    else c :: replaceFirst old new cs

/-- A controller with its attribute `_name`, and what it wraps. -/
inductive NObj where
  | base (name : List Char)
  | deco (name : List Char) (wrapped : NObj)

/-- The names of a controller and of what it wraps, from the inside to the outside, the order of
`__str__` (error_controller.py L385-390). -/
def NObj.names : NObj → List (List Char)
  | .base n => [n]
  | .deco n w => w.names ++ [n]

/-- An assignment to `_name`. -/
def NObj.rename (f : List Char → List Char) : NObj → NObj
  | .base n => .base (f n)
  | .deco n w => .deco (f n) w

/-- A call of a factory with the argument `name`. `ErrorController.__init__` L110 and
`ErrorControllerDecorator.__init__` L323-325 and L335. All factories hand the name on, but `pseudo`
(error_controllers.py L29) does so only with a `base`; then the default of L95 is used. -/
def makeNamed (isPseudo : Bool) (name : List Char) : Option NObj → NObj
  | none => .base ("Outermost ".toList ++ if isPseudo then "ErrorController".toList else name)
  | some b => .deco ("Innermost ".toList ++ name)
      (b.rename (replaceFirst "Inner ".toList " ".toList))

/-- Calls one after another, each with the previous controller as `base`,
runge_kutta_integrator.py L398-403. -/
def chainNamed (calls : List (Bool × List Char)) : Option NObj :=
  calls.foldl (fun c f => some (makeNamed f.1 f.2 c)) none

end Verif.Control
