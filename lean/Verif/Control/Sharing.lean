/-
Model of the configurations that controllers refer to: configurations are objects that can be changed
in place, and several controllers can refer to the same one.

Source: /repo/src/rkopenmdao/error_controller.py L29-52, L85-111, L310-336
        /repo/src/rkopenmdao/error_controllers.py L17-475
        /repo/src/rkopenmdao/runge_kutta_integrator.py L393-403

Simplifications:
* only the objects of the configurations have addresses; a controller is a value here, its own
  attributes are not shared;
* the contents of a configuration change at once, a changed attribute is a function of the contents.
-/
import Verif.Control.Model

namespace Verif.Control

/-- The contents of the configuration at every address. -/
abbrev Store := ℕ → Config

/-- A factory: its name and the exponents it chooses, error_controllers.py L17-475. -/
structure Factory where
  name : String
  par : ℝ → Params

/-- A controller with the address of its attribute `config`, error_controller.py L100 and L333. -/
inductive Obj where
  | base (par : Params) (ref : ℕ)
  | deco (par : Params) (wrapped : Obj) (ref : ℕ) (notInner : Bool) (counter : ℕ)

/-- The attribute `config`. -/
def Obj.ref : Obj → ℕ
  | .base _ r => r
  | .deco _ _ r _ _ => r

/-- The attribute `config` of the controller and of everything it wraps. -/
def Obj.refs : Obj → List ℕ
  | .base _ r => [r]
  | .deco _ w r _ _ => r :: w.refs

/-- The controller as the rest of the model sees it, with the present contents. -/
def Obj.look (σ : Store) : Obj → Ctrl
  | .base par r => .base par (σ r)
  | .deco par w _ ni k => .deco par (w.look σ) ni k

/-- A call of a factory, error_controllers.py L17-475: `config` is the address of the argument, if
there is one. The default of a factory is made once, when the module is loaded (for example L34), at
the address `dflt name`; factories that call other ones hand their `config` on (L58-63). With a
`base` the argument is not used (L39-44). -/
def makeObj (dflt : String → ℕ) (p : ℝ) (f : Factory) (config : Option ℕ) : Option Obj → Obj
  | none => .base (f.par p) (config.getD (dflt f.name))
  | some b => .deco (f.par p) b b.ref true 0

/-- Calls one after another, each with the previous controller as `base`,
runge_kutta_integrator.py L398-403. -/
def makeChain (dflt : String → ℕ) (p : ℝ) (calls : List (Factory × Option ℕ)) : Option Obj :=
  calls.foldl (fun c f => some (makeObj dflt p f.1 f.2 c)) none

/-- An assignment to attributes of the configuration of a controller, such as
`controller.config.tol = 1e-3`. -/
def Obj.write (σ : Store) (o : Obj) (g : Config → Config) : Store :=
  Function.update σ o.ref (g (σ o.ref))

end Verif.Control
