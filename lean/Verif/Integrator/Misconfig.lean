/-
Model of the parts of the setup that refuse configurations: the checkpointer of pyrevolve with its
revolver, which exists only after `create_checkpointer`.

Source: /repo/src/rkopenmdao/checkpoint_interface/pyrevolve_checkpointer.py L60-145, L190-196
        /repo/src/rkopenmdao/runge_kutta_integrator.py L249-291, L428-436
-/
import Verif.Integrator.Component
import Verif.Integrator.Pyrevolve
import Verif.State.Options

namespace Verif.Integrator

open Verif.Control Verif.XReal Verif.Options Verif.Component Verif.Metadata

/-- `_setup_revolver_class_type`, pyrevolve_checkpointer.py L112-145. -/
def revolverClass (name : String) : Option RevType :=
  if name = "SingleLevel" then some .singleLevel
  else if name = "MultiLevel" then some .multiLevel
  else if name = "Disk" then some .disk
  else if name = "Base" then some .base
  else if name = "Memory" then some .memory
  else none

/-- What can be raised by `setup` with its checkpointer. -/
inductive MakeErr where
  /-- `TypeError`, pyrevolve_checkpointer.py L71-76 and L142-145 -/
  | type
  /-- `AttributeError`, L80 -/
  | attribute
  /-- anything raised before the checkpointer is made -/
  | setup (e : SetupErr)
  deriving DecidableEq

/-- `__post_init__` of the pyrevolve checkpointer, pyrevolve_checkpointer.py L62-106, of instance
`id`: the class of the revolver and the arguments for it. -/
def makePy (id : ℕ) (name : String) (crit : Crit) (d : OptionDict) :
    Except MakeErr (RevType × OptionDict) :=
  match revolverClass name with
  | none => .error .type
  | some ty => match crit with
    | .finalTime _ => .error .type
    | .steps N => match postInit id ty N d with
      | .error _ => .error .attribute
      | .ok d' => .ok (ty, d')

/-- The options of the checkpointers, runge_kutta_integrator.py L152-166: the class and, for
pyrevolve, the type of the revolver and its options. -/
inductive CkChoice where
  | no
  | all
  | pyrevolve (name : String) (options : OptionDict)

/-- `setup` with `_setup_checkpointing`, runge_kutta_integrator.py L249-291 and L428-436. The
checkpointer is made after everything else but the callbacks, whose choice does not raise. -/
def setupAll {α : Type} (info : Meta) (stage : String → List ℝ) (o : SetupOptions α) (crit : Crit)
    (rank : ℕ) (logging clock : Kind → α) (id : ℕ) (ck : CkChoice) :
    Except MakeErr (Component.Ready α × Option (RevType × OptionDict)) :=
  match setupComponent info stage o rank logging clock with
  | .error e => .error (.setup e)
  | .ok r => match ck with
    | .no => .ok (r, none)
    | .all => .ok (r, none)
    | .pyrevolve name d => match makePy id name crit d with
      | .error e => .error e
      | .ok a => .ok (r, some a)

variable {D I O σ : Type}

/-- A checkpointer with a revolver (pyrevolve_checkpointer.py L58 and L106) that exists only after
`create_checkpointer` (L108-110): the second component of the data says whether it does. Without it,
`self._revolver` is `None` and has no attributes (L163, L191). -/
def needsCreate (ck : Checkpointer D σ) : Checkpointer D (σ × Bool) where
  init := (ck.init, false)
  create := fun s => (ck.create s.1, true)
  forward := fun fuel s c x =>
    if s.2 then
      let r := ck.forward fuel s.1 c x
      ((r.1, true), r.2)
    else (s, ⟨c, x, [], .error .attribute⟩)
  reverse := fun s c x p =>
    if s.2 then
      let r := ck.reverse s.1 c x p
      ((r.1, true), r.2)
    else (s, ⟨c, x, [], .error .attribute⟩, p)

end Verif.Integrator
