/-
Model of the exchange of step size and stage factor with the components of the stage problem.

Source: /repo/src/rkopenmdao/om_data_exchange.py, /repo/src/rkopenmdao/components.py,
/repo/src/rkopenmdao/discretized_ode/openmdao_ode.py 76-83 (creation), 133-135, 159-161 and 195-197
(use).

`OpenMDAOODE` and the unsteady components share an object with the two numbers. Objects are entries of a
list (a heap), references are positions in it.

Simplifications:
* of a system only its name, its subsystems and its reference are kept; `none` stands for systems
  that do not inherit from `UnsteadyComponentMixin`;
* `system_iter(recurse=True, typ=...)` goes over the subsystems at all depths that have the type, not
  over the system itself (`include_self` is `False` by default);
* an evaluation writes the two numbers and runs the model once; nothing else happens between these.
-/
import Mathlib.Data.List.Basic

namespace Verif.Exchange

variable {K : Type}

/-- `OMDataExchange`, om_data_exchange.py 9-25. -/
structure Data (K : Type) where
  stepSize : K
  stageFactor : K

/-- A system of OpenMDAO with its subsystems; `ref` is the attribute `om_data_exchange`,
components.py 12-26. -/
inductive Sys where
  | mk (name : String) (ref : Option ℕ) (subs : List Sys)

/-- The name. -/
def Sys.name : Sys → String
  | .mk n _ _ => n

/-- The reference. -/
def Sys.ref : Sys → Option ℕ
  | .mk _ r _ => r

/-- The direct subsystems. -/
def Sys.subs : Sys → List Sys
  | .mk _ _ ss => ss

mutual
/-- The assignment `subsys.om_data_exchange = ...` in a system and everything below it. -/
def overwrite (r : ℕ) : Sys → Sys
  | .mk n ref ss => .mk n (ref.map fun _ => r) (overwriteList r ss)

/-- The same for a list of systems. -/
def overwriteList (r : ℕ) : List Sys → List Sys
  | [] => []
  | s :: ss => overwrite r s :: overwriteList r ss
end

/-- The loop of `OpenMDAOODE.__init__`, openmdao_ode.py 80-83, for the model of the problem. -/
def attach (r : ℕ) : Sys → Sys
  | .mk n ref ss => .mk n ref (overwriteList r ss)

/-- An `OpenMDAOODE`: the problem it was created for and its own object. -/
structure Ode where
  problem : ℕ
  ref : ℕ

/-- All objects, the models of all problems, and the instances of `OpenMDAOODE` in the order of their
creation. -/
structure World (K : Type) where
  heap : List (Data K)
  models : List Sys
  odes : List Ode

/-- `OpenMDAOODE.__init__`, openmdao_ode.py 76-83: a new object with the default values (`dflt`,
om_data_exchange.py 24-25), given to the unsteady components. -/
def create (dflt : Data K) (p : ℕ) (w : World K) : World K where
  heap := w.heap ++ [dflt]
  models := w.models.modify p (attach w.heap.length)
  odes := w.odes ++ [⟨p, w.heap.length⟩]

/-- The first lines of `compute_update`, `compute_update_derivative` and
`compute_update_adjoint_derivative`, openmdao_ode.py 133-134, 159-160 and 195-196. -/
def evaluate (o : Ode) (h a : K) (w : World K) : World K :=
  { w with heap := w.heap.set o.ref ⟨h, a⟩ }

/-- What is done with the instances: create one for a problem, or evaluate (update or derivative) one
of them. -/
inductive Op (K : Type) where
  | create (p : ℕ)
  | evaluate (k : ℕ) (h a : K)

/-- One operation; evaluating an instance that does not exist does nothing. -/
def step (dflt : Data K) (w : World K) : Op K → World K
  | .create p => create dflt p w
  | .evaluate k h a => match w.odes[k]? with
    | none => w
    | some o => evaluate o h a w

/-- A sequence of operations. -/
def run (dflt : Data K) (w : World K) (ops : List (Op K)) : World K := ops.foldl (step dflt) w

/-- `self.om_data_exchange` in a component, e.g. prothero_robinson_ode.py 48-55. -/
def seen (w : World K) (s : Sys) : Option (Data K) := s.ref.bind fun r => w.heap[r]?

end Verif.Exchange
