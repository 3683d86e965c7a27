# Formal model of rkopenmdao in Lean 4: design

The Lean project is in `lean/`. Model modules mirror the Python functions of
`/repo/src/rkopenmdao` branch by branch; every definition cites file and lines.
Property theorems live in `lean/Verif/Props/*.lean` and are named after the
property id (`C06_...`). A suffix `_partial` marks a theorem that proves only a
part of the property, a suffix `_violated` marks a proved *negation*: a concrete
reachable case in which the code does not do what the property says.

## 1. Trusted base

* Lean 4.33.0 kernel and elaborator as far as the statements are concerned.
* Axioms: every theorem depends at most on `propext`, `Classical.choice` and
  `Quot.sound`; those over the reals on all three, those that are computed
  (`decide +kernel` on concrete witnesses, finite lists of shipped tableaux) on
  fewer. Check with `#print axioms`. No own axioms, no `sorry`, no
  `native_decide`, no `bv_decide`.
* That the model definitions describe the Python code. They were written by
  reading the code; nothing was executed.

### General modelling decisions

* **Numbers.** Array data is modelled over an arbitrary field or commutative ring
  `K` (theorems about derivatives and controllers use ℝ). Floating point rounding
  is modelled for the times of a run (`Float.Model`: C74, C75; 53 bits, ties to even,
  unbounded exponents), for the error control (`Float.Control`: C109, C110, with the exponents of doubles `Float.Double`: C113), for norms and error measures (`Float.Norm`: C111), for the values of a step (`Float.Values`: C78; any relative
  error, sums in any order) and for its derivatives (`Float.Deriv`: C98, C99). In the error controller the special values matter, so its
  numbers are `XReal` = exact reals plus `+inf`, `-inf`, `nan`, with IEEE/numpy
  rules for the special values and Python's `min`/`max` semantics. Overflow and
  signed zero are not modelled.
* **Arrays.** A NumPy array of length `n` is a function `Fin n → K`; stage arrays
  are `Fin s → Fin n → K`. Shape errors inside array assignments are therefore not
  modelled, except in the tableau constructor where shapes are explicit data.
* **Exceptions** are values of `Except`.
* **In-place mutation.** Functions that mutate their argument return the new value.
  Where aliasing matters (checkpoint views, `set`, `deepcopy`), a separate small
  heap model is used.
* **Loops** are folds over `List.finRange`/`List.range`, `while` loops and
  recursion without a static bound take a fuel argument; theorems are about the
  results for every fuel, or prove that some fuel suffices.
* **External code.** OpenMDAO solvers, pyrevolve, h5py, MPI are parameters. What is
  assumed about each is a hypothesis of the theorem that uses it and is listed in
  section 3.

## 2. Properties: what is modelled and how it is proved

| id | model | method |
|----|-------|--------|
| C01 | `Tableau.Model`: constructor on explicit shapes, errors as values | case analysis of the decision |
| C02 | same, warnings as returned list | exact characterisation; the node check is ineffective: negation with witness |
| C03 | `is_explicit` etc. as folds over entries | independent spec by sparsity pattern |
| C04 | embedded constructor, split, orders | round trip; negation for `min_p_order` with a missing order |
| C05 | all shipped tableaux as data over ℚ, ℚ(√2), ℚ(√3) and a tower of extensions (`Tableau.Shipped`, `Tableau.Order`) | order conditions of all rooted trees, generated from the trees; the values over the exact field are transported to ℝ by ring homomorphisms; rounded tableaux with an explicit bound of the residual |
| C06 | `RK.Model.computeStep`, fold over stages | loop invariant; spec is an existential RK stage system |
| C07 | same | upper triangle is never read: negation, plus partial theorem for the accepted classes |
| C08 | embedded step | algebra over the C06 characterisation |
| C09 | same | two runs from states that agree on the inputs agree on every output |
| C10 | step, integrator loop, chains of steps (`Integrator.Chain`) | induction over steps; for pyrevolve over the actions of the schedule |
| C11 | `computeStepDerivative` over ℝ | induction over stages, Mathlib `HasFDerivAt` |
| C12 | same | induction over stages |
| C13 | `computeStepAdjoint` | loop invariant on the pairing, backwards over stages; negation for seeds in the `stage_states` buffer |
| C14 | integrator forward/reverse loops | induction over steps |
| C15 | same over ℝ | chain rule, induction over steps |
| C16 | the three checkpointers | induction; pyrevolve numbering: negation |
| C17 | integrator loop with fixed step | induction, `Nat.ceil` |
| C18 | integrator loop + controllers | invariant `t + suggestion ≤ T` |
| C19 | `ErrorController._run` inside the loop | exact characterisation; the clause "last step" compares with the time left *after* the step: negation |
| C20 | same | order lemmas in `XReal`; negation for crossed bounds |
| C21 | `_iterate_on_step` | induction over rejections |
| C22 | same | negation (endless retry at the last step) and partial termination theorems |
| C23 | decorator state machine | negation; exact behaviour of the counter |
| C24 | integrator loop | invariant; the fixed-step branch discards `np.roll`: negation |
| C25 | controller `__call__` | exact characterisation |
| C26 | component state machine | proved for stand-alone controllers; negation for chained ones |
| C27 | controller | zero error keeps the step; negation: stall of `pc` after a zero error |
| C28 | controller in `XReal` | case analysis |
| C29 | factories | algebra; `h0_321` negation |
| C30 | integral controller | monotonicity of `rpow`, geometric decay; negation for less time left than the lower bound |
| C31 | checkpointers | simulation |
| C32 | AllCheckpointer | induction |
| C33 | pyrevolve schedules as lists of actions with a validity predicate | simulation with invariant on stored states |
| C34 | NoCheckpointer | all histories |
| C35, C36 | component state machine over call histories with crash points | invariant cache ⇒ stored trajectory; negations for start time and crash |
| C37 | `to_dict`/`from_dict` on states | negations, partial field-wise round trip |
| C38, C39 | heap model | frame lemmas |
| C40 | event traces of runs | induction; pyrevolve with zero steps: negation |
| C41, C43 | file as finite map of groups | invariant over iterations |
| C42 | `unravel_index`, slabs | arithmetic on mixed radix numbers |
| C44–C47 | metadata extraction on lists of tagged variables and ranks | invariants of the folds, decision tables |
| C48 | `compute_state_norm` over ranks | ℝ `rpow`/max lemmas, permutation and split invariance |
| C49 | measurers | real inequalities |
| C50–C52 | OpenMDAO vectors as name → array maps; linear solves as inverse of a matrix | round trips, transpose algebra |
| C53 | integrator vector writes | exact characterisation; negation |
| C54 | Kaps components over ℝ | field arithmetic, `HasDerivAt`, choice of the root; negations for the reverse linear solve and the exact solution |
| C55 | Prothero-Robinson component | same; negation for `solution` |
| C56, C57 | linear test component, helper components | field arithmetic, `HasDerivAt`, transposes |
| C58 | starting / finalisation schemes; every field of the states they fill; starting, one step and finalisation composed | algebra |
| C59 | `computeStep` on `y' = q(t)` and `y' = λ y` | algebra over tableaux, polynomial exactness |
| C60 | file name construction on strings, rounding and printing of step sizes | four negations; exact condition for equal names on the rest |
| C61 | option dictionary mutation | negations, partial |
| C62 | number of groups in the result file, average run | induction over the writer; negation |
| C63 | `generate_path` on a tree of directories | case analysis; negation for bare file names |
| C64 | `compute_tolerance` | algebra of means |
| C65 | integrator loop as a sequence of Runge-Kutta steps (`RK.Trajectory`, `Integrator.Trajectory`) | induction over runs and over pyrevolve's actions |
| C66 | same, with `Conv.*` | theory of B-series: local error from the order conditions of all rooted trees, discrete Gronwall inequality for the global error; smooth right-hand sides by cutting them off outside a neighbourhood of the solution |
| C68–C70 | same; pairs of backends that correspond to each other (`Integrator.Simulate`) | induction over steps and stages, uniqueness of runs, simulation of the adaptive loop |
| C67 | same; the backend returns updates with a residual | perturbation of the stage system, then as C66 |
| C71 | step and error estimate of the embedded discretization | B-series of the difference of the two sets of weights, as C67; its leading term, exact up to the next power of the step size |
| C72 | adaptive loop with the controller chain of the integrator | invariant of the loop: lower bound of the suggestions by a fixed size or the time left; geometric decrease of rejected steps |
| C73 | adaptive loop with the pseudo controller | induction over attempts and steps, uniqueness of step sequences |
| C74, C75 | same loop with the addition of a step size and the remaining time rounded (`Float.*`) | theory of rounding to nearest (monotone, relative error, Sterbenz), accumulated errors, invariant of the adaptive loop; negation with concrete times |
| C78 | the step with every operation rounded (`Float.Values`) | error of sums in any order; rounded steps are Runge-Kutta steps with a perturbed stage system and result, then as C66; stagnation as example that the bound is attained |
| C76 | `setup` of the component: variables, controllers, callbacks (`Integrator.Component`) | case analysis over the order of declarations, induction over quantities; negations with concrete problems |
| C77 | translation between variables and flat arrays in `compute` and the products | the component with variables simulates the component with arrays; the rest from C14, C15 |
| C79, C80 | the ranks as programs between collective operations, derived from the same code (`Parallel.*`) | a program run alone is the function of `Integrator.Model`; relation between the state of one rank and the parts on several, kept by every operation; negation: the ranks ask for different operations |
| C81 | forward and reverse loops of the integrator with the derivative and adjoint step | steps of values and derivatives together are steps with inexact stages of the pair of problem and variational equation, then as C67; the variational equation gives the derivative of the exact solution (`Conv.Flow`, by Gronwall); reverse products by C14 and C33 |
| C82 | forward loop of adaptive runs | chain rule along the accepted steps; negation with a concrete run |
| C83, C84 | integrator loop as a sequence of Runge-Kutta steps, shipped tableaux (`Stab.Shipped`) | along an eigenvector a step multiplies by a quotient of polynomials computed from the tableau by a checked program; sums of squares certify the bound on the imaginary axis, the theorem of Phragmén and Lindelöf extends it to the half plane |
| C85 | same | algebraic stability: the change of a quadratic form in a step; the matrix is a sum of squares |
| C86 | same, explicit tableaux | the factor is a polynomial whose linear coefficient is the sum of the weights |
| C87 | shipped problems as stage problems (`Components.Stage`), metadata extraction, OpenMDAO backend, integrator | the backend solves the stage equations (up to residuals of the Newton solver) uniformly in its state, then as C66 and C67 with constants chosen before the backend (`Conv.Uniform`) |
| C88 | integrator loop as a sequence of Runge-Kutta steps, shipped tableaux (`Stab.StiffShipped`) | along an eigenvector the errors of the stages solve a triangular system with bounds uniform in the half plane; Taylor's formula splits its right-hand side into residuals of the stage conditions, which vanish or are filtered by the weights (theorem of Cayley and Hamilton), and a remainder; stability (C83) for the accumulation; numbers of each tableau checked over the exact fields |
| C89 | controllers and chains in a closed loop with an error that is a power of the step size (`Control.Feedback`) | the logarithms of the step sizes solve a linear recurrence of order three; criterion of Jury for its roots, factorisation over the complex numbers, perturbed first order recurrences; negations from a root below or at -1 |
| C90 | same | the coefficients of the recurrence vanish; negations for `h0_110` and `h0_321` |
| C91 | components of the user guide and the examples as stage problems (`Components.Guide`), metadata extraction, OpenMDAO backend, integrator | the linear stage equations are solved by hand; then as C87 |
| C92 | as C91 with `ObjComp` (`Components.Guide`), OpenMDAO backend, derivatives of the integrator | the Jacobians of the groups are computed and the sensitivities given in closed form; then as C81; the gradient of the objective by the seed of `ObjComp` |
| C93 | creation and use of the exchange object as a heap of objects and models as trees (`OpenMDAO.Exchange`) | invariant over all sequences of setups and evaluations: the components refer to the object of the last instance; negations for earlier instances and for the model itself |
| C94 | number of steps in `homogeneous.py` with rounding as a parameter (`Problems.Study`), integrator with the pseudo controller | rounding to nearest is monotone and keeps whole numbers; the shipped pairs by evaluation of binary64 rounding; C73 for the run |
| C95 | `sort_dicts` after `read_hdf5_file` (`Problems.Study`) | the keys are a permutation of the step numbers, sorting orders them; telescoping sums |
| C96 | check for missing files and the files read later (`Problems.Study`) | the lines of the message as a list comprehension over all runs |
| C97 | divide-and-conquer schedules with an arbitrary division rule (`Integrator.Revolve`) | legality by strong induction over the length of the segment; binomial bounds for the work |
| C98 | derivative and adjoint step with every operation rounded (`Float.Deriv`), problem derivatives with a relative error | error of one step relative to the size of the perturbation, with a factor `1 + c h` for older errors; discrete Gronwall along the run, in the reverse direction with the invariant that stage updates are of the size of the step; the exact products along the same linearization points are transposes |
| C99 | as C98 | the laws used for C26, C33 and C35 hold for the rounded operations as well |
| C100 | adaptive runs of the embedded discretization with any controller chain | leading term of the B-series of the difference of the two sets of weights (`Conv.Leading`), bounded away from zero near the solution by compactness; acceptance (C19) then bounds the accepted step sizes by a power of the tolerance, C67 the error |
| C101 | products with the Jacobians of the shipped stage problems (`Components.Linear`), OpenMDAO backend, derivatives of the integrator | the linear systems are solved by hand, for Kaps' problem only near the solution (`Conv.UniformPair`: pairs of values and derivatives with constants that are uniform in the solvers); sensitivities in closed form or from C81; reverse products by duality |
| C102 | `setup` of a used component: everything new except for the remembered inputs (`Props.Faults`) | C26 and C35 from a state with arbitrary remembered inputs; negation with witness |
| C103 | all operations again with an oracle that says which calls of external code raise (`Integrator.Faults`), component with all checkpoints | an operation that returns did what it does without faults; invariants over histories with interruptions; recovery from any leftovers; negations with witnesses |
| C104 | the operations of C103 with the HDF5 callback (`File.Callback`) in the list | what the calls up to an interruption do to the file, by induction over the steps; groups that were created and not written hold zeros; negation for every exception outside of callbacks |
| C105 | stage problem with vectors that persist between calls (`OM.Memory`, `RK.Memory`, `Integrator.Memory`, `Integrator.MemoryPyrevolve`) | simulation: parameters are kept by all calls, everything else is overwritten before it is read; induction over stages, steps, attempts and operations |
| C106 | as C105, with changes by the user between operations | the simulation of C105 with the new parameters; a reverse sweep over stored steps restores the parameters of the stored points |
| C107 | the backend of C105 over extended reals, sequences of products | multiplication with zero keeps NaN; invariant: NaN at a variable that is neither written nor delivered, in both linear vectors |
| C108 | the component of C105 with a stage problem that counts its calls (`Integrator.Cost`) | the counters after stages, steps, attempts, runs, sweeps and schedules, by induction; with the work of binomial schedules from C97 |
| C109, C110 | controllers and the loop around them with rounded sums and an arbitrary function for the estimate (`Float.Control`; with exact arithmetic equal to the other model) | rounding as in C75; Sterbenz for the acceptance rule; invariant of the loop that steps are at least half of the lower bound or lead to the final time; negation with a time and a lower bound below half a unit in the last place; the estimate for all exponents by factors of positive numbers, multiplied and raised to powers |
| C111 | norm of a state and improved measure with rounded operations (`Float.Norm`, other orders in `Float.NormOrders`; with exact arithmetic equal to the other model) | relation `Near` (ratio within `exp ±L`), closed under sums, products, powers and rounding; then C48. Ranks: what is not distributed is the same everywhere, so the folds agree |
| C112 | the loop of C109 around the steps of C78 | the invariants of C75 and C110 along the accepted steps: sizes, number and sum; then the error bound of C78 over chains of steps and the Lipschitz constant of the solution |
| C113 | rounding with last bit at least `2^-1074`, arbitrary from `2^1023` on (`Float.Double`) | sums of doubles are multiples of `2^-1074`, so small ones are exact; bounds for the numbers of an attempt from the invariant of C75; simulation between the two arithmetics |
| C114 | `Integrator.Misconfig`: names of revolvers, `__post_init__` with its criterion, a revolver that exists only after `create_checkpointer` | exact conditions for success; the first step without `error_estimate` |
| C115 | `Integrator.Printed`: the two default callbacks as functions from the log of calls and a clock to lines | calls per step, from the log of a run (C16, C40) |
| C116 | as C78 and C112, with roundings that have an absolute error and hold up to a bound (`Float.Near`) | errors of sums and steps with a bound for all intermediate results; then the lemmas of C78, which are stated for these roundings |
| C117 | `Problems.Imports`: bindings of butcher_tableaux.py, `from … import …`, constants.py of the study | induction over the imported names; lookups in the bindings |
| C118 | `Integrator.Messages`: `_iterate_on_step` with its messages | same result as without messages; induction over the attempts |
| C119 | `Tableau.Text`: `__str__` of both classes on lists of characters | stripping ends behind the last entry; lines, columns and words are cut again |
| C120 | `Control.Text`: attributes in their order, `__str__` of both classes as lists of lines | lengths of the lines; the entry that printing adds is shorter than the longest one |
| C121 | `Problems.Parse`: `parse_args` over split command lines, `parse_problem` with both problems | induction over the command line |
| C122 | `Control.Sharing`: controllers with the address of their configuration, factories with the address of their default; `Control.Rebind`: calls and assignments with addresses | induction over the calls and the chain; a change of one address |
| C123 | `Control.Names`: the names that factories and constructors make, `str.replace` with count 1 | induction over the calls; characters of the prefixes |
| C124 | `State.Equality`: `__eq__` of data classes whose fields are arrays | induction over the fields |

`Conv.*` models no code. It contains the part of the theory of Runge-Kutta methods
that connects order conditions (C05) with errors of runs (C66). `Stab.*` models no code either:
it contains the theory of linear and algebraic stability (C83–C86) and of error bounds for
stiff linear problems (C88).

### Layers of the integrator model

* `Integrator.Model`: the component over an abstract `Backend` (discretization and
  stage problem), the loops, `NoCheckpointer`, `AllCheckpointer`.
* `Integrator.RK`: the two instances, `rkBackend` for plain and `embBackend` for
  embedded schemes. `Env` contains tableau, stage problem, possible failures of the
  stage problem (`fails`), the unspecified result of a step with a non-finite step
  size (`nonfinite`) and the error measure.
* `Integrator.Lawful`: which part of a state later results can depend on. `Path`,
  `Run`: successful runs as chains of accepted steps. `Core`: what plain and embedded
  backend have in common. `History`: arbitrary sequences of calls of the component.
* `Integrator.Faults`: the operations when external code raises in the middle.
  `FaultPoints`: the calls of external code of an operation, in their order.
* `Integrator.Memory`: the operations with a stage problem that has a memory; `MemoryRK`: its instances;
  `MemoryPyrevolve`: repeated steps with it; `Cost`: a stage problem that counts its calls.
* `Integrator.Component`: `setup`, and the component with named variables around the one
  with flat arrays.
* `Integrator.Pyrevolve`: the checkpointer over an arbitrary list of actions, with
  `Legal` saying which lists make sense. `Chain`: such runs as chains of steps.

## 3. Which parts of the code are modelled

| file in `/repo/src/rkopenmdao` | modelled in | left out |
|---|---|---|
| `butcher_tableau.py` | `Tableau.Model`, `Tableau.Text` | – |
| `butcher_tableaux.py` | `Tableau.Shipped`, all tableaux in `__all__` | – |
| `time_discretization/*` | `RK.Model`, `State.Model`, `State.Equality` | abstract interfaces |
| `discretized_ode/discretized_ode.py` | `RK.Model` (`ODE`), as three functions | – |
| `discretized_ode/openmdao_ode.py` | `OpenMDAO.Model`; with vectors that persist between calls `OpenMDAO.Memory` | creation of the problem, logging |
| `metadata_extractor.py` | `Metadata.Model` | older table layout |
| `runge_kutta_integrator.py` | `Integrator.Model`; `setup` and translation of variables in `Integrator.Component`; exceptions from outside in `Integrator.Faults`; several ranks in `Parallel.Model`, with pyrevolve in `Parallel.Pyrevolve` (the same schedule on all ranks) | declaration of options |
| `time_integration_state.py` | `Integrator.Model`, `State.Model` | – |
| `termination_criterion.py` | `Integrator.Model` (`Crit`), with rounding `Float.Model` | – |
| `checkpoint_interface/*` | `Integrator.Model`, `Integrator.Pyrevolve`, `State.Model` | storages of pyrevolve |
| `error_controller.py`, `error_controllers.py` | `Control.Model`, with rounding `Float.Control`, printing in `Control.Text`, shared configurations in `Control.Sharing`, names in `Control.Names` | warnings |
| `error_measurer.py` | `OpenMDAO.Norm` | – |
| `file_writer.py`, `callback.py` | `File.*`, `Integrator.Printed` | – |
| `odes/*`, `utils/utility_components.py` | `Components.Model`, `Components.Stage` (as stage problems), `Components.Linear` (Jacobians of the stage problems) | the Newton solver and the linear solvers of `KapsGroup` are parameters |
| `doc/user_guide.ipynb` cells 2, 7, 11 and 14, `examples/simple_parallel_group.py`, `examples/simple_parallel_distributed_component.py` | `Components.Guide` | components and stage problems; solvers are parameters; the parallel group on one rank; the messages of the distributed component are matched as in MPI, blocking is not modelled |
| `utils/problems.py`, scripts of `examples/convergence_study` | `Problems.Model`, `Problems.Study`, `Problems.Imports`, `Problems.Parse` | drawing |
| `om_data_exchange.py`, `components.py` | `OpenMDAO.Exchange` | – |
| `integration_config.py`, `errors.py` | as parameters or error values | – |

Main simplifications; the header of each `Model.lean` has the complete list:

* **States in memory.** `RK.Model` treats states as values. `State.Model` has a heap
  of arrays and is used where sharing matters (`set`, dictionaries, checkpoints,
  `deepcopy`). An array there is a list of rows; broadcasting of arrays of length one
  is not modelled.
* **Times and step sizes** in the Runge-Kutta model are exact reals, so `t + h`
  accumulates without rounding. The tests with tolerance 1e-10 of the controller are
  modelled as they are written.
* **OpenMDAO.** A vector is a function of variable name and flat index. The nonlinear
  solver is a function that starts from fixed vectors; that it solves the equations
  (`SolvesProblem`) and that the linear solver is exact (`SolvesLinear`) are hypotheses
  of the theorems that need them. For Kaps' problem, whose Jacobian is singular for some
  vectors, the linear solver has to solve regular systems only (`SolvesRegular`); `OpenMDAO.Exact`
  shows that such solvers exist for all Jacobians. The Krylov solver of `KapsGroup` works on
  `apply_linear`; the wrong reverse `solve_linear` of its second component (C54) is a preconditioner.
  Partial derivatives that a component neither declares nor computes are zero.
* **Metadata.** The tables of OpenMDAO are one list of variables with a local shape
  for every rank.
* **Norms.** What NumPy does with the maximum of an empty array is a parameter
  (`emptyMax`), both possibilities are covered.
* **Files.** A file is a list of groups of datasets. Ranks act in turn; what they
  create together is described once.
* **Components.** One entry per variable, `x / 0 = 0`, `sqrt` of negative numbers is
  `0`; the theorems exclude these cases by hypotheses.
* **Studies.** Strings are lists of ASCII characters, paths lists of parts, step sizes
  the exact rational values of the floating point numbers.

## 4. Assumptions on external code

* `DiscretizedODE` backends are deterministic functions of their arguments (inner
  solver start values do not matter). For the OpenMDAO backend this is proved from assumptions on the
  stage problem alone (C105).
* pyrevolve: `apply_forward`/`apply_reverse` execute a list of actions
  (take shot, advance, restore, last forward, reverse); a `REVERSE` action advances
  one step and then reverses it. Recalled from the library, which is not available
  offline. Which schedules it produces is not modelled: the theorems are about all
  legal lists of actions. Divide-and-conquer schedules, for which pyrevolve is known, are
  proved to be legal (C97).
* OpenMDAO distributes variables along the first axis only (recalled; used in C41).
* h5py: groups are a map from names to datasets; `"w"` truncates, `"r+"` needs an
  existing file, creating an existing group is an error.
* `system_iter(recurse=True, typ=...)` of OpenMDAO goes over all subsystems with the type, not over
  the system itself (recalled, as OpenMDAO is not available offline).
* MPI `allreduce` combines the contributions of all ranks.
* On several ranks a step, an error measure, a derivative or an adjoint step of the backend is
  one collective operation: it ends if all ranks ask for it, and gives each rank its
  part of what it gives on a single rank (`JointEnv.Solves`; for the norms this is
  C48 and `C79_norms`). Nothing is assumed about ranks with different step sizes.
  Callbacks do not communicate.

## 5. Deviations of the code from the properties

Proved as theorems with suffix `_violated`, each with a concrete or a general
reachable case:

* Tableaux: wrong nodes give no warning (C02); `min_p_order` of an embedded tableau
  with a missing order raises `TypeError` (C04); fully implicit tableaux are truncated
  silently (C07).
* Steps: the adjoint uses what a seed has in the `stage_states` buffer (C13).
* Controllers: steps that equal the time left after them are always accepted (C19), for example the
  first step of the adaptive run in the user guide, with an estimate of 0.05 and a tolerance of 1e-6,
  so that the error of a run whose first step is half the interval does not decrease with the
  tolerance (C100);
  bounds are not validated (C20); endless retries if less time is left than the lower
  bound (C22, C30) and for NaN errors at the upper bound (C28); the retry limit of the
  outer controller never applies (C23); `pc` and `h0_220` stall after an error of zero
  (C27); `h0_321` is not in its family (C29) and not deadbeat (C90); in a closed loop `pc` and
  `h0_220` are unstable for orders up to three, `h0_330` for orders up to seven (C89).
* Integrator: `np.roll` without effect for fixed steps (C24); decorators keep their
  memory between runs (C26), checkpoints (C39), and between a step and its repetition
  from a checkpoint of pyrevolve (C33, and with it C14); the final time is compared without
  tolerance, so that rounding can add a step (0.1 to 1.0 takes eleven steps) or prevent
  the end (C74), and adaptive runs can end one unit in the last place late, and later with negative final times (C75), and do not end if the lower bound is below the resolution of the times (C110); derivatives of
  adaptive runs treat step sizes as constants, so that those with respect to the initial
  time are wrong (C82); the cache ignores the initial time and survives failed runs (C35, C36), a new `setup` (C102) and interrupted
  reverse sweeps, which have removed checkpoints (C103); a reverse product with a stored run sets the
  parameters of the stage problem back to those of that run, for all later operations (C106); products
  overwrite instead of adding (C53).
* OpenMDAO backend: linear vectors are cleared by a multiplication with zero, so that NaN stays in them
  and all later products are NaN (C107).
* Files: a run that is interrupted by an exception leaves groups with zeros for the interrupted step, for
  the first step also instead of the initial values (C104).
* Ranks: whether stored steps can be used is decided by each rank from its own inputs,
  so that ranks can wait for each other in a reverse product (C80).
* Setup: a quantity called `time` clashes with the variables for the time; independent
  inputs that live on other ranks only fail (C76).
* pyrevolve: step numbers start at 0 (C16); with zero steps the first step is done nevertheless
  (C40); the reverse sweep trusts the live state
  (C35); options are modified and can become unusable (C61); the HDF5 callback fails
  on step number 0 (C41).
* States: `from_dict` loses the step size, fails with independent inputs and for
  embedded states, `set` of embedded states is incomplete (C37, C38).
* Metadata and norms: ranges of independent inputs, variables with two roles,
  missing or repeated quantities, remote time variables (C44–C47), order `-inf`,
  partly replicated quantities, empty parts (C48).
* OpenMDAO: variables that share a source (C51, C52); a second integrator for the same stage problem
  takes the components away from the first, which from then on evaluates with wrong step sizes, and a
  model that is an unsteady component itself always has the default ones (C93).
* Files and studies: error measures of fixed steps, reserved names (C41), several
  quantities and scalars when reading (C43), equal file names (C60), one step too much
  in averaged runs (C62), bare file names (C63), the last step counted twice in the average step size of
  the plots (C95); homogeneous runs can lack the last step (C94, not for the shipped problems);
  all scripts of the study end in `ImportError` (C117); the default problem of the command line is
  never used (C121); controllers made without configuration by one factory share one default object
  (C122), and a configuration assigned to a chain reaches its outermost controller only (C122); the
  innermost controller of a chain is called 'Outermost', all others 'Innermost', and `pseudo`
  drops its name without a base (C123); states with more than one variable cannot be compared with `==`, and
  any two decorators are equal (C124).
* Printing a controller adds a line to its next text (C120).
* Components: reverse linear solve of the second Kaps component, exact solutions (C54,
  C55); the component of Prothero and Robinson has no derivatives, forward and reverse products with
  respect to its initial value are the seeds (C101).

## 6. Not modelled

Floating point rounding (except that of times, C74 and C75, of the values of steps, C78 and C116,
and of derivatives, C98, of controllers, C109 and C113, and of norms, C111), overflow and underflow of
derivatives and norms, signed zeros; how numbers are printed (the rest of the
texts is in C115, C118 to C120 and C123); option declaration and type checks by OpenMDAO;
drawing; the packages OpenMDAO,
pyrevolve, h5py and mpi4py.

## 7. Tests of the theorems

`seeded/LOG.jsonl` has one line for each wrong program the theorems were tested
against: the model was edited in a scratch copy as a realistic bug would, and
everything behind the edit was rebuilt. The line names the edit, the claims it breaks
and the theorems that failed. Theorems that survived an edit that breaks their claim
were tightened.
