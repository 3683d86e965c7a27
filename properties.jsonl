{"id": "C01", "title": "Tableau construction accepts exactly the well-shaped data", "statement": "Constructing a Butcher tableau raises ValueError when the matrix is not square, raises ValueError or AssertionError when it is square but the weights or the nodes do not have one entry per stage, and succeeds otherwise; the object then reports the matrix, weights and nodes it was given, and when no nodes are given it reports the row sums of the matrix.", "quantifier": "all matrices, weight vectors and optional node vectors of any size", "why_tests_cant": "the accept/reject border has infinitely many shapes; tests try the shipped tableaux only", "anchors": ["src/rkopenmdao/butcher_tableau.py:ButcherTableau.__init__", "src/rkopenmdao/butcher_tableau.py:ButcherTableau.number_of_stages"]}
{"id": "C02", "title": "Inconsistent tableaux produce a warning", "statement": "Constructing a tableau warns if and only if the weights do not sum to one (beyond 1e-5), and warns about the nodes if and only if some row sum differs from its node by at least 1e-5.", "quantifier": "all matrices, weights and nodes", "why_tests_cant": "a test can only show the warning for the sample it builds; it cannot show that no inconsistent tableau slips through", "anchors": ["src/rkopenmdao/butcher_tableau.py:ButcherTableau.__init__"]}
{"id": "C03", "title": "Tableau classification is a trichotomy", "statement": "For every tableau exactly one of is_explicit, is_diagonally_implicit, is_implicit is true; is_explicit holds exactly when no entry on or above the diagonal is nonzero, is_implicit exactly when some entry above the diagonal is nonzero.", "quantifier": "all tableaux with any number of stages", "why_tests_cant": "there are infinitely many sparsity patterns", "anchors": ["src/rkopenmdao/butcher_tableau.py:ButcherTableau.is_explicit", "src/rkopenmdao/butcher_tableau.py:ButcherTableau.is_diagonally_implicit", "src/rkopenmdao/butcher_tableau.py:ButcherTableau.is_implicit"]}
{"id": "C04", "title": "Embedded tableau splits into its two methods", "statement": "main_method and embedded_method of an embedded tableau are ordinary tableaux with the same matrix and nodes, the main or the embedded weights and the matching order; min_p_order is the smaller of both orders; combining a main tableau with a second weight vector and splitting again gives the original tableau; asking for an order that was not given raises ValueError.", "quantifier": "all embedded tableaux and all orders, given or missing", "why_tests_cant": "round trips must hold for every tableau, not for the ones listed in the tests", "anchors": ["src/rkopenmdao/butcher_tableau.py:EmbeddedButcherTableau", "src/rkopenmdao/butcher_tableau.py:EmbeddedButcherTableau.from_butchertableau", "src/rkopenmdao/butcher_tableau.py:EmbeddedButcherTableau.main_method", "src/rkopenmdao/butcher_tableau.py:EmbeddedButcherTableau.embedded_method", "src/rkopenmdao/butcher_tableau.py:EmbeddedButcherTableau.min_p_order"]}
{"id": "C05", "title": "Shipped tableaux satisfy the order conditions they claim", "statement": "Every shipped tableau is consistent (weights sum to one, row sums equal nodes), is explicit or diagonally implicit, and both of its weight vectors satisfy all Runge-Kutta order conditions up to the order it reports - exactly when its coefficients are given in closed form, within a stated rounding bound when they are given as truncated decimals.", "quantifier": "all 24 tableaux exported by butcher_tableaux.py and all rooted trees up to the claimed order", "why_tests_cant": "the tests evaluate the conditions in floating point with a tolerance; exactness of the closed-form coefficients cannot be seen that way", "anchors": ["src/rkopenmdao/butcher_tableaux.py:__all__"]}
{"id": "C06", "title": "One step computes the Runge-Kutta formula", "statement": "For an explicit or diagonally implicit tableau and an ODE backend that solves the stage equation, the state after compute_step is y + h*sum_i b_i k_i where the k_i satisfy k_i = f(t + c_i h, y + h*sum_j a_ij k_j); each stage only uses results of earlier stages.", "quantifier": "all tableaux of any stage count, all states, sizes, step sizes and all ODE right-hand sides", "why_tests_cant": "tests compare a few problems numerically; the identity must hold for every ODE and tableau", "anchors": ["src/rkopenmdao/time_discretization/stage_ordered_runge_kutta_discretization.py:StageOrderedRungeKuttaDiscretization.compute_step", "src/rkopenmdao/time_discretization/stage_ordered_runge_kutta_discretization.py:StageOrderedRungeKuttaDiscretization._compute_stage", "src/rkopenmdao/time_discretization/stage_ordered_runge_kutta_discretization.py:StageOrderedRungeKuttaDiscretization._accumulate_stages"]}
{"id": "C07", "title": "Fully implicit tableaux are not integrated silently", "statement": "Using a tableau for which is_implicit is true either raises an error or integrates with the full matrix; entries above the diagonal are never silently dropped.", "quantifier": "all fully implicit tableaux", "why_tests_cant": "no test constructs one; the claim is about every matrix with an entry above the diagonal", "anchors": ["src/rkopenmdao/time_discretization/stage_ordered_runge_kutta_discretization.py:StageOrderedRungeKuttaDiscretization.compute_step", "src/rkopenmdao/runge_kutta_integrator.py:RungeKuttaIntegrator.setup"]}
{"id": "C08", "title": "Embedded error estimate is the difference of the two methods", "statement": "After an embedded step the error estimate equals h*sum_i (b_i - bhat_i) k_i, the embedded state equals the result the embedded method alone would have given, and the main result is the same as without embedding.", "quantifier": "all embedded tableaux, ODEs, states and step sizes", "why_tests_cant": "must hold for every ODE and tableau", "anchors": ["src/rkopenmdao/time_discretization/stage_ordered_runge_kutta_discretization.py:EmbeddedRungeKuttaMixin.compute_error_estimate", "src/rkopenmdao/time_discretization/stage_ordered_runge_kutta_discretization.py:StageOrderedEmbeddedRungeKuttaDiscretization.compute_step"]}
{"id": "C09", "title": "A step depends only on the published state", "statement": "The result of a step (state, time, stage data, outputs) is a function of the previous final state, final time, independent inputs and step size; whatever else was left in the reused buffers has no influence.", "quantifier": "all buffer contents left behind by any earlier history of calls", "why_tests_cant": "buffers are reused in place; a test only sees the leftovers of its own history", "anchors": ["src/rkopenmdao/time_discretization/stage_ordered_runge_kutta_discretization.py:StageOrderedRungeKuttaDiscretization.compute_step", "src/rkopenmdao/time_discretization/runge_kutta_discretization_state.py:RungeKuttaDiscretizationState"]}
{"id": "C10", "title": "Time bookkeeping is exact", "statement": "During a step the ODE is evaluated at t + c_i*h; after a step the time has advanced by exactly the step size used, and after any number of steps time_final - time_initial equals the sum of all accepted step sizes.", "quantifier": "all runs with any number of steps, fixed or adaptive", "why_tests_cant": "number of steps and accept/reject patterns are unbounded", "anchors": ["src/rkopenmdao/time_discretization/stage_ordered_runge_kutta_discretization.py:StageOrderedRungeKuttaDiscretization._compute_stage", "src/rkopenmdao/runge_kutta_integrator.py:RungeKuttaIntegrator._iterate_on_step"]}
{"id": "C11", "title": "Forward derivative of a step is its Frechet derivative", "statement": "If the backend's derivative call is the Frechet derivative of its update, then the step derivative is the Frechet derivative of the step with respect to start time, start state and independent inputs at fixed step size.", "quantifier": "all tableaux, all differentiable ODE backends, all linearization points and all directions", "why_tests_cant": "finite-difference tests only sample directions and carry truncation error", "anchors": ["src/rkopenmdao/time_discretization/stage_ordered_runge_kutta_discretization.py:StageOrderedRungeKuttaDiscretization.compute_step_derivative", "src/rkopenmdao/time_discretization/stage_ordered_runge_kutta_discretization.py:StageOrderedRungeKuttaDiscretization._compute_stage_derivative"]}
{"id": "C12", "title": "Forward derivative is linear in the seed", "statement": "The step derivative and the whole forward mode product are linear maps of the seed: sums and multiples of seeds give sums and multiples of results, and a zero seed gives zero.", "quantifier": "all seeds, all tableaux, all step counts and buffer contents", "why_tests_cant": "linearity is a statement about all pairs of seeds", "anchors": ["src/rkopenmdao/time_discretization/stage_ordered_runge_kutta_discretization.py:StageOrderedRungeKuttaDiscretization.compute_step_derivative", "src/rkopenmdao/runge_kutta_integrator.py:RungeKuttaIntegrator._compute_jacvec_product_fwd"]}
{"id": "C13", "title": "Adjoint of a step is the transpose of its derivative", "statement": "For every seed pair, <final seed, derivative(perturbation)> = <adjoint(final seed), perturbation> summed over state, independent inputs and time, provided the backend's two derivative calls are transposes of each other.", "quantifier": "all tableaux, seeds, step sizes, sizes, and backends with matching derivative calls", "why_tests_cant": "dot-product tests sample seeds; the identity must hold for every seed and tableau", "anchors": ["src/rkopenmdao/time_discretization/stage_ordered_runge_kutta_discretization.py:StageOrderedRungeKuttaDiscretization.compute_step_adjoint_derivative", "src/rkopenmdao/time_discretization/stage_ordered_runge_kutta_discretization.py:StageOrderedRungeKuttaDiscretization._compute_stage_adjoint_derivative"]}
{"id": "C14", "title": "Reverse mode is the transpose of forward mode for the whole integration", "statement": "For every input point, the reverse mode product of the integrator component is the transpose of its forward mode product, including initial values, independent inputs and initial time, for any number of steps.", "quantifier": "all inputs, seeds, step counts, tableaux and checkpointing choices that support reverse mode", "why_tests_cant": "seeds, step counts and histories are unbounded", "anchors": ["src/rkopenmdao/runge_kutta_integrator.py:RungeKuttaIntegrator._compute_jacvec_product_fwd", "src/rkopenmdao/runge_kutta_integrator.py:RungeKuttaIntegrator._compute_jacvec_product_rev"]}
{"id": "C15", "title": "Forward mode is the derivative of the integration", "statement": "With a fixed step size and number of steps, the forward mode product is the Frechet derivative of the map from (initial values, independent inputs, initial time) to (final values, final time).", "quantifier": "all step counts, inputs and differentiable backends", "why_tests_cant": "the chain rule over an unbounded number of steps", "anchors": ["src/rkopenmdao/runge_kutta_integrator.py:RungeKuttaIntegrator._compute_jacvec_product_fwd", "src/rkopenmdao/runge_kutta_integrator.py:RungeKuttaIntegrator._iterate_on_step"]}
{"id": "C16", "title": "Number of steps and step numbering", "statement": "With PredefinedNumberOfSteps(n) every checkpointing choice performs exactly n steps and the callbacks see the step numbers 1..n in this order.", "quantifier": "all n and all checkpointing choices", "why_tests_cant": "n is unbounded and the three implementations count differently", "anchors": ["src/rkopenmdao/checkpoint_interface/no_checkpointer.py:NoCheckpointer.iterate_forward", "src/rkopenmdao/checkpoint_interface/all_checkpointer.py:AllCheckpointer.iterate_forward", "src/rkopenmdao/checkpoint_interface/pyrevolve_checkpointer.py:PyrevolveCheckpointer.iterate_forward", "src/rkopenmdao/termination_criterion.py:PredefinedNumberOfSteps"]}
{"id": "C17", "title": "Fixed steps with a final time stop at the first time not before it", "statement": "With PredefinedFinalTime(T) and a fixed step size dt>0 the run stops after ceil((T-t0)/dt) steps, at a time in [T, T+dt), and does nothing when t0 >= T.", "quantifier": "all T, t0 and dt > 0", "why_tests_cant": "unbounded number of steps", "anchors": ["src/rkopenmdao/termination_criterion.py:PredefinedFinalTime", "src/rkopenmdao/runge_kutta_integrator.py:RungeKuttaIntegrator._iterate_on_step", "src/rkopenmdao/checkpoint_interface/no_checkpointer.py:NoCheckpointer.iterate_forward"]}
{"id": "C18", "title": "Adaptive runs never step past the final time", "statement": "With adaptive stepping and PredefinedFinalTime(T), if the initial step does not go past T then no accepted step does, whatever errors are measured and whichever controllers are combined; a run that stops without error stops exactly at T.", "quantifier": "all error sequences, controllers, controller chains and histories", "why_tests_cant": "error sequences and accept/reject patterns are arbitrary", "anchors": ["src/rkopenmdao/error_controller.py:ErrorController._run", "src/rkopenmdao/error_controller.py:ErrorControllerDecorator", "src/rkopenmdao/runge_kutta_integrator.py:RungeKuttaIntegrator._iterate_on_step"]}
{"id": "C19", "title": "Accepted steps meet the tolerance", "statement": "A step whose measured error is above the tolerance is accepted only if the step size is at its lower bound or the step is the last one (it reaches the final time).", "quantifier": "all errors, step sizes, configurations and remaining times", "why_tests_cant": "the exceptional cases form a thin set that samples miss", "anchors": ["src/rkopenmdao/error_controller.py:ErrorController._run", "src/rkopenmdao/runge_kutta_integrator.py:RungeKuttaIntegrator._iterate_on_step"]}
{"id": "C20", "title": "Suggested step sizes respect the bounds", "statement": "Every suggestion of a controller is at most the upper bound and at most the time left, and at least the lower bound unless the time left is smaller, whatever the error and the histories are (including infinite and NaN intermediate values).", "quantifier": "all errors, histories, exponents and bounds", "why_tests_cant": "non-finite intermediate values and arbitrary exponents", "anchors": ["src/rkopenmdao/error_controller.py:ErrorController._run", "src/rkopenmdao/error_controller.py:ErrorController._estimate_next_step_function"]}
{"id": "C21", "title": "Rejected attempts leave no trace", "statement": "Whatever sequence of rejected attempts precedes it, an accepted step gives the same state, time and histories as if the accepted step size had been tried first from the state before the step.", "quantifier": "all accept/reject sequences of any length", "why_tests_cant": "rejection sequences are unbounded", "anchors": ["src/rkopenmdao/runge_kutta_integrator.py:RungeKuttaIntegrator._iterate_on_step"]}
{"id": "C22", "title": "Every step is eventually accepted or reported", "statement": "The retry loop of a step ends: after finitely many attempts the step is accepted or the controller or the stage problem raises its error; attempts are not repeated until the interpreter's recursion limit.", "quantifier": "all error functions, controllers and configurations", "why_tests_cant": "termination over all error functions", "anchors": ["src/rkopenmdao/runge_kutta_integrator.py:RungeKuttaIntegrator._iterate_on_step", "src/rkopenmdao/error_controller.py:ErrorController._run", "src/rkopenmdao/error_controller.py:ErrorController.__call__"]}
{"id": "C23", "title": "The retry limit is honoured", "statement": "A chained controller gives its outer controller at most max_iter rejected attempts per step before it switches to the inner one.", "quantifier": "all error sequences and all max_iter", "why_tests_cant": "rejection sequences are unbounded and the counter is hidden state", "anchors": ["src/rkopenmdao/error_controller.py:ErrorControllerDecorator.__call__", "src/rkopenmdao/error_controller.py:ErrorControllerConfig"]}
{"id": "C24", "title": "Histories hold the last two accepted steps", "statement": "After any run step_size_history holds the sizes of the last two accepted steps, newest first (zero where there is none), and in adaptive mode error_history holds their measured errors (the tolerance where there is none).", "quantifier": "all runs of any length with any rejections, fixed and adaptive", "why_tests_cant": "runs are unbounded", "anchors": ["src/rkopenmdao/runge_kutta_integrator.py:RungeKuttaIntegrator._iterate_on_step", "src/rkopenmdao/runge_kutta_integrator.py:RungeKuttaIntegrator._reset_error_control"]}
{"id": "C25", "title": "Controllers raise exactly when they cannot shrink the step", "statement": "A stand-alone controller raises its error if and only if it rejects a step and suggests a larger one; a chained controller falls back to its inner controller exactly when the outer one rejects without suggesting a smaller step (or has used up its retries), and raises only if the inner one rejects and suggests a larger step.", "quantifier": "all errors, step sizes, histories and controller-chain states", "why_tests_cant": "decision over real-valued inputs and hidden flags", "anchors": ["src/rkopenmdao/error_controller.py:ErrorController.__call__", "src/rkopenmdao/error_controller.py:ErrorControllerDecorator.__call__", "src/rkopenmdao/error_controller.py:ErrorControllerDecorator._run"]}
{"id": "C26", "title": "Integration is reproducible", "statement": "The result of running the integrator depends only on its inputs and options, not on which computations (forward runs, forward or reverse products, failed runs) happened before with the same instance.", "quantifier": "all histories of calls", "why_tests_cant": "histories are unbounded and hidden state lives in controllers, buffers and caches", "anchors": ["src/rkopenmdao/runge_kutta_integrator.py:RungeKuttaIntegrator.compute", "src/rkopenmdao/runge_kutta_integrator.py:RungeKuttaIntegrator._reset_error_control", "src/rkopenmdao/error_controller.py:ErrorControllerDecorator"]}
{"id": "C27", "title": "A step with zero error keeps the integration moving", "statement": "When a step has measured error zero it is accepted and the next suggestion is the same step size (within the bounds); later suggestions stay positive so that the run makes progress.", "quantifier": "all controllers and histories containing zero errors", "why_tests_cant": "needs the exact value zero in the history, with every controller", "anchors": ["src/rkopenmdao/error_controller.py:ErrorController._run", "src/rkopenmdao/error_controller.py:ErrorController._estimate_next_step_function", "src/rkopenmdao/error_controllers.py:pc"]}
{"id": "C28", "title": "A NaN error is never accepted as good", "statement": "If the measured error is NaN the step is rejected (unless it is at the lower bound or counts as last step), and a stand-alone controller with unused time left reports an error instead of looping.", "quantifier": "all configurations, step sizes and histories", "why_tests_cant": "NaN propagation through every branch and exponent combination", "anchors": ["src/rkopenmdao/error_controller.py:ErrorController._run", "src/rkopenmdao/error_controller.py:ErrorController.__call__"]}
{"id": "C29", "title": "Controller families are consistent", "statement": "Each named controller is the member of its general family it is documented to be, an exactly met tolerance with constant history gives safety*dt, a constant error below tolerance never shrinks the unclamped suggestion below safety*dt, and all deadbeat (H0) controllers have total error exponent 1/p.", "quantifier": "all orders p >= 1, tolerances, errors and step sizes", "why_tests_cant": "statement over all real parameters", "anchors": ["src/rkopenmdao/error_controllers.py:h_211", "src/rkopenmdao/error_controllers.py:h0_211", "src/rkopenmdao/error_controllers.py:h_312_general", "src/rkopenmdao/error_controllers.py:h_321_general", "src/rkopenmdao/error_controllers.py:h_330_general", "src/rkopenmdao/error_controllers.py:h0_321", "src/rkopenmdao/error_controller.py:ErrorController._estimate_next_step_function"]}
{"id": "C30", "title": "The integral controller always shrinks a rejected step", "statement": "After a rejection of a step not below the lower bound the integral controller suggests a smaller step or the lower bound, so it never raises, and the retry loop ends after a number of attempts bounded in terms of safety factor, step size and lower bound.", "quantifier": "all errors above tolerance, all orders, all configurations with safety factor below one", "why_tests_cant": "all real errors; unbounded retry sequences", "anchors": ["src/rkopenmdao/error_controllers.py:integral", "src/rkopenmdao/error_controller.py:ErrorController._run"]}
{"id": "C31", "title": "All checkpointing choices give the same forward result", "statement": "Final values, final time and the sequence of intermediate states do not depend on the checkpointing choice.", "quantifier": "all numbers of steps (at least one), all termination criteria both accept, and all checkpoint schedules that pass through the steps once in the forward phase; for schedules that go back to a checkpoint in the forward phase the final values and time, with fixed steps or a single error controller", "why_tests_cant": "schedules and step numbers are unbounded", "anchors": ["src/rkopenmdao/checkpoint_interface/no_checkpointer.py:NoCheckpointer.iterate_forward", "src/rkopenmdao/checkpoint_interface/all_checkpointer.py:AllCheckpointer.iterate_forward", "src/rkopenmdao/checkpoint_interface/pyrevolve_checkpointer.py:PyrevolveCheckpointer.iterate_forward"]}
{"id": "C32", "title": "Reverse sweep visits every step once, last to first, at its own state", "statement": "With AllCheckpointer the reverse sweep applies the step adjoint exactly once per forward step, in reverse order, numbered n..1, each at the state data recorded for exactly that step.", "quantifier": "all step counts, fixed or adaptive", "why_tests_cant": "unbounded number of steps", "anchors": ["src/rkopenmdao/checkpoint_interface/all_checkpointer.py:AllCheckpointer.iterate_reverse", "src/rkopenmdao/checkpoint_interface/all_checkpointer.py:AllCheckpointer.iterate_forward"]}
{"id": "C33", "title": "Any valid revolve schedule gives the reverse result of full storage", "statement": "With PyrevolveCheckpointer the reverse sweep gives the same result as with AllCheckpointer for every schedule the scheduler may legally issue.", "quantifier": "all numbers of steps, numbers of checkpoints and legal schedules", "why_tests_cant": "the schedule space is unbounded", "anchors": ["src/rkopenmdao/checkpoint_interface/pyrevolve_checkpointer.py:PyrevolveCheckpointer.iterate_reverse", "src/rkopenmdao/checkpoint_interface/runge_kutta_integrator_pyrevolve_classes.py:RungeKuttaCheckpoint", "src/rkopenmdao/checkpoint_interface/runge_kutta_integrator_pyrevolve_classes.py:RungeKuttaForwardOperator", "src/rkopenmdao/checkpoint_interface/runge_kutta_integrator_pyrevolve_classes.py:RungeKuttaReverseOperator"]}
{"id": "C34", "title": "Reverse mode without checkpoints is refused", "statement": "Requesting a reverse product with NoCheckpointer never returns numbers, for every input and history: it raises NotImplementedError, or the error of the forward run it does first.", "quantifier": "all inputs and histories", "why_tests_cant": "all histories", "anchors": ["src/rkopenmdao/checkpoint_interface/no_checkpointer.py:NoCheckpointer.iterate_reverse", "src/rkopenmdao/runge_kutta_integrator.py:RungeKuttaIntegrator._compute_jacvec_product_rev"]}
{"id": "C35", "title": "Reverse mode uses the trajectory of its own inputs", "statement": "A reverse product linearises about the trajectory started from the inputs passed to it - initial values, independent inputs and initial time - whatever was computed before, including runs that failed halfway.", "quantifier": "all histories of calls, inputs and crash points", "why_tests_cant": "histories and crash points are unbounded", "anchors": ["src/rkopenmdao/runge_kutta_integrator.py:RungeKuttaIntegrator._compute_jacvec_rev_preparation_phase", "src/rkopenmdao/runge_kutta_integrator.py:RungeKuttaIntegrator._compute_preparation_phase"]}
{"id": "C36", "title": "Repeated reverse products agree", "statement": "Asking for the same reverse product any number of times in a row returns the same numbers each time.", "quantifier": "all numbers of repetitions, inputs and seeds", "why_tests_cant": "popping checkpoints is destructive; repetitions are unbounded", "anchors": ["src/rkopenmdao/runge_kutta_integrator.py:RungeKuttaIntegrator._compute_jacvec_product_rev", "src/rkopenmdao/checkpoint_interface/all_checkpointer.py:AllCheckpointer.iterate_reverse"]}
{"id": "C37", "title": "State dictionaries round-trip", "statement": "Rebuilding an integration state from its dictionary gives back the same state, for plain and embedded schemes.", "quantifier": "all states of any size", "why_tests_cant": "all field contents and sizes", "anchors": ["src/rkopenmdao/time_integration_state.py:TimeIntegrationState.to_dict", "src/rkopenmdao/time_integration_state.py:TimeIntegrationState.from_dict", "src/rkopenmdao/time_discretization/runge_kutta_discretization_state.py:RungeKuttaDiscretizationState.to_dict", "src/rkopenmdao/time_discretization/runge_kutta_discretization_state.py:RungeKuttaDiscretizationState.from_dict", "src/rkopenmdao/time_discretization/runge_kutta_discretization_state.py:EmbeddedRungeKuttaDiscretizationState.from_dict"]}
{"id": "C38", "title": "Setting a state copies all of it", "statement": "After a.set(b), a equals b in every public field, a keeps its own arrays, and later changes to b do not affect a.", "quantifier": "all states and all later modifications", "why_tests_cant": "aliasing bugs show only for particular later modifications", "anchors": ["src/rkopenmdao/time_discretization/runge_kutta_discretization_state.py:RungeKuttaDiscretizationState.set", "src/rkopenmdao/time_discretization/runge_kutta_discretization_state.py:EmbeddedRungeKuttaDiscretizationState", "src/rkopenmdao/time_integration_state.py:TimeIntegrationState.set"]}
{"id": "C39", "title": "Checkpoints restore exactly what was saved", "statement": "Saving a checkpoint, running any further steps on the live state and loading the checkpoint again restores every value the following steps and adjoint steps depend on; other checkpoints are unaffected.", "quantifier": "all sequences of save, step and load operations", "why_tests_cant": "interleavings are unbounded", "anchors": ["src/rkopenmdao/checkpoint_interface/runge_kutta_integrator_pyrevolve_classes.py:RungeKuttaCheckpoint.get_data", "src/rkopenmdao/checkpoint_interface/runge_kutta_integrator_pyrevolve_classes.py:RungeKuttaCheckpoint.get_data_location", "src/rkopenmdao/checkpoint_interface/pyrevolve_checkpointer.py:PyrevolveCheckpointer"]}
{"id": "C40", "title": "Callbacks bracket every step in order", "statement": "For every forward step the before-callbacks run in list order, then the step, then the after-callbacks in list order; numbering is consecutive (if no checkpoint is loaded in between); the derivative callbacks bracket reverse and forward derivative steps the same way, the steps of the reverse mode with descending numbers; nothing runs when there are no steps.", "quantifier": "all callback lists, step counts, error controllers, checkpointing choices and legal schedules", "why_tests_cant": "unbounded traces", "anchors": ["src/rkopenmdao/runge_kutta_integrator.py:RungeKuttaIntegrator._run_step", "src/rkopenmdao/runge_kutta_integrator.py:RungeKuttaIntegrator._run_step_jacvec_rev", "src/rkopenmdao/callback.py:Callback"]}
{"id": "C41", "title": "Output file contains exactly the requested steps", "statement": "After a run of n>=1 steps the file has a group for step 0 and one for every multiple of write_out_period up to n, and nothing else; group 0 holds the initial values and group k the time, values and error measure after step k.", "quantifier": "all n, periods and trajectories", "why_tests_cant": "n and the period are unbounded", "anchors": ["src/rkopenmdao/file_writer.py:OpenMDAOHDF5Callback.before_iteration", "src/rkopenmdao/file_writer.py:OpenMDAOHDF5Callback.after_iteration"]}
{"id": "C42", "title": "Ranks write disjoint slabs that cover the dataset", "statement": "For a quantity distributed over ranks along its first axis the index ranges the ranks write are pairwise disjoint, together cover the dataset, and place each local entry at its global position.", "quantifier": "all shapes, rank counts and splits along the first axis", "why_tests_cant": "shapes and splits are unbounded", "anchors": ["src/rkopenmdao/file_writer.py:OpenMDAOHDF5Callback.get_write_indices", "src/rkopenmdao/metadata_extractor.py:_create_local_array_metadata"]}
{"id": "C43", "title": "Reading returns what was written", "statement": "Reading back a written file returns the times and values that were written, with the error computed against the solution started from the file's own initial values; the last local error is that of the numerically last step.", "quantifier": "all files written by the callback and all lists of quantities", "why_tests_cant": "all contents, any number of groups (whose names sort differently as text and as numbers)", "anchors": ["src/rkopenmdao/file_writer.py:read_hdf5_file", "src/rkopenmdao/file_writer.py:read_last_local_error"]}
{"id": "C44", "title": "Index ranges of quantities tile the state vector", "statement": "The index ranges assigned to the quantities are consecutive, disjoint, and cover exactly the reported array size, each range having the size of its variable's local shape; global ranges over the ranks tile the global array.", "quantifier": "all numbers of quantities, shapes and ranks", "why_tests_cant": "unbounded configurations", "anchors": ["src/rkopenmdao/metadata_extractor.py:extract_time_integration_metadata", "src/rkopenmdao/metadata_extractor.py:add_time_independent_input_metadata", "src/rkopenmdao/metadata_extractor.py:_create_local_array_metadata"]}
{"id": "C45", "title": "Role tags are validated completely", "statement": "Metadata extraction of a quantity succeeds exactly when it has one stage output and either both or none of step input and accumulated stage variable, each at most once; every other combination raises SetupError.", "quantifier": "all variable sets and tag assignments", "why_tests_cant": "unbounded numbers of variables and tags", "anchors": ["src/rkopenmdao/metadata_extractor.py:_extract_time_integration_quantity"]}
{"id": "C46", "title": "Every requested quantity appears exactly once", "statement": "If metadata extraction succeeds the quantity list contains each requested quantity exactly once and no other.", "quantifier": "all requested lists and models", "why_tests_cant": "all tag assignments, including missing and additional variables", "anchors": ["src/rkopenmdao/metadata_extractor.py:extract_time_integration_metadata", "src/rkopenmdao/metadata_extractor.py:add_time_independent_input_metadata"]}
{"id": "C47", "title": "Time variable detection", "statement": "If no variable carries the time tag the model has no time variable; if exactly one scalar one does, it is used; every other situation raises SetupError.", "quantifier": "all variable sets on all ranks", "why_tests_cant": "unbounded variable sets", "anchors": ["src/rkopenmdao/metadata_extractor.py:_search_for_time_variable"]}
{"id": "C48", "title": "State norm is the norm of the whole state", "statement": "The reported state norm is the p-norm (maximum for p=inf) of the concatenation of all not excluded quantities over all ranks, identical on all ranks and independent of how distributed quantities are split.", "quantifier": "all orders p >= 1 and inf/-inf, all values, exclusions, quantity splits and rank counts", "why_tests_cant": "values, splits and rank counts are unbounded", "anchors": ["src/rkopenmdao/discretized_ode/openmdao_ode.py:OpenMDAOODE.compute_state_norm"]}
{"id": "C49", "title": "Error measures are sensible", "statement": "The simple measure is the norm of the error estimate; the improved one is between zero and the norm times eps/eta, does not decrease when the error norm grows, and is zero only for zero error.", "quantifier": "all norms of error and state and all positive parameters eta and eps (as documented)", "why_tests_cant": "statement over all reals", "anchors": ["src/rkopenmdao/error_measurer.py:SimpleErrorMeasurer", "src/rkopenmdao/error_measurer.py:ImprovedErrorMeasurer"]}
{"id": "C50", "title": "Linearization points round-trip", "statement": "Restoring a linearization point that was recorded earlier puts inputs and outputs of the stage problem back to their recorded values, whatever was computed in between.", "quantifier": "all vectors and all intermediate computations", "why_tests_cant": "all intermediate computations", "anchors": ["src/rkopenmdao/discretized_ode/openmdao_ode.py:OpenMDAOODE._get_linearization_point", "src/rkopenmdao/discretized_ode/openmdao_ode.py:OpenMDAOODE._set_linearization_point"]}
{"id": "C51", "title": "Variable translation is lossless", "statement": "Writing a state vector to the stage problem's variables and reading it back gives the same vector on every quantity that has the corresponding variable and leaves the others zero; different quantities do not overwrite each other.", "quantifier": "all quantity lists, shapes and values", "why_tests_cant": "unbounded quantity lists", "anchors": ["src/rkopenmdao/discretized_ode/openmdao_ode.py:OpenMDAOODE._input_state_to_om_vector", "src/rkopenmdao/discretized_ode/openmdao_ode.py:OpenMDAOODE._om_vector_to_input_state"]}
{"id": "C52", "title": "Stage derivative and adjoint of a model are transposes", "statement": "The backend's forward and reverse stage derivatives, computed with linear solves of the stage problem's Jacobian and its transpose, equal the derivative given by the implicit function theorem and its transpose.", "quantifier": "all invertible Jacobians, variable selections and seeds", "why_tests_cant": "all matrices and seeds", "anchors": ["src/rkopenmdao/discretized_ode/openmdao_ode.py:OpenMDAOODE.compute_update_derivative", "src/rkopenmdao/discretized_ode/openmdao_ode.py:OpenMDAOODE.compute_update_adjoint_derivative"]}
{"id": "C53", "title": "Derivative products accumulate into the given vectors", "statement": "compute_jacvec_product adds its contribution to the derivative vectors it is given, for values and for times alike.", "quantifier": "all prior contents of the derivative vectors", "why_tests_cant": "all prior contents", "anchors": ["src/rkopenmdao/runge_kutta_integrator.py:RungeKuttaIntegrator._compute_jacvec_product_fwd", "src/rkopenmdao/runge_kutta_integrator.py:RungeKuttaIntegrator._compute_jacvec_product_rev"]}
{"id": "C54", "title": "Kaps components solve their stage equations", "statement": "solve_nonlinear of both Kaps components makes the residual zero, solve_linear in forward mode solves the linear system of the component's Jacobian and in reverse mode the transposed one; kaps_solution solves the differential equation for compatible initial values.", "quantifier": "all parameters, states, step sizes and right-hand sides (where the equations are solvable)", "why_tests_cant": "real-valued parameters", "anchors": ["src/rkopenmdao/odes/kaps.py"]}
{"id": "C55", "title": "Prothero-Robinson component solves its stage equation", "statement": "The component's output satisfies the implicit stage equation whenever the denominator is nonzero, and solution(t) solves the differential equation with the given initial value.", "quantifier": "all lambda, phi, states, times and step sizes", "why_tests_cant": "functions and reals", "anchors": ["src/rkopenmdao/odes/prothero_robinson_ode.py"]}
{"id": "C56", "title": "Linear test component is consistent", "statement": "The linear component returns the solution of its stage equation whenever that has exactly one, its forward product is the derivative of its output, its reverse product is the transpose, and its solution solves the ODE.", "quantifier": "all states, step sizes and seeds", "why_tests_cant": "reals", "anchors": ["src/rkopenmdao/odes/simple_linear_ode.py"]}
{"id": "C57", "title": "Stage value and stage update helper components are inverse to each other", "statement": "The stage value component computes old + dt*(acc + a*slope), the stage update component recovers the slope from it for dt*a != 0 and every list of quantities it can be set up with, and their reverse products are the transposes of their forward products, which are the derivatives of their outputs.", "quantifier": "all values, shapes, step sizes and seeds", "why_tests_cant": "reals", "anchors": ["src/rkopenmdao/utils/utility_components.py"]}
{"id": "C58", "title": "Starting and finalisation move data without change", "statement": "Starting puts initial values, independent inputs, initial time and the step size into a state whose other arrays are zero, finalisation reads final values and time; with no steps in between the output equals the input; their derivative and adjoint versions are transposes of each other, also when a step lies between them.", "quantifier": "all values, sizes and seeds", "why_tests_cant": "all values and seeds", "anchors": ["src/rkopenmdao/time_discretization/stage_ordered_runge_kutta_discretization.py:StageOrderedRungeKuttaDiscretization.time_discretization_starting_scheme", "src/rkopenmdao/time_discretization/stage_ordered_runge_kutta_discretization.py:StageOrderedRungeKuttaDiscretization.time_discretization_finalization_scheme"]}
{"id": "C59", "title": "Accuracy follows from the order conditions", "statement": "A tableau that satisfies the quadrature conditions up to order p integrates y' = q(t) exactly for every polynomial q of degree below p, and on y' = lambda*y its result is the stability function applied to the state, which for tableaux of order p agrees with the exponential series up to order p.", "quantifier": "all polynomials, all lambda, step sizes and tableaux that are not fully implicit", "why_tests_cant": "all polynomials and step sizes; convergence tests see slopes only", "anchors": ["src/rkopenmdao/butcher_tableaux.py:__all__", "src/rkopenmdao/time_discretization/stage_ordered_runge_kutta_discretization.py:StageOrderedRungeKuttaDiscretization.compute_step"]}
{"id": "C60", "title": "Distinct experiments get distinct result files", "statement": "Different combinations of problem, scheme, controller and step size are written to different files.", "quantifier": "all pairs of shipped schemes, controllers and all step sizes", "why_tests_cant": "pairs of names and all real step sizes", "anchors": ["src/rkopenmdao/utils/problems.py"]}
{"id": "C61", "title": "User options are not modified", "statement": "Setting up and running an integration leaves the option dictionaries given by the user unchanged, so that they can be reused for another instance.", "quantifier": "all option dictionaries and numbers of reuses", "why_tests_cant": "all option contents and reuse histories", "anchors": ["src/rkopenmdao/checkpoint_interface/pyrevolve_checkpointer.py:PyrevolveCheckpointer"]}
{"id": "C62", "title": "The averaged run of a study has as many steps as the adaptive run", "statement": "The convergence study repeats each adaptive run with constant steps: the repeated run has the same number of steps as the adaptive one, its step size is the average step size, and together the steps cover the same time.", "quantifier": "all adaptive runs of at least one step", "why_tests_cant": "the number of steps is decided at run time", "anchors": ["examples/convergence_study/integration_scripts/avg_homogeneous.py:count_keys", "examples/convergence_study/integration_scripts/avg_homogeneous.py:avg_homogeneous_simulation"]}
{"id": "C63", "title": "Output paths are usable after generate_path", "statement": "generate_path makes sure that the directory of an output path exists: it creates exactly the part of the path before the file name, if it does not exist, and succeeds for every file name.", "quantifier": "all paths", "why_tests_cant": "all strings", "anchors": ["src/rkopenmdao/utils/problems.py:generate_path"]}
{"id": "C64", "title": "The tolerance of a study is the mean of the errors of its fixed step runs", "statement": "compute_tolerance returns the mean of the last local errors of the runs with the study's step sizes and the given scheme, read from the files those runs are written to, and 1e-6 if one of them is missing.", "quantifier": "all step size lists, schemes and errors", "why_tests_cant": "all lists and file contents", "anchors": ["src/rkopenmdao/utils/problems.py:Problem.compute_tolerance", "src/rkopenmdao/file_writer.py:read_last_local_error"]}
{"id": "C65", "title": "A whole run is a sequence of Runge-Kutta steps", "statement": "The result of compute is what repeated application of the Runge-Kutta formula of the tableau leads to, started with the initial values at the initial time: N applications with the fixed step size, or as many as reach the final time; in adaptive runs to a final time, started with a step that neither exceeds the upper bound nor the final time, the step sizes lie between 0 and the upper bound of the controller and sum up to the time covered. Neither the state the component was in before nor the checkpointing enter.", "quantifier": "all tableaux that are not fully implicit, problems, numbers of steps, step sizes, controllers, checkpointers and earlier states (pyrevolve: a number of steps, at least one)", "why_tests_cant": "all run lengths and problems; tests compare a few runs with stored numbers", "anchors": ["src/rkopenmdao/runge_kutta_integrator.py:RungeKuttaIntegrator.compute", "src/rkopenmdao/time_discretization/stage_ordered_runge_kutta_discretization.py:StageOrderedRungeKuttaDiscretization.compute_step"]}
{"id": "C66", "title": "Runs converge with the order of the scheme", "statement": "For a right-hand side that is Lipschitz in the state and often enough differentiable, there is a constant such that every run with small enough steps returns values whose distance to the exact solution is at most that constant times (error of the initial values + h^p), where p is the order the shipped tableau reports and h the fixed step size or the upper bound of the adaptive step sizes.", "quantifier": "all shipped tableaux, regular problems, numbers of steps, step sizes and controllers", "why_tests_cant": "a statement about the limit of small steps; tests see a few slopes", "anchors": ["src/rkopenmdao/butcher_tableaux.py:__all__", "src/rkopenmdao/runge_kutta_integrator.py:RungeKuttaIntegrator.compute"]}
{"id": "C67", "title": "Solver tolerances do not accumulate", "statement": "If the backend solves the stage equations near the solution only up to a residual eta, the error of a run with small steps grows by at most a constant times eta; the constant depends on the problem and a bound of the weights, not on the scheme, the step size or the number of steps.", "quantifier": "all smooth problems, schemes, backends with residuals below a threshold, numbers of steps, small step sizes, controllers and checkpointers", "why_tests_cant": "all residual patterns and run lengths", "anchors": ["src/rkopenmdao/runge_kutta_integrator.py:RungeKuttaIntegrator.compute", "src/rkopenmdao/time_discretization/stage_ordered_runge_kutta_discretization.py:StageOrderedRungeKuttaDiscretization.compute_step"]}
{"id": "C68", "title": "Runs keep linear invariants", "statement": "If every update the backend returns is orthogonal to a vector w (a conserved total, for instance), then w times the state is the same before and after a run; if the product is a constant g and the weights sum up to one, it changes by g times the time covered.", "quantifier": "all schemes, linear invariants, backends (exact or not), step sizes, numbers of steps, checkpointers, and controllers with finite bounds in runs to a final time", "why_tests_cant": "all problems with an invariant and all run lengths", "anchors": ["src/rkopenmdao/runge_kutta_integrator.py:RungeKuttaIntegrator.compute", "src/rkopenmdao/time_discretization/stage_ordered_runge_kutta_discretization.py:StageOrderedRungeKuttaDiscretization.compute_step"]}
{"id": "C69", "title": "Splitting a run does not change its result", "statement": "A run over N + M fixed steps returns exactly the values and the time of a run over M steps that is started with what a run over N steps returned; checkpointer, criterion and earlier use of the component may differ between the runs. The weights of the embedded scheme do not influence runs with fixed steps.", "quantifier": "all schemes, problems, N, M, step sizes, checkpointers and histories", "why_tests_cant": "all splittings and histories", "anchors": ["src/rkopenmdao/runge_kutta_integrator.py:RungeKuttaIntegrator.compute"]}
{"id": "C70", "title": "Results do not depend on the choice of variables and units", "statement": "If a problem is written in other variables (a linear map plus an offset), another unit of time and another origin of time, then runs with correspondingly changed inputs and step size return correspondingly changed results. For adaptive runs in the same unit of time, if the error measure corresponds, the same step sizes are chosen and the same exceptions are raised.", "quantifier": "all pairs of corresponding problems, schemes, step sizes, numbers of steps and controllers", "why_tests_cant": "all changes of variables", "anchors": ["src/rkopenmdao/runge_kutta_integrator.py:RungeKuttaIntegrator.compute", "src/rkopenmdao/time_discretization/stage_ordered_runge_kutta_discretization.py:StageOrderedRungeKuttaDiscretization.compute_step", "src/rkopenmdao/error_controller.py:ErrorController"]}
{"id": "C71", "title": "Error estimates have the order of the scheme", "statement": "For a smooth problem the error estimate of an adaptive step of size h is at most C h^(q+1), where q is the smaller of the two orders the tableau reports, plus h times a constant times the accuracies of the coefficients and of the stage solves. From a point of the exact solution, the estimate is the local error of the embedded solution up to the local error of the main solution.", "quantifier": "all embedded schemes, smooth problems, starting values in a bounded set and small step sizes", "why_tests_cant": "a statement about the limit of small steps; the controllers rely on it when they choose the exponent", "anchors": ["src/rkopenmdao/time_discretization/stage_ordered_runge_kutta_discretization.py:EmbeddedRungeKuttaMixin.compute_error_estimate", "src/rkopenmdao/butcher_tableaux.py:__all__"]}
{"id": "C72", "title": "Adaptive runs with the integral controller reach the final time", "statement": "If the error measure of a step of size h is at most C h (which holds for smooth problems), an adaptive run to a final time with the integral controller first in the list, lower bound 0 and a safety factor below one finishes, however small the tolerance is: the number of attempts for each step and the number of steps are bounded. For smooth problems and a small upper bound of the step size the returned values converge with the order of the scheme.", "quantifier": "all embedded schemes, problems with such error measures, tolerances, orders, further controllers and checkpointers", "why_tests_cant": "termination, all tolerances and problems", "anchors": ["src/rkopenmdao/runge_kutta_integrator.py:RungeKuttaIntegrator.compute", "src/rkopenmdao/error_controller.py:ErrorController", "src/rkopenmdao/error_controllers.py:integral"]}
{"id": "C73", "title": "Adaptive runs with the pseudo controller take fixed steps", "statement": "An adaptive run with the pseudo controller takes steps of the given size as long as there is time for them, and one step for the rest; if the time is a multiple of the step size, it returns exactly what a run with fixed steps returns. The measured errors have no influence on the result of a run that finishes.", "quantifier": "all embedded schemes, problems, error measures (also NaN), step sizes, final times and numbers of steps", "why_tests_cant": "all run lengths and error histories", "anchors": ["src/rkopenmdao/runge_kutta_integrator.py:RungeKuttaIntegrator.compute", "src/rkopenmdao/error_controller.py:ErrorController", "src/rkopenmdao/error_controllers.py:pseudo"]}
{"id": "C74", "title": "Fixed-step runs to a final time in floating point", "statement": "A run with fixed steps of size dt to the final time T, with times computed in IEEE double precision, takes the number of steps it takes in exact arithmetic, ceil((T - t0)/dt), and therefore ends less than one step after T.", "quantifier": "all discretizations (whatever the rounding of the values is), double precision initial times, step sizes and final times, checkpointers without schedule", "why_tests_cant": "all step sizes and run lengths; rounding errors add up over the run and the comparison with the final time has no tolerance", "anchors": ["src/rkopenmdao/termination_criterion.py:PredefinedFinalTime", "src/rkopenmdao/time_discretization/stage_ordered_runge_kutta_discretization.py:StageOrderedRungeKuttaDiscretization.compute_step", "src/rkopenmdao/runge_kutta_integrator.py:RungeKuttaIntegrator.compute"]}
{"id": "C75", "title": "Adaptive runs end at the final time in floating point", "statement": "An adaptive run to a final time T, with times computed in IEEE double precision, never goes past T and ends exactly at T, although the remaining time and the sum of time and step size are rounded.", "quantifier": "all discretizations, error measures, chains of controllers with lower bounds that are not negative, final times of any sign, initial times up to T, first steps up to the remaining time", "why_tests_cant": "all step sequences", "anchors": ["src/rkopenmdao/termination_criterion.py:PredefinedFinalTime", "src/rkopenmdao/error_controller.py:ErrorController", "src/rkopenmdao/runge_kutta_integrator.py:RungeKuttaIntegrator.compute"]}
{"id": "C76", "title": "Setup declares the documented variables", "statement": "Setting up the integrator for a stage problem with valid tags succeeds and declares exactly time_initial and time_final, q_initial and q_final with the local shape for every quantity q, and every time independent input under its own name; q_initial starts with the value of the step input of the stage problem, or zero without one. The controllers are nested in the order of the option, and the callbacks are those of the options, otherwise logging and timing on the first rank.", "quantifier": "all sets of tagged variables, numbers of ranks, quantity names, controller lists and callback options", "why_tests_cant": "all combinations of names, ranks and options", "anchors": ["src/rkopenmdao/runge_kutta_integrator.py:RungeKuttaIntegrator.setup", "src/rkopenmdao/metadata_extractor.py:TimeIntegrationMetadata"]}
{"id": "C77", "title": "Values and derivatives belong to the variables with the right names", "statement": "After a successful setup, compute integrates from the values of the variables *_initial, the independent inputs and time_initial, and writes the result of each quantity to its own *_final, whatever the order and shapes of the variables are; nothing else is changed. Forward and reverse products are translated in the same way: for fixed steps the forward product holds the directional derivatives of each *_final and of time_final, and the reverse product after compute, with all steps stored, is its transpose, summed over all entries of all variables.", "quantifier": "all sets of variables, shapes, distributions over ranks, schemes and seeds", "why_tests_cant": "all layouts of the flat arrays", "anchors": ["src/rkopenmdao/runge_kutta_integrator.py:RungeKuttaIntegrator.compute", "src/rkopenmdao/runge_kutta_integrator.py:RungeKuttaIntegrator._compute_jacvec_product_fwd"]}
{"id": "C78", "title": "Rounding errors of a run are of the size of the unit roundoff divided by the step size", "statement": "If all operations of a step (stage times, sums over stages, final values, final time) have a relative error of at most u, in whatever order sums are evaluated, then the time and the values returned by a run with fixed steps of size dt deviate from those of the solution by the errors of exact arithmetic plus at most a constant times u / dt; for adaptive runs plus a constant times u times the number of accepted steps. The constant does not depend on u, the step size or the run.", "quantifier": "all schemes, smooth problems, roundings, orders of summation, small step sizes, numbers of steps, final times, checkpointers and controllers", "why_tests_cant": "all roundings and run lengths; errors of single runs say nothing about their growth", "anchors": ["src/rkopenmdao/time_discretization/stage_ordered_runge_kutta_discretization.py:StageOrderedRungeKuttaDiscretization.compute_step", "src/rkopenmdao/runge_kutta_integrator.py:RungeKuttaIntegrator.compute"]}
{"id": "C79", "title": "All ranks take the same decisions", "statement": "On several MPI ranks, where every rank has its own part of the values (distributed or replicated), compute and forward products do not deadlock: in every collective operation (step, error estimate, derivative step) all ranks take part, with the same step size, whether steps are accepted or rejected. Every rank ends with its part of what a run on a single rank gives, or with the same exception.", "quantifier": "all numbers of ranks, distributions of the values, problems, schemes, controllers, checkpointers (with pyrevolve: all schedules, the same on all ranks), sequences of operations after setup", "why_tests_cant": "all numbers of ranks, distributions and step sequences; a test that deadlocks on an untried distribution is never seen", "anchors": ["src/rkopenmdao/runge_kutta_integrator.py:RungeKuttaIntegrator.compute", "src/rkopenmdao/runge_kutta_integrator.py:RungeKuttaIntegrator._compute_jacvec_product_fwd", "src/rkopenmdao/discretized_ode/openmdao_ode.py:OpenMDAOODE.compute_state_norm"]}
{"id": "C80", "title": "Reverse products on several ranks", "statement": "On several MPI ranks a reverse product does not deadlock either: all ranks decide alike whether the stored steps can be used or have to be computed again, and each rank gets its part of what a single rank gives.", "quantifier": "all numbers of ranks, distributions, inputs of the product, earlier operations", "why_tests_cant": "all distributions of changed inputs over ranks", "anchors": ["src/rkopenmdao/runge_kutta_integrator.py:RungeKuttaIntegrator._compute_jacvec_rev_preparation_phase", "src/rkopenmdao/runge_kutta_integrator.py:RungeKuttaIntegrator._compute_jacvec_product_fwd"]}
{"id": "C81", "title": "Products converge to the sensitivities of the exact solution", "statement": "For a smooth problem the derivatives of the exact solution with respect to initial time, initial values and parameters exist and solve the variational equation. If the stage problem solves the stage equation and the linearized stage equation up to a residual, forward products of runs with steps up to h differ from these derivatives at the end of the run (which moves with the initial time) by at most a constant times (error of the initial values and seeds + accuracy of the coefficients + residual), where the constant depends on the problem only, plus a constant times h^p, where p is the order of the scheme. If moreover the adjoint of the stage problem is the transpose of its derivative, reverse products are the transpose of these derivatives up to the same error.", "quantifier": "all smooth problems, schemes, directions, small step sizes, numbers of steps, final times, adaptive runs with an upper bound; reverse products with all steps stored, after compute or without it, and with every legal pyrevolve schedule and nothing cached", "why_tests_cant": "limits of step sizes; a test compares with finite differences of the same discrete run, not with the exact solution", "anchors": ["src/rkopenmdao/runge_kutta_integrator.py:RungeKuttaIntegrator._compute_jacvec_product_fwd", "src/rkopenmdao/time_discretization/stage_ordered_runge_kutta_discretization.py:StageOrderedRungeKuttaDiscretization.compute_step_derivative", "src/rkopenmdao/time_discretization/stage_ordered_runge_kutta_discretization.py:StageOrderedRungeKuttaDiscretization.compute_step_adjoint_derivative"]}
{"id": "C82", "title": "Forward products are derivatives of adaptive runs as well", "statement": "Where the results of compute are differentiable functions of initial values, independent inputs and initial time, the forward product is their derivative, for adaptive runs to a final time as well.", "quantifier": "all problems, schemes, controllers, inputs and seeds", "why_tests_cant": "all step sequences; step sizes depend on the inputs in a way tests with fixed steps do not see", "anchors": ["src/rkopenmdao/runge_kutta_integrator.py:RungeKuttaIntegrator._compute_jacvec_product_fwd", "src/rkopenmdao/runge_kutta_integrator.py:RungeKuttaIntegrator.compute", "src/rkopenmdao/termination_criterion.py:PredefinedFinalTime"]}
{"id": "C83", "title": "Implicit schemes keep linear problems stable for all step sizes", "statement": "With each of the implicit tableaux the package ships, two runs of a linear problem y' = L y + g(t, p) with the same fixed steps do not drift apart along left eigenvectors whose eigenvalue has a real part of at most zero, however large the steps are; for the two implicit tableaux of order five, whose coefficients are rounded, by at most a factor 1 + 1e-25 per step. For symmetric negative semidefinite L the Euclidean distance does not grow either. Adaptive runs of y' = L y with the embedded ones up to order four do not grow along these eigenvectors.", "quantifier": "all shipped implicit tableaux, linear problems, eigenvectors, step sizes, numbers of steps, checkpointers and, for adaptive runs, controllers", "why_tests_cant": "all step sizes and eigenvalues of a half plane; single steps of a few problems do not show that there is no unstable step size, and a wrong digit of a coefficient may destroy stability without a visible effect on the order", "anchors": ["src/rkopenmdao/butcher_tableaux.py", "src/rkopenmdao/time_discretization/stage_ordered_runge_kutta_discretization.py:StageOrderedRungeKuttaDiscretization.compute_step", "src/rkopenmdao/runge_kutta_integrator.py:RungeKuttaIntegrator.compute"]}
{"id": "C84", "title": "Stiff components are damped", "statement": "For every shipped implicit tableau there is a factor e and a constant C such that in N steps of size dt the distance of two runs of a linear problem along an eigenvector with eigenvalue l, of real part at most zero, is multiplied by at most (e + C / (dt |l|))^N. Of the twenty tableaux, e is zero for eleven, 1e-20 for three with rounded coefficients, 3/4 for five and one for the implicit midpoint rule.", "quantifier": "all shipped implicit tableaux, linear problems, eigenvectors, step sizes and numbers of steps", "why_tests_cant": "limits of large eigenvalues", "anchors": ["src/rkopenmdao/butcher_tableaux.py", "src/rkopenmdao/runge_kutta_integrator.py:RungeKuttaIntegrator.compute"]}
{"id": "C85", "title": "Dissipation and conservation in nonlinear problems", "statement": "Implicit Euler, the implicit midpoint rule, the two stage SDIRK scheme of order three and the embedded SDIRK scheme with 5/6 on the diagonal bring runs of a dissipative problem closer together, and do not increase a quadratic energy the solutions do not increase, for all step sizes, also in adaptive runs. The implicit midpoint rule conserves every quadratic quantity the solutions conserve.", "quantifier": "all problems with the property, inner products, step sizes, numbers of steps, controllers", "why_tests_cant": "all nonlinear problems and step sizes", "anchors": ["src/rkopenmdao/butcher_tableaux.py", "src/rkopenmdao/runge_kutta_integrator.py:RungeKuttaIntegrator.compute"]}
{"id": "C86", "title": "Limits of the explicit schemes", "statement": "No explicit scheme is stable for all step sizes: for every factor there is a bound such that steps with dt |l| above the bound multiply the distance of two runs along the eigenvector by at least this factor each. The shipped explicit tableaux are stable along eigenvectors with real eigenvalue for dt |l| <= 2, which is sharp for explicit Euler and the Heun-Euler scheme; the classical Runge-Kutta scheme is stable for undamped oscillations with (dt w)^2 <= 8, while explicit Euler enlarges them in each step by sqrt(1 + (dt w)^2).", "quantifier": "all explicit tableaux whose weights do not sum up to zero, linear problems, eigenvectors, step sizes, numbers of steps", "why_tests_cant": "thresholds of step sizes, for all problems", "anchors": ["src/rkopenmdao/butcher_tableaux.py", "src/rkopenmdao/runge_kutta_integrator.py:RungeKuttaIntegrator.compute"]}
{"id": "C87", "title": "The shipped test problems converge to the shipped solutions", "statement": "Runs of SimpleLinearODE, ProtheroRobinson (started on its sine curve) and KapsGroup (started from (1, 1) at time 0) with each shipped tableau converge to the solution function that is shipped with the problem, with the order of the tableau, up to the accuracy of its coefficients and, for Kaps' problem, a fixed multiple of the residual with which the Newton solver of the group stops on the branch near the initial guess. Runs of ProtheroRobinson from other initial values converge to the exact solution with this initial value.", "quantifier": "all shipped tableaux with an order of at least one, stiffness parameters, initial values, numbers of steps, final times, checkpointers, and for embedded tableaux all controllers and the pseudo controller of the convergence study", "why_tests_cant": "orders are statements about limits; the study of the package looks at a few step sizes of a few schemes", "anchors": ["src/rkopenmdao/odes/simple_linear_ode.py:SimpleLinearODE", "src/rkopenmdao/odes/prothero_robinson_ode.py:ProtheroRobinson", "src/rkopenmdao/odes/kaps.py:KapsGroup", "src/rkopenmdao/utils/problems.py", "src/rkopenmdao/runge_kutta_integrator.py:RungeKuttaIntegrator.compute"]}
{"id": "C88", "title": "Errors of implicit schemes do not depend on the stiffness", "statement": "For every shipped implicit tableau there are numbers q, C and d, the same for all problems, such that runs of a linear problem y' = L y + g(t, p) with steps up to h have, along every left eigenvector with an eigenvalue of real part at most zero, an error of at most that of the initial values plus M (C h^q + d (1 + ... + h^(q-1))) per unit of time, where M bounds the first q + 1 derivatives of the component of the solution along the eigenvector; the eigenvalue does not occur. Here q is the stage order, or the weak stage order for the tableaux that have it in their names (two, three and three), and d is the effect of the rounded coefficients, zero for exact ones. The two implicit tableaux of order five may enlarge errors by a factor 1 + 1e-25 per step. In particular one bound holds for ProtheroRobinson with all parameters lambda <= 0.", "quantifier": "all shipped implicit tableaux, linear problems, eigenvectors, solutions, step sizes, numbers of steps, final times, checkpointers and, up to order four, controllers of adaptive runs", "why_tests_cant": "all stiffness parameters and step sizes at once; with fixed parameters and small steps a test sees the classical order only", "anchors": ["src/rkopenmdao/butcher_tableaux.py", "src/rkopenmdao/odes/prothero_robinson_ode.py:ProtheroRobinson", "src/rkopenmdao/time_discretization/stage_ordered_runge_kutta_discretization.py:StageOrderedRungeKuttaDiscretization.compute_step", "src/rkopenmdao/runge_kutta_integrator.py:RungeKuttaIntegrator.compute"]}
{"id": "C89", "title": "Step size control settles", "statement": "If the error estimate is a coefficient times the power p+1 of the step size, where p is the order the integrator passes to the controllers, then the steps under each named controller (also as innermost one of a chain) settle: in accepted steps without active bounds the deviation from the step size at which the error is the tolerance times a fixed power of the safety factor is forgotten geometrically, a variation of the coefficient moves the step sizes in proportion only, and steps that start near this size are all accepted.", "quantifier": "all named controllers except pseudo, chains with them as innermost controller, orders p >= 1, tolerances, safety factors below one, coefficients, numbers of steps", "why_tests_cant": "a closed loop over arbitrarily many steps, for all orders and real parameters; unstable loops need many steps before they show", "anchors": ["src/rkopenmdao/error_controller.py:ErrorController._estimate_next_step_function", "src/rkopenmdao/error_controllers.py:pc", "src/rkopenmdao/error_controllers.py:h0_330", "src/rkopenmdao/error_controllers.py:h0_211", "src/rkopenmdao/runge_kutta_integrator.py:RungeKuttaIntegrator.compute"]}
{"id": "C90", "title": "Deadbeat controllers reach the target at once", "statement": "If the error is a constant times the power p of the step size, each H0 controller suggests exactly the step size at which the error is the tolerance times the factor that the safety factor leaves, whatever the last three step sizes were.", "quantifier": "all H0 controllers, orders, tolerances, constants and step sizes", "why_tests_cant": "statement over all real parameters and histories", "anchors": ["src/rkopenmdao/error_controller.py:ErrorController._estimate_next_step_function", "src/rkopenmdao/error_controllers.py:h0_211", "src/rkopenmdao/error_controllers.py:h0_312", "src/rkopenmdao/error_controllers.py:h0_330", "src/rkopenmdao/error_controllers.py:h0_321"]}
{"id": "C91", "title": "The components of the user guide and the examples do what the guide says", "statement": "The components of the user guide and of the examples compute solutions of the stage equations the guide derives, and their partial derivatives and Jacobian vector products are the derivatives of their outputs and the transposes of these. The three implementations of x' = -y, y' = x (two coupled components, two components in a parallel group, one component distributed over two ranks) have the same stage updates for all step sizes. Runs of x' = x, x' = b x and x' = -y, y' = x with each shipped tableau converge to x0 exp(t - t0), x0 exp(b (t - t0)) and the rotation of the initial values, with the order of the tableau, up to the accuracy of its coefficients and a fixed multiple of the residuals with which the nonlinear solvers stop.", "quantifier": "all step sizes, coefficients and inputs; all shipped tableaux with an order of at least one, initial values, parameters, numbers of steps, final times, checkpointers, and for embedded tableaux all controllers", "why_tests_cant": "the guide shows single runs; agreement and orders are statements about all real inputs and about limits", "anchors": ["doc/user_guide.ipynb", "examples/simple_parallel_group.py", "examples/simple_parallel_distributed_component.py", "src/rkopenmdao/discretized_ode/openmdao_ode.py:OpenMDAOODE.compute_update", "src/rkopenmdao/runge_kutta_integrator.py:RungeKuttaIntegrator.compute"]}
{"id": "C92", "title": "Derivatives and the optimization of the user guide", "statement": "For x' = b x and for the coupled components of the user guide, forward products converge to the derivatives of the exact solution with respect to the initial values and b, (v + pi (t - t0) x0) exp(b (t - t0)) and the rotated direction, and reverse products to the transposes, with the order of the tableau, up to the accuracy of its coefficients and a fixed multiple of the residuals with which the nonlinear solvers stop. The products of the objective component of the guide are the derivative of the objective and its transpose, and the gradient that the optimization of the guide gets for fixed steps converges in the same sense to the gradient of the objective of the exact solution, which vanishes only at the initial values whose solution arrives at (1, 0).", "quantifier": "all shipped tableaux with an order of at least one, initial values, directions, parameters, numbers of steps, final times and checkpointers, for embedded tableaux all controllers; linear solvers that solve the linearized stage problem", "why_tests_cant": "limits over step sizes, for all real data; the guide shows one optimization", "anchors": ["doc/user_guide.ipynb", "src/rkopenmdao/discretized_ode/openmdao_ode.py:OpenMDAOODE.compute_update_adjoint_derivative", "src/rkopenmdao/runge_kutta_integrator.py:RungeKuttaIntegrator._compute_jacvec_product_rev"]}
{"id": "C93", "title": "Components see the step size and stage factor of the evaluation", "statement": "In every evaluation of a stage problem (update, derivative or adjoint derivative) each unsteady component of the problem, at any depth, reads the step size and the stage factor of this evaluation through om_data_exchange, whatever was evaluated before, also if there are several problems and integrators.", "quantifier": "all models, numbers of problems and integrators, and sequences of setups and evaluations", "why_tests_cant": "shared mutable objects across arbitrary models and histories; tests use one integrator per problem", "anchors": ["src/rkopenmdao/discretized_ode/openmdao_ode.py:OpenMDAOODE.__init__", "src/rkopenmdao/om_data_exchange.py:OMDataExchange", "src/rkopenmdao/components.py:UnsteadyComponentMixin"]}
{"id": "C94", "title": "Homogeneous runs of the study cover the time objective", "statement": "A homogeneous run of the convergence study with step size h finishes (if the model does not fail) after steps of size h only and ends less than one step before the time objective and not after it, up to the relative rounding error of one division; for the shipped problems and step sizes there are exactly as many steps as the step size fits into the time objective. For the step size zero it raises ValueError or OverflowError before the run.", "quantifier": "all non-negative time objectives and positive step sizes with less than 2^53 steps, numbers rounded to binary64; all models, tableaux, initial values and checkpointers; the run itself with exact times", "why_tests_cant": "truncation of a rounded quotient for all pairs of numbers; a test sees only the pairs that are shipped", "anchors": ["examples/convergence_study/integration_scripts/homogeneous.py:homogeneous_simulation", "src/rkopenmdao/error_controllers.py:pseudo", "src/rkopenmdao/termination_criterion.py:PredefinedNumberOfSteps", "src/rkopenmdao/utils/problems.py:prothero_robinson_problem"]}
{"id": "C95", "title": "Plots of the study show the steps of the run", "statement": "For the file of a run the plots show times, values and errors in the order of the steps and for every step its size, and the dashed line is at the average step size of the run.", "quantifier": "all runs of at least one step whose file holds every step, quantities and exact solutions", "why_tests_cant": "file entries are ordered alphabetically, for arbitrarily many steps", "anchors": ["examples/convergence_study/visualization/plot_errors.py:sort_dicts", "examples/convergence_study/visualization/plot_errors.py:decorate_last_time_box", "src/rkopenmdao/file_writer.py:read_hdf5_file"]}
{"id": "C96", "title": "Missing results are reported before plotting", "statement": "The plot script raises a FileNotFoundError exactly if one of the files it reads later does not exist, and the message names exactly the missing ones.", "quantifier": "all problems, schemes, step sizes and states of the file system (that does not change meanwhile)", "why_tests_cant": "statement over all subsets of files", "anchors": ["examples/convergence_study/visualization/main.py:check_and_raise_missing_files", "src/rkopenmdao/utils/problems.py:Problem.file_exists", "examples/convergence_study/visualization/plot_convergence.py:extract_local_error_data"]}
{"id": "C97", "title": "Reverse mode works with any number of checkpoints", "statement": "For every number of steps from two on and every positive number of checkpoints there are schedules the pyrevolve checkpointer can execute that never store more states than that; with all divide-and-conquer schedules (whatever the rule for dividing) the reverse product has the outcome it has with full storage, and with division by binomial coefficients compute and reverse product together compute at most (r+1)(n-1)+1 steps, if n-1 is at most binom(s+r, s) for n steps and s checkpoints.", "quantifier": "all numbers of steps from two on, numbers of checkpoints, division rules, problems and schemes; fixed steps or a single error controller", "why_tests_cant": "The statement is about an unbounded family of schedules; tests run one number of steps with a few numbers of checkpoints.", "anchors": ["src/rkopenmdao/checkpoint_interface/pyrevolve_checkpointer.py:PyrevolveCheckpointer.iterate_forward", "src/rkopenmdao/checkpoint_interface/pyrevolve_checkpointer.py:PyrevolveCheckpointer.iterate_reverse", "src/rkopenmdao/checkpoint_interface/runge_kutta_integrator_pyrevolve_classes.py:RungeKuttaForwardOperator", "src/rkopenmdao/checkpoint_interface/runge_kutta_integrator_pyrevolve_classes.py:RungeKuttaReverseOperator"]}
{"id": "C98", "title": "Rounding errors of derivatives", "statement": "In floating point arithmetic forward and reverse products differ from the exact derivatives of the steps taken by at most a constant times the number of steps times the relative error of one operation (or of the derivative functions of the problem, if that is larger), relative to the seed; the constant depends on the tableau, the bounds of the problem and the length of the time interval, not on the number of steps. In the same sense forward and reverse products pass the dot product test.", "quantifier": "all tableaux, problems with derivative functions that are accurate up to a relative error and bounded along the run, step sizes (also varying), roundings with a relative error, summation orders, seeds and histories, as long as number of steps times error is at most 1; plain and embedded schemes, all states stored", "why_tests_cant": "error propagation over arbitrarily many steps, forwards and backwards; tests compare single runs within a tolerance", "anchors": ["src/rkopenmdao/time_discretization/stage_ordered_runge_kutta_discretization.py:StageOrderedRungeKuttaDiscretization.compute_step_derivative", "src/rkopenmdao/time_discretization/stage_ordered_runge_kutta_discretization.py:StageOrderedRungeKuttaDiscretization.compute_step_adjoint_derivative", "src/rkopenmdao/runge_kutta_integrator.py:RungeKuttaIntegrator._compute_jacvec_product_fwd"]}
{"id": "C99", "title": "Results are reproducible bit by bit", "statement": "In floating point arithmetic, too, results of compute, forward and reverse products (or the exceptions) are exactly those of a fresh component: they do not depend on what the component computed before, nor on the checkpointer.", "quantifier": "all roundings and summation orders (the same for the same operands), problems, tableaux, options and sequences of operations", "why_tests_cant": "equality of results after arbitrary histories; tests use tolerances", "anchors": ["src/rkopenmdao/runge_kutta_integrator.py:RungeKuttaIntegrator.compute", "src/rkopenmdao/runge_kutta_integrator.py:RungeKuttaIntegrator._compute_jacvec_product_fwd", "src/rkopenmdao/checkpoint_interface/pyrevolve_checkpointer.py:PyrevolveCheckpointer.iterate_reverse"]}
{"id": "C100", "title": "The accuracy of adaptive runs follows the tolerance", "statement": "For smooth problems and an upper bound of the step sizes below a limit that depends on the problem and the scheme, the error of an adaptive run at its end is at most a constant times the power k/(e+1) of the tolerance, where k is the order of the scheme and e that of the embedded one (plus a multiple of the errors of the initial values, of the coefficients and of the stage equations, and the tiny term of steps below 1e-10), if the leading term of the difference of the two schemes does not vanish along the solution. The constant does not depend on tolerance, step sizes, number of steps or controllers.", "quantifier": "all smooth problems, embedded schemes of order at least one, controllers, tolerances, first step sizes, numbers of steps, final times and checkpointers; lower bound of the step sizes zero", "why_tests_cant": "asymptotic statement over all tolerances and problems; tests compare single runs with single tolerances", "anchors": ["src/rkopenmdao/error_controller.py:ErrorController._run", "src/rkopenmdao/error_measurer.py:SimpleErrorMeasurer.get_measure", "src/rkopenmdao/runge_kutta_integrator.py:RungeKuttaIntegrator._iterate_on_step", "src/rkopenmdao/time_discretization/stage_ordered_runge_kutta_discretization.py:StageOrderedEmbeddedRungeKuttaDiscretization.compute_step"]}
{"id": "C101", "title": "Derivatives of the shipped test problems converge", "statement": "For the shipped linear problem, the problem of Prothero and Robinson and Kaps' problem, forward and reverse products of the integrator converge to the derivatives of the exact solution with respect to the initial values with the order of the scheme, for every shipped scheme (up to the rounding of its coefficients and the residuals of the Newton solver for the stages).", "quantifier": "all shipped schemes, initial values, intervals, seeds, step sizes below a limit, fixed steps to a number of steps or a final time, adaptive runs to a final time for embedded schemes, ways of storing the steps", "why_tests_cant": "asymptotic statement over all step sizes, seeds and schemes; tests of the derivatives compare with finite differences of the same discretization", "anchors": ["src/rkopenmdao/odes/simple_linear_ode.py:SimpleLinearODE", "src/rkopenmdao/odes/prothero_robinson_ode.py:ProtheroRobinson", "src/rkopenmdao/odes/kaps.py:KapsGroup", "src/rkopenmdao/runge_kutta_integrator.py:RungeKuttaIntegrator._compute_jacvec_product_fwd", "src/rkopenmdao/runge_kutta_integrator.py:RungeKuttaIntegrator._compute_jacvec_product_rev"]}
{"id": "C102", "title": "Setting the component up again is like making a new one", "statement": "After setup is called again on a component that was in use (with the same or other options), compute, forward and reverse products have the results of a new component with these options, whatever the component did before.", "quantifier": "all histories before the setup (any options, controllers, checkpointers, failed operations), all new options, all operations after the setup, inputs and seeds", "why_tests_cant": "tests set a problem up once; the statement is about all histories before a second setup and all operations after it", "anchors": ["src/rkopenmdao/runge_kutta_integrator.py:RungeKuttaIntegrator.setup", "src/rkopenmdao/runge_kutta_integrator.py:RungeKuttaIntegrator._compute_jacvec_rev_preparation_phase", "src/rkopenmdao/checkpoint_interface/all_checkpointer.py:AllCheckpointer"]}
{"id": "C103", "title": "Interrupted operations do no lasting harm", "statement": "If an exception from a stage problem, its derivatives, the error measure or a callback interrupts an operation at any point, the exception is passed on, and later operations that are not interrupted have the results they have without the interrupted ones. At least, a compute that returns brings the component back into order.", "quantifier": "all sequences of operations, each interrupted at any of the calls of external code (first or later steps and attempts, any callback, forward or reverse sweeps) or not, all inputs and seeds", "why_tests_cant": "the crash points are all calls of external code in runs of any length, in any history of operations", "anchors": ["src/rkopenmdao/runge_kutta_integrator.py:RungeKuttaIntegrator.compute", "src/rkopenmdao/runge_kutta_integrator.py:RungeKuttaIntegrator._run_step", "src/rkopenmdao/runge_kutta_integrator.py:RungeKuttaIntegrator._compute_jacvec_product_fwd", "src/rkopenmdao/runge_kutta_integrator.py:RungeKuttaIntegrator._compute_jacvec_product_rev", "src/rkopenmdao/checkpoint_interface/all_checkpointer.py:AllCheckpointer.iterate_reverse"]}
{"id": "C104", "title": "File of an interrupted run", "statement": "If an exception from a stage problem, the error measure, the controller or another callback interrupts a run with the HDF5 callback, the file holds the completed steps that are due and nothing that was not computed.", "quantifier": "all runs, interrupted at any call of external code in any step and attempt, all positions of the HDF5 callback in the list, write periods, layouts over ranks, files left from earlier runs", "why_tests_cant": "the crash points are all calls of external code in runs of any length", "anchors": ["src/rkopenmdao/file_writer.py:OpenMDAOHDF5Callback.before_iteration", "src/rkopenmdao/file_writer.py:OpenMDAOHDF5Callback.after_iteration", "src/rkopenmdao/file_writer.py:read_last_local_error", "src/rkopenmdao/runge_kutta_integrator.py:RungeKuttaIntegrator._run_step"]}
{"id": "C105", "title": "Results do not depend on what the stage problem was used for before", "statement": "The stage problem keeps its vectors between calls: solvers start from the values of the last call, which can be a later time step, a rejected attempt, a repeated step, a product or something the user did. If the solution of the stage problem is determined by its parameters and by what the integrator writes, runs and derivative products have the outcome they would have if the vectors were put back to any fixed contents with the same parameters before every call.", "quantifier": "all stage problems that determine their solution, initial contents of all vectors, histories of runs and products (with failed ones, except with pyrevolve), schemes, step sizes, all three checkpointers and every pyrevolve schedule, adaptive runs with any number of rejected attempts", "why_tests_cant": "histories and vector contents are unbounded, and stale values only show for particular sequences of operations", "anchors": ["src/rkopenmdao/discretized_ode/openmdao_ode.py:OpenMDAOODE.compute_update", "src/rkopenmdao/discretized_ode/openmdao_ode.py:OpenMDAOODE.compute_update_derivative", "src/rkopenmdao/discretized_ode/openmdao_ode.py:OpenMDAOODE.compute_update_adjoint_derivative", "src/rkopenmdao/discretized_ode/openmdao_ode.py:OpenMDAOODE._set_linearization_point"]}
{"id": "C106", "title": "Parameters of the stage problem stay as the user set them", "statement": "If the user changes a parameter of the stage problem between two operations of the component, later runs and products use the new value, and the component never changes it back.", "quantifier": "all stage problems with parameters the integrator does not write, changes at any point of any history of runs and products", "why_tests_cant": "the set of histories and of points at which the user changes something is unbounded", "anchors": ["src/rkopenmdao/discretized_ode/openmdao_ode.py:OpenMDAOODE._set_linearization_point", "src/rkopenmdao/discretized_ode/openmdao_ode.py:OpenMDAOODE._get_linearization_point", "src/rkopenmdao/runge_kutta_integrator.py:RungeKuttaIntegrator.compute_jacvec_product"]}
{"id": "C107", "title": "A derivative product that is not a number does not spoil later products", "statement": "After a derivative product of the OpenMDAO backend with arguments or results that are not finite (a seed with NaN, a diverged solve), products with finite arguments are those of a new stage problem.", "quantifier": "all stage problems, contents of the linear vectors, sequences of forward and reverse products, arguments", "why_tests_cant": "tests use finite numbers; which sequences of products carry a NaN over depends on the structure of the stage problem", "anchors": ["src/rkopenmdao/discretized_ode/openmdao_ode.py:OpenMDAOODE.compute_update_derivative", "src/rkopenmdao/discretized_ode/openmdao_ode.py:OpenMDAOODE.compute_update_adjoint_derivative"]}
{"id": "C108", "title": "Operations evaluate the stage problem no more often than needed", "statement": "A run of N steps solves the stage problem exactly once for every stage of every attempted step; a forward product needs the same solves and one linear solve for every stage of every accepted step; a reverse product after a run at the same inputs with all checkpoints needs no solve of the stage problem and exactly one linear solve for every stage of every step; with pyrevolve it needs in addition only the solves of the steps its schedule repeats, which binomial schedules keep below the known bound.", "quantifier": "all schemes, numbers of steps, stage problems with any internal state, adaptive runs with any number of rejected attempts, checkpointers, legal schedules, numbers of checkpoints, states of the component", "why_tests_cant": "the number of calls must be right for all lengths, rejections and schedules; tests look at results, which do not show superfluous solves", "anchors": ["src/rkopenmdao/runge_kutta_integrator.py:RungeKuttaIntegrator._iterate_on_step", "src/rkopenmdao/runge_kutta_integrator.py:RungeKuttaIntegrator.compute_jacvec_product", "src/rkopenmdao/time_discretization/stage_ordered_runge_kutta_discretization.py:StageOrderedRungeKuttaDiscretization.compute_step", "src/rkopenmdao/checkpoint_interface/all_checkpointer.py:AllCheckpointer.iterate_reverse", "src/rkopenmdao/checkpoint_interface/pyrevolve_checkpointer.py:PyrevolveCheckpointer.iterate_reverse"]}
{"id": "C109", "title": "Error control in double precision", "statement": "With times and controllers computed in IEEE double precision and any value (NaN, infinite, negative) for the estimate of the next step: (1) if lower bound <= upper bound and step, lower bound and time left are finite, every suggested step is a number that is at most the upper bound and at most the rounded time left, and is at least the lower bound or equals the rounded time left; (2) steps are accepted by the rule of exact arithmetic up to the rounding of its constant 1e-10 and, for steps below 2e-10, of its differences; (3) an adaptive run to a final time T, with lower bound >= 0 and initial step between 0 and the rounded T - t0, never passes T by more than 2^-52 (T - t0), and reaches T if it returns; (4) after a rejection the integral controller suggests at most the larger of the lower bound and q times the step, where q = kappa (1+2^-53)^2 (1+v) with safety factor kappa and relative error v of the power function; if q < 1, steps do not fail and errors are not NaN, its retries end after a number of attempts that is bounded by the first step, the lower bound and q. (5) For positive data the next step size estimated with any five exponents differs from the one of exact arithmetic at most by the factor w^(6+s) (1+v)^5, where w = 1/(1-2^-53), s is the sum of the magnitudes of the exponents and v the relative error of the power function.", "quantifier": "all error functions, histories, estimates and discretizations; (1)-(3) all chains of controllers in any state; (3) final times of any sign, NoCheckpointer and AllCheckpointer; (4) the stand-alone integral controller", "why_tests_cant": "all roundings and all sequences of errors and steps", "anchors": ["src/rkopenmdao/error_controller.py:ErrorController._run", "src/rkopenmdao/error_controller.py:ErrorController._estimate_next_step_function", "src/rkopenmdao/error_controller.py:ErrorControllerDecorator.__call__", "src/rkopenmdao/runge_kutta_integrator.py:RungeKuttaIntegrator._iterate_on_step"]}
{"id": "C110", "title": "Adaptive runs make progress in double precision", "statement": "An adaptive run to a final time with a positive lower bound for the step size, computed in IEEE double precision, ends after a number of steps that is bounded in terms of its length and the lower bound, with a result or an exception.", "quantifier": "all chains of controllers, error functions, discretizations and final times; NoCheckpointer and AllCheckpointer", "why_tests_cant": "termination, all roundings and sequences of steps", "anchors": ["src/rkopenmdao/error_controller.py:ErrorController._run", "src/rkopenmdao/termination_criterion.py:PredefinedFinalTime", "src/rkopenmdao/checkpoint_interface/no_checkpointer.py:NoCheckpointer.iterate_forward"]}
{"id": "C111", "title": "Norms and error measures in double precision", "statement": "Computed in IEEE double precision with sums in any order, (1) the Euclidean norm of a state with Q quantities on R ranks, at most K entries of a quantity on a rank, has a relative error of at most (K + Q + R + 4) 2^-52 + 6 w, where w is the relative error of the power function, and is zero only if all values that are not excluded are zero; norms whose order p is a power of two (1, 2, 4, ...) have one of at most (K + Q + R + 1) 2^-51 / p + 8 w (1 + 1 / p); (2) comparing it with a tolerance gives the answer of exact arithmetic unless the norm is that close to the tolerance; (3) the maximum norm is exact; (4) all ranks report the same number; (5) if norms have a relative error of at most r <= 1/32, the improved error measure has one of at most 8 r + 12 2^-53.", "quantifier": "all problems, distributions over ranks, states, excluded quantities and orders of summation; (4) all orders of the norm; (5) all positive parameters", "why_tests_cant": "all roundings and orders of summation, any number of ranks and entries", "anchors": ["src/rkopenmdao/discretized_ode/openmdao_ode.py:OpenMDAOODE.compute_state_norm", "src/rkopenmdao/error_measurer.py:ImprovedErrorMeasurer"]}
{"id": "C112", "title": "Adaptive runs computed entirely in double precision are accurate", "statement": "An adaptive run from t0 to T with times, values and error control in IEEE double precision, step sizes bounded by a lower bound lo (positive, at least 2^-49 times the size of the times, at most half of |T| or T = 0) and an upper bound H: if compute returns, (1) it has made at most N = 4 (T - t0) / lo + 1 steps of sizes from 0 to H, returns a time in [T, T + 2^-52 (T - t0)], and the sum of the step sizes is the time covered up to one rounding error per step; (2) for smooth problems, tableaux of order q and stage solvers with error eta there are constants, the same for all arithmetics with relative error u of an operation, such that n steps lead to an error of at most K (e0 + eps + eta + G u n) + C H^q as long as the bracket is at most r; (3) therefore the error at T of the run is at most K (e0 + eps + eta + G N 2^-53) + C H^q + L (2 (T - t0) + 2 max(|t0|, |T|)) N 2^-53.", "quantifier": "all chains of controllers, all computations of the estimate of the next step size, all error measures, all orders of summation in dot products, checkpointing none or all; (1) all backends; (2), (3) all smooth problems, tableaux and stage solvers", "why_tests_cant": "all problems, step sequences and roundings; tests compare single runs with loose tolerances", "anchors": ["src/rkopenmdao/runge_kutta_integrator.py:RungeKuttaIntegrator._iterate_on_step", "src/rkopenmdao/error_controller.py:ErrorController", "src/rkopenmdao/time_discretization/stage_ordered_runge_kutta_discretization.py:StageOrderedRungeKuttaDiscretization.compute_step", "src/rkopenmdao/runge_kutta_integrator.py:RungeKuttaIntegrator.compute"]}
{"id": "C113", "title": "Times and step sizes neither underflow nor overflow", "statement": "A run to a final time T with times, step sizes and controllers in IEEE double precision, gradual underflow included, where |T|, |t0| and the lower bound (or the fixed step size) are at most 2^1015, is step by step the run with the same precision and unbounded exponents, without and with checkpoints: sums and differences of doubles never lose anything to underflow, and no result reaches the overflow threshold. Therefore, with steps between a positive lower bound and an upper bound as in C110 and C112, the run ends after at most 4 (T - t0)/lower + 1 steps, and (for all lower bounds that are not negative) the time returned is in [T, T + 2^-52 (T - t0)], and equals T under the condition of C75.", "quantifier": "all doubles t0 <= T, first steps from 0 to the rounded T - t0, chains of controllers, error functions, estimates that are doubles or not finite, discretizations (whatever the values are); fixed steps: all step sizes from 0 on; NoCheckpointer and AllCheckpointer", "why_tests_cant": "subnormal and huge times and all roundings", "anchors": ["src/rkopenmdao/error_controller.py:ErrorController._run", "src/rkopenmdao/termination_criterion.py:PredefinedFinalTime", "src/rkopenmdao/time_discretization/stage_ordered_runge_kutta_discretization.py:StageOrderedRungeKuttaDiscretization.compute_step", "src/rkopenmdao/runge_kutta_integrator.py:RungeKuttaIntegrator._iterate_on_step"]}
{"id": "C114", "title": "Configurations that cannot work raise instead of returning values", "statement": "Configurations that cannot work end in an exception and never in values. (1) setup raises for an empty list of controllers and for a tableau that does not know its orders. (2) The pyrevolve checkpointer accepts exactly the documented types of revolvers with a predefined number of steps and with storages of known types, gets the class of its name and the number of steps less one, and raises otherwise. (3) Adaptive stepping with a tableau without second weights raises in the first step, in compute and in forward and reverse products; runs that need no step return their inputs. (4) Reverse products raise without checkpoints, and with pyrevolve as long as no compute has made the revolver since setup. (5) What is wrong with variables, tableau or controllers is raised before the checkpointer is made.", "quantifier": "all option dictionaries, revolver names, criteria, controllers, stage problems; all tableaux without second weights, right-hand sides, inputs, histories; all schedules of pyrevolve", "why_tests_cant": "all combinations of options, and repeated calls after an exception", "anchors": ["src/rkopenmdao/runge_kutta_integrator.py:RungeKuttaIntegrator.setup", "src/rkopenmdao/runge_kutta_integrator.py:RungeKuttaIntegrator._get_error_measure", "src/rkopenmdao/checkpoint_interface/pyrevolve_checkpointer.py:PyrevolveCheckpointer.__post_init__", "src/rkopenmdao/checkpoint_interface/pyrevolve_checkpointer.py:PyrevolveCheckpointer._setup_revolver_class_type", "src/rkopenmdao/checkpoint_interface/no_checkpointer.py:NoCheckpointer.iterate_reverse"]}
{"id": "C115", "title": "The default callbacks print three lines per step", "statement": "With the default callbacks, every step of a run prints, in this order: that the step starts, that it finishes (both with its number, counted from 1, and the name of the function), and the time that passed between the two readings of the clock around this step. Numbers ascend in compute and forward products and descend from the number of steps to 1 in reverse products. Times are not negative if the clock does not run backwards. A compute or forward product whose step number N+1 raises prints the lines of N steps and then only that step N+1 starts.", "quantifier": "all schemes, stage problems, criteria, controllers, inputs, histories of earlier calls, clocks; without checkpoints, with all checkpoints, with pyrevolve", "why_tests_cant": "the text is not captured by tests; it depends on the clock, and failing runs leave a measurement half done", "anchors": ["src/rkopenmdao/callback.py:IterationLogging", "src/rkopenmdao/callback.py:WallClockMeasurement", "src/rkopenmdao/runge_kutta_integrator.py:RungeKuttaIntegrator.setup"]}
{"id": "C116", "title": "Accuracy of values with subnormal numbers and overflow", "statement": "The accuracy of runs in floating point arithmetic (C78, C112) does not depend on unbounded exponents. For every smooth problem, every tableau with the order conditions up to eps and stage solvers with error eta there are constants and a bound Lambda such that in every arithmetic whose operations have an error of at most u (|x| + 1) for results up to Lambda, whatever happens beyond, compute with N steps of fixed size dt returns the time up to G u N and the values up to K (e0 + eps + eta + G u N) + C dt^q. Binary64 with subnormal numbers is such an arithmetic with u = 2^-53 for every Lambda below 2^1023. Adaptive runs to a final time with times, values and controllers in binary64 have the error bound of C112.", "quantifier": "all smooth problems, tableaux with order conditions, stage solvers, orders of summation, arithmetics, step sizes and numbers of steps, checkpointing none or all; adaptive runs with all controllers, error measures and estimates", "why_tests_cant": "underflow in some stage of some problem; the bound is uniform in the arithmetic", "anchors": ["src/rkopenmdao/time_discretization/stage_ordered_runge_kutta_discretization.py:StageOrderedRungeKuttaDiscretization.compute_step", "src/rkopenmdao/runge_kutta_integrator.py:RungeKuttaIntegrator.compute"]}
{"id": "C117", "title": "Names of the shipped tableaux can be imported", "statement": "Every name in __all__ of butcher_tableaux.py is bound once, and from butcher_tableaux import * binds exactly the shipped tableaux. The scripts of the convergence study import tableaux that exist, of the orders that the keys of BUTCHER_TABLEAUX say and with different names.", "quantifier": "all lists of imported names, all names in __all__, all scripts of the study whatever they do after the import", "why_tests_cant": "the scripts of the study are not part of the tests, which import the names they use directly", "anchors": ["src/rkopenmdao/butcher_tableaux.py:__all__", "examples/convergence_study/integration_scripts/constants.py", "examples/convergence_study/visualization/constants.py"]}
{"id": "C118", "title": "Messages of adaptive steps tell what is tried", "statement": "Every attempt of an adaptive step prints that it starts, with its number (from 0) and its size, and how it ends, with the size that follows. The first size is the current suggestion, every further one is the size announced by the failed attempt before. Exactly the last attempt of a successful step is reported as successful: it has the size that is recorded in the history, and announces the suggestion for the next step. A step that raises prints its failed attempts and the start of the attempt that raises. With fixed steps nothing is printed.", "quantifier": "all schemes, stage problems, measures, chains of controllers, states and recursion limits", "why_tests_cant": "the text is not captured by tests, and the numbers of attempts depend on the problem", "anchors": ["src/rkopenmdao/runge_kutta_integrator.py:RungeKuttaIntegrator._iterate_on_step"]}
{"id": "C119", "title": "Text of a tableau shows the tableau", "statement": "str(tableau) begins with the name, followed by one line per stage: the node left of the bar and the row of the matrix right of it, separated by blanks; then a ruled line and a line with the weights, and for embedded tableaux a second ruled line and the second weights. Nothing is cut off by stripping or by the width of the columns: two tableaux with the same text have the same name, matrix, weights and nodes, as long as different numbers are written differently.", "quantifier": "all plain and embedded tableaux with at least one stage and a name of one line, all ways to write numbers without blanks and bars", "why_tests_cant": "the project does not test the text at all; samples show single tables only", "anchors": ["src/rkopenmdao/butcher_tableau.py:ButcherTableau.__str__", "src/rkopenmdao/butcher_tableau.py:EmbeddedButcherTableau.__str__"]}
{"id": "C120", "title": "Text of an error controller shows its parameters and can be repeated", "statement": "str(controller) is a box with lines of equal length, if the name fits: the name in the middle, and a line for the configuration and for every exponent that is not zero. A decorated controller shows the boxes of its chain from the inside to the outside. Printing the same controller again gives the same text.", "quantifier": "all controllers and chains of decorators, all ways to write numbers", "why_tests_cant": "the project does not test the text; the second text differs from the first only when the same object is printed twice", "anchors": ["src/rkopenmdao/error_controller.py:ErrorController.__str__", "src/rkopenmdao/error_controller.py:ErrorControllerDecorator.__str__"]}
{"id": "C121", "title": "The command line of the study selects the problem", "statement": "parse_problem returns the problem whose name is given, with the last value of --stiffness, or with the default stiffness of the problem if there is none, and wherever the option stands. A different name raises ValueError. Without a name the declared default prothero_robinson is used.", "quantifier": "all command lines", "why_tests_cant": "the project does not test the command line; tests would use single ones", "anchors": ["src/rkopenmdao/utils/problems.py:parse_problem", "src/rkopenmdao/utils/problems.py:prothero_robinson_problem", "src/rkopenmdao/utils/problems.py:kaps_problem"]}
{"id": "C122", "title": "Controllers made separately have separate configurations", "statement": "All controllers of a chain use the configuration given to the innermost one, or the default of its factory; configurations given to the calls of the others have no effect. Changing an attribute of the configuration of one controller changes the decisions of exactly those controllers that were made with the same configuration; controllers made by separate calls without configuration do not affect each other. A configuration assigned to the attribute config of a controller governs its decisions from then on.", "quantifier": "all factories, chains, configurations and changes", "why_tests_cant": "tests make a few controllers with configurations that they do not change", "anchors": ["src/rkopenmdao/error_controllers.py:integral", "src/rkopenmdao/error_controller.py:ErrorController.__init__", "src/rkopenmdao/error_controller.py:ErrorControllerDecorator.__init__", "src/rkopenmdao/error_controller.py:ErrorControllerConfig", "src/rkopenmdao/error_controller.py:ErrorControllerDecorator.__call__"]}
{"id": "C123", "title": "Names of controllers show what was given and the place in the chain", "statement": "Every controller of a chain is shown with the name that was given to its factory, after a prefix for its place: the innermost controller is called innermost, the outermost one outermost.", "quantifier": "all chains of factories and all names", "why_tests_cant": "tests use a few names and chains; the prefixes are not compared with the places", "anchors": ["src/rkopenmdao/error_controller.py:ErrorController.__init__", "src/rkopenmdao/error_controller.py:ErrorControllerDecorator.__init__", "src/rkopenmdao/error_controllers.py:pseudo"]}
{"id": "C124", "title": "Comparing states and controllers", "statement": "Two discretization states compare equal with == exactly if all of their fields have equal contents; two decorators compare equal only if they have the same parameters.", "quantifier": "all sizes and contents of states, all decorators", "why_tests_cant": "the project compares the arrays one by one; a test with one size would not show what happens for others", "anchors": ["src/rkopenmdao/time_discretization/runge_kutta_discretization_state.py:RungeKuttaDiscretizationState", "src/rkopenmdao/time_discretization/runge_kutta_discretization_state.py:EmbeddedRungeKuttaDiscretizationState", "src/rkopenmdao/error_controller.py:ErrorControllerDecorator"]}
