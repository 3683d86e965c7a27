{
 "claims": [
  {
   "property": "C01",
   "status": "proved",
   "theorems": [
    "Verif.Props.C01_construct_ok_iff",
    "Verif.Props.C01_not_square",
    "Verif.Props.C01_wrong_sizes",
    "Verif.Props.C01_succeeds_iff_shapes"
   ],
   "note": ""
  },
  {
   "property": "C02",
   "status": "partial",
   "theorems": [
    "Verif.Props.C02_weight_warning_iff",
    "Verif.Props.C02_node_warning_partial",
    "Verif.Props.C02_consistent_no_warning_partial",
    "Verif.Props.C02_inconsistent_nodes_silent_violated"
   ],
   "note": "weight warning: full iff; node warning: the code warns only if every node differs from its row sum (proved exactly), so the stated property is violated, witness proved"
  },
  {
   "property": "C03",
   "status": "proved",
   "theorems": [
    "Verif.Props.C03_explicit_iff",
    "Verif.Props.C03_implicit_iff",
    "Verif.Props.C03_diagonally_implicit_iff",
    "Verif.Props.C03_trichotomy"
   ],
   "note": ""
  },
  {
   "property": "C04",
   "status": "partial",
   "theorems": [
    "Verif.Props.C04_main_method",
    "Verif.Props.C04_embedded_method",
    "Verif.Props.C04_embedded_construct_ok_iff",
    "Verif.Props.C04_round_trip",
    "Verif.Props.C04_min_order_partial",
    "Verif.Props.C04_min_order_missing_violated",
    "Verif.Props.C04_unknown_order"
   ],
   "note": "split, round trip and the two orders in full; violated for min_p_order of an embedded tableau with a missing order, which raises TypeError"
  },
  {
   "property": "C05",
   "status": "proved",
   "theorems": [
    "Verif.Props.C05_plain_tableaux",
    "Verif.Props.C05_embedded_tableaux",
    "Verif.Props.C05_closed_form_exact",
    "Verif.Props.C05_accuracies",
    "Verif.Props.C05_explicit_or_diagonally_implicit",
    "Verif.Props.C05_orders_are_sharp"
   ],
   "note": ""
  },
  {
   "property": "C06",
   "status": "proved",
   "theorems": [
    "Verif.Props.C06_step_is_rk_formula",
    "Verif.Props.C06_stage_values",
    "Verif.Props.C06_step_iff_rk_formula",
    "Verif.Props.C06_explicit_step",
    "Verif.Props.C06_stages_causal"
   ],
   "note": ""
  },
  {
   "property": "C07",
   "status": "partial",
   "theorems": [
    "Verif.Props.C07_not_implicit_full_matrix_partial",
    "Verif.Props.C07_upper_entries_ignored",
    "Verif.Props.C07_fully_implicit_silently_truncated_violated"
   ],
   "note": "holds for every tableau that is not fully implicit; violated for fully implicit ones (entries above the diagonal are never read, witness proved)"
  },
  {
   "property": "C08",
   "status": "proved",
   "theorems": [
    "Verif.Props.C08_error_estimate",
    "Verif.Props.C08_embedded_state",
    "Verif.Props.C08_estimate_is_difference",
    "Verif.Props.C08_main_unchanged"
   ],
   "note": ""
  },
  {
   "property": "C09",
   "status": "proved",
   "theorems": [
    "Verif.Props.C09_step_depends_only_on_published",
    "Verif.Props.C09_embedded_step",
    "Verif.Props.C09_step_derivative"
   ],
   "note": ""
  },
  {
   "property": "C10",
   "status": "proved",
   "theorems": [
    "Verif.Props.C10_run_time",
    "Verif.Props.C10_run_time_embedded",
    "Verif.Props.C10_fixed_run_time",
    "Verif.Props.C10_fixed_run_time_embedded",
    "Verif.Props.C10_run_time_pyrevolve",
    "Verif.Props.C10_run_time_embedded_pyrevolve",
    "Verif.Props.C10_step_times",
    "Verif.Props.C10_evaluation_times"
   ],
   "note": "one step and whole runs, fixed or adaptive, both scheme classes, all checkpointers; step sizes that are not finite numbers are excluded (the result of such a step is arbitrary in the model)"
  },
  {
   "property": "C11",
   "status": "proved",
   "theorems": [
    "Verif.Props.C11_step_derivative_is_frechet"
   ],
   "note": ""
  },
  {
   "property": "C12",
   "status": "proved",
   "theorems": [
    "Verif.Props.C12_forward_mode_linear",
    "Verif.Props.C12_step_derivative_add",
    "Verif.Props.C12_step_derivative_smul",
    "Verif.Props.C12_step_derivative_zero"
   ],
   "note": "the derivative call of the backend is assumed to be linear in the seed"
  },
  {
   "property": "C13",
   "status": "partial",
   "theorems": [
    "Verif.Props.C13_step_adjoint_is_transpose_partial",
    "Verif.Props.C13_step_adjoint_no_stage_state",
    "Verif.Props.C13_step_adjoint_pairing",
    "Verif.Props.C13_stage_states_violated",
    "Verif.Props.C13_stage_states_stay_zero"
   ],
   "note": "seeds with empty stage_states buffer (the only ones the integrator creates) or backends without stage state derivative; violated for other seeds"
  },
  {
   "property": "C14",
   "status": "partial",
   "theorems": [
    "Verif.Props.C14_reverse_is_transpose_partial",
    "Verif.Props.C14_reverse_after_compute_is_transpose_partial",
    "Verif.Props.C14_embedded_reverse_is_transpose_partial",
    "Verif.Props.C14_embedded_after_compute_is_transpose_partial",
    "Verif.Props.C14_reverse_succeeds",
    "Verif.Props.C14_histories_transpose_partial",
    "Verif.Props.C14_embedded_histories_transpose_partial",
    "Verif.Props.C14_pyrevolve_transpose_partial",
    "Verif.Props.C14_pyrevolve_chain_violated",
    "Verif.Props.C14_embedded_pyrevolve_transpose_partial"
   ],
   "note": "transpose for all histories covered by C35 and for equal controller states, both scheme classes, pyrevolve included; violated by stale caches (C35), chain state (C26), and chains with pyrevolve, witness proved"
  },
  {
   "property": "C15",
   "status": "proved",
   "theorems": [
    "Verif.Props.C15_forward_mode_is_derivative"
   ],
   "note": ""
  },
  {
   "property": "C16",
   "status": "partial",
   "theorems": [
    "Verif.Props.C16_compute_number_of_steps_partial",
    "Verif.Props.C16_fwd_number_of_steps",
    "Verif.Props.C16_compute_succeeds",
    "Verif.Props.C16_pyrevolve_number_of_steps_partial",
    "Verif.Props.C16_pyrevolve_numbering_violated"
   ],
   "note": "exact step count and numbering for no/all checkpointing; with pyrevolve exact step count, but the numbers are 0..n-1: violated, proved for every n > 0"
  },
  {
   "property": "C17",
   "status": "proved",
   "theorems": [
    "Verif.Props.C17_fixed_steps_final_time",
    "Verif.Props.C17_fixed_steps_terminate",
    "Verif.Props.C17_fixed_steps_final_time_embedded",
    "Verif.Props.C17_fixed_steps_terminate_embedded"
   ],
   "note": "exact arithmetic, rounded times are the subject of C74; both scheme classes; pyrevolve does not support a final time"
  },
  {
   "property": "C18",
   "status": "proved",
   "theorems": [
    "Verif.Props.C18_never_past_final_time"
   ],
   "note": "the lower bound of the controller is a finite number"
  },
  {
   "property": "C19",
   "status": "partial",
   "theorems": [
    "Verif.Props.C19_acceptance_partial",
    "Verif.Props.C19_acceptance_no_final_time",
    "Verif.Props.C19_half_time_accepted_violated",
    "Verif.Props.C19_user_guide_violated"
   ],
   "note": "exact acceptance rule of every controller chain; violated in the loop: the time left is taken after the step, so a step half as long as the time left is accepted whatever its error; the adaptive run of the user guide is such a case"
  },
  {
   "property": "C20",
   "status": "partial",
   "theorems": [
    "Verif.Props.C20_at_most_upper_bound_partial",
    "Verif.Props.C20_crossed_bounds_violated",
    "Verif.Props.C20_at_most_time_left",
    "Verif.Props.C20_at_least_lower_bound",
    "Verif.Props.C20_never_nan"
   ],
   "note": "violated for a lower bound above the upper bound, which the code does not refuse; step size finite, time left not NaN"
  },
  {
   "property": "C21",
   "status": "proved",
   "theorems": [
    "Verif.Props.C21_rejected_leave_no_trace",
    "Verif.Props.C21_failed_leave_no_trace",
    "Verif.Props.C21_attempts",
    "Verif.Props.C21_stand_alone"
   ],
   "note": ""
  },
  {
   "property": "C22",
   "status": "partial",
   "theorems": [
    "Verif.Props.C22_short_last_step_violated",
    "Verif.Props.C22_retries_end_partial"
   ],
   "note": "violated: a last step shorter than the lower bound is repeated until the recursion limit by every controller chain; ends when rejections shrink by a factor and the time left is at least the lower bound"
  },
  {
   "property": "C23",
   "status": "partial",
   "theorems": [
    "Verif.Props.C23_limit_never_applies_violated",
    "Verif.Props.C23_zero_retries_partial",
    "Verif.Props.C23_counter_partial"
   ],
   "note": "violated: the retry counter is reset by every call the outer controller answers; exact role of the counter proved"
  },
  {
   "property": "C24",
   "status": "partial",
   "theorems": [
    "Verif.Props.C24_adaptive_histories",
    "Verif.Props.C24_embedded_errors",
    "Verif.Props.C24_fixed_newest_partial",
    "Verif.Props.C24_fixed_histories_violated"
   ],
   "note": "adaptive mode in full; fixed mode: only the newest size is kept right, the second entry is never written (witness proved)"
  },
  {
   "property": "C25",
   "status": "proved",
   "theorems": [
    "Verif.Props.C25_standalone_raises_iff",
    "Verif.Props.C25_fallback_iff",
    "Verif.Props.C25_chain_raises_iff",
    "Verif.Props.C25_wrapped_never_raises",
    "Verif.Props.C25_first_controller_decides",
    "Verif.Props.C25_second_controller_asked"
   ],
   "note": ""
  },
  {
   "property": "C26",
   "status": "partial",
   "theorems": [
    "Verif.Props.C26_only_controller_state_matters",
    "Verif.Props.C26_reproducible_partial",
    "Verif.Props.C26_rk_reproducible_partial",
    "Verif.Props.C26_embedded_reproducible_partial",
    "Verif.Props.C26_chain_state_violated"
   ],
   "note": "full for components without adaptive stepping or with a single controller; for chains only the controller state matters, and it does: violated, witness proved"
  },
  {
   "property": "C27",
   "status": "partial",
   "theorems": [
    "Verif.Props.C27_zero_error_keeps_step",
    "Verif.Props.C27_zero_error_same_step",
    "Verif.Props.C27_progress_partial",
    "Verif.Props.C27_pc_stalls_violated"
   ],
   "note": "zero error step accepted with unchanged step size for every chain; later suggestions stay positive for beta<=0<=gamma, violated for pc / h0_220"
  },
  {
   "property": "C28",
   "status": "partial",
   "theorems": [
    "Verif.Props.C28_nan_rejected",
    "Verif.Props.C28_nan_reported_partial",
    "Verif.Props.C28_nan_at_upper_bound_violated"
   ],
   "note": "rejection proved for every chain; report proved below the upper bound, violated at the upper bound"
  },
  {
   "property": "C29",
   "status": "partial",
   "theorems": [
    "Verif.Props.C29_family_members",
    "Verif.Props.C29_h0_321_not_in_family_violated",
    "Verif.Props.C29_met_tolerance",
    "Verif.Props.C29_constant_error",
    "Verif.Props.C29_total_exponents",
    "Verif.Props.C29_good_error_does_not_shrink",
    "Verif.Props.C29_deadbeat_exponent_partial",
    "Verif.Props.C29_deadbeat_exponent_violated"
   ],
   "note": "families, met tolerance, constant error proved; h0_321 and h0_110 violate the deadbeat exponent, h0_321 is not in its family"
  },
  {
   "property": "C30",
   "status": "partial",
   "theorems": [
    "Verif.Props.C30_integral_shrinks",
    "Verif.Props.C30_integral_never_raises",
    "Verif.Props.C30_integral_retries_bounded_partial",
    "Verif.Props.C30_enough_attempts",
    "Verif.Props.C30_short_last_step_violated"
   ],
   "note": "shrinking and not raising for safety factors in (0,1] and positive tolerance; bounded retries for any lower bound that is not negative; violated if the time left is shorter than the lower bound"
  },
  {
   "property": "C31",
   "status": "proved",
   "theorems": [
    "Verif.Props.C31_no_all_forward",
    "Verif.Props.C31_pyrevolve_forward",
    "Verif.Props.C31_pyrevolve_loading_schedules"
   ],
   "note": "which schedules the package pyrevolve produces could not be checked, it is not part of the repository"
  },
  {
   "property": "C32",
   "status": "proved",
   "theorems": [
    "Verif.Props.C32_reverse_sweep",
    "Verif.Props.C32_reverse_numbers",
    "Verif.Props.C32_pyrevolve_numbers"
   ],
   "note": "reverse product directly after compute at the same inputs, which the cache recognises; other histories are the subject of C35"
  },
  {
   "property": "C33",
   "status": "partial",
   "theorems": [
    "Verif.Props.C33_pyrevolve_reverse_partial",
    "Verif.Props.C33_embedded_pyrevolve_reverse_partial",
    "Verif.Props.C33_pyrevolve_cached_partial",
    "Verif.Props.C33_embedded_pyrevolve_cached_partial",
    "Verif.Props.C33_chain_state_violated"
   ],
   "note": "every legal schedule, at least two steps, without adaptive stepping or with a single controller; violated for chains of controllers, whose counters are not part of the checkpoints, witness proved; missing: one step (depends on what the external package does for zero time steps)"
  },
  {
   "property": "C34",
   "status": "proved",
   "theorems": [
    "Verif.Props.C34_reverse_refused",
    "Verif.Props.C34_reverse_not_implemented"
   ],
   "note": ""
  },
  {
   "property": "C35",
   "status": "partial",
   "theorems": [
    "Verif.Props.C35_reverse_uses_own_trajectory_partial",
    "Verif.Props.C35_embedded_reverse_uses_own_trajectory_partial",
    "Verif.Props.C35_failed_run_violated",
    "Verif.Props.C35_cache_ignores_time_violated",
    "Verif.Props.C35_pyrevolve_live_state_violated"
   ],
   "note": "after all histories whose last compute or reverse product did not fail, with matching initial times and no chain; violated when only the initial time changes, after failed runs, and with pyrevolve after a forward product at other inputs, witnesses proved"
  },
  {
   "property": "C36",
   "status": "partial",
   "theorems": [
    "Verif.Props.C36_repetitions_agree_partial",
    "Verif.Props.C36_embedded_repetitions_agree_partial",
    "Verif.Props.C36_repetition_differs_violated",
    "Verif.Props.C36_pyrevolve_repetitions_partial"
   ],
   "note": "under the conditions of C35; violated otherwise (failed runs, changed initial time), witnesses proved"
  },
  {
   "property": "C37",
   "status": "partial",
   "theorems": [
    "Verif.Props.C37_plain_roundtrip_partial",
    "Verif.Props.C37_step_size_violated",
    "Verif.Props.C37_independent_inputs_violated",
    "Verif.Props.C37_embedded_violated",
    "Verif.Props.C37_embedded_nothing_violated",
    "Verif.Props.C37_integration_state_violated"
   ],
   "note": "violated: the step size is lost, independent inputs lead to TypeError, embedded states are never given back, integration states get a number as suggestion (all proved for every state); the rest of a plain state without inputs is given back"
  },
  {
   "property": "C38",
   "status": "partial",
   "theorems": [
    "Verif.Props.C38_set_copies",
    "Verif.Props.C38_set_self",
    "Verif.Props.C38_integration_state_set",
    "Verif.Props.C38_embedded_set_violated",
    "Verif.Props.C38_embedded_set_partial",
    "Verif.Props.C38_set_refines"
   ],
   "note": "full for plain states and integration states around them, any later modification; violated for the two arrays of embedded states, which set() leaves alone"
  },
  {
   "property": "C39",
   "status": "partial",
   "theorems": [
    "Verif.Props.C39_restore_partial",
    "Verif.Props.C39_other_checkpoints",
    "Verif.Props.C39_plain_following_steps",
    "Verif.Props.C39_embedded_following_steps",
    "Verif.Props.C39_controller_memory_violated"
   ],
   "note": "every array of the live state but step_size, which no following step reads, is restored for all interleavings of save, load and assignments; violated for chains of controllers, whose memory is not part of a checkpoint (witness proved)"
  },
  {
   "property": "C40",
   "status": "partial",
   "theorems": [
    "Verif.Props.C40_compute_callbacks",
    "Verif.Props.C40_fwd_callbacks",
    "Verif.Props.C40_rev_after_compute",
    "Verif.Props.C40_pyrevolve_compute_order_partial",
    "Verif.Props.C40_pyrevolve_zero_steps_violated",
    "Verif.Props.C40_pyrevolve_compute_callbacks",
    "Verif.Props.C40_pyrevolve_rev_callbacks",
    "Verif.Props.C40_rev_callbacks"
   ],
   "note": "in full for no and full checkpointing and for pyrevolve with at least one step (the numbers of compute start at 0 there, see C16, and reverse products call the callbacks of the forward run again for repeated steps); violated by pyrevolve with zero steps"
  },
  {
   "property": "C41",
   "status": "partial",
   "theorems": [
    "Verif.Props.C41_compute_file_partial",
    "Verif.Props.C41_compute_file_plain_partial",
    "Verif.Props.C41_fixed_step_error_violated",
    "Verif.Props.C41_file_partial",
    "Verif.Props.C41_pyrevolve_violated",
    "Verif.Props.C41_reserved_name_violated"
   ],
   "note": "whole runs of the integrator with the callback, any number of steps, period, ranks, and both scheme classes, quantities held whole or split along the first axis (the only way OpenMDAO distributes); violated with pyrevolve (numbers start at 0), for a quantity named time, and for the error measure of embedded schemes with fixed steps (always the tolerance)"
  },
  {
   "property": "C42",
   "status": "proved",
   "theorems": [
    "Verif.Props.C42_own_rows",
    "Verif.Props.C42_disjoint_cover",
    "Verif.Props.C42_placement"
   ],
   "note": "quantities split along the first axis, any shape, any number of ranks; empty parts write nothing"
  },
  {
   "property": "C43",
   "status": "partial",
   "theorems": [
    "Verif.Props.C43_single_partial",
    "Verif.Props.C43_several_partial",
    "Verif.Props.C43_last_error",
    "Verif.Props.C43_several_violated",
    "Verif.Props.C43_no_axes_violated"
   ],
   "note": "one quantity in full for files the writer produces; several quantities: what is compared is proved exactly, but the initial value of one quantity is used for all, witness proved; quantities without axes raise IndexError"
  },
  {
   "property": "C44",
   "status": "partial",
   "theorems": [
    "Verif.Props.C44_state_ranges",
    "Verif.Props.C44_independent_ranges",
    "Verif.Props.C44_global_ranges_partial",
    "Verif.Props.C44_independent_global_violated"
   ],
   "note": "local ranges of state quantities and independent inputs for all ranks, shapes and numbers of quantities; global ranges of state quantities; violated for the global ranges of independent inputs, which are read from the size table of the outputs (witness proved)"
  },
  {
   "property": "C45",
   "status": "partial",
   "theorems": [
    "Verif.Props.C45_roles_partial",
    "Verif.Props.C45_two_roles_violated",
    "Verif.Props.C45_index_error_violated"
   ],
   "note": "exact when every variable has at most one role and only outputs are tagged as stage output; violated for variables with two roles (only the first counts) and for inputs tagged as stage output (IndexError), witnesses proved"
  },
  {
   "property": "C46",
   "status": "partial",
   "theorems": [
    "Verif.Props.C46_listed_partial",
    "Verif.Props.C46_missing_violated",
    "Verif.Props.C46_twice_violated"
   ],
   "note": "exact count: a requested quantity is listed once per variable tagged with it; violated for quantities without output (missing) and with a second output (listed twice), witnesses proved"
  },
  {
   "property": "C47",
   "status": "partial",
   "theorems": [
    "Verif.Props.C47_time_variable_partial",
    "Verif.Props.C47_remote_violated"
   ],
   "note": "exact decision; violated when the only time variable is on another rank (refused as more than one), witness proved"
  },
  {
   "property": "C48",
   "status": "partial",
   "theorems": [
    "Verif.Props.C48_p_norm_partial",
    "Verif.Props.C48_max_norm_partial",
    "Verif.Props.C48_zero",
    "Verif.Props.C48_minus_inf_violated",
    "Verif.Props.C48_partly_replicated_violated",
    "Verif.Props.C48_empty_part_violated"
   ],
   "note": "p-norms for every p > 0 and the maximum, all ranks, splits and exclusions, for quantities held by all ranks or split over them; violated for -inf (always 0), for quantities held completely by some ranks only (counted several times), and for the maximum on ranks without a part (raises, depending on NumPy)"
  },
  {
   "property": "C49",
   "status": "proved",
   "theorems": [
    "Verif.Props.C49_simple",
    "Verif.Props.C49_improved_bounds",
    "Verif.Props.C49_improved_monotone",
    "Verif.Props.C49_improved_fails_iff",
    "Verif.Props.C49_zero_only_for_zero_error"
   ],
   "note": "positive parameters; for others the cases without a value are characterised as well"
  },
  {
   "property": "C50",
   "status": "proved",
   "theorems": [
    "Verif.Props.C50_roundtrip",
    "Verif.Props.C50_size",
    "Verif.Props.C50_derivatives_at_evaluation",
    "Verif.Props.C50_derivative_history_free"
   ],
   "note": ""
  },
  {
   "property": "C51",
   "status": "partial",
   "theorems": [
    "Verif.Props.C51_inputs_partial",
    "Verif.Props.C51_outputs_partial",
    "Verif.Props.C51_update_read",
    "Verif.Props.C51_shared_source_violated"
   ],
   "note": "slices, untouched variables and reading back, for all metadata the setup produces; needs different variables for different roles: violated when two roles are connected to one source, witness proved"
  },
  {
   "property": "C52",
   "status": "partial",
   "theorems": [
    "Verif.Props.C52_transpose_partial",
    "Verif.Props.C52_implicit_derivative_partial",
    "Verif.Props.C52_reverse_is_transposed_derivative_partial",
    "Verif.Props.C52_integration_derivative_partial",
    "Verif.Props.C52_shared_source_violated",
    "Verif.Props.C52_time_source_violated"
   ],
   "note": "transposes for all matrices and seeds; derivative by the implicit function theorem for all differentiable stage problems; needs a variable of its own for every role and a time source with one entry, violated otherwise, witnesses proved"
  },
  {
   "property": "C53",
   "status": "partial",
   "theorems": [
    "Verif.Props.C53_times_accumulate_partial",
    "Verif.Props.C53_values_overwritten_violated"
   ],
   "note": "times accumulate; values are overwritten (witness proved)"
  },
  {
   "property": "C54",
   "status": "partial",
   "theorems": [
    "Verif.Props.C54_kaps1_solve_nonlinear",
    "Verif.Props.C54_kaps1_derivative",
    "Verif.Props.C54_kaps1_transpose",
    "Verif.Props.C54_kaps1_solve_linear",
    "Verif.Props.C54_kaps2_solve_nonlinear",
    "Verif.Props.C54_kaps2_solve_explicit",
    "Verif.Props.C54_kaps2_branch",
    "Verif.Props.C54_kaps2_derivative",
    "Verif.Props.C54_kaps2_transpose",
    "Verif.Props.C54_kaps2_solve_linear_fwd",
    "Verif.Props.C54_kaps2_solve_linear_rev_partial",
    "Verif.Props.C54_kaps2_solve_linear_rev_violated",
    "Verif.Props.C54_kaps_slopes",
    "Verif.Props.C54_kaps_solution_partial",
    "Verif.Props.C54_kaps_initial_time_violated"
   ],
   "note": "stage equations, derivatives, transposes and forward linear solves for all inputs; violated: the reverse linear solve of the second component divides by another number than the Jacobian has, kaps_solution is a solution only for the initial values (1,1) and (0,0) (iff) and ignores the initial time; witnesses proved"
  },
  {
   "property": "C55",
   "status": "partial",
   "theorems": [
    "Verif.Props.C55_stage_equation",
    "Verif.Props.C55_solution_partial",
    "Verif.Props.C55_solution_violated"
   ],
   "note": "stage equation in full; solution is one iff lambda is 1 or the initial value lies on phi; violated otherwise, witness proved"
  },
  {
   "property": "C56",
   "status": "proved",
   "theorems": [
    "Verif.Props.C56_stage_equation",
    "Verif.Props.C56_derivative",
    "Verif.Props.C56_transpose",
    "Verif.Props.C56_solution"
   ],
   "note": "the derivative and its transpose are about 1 + h a != 0 as well, Python would divide by zero otherwise"
  },
  {
   "property": "C57",
   "status": "proved",
   "theorems": [
    "Verif.Props.C57_stage_value",
    "Verif.Props.C57_stage_update",
    "Verif.Props.C57_inverse",
    "Verif.Props.C57_stage_value_derivative",
    "Verif.Props.C57_stage_value_transpose",
    "Verif.Props.C57_stage_update_derivative",
    "Verif.Props.C57_setup",
    "Verif.Props.C57_stage_update_transpose"
   ],
   "note": "one entry of an array at a time; which names OpenMDAO allows is not modelled except that they have to be different"
  },
  {
   "property": "C58",
   "status": "proved",
   "theorems": [
    "Verif.Props.C58_start_then_finalise",
    "Verif.Props.C58_starting_transpose",
    "Verif.Props.C58_finalisation_transpose",
    "Verif.Props.C58_derivative_is_linearisation",
    "Verif.Props.C58_started",
    "Verif.Props.C58_started_derivative",
    "Verif.Props.C58_finalised_adjoint",
    "Verif.Props.C58_composition_transpose"
   ],
   "note": ""
  },
  {
   "property": "C59",
   "status": "proved",
   "theorems": [
    "Verif.Props.C59_polynomials_exact",
    "Verif.Props.C59_linear_problems",
    "Verif.Props.C59_stability_function",
    "Verif.Props.C59_shipped_integrate_polynomials",
    "Verif.Props.C59_shipped_embedded_integrate_polynomials"
   ],
   "note": "fully implicit tableaux are the subject of C07"
  },
  {
   "property": "C60",
   "status": "partial",
   "theorems": [
    "Verif.Props.C60_distinct_partial",
    "Verif.Props.C60_parameters_violated",
    "Verif.Props.C60_step_violated",
    "Verif.Props.C60_scheme_violated",
    "Verif.Props.C60_name_violated"
   ],
   "note": "different folders, kinds, names (up to case, commas, blanks) and step sizes (one digit decimals, or a factor of more than three) get different files; violated for runs that differ in stiffness, controller or measurer, for step sizes with the same leading digit, and for two shipped schemes with the same name, witnesses proved"
  },
  {
   "property": "C61",
   "status": "partial",
   "theorems": [
    "Verif.Props.C61_pyrevolve_options_violated",
    "Verif.Props.C61_storages_violated",
    "Verif.Props.C61_number_of_checkpoints_violated",
    "Verif.Props.C61_other_keys_partial",
    "Verif.Props.C61_reuse_partial"
   ],
   "note": "violated: the pyrevolve options are modified in place (proved for all options), multi-level storages can be used only once, the default number of checkpoints sticks; other keys stay, and reuse is harmless otherwise"
  },
  {
   "property": "C62",
   "status": "partial",
   "theorems": [
    "Verif.Props.C62_time_partial",
    "Verif.Props.C62_count_violated"
   ],
   "note": "covers the same time; violated: the group of the initial values is counted, so there is one step more, for every run"
  },
  {
   "property": "C63",
   "status": "partial",
   "theorems": [
    "Verif.Props.C63_directory_partial",
    "Verif.Props.C63_bare_name_violated"
   ],
   "note": "paths with a directory; violated for a file name without directory (FileNotFoundError)"
  },
  {
   "property": "C64",
   "status": "proved",
   "theorems": [
    "Verif.Props.C64_tolerance",
    "Verif.Props.C64_no_step_sizes"
   ],
   "note": "the mean of no numbers is NaN"
  },
  {
   "property": "C65",
   "status": "proved",
   "theorems": [
    "Verif.Props.C65_fixed_run",
    "Verif.Props.C65_fixed_run_embedded",
    "Verif.Props.C65_fixed_final_run",
    "Verif.Props.C65_fixed_final_run_embedded",
    "Verif.Props.C65_fixed_run_pyrevolve",
    "Verif.Props.C65_fixed_run_embedded_pyrevolve",
    "Verif.Props.C65_adaptive_run"
   ],
   "note": "both scheme classes; fixed number of steps with all checkpointers (pyrevolve: every legal schedule), fixed steps to a final time, adaptive runs to a final time"
  },
  {
   "property": "C66",
   "status": "partial",
   "theorems": [
    "Verif.Props.C66_fixed_steps",
    "Verif.Props.C66_fixed_final_time",
    "Verif.Props.C66_adaptive",
    "Verif.Props.C66_smooth",
    "Verif.Props.C66_smooth_embedded",
    "Verif.Props.C66_shipped_explicit",
    "Verif.Props.C66_fixed",
    "Verif.Props.C66_embedded",
    "Verif.Props.C66_shipped",
    "Verif.Props.C66_shipped_embedded",
    "Verif.Props.C66_rounded_violated"
   ],
   "note": "tableaux in closed form: in full, both scheme classes, fixed steps (all checkpointers, every legal pyrevolve schedule), final times, adaptive runs, and (near the solution) right-hand sides that are smooth but not Lipschitz; tableaux with rounded coefficients: violated, witness proved; proved for them with an additional term, their accuracy times a constant that is the same for all tableaux"
  },
  {
   "property": "C67",
   "status": "proved",
   "theorems": [
    "Verif.Props.C67_fixed",
    "Verif.Props.C67_embedded"
   ],
   "note": "both scheme classes, fixed steps (all checkpointers, every legal pyrevolve schedule), final times, adaptive runs; right-hand sides that are smooth, Lipschitz or not"
  },
  {
   "property": "C68",
   "status": "proved",
   "theorems": [
    "Verif.Props.C68_conserved",
    "Verif.Props.C68_conserved_embedded",
    "Verif.Props.C68_conserved_adaptive",
    "Verif.Props.C68_constant_slope",
    "Verif.Props.C68_constant_slope_embedded",
    "Verif.Props.C68_constant_slope_adaptive"
   ],
   "note": "plain and embedded schemes with fixed steps (number of steps, final time, every legal pyrevolve schedule), adaptive runs to a final time"
  },
  {
   "property": "C69",
   "status": "proved",
   "theorems": [
    "Verif.Props.C69_split",
    "Verif.Props.C69_split_embedded",
    "Verif.Props.C69_embedded_weights_unused"
   ],
   "note": "plain and embedded schemes"
  },
  {
   "property": "C70",
   "status": "proved",
   "theorems": [
    "Verif.Props.C70_change_of_variables",
    "Verif.Props.C70_change_of_variables_embedded",
    "Verif.Props.C70_change_of_variables_adaptive"
   ],
   "note": "fixed steps: plain and embedded schemes, all checkpointers; adaptive runs: no and full checkpointing"
  },
  {
   "property": "C71",
   "status": "proved",
   "theorems": [
    "Verif.Props.C71_order",
    "Verif.Props.C71_local_error",
    "Verif.Props.C71_shipped",
    "Verif.Props.C71_leading_term"
   ],
   "note": "error estimates as vectors; the norm the controller sees is the subject of C48 and C49. All shipped embedded tableaux, the rounded ones with the accuracies of their coefficients"
  },
  {
   "property": "C72",
   "status": "proved",
   "theorems": [
    "Verif.Props.C72_finishes",
    "Verif.Props.C72_smooth"
   ],
   "note": "lower bound 0 (the default) and first step within the bounds; A and N bound recursion and steps, Python must allow that depth of recursion"
  },
  {
   "property": "C73",
   "status": "proved",
   "theorems": [
    "Verif.Props.C73_steps",
    "Verif.Props.C73_final_time",
    "Verif.Props.C73_same_as_fixed",
    "Verif.Props.C73_finishes",
    "Verif.Props.C73_default"
   ],
   "note": "pseudo controller as the only one, with its default bounds and safety factor, any tolerance (by default all errors but NaN are accepted, so that runs finish); first step within the final time"
  },
  {
   "property": "C74",
   "status": "partial",
   "theorems": [
    "Verif.Props.C74_one_more_partial",
    "Verif.Props.C74_runge_kutta_partial",
    "Verif.Props.C74_exact_partial",
    "Verif.Props.C74_tenth_violated",
    "Verif.Props.C74_no_progress_violated",
    "Verif.Props.C74_ends_partial"
   ],
   "note": "violated: eleven steps of 0.1 from 0 to 1, no end for steps below the resolution of the time; proved: at most one additional step, exactness for multiples of a power of two, termination. Exponents are not bounded in the model"
  },
  {
   "property": "C75",
   "status": "partial",
   "theorems": [
    "Verif.Props.C75_bound_partial",
    "Verif.Props.C75_runge_kutta_partial",
    "Verif.Props.C75_exact_partial",
    "Verif.Props.C75_past_final_time_violated",
    "Verif.Props.C75_negative_final_time_violated"
   ],
   "note": "violated by one unit in the last place for steps longer than half of the final time, and by more for negative final times near zero; proved for all times: at most 2^-52 (T - t0) past T, exactness for steps up to half of the final time (-T for negative T) or near T. The controller itself computes with exact numbers here, see C109 for rounded ones"
  },
  {
   "property": "C76",
   "status": "partial",
   "theorems": [
    "Verif.Props.C76_declares",
    "Verif.Props.C76_accepts_partial",
    "Verif.Props.C76_controller_and_callbacks",
    "Verif.Props.C76_time_quantity_violated",
    "Verif.Props.C76_remote_independent_violated"
   ],
   "note": "what is declared, controllers and callbacks in full; exactly when setup succeeds; violated by a quantity called time and by independent inputs that live on other ranks only"
  },
  {
   "property": "C77",
   "status": "proved",
   "theorems": [
    "Verif.Props.C77_compute",
    "Verif.Props.C77_forward",
    "Verif.Props.C77_reverse",
    "Verif.Props.C77_no_steps",
    "Verif.Props.C77_transpose",
    "Verif.Props.C77_transpose_embedded",
    "Verif.Props.C77_directional"
   ],
   "note": "translation for every discretization and checkpointer; derivatives and transposes for plain and embedded schemes"
  },
  {
   "property": "C78",
   "status": "proved",
   "theorems": [
    "Verif.Props.C78_plain",
    "Verif.Props.C78_embedded",
    "Verif.Props.C78_adaptive",
    "Verif.Props.C78_without_rounding",
    "Verif.Props.C78_stagnation"
   ],
   "note": "rounding model with relative errors (no overflow, no underflow); plain and embedded schemes, fixed steps (number of steps, final time, every legal pyrevolve schedule), accepted steps of adaptive runs that are finite and below the threshold; rounding inside of the stage solver is part of its residual"
  },
  {
   "property": "C79",
   "status": "proved",
   "theorems": [
    "Verif.Props.C79_plain",
    "Verif.Props.C79_embedded",
    "Verif.Props.C79_setup",
    "Verif.Props.C79_norms",
    "Verif.Props.C79_sequence",
    "Verif.Props.C79_pyrevolve_setup",
    "Verif.Props.C79_pyrevolve",
    "Verif.Props.C79_pyrevolve_sequence"
   ],
   "note": "assumptions: a collective operation of OpenMDAO gives every rank its part of what it gives on one rank (C79_norms shows this for the norms), same options on all ranks except for callbacks (callbacks do not communicate in the model); pyrevolve: the schedule is any list of actions, the same on all ranks"
  },
  {
   "property": "C80",
   "status": "partial",
   "theorems": [
    "Verif.Props.C80_reverse_partial",
    "Verif.Props.C80_sequence_partial",
    "Verif.Props.C80_waits_violated",
    "Verif.Props.C80_inputs_violated",
    "Verif.Props.C80_pyrevolve_reverse_partial",
    "Verif.Props.C80_pyrevolve_sequence_partial",
    "Verif.Props.C80_pyrevolve_inputs_violated"
   ],
   "note": "violated: every rank compares its own part of the inputs with its own cache, so inputs that changed on some ranks only leave some ranks in the adjoint of the last step and others in the first step; proved: no deadlock and the right parts if the test has the same outcome on all ranks, in particular for all sequences in which reverse products use the inputs of the last computation"
  },
  {
   "property": "C81",
   "status": "proved",
   "theorems": [
    "Verif.Props.C81_sensitivity_is_derivative",
    "Verif.Props.C81_forward",
    "Verif.Props.C81_forward_embedded",
    "Verif.Props.C81_reverse",
    "Verif.Props.C81_reverse_embedded",
    "Verif.Props.C81_shipped_explicit"
   ],
   "note": "both scheme classes; the derivative of an adaptive run with respect to initial time is the subject of C82"
  },
  {
   "property": "C82",
   "status": "partial",
   "theorems": [
    "Verif.Props.C82_frozen_steps_partial",
    "Verif.Props.C82_adaptive_frozen_steps_partial",
    "Verif.Props.C82_adaptive_initial_time_violated"
   ],
   "note": "violated: step sizes are treated as constants, so derivatives with respect to the initial time of adaptive runs that end at a final time are wrong, witness proved; proved: products are the derivatives of the steps the run took with their sizes and number frozen"
  },
  {
   "property": "C83",
   "status": "proved",
   "theorems": [
    "Verif.Props.C83_linear",
    "Verif.Props.C83_shipped",
    "Verif.Props.C83_shipped_embedded",
    "Verif.Props.C83_shipped_adaptive",
    "Verif.Props.C83_symmetric",
    "Verif.Props.C83_shipped_symmetric",
    "Verif.Props.C83_shipped_symmetric_embedded"
   ],
   "note": "stage equations solved exactly; along left eigenvectors, which for a diagonalizable matrix determine the vector"
  },
  {
   "property": "C84",
   "status": "proved",
   "theorems": [
    "Verif.Props.C84_list_complete",
    "Verif.Props.C84_stiff"
   ],
   "note": "stage equations solved exactly; fixed steps"
  },
  {
   "property": "C85",
   "status": "proved",
   "theorems": [
    "Verif.Props.C85_contractive",
    "Verif.Props.C85_energy",
    "Verif.Props.C85_energy_embedded",
    "Verif.Props.C85_energy_adaptive",
    "Verif.Props.C85_midpoint_conserves"
   ],
   "note": "stage equations solved exactly; the other shipped tableaux are not claimed to have the property"
  },
  {
   "property": "C86",
   "status": "proved",
   "theorems": [
    "Verif.Props.C86_explicit_unstable",
    "Verif.Props.C86_shipped_unstable",
    "Verif.Props.C86_shipped_stable_real",
    "Verif.Props.C86_bound_sharp",
    "Verif.Props.C86_rk4_oscillation",
    "Verif.Props.C86_euler_oscillation"
   ],
   "note": ""
  },
  {
   "property": "C87",
   "status": "proved",
   "theorems": [
    "Verif.Props.C87_linear",
    "Verif.Props.C87_linear_embedded",
    "Verif.Props.C87_prothero_robinson",
    "Verif.Props.C87_prothero_robinson_embedded",
    "Verif.Props.C87_kaps",
    "Verif.Props.C87_kaps_embedded"
   ],
   "note": "what the Newton solver and the linear solvers of OpenMDAO do is a parameter; one rank"
  },
  {
   "property": "C88",
   "status": "proved",
   "theorems": [
    "Verif.Props.C88_list_complete",
    "Verif.Props.C88_linear",
    "Verif.Props.C88_linear_adaptive",
    "Verif.Props.C88_prothero_robinson",
    "Verif.Props.C88_prothero_robinson_embedded",
    "Verif.Props.C88_prothero_robinson_fixed",
    "Verif.Props.C88_weak_stage_order"
   ],
   "note": "stage equations solved exactly; the solution exists until two steps after the end of the run, since some nodes are larger than one"
  },
  {
   "property": "C89",
   "status": "partial",
   "theorems": [
    "Verif.Props.C89_list_complete",
    "Verif.Props.C89_follows_partial",
    "Verif.Props.C89_accepted_near_target_partial",
    "Verif.Props.C89_settles_partial",
    "Verif.Props.C89_unstable_violated",
    "Verif.Props.C89_undamped_violated"
   ],
   "note": "proved for all named controllers except pc and h0_220 for orders up to three and h0_330 for orders up to seven; violated there: steps arbitrarily close to the target lead to a rejection or oscillate for ever, witnesses proved"
  },
  {
   "property": "C90",
   "status": "partial",
   "theorems": [
    "Verif.Props.C90_deadbeat_partial",
    "Verif.Props.C90_h0_110_violated",
    "Verif.Props.C90_h0_321_violated"
   ],
   "note": "proved for h0_211, pc, h0_220, h0_312 and h0_330; violated by h0_110 (exponent 1/(p+1)) and h0_321 (not deadbeat), proved"
  },
  {
   "property": "C91",
   "status": "proved",
   "theorems": [
    "Verif.Props.C91_stage_equations",
    "Verif.Props.C91_partials",
    "Verif.Props.C91_implementations_agree",
    "Verif.Props.C91_group_products",
    "Verif.Props.C91_distributed_products",
    "Verif.Props.C91_growth",
    "Verif.Props.C91_growth_embedded",
    "Verif.Props.C91_input",
    "Verif.Props.C91_input_embedded",
    "Verif.Props.C91_distributed",
    "Verif.Props.C91_distributed_embedded",
    "Verif.Props.C91_coupled",
    "Verif.Props.C91_coupled_embedded",
    "Verif.Props.C91_group",
    "Verif.Props.C91_group_embedded"
   ],
   "note": "what the nonlinear solvers of OpenMDAO end with is a parameter; the parallel group on one rank, the messages of the distributed component as a relation between its two ranks"
  },
  {
   "property": "C92",
   "status": "proved",
   "theorems": [
    "Verif.Props.C92_input",
    "Verif.Props.C92_input_embedded",
    "Verif.Props.C92_coupled",
    "Verif.Props.C92_coupled_embedded",
    "Verif.Props.C92_objective",
    "Verif.Props.C92_exact_gradient",
    "Verif.Props.C92_optimization"
   ],
   "note": "what the nonlinear and linear solvers of OpenMDAO end with are parameters"
  },
  {
   "property": "C93",
   "status": "partial",
   "theorems": [
    "Verif.Props.C93_current_values_partial",
    "Verif.Props.C93_systems_kept",
    "Verif.Props.C93_second_instance_violated",
    "Verif.Props.C93_model_itself_violated"
   ],
   "note": "proved for the integrator set up last for a problem and all subsystems of its model; violated for earlier integrators of the same problem (their step sizes do not reach the components) and for a model that is an unsteady component itself, proved"
  },
  {
   "property": "C94",
   "status": "proved",
   "theorems": [
    "Verif.Props.C94_covers",
    "Verif.Props.C94_missing_step",
    "Verif.Props.C94_shipped",
    "Verif.Props.C94_run",
    "Verif.Props.C94_finishes",
    "Verif.Props.C94_raises"
   ],
   "note": "rounding of the division is binary64 round to nearest even; C94_missing_step shows that the bound is sharp: for 0.3 and 0.1 there are only two steps"
  },
  {
   "property": "C95",
   "status": "partial",
   "theorems": [
    "Verif.Props.C95_step_sizes",
    "Verif.Props.C95_average_partial",
    "Verif.Props.C95_average_violated"
   ],
   "note": "order, times, values, errors and step sizes proved; violated for the dashed line: the last step is counted twice, it is at the average step size only if the last step has that size"
  },
  {
   "property": "C96",
   "status": "proved",
   "theorems": [
    "Verif.Props.C96_check",
    "Verif.Props.C96_reading"
   ],
   "note": ""
  },
  {
   "property": "C97",
   "status": "proved",
   "theorems": [
    "Verif.Props.C97_same_result",
    "Verif.Props.C97_same_result_embedded",
    "Verif.Props.C97_memory",
    "Verif.Props.C97_work"
   ],
   "note": "the schedules are those of divide-and-conquer checkpointing; that the package pyrevolve produces them could not be checked, it is not part of the repository"
  },
  {
   "property": "C98",
   "status": "proved",
   "theorems": [
    "Verif.Props.C98_forward",
    "Verif.Props.C98_forward_embedded",
    "Verif.Props.C98_reverse",
    "Verif.Props.C98_reverse_embedded",
    "Verif.Props.C98_reverse_after_compute",
    "Verif.Props.C98_reverse_after_compute_embedded",
    "Verif.Props.C98_transposed",
    "Verif.Props.C98_transposed_embedded",
    "Verif.Props.C98_without_rounding"
   ],
   "note": ""
  },
  {
   "property": "C99",
   "status": "partial",
   "theorems": [
    "Verif.Props.C99_reproducible_partial",
    "Verif.Props.C99_reverse_partial",
    "Verif.Props.C99_pyrevolve_partial",
    "Verif.Props.C99_reproducible_embedded_partial",
    "Verif.Props.C99_reverse_embedded_partial",
    "Verif.Props.C99_pyrevolve_embedded_partial",
    "Verif.Props.C99_failed_run_violated"
   ],
   "note": "proved without adaptive stepping or with a single controller; for the rest violated as in exact arithmetic: chains (C26), runs at other times with the same values and failed runs (C35), pyrevolve after forward products (C35)"
  },
  {
   "property": "C100",
   "status": "partial",
   "theorems": [
    "Verif.Props.C100_number_of_steps",
    "Verif.Props.C100_final_time_partial",
    "Verif.Props.C100_half_time_violated"
   ],
   "note": "proved for runs with a number of steps, and to a final time if no step is as long (within 1e-10) as the time left after it; violated otherwise: a first step of half the interval is accepted with any estimate, so the error does not decrease with the tolerance"
  },
  {
   "property": "C101",
   "status": "partial",
   "theorems": [
    "Verif.Props.C101_kaps",
    "Verif.Props.C101_kaps_embedded",
    "Verif.Props.C101_linear",
    "Verif.Props.C101_linear_embedded",
    "Verif.Props.C101_prothero_robinson_violated",
    "Verif.Props.C101_prothero_robinson_embedded_violated"
   ],
   "note": "proved for the linear problem and for Kaps' problem (with its singular perturbation parameter positive, a Newton solver with small residuals and a linear solver that solves regular systems); violated by the component of Prothero and Robinson: it has no derivatives, so that all products with respect to the initial value are the seeds"
  },
  {
   "property": "C102",
   "status": "partial",
   "theorems": [
    "Verif.Props.C102_setup_again_values",
    "Verif.Props.C102_setup_again_values_later",
    "Verif.Props.C102_reverse_after_setup_partial",
    "Verif.Props.C102_embedded_reverse_after_setup_partial",
    "Verif.Props.C102_reverse_right_after_setup",
    "Verif.Props.C102_reverse_after_setup_violated"
   ],
   "note": "values and forward products in full, also with chains; reverse products after a compute or reverse product since the setup; violated for a reverse product right after the setup: the remembered inputs survive, the checkpoints do not, so the seed is returned"
  },
  {
   "property": "C103",
   "status": "partial",
   "theorems": [
    "Verif.Props.C103_no_faults",
    "Verif.Props.C103_faults_show",
    "Verif.Props.C103_first_exception_is_passed_on",
    "Verif.Props.C103_calls_are_recorded",
    "Verif.Props.C103_values_after_interruptions_partial",
    "Verif.Props.C103_reverse_after_interruptions_partial",
    "Verif.Props.C103_embedded_reverse_after_interruptions_partial",
    "Verif.Props.C103_compute_recovers",
    "Verif.Props.C103_pyrevolve_compute_recovers",
    "Verif.Props.C103_interrupted_reverse_drops_steps",
    "Verif.Props.C103_interrupted_reverse_violated",
    "Verif.Props.C103_interrupted_compute_violated"
   ],
   "note": "exceptions are passed on: full; for components that store all checkpoints (recovery also with pyrevolve), no chains: values and forward products after any interruptions, reverse products if the last compute or reverse product was not interrupted, recovery by compute from any leftovers; violated for reverse products after an interrupted compute or reverse product at the same inputs"
  },
  {
   "property": "C104",
   "status": "partial",
   "theorems": [
    "Verif.Props.C104_interrupted_file_partial",
    "Verif.Props.C104_interrupted_file_plain_partial",
    "Verif.Props.C104_zeros_violated"
   ],
   "note": "The exact contents of the file after an interruption at any point: completed steps are right, at most one more step has groups, and they hold zeros. The latter contradicts the claim and happens for every exception that does not come from a callback (the last local error in the file is then 0). Component with all checkpoints; the HDF5 callback itself does not raise."
  },
  {
   "property": "C105",
   "status": "proved",
   "theorems": [
    "Verif.Props.C105_fixed_steps",
    "Verif.Props.C105_reproducible",
    "Verif.Props.C105_adaptive",
    "Verif.Props.C105_pyrevolve",
    "Verif.Props.C105_pyrevolve_adaptive"
   ],
   "note": "A simulation relation between the component whose stage problem keeps its vectors and the component with a stage problem that is a function of its arguments, over all histories; the latter is what the other claims are about. One rank; the stage problem is solved exactly."
  },
  {
   "property": "C106",
   "status": "partial",
   "theorems": [
    "Verif.Props.C106_parameters_partial",
    "Verif.Props.C106_adaptive_partial",
    "Verif.Props.C106_no_checkpoints",
    "Verif.Props.C106_adaptive_no_checkpoints",
    "Verif.Props.C106_pyrevolve_partial",
    "Verif.Props.C106_pyrevolve_adaptive_partial",
    "Verif.Props.C106_reverse_resets_violated",
    "Verif.Props.C106_pyrevolve_resets_violated"
   ],
   "note": "In full without checkpoints (where reverse products are not possible). With all checkpoints or pyrevolve: proved for changes that no reverse product with a stored run follows. Such a product sets all vectors of the stage problem to the stored linearization points, with the old parameters, and all later runs silently use these: the claim is violated for every stage problem and every change, with all checkpoints and with pyrevolve (every schedule)."
  },
  {
   "property": "C107",
   "status": "partial",
   "theorems": [
    "Verif.Props.C107_finite_partial",
    "Verif.Props.C107_nan_violated"
   ],
   "note": "Proved if the linear vectors hold finite numbers. They are cleared by a multiplication with zero, which keeps NaN and turns infinities into NaN: for stage problems with a variable between inputs and outputs and linear solvers that keep the right-hand side, one reverse product with NaN and one forward product make all later products NaN."
  },
  {
   "property": "C108",
   "status": "proved",
   "theorems": [
    "Verif.Props.C108_run",
    "Verif.Props.C108_forward",
    "Verif.Props.C108_reverse_stored",
    "Verif.Props.C108_reverse_new",
    "Verif.Props.C108_pyrevolve",
    "Verif.Props.C108_binomial"
   ],
   "note": "For operations that return, with a criterion on the number of steps. The schedules of pyrevolve itself are external; the bound is for binomial schedules."
  },
  {
   "property": "C109",
   "status": "proved",
   "theorems": [
    "Verif.Props.C109_acceptance",
    "Verif.Props.C109_acceptance_exact",
    "Verif.Props.C109_bounds",
    "Verif.Props.C109_final_time",
    "Verif.Props.C109_final_time_exact",
    "Verif.Props.C109_integral_shrinks",
    "Verif.Props.C109_integral_retries",
    "Verif.Props.C109_estimate_exact",
    "Verif.Props.C109_estimate_accurate"
   ],
   "note": "exponents of the floating point numbers are unbounded, which makes no difference to runs (C113); the hypotheses are in the statement. The bound for the retries is in C109_integral_retries: any N with q^N h0 < lower + 99/10^12, if the recursion limit exceeds N; for q = 1 there need not be such an N. Chains headed by other controllers have no proved bound for retries"
  },
  {
   "property": "C110",
   "status": "partial",
   "theorems": [
    "Verif.Props.C110_progress_partial",
    "Verif.Props.C110_no_progress_violated"
   ],
   "note": "violated: with a lower bound below the resolution of the times (time 2^21, lower bound 2^-34, error above the tolerance in every step, first step at the lower bound) every step is accepted at the lower bound and the time does not change, so that the run never ends. Proved (at most 4 (T - t0)/lower + 1 iterations of the loop; retries within one are limited by the recursion limit) for lower bounds of at least 2^-49 times the size of the times and at most |T|/2 (or T = 0), and a first step of at least the lower bound or leading to T"
  },
  {
   "property": "C111",
   "status": "partial",
   "theorems": [
    "Verif.Props.C111_euclidean",
    "Verif.Props.C111_orders",
    "Verif.Props.C111_decision",
    "Verif.Props.C111_maximum",
    "Verif.Props.C111_ranks_agree",
    "Verif.Props.C111_improved"
   ],
   "note": "(1) for orders that are powers of two, (2) for 2, (3) for inf: for other orders 1/order is rounded, and the effect on a power depends on its base; exponents of floating point numbers are unbounded, so overflow and underflow of squares are excluded; NumPy's norm is taken as the square root of a rounded scalar product, the sum over ranks as a rounded sum in any order, whose result is the same on all ranks, and the power function as having a relative error w; (3) if x ** 1.0 is x"
  },
  {
   "property": "C112",
   "status": "partial",
   "theorems": [
    "Verif.Props.C112_steps",
    "Verif.Props.C112_bound",
    "Verif.Props.C112_values"
   ],
   "note": "(1) also with the exponents of doubles (C113_steps); in (2) and (3) the values have unbounded exponents (see C116 for underflow and overflow of values); checkpointing none or all; lower bounds below 2^-49 of the times are excluded (C110: such runs need not end); the constants of (2) exist but are not computed, a case with explicit constants is beside the theorem"
  },
  {
   "property": "C113",
   "status": "proved",
   "theorems": [
    "Verif.Props.C113_same",
    "Verif.Props.C113_same_fixed",
    "Verif.Props.C113_final_time",
    "Verif.Props.C113_progress",
    "Verif.Props.C113_steps"
   ],
   "note": "rounding of the values is not restricted; the second run has the same backend except that steps fail where sizes are not doubles or the sum of time and step size reaches 2^1023, which does not occur in these runs"
  },
  {
   "property": "C114",
   "status": "partial",
   "theorems": [
    "Verif.Props.C114_pyrevolve_accepts",
    "Verif.Props.C114_pyrevolve_class",
    "Verif.Props.C114_documented_type_violated",
    "Verif.Props.C114_unknown_storage_violated",
    "Verif.Props.C114_setup_refuses",
    "Verif.Props.C114_not_embedded",
    "Verif.Props.C114_not_embedded_forward",
    "Verif.Props.C114_second_reverse_violated",
    "Verif.Props.C114_no_checkpoints",
    "Verif.Props.C114_compute_creates",
    "Verif.Props.C114_pyrevolve_reverse_after_setup",
    "Verif.Props.C114_setup_first",
    "Verif.Props.C114_setup_choice"
   ],
   "note": "violated by the documented type 'Disc', which is refused ('Disk' is accepted), by storages of unknown type, which are left out silently, and by reverse products that are repeated after an exception: for every scheme without second weights with adaptive steps and all checkpoints the second one returns the seed. The rest is proved"
  },
  {
   "property": "C115",
   "status": "partial",
   "theorems": [
    "Verif.Props.C115_compute",
    "Verif.Props.C115_forward",
    "Verif.Props.C115_reverse",
    "Verif.Props.C115_elapsed",
    "Verif.Props.C115_exception",
    "Verif.Props.C115_pyrevolve_violated",
    "Verif.Props.C115_exception_forward",
    "Verif.Props.C115_exception_reverse",
    "Verif.Props.C115_pyrevolve_reverse"
   ],
   "note": "proved for runs without checkpoints and with all checkpoints, also if a step raises, and for reverse products with pyrevolve. Violated with pyrevolve, where compute numbers its steps from 0. Not treated: exceptions with pyrevolve and in callbacks"
  },
  {
   "property": "C116",
   "status": "proved",
   "theorems": [
    "Verif.Props.C116_bound",
    "Verif.Props.C116_binary64",
    "Verif.Props.C116_values"
   ],
   "note": "Lambda and the constants exist, they are not computed; for binary64 without overflow (rnd64) no condition on Lambda is needed. Further hypotheses of the adaptive runs as in C112 and C113"
  },
  {
   "property": "C117",
   "status": "partial",
   "theorems": [
    "Verif.Props.C117_import_ok",
    "Verif.Props.C117_import_error",
    "Verif.Props.C117_all",
    "Verif.Props.C117_study_violated",
    "Verif.Props.C117_study",
    "Verif.Props.C117_study_repaired"
   ],
   "note": "violated by the scripts of the study: constants.py imports embedded_third_order_three_stage_sdirk, which does not exist, so that all scripts end in ImportError before they do anything. With either of the two schemes that exist the statement holds (C117_study_repaired). The part about __all__ is proved"
  },
  {
   "property": "C118",
   "status": "proved",
   "theorems": [
    "Verif.Props.C118_messages",
    "Verif.Props.C118_fixed",
    "Verif.Props.C118_exception"
   ],
   "note": "messages of single steps on rank 0 (the other ranks print nothing); numbers are printed exactly"
  },
  {
   "property": "C119",
   "status": "proved",
   "theorems": [
    "Verif.Props.C119_plain",
    "Verif.Props.C119_embedded",
    "Verif.Props.C119_injective",
    "Verif.Props.C119_injective_embedded"
   ],
   "note": "the text of a number is a parameter, without blanks and bars; the declared order is not part of the text"
  },
  {
   "property": "C120",
   "status": "partial",
   "theorems": [
    "Verif.Props.C120_box",
    "Verif.Props.C120_entries",
    "Verif.Props.C120_twice_violated",
    "Verif.Props.C120_stable",
    "Verif.Props.C120_chain"
   ],
   "note": "box, entries and chain proved; repetition violated: __str__ stores the width in the object and prints every attribute that is not zero, so that the second text of every controller has one line more (_width); from the second on the texts are equal. The texts of numbers and of the configuration are parameters without line breaks"
  },
  {
   "property": "C121",
   "status": "partial",
   "theorems": [
    "Verif.Props.C121_problem",
    "Verif.Props.C121_value_error",
    "Verif.Props.C121_default_violated"
   ],
   "note": "names and stiffness proved; default violated: the positional argument has no nargs, so that argparse requires it and ends the program. The command line is already split into words and options; abbreviated options and -- are not treated"
  },
  {
   "property": "C122",
   "status": "partial",
   "theorems": [
    "Verif.Props.C122_chain",
    "Verif.Props.C122_write",
    "Verif.Props.C122_independent",
    "Verif.Props.C122_default_violated",
    "Verif.Props.C122_call",
    "Verif.Props.C122_assign",
    "Verif.Props.C122_assign_violated"
   ],
   "note": "chains, changes and controllers with configurations of their own or of different factories proved; violated without configuration: the default is one object for all calls of a factory, so that a change of the tolerance of one controller changes what the other one accepts; also violated by an assignment of another configuration to a chain: it reaches the outermost controller only, and the others still decide with the old one"
  },
  {
   "property": "C123",
   "status": "partial",
   "theorems": [
    "Verif.Props.C123_names",
    "Verif.Props.C123_given",
    "Verif.Props.C123_place_violated",
    "Verif.Props.C123_pseudo_violated",
    "Verif.Props.C123_inner_violated"
   ],
   "note": "given names are shown if they do not contain 'Inner ' and pseudo is not the first; violated for the places: the innermost controller is called 'Outermost', all others 'Innermost'; violated by pseudo without base, which does not hand its name on; violated by names with 'Inner ', which is cut out of them when the controller is wrapped"
  },
  {
   "property": "C124",
   "status": "partial",
   "theorems": [
    "Verif.Props.C124_equal_iff",
    "Verif.Props.C124_self",
    "Verif.Props.C124_single_entries_partial",
    "Verif.Props.C124_copy_violated",
    "Verif.Props.C124_stages_violated",
    "Verif.Props.C124_decorators_violated"
   ],
   "note": "proved for fields with a single entry and for a state compared with itself; violated otherwise: with more than one variable the comparison of a state with a copy raises ValueError, as NumPy has no truth value for arrays of several entries; violated by decorators, which are a data class without fields, so that any two of them are equal. NaN is left out; the generated __eq__ is the one before Python 3.13"
  }
 ]
}
