import Verif.Props.C01_C04_Iteration
import Verif.Props.C05_Statistics
import Verif.Props.C06_C07_Saving
import Verif.Props.C08_Alignment
import Verif.Props.C09_Balance
import Verif.Props.C09_OneParameter
import Verif.Props.C10_C17_Conformance
import Verif.Props.C14_C65_Rows
import Verif.Props.C16_C33_Noise
import Verif.Props.C18_C19_ValuePerturbation
import Verif.Props.C20_Values
import Verif.Props.C21_C22_BirthDeath
import Verif.Props.C23_BirthDeathBalance
import Verif.Props.C24_Plane
import Verif.Props.C24_Redrawn
import Verif.Props.C25_OneInstance
import Verif.Props.C26_Weights
import Verif.Props.C27_C31_Likelihood
import Verif.Props.C32_Cache
import Verif.Props.C34_C35_LikelihoodSetup
import Verif.Props.C36_Vanilla
import Verif.Props.C37_C38_Tempering
import Verif.Props.C39_Temperatures
import Verif.Props.C40_Ladder
import Verif.Props.C41_Swap
import Verif.Props.C42_Annealing
import Verif.Props.C43_Continue
import Verif.Props.C44_Callbacks
import Verif.Props.C45_InsertDelete
import Verif.Props.C46_C48_Interpolation
import Verif.Props.C49_C51_Extents
import Verif.Props.C52_C53_Setup
import Verif.Props.C54_Results
import Verif.Props.C55_C57_C61_Construct
import Verif.Props.C56_Groups
import Verif.Props.C58_Copy
import Verif.Props.C59_Proposals
import Verif.Props.C60_Attributes
import Verif.Props.C63_C66_Progress
import Verif.Props.C64_Visited
import Verif.Props.C67_Hyper
import Verif.Props.C68_Refinement
import Verif.Props.C69_PosteriorInvariance
import Verif.Props.C70_C71_Ensemble
import Verif.Props.C72_Convergence
import Verif.Props.C73_Averages
import Verif.Props.C74_WholeRun
import Verif.Props.C75_NeighbourBalance
import Verif.Props.C76_Hierarchical
import Verif.Props.C77_OwnPerturbations
import Verif.Props.C78_WholeInversion
import Verif.Props.C79_Iterations
import Verif.Props.C80_WholeNotPosterior
import Verif.Props.C81_Completed
import Verif.Props.C82_WholeConvergence
import Verif.Props.C83_WholeAverages
import Verif.Props.C84_WholeStart
import Verif.Props.C85_Annealed
import Verif.Props.C86_WholeResults
import Verif.Props.C87_TemperingSwaps
import Verif.Props.C88_WholeTempering
import Verif.Props.C89_Failing
import Verif.Props.C90_Names
import Verif.Props.C91_Report
import Verif.Props.C92_AddTargets
import Verif.Props.C93_Exceptions
import Verif.Props.C94_Select
import Verif.Props.C95_StateObject

/-!
# Axioms used by the property theorems (generated by `tools/manifest.py`)
-/

#print axioms BB.Props.C01_acceptance_probability
#print axioms BB.Props.C02_minus_infinity
#print axioms BB.Props.C02_log_of_zero
#print axioms BB.Props.C03_exactly_n
#print axioms BB.Props.C04_failure_iff
#print axioms BB.Props.C04_normal_end
#print axioms BB.Props.C04_runtime_error
#print axioms BB.Props.C04_other_exceptions
#print axioms BB.Props.C04_exhaustive
#print axioms BB.Props.C04_no_trace
#print axioms BB.Props.C04_counted
#print axioms BB.Props.C05_consistent
#print axioms BB.Props.C05_counts
#print axioms BB.Props.C06_C07_saved
#print axioms BB.Props.C06_other_temperature
#print axioms BB.Props.C06_count
#print axioms BB.Props.C06_C07_saved
#print axioms BB.Props.C07_permanent
#print axioms BB.Props.C07_saved_values
#print axioms BB.Props.C07_values_permanent
#print axioms BB.Props.C07_contribution
#print axioms BB.Props.C07_contribution_n_dimensions
#print axioms BB.Props.C07_unknown_n_dimensions
#print axioms BB.Props.C08_aligned_partial
#print axioms BB.Props.C08_equal_lengths_partial
#print axioms BB.Props.C08_misaligned
#print axioms BB.Props.C09_up_to
#print axioms BB.Props.C09_detailed_balance
#print axioms BB.Props.C09_values
#print axioms BB.Props.C10_dimensions
#print axioms BB.Props.C11_arrays
#print axioms BB.Props.C12_sorted_in_domain
#print axioms BB.Props.C13_in_domain
#print axioms BB.Props.C14_birth
#print axioms BB.Props.C14_death
#print axioms BB.Props.C14_move
#print axioms BB.Props.C15_within_bounds
#print axioms BB.Props.C16_perturbation
#print axioms BB.Props.C16_start
#print axioms BB.Props.C16_visited
#print axioms BB.Props.C17_start
#print axioms BB.Props.C18_log_prior_uniform
#print axioms BB.Props.C18_log_prior_gaussian
#print axioms BB.Props.C18_log_prior_laplace
#print axioms BB.Props.C18_ratio_uniform
#print axioms BB.Props.C18_ratio_gaussian
#print axioms BB.Props.C18_ratio_laplace
#print axioms BB.Props.C18_symmetric
#print axioms BB.Props.C19_always_raises
#print axioms BB.Props.C19_birth_partial
#print axioms BB.Props.C20_one_entry
#print axioms BB.Props.C20_total_ratio
#print axioms BB.Props.C21_undo
#print axioms BB.Props.C22_neighbour_ratio
#print axioms BB.Props.C22_draws
#print axioms BB.Props.C22_value_draw
#print axioms BB.Props.C23_plain
#print axioms BB.Props.C23_line
#print axioms BB.Props.C23_plane
#print axioms BB.Props.C24_density_plane
#print axioms BB.Props.C24_plane_iff
#print axioms BB.Props.C24_rectangle_iff
#print axioms BB.Props.C24_plane_false
#print axioms BB.Props.C24_law_noise
#print axioms BB.Props.C24_law_site
#print axioms BB.Props.C24_law_site2
#print axioms BB.Props.C24_density
#print axioms BB.Props.C24_symmetric_iff
#print axioms BB.Props.C24_noise_iff
#print axioms BB.Props.C24_noise_partial
#print axioms BB.Props.C24_site_iff
#print axioms BB.Props.C24_site_partial
#print axioms BB.Props.C24_noise_false
#print axioms BB.Props.C24_site_false
#print axioms BB.Props.C25_one_instance_replaced
#print axioms BB.Props.C25_uniform
#print axioms BB.Props.C26_probability
#print axioms BB.Props.C26_zero_weight
#print axioms BB.Props.C26_space_probability
#print axioms BB.Props.C26_space_zero_weight
#print axioms BB.Props.C27_gaussian_ratio
#print axioms BB.Props.C28_inverse_covariance_partial
#print axioms BB.Props.C28_small_n_undefined
#print axioms BB.Props.C28_degenerate
#print axioms BB.Props.C29_log_determinant
#print axioms BB.Props.C29_determinant
#print axioms BB.Props.C29_domain
#print axioms BB.Props.C30_misfit
#print axioms BB.Props.C30_wrong_size
#print axioms BB.Props.C30_missing_noise
#print axioms BB.Props.C31_antisymmetric_targets
#print axioms BB.Props.C31_additive_targets
#print axioms BB.Props.C31_antisymmetric_loglike
#print axioms BB.Props.C31_additive_loglike
#print axioms BB.Props.C31_additive_infinite_counterexample
#print axioms BB.Props.C31_temperature
#print axioms BB.Props.C32_evaluation
#print axioms BB.Props.C32_never_stale
#print axioms BB.Props.C32_copy
#print axioms BB.Props.C32_called_once
#print axioms BB.Props.C33_never_reused
#print axioms BB.Props.C33_kept_partial
#print axioms BB.Props.C34_selection
#print axioms BB.Props.C34_unique
#print axioms BB.Props.C34_success_selects
#print axioms BB.Props.C34_errors
#print axioms BB.Props.C35_duplicate_counterexample
#print axioms BB.Props.C35_bad_forward_counterexample
#print axioms BB.Props.C35_bad_target_partial
#print axioms BB.Props.C35_success_partial
#print axioms BB.Props.C35_not_wrapped_counterexample
#print axioms BB.Props.C35_outcome
#print axioms BB.Props.C36_iterations
#print axioms BB.Props.C36_independent
#print axioms BB.Props.C36_sequential
#print axioms BB.Props.C37_general
#print axioms BB.Props.C37_exact
#print axioms BB.Props.C37_terminates
#print axioms BB.Props.C37_fuel
#print axioms BB.Props.C37_swap_every_needed
#print axioms BB.Props.C38_actual
#print axioms BB.Props.C38_partial
#print axioms BB.Props.C38_false_burnin
#print axioms BB.Props.C38_false_phase
#print axioms BB.Props.C39_permutation
#print axioms BB.Props.C39_count
#print axioms BB.Props.C39_carried
#print axioms BB.Props.C39_initial
#print axioms BB.Props.C39_states
#print axioms BB.Props.C40_partial
#print axioms BB.Props.C40_last_partial
#print axioms BB.Props.C40_exact
#print axioms BB.Props.C40_false_last
#print axioms BB.Props.C40_false_single
#print axioms BB.Props.C41_actual
#print axioms BB.Props.C41_partial
#print axioms BB.Props.C41_false
#print axioms BB.Props.C41_false_order
#print axioms BB.Props.C41_not_balanced
#print axioms BB.Props.C42_temperatures
#print axioms BB.Props.C42_course
#print axioms BB.Props.C42_saved
#print axioms BB.Props.C43_vanilla_partial
#print axioms BB.Props.C43_tempering_false
#print axioms BB.Props.C43_annealing_false
#print axioms BB.Props.C44_iterations_partial
#print axioms BB.Props.C44_sequential_partial
#print axioms BB.Props.C44_parallel_lost
#print axioms BB.Props.C44_initialize
#print axioms BB.Props.C44_initialize_once
#print axioms BB.Props.C44_end_advance_false
#print axioms BB.Props.C45_insert
#print axioms BB.Props.C45_delete
#print axioms BB.Props.C45_delete_insert
#print axioms BB.Props.C45_insert_delete
#print axioms BB.Props.C46_nearest
#print axioms BB.Props.C46_nearest_tie
#print axioms BB.Props.C46_no_sites
#print axioms BB.Props.C46_unsorted_counterexample
#print axioms BB.Props.C46_is_sorted
#print axioms BB.Props.C46_is_sorted_empty
#print axioms BB.Props.C47_left
#print axioms BB.Props.C47_right
#print axioms BB.Props.C47_inside
#print axioms BB.Props.C47_piecewise_linear
#print axioms BB.Props.C47_nodes
#print axioms BB.Props.C47_range
#print axioms BB.Props.C47_monotone
#print axioms BB.Props.C48_nearest_value
#print axioms BB.Props.C48_interpolate_tessellation
#print axioms BB.Props.C49_extents
#print axioms BB.Props.C49_partition_partial
#print axioms BB.Props.C49_single_cell_undefined
#print axioms BB.Props.C49_two_cells_unbounded_undefined
#print axioms BB.Props.C50_nuclei
#print axioms BB.Props.C50_extents
#print axioms BB.Props.C50_errors
#print axioms BB.Props.C51_depth_profile
#print axioms BB.Props.C51_nuclei_eq_extents_partial
#print axioms BB.Props.C51_unsorted_queries_counterexample
#print axioms BB.Props.C51_negative_query_counterexample
#print axioms BB.Props.C52_accepts
#print axioms BB.Props.C52_in_force
#print axioms BB.Props.C52_rejects_partial
#print axioms BB.Props.C52_alias
#print axioms BB.Props.C52_none
#print axioms BB.Props.C53_rejects_chains
#print axioms BB.Props.C53_accepts_others
#print axioms BB.Props.C53_assign_partial
#print axioms BB.Props.C54_concatenated
#print axioms BB.Props.C54_separate_partial
#print axioms BB.Props.C54_argument
#print axioms BB.Props.C54_other_states
#print axioms BB.Props.C54_never_list
#print axioms BB.Props.C54_pairs
#print axioms BB.Props.C54_pairs_separate
#print axioms BB.Props.C55_spaces
#print axioms BB.Props.C55_duplicate_parameters
#print axioms BB.Props.C55_parameters_partial
#print axioms BB.Props.C56_groups_partial
#print axioms BB.Props.C56_positive
#print axioms BB.Props.C56_inversion
#print axioms BB.Props.C56_empty_group
#print axioms BB.Props.C57_called_partial
#print axioms BB.Props.C57_not_rejected
#print axioms BB.Props.C57_rejected
#print axioms BB.Props.C58_value
#print axioms BB.Props.C58_no_caches
#print axioms BB.Props.C58_independent_partial
#print axioms BB.Props.C58_space_partial
#print axioms BB.Props.C58_objs_not
#print axioms BB.Props.C59_proposal
#print axioms BB.Props.C59_proposal_same
#print axioms BB.Props.C59_noise
#print axioms BB.Props.C59_new
#print axioms BB.Props.C59_states
#print axioms BB.Props.C59_history
#print axioms BB.Props.C59_tree_not
#print axioms BB.Props.C60_history_partial
#print axioms BB.Props.C60_sites
#print axioms BB.Props.C60_set
#print axioms BB.Props.C60_set_state
#print axioms BB.Props.C60_values_stale
#print axioms BB.Props.C60_noise_stale
#print axioms BB.Props.C60_values_not
#print axioms BB.Props.C60_noise_not
#print axioms BB.Props.C61_constructed_partial
#print axioms BB.Props.C61_accepts
#print axioms BB.Props.C61_set_types
#print axioms BB.Props.C61_list_accepted
#print axioms BB.Props.C61_empty_list
#print axioms BB.Props.C62_tree_partial
#print axioms BB.Props.C62_newborn_without_tree
#print axioms BB.Props.C63_plain_never
#print axioms BB.Props.C63_births_partial
#print axioms BB.Props.C64_vanilla
#print axioms BB.Props.C64_tempering
#print axioms BB.Props.C64_annealing
#print axioms BB.Props.C65_site_ratio
#print axioms BB.Props.C67_built
#print axioms BB.Props.C67_value_error
#print axioms BB.Props.C66_start
#print axioms BB.Props.C66_perturb
#print axioms BB.Props.C66_fresh
#print axioms BB.Props.C66_hooks
#print axioms BB.Props.C66_advance
#print axioms BB.Props.C66_zero_draw
#print axioms BB.Props.C66_period_zero
#print axioms BB.Props.C68_proposal
#print axioms BB.Props.C68_same_value
#print axioms BB.Props.C68_visits
#print axioms BB.Props.C68_visited
#print axioms BB.Props.C68_conform
#print axioms BB.Props.C69_posterior_invariant
#print axioms BB.Props.C69_completes
#print axioms BB.Props.C70_statistics
#print axioms BB.Props.C70_extents_partial
#print axioms BB.Props.C70_plane
#print axioms BB.Props.C70_unique
#print axioms BB.Props.C70_percentiles_monotone
#print axioms BB.Props.C70_order
#print axioms BB.Props.C70_errors
#print axioms BB.Props.C70_missing_counterexample
#print axioms BB.Props.C71_normalised
#print axioms BB.Props.C71_columns_partial
#print axioms BB.Props.C71_columns_number_partial
#print axioms BB.Props.C71_uneven_counterexample
#print axioms BB.Props.C72_converges
#print axioms BB.Props.C73_averages
#print axioms BB.Props.C73_frequencies
#print axioms BB.Props.C74_starts
#print axioms BB.Props.C74_converges
#print axioms BB.Props.C74_results
#print axioms BB.Props.C75_line
#print axioms BB.Props.C75_plane
#print axioms BB.Props.C76_sampled
#print axioms BB.Props.C76_not_posterior
#print axioms BB.Props.C76_bias
#print axioms BB.Props.C77_plain
#print axioms BB.Props.C77_plain_fixed
#print axioms BB.Props.C77_line_fixed
#print axioms BB.Props.C77_line_fixed_not_posterior
#print axioms BB.Props.C77_line_births_not_posterior
#print axioms BB.Props.C77_line_neighbour_not_posterior
#print axioms BB.Props.C77_plane_fixed
#print axioms BB.Props.C77_plane_fixed_not_posterior
#print axioms BB.Props.C77_plane_births_not_posterior
#print axioms BB.Props.C77_plane_neighbour_not_posterior
#print axioms BB.Props.C78_sampled
#print axioms BB.Props.C78_posterior
#print axioms BB.Props.C79_sampled
#print axioms BB.Props.C79_completed
#print axioms BB.Props.C79_posterior
#print axioms BB.Props.C80_not_posterior
#print axioms BB.Props.C80_exactly
#print axioms BB.Props.C81_completed
#print axioms BB.Props.C81_impossible
#print axioms BB.Props.C82_converges
#print axioms BB.Props.C82_exactly
#print axioms BB.Props.C82_line
#print axioms BB.Props.C83_averages
#print axioms BB.Props.C83_exactly
#print axioms BB.Props.C83_posterior
#print axioms BB.Props.C84_ready
#print axioms BB.Props.C84_start
#print axioms BB.Props.C84_prior
#print axioms BB.Props.C84_completed
#print axioms BB.Props.C84_converges
#print axioms BB.Props.C84_averages
#print axioms BB.Props.C84_posterior
#print axioms BB.Props.C84_plane_raises
#print axioms BB.Props.C84_applies
#print axioms BB.Props.C85_completed
#print axioms BB.Props.C85_converges
#print axioms BB.Props.C85_averages
#print axioms BB.Props.C85_posterior
#print axioms BB.Props.C85_again
#print axioms BB.Props.C86_completed
#print axioms BB.Props.C86_averages
#print axioms BB.Props.C86_posterior
#print axioms BB.Props.C86_annealed_completed
#print axioms BB.Props.C86_annealed_averages
#print axioms BB.Props.C86_annealed_posterior
#print axioms BB.Props.C87_completed
#print axioms BB.Props.C87_lower
#print axioms BB.Props.C87_before
#print axioms BB.Props.C87_start
#print axioms BB.Props.C87_whole
#print axioms BB.Props.C87_not_kept
#print axioms BB.Props.C88_completed
#print axioms BB.Props.C88_too_few
#print axioms BB.Props.C89_sampled
#print axioms BB.Props.C89_completed
#print axioms BB.Props.C89_outside
#print axioms BB.Props.C89_constant
#print axioms BB.Props.C89_three
#print axioms BB.Props.C90_usable_iff
#print axioms BB.Props.C90_copy_iff
#print axioms BB.Props.C90_cache
#print axioms BB.Props.C90_setter
#print axioms BB.Props.C90_last
#print axioms BB.Props.C90_refines_new
#print axioms BB.Props.C90_refines
#print axioms BB.Props.C90_no_iteration
#print axioms BB.Props.C91_report
#print axioms BB.Props.C91_report_zero
#print axioms BB.Props.C91_verbose
#print axioms BB.Props.C91_print_every_zero
#print axioms BB.Props.C91_no_begin
#print axioms BB.Props.C91_no_end
#print axioms BB.Props.C92_adapted
#print axioms BB.Props.C92_raises
#print axioms BB.Props.C92_stuck
#print axioms BB.Props.C92_visits
#print axioms BB.Props.C92_in_force
#print axioms BB.Props.C92_runs
#print axioms BB.Props.C92_lived
#print axioms BB.Props.C92_progress
#print axioms BB.Props.C92_rows
#print axioms BB.Props.C92_misaligned
#print axioms BB.Props.C92_visits_lived
#print axioms BB.Props.C92_custom_lost
#print axioms BB.Props.C92_ignored
#print axioms BB.Props.C92_stale_counterexample
#print axioms BB.Props.C93_result
#print axioms BB.Props.C93_reported
#print axioms BB.Props.C93_message
#print axioms BB.Props.C93_retried
#print axioms BB.Props.C93_retried_forward
#print axioms BB.Props.C93_interrupt
#print axioms BB.Props.C93_message_counterexample
#print axioms BB.Props.C93_transport
#print axioms BB.Props.C93_args
#print axioms BB.Props.C93_name
#print axioms BB.Props.C94_select
#print axioms BB.Props.C94_unique
#print axioms BB.Props.C94_all
#print axioms BB.Props.C94_twice
#print axioms BB.Props.C94_range
#print axioms BB.Props.C94_means
#print axioms BB.Props.C94_empty_counterexample
#print axioms BB.Props.C94_mask_counterexample
#print axioms BB.Props.C94_mask_list
#print axioms BB.Props.C94_type
#print axioms BB.Props.C95_constructed
#print axioms BB.Props.C95_rejected
#print axioms BB.Props.C95_set
#print axioms BB.Props.C95_last
#print axioms BB.Props.C95_get
