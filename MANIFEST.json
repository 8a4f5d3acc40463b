{
 "claims": [
  {
   "property": "C01",
   "status": "proved",
   "theorems": [
    "BB.Props.C01_acceptance_probability"
   ],
   "note": "Exact Lebesgue measure of the accepting draws, for every number of abandoned attempts before the proposal; exact reals."
  },
  {
   "property": "C02",
   "status": "proved",
   "theorems": [
    "BB.Props.C02_minus_infinity",
    "BB.Props.C02_log_of_zero"
   ],
   "note": "Independence of the likelihood function is part of the statement; the draw 0 (math.log(0) raises) is covered separately."
  },
  {
   "property": "C03",
   "status": "proved",
   "theorems": [
    "BB.Props.C03_exactly_n"
   ],
   "note": "For hooks that leave the counters alone."
  },
  {
   "property": "C04",
   "status": "proved",
   "theorems": [
    "BB.Props.C04_failure_iff",
    "BB.Props.C04_normal_end",
    "BB.Props.C04_runtime_error",
    "BB.Props.C04_other_exceptions",
    "BB.Props.C04_exhaustive",
    "BB.Props.C04_no_trace",
    "BB.Props.C04_counted"
   ],
   "note": "Characterisation of failed attempts, retries, RuntimeError after 500, other exceptions, absence of traces."
  },
  {
   "property": "C05",
   "status": "proved",
   "theorems": [
    "BB.Props.C05_consistent",
    "BB.Props.C05_counts"
   ],
   "note": "Invariant over all histories of completed iterations."
  },
  {
   "property": "C06",
   "status": "proved",
   "theorems": [
    "BB.Props.C06_C07_saved",
    "BB.Props.C06_other_temperature",
    "BB.Props.C06_count"
   ],
   "note": "Schedule and number of samples; temperature other than 1 saves nothing."
  },
  {
   "property": "C07",
   "status": "proved",
   "theorems": [
    "BB.Props.C06_C07_saved",
    "BB.Props.C07_permanent",
    "BB.Props.C07_saved_values",
    "BB.Props.C07_values_permanent",
    "BB.Props.C07_contribution",
    "BB.Props.C07_contribution_n_dimensions",
    "BB.Props.C07_unknown_n_dimensions"
   ],
   "note": "Any store; instance for the library's states, under each key; permanence whatever the outcome."
  },
  {
   "property": "C08",
   "status": "partial",
   "theorems": [
    "BB.Props.C08_aligned_partial",
    "BB.Props.C08_equal_lengths_partial",
    "BB.Props.C08_misaligned"
   ],
   "note": "False of the code: a state whose likelihood has not been evaluated yet is saved without predicted data (counterexample run). Proved for runs in which no proposal has an infinite ratio."
  },
  {
   "property": "C09",
   "status": "proved",
   "theorems": [
    "BB.Props.C09_up_to",
    "BB.Props.C09_detailed_balance",
    "BB.Props.C09_values"
   ],
   "note": "For arbitrary state spaces, priors, likelihoods, finite families of proposals with densities, weights and temperature. The law of the state after one iteration is that of the model of the code (Chain.next) under uniform draws for the choice of the perturbation and for the acceptance test and an arbitrary law of the draws of the perturbations. A proposal and its reverse must have the same weight; perturbations and likelihood raise no exceptions (for the retries after exceptions see C89). C09_values instantiates it with the value perturbations of the built-in priors."
  },
  {
   "property": "C10",
   "status": "proved",
   "theorems": [
    "BB.Props.C10_dimensions"
   ],
   "note": "For every parameterization whose spaces have distinct names (names of nested spaces included) and ordered bounds; every history of the built-in perturbations."
  },
  {
   "property": "C11",
   "status": "proved",
   "theorems": [
    "BB.Props.C11_arrays"
   ],
   "note": "For every parameterization whose spaces have distinct names (names of nested spaces included) and ordered bounds; every history of the built-in perturbations."
  },
  {
   "property": "C12",
   "status": "proved",
   "theorems": [
    "BB.Props.C12_sorted_in_domain"
   ],
   "note": "For every parameterization whose spaces have distinct names (names of nested spaces included) and ordered bounds; every history of the built-in perturbations."
  },
  {
   "property": "C13",
   "status": "proved",
   "theorems": [
    "BB.Props.C13_in_domain"
   ],
   "note": "For every parameterization whose spaces have distinct names (names of nested spaces included) and ordered bounds; every history of the built-in perturbations. The polygon is an arbitrary predicate."
  },
  {
   "property": "C14",
   "status": "proved",
   "theorems": [
    "BB.Props.C14_birth",
    "BB.Props.C14_death",
    "BB.Props.C14_move"
   ],
   "note": "Births insert one row (site with the values of all parameters there), deaths remove one, moves change the site of one and permute; nested states included as entries."
  },
  {
   "property": "C15",
   "status": "proved",
   "theorems": [
    "BB.Props.C15_within_bounds"
   ],
   "note": "For every parameterization whose spaces have distinct names (names of nested spaces included) and ordered bounds; every history of the built-in perturbations. Bounds may be position dependent; user initialization functions are assumed to respect them."
  },
  {
   "property": "C16",
   "status": "proved",
   "theorems": [
    "BB.Props.C16_perturbation",
    "BB.Props.C16_start",
    "BB.Props.C16_visited"
   ],
   "note": "all states that a chain of an inversion can visit (set Visits; C64 relates it to the runs of the samplers); target names distinct and bounds ordered, as the constructors check"
  },
  {
   "property": "C17",
   "status": "proved",
   "theorems": [
    "BB.Props.C17_start"
   ],
   "note": "For every parameterization whose spaces have distinct names (names of nested spaces included) and ordered bounds; every history of the built-in perturbations."
  },
  {
   "property": "C18",
   "status": "proved",
   "theorems": [
    "BB.Props.C18_log_prior_uniform",
    "BB.Props.C18_log_prior_gaussian",
    "BB.Props.C18_log_prior_laplace",
    "BB.Props.C18_ratio_uniform",
    "BB.Props.C18_ratio_gaussian",
    "BB.Props.C18_ratio_laplace",
    "BB.Props.C18_symmetric"
   ],
   "note": "built-in priors; hyper-parameters that depend on the position included; log prior proved equal to the log of the density"
  },
  {
   "property": "C19",
   "status": "partial",
   "theorems": [
    "BB.Props.C19_always_raises",
    "BB.Props.C19_birth_partial"
   ],
   "note": "False of the code: outside births every perturbation of a custom prior's value raises UnboundLocalError (C19_always_raises). Proved for births."
  },
  {
   "property": "C20",
   "status": "proved",
   "theorems": [
    "BB.Props.C20_one_entry",
    "BB.Props.C20_total_ratio"
   ],
   "note": "A value perturbation changes exactly one entry of each listed prior parameter, at the chosen instance, and its reported ratio is the difference of the total log prior of the new and the old values (sums over all instances); stated for every space, state and draw tape."
  },
  {
   "property": "C21",
   "status": "proved",
   "theorems": [
    "BB.Props.C21_undo"
   ],
   "note": "For plain spaces and 1D/2D tessellations, births from the prior and from the neighbour, nested tessellations included; the state is restored with its cached tree."
  },
  {
   "property": "C22",
   "status": "proved",
   "theorems": [
    "BB.Props.C22_neighbour_ratio",
    "BB.Props.C22_draws",
    "BB.Props.C22_value_draw"
   ],
   "note": "Ratio for arbitrarily nested tessellations (C22_neighbour_ratio); draws on the tape for spaces without nested ones (C22_draws) and for each single value at any depth (C22_value_draw)."
  },
  {
   "property": "C23",
   "status": "proved",
   "theorems": [
    "BB.Props.C23_plain",
    "BB.Props.C23_line",
    "BB.Props.C23_plane"
   ],
   "note": "parameter spaces, Voronoi1D and Voronoi2D (with or without a polygon) all of whose parameters are priors, with births from the prior; models up to the order of the rows; any likelihood and temperature; a custom prior's sampler is assumed to have the density and to use one random number; spaces with nested spaces as parameters are not covered"
  },
  {
   "property": "C24",
   "status": "partial",
   "theorems": [
    "BB.Props.C24_density_plane",
    "BB.Props.C24_plane_iff",
    "BB.Props.C24_rectangle_iff",
    "BB.Props.C24_plane_false",
    "BB.Props.C24_law_noise",
    "BB.Props.C24_law_site",
    "BB.Props.C24_law_site2",
    "BB.Props.C24_density",
    "BB.Props.C24_symmetric_iff",
    "BB.Props.C24_noise_iff",
    "BB.Props.C24_noise_partial",
    "BB.Props.C24_site_iff",
    "BB.Props.C24_site_partial",
    "BB.Props.C24_noise_false",
    "BB.Props.C24_site_false"
   ],
   "note": "The law of the redrawn proposals is derived from the loops of the code on an endless tape of normal deviates (conditional Gaussian law, with density), for noise and for sites on a line and in the plane. C24 is false of the code: the ratio reported leaves the densities of the proposals out. The correct ratio vanishes only for moves that keep or mirror the value (iff, for noise and for sites on a line), in the plane exactly for moves between sites from which a step is equally likely to stay in the domain (C24_plane_iff; in a rectangle, for moves along an axis, only those that keep or mirror the site). Witness runs and the cases in which it holds are proved."
  },
  {
   "property": "C25",
   "status": "proved",
   "theorems": [
    "BB.Props.C25_one_instance_replaced",
    "BB.Props.C25_uniform"
   ],
   "note": "The enumeration of instances is complete and without repetition; exactly one is replaced. Hypothesis: dictionaries have distinct keys and no list of nested states is empty (the constructors raise otherwise). Uniformity: relative to the uniform distribution of the number drawn by randint."
  },
  {
   "property": "C26",
   "status": "proved",
   "theorems": [
    "BB.Props.C26_probability",
    "BB.Props.C26_zero_weight",
    "BB.Props.C26_space_probability",
    "BB.Props.C26_space_zero_weight"
   ],
   "note": "At the level of the chain and within a parameter space; probability over the continuum of uniform draws."
  },
  {
   "property": "C27",
   "status": "proved",
   "theorems": [
    "BB.Props.C27_gaussian_ratio"
   ],
   "note": "For every list of targets with admissible noise (correlated noise needs n >= 3, see C28); exact reals."
  },
  {
   "property": "C28",
   "status": "partial",
   "theorems": [
    "BB.Props.C28_inverse_covariance_partial",
    "BB.Props.C28_small_n_undefined",
    "BB.Props.C28_degenerate"
   ],
   "note": "Proved for n >= 3; for n <= 2 the Cython function writes out of bounds, proved as undefined behaviour."
  },
  {
   "property": "C29",
   "status": "proved",
   "theorems": [
    "BB.Props.C29_log_determinant",
    "BB.Props.C29_determinant",
    "BB.Props.C29_domain"
   ],
   "note": "For targets whose noise is inferred."
  },
  {
   "property": "C30",
   "status": "proved",
   "theorems": [
    "BB.Props.C30_misfit",
    "BB.Props.C30_wrong_size",
    "BB.Props.C30_missing_noise"
   ],
   "note": "Includes the error branch for predictions of the wrong size."
  },
  {
   "property": "C31",
   "status": "proved",
   "theorems": [
    "BB.Props.C31_antisymmetric_targets",
    "BB.Props.C31_additive_targets",
    "BB.Props.C31_antisymmetric_loglike",
    "BB.Props.C31_additive_loglike",
    "BB.Props.C31_additive_infinite_counterexample",
    "BB.Props.C31_temperature"
   ],
   "note": "Targets and user log likelihoods; additivity fails for infinite log likelihoods (inf - inf), proved as counterexample."
  },
  {
   "property": "C32",
   "status": "proved",
   "theorems": [
    "BB.Props.C32_evaluation",
    "BB.Props.C32_never_stale",
    "BB.Props.C32_copy",
    "BB.Props.C32_called_once"
   ],
   "note": "All histories; evaluation equals evaluation without cache; at most one successful forward call per state and target."
  },
  {
   "property": "C33",
   "status": "partial",
   "theorems": [
    "BB.Props.C33_never_reused",
    "BB.Props.C33_kept_partial"
   ],
   "note": "False of the code, in every case: no predicted data are carried over and all forward functions are called again (C33_never_reused)."
  },
  {
   "property": "C34",
   "status": "proved",
   "theorems": [
    "BB.Props.C34_selection",
    "BB.Props.C34_unique",
    "BB.Props.C34_success_selects",
    "BB.Props.C34_errors"
   ],
   "note": "Success iff the documented precedence selects a way; error classes covered."
  },
  {
   "property": "C35",
   "status": "partial",
   "theorems": [
    "BB.Props.C35_duplicate_counterexample",
    "BB.Props.C35_bad_forward_counterexample",
    "BB.Props.C35_bad_target_partial",
    "BB.Props.C35_success_partial",
    "BB.Props.C35_not_wrapped_counterexample",
    "BB.Props.C35_outcome"
   ],
   "note": "False of the code: duplicates and bad forward functions leave the likelihood modified (counterexamples). Proved: non-targets are rejected without effect; success adds everything."
  },
  {
   "property": "C36",
   "status": "proved",
   "theorems": [
    "BB.Props.C36_iterations",
    "BB.Props.C36_independent",
    "BB.Props.C36_sequential"
   ],
   "note": "every chain makes exactly n iterations; with worker processes each result depends on its own chain and draws only, in a single process the draws and the outside world are threaded"
  },
  {
   "property": "C37",
   "status": "proved",
   "theorems": [
    "BB.Props.C37_general",
    "BB.Props.C37_exact",
    "BB.Props.C37_terminates",
    "BB.Props.C37_fuel",
    "BB.Props.C37_swap_every_needed"
   ],
   "note": "also termination, independence of the fuel, and that swap_every >= 1 is needed"
  },
  {
   "property": "C38",
   "status": "partial",
   "theorems": [
    "BB.Props.C38_actual",
    "BB.Props.C38_partial",
    "BB.Props.C38_false_burnin",
    "BB.Props.C38_false_phase"
   ],
   "note": "false in general (C38_false_burnin, C38_false_phase); C38_actual states exactly what is saved, C38_partial when the schedule is the intended one"
  },
  {
   "property": "C39",
   "status": "proved",
   "theorems": [
    "BB.Props.C39_permutation",
    "BB.Props.C39_count",
    "BB.Props.C39_carried",
    "BB.Props.C39_initial",
    "BB.Props.C39_states"
   ],
   "note": "for the temperatures of the chains and those carried by the states, however a run ends"
  },
  {
   "property": "C40",
   "status": "partial",
   "theorems": [
    "BB.Props.C40_partial",
    "BB.Props.C40_last_partial",
    "BB.Props.C40_exact",
    "BB.Props.C40_false_last",
    "BB.Props.C40_false_single"
   ],
   "note": "C40_partial: all claims but the last temperature, for at least two chains; C40_last_partial: the last temperature when there are more chains than the documented number of ones; false otherwise (C40_false_last, C40_false_single)"
  },
  {
   "property": "C41",
   "status": "partial",
   "theorems": [
    "BB.Props.C41_actual",
    "BB.Props.C41_partial",
    "BB.Props.C41_false",
    "BB.Props.C41_false_order",
    "BB.Props.C41_not_balanced"
   ],
   "note": "false (C41_false, C41_false_order, C41_not_balanced): the exponent is divided by the temperature of the chain drawn first once too often; C41_partial: right when that temperature is 1"
  },
  {
   "property": "C42",
   "status": "proved",
   "theorems": [
    "BB.Props.C42_temperatures",
    "BB.Props.C42_course",
    "BB.Props.C42_saved"
   ],
   "note": "temperatures of all iterations of a fresh run, their course, and the temperature of the saved samples"
  },
  {
   "property": "C43",
   "status": "partial",
   "theorems": [
    "BB.Props.C43_vanilla_partial",
    "BB.Props.C43_tempering_false",
    "BB.Props.C43_annealing_false"
   ],
   "note": "holds for VanillaSampler (C43_vanilla_partial); false for ParallelTempering and SimulatedAnnealing (C43_tempering_false, C43_annealing_false)"
  },
  {
   "property": "C44",
   "status": "partial",
   "theorems": [
    "BB.Props.C44_iterations_partial",
    "BB.Props.C44_sequential_partial",
    "BB.Props.C44_parallel_lost",
    "BB.Props.C44_initialize",
    "BB.Props.C44_initialize_once",
    "BB.Props.C44_end_advance_false"
   ],
   "note": "proved for the functions called on initialization, at the beginning and at the end of iterations; false for add_on_end_advance_chain, whose functions are never called (C44_end_advance_false)"
  },
  {
   "property": "C45",
   "status": "proved",
   "theorems": [
    "BB.Props.C45_insert",
    "BB.Props.C45_delete",
    "BB.Props.C45_delete_insert",
    "BB.Props.C45_insert_delete"
   ],
   "note": "insert_1d/delete_1d refine list insertion/deletion for every index; out-of-range indices are shown to be undefined behaviour."
  },
  {
   "property": "C46",
   "status": "proved",
   "theorems": [
    "BB.Props.C46_nearest",
    "BB.Props.C46_nearest_tie",
    "BB.Props.C46_no_sites",
    "BB.Props.C46_unsorted_counterexample",
    "BB.Props.C46_is_sorted",
    "BB.Props.C46_is_sorted_empty"
   ],
   "note": "Sorted non-empty arrays; the theorem is shown to need sortedness, and no sites is undefined behaviour. is_sorted is not used elsewhere in the code; for an empty array it reads out of bounds."
  },
  {
   "property": "C47",
   "status": "proved",
   "theorems": [
    "BB.Props.C47_left",
    "BB.Props.C47_right",
    "BB.Props.C47_inside",
    "BB.Props.C47_piecewise_linear",
    "BB.Props.C47_nodes",
    "BB.Props.C47_range",
    "BB.Props.C47_monotone"
   ],
   "note": "Over an arbitrary linearly ordered field."
  },
  {
   "property": "C48",
   "status": "proved",
   "theorems": [
    "BB.Props.C48_nearest_value",
    "BB.Props.C48_interpolate_tessellation"
   ],
   "note": "Includes the list version used by interpolate_tessellation."
  },
  {
   "property": "C49",
   "status": "partial",
   "theorems": [
    "BB.Props.C49_extents",
    "BB.Props.C49_partition_partial",
    "BB.Props.C49_single_cell_undefined",
    "BB.Props.C49_two_cells_unbounded_undefined"
   ],
   "note": "Proved for n >= 2 sites; for n = 1 (and n = 2 with lb = -inf) the Cython code reads an unassigned variable, proved as undefined behaviour."
  },
  {
   "property": "C50",
   "status": "proved",
   "theorems": [
    "BB.Props.C50_nuclei",
    "BB.Props.C50_extents",
    "BB.Props.C50_errors"
   ],
   "note": "For at least two sites; the error branches are covered."
  },
  {
   "property": "C51",
   "status": "partial",
   "theorems": [
    "BB.Props.C51_depth_profile",
    "BB.Props.C51_nuclei_eq_extents_partial",
    "BB.Props.C51_unsorted_queries_counterexample",
    "BB.Props.C51_negative_query_counterexample"
   ],
   "note": "Proved for n >= 2 sites and ascending non-negative queries; counterexamples for unsorted and negative queries are proved."
  },
  {
   "property": "C52",
   "status": "partial",
   "theorems": [
    "BB.Props.C52_accepts",
    "BB.Props.C52_in_force",
    "BB.Props.C52_rejects_partial",
    "BB.Props.C52_alias",
    "BB.Props.C52_none"
   ],
   "note": "Acceptance is characterised exactly (C52_accepts) and what is in force afterwards too (C52_in_force). On rejection the previous perturbations stay in force, the exception is as stated, and only the list of weights that was given may have changed. As stated the property is false: giving the list of weights in force again leaves it modified after a ValueError (C52_alias); None among the functions raises AttributeError after the replacement (C52_none)."
  },
  {
   "property": "C53",
   "status": "partial",
   "theorems": [
    "BB.Props.C53_rejects_chains",
    "BB.Props.C53_accepts_others",
    "BB.Props.C53_assign_partial"
   ],
   "note": "False as stated: the check is inverted (C53_rejects_chains, C53_accepts_others). Proved: non-lists raise TypeError, and on acceptance n_chains is the length."
  },
  {
   "property": "C54",
   "status": "partial",
   "theorems": [
    "BB.Props.C54_concatenated",
    "BB.Props.C54_separate_partial",
    "BB.Props.C54_argument",
    "BB.Props.C54_other_states",
    "BB.Props.C54_never_list",
    "BB.Props.C54_pairs",
    "BB.Props.C54_pairs_separate"
   ],
   "note": "Proved for states of type State/dict: concatenation in chain order of each requested key; without concatenation one entry per chain that has saved something under the key. False for other states: dict() of the list of states raises or misconverts, the list is never returned (C54_other_states, C54_never_list); chains that have nothing under a key are skipped."
  },
  {
   "property": "C55",
   "status": "partial",
   "theorems": [
    "BB.Props.C55_spaces",
    "BB.Props.C55_duplicate_parameters",
    "BB.Props.C55_parameters_partial"
   ],
   "note": "Space names: proved (C55_spaces). Parameter names within a space: false, equal names silently replace each other before the check (C55_duplicate_parameters); proved what results instead."
  },
  {
   "property": "C56",
   "status": "partial",
   "theorems": [
    "BB.Props.C56_groups_partial",
    "BB.Props.C56_positive",
    "BB.Props.C56_inversion",
    "BB.Props.C56_empty_group"
   ],
   "note": "C56_groups_partial: one group per nested space (the enumeration is exactly the nested spaces), members, weights and sums as declared; C56_positive: the groups of positive weight are exactly one per space with something to perturb; C56_inversion: alignment of functions and weights incl. the noise perturbation. The literal claim is false of the code: a space with nothing to perturb still gets an empty group of weight 0 (C56_empty_group)."
  },
  {
   "property": "C57",
   "status": "partial",
   "theorems": [
    "BB.Props.C57_called_partial",
    "BB.Props.C57_not_rejected",
    "BB.Props.C57_rejected"
   ],
   "note": "Proved: supported descriptions are called as stated and every exception becomes a UserFunctionException; what is rejected at setup is characterised exactly (C57_rejected). False: most other objects are accepted at setup (C57_not_rejected)."
  },
  {
   "property": "C58",
   "status": "partial",
   "theorems": [
    "BB.Props.C58_value",
    "BB.Props.C58_no_caches",
    "BB.Props.C58_independent_partial",
    "BB.Props.C58_space_partial",
    "BB.Props.C58_objs_not"
   ],
   "note": "Model with objects and references (Model/Heap). The copy has equal parameters and temperature at any nesting depth, no cache and no extra storage (C58_value, C58_no_caches); any later modifications of one leave the other unchanged when no parameter is an array of objects (C58_independent_partial, C58_space_partial). Missing: arrays of Python objects, the members of which the copy shares with the original (C58_objs_not: the claim is false there)."
  },
  {
   "property": "C59",
   "status": "proved",
   "theorems": [
    "BB.Props.C59_proposal",
    "BB.Props.C59_proposal_same",
    "BB.Props.C59_noise",
    "BB.Props.C59_new",
    "BB.Props.C59_states",
    "BB.Props.C59_history",
    "BB.Props.C59_tree_not"
   ],
   "note": "Model with objects and references. No proposal, successful or not, changes an array, a parameter-space state or a state that existed before, up to the cached kd-tree of a parameter-space state (C59_proposal); without nested Voronoi2D discretizations not even that (C59_proposal_same). C59_tree_not: Voronoi2D births and deaths beyond the bounds do rewrite the cached tree of the current state. C59_history: over whole runs."
  },
  {
   "property": "C60",
   "status": "partial",
   "theorems": [
    "BB.Props.C60_history_partial",
    "BB.Props.C60_sites",
    "BB.Props.C60_set",
    "BB.Props.C60_set_state",
    "BB.Props.C60_values_stale",
    "BB.Props.C60_noise_stale",
    "BB.Props.C60_values_not",
    "BB.Props.C60_noise_not"
   ],
   "note": "C60_history_partial: over every history, attribute and item are the same object for all names never changed by ParamPerturbation or NoisePerturbation; C60_sites: always, without such functions. False otherwise: the attributes keep the values from before (C60_values_stale, C60_noise_stale, with witnesses C60_values_not, C60_noise_not)."
  },
  {
   "property": "C61",
   "status": "partial",
   "theorems": [
    "BB.Props.C61_constructed_partial",
    "BB.Props.C61_accepts",
    "BB.Props.C61_set_types",
    "BB.Props.C61_list_accepted",
    "BB.Props.C61_empty_list"
   ],
   "note": "Exact characterisation of what is constructed. False as stated: lists are checked up to the first element only (C61_list_accepted), empty lists raise IndexError (C61_empty_list)."
  },
  {
   "property": "C62",
   "status": "partial",
   "theorems": [
    "BB.Props.C62_tree_partial",
    "BB.Props.C62_newborn_without_tree"
   ],
   "note": "Proved: a cached tree always belongs to the current sites, and top-level states always have one. False for nested spaces: states of newborn cells have no tree (proved)."
  },
  {
   "property": "C63",
   "status": "partial",
   "theorems": [
    "BB.Props.C63_plain_never",
    "BB.Props.C63_births_partial"
   ],
   "note": "False of the code for a plain ParameterSpace nested in a discretization with birth_from=\"neighbour\" (C63_plain_never: no birth ever succeeds). Proved for all inversions meeting SpaceSafe, which excludes this nesting: no birth in any space of any visited state raises."
  },
  {
   "property": "C64",
   "status": "proved",
   "theorems": [
    "BB.Props.C64_vanilla",
    "BB.Props.C64_tempering",
    "BB.Props.C64_annealing"
   ],
   "note": "registered user functions are assumed to keep the current states in the set"
  },
  {
   "property": "C65",
   "status": "proved",
   "theorems": [
    "BB.Props.C65_site_ratio"
   ],
   "note": "For states the values of which have finite log prior at the old site; the sum over all parameters with position-dependent priors."
  },
  {
   "property": "C67",
   "status": "proved",
   "theorems": [
    "BB.Props.C67_built",
    "BB.Props.C67_value_error"
   ],
   "note": "Construction of the four prior classes. The interpolation in the plane is an arbitrary function (SciPy)."
  },
  {
   "property": "C66",
   "status": "proved",
   "theorems": [
    "BB.Props.C66_start",
    "BB.Props.C66_perturb",
    "BB.Props.C66_fresh",
    "BB.Props.C66_hooks",
    "BB.Props.C66_advance",
    "BB.Props.C66_zero_draw",
    "BB.Props.C66_period_zero"
   ],
   "note": "Conditions in Spec/Progress (RunSafe): at least one dimension, priors defined with positive widths on the domain, no custom priors (C19) and no plain space under neighbour births (C63), names without \"n_dimensions\", admissible noise bounds. C66_zero_draw and C66_period_zero show that the exceptions listed do occur."
  },
  {
   "property": "C68",
   "status": "proved",
   "theorems": [
    "BB.Props.C68_proposal",
    "BB.Props.C68_same_value",
    "BB.Props.C68_visits",
    "BB.Props.C68_visited",
    "BB.Props.C68_conform"
   ],
   "note": "Refinement between the two models of perturbations. C68_proposal: same draws, exceptions, ratio and contents for every heap representing the state (sharing allowed, k-d trees ignored). C68_same_value: two representations of one value. C68_visits and C68_visited: the contents visited by chains on the heap are exactly those visited by chains on values, with arbitrary other proposals, copies and cache changes in between. C68_conform: C10-C13 for objects. Likelihoods and saving are modelled on values only."
  },
  {
   "property": "C69",
   "status": "proved",
   "theorems": [
    "BB.Props.C69_posterior_invariant",
    "BB.Props.C69_completes"
   ],
   "note": "The law of the model after n calls of the modelled iteration (Chain.advance of the configuration that BayesianInversion builds, run on a tape of independent draws), not of an idealised kernel. Plain parameter spaces with built-in priors whose hyperparameters are constants, at least one dimension, births from the prior, fixed noise, a measurable log likelihood. Indices are drawn from numbers uniform below a common multiple of the dimensions. Voronoi spaces, nested spaces and hierarchical noise are not covered (the moves of sites and noise report wrong ratios near their bounds, C24)."
  },
  {
   "property": "C70",
   "status": "partial",
   "theorems": [
    "BB.Props.C70_statistics",
    "BB.Props.C70_extents_partial",
    "BB.Props.C70_plane",
    "BB.Props.C70_unique",
    "BB.Props.C70_percentiles_monotone",
    "BB.Props.C70_order",
    "BB.Props.C70_errors",
    "BB.Props.C70_missing_counterexample"
   ],
   "note": "Proved for tessellations given by their sites, on the line (C70_statistics) and in the plane (C70_plane, for any exact nearest-neighbour query), with uniqueness of all the numbers (C70_unique), monotone percentiles and independence of the order of the samples. For cell extents only with positions in ascending order, none negative, and two or more cells (C70_extents_partial; false otherwise, C51, C49). Numbers of samples that do not match are not noticed: missing ones count as zeros (C70_missing_counterexample). NumPy's functions are modelled by their definitions without rounding."
  },
  {
   "property": "C71",
   "status": "partial",
   "theorems": [
    "BB.Props.C71_normalised",
    "BB.Props.C71_columns_partial",
    "BB.Props.C71_columns_number_partial",
    "BB.Props.C71_uneven_counterexample"
   ],
   "note": "The total mass is 1 whenever a density is returned (C71_normalised). One column per position is proved for equally spaced positions, given or computed (C71_columns_partial, C71_columns_number_partial), and false otherwise: the bins are always equally spaced, so that positions share columns and other columns stay empty (C71_uneven_counterexample)."
  },
  {
   "property": "C72",
   "status": "proved",
   "theorems": [
    "BB.Props.C72_converges"
   ],
   "note": "Total variation, uniformly over all measurable sets, for the modelled Chain.advance on a tape of independent draws. Plain parameter spaces as in C69; the standard deviations of the perturbations are not 0 and the posterior has finite mass; the start has a density with respect to the prior. No rate of convergence is given."
  },
  {
   "property": "C73",
   "status": "proved",
   "theorems": [
    "BB.Props.C73_averages",
    "BB.Props.C73_frequencies"
   ],
   "note": "Convergence in probability for the models read back from the store of the modelled Chain.advance, jointly for all keys. Same inversions as C72, temperature 1, keys of the saved values distinct (otherwise values overwrite one another). Almost sure convergence and rates are not stated."
  },
  {
   "property": "C74",
   "status": "proved",
   "theorems": [
    "BB.Props.C74_starts",
    "BB.Props.C74_converges",
    "BB.Props.C74_results"
   ],
   "note": "From p.newChains to the dictionary of get_results, over one tape for the main process and one per job. Convergence in probability; same inversions as C69, keys of the saved values distinct, priors without user initialization. The draws of the other processes are independent of those of the main one, which is an assumption about joblib's seeding (runLaw)."
  },
  {
   "property": "C75",
   "status": "proved",
   "theorems": [
    "BB.Props.C75_line",
    "BB.Props.C75_plane"
   ],
   "note": "Voronoi1D and Voronoi2D all of whose parameters are priors (no nested spaces), births from the nearest neighbour, at least one dimension; models up to the order of the rows. Ties for the nearest site have probability 0. Over the reals; the kd-tree is assumed to give the nearest site, as elsewhere."
  },
  {
   "property": "C76",
   "status": "proved",
   "theorems": [
    "BB.Props.C76_sampled",
    "BB.Props.C76_not_posterior",
    "BB.Props.C76_bias"
   ],
   "note": "The consequence of C24 for the noise: what is sampled is determined exactly, and it is not the posterior (a disagreement with the documentation, recorded in DESIGN.md). The other perturbations and the likelihood enter through the conditions of C09 (`Beside`); the chains that the library constructs have this form (`cfg_addNoise`). One iteration; over the reals."
  },
  {
   "property": "C77",
   "status": "proved",
   "theorems": [
    "BB.Props.C77_plain",
    "BB.Props.C77_plain_fixed",
    "BB.Props.C77_line_fixed",
    "BB.Props.C77_line_fixed_not_posterior",
    "BB.Props.C77_line_births_not_posterior",
    "BB.Props.C77_line_neighbour_not_posterior",
    "BB.Props.C77_plane_fixed",
    "BB.Props.C77_plane_fixed_not_posterior",
    "BB.Props.C77_plane_births_not_posterior",
    "BB.Props.C77_plane_neighbour_not_posterior"
   ],
   "note": "Joins C23 and C75 (births and deaths), the perturbations of the values and C24 (sites redrawn without correction) into the chain with `Space.ownFuncs` and its weights.  What is sampled is determined for ParameterSpace and for tessellations with a fixed number of cells; with births only the negative statement is proved, since births and moves of sites are in balance with different distributions.  A disagreement with the documentation, recorded in DESIGN.md.  One space with priors only (no nested spaces); one iteration; over the reals; parameters are ordered as in the dictionary and models are unordered cells."
  },
  {
   "property": "C78",
   "status": "proved",
   "theorems": [
    "BB.Props.C78_sampled",
    "BB.Props.C78_posterior"
   ],
   "note": "At the level of the library: `Problem.cfg`, the chain that `BayesianInversion` sets up, on `State` with all parameter spaces and the noise.  Tessellations with a varying number of cells are left out, since no distribution that they sample is known (C77: never the posterior).  Spaces with priors only (no nested spaces); one iteration without the callbacks of the user; over the reals.  A disagreement with the documentation unless there are no sites and no unknown noise, recorded in DESIGN.md."
  },
  {
   "property": "C79",
   "status": "proved",
   "theorems": [
    "BB.Props.C79_sampled",
    "BB.Props.C79_completed",
    "BB.Props.C79_posterior"
   ],
   "note": "The random numbers of different iterations are independent; those of one iteration are as in C78.  An iteration counts only if it returns without an exception and uses exactly its draws (`IterationsLaw`).  The callbacks of the sampler do nothing (the default sampler).  `PlainNames` (no name contains 'n_dimensions') is needed for saving, since `_save_state` otherwise takes the entry for a number of dimensions.  Distribution as in C78: not the posterior as soon as there are sites or unknown noise."
  },
  {
   "property": "C80",
   "status": "proved",
   "theorems": [
    "BB.Props.C80_not_posterior",
    "BB.Props.C80_exactly"
   ],
   "note": "Models and draws as in C78, for all kinds of spaces.  For births around the nearest cell, models are in general position (no two sites coincide, none is as far from a second as from a third one), which has prior probability 1.  The posterior is required to be finite.  `C80_exactly` contains C78's positive result for inversions without sites and unknown noise."
  },
  {
   "property": "C81",
   "status": "proved",
   "theorems": [
    "BB.Props.C81_completed",
    "BB.Props.C81_impossible"
   ],
   "note": "Chains as in C79 (`Ready`: the cache belongs to the model, statistics are kept by sub-type; `PlainNames`: no name contains \"n_dimensions\"), spaces as in C80."
  },
  {
   "property": "C82",
   "status": "proved",
   "theorems": [
    "BB.Props.C82_converges",
    "BB.Props.C82_exactly",
    "BB.Props.C82_line"
   ],
   "note": "Chains as in C79 (`Ready`, `PlainNames`), spaces `Roaming`: those of C78 with standard deviations other than 0 and, for tessellations, `Overlaps` (the domain is covered by neighbourhoods, each of which meets the next, in which any two sites have possible values in common).  On a line this follows if the bounds of uniform priors are constant or given at nodes in increasing order (`C82_line`).  No rate of convergence is claimed.  Tessellations with a varying number of cells are not covered: they have no distribution that the moves preserve and that is known (C80)."
  },
  {
   "property": "C83",
   "status": "proved",
   "theorems": [
    "BB.Props.C83_averages",
    "BB.Props.C83_exactly",
    "BB.Props.C83_posterior"
   ],
   "note": "As C82 at temperature 1 (nothing is saved otherwise).  The saved lists are those of the store of the chain: what they gain is, under every key, the contribution (C07) of the saved states in order.  All possible first chains have completed the same number of iterations.  No rate of convergence is claimed."
  },
  {
   "property": "C84",
   "status": "proved",
   "theorems": [
    "BB.Props.C84_ready",
    "BB.Props.C84_start",
    "BB.Props.C84_prior",
    "BB.Props.C84_completed",
    "BB.Props.C84_converges",
    "BB.Props.C84_averages",
    "BB.Props.C84_posterior",
    "BB.Props.C84_plane_raises",
    "BB.Props.C84_applies"
   ],
   "note": "The draws of the start are given as in C74: a uniform number modulo the number of choices for the dimension, uniform numbers for sites and noise, the deviates of the priors for the values.  The numbers in the arrays that the library does not initialize are arbitrary.  In the plane, sites are drawn anew until one is in the domain.  For spaces with a user's function for initialization nothing is claimed.  C84_applies shows that all inversions of C80-C83 initialized by the library have such starts."
  },
  {
   "property": "C85",
   "status": "proved",
   "theorems": [
    "BB.Props.C85_completed",
    "BB.Props.C85_converges",
    "BB.Props.C85_averages",
    "BB.Props.C85_posterior",
    "BB.Props.C85_again"
   ],
   "note": "For samplers without functions registered by the user.  The draws of an iteration are given as in C79; they do not depend on the temperature.  C85_again is about any chain, not only those of whole inversions."
  },
  {
   "property": "C86",
   "status": "proved",
   "theorems": [
    "BB.Props.C86_completed",
    "BB.Props.C86_averages",
    "BB.Props.C86_posterior",
    "BB.Props.C86_annealed_completed",
    "BB.Props.C86_annealed_averages",
    "BB.Props.C86_annealed_posterior"
   ],
   "note": "For samplers without functions registered by the user and the default arguments of get_results.  The draws of different chains are independent, also if they are advanced by several processes, which is an assumption about joblib's seeding as in C74."
  },
  {
   "property": "C87",
   "status": "proved",
   "theorems": [
    "BB.Props.C87_completed",
    "BB.Props.C87_lower",
    "BB.Props.C87_before",
    "BB.Props.C87_start",
    "BB.Props.C87_whole",
    "BB.Props.C87_not_kept"
   ],
   "note": "The consequence of C41 for what is sampled; recorded among the disagreements.  One chain is hot; several hot chains are not covered."
  },
  {
   "property": "C88",
   "status": "proved",
   "theorems": [
    "BB.Props.C88_completed",
    "BB.Props.C88_too_few"
   ],
   "note": "For samplers without functions registered by the user and the default arguments of get_results; independent draws in several processes as in C86.  Which distribution the samples approach is not claimed (C87 shows that the swaps do not keep the posterior)."
  },
  {
   "property": "C89",
   "status": "proved",
   "theorems": [
    "BB.Props.C89_sampled",
    "BB.Props.C89_completed",
    "BB.Props.C89_outside",
    "BB.Props.C89_constant",
    "BB.Props.C89_three"
   ],
   "note": "Recorded among the disagreements.  Perturbations of the library do not fail; the failures of C89_sampled, C89_completed and C89_outside are those of the likelihood (with several targets, of the first forward function that raises).  The general refutation (failing_not_posterior) is a lemma; C89_three is its concrete case, for a BaseBayesianInversion."
  },
  {
   "property": "C90",
   "status": "proved",
   "theorems": [
    "BB.Props.C90_usable_iff",
    "BB.Props.C90_copy_iff",
    "BB.Props.C90_cache",
    "BB.Props.C90_setter",
    "BB.Props.C90_last",
    "BB.Props.C90_refines_new",
    "BB.Props.C90_refines",
    "BB.Props.C90_no_iteration"
   ],
   "note": "Recorded among the disagreements. Objects of nested states are values here, so a nested space whose state cannot be copied is not covered. Empty arrays as n_dimensions raise, as in NumPy 2.2 and later."
  },
  {
   "property": "C91",
   "status": "proved",
   "theorems": [
    "BB.Props.C91_report",
    "BB.Props.C91_report_zero",
    "BB.Props.C91_verbose",
    "BB.Props.C91_print_every_zero",
    "BB.Props.C91_no_begin",
    "BB.Props.C91_no_end"
   ],
   "note": "The texts around the rates, their rounding and the order of the lines are not part of the claim. The default arguments of advance_chain with which it raises are recorded among the disagreements."
  },
  {
   "property": "C92",
   "status": "proved",
   "theorems": [
    "BB.Props.C92_adapted",
    "BB.Props.C92_raises",
    "BB.Props.C92_stuck",
    "BB.Props.C92_visits",
    "BB.Props.C92_in_force",
    "BB.Props.C92_runs",
    "BB.Props.C92_lived",
    "BB.Props.C92_progress",
    "BB.Props.C92_rows",
    "BB.Props.C92_misaligned",
    "BB.Props.C92_visits_lived",
    "BB.Props.C92_custom_lost",
    "BB.Props.C92_ignored",
    "BB.Props.C92_stale_counterexample"
   ],
   "note": "Targets are added together with as many callable forward functions (the other uses of add_targets are in C35). That perturbations set by the user are lost, that targets added to a likelihood made of a function are ignored, and that forward functions looking at the noise make cached predictions stale, and that the saved lists are no longer aligned, is recorded among the disagreements."
  },
  {
   "property": "C93",
   "status": "proved",
   "theorems": [
    "BB.Props.C93_result",
    "BB.Props.C93_reported",
    "BB.Props.C93_message",
    "BB.Props.C93_retried",
    "BB.Props.C93_retried_forward",
    "BB.Props.C93_interrupt",
    "BB.Props.C93_message_counterexample",
    "BB.Props.C93_transport",
    "BB.Props.C93_args",
    "BB.Props.C93_name"
   ],
   "note": "Exceptions are records of class, text, message, args and whether they are derived from Exception; how Python pickles exceptions is part of the model. That exceptions with a message that is not a string are lost is recorded among the disagreements."
  },
  {
   "property": "C94",
   "status": "proved",
   "theorems": [
    "BB.Props.C94_select",
    "BB.Props.C94_unique",
    "BB.Props.C94_all",
    "BB.Props.C94_twice",
    "BB.Props.C94_range",
    "BB.Props.C94_means",
    "BB.Props.C94_empty_counterexample",
    "BB.Props.C94_mask_counterexample",
    "BB.Props.C94_mask_list",
    "BB.Props.C94_type"
   ],
   "note": "Values of states; that nested states are copied is C58. That the empty selection and Boolean lists do not work is recorded among the disagreements."
  },
  {
   "property": "C95",
   "status": "proved",
   "theorems": [
    "BB.Props.C95_constructed",
    "BB.Props.C95_rejected",
    "BB.Props.C95_set",
    "BB.Props.C95_last",
    "BB.Props.C95_get"
   ],
   "note": "The dictionary param_values; attributes are in C60, names that hide attributes in C90."
  }
 ]
}