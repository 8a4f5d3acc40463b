{
 "C27": [
  "proved",
  "For every list of targets with admissible noise (correlated noise needs n >= 3, see C28); exact reals."
 ],
 "C28": [
  "partial",
  "Proved for n >= 3; for n <= 2 the Cython function writes out of bounds, proved as undefined behaviour."
 ],
 "C29": [
  "proved",
  "For targets whose noise is inferred."
 ],
 "C30": [
  "proved",
  "Includes the error branch for predictions of the wrong size."
 ],
 "C31": [
  "proved",
  "Targets and user log likelihoods; additivity fails for infinite log likelihoods (inf - inf), proved as counterexample."
 ],
 "C34": [
  "proved",
  "Success iff the documented precedence selects a way; error classes covered."
 ],
 "C35": [
  "partial",
  "False of the code: duplicates and bad forward functions leave the likelihood modified (counterexamples). Proved: non-targets are rejected without effect; success adds everything."
 ],
 "C45": [
  "proved",
  "insert_1d/delete_1d refine list insertion/deletion for every index; out-of-range indices are shown to be undefined behaviour."
 ],
 "C46": [
  "proved",
  "Sorted non-empty arrays; the theorem is shown to need sortedness, and no sites is undefined behaviour. is_sorted is not used elsewhere in the code; for an empty array it reads out of bounds."
 ],
 "C47": [
  "proved",
  "Over an arbitrary linearly ordered field."
 ],
 "C48": [
  "proved",
  "Includes the list version used by interpolate_tessellation."
 ],
 "C49": [
  "partial",
  "Proved for n >= 2 sites; for n = 1 (and n = 2 with lb = -inf) the Cython code reads an unassigned variable, proved as undefined behaviour."
 ],
 "C50": [
  "proved",
  "For at least two sites; the error branches are covered."
 ],
 "C51": [
  "partial",
  "Proved for n >= 2 sites and ascending non-negative queries; counterexamples for unsorted and negative queries are proved."
 ],
 "C01": [
  "proved",
  "Exact Lebesgue measure of the accepting draws, for every number of abandoned attempts before the proposal; exact reals."
 ],
 "C02": [
  "proved",
  "Independence of the likelihood function is part of the statement; the draw 0 (math.log(0) raises) is covered separately."
 ],
 "C03": [
  "proved",
  "For hooks that leave the counters alone."
 ],
 "C04": [
  "proved",
  "Characterisation of failed attempts, retries, RuntimeError after 500, other exceptions, absence of traces."
 ],
 "C05": [
  "proved",
  "Invariant over all histories of completed iterations."
 ],
 "C06": [
  "proved",
  "Schedule and number of samples; temperature other than 1 saves nothing."
 ],
 "C07": [
  "proved",
  "Any store; instance for the library's states, under each key; permanence whatever the outcome."
 ],
 "C08": [
  "partial",
  "False of the code: a state whose likelihood has not been evaluated yet is saved without predicted data (counterexample run). Proved for runs in which no proposal has an infinite ratio."
 ],
 "C26": [
  "proved",
  "At the level of the chain and within a parameter space; probability over the continuum of uniform draws."
 ],
 "C32": [
  "proved",
  "All histories; evaluation equals evaluation without cache; at most one successful forward call per state and target."
 ],
 "C36": [
  "proved",
  "every chain makes exactly n iterations; with worker processes each result depends on its own chain and draws only, in a single process the draws and the outside world are threaded"
 ],
 "C37": [
  "proved",
  "also termination, independence of the fuel, and that swap_every >= 1 is needed"
 ],
 "C38": [
  "partial",
  "false in general (C38_false_burnin, C38_false_phase); C38_actual states exactly what is saved, C38_partial when the schedule is the intended one"
 ],
 "C39": [
  "proved",
  "for the temperatures of the chains and those carried by the states, however a run ends"
 ],
 "C40": [
  "partial",
  "C40_partial: all claims but the last temperature, for at least two chains; C40_last_partial: the last temperature when there are more chains than the documented number of ones; false otherwise (C40_false_last, C40_false_single)"
 ],
 "C41": [
  "partial",
  "false (C41_false, C41_false_order, C41_not_balanced): the exponent is divided by the temperature of the chain drawn first once too often; C41_partial: right when that temperature is 1"
 ],
 "C42": [
  "proved",
  "temperatures of all iterations of a fresh run, their course, and the temperature of the saved samples"
 ],
 "C43": [
  "partial",
  "holds for VanillaSampler (C43_vanilla_partial); false for ParallelTempering and SimulatedAnnealing (C43_tempering_false, C43_annealing_false)"
 ],
 "C44": [
  "partial",
  "proved for the functions called on initialization, at the beginning and at the end of iterations; false for add_on_end_advance_chain, whose functions are never called (C44_end_advance_false)"
 ],
 "C25": [
  "proved",
  "The enumeration of instances is complete and without repetition; exactly one is replaced. Hypothesis: dictionaries have distinct keys and no list of nested states is empty (the constructors raise otherwise). Uniformity: relative to the uniform distribution of the number drawn by randint."
 ],
 "C64": [
  "proved",
  "registered user functions are assumed to keep the current states in the set"
 ],
 "C16": [
  "proved",
  "all states that a chain of an inversion can visit (set Visits; C64 relates it to the runs of the samplers); target names distinct and bounds ordered, as the constructors check"
 ],
 "C18": [
  "proved",
  "built-in priors; hyper-parameters that depend on the position included; log prior proved equal to the log of the density"
 ],
 "C19": [
  "partial",
  "False of the code: outside births every perturbation of a custom prior's value raises UnboundLocalError (C19_always_raises). Proved for births."
 ],
 "C33": [
  "partial",
  "False of the code, in every case: no predicted data are carried over and all forward functions are called again (C33_never_reused)."
 ],
 "C10": [
  "proved",
  "For every parameterization whose spaces have distinct names (names of nested spaces included) and ordered bounds; every history of the built-in perturbations."
 ],
 "C11": [
  "proved",
  "For every parameterization whose spaces have distinct names (names of nested spaces included) and ordered bounds; every history of the built-in perturbations."
 ],
 "C12": [
  "proved",
  "For every parameterization whose spaces have distinct names (names of nested spaces included) and ordered bounds; every history of the built-in perturbations."
 ],
 "C13": [
  "proved",
  "For every parameterization whose spaces have distinct names (names of nested spaces included) and ordered bounds; every history of the built-in perturbations. The polygon is an arbitrary predicate."
 ],
 "C15": [
  "proved",
  "For every parameterization whose spaces have distinct names (names of nested spaces included) and ordered bounds; every history of the built-in perturbations. Bounds may be position dependent; user initialization functions are assumed to respect them."
 ],
 "C17": [
  "proved",
  "For every parameterization whose spaces have distinct names (names of nested spaces included) and ordered bounds; every history of the built-in perturbations."
 ],
 "C62": [
  "partial",
  "Proved: a cached tree always belongs to the current sites, and top-level states always have one. False for nested spaces: states of newborn cells have no tree (proved)."
 ],
 "C14": [
  "proved",
  "Births insert one row (site with the values of all parameters there), deaths remove one, moves change the site of one and permute; nested states included as entries."
 ],
 "C65": [
  "proved",
  "For states the values of which have finite log prior at the old site; the sum over all parameters with position-dependent priors."
 ],
 "C21": [
  "proved",
  "For plain spaces and 1D/2D tessellations, births from the prior and from the neighbour, nested tessellations included; the state is restored with its cached tree."
 ],
 "C22": [
  "proved",
  "Ratio for arbitrarily nested tessellations (C22_neighbour_ratio); draws on the tape for spaces without nested ones (C22_draws) and for each single value at any depth (C22_value_draw)."
 ],
 "C20": [
  "proved",
  "A value perturbation changes exactly one entry of each listed prior parameter, at the chosen instance, and its reported ratio is the difference of the total log prior of the new and the old values (sums over all instances); stated for every space, state and draw tape."
 ],
 "C56": [
  "partial",
  "C56_groups_partial: one group per nested space (the enumeration is exactly the nested spaces), members, weights and sums as declared; C56_positive: the groups of positive weight are exactly one per space with something to perturb; C56_inversion: alignment of functions and weights incl. the noise perturbation. The literal claim is false of the code: a space with nothing to perturb still gets an empty group of weight 0 (C56_empty_group)."
 ],
 "C52": [
  "partial",
  "Acceptance is characterised exactly (C52_accepts) and what is in force afterwards too (C52_in_force). On rejection the previous perturbations stay in force, the exception is as stated, and only the list of weights that was given may have changed. As stated the property is false: giving the list of weights in force again leaves it modified after a ValueError (C52_alias); None among the functions raises AttributeError after the replacement (C52_none)."
 ],
 "C53": [
  "partial",
  "False as stated: the check is inverted (C53_rejects_chains, C53_accepts_others). Proved: non-lists raise TypeError, and on acceptance n_chains is the length."
 ],
 "C54": [
  "partial",
  "Proved for states of type State/dict: concatenation in chain order of each requested key; without concatenation one entry per chain that has saved something under the key. False for other states: dict() of the list of states raises or misconverts, the list is never returned (C54_other_states, C54_never_list); chains that have nothing under a key are skipped."
 ],
 "C55": [
  "partial",
  "Space names: proved (C55_spaces). Parameter names within a space: false, equal names silently replace each other before the check (C55_duplicate_parameters); proved what results instead."
 ],
 "C57": [
  "partial",
  "Proved: supported descriptions are called as stated and every exception becomes a UserFunctionException; what is rejected at setup is characterised exactly (C57_rejected). False: most other objects are accepted at setup (C57_not_rejected)."
 ],
 "C61": [
  "partial",
  "Exact characterisation of what is constructed. False as stated: lists are checked up to the first element only (C61_list_accepted), empty lists raise IndexError (C61_empty_list)."
 ],
 "C67": [
  "proved",
  "Construction of the four prior classes. The interpolation in the plane is an arbitrary function (SciPy)."
 ],
 "C24": [
  "partial",
  "The law of the redrawn proposals is derived from the loops of the code on an endless tape of normal deviates (conditional Gaussian law, with density), for noise and for sites on a line and in the plane. C24 is false of the code: the ratio reported leaves the densities of the proposals out. The correct ratio vanishes only for moves that keep or mirror the value (iff, for noise and for sites on a line), in the plane exactly for moves between sites from which a step is equally likely to stay in the domain (C24_plane_iff; in a rectangle, for moves along an axis, only those that keep or mirror the site). Witness runs and the cases in which it holds are proved."
 ],
 "C09": [
  "proved",
  "For arbitrary state spaces, priors, likelihoods, finite families of proposals with densities, weights and temperature. The law of the state after one iteration is that of the model of the code (Chain.next) under uniform draws for the choice of the perturbation and for the acceptance test and an arbitrary law of the draws of the perturbations. A proposal and its reverse must have the same weight; perturbations and likelihood raise no exceptions (for the retries after exceptions see C89). C09_values instantiates it with the value perturbations of the built-in priors."
 ],
 "C23": [
  "proved",
  "parameter spaces, Voronoi1D and Voronoi2D (with or without a polygon) all of whose parameters are priors, with births from the prior; models up to the order of the rows; any likelihood and temperature; a custom prior's sampler is assumed to have the density and to use one random number; spaces with nested spaces as parameters are not covered"
 ],
 "C63": [
  "partial",
  "False of the code for a plain ParameterSpace nested in a discretization with birth_from=\"neighbour\" (C63_plain_never: no birth ever succeeds). Proved for all inversions meeting SpaceSafe, which excludes this nesting: no birth in any space of any visited state raises."
 ],
 "C66": [
  "proved",
  "Conditions in Spec/Progress (RunSafe): at least one dimension, priors defined with positive widths on the domain, no custom priors (C19) and no plain space under neighbour births (C63), names without \"n_dimensions\", admissible noise bounds. C66_zero_draw and C66_period_zero show that the exceptions listed do occur."
 ],
 "C58": [
  "partial",
  "Model with objects and references (Model/Heap). The copy has equal parameters and temperature at any nesting depth, no cache and no extra storage (C58_value, C58_no_caches); any later modifications of one leave the other unchanged when no parameter is an array of objects (C58_independent_partial, C58_space_partial). Missing: arrays of Python objects, the members of which the copy shares with the original (C58_objs_not: the claim is false there)."
 ],
 "C59": [
  "proved",
  "Model with objects and references. No proposal, successful or not, changes an array, a parameter-space state or a state that existed before, up to the cached kd-tree of a parameter-space state (C59_proposal); without nested Voronoi2D discretizations not even that (C59_proposal_same). C59_tree_not: Voronoi2D births and deaths beyond the bounds do rewrite the cached tree of the current state. C59_history: over whole runs."
 ],
 "C60": [
  "partial",
  "C60_history_partial: over every history, attribute and item are the same object for all names never changed by ParamPerturbation or NoisePerturbation; C60_sites: always, without such functions. False otherwise: the attributes keep the values from before (C60_values_stale, C60_noise_stale, with witnesses C60_values_not, C60_noise_not)."
 ],
 "C68": [
  "proved",
  "Refinement between the two models of perturbations. C68_proposal: same draws, exceptions, ratio and contents for every heap representing the state (sharing allowed, k-d trees ignored). C68_same_value: two representations of one value. C68_visits and C68_visited: the contents visited by chains on the heap are exactly those visited by chains on values, with arbitrary other proposals, copies and cache changes in between. C68_conform: C10-C13 for objects. Likelihoods and saving are modelled on values only."
 ],
 "C69": [
  "proved",
  "The law of the model after n calls of the modelled iteration (Chain.advance of the configuration that BayesianInversion builds, run on a tape of independent draws), not of an idealised kernel. Plain parameter spaces with built-in priors whose hyperparameters are constants, at least one dimension, births from the prior, fixed noise, a measurable log likelihood. Indices are drawn from numbers uniform below a common multiple of the dimensions. Voronoi spaces, nested spaces and hierarchical noise are not covered (the moves of sites and noise report wrong ratios near their bounds, C24)."
 ],
 "C70": [
  "partial",
  "Proved for tessellations given by their sites, on the line (C70_statistics) and in the plane (C70_plane, for any exact nearest-neighbour query), with uniqueness of all the numbers (C70_unique), monotone percentiles and independence of the order of the samples. For cell extents only with positions in ascending order, none negative, and two or more cells (C70_extents_partial; false otherwise, C51, C49). Numbers of samples that do not match are not noticed: missing ones count as zeros (C70_missing_counterexample). NumPy's functions are modelled by their definitions without rounding."
 ],
 "C71": [
  "partial",
  "The total mass is 1 whenever a density is returned (C71_normalised). One column per position is proved for equally spaced positions, given or computed (C71_columns_partial, C71_columns_number_partial), and false otherwise: the bins are always equally spaced, so that positions share columns and other columns stay empty (C71_uneven_counterexample)."
 ],
 "C72": [
  "proved",
  "Total variation, uniformly over all measurable sets, for the modelled Chain.advance on a tape of independent draws. Plain parameter spaces as in C69; the standard deviations of the perturbations are not 0 and the posterior has finite mass; the start has a density with respect to the prior. No rate of convergence is given."
 ],
 "C73": [
  "proved",
  "Convergence in probability for the models read back from the store of the modelled Chain.advance, jointly for all keys. Same inversions as C72, temperature 1, keys of the saved values distinct (otherwise values overwrite one another). Almost sure convergence and rates are not stated."
 ],
 "C74": [
  "proved",
  "From p.newChains to the dictionary of get_results, over one tape for the main process and one per job. Convergence in probability; same inversions as C69, keys of the saved values distinct, priors without user initialization. The draws of the other processes are independent of those of the main one, which is an assumption about joblib's seeding (runLaw)."
 ],
 "C75": [
  "proved",
  "Voronoi1D and Voronoi2D all of whose parameters are priors (no nested spaces), births from the nearest neighbour, at least one dimension; models up to the order of the rows. Ties for the nearest site have probability 0. Over the reals; the kd-tree is assumed to give the nearest site, as elsewhere."
 ],
 "C76": [
  "proved",
  "The consequence of C24 for the noise: what is sampled is determined exactly, and it is not the posterior (a disagreement with the documentation, recorded in DESIGN.md). The other perturbations and the likelihood enter through the conditions of C09 (`Beside`); the chains that the library constructs have this form (`cfg_addNoise`). One iteration; over the reals."
 ],
 "C77": [
  "proved",
  "Joins C23 and C75 (births and deaths), the perturbations of the values and C24 (sites redrawn without correction) into the chain with `Space.ownFuncs` and its weights.  What is sampled is determined for ParameterSpace and for tessellations with a fixed number of cells; with births only the negative statement is proved, since births and moves of sites are in balance with different distributions.  A disagreement with the documentation, recorded in DESIGN.md.  One space with priors only (no nested spaces); one iteration; over the reals; parameters are ordered as in the dictionary and models are unordered cells."
 ],
 "C78": [
  "proved",
  "At the level of the library: `Problem.cfg`, the chain that `BayesianInversion` sets up, on `State` with all parameter spaces and the noise.  Tessellations with a varying number of cells are left out, since no distribution that they sample is known (C77: never the posterior).  Spaces with priors only (no nested spaces); one iteration without the callbacks of the user; over the reals.  A disagreement with the documentation unless there are no sites and no unknown noise, recorded in DESIGN.md."
 ],
 "C79": [
  "proved",
  "The random numbers of different iterations are independent; those of one iteration are as in C78.  An iteration counts only if it returns without an exception and uses exactly its draws (`IterationsLaw`).  The callbacks of the sampler do nothing (the default sampler).  `PlainNames` (no name contains 'n_dimensions') is needed for saving, since `_save_state` otherwise takes the entry for a number of dimensions.  Distribution as in C78: not the posterior as soon as there are sites or unknown noise."
 ],
 "C80": [
  "proved",
  "Models and draws as in C78, for all kinds of spaces.  For births around the nearest cell, models are in general position (no two sites coincide, none is as far from a second as from a third one), which has prior probability 1.  The posterior is required to be finite.  `C80_exactly` contains C78's positive result for inversions without sites and unknown noise."
 ],
 "C81": [
  "proved",
  "Chains as in C79 (`Ready`: the cache belongs to the model, statistics are kept by sub-type; `PlainNames`: no name contains \"n_dimensions\"), spaces as in C80."
 ],
 "C82": [
  "proved",
  "Chains as in C79 (`Ready`, `PlainNames`), spaces `Roaming`: those of C78 with standard deviations other than 0 and, for tessellations, `Overlaps` (the domain is covered by neighbourhoods, each of which meets the next, in which any two sites have possible values in common).  On a line this follows if the bounds of uniform priors are constant or given at nodes in increasing order (`C82_line`).  No rate of convergence is claimed.  Tessellations with a varying number of cells are not covered: they have no distribution that the moves preserve and that is known (C80)."
 ],
 "C83": [
  "proved",
  "As C82 at temperature 1 (nothing is saved otherwise).  The saved lists are those of the store of the chain: what they gain is, under every key, the contribution (C07) of the saved states in order.  All possible first chains have completed the same number of iterations.  No rate of convergence is claimed."
 ],
 "C84": [
  "proved",
  "The draws of the start are given as in C74: a uniform number modulo the number of choices for the dimension, uniform numbers for sites and noise, the deviates of the priors for the values.  The numbers in the arrays that the library does not initialize are arbitrary.  In the plane, sites are drawn anew until one is in the domain.  For spaces with a user's function for initialization nothing is claimed.  C84_applies shows that all inversions of C80-C83 initialized by the library have such starts."
 ],
 "C85": [
  "proved",
  "For samplers without functions registered by the user.  The draws of an iteration are given as in C79; they do not depend on the temperature.  C85_again is about any chain, not only those of whole inversions."
 ],
 "C86": [
  "proved",
  "For samplers without functions registered by the user and the default arguments of get_results.  The draws of different chains are independent, also if they are advanced by several processes, which is an assumption about joblib's seeding as in C74."
 ],
 "C87": [
  "proved",
  "The consequence of C41 for what is sampled; recorded among the disagreements.  One chain is hot; several hot chains are not covered."
 ],
 "C88": [
  "proved",
  "For samplers without functions registered by the user and the default arguments of get_results; independent draws in several processes as in C86.  Which distribution the samples approach is not claimed (C87 shows that the swaps do not keep the posterior)."
 ],
 "C89": [
  "proved",
  "Recorded among the disagreements.  Perturbations of the library do not fail; the failures of C89_sampled, C89_completed and C89_outside are those of the likelihood (with several targets, of the first forward function that raises).  The general refutation (failing_not_posterior) is a lemma; C89_three is its concrete case, for a BaseBayesianInversion."
 ],
 "C90": [
  "proved",
  "Recorded among the disagreements. Objects of nested states are values here, so a nested space whose state cannot be copied is not covered. Empty arrays as n_dimensions raise, as in NumPy 2.2 and later."
 ],
 "C91": [
  "proved",
  "The texts around the rates, their rounding and the order of the lines are not part of the claim. The default arguments of advance_chain with which it raises are recorded among the disagreements."
 ],
 "C92": [
  "proved",
  "Targets are added together with as many callable forward functions (the other uses of add_targets are in C35). That perturbations set by the user are lost, that targets added to a likelihood made of a function are ignored, and that forward functions looking at the noise make cached predictions stale, and that the saved lists are no longer aligned, is recorded among the disagreements."
 ],
 "C93": [
  "proved",
  "Exceptions are records of class, text, message, args and whether they are derived from Exception; how Python pickles exceptions is part of the model. That exceptions with a message that is not a string are lost is recorded among the disagreements."
 ],
 "C94": [
  "proved",
  "Values of states; that nested states are copied is C58. That the empty selection and Boolean lists do not work is recorded among the disagreements."
 ],
 "C95": [
  "proved",
  "The dictionary param_values; attributes are in C60, names that hide attributes in C90."
 ]
}