{"id": "C01", "title": "Acceptance rule is Metropolis-Hastings", "statement": "One iteration of a Markov chain moves to the proposed state with probability exactly min(1, exp(a)), where a is the sum of the log probability ratio reported by the perturbation and the (tempered) log likelihood ratio, over the uniform draw u in [0,1) that the iteration makes.", "quantifier": "for every finite log acceptance value a and for the whole continuum of uniform draws", "why_tests_cant": "a test samples finitely many draws and can only estimate an acceptance frequency; the exact probability is a measure over a continuum", "anchors": ["src/bayesbay/_markov_chain.py:BaseMarkovChain._next_iteration"]}
{"id": "C02", "title": "Zero-probability proposals are never accepted and never evaluated", "statement": "If a perturbation reports a log probability ratio of -inf, the chain keeps its current state, counts the proposal as explored and not accepted, and does not call the forward/likelihood code for it.", "quantifier": "for every perturbation function, current state, likelihood function and random draw", "why_tests_cant": "the likelihood and the perturbation are arbitrary user functions; tests only exercise particular ones", "anchors": ["src/bayesbay/_markov_chain.py:BaseMarkovChain._next_iteration"]}
{"id": "C03", "title": "advance_chain(n) makes exactly n counted proposals", "statement": "If advance_chain(n_iterations=n) returns normally, the number of explored models has grown by exactly n, the number of accepted models has grown by at most n, whatever number of failed attempts happened in between.", "quantifier": "for every n, every starting history, every set of perturbations and every sequence of draws and failures", "why_tests_cant": "the failure pattern of user functions over an unbounded run cannot be enumerated", "anchors": ["src/bayesbay/_markov_chain.py:BaseMarkovChain.advance_chain", "src/bayesbay/_markov_chain.py:BaseMarkovChain._next_iteration", "src/bayesbay/_markov_chain.py:BaseMarkovChain._save_statistics"]}
{"id": "C04", "title": "Failed proposals are retried up to 500 times and leave no trace in the sample path", "statement": "When a user-function/forward failure happens, the chain retries with a fresh proposal; an iteration ends normally iff one of its first 500 attempts does not fail; after 500 failures RuntimeError is raised; failures change neither the current state's parameters nor the explored/accepted counters nor the saved samples, and each one increments the counter of the class of its exception by one and no other. Any other exception propagates immediately.", "quantifier": "for every failure pattern, history and draw sequence", "why_tests_cant": "the set of failure patterns of length up to 500 is exponential; tests cover one or two", "anchors": ["src/bayesbay/_markov_chain.py:BaseMarkovChain._next_iteration", "src/bayesbay/exceptions/_exceptions.py"]}
{"id": "C05", "title": "Acceptance statistics are consistent", "statement": "At every point of every run: for each perturbation type accepted <= explored; the per-type explored (accepted) counts add up to the total explored (accepted) count; the sub-type counts reported for a parameter-space perturbation add up to the number of its proposals.", "quantifier": "for every sequence of iterations over any number of runs", "why_tests_cant": "an invariant over unbounded histories", "anchors": ["src/bayesbay/_markov_chain.py:BaseMarkovChain._save_statistics", "src/bayesbay/_markov_chain.py:BaseMarkovChain.statistics"]}
{"id": "C06", "title": "Saving schedule", "statement": "A chain at temperature 1 saves its state exactly after those iterations i (counted from the chain's creation) with i > burnin_iterations and (i - burnin_iterations) divisible by save_every; a chain at temperature different from 1 saves nothing. A fresh chain advanced N iterations has therefore saved (N - burnin) div save_every samples.", "quantifier": "for every N, burnin, save_every >= 1, starting iteration and temperature", "why_tests_cant": "unbounded counters and the boundary between burn-in and sampling; tests fix a handful of values", "anchors": ["src/bayesbay/_markov_chain.py:BaseMarkovChain.advance_chain", "src/bayesbay/_markov_chain.py:BaseMarkovChain._next_iteration", "src/bayesbay/_markov_chain.py:BaseMarkovChain._save_state"]}
{"id": "C07", "title": "Saved samples are the visited states, in order", "statement": "The list saved under a key is, in order, the value of that key in the current state at each saving iteration; an already saved sample never changes or disappears later.", "quantifier": "for every run history", "why_tests_cant": "quantifies over all prefixes of all histories", "anchors": ["src/bayesbay/_markov_chain.py:BaseMarkovChain._save_state", "src/bayesbay/_markov_chain.py:BaseMarkovChain.saved_states", "src/bayesbay/_state.py:State._vars"]}
{"id": "C08", "title": "Result lists are aligned", "statement": "All lists in the results of a chain have equal length, so that index j in every list (parameters, noise, predicted data) refers to the same saved state.", "quantifier": "for every run history, every parameterization and every likelihood", "why_tests_cant": "misalignment only shows up for particular random histories (e.g. all proposals so far outside of the prior support)", "anchors": ["src/bayesbay/_markov_chain.py:BaseMarkovChain._save_state", "src/bayesbay/likelihood/_log_likelihood.py:LogLikelihood._get_misfit_and_det"]}
{"id": "C09", "title": "The iteration kernel preserves the tempered posterior", "statement": "If each perturbation reports log(prior(m')q(m|m')/(prior(m)q(m'|m))), then one iteration (random choice of the perturbation by weight, proposal, acceptance test) satisfies detailed balance with respect to prior x likelihood^(1/T), and hence leaves that distribution invariant.", "quantifier": "for every state space, prior, likelihood, family of proposal kernels, weights and temperature", "why_tests_cant": "a statement about the stationary distribution of a stochastic process; tests compare histograms", "anchors": ["src/bayesbay/_markov_chain.py:BaseMarkovChain._next_iteration", "src/bayesbay/likelihood/_log_likelihood.py:LogLikelihood.log_likelihood_ratio"]}
{"id": "C10", "title": "Number of dimensions stays within the declared bounds", "statement": "In every state visited by a chain, the dimension of every (nested or top-level) parameter space lies in [n_dimensions_min, n_dimensions_max]; spaces declared with fixed n_dimensions keep exactly this number for ever.", "quantifier": "for every parameterization with distinct names, every initial draw with 0 <= n_dimensions_init_range <= 1, and every history of perturbations", "why_tests_cant": "an invariant over unbounded trans-dimensional histories and arbitrarily deep nesting", "anchors": ["src/bayesbay/parameterization/_parameter_space.py:ParameterSpace.initialize", "src/bayesbay/parameterization/_parameter_space.py:ParameterSpace.birth", "src/bayesbay/parameterization/_parameter_space.py:ParameterSpace.death", "src/bayesbay/discretization/_voronoi.py:Voronoi.birth", "src/bayesbay/discretization/_voronoi.py:Voronoi.death", "src/bayesbay/perturbations/_param_space.py:ParamSpacePerturbation.perturb"]}
{"id": "C11", "title": "Parameter arrays always match the dimension", "statement": "In every visited state, every parameter of a parameter space (values, sites, nested sub-spaces) has exactly n_dimensions entries, at every nesting level.", "quantifier": "for every parameterization, initialization and perturbation history", "why_tests_cant": "an invariant over unbounded histories and unbounded nesting", "anchors": ["src/bayesbay/_state.py:ParameterSpaceState", "src/bayesbay/parameterization/_parameter_space.py:ParameterSpace.birth", "src/bayesbay/parameterization/_parameter_space.py:ParameterSpace.death", "src/bayesbay/discretization/_voronoi.py:Voronoi.birth", "src/bayesbay/discretization/_voronoi.py:Voronoi.death", "src/bayesbay/discretization/_voronoi.py:Voronoi.perturb_value"]}
{"id": "C12", "title": "Voronoi1D sites stay sorted and inside the domain", "statement": "In every visited state the sites of a Voronoi1D discretization are sorted in ascending order and lie in [vmin, vmax].", "quantifier": "for every initialization and every history of births, deaths, site moves and value perturbations", "why_tests_cant": "sortedness is relied on by every binary search/interpolation; an unbounded history invariant", "anchors": ["src/bayesbay/discretization/_voronoi.py:Voronoi.sample_discretization", "src/bayesbay/discretization/_voronoi.py:Voronoi.perturb_value", "src/bayesbay/discretization/_voronoi.py:Voronoi.birth", "src/bayesbay/discretization/_voronoi.py:Voronoi.death", "src/bayesbay/discretization/_voronoi.py:Voronoi._perturb_site"]}
{"id": "C13", "title": "Voronoi2D sites stay inside the box or polygon", "statement": "In every visited state each Voronoi2D site lies in the declared rectangle, and in the polygon when one is given.", "quantifier": "for every polygon, initialization and history", "why_tests_cant": "arbitrary polygons and unbounded rejection loops", "anchors": ["src/bayesbay/discretization/_voronoi.py:Voronoi2D.sample_site", "src/bayesbay/discretization/_voronoi.py:Voronoi2D._perturb_site", "src/bayesbay/discretization/_voronoi.py:Voronoi2D.birth", "src/bayesbay/discretization/_voronoi.py:Voronoi2D.perturb_value"]}
{"id": "C14", "title": "Values stay attached to their sites", "statement": "Moving a Voronoi cell changes exactly one site and nothing else: the multiset of (site, value_1, ..., value_p) rows is the old one with one site replaced; birth adds exactly one row, death removes exactly one row, and all other rows are kept with their values.", "quantifier": "for every state and every draw", "why_tests_cant": "re-sorting of parallel arrays must be right for every permutation; tests use few configurations", "anchors": ["src/bayesbay/discretization/_voronoi.py:Voronoi.perturb_value", "src/bayesbay/discretization/_voronoi.py:Voronoi.birth", "src/bayesbay/discretization/_voronoi.py:Voronoi.death", "src/bayesbay/_utils_1d.pyx:insert_1d", "src/bayesbay/_utils_1d.pyx:delete_1d"]}
{"id": "C15", "title": "Uniform parameters never leave their bounds", "statement": "In every visited state, every uniformly distributed parameter lies within [vmin, vmax], where the bounds are evaluated at the position of the cell when they depend on position.", "quantifier": "for every history, every parameter and every position-dependent bound", "why_tests_cant": "out-of-bounds values would show up only after particular sequences of site moves/births", "anchors": ["src/bayesbay/prior/_prior.py:UniformPrior.perturb_value", "src/bayesbay/prior/_prior.py:UniformPrior.log_prior", "src/bayesbay/discretization/_voronoi.py:Voronoi.perturb_value", "src/bayesbay/discretization/_discretization.py:Discretization._initialize_params_from_neighbour"]}
{"id": "C16", "title": "Noise parameters never leave their bounds", "statement": "In every visited state, a hierarchical target's standard deviation lies in [std_min, std_max] and its correlation, if inferred, in [correlation_min, correlation_max]; perturbing the noise changes no other parameter.", "quantifier": "for every target, history and sequence of redraws", "why_tests_cant": "the rejection loop is unbounded and the invariant ranges over all histories", "anchors": ["src/bayesbay/likelihood/_target.py:Target.initialize", "src/bayesbay/perturbations/_data_noise.py:NoisePerturbation.perturb"]}
{"id": "C17", "title": "Initial states are valid", "statement": "Every state produced by the parameterization's initialization satisfies all the invariants above (dimension bounds, array lengths, sorted sites, domain, prior support for uniform parameters).", "quantifier": "for every parameterization and every draw", "why_tests_cant": "continuum of draws, arbitrary nesting", "anchors": ["src/bayesbay/parameterization/_parameter_space.py:ParameterSpace.initialize", "src/bayesbay/discretization/_voronoi.py:Voronoi._initialize", "src/bayesbay/prior/_prior.py:UniformPrior.initialize", "src/bayesbay/parameterization/_parameterization.py:Parameterization.initialize"]}
{"id": "C18", "title": "Value perturbations report the prior ratio", "statement": "Perturbing the value of a Uniform/Gaussian/Laplace parameter reports exactly log_prior(new) - log_prior(old) at the same position (the proposal being symmetric), and -inf when the new value is outside of a uniform prior.", "quantifier": "for every value, proposal, position and hyper-parameter", "why_tests_cant": "an algebraic identity over the reals", "anchors": ["src/bayesbay/prior/_prior.py:UniformPrior.perturb_value", "src/bayesbay/prior/_prior.py:GaussianPrior.perturb_value", "src/bayesbay/prior/_prior.py:LaplacePrior.perturb_value"]}
{"id": "C19", "title": "Custom priors can be sampled", "statement": "perturb_value of a CustomPrior returns a new value together with log_prior(new) - log_prior(old) for every call, just as the built-in priors do.", "quantifier": "for every custom prior, value and draw", "why_tests_cant": "depends on which of two code paths is taken in the sampler", "anchors": ["src/bayesbay/prior/_prior.py:CustomPrior.perturb_value"]}
{"id": "C20", "title": "A parameter perturbation changes one entry per parameter and reports the prior ratio of the whole space", "statement": "Perturbing a parameter space's values changes only the entry at one random index of each (non-space) parameter, keeps sites, sub-spaces and the dimension, and reports the difference of the space's total log prior.", "quantifier": "for every state, number of parameters, draw", "why_tests_cant": "quantifies over all parameter lists and continuous draws", "anchors": ["src/bayesbay/perturbations/_param_values.py:ParamPerturbation.perturb_param_space_state"]}
{"id": "C21", "title": "Birth and death undo one another", "statement": "Deleting the cell that a birth has just created restores the original state exactly; and the log ratio reported by that death is minus the log ratio reported by the birth, including births from the nearest neighbour and nested discretizations.", "quantifier": "for every state, new site, new values, birth mode", "why_tests_cant": "reversibility must hold for every pair of states; tests check only histograms", "anchors": ["src/bayesbay/discretization/_voronoi.py:Voronoi.birth", "src/bayesbay/discretization/_voronoi.py:Voronoi.death", "src/bayesbay/discretization/_discretization.py:Discretization._initialize_newborn_params", "src/bayesbay/discretization/_discretization.py:Discretization._log_prob_death_parameters", "src/bayesbay/parameterization/_parameter_space.py:ParameterSpace.birth", "src/bayesbay/parameterization/_parameter_space.py:ParameterSpace.death"]}
{"id": "C22", "title": "Neighbour births report prior over proposal density", "statement": "A birth from the nearest neighbour reports the sum over parameters of log prior(new value) minus the log density of the Gaussian centred at the value of the nearest existing cell from which the new value has been drawn.", "quantifier": "for every state, site, draw and birth standard deviation", "why_tests_cant": "an identity between densities over the reals", "anchors": ["src/bayesbay/discretization/_discretization.py:Discretization._initialize_params_from_neighbour", "src/bayesbay/prior/_prior.py:Prior.get_perturb_std_birth"]}
{"id": "C23", "title": "Prior births and deaths leave the prior invariant", "statement": "With newborn values drawn from the prior, the birth/death pair satisfies detailed balance with respect to the trans-dimensional prior (uniform over the number of dimensions, independent values), so that the reported ratio 0 is right.", "quantifier": "for every prior, dimension bound and pair of states", "why_tests_cant": "a statement about an infinite state space of variable dimension", "anchors": ["src/bayesbay/parameterization/_parameter_space.py:ParameterSpace.birth", "src/bayesbay/parameterization/_parameter_space.py:ParameterSpace.death", "src/bayesbay/discretization/_voronoi.py:Voronoi.birth", "src/bayesbay/discretization/_voronoi.py:Voronoi.death"]}
{"id": "C24", "title": "Redrawn (truncated) proposals are accounted for", "statement": "Proposals that are redrawn until they fall in the allowed interval (site moves, noise standard deviation and correlation) report the log ratio of the reverse and forward proposal densities.", "quantifier": "for every pair of values in the interval and every step size", "why_tests_cant": "the bias is a property of a density, not visible in any single execution", "anchors": ["src/bayesbay/discretization/_voronoi.py:Voronoi._perturb_site", "src/bayesbay/perturbations/_data_noise.py:NoisePerturbation._perturb_target"]}
{"id": "C25", "title": "A parameter-space perturbation touches exactly one state of that space", "statement": "A perturbation of a named (possibly nested) parameter space replaces exactly one of its instances within the state, chosen uniformly among all the instances, and leaves everything else - other instances, parents, siblings, noise - unchanged.", "quantifier": "for every nesting structure, number of instances and draw", "why_tests_cant": "arbitrary trees of states", "anchors": ["src/bayesbay/perturbations/_param_space.py:ParamSpacePerturbation.perturb"]}
{"id": "C26", "title": "Perturbation choice follows the weights", "statement": "A perturbation function (and, within a parameter space, birth/death/value/site) is chosen with probability weight/sum(weights); functions with weight zero are never chosen.", "quantifier": "for every list of non-negative weights with positive sum and the continuum of draws", "why_tests_cant": "exact probabilities over a continuum", "anchors": ["src/bayesbay/_markov_chain.py:BaseMarkovChain._next_iteration", "src/bayesbay/perturbations/_param_space.py:ParamSpacePerturbation.perturb_param_space_state"]}
{"id": "C27", "title": "Targets give the Gaussian log likelihood ratio", "statement": "With targets and forward functions, the log likelihood ratio equals the difference of the multivariate normal log densities of the observed data at the two states' predicted data and noise parameters, divided by the temperature.", "quantifier": "for every data vector, prediction, number of targets, noise level and correlation", "why_tests_cant": "an identity over real vectors of every length", "anchors": ["src/bayesbay/likelihood/_log_likelihood.py:LogLikelihood.log_likelihood_ratio", "src/bayesbay/likelihood/_log_likelihood.py:LogLikelihood._log_likelihood_ratio_from_targets", "src/bayesbay/likelihood/_log_likelihood.py:LogLikelihood._get_misfit_and_det"]}
{"id": "C28", "title": "inverse_covariance is the inverse of the exponential covariance", "statement": "inverse_covariance(std, r, n) is the inverse of the n x n covariance matrix std^2 r^|i-j|.", "quantifier": "for every n, every std != 0 and |r| < 1", "why_tests_cant": "matrix identity for every size; small sizes take a different path through the loop", "anchors": ["src/bayesbay/_utils_1d.pyx:inverse_covariance", "src/bayesbay/likelihood/_target.py:Target.inverse_covariance_times_vector"]}
{"id": "C29", "title": "log determinant of the covariance", "statement": "For a target whose noise is inferred (correlated or not), log_determinant_covariance equals the logarithm of the determinant of the covariance matrix implied by the current noise parameters.", "quantifier": "for every n, std > 0, |r| < 1", "why_tests_cant": "determinant identity for every size", "anchors": ["src/bayesbay/likelihood/_target.py:Target.log_determinant_covariance"]}
{"id": "C30", "title": "Misfits are non-negative and vanish exactly at a perfect fit", "statement": "The squared-residual term of each target is >= 0, and is 0 iff the predicted data equal the observed data.", "quantifier": "for every residual vector, std > 0, |r| < 1", "why_tests_cant": "positive definiteness for every length", "anchors": ["src/bayesbay/likelihood/_target.py:Target.inverse_covariance_times_vector", "src/bayesbay/likelihood/_log_likelihood.py:LogLikelihood._get_misfit_and_det"]}
{"id": "C31", "title": "Likelihood ratios are antisymmetric and additive", "statement": "ratio(a,b) = -ratio(b,a) and ratio(a,b) + ratio(b,c) = ratio(a,c); a temperature T divides the ratio by T.", "quantifier": "for every triple of states, for targets and for a user supplied log likelihood", "why_tests_cant": "universally quantified over user functions", "anchors": ["src/bayesbay/likelihood/_log_likelihood.py:LogLikelihood.log_likelihood_ratio"]}
{"id": "C32", "title": "Cached predictions are never stale", "statement": "Whenever the likelihood of a state is evaluated, the predicted data used are those the forward function gives on that very state's parameters, although they are cached; each forward function is called at most once per state and target.", "quantifier": "for every history of perturbations, failures and evaluations", "why_tests_cant": "cache coherence is an invariant over all interleavings of copies, perturbations and evaluations", "anchors": ["src/bayesbay/likelihood/_log_likelihood.py:LogLikelihood._get_misfit_and_det", "src/bayesbay/_state.py:State.copy", "src/bayesbay/_state.py:State.save_to_cache"]}
{"id": "C33", "title": "Noise perturbations reuse predicted data", "statement": "Perturbing only the noise parameters carries the predicted data over to the proposed state, so that the forward functions are not called again.", "quantifier": "for every state and target", "why_tests_cant": "depends on string keys of the cache agreeing between two modules", "anchors": ["src/bayesbay/_state.py:State.copy", "src/bayesbay/perturbations/_data_noise.py:NoisePerturbation.perturb", "src/bayesbay/likelihood/_log_likelihood.py:LogLikelihood._get_misfit_and_det"]}
{"id": "C34", "title": "Exactly one way of computing the likelihood is selected", "statement": "Constructing a LogLikelihood succeeds iff targets with as many forward functions, or a log likelihood ratio function, or a log likelihood function is given (in this order of precedence) and target names are distinct; otherwise it raises (ValueError, or AssertionError when the lengths differ).", "quantifier": "for every combination of arguments", "why_tests_cant": "decision table over unbounded lists", "anchors": ["src/bayesbay/likelihood/_log_likelihood.py:LogLikelihood._init_log_likelihood_ratio", "src/bayesbay/likelihood/_log_likelihood.py:LogLikelihood._check_duplicate_target_names"]}
{"id": "C35", "title": "Adding targets is all-or-nothing", "statement": "add_targets either adds all the given targets and forward functions or raises and leaves the likelihood as it was.", "quantifier": "for every list of targets and forward functions and every history of additions", "why_tests_cant": "histories of failed calls", "anchors": ["src/bayesbay/likelihood/_log_likelihood.py:LogLikelihood.add_targets"]}
{"id": "C36", "title": "Vanilla sampling advances each chain independently", "statement": "VanillaSampler.run(n) advances each chain by exactly n iterations, the chain list keeps its order and length, and the outcome for a chain does not depend on the other chains.", "quantifier": "for every number of chains, n, and draws", "why_tests_cant": "interference between chains for arbitrary schedules", "anchors": ["src/bayesbay/samplers/_samplers.py:VanillaSampler.run", "src/bayesbay/samplers/_samplers.py:Sampler.advance_chain"]}
{"id": "C37", "title": "Parallel tempering runs exactly the requested iterations", "statement": "ParallelTempering.run on fresh chains terminates and every chain makes exactly n_iterations proposals, for any swap_every >= 1.", "quantifier": "for every n_iterations, swap_every, number of chains", "why_tests_cant": "loop arithmetic for all values incl. non-divisible ones", "anchors": ["src/bayesbay/samplers/_samplers.py:ParallelTempering.run"]}
{"id": "C38", "title": "Parallel tempering respects burn-in and thinning", "statement": "With ParallelTempering no sample is saved during the first burnin_iterations iterations, and afterwards unit-temperature chains save according to the same schedule as without tempering.", "quantifier": "for every burnin, save_every, swap_every, n_iterations", "why_tests_cant": "interplay of three periods; tests never look at the iteration at which a sample was saved", "anchors": ["src/bayesbay/samplers/_samplers.py:ParallelTempering.run", "src/bayesbay/_markov_chain.py:BaseMarkovChain.advance_chain"]}
{"id": "C39", "title": "Temperatures are conserved by swaps", "statement": "Swapping rounds permute the temperatures among the chains: the multiset of temperatures, in particular the number of unit-temperature (sampling) chains, never changes during a run, and each chain's state carries its chain's temperature.", "quantifier": "for every number of rounds and every sequence of swaps", "why_tests_cant": "invariant over unbounded sequences of random swaps", "anchors": ["src/bayesbay/samplers/_samplers.py:ParallelTempering.on_end_advance_chain", "src/bayesbay/_markov_chain.py:BaseMarkovChain.temperature"]}
{"id": "C40", "title": "Initial temperature ladder", "statement": "ParallelTempering initializes n chains with temperatures in [1, temperature_max], at least max(2, int(n*fraction)) of which are exactly 1, and ascending in order, the last one being temperature_max.", "quantifier": "for every n, fraction in [0,1], temperature_max >= 1", "why_tests_cant": "all chain counts, incl. the degenerate ones", "anchors": ["src/bayesbay/samplers/_samplers.py:ParallelTempering.on_initialize"]}
{"id": "C41", "title": "Temperature swaps satisfy detailed balance", "statement": "The swap between two chains is accepted with the probability that leaves the product of the tempered posteriors invariant: min(1, exp((1/T1-1/T2)(logL2-logL1))), irrespective of which chain is drawn first.", "quantifier": "for every pair of states, temperatures, likelihoods", "why_tests_cant": "statement about stationary distributions", "anchors": ["src/bayesbay/samplers/_samplers.py:ParallelTempering.on_end_advance_chain"]}
{"id": "C42", "title": "Simulated annealing cools monotonically to 1", "statement": "During a fresh run, the temperature at iteration k of burn-in is T0^(1-k/burnin): it starts at T0, never increases, stays above 1 before the end of burn-in, and is exactly 1 from then on; only states at temperature 1 are saved.", "quantifier": "for every T0 >= 1, burnin >= 0, n_iterations", "why_tests_cant": "real-valued schedule for all lengths", "anchors": ["src/bayesbay/samplers/_samplers.py:SimulatedAnnealing.on_begin_iteration", "src/bayesbay/samplers/_samplers.py:SimulatedAnnealing.run", "src/bayesbay/samplers/_samplers.py:SimulatedAnnealing.on_initialize"]}
{"id": "C43", "title": "A run can be continued", "statement": "Calling run again continues the chains: the additional iterations are performed and samples keep being saved according to the schedule, for each of the samplers.", "quantifier": "for every pair of consecutive runs and sampler", "why_tests_cant": "histories of several runs", "anchors": ["src/bayesbay/samplers/_samplers.py:VanillaSampler.run", "src/bayesbay/samplers/_samplers.py:ParallelTempering.run", "src/bayesbay/samplers/_samplers.py:SimulatedAnnealing.run", "src/bayesbay/_bayes_inversion.py:BaseBayesianInversion.run"]}
{"id": "C44", "title": "Sampler callbacks", "statement": "Functions registered with add_on_begin_iteration/add_on_end_iteration are called exactly once per iteration, in registration order after the sampler's own hook; those registered with add_on_initialize once per run; those registered with add_on_end_advance_chain once at the end of each batch.", "quantifier": "for every list of callbacks and number of iterations", "why_tests_cant": "unbounded numbers of callbacks and iterations", "anchors": ["src/bayesbay/samplers/_samplers.py:Sampler.initialize", "src/bayesbay/samplers/_samplers.py:Sampler.begin_iteration", "src/bayesbay/samplers/_samplers.py:Sampler.end_iteration", "src/bayesbay/samplers/_samplers.py:Sampler.end_advance_chain", "src/bayesbay/samplers/_samplers.py:Sampler.advance_chain"]}
{"id": "C45", "title": "insert_1d and delete_1d are list insertion and deletion", "statement": "insert_1d(v, i, x) is v with x inserted before position i, delete_1d(v, i) is v without position i, for valid positions; delete_1d(insert_1d(v,i,x),i) = v; neither reads or writes out of bounds for valid positions.", "quantifier": "for every array, position and value", "why_tests_cant": "bounds checking is disabled: out-of-bounds accesses do not raise in tests", "anchors": ["src/bayesbay/_utils_1d.pyx:insert_1d", "src/bayesbay/_utils_1d.pyx:delete_1d"]}
{"id": "C46", "title": "nearest_neighbour_1d finds a nearest site", "statement": "For a non-empty sorted array, nearest_neighbour_1d(xp, x) returns a valid index i minimising |x[i] - xp| (ties between neighbours resolved to the right one). is_sorted(arr) answers whether a non-empty array is ascending.", "quantifier": "for every sorted array of any length and every query", "why_tests_cant": "continuum of queries and all lengths", "anchors": ["src/bayesbay/_utils_1d.pyx:nearest_neighbour_1d", "src/bayesbay/discretization/_voronoi.py:Voronoi.nearest_neighbour", "src/bayesbay/_utils_1d.pyx:is_sorted"]}
{"id": "C47", "title": "Linear interpolation", "statement": "For sorted nodes, interpolate_linear_1d stays within the range of the two neighbouring node values, reproduces the node values, extrapolates by the end values, never divides by zero nor reads out of bounds, and preserves pointwise order of two node vectors (so vmin(x) <= vmax(x) everywhere).", "quantifier": "for every node set and query", "why_tests_cant": "continuum; bounds checking disabled", "anchors": ["src/bayesbay/_utils_1d.pyx:_interpolate_linear_1d", "src/bayesbay/_utils_1d.pyx:floor_index", "src/bayesbay/prior/_prior.py:UniformPrior.get_vmin_vmax"]}
{"id": "C48", "title": "Nearest interpolation evaluates the Voronoi tessellation", "statement": "interpolate_nearest_1d(xp, x, y) returns, for each query, the value of a nearest site, one result per query in order.", "quantifier": "for every sorted site array, values, list of queries", "why_tests_cant": "continuum of queries and all lengths", "anchors": ["src/bayesbay/_utils_1d.pyx:_interpolate_nearest_1d", "src/bayesbay/_utils_1d.pyx:interpolate_nearest_1d", "src/bayesbay/discretization/_voronoi.py:Voronoi1D.interpolate_tessellation"]}
{"id": "C49", "title": "Cell extents partition the domain", "statement": "compute_cell_extents of n sorted sites gives n non-negative extents that sum to ub - lb, whose inner boundaries are the midpoints between neighbouring sites.", "quantifier": "for every n >= 1, sites, lb and ub", "why_tests_cant": "all lengths incl. single cells, where the compiled loop does not execute", "anchors": ["src/bayesbay/_utils_1d.pyx:compute_voronoi1d_cell_extents", "src/bayesbay/discretization/_voronoi.py:Voronoi1D.compute_cell_extents"]}
{"id": "C50", "title": "Interface positions agree between representations", "statement": "compute_interface_positions returns the midpoints between neighbouring sites; computing them from nuclei, or from the extents obtained with the same lower bound, gives the same answer.", "quantifier": "for every sorted array of at least two sites and every lower bound", "why_tests_cant": "algebraic identity for all lengths", "anchors": ["src/bayesbay/discretization/_voronoi.py:Voronoi1D.compute_interface_positions", "src/bayesbay/discretization/_voronoi.py:Voronoi1D.compute_cell_extents"]}
{"id": "C51", "title": "Nuclei and extents describe the same profile", "statement": "Interpolating a tessellation from its nuclei or from its cell extents (lower bound 0) gives identical values at every query position.", "quantifier": "for every strictly increasing array of non-negative sites and every list of query positions", "why_tests_cant": "two different algorithms must agree on a continuum, incl. ties at interfaces", "anchors": ["src/bayesbay/discretization/_voronoi.py:Voronoi1D.interpolate_tessellation", "src/bayesbay/_utils_1d.pyx:interpolate_depth_profile", "src/bayesbay/_utils_1d.pyx:interpolate_nearest_1d", "src/bayesbay/_utils_1d.pyx:compute_voronoi1d_cell_extents"]}
{"id": "C52", "title": "Birth and death are offered with equal weight", "statement": "set_perturbation_funcs succeeds only if weights and functions have equal length and every parameter space having a birth or a death perturbation has exactly one of each; after success both have the same weight (the birth one); otherwise it raises (ValueError, or AssertionError when the lengths differ) and the previous perturbations stay in force.", "quantifier": "for every list of functions and weights", "why_tests_cant": "unbounded lists with arbitrary duplicates", "anchors": ["src/bayesbay/_bayes_inversion.py:BaseBayesianInversion.set_perturbation_funcs"]}
{"id": "C53", "title": "Assigning chains validates its argument", "statement": "Assigning inversion.chains accepts lists of Markov chains (updating n_chains) and raises TypeError on anything else.", "quantifier": "for every assigned value", "why_tests_cant": "decision over arbitrary values", "anchors": ["src/bayesbay/_bayes_inversion.py:BaseBayesianInversion.chains"]}
{"id": "C54", "title": "get_results concatenates the chains' samples in order", "statement": "get_results(concatenate_chains=True) gives, for every requested key, the concatenation in chain order of the samples saved by the chains; with False one entry per chain; keys filters the result, None means all; for states that are neither State nor dict the saved states themselves are returned.", "quantifier": "for every list of chains, saved samples and keys", "why_tests_cant": "unbounded numbers of chains and samples, dynamic typing", "anchors": ["src/bayesbay/_bayes_inversion.py:BaseBayesianInversion.get_results_from_chains", "src/bayesbay/_bayes_inversion.py:BaseBayesianInversion.get_results"]}
{"id": "C55", "title": "Names are unique", "statement": "A parameterization can only be built when parameter space names are distinct and parameter names are distinct within each space; otherwise ValueError.", "quantifier": "for every list of parameter spaces", "why_tests_cant": "unbounded lists", "anchors": ["src/bayesbay/parameterization/_parameterization.py:Parameterization._check_duplicate_param_space_names", "src/bayesbay/parameterization/_parameterization.py:Parameterization._check_duplicate_param_names", "src/bayesbay/parameterization/_parameter_space.py:ParameterSpace.__init__"]}
{"id": "C56", "title": "Perturbation functions match the parameterization", "statement": "The perturbations offered for a parameterization are exactly one group per (nested) space that has something to perturb, containing birth and death iff the space is trans-dimensional, a site move iff it is a discretization, a value perturbation iff it has prior parameters; the group's weight is the sum of its members' weights; functions and weights have the same length.", "quantifier": "for every nested parameterization", "why_tests_cant": "arbitrary nesting", "anchors": ["src/bayesbay/parameterization/_parameter_space.py:ParameterSpace._init_perturbation_funcs", "src/bayesbay/discretization/_voronoi.py:Voronoi._init_perturbation_funcs", "src/bayesbay/parameterization/_parameterization.py:Parameterization._init_perturbation_funcs"]}
{"id": "C57", "title": "User functions get their extra arguments and their failures are tagged", "statement": "A user function given as f, (f, args), (f, args, kwargs) or (f, args, kwargs, name) is called as f(state, *args, **kwargs); anything else is rejected at setup; any exception it raises reaches the chain as a UserFunctionException.", "quantifier": "for every function, arguments and exception", "why_tests_cant": "arbitrary user functions", "anchors": ["src/bayesbay/_utils.py:_preprocess_func", "src/bayesbay/_utils.py:_FunctionWrapper"]}
{"id": "C58", "title": "copy() is a deep copy of the parameters without the caches", "statement": "State.copy() gives a state with equal parameters and temperature, empty cache and extra storage; later changes to the copy's parameters (at any nesting depth) never change the original, and vice versa. A parameter-space state's copy keeps its cache.", "quantifier": "for every state of any nesting depth and every sequence of later modifications", "why_tests_cant": "aliasing at arbitrary depth over arbitrary later histories", "anchors": ["src/bayesbay/_state.py:State.copy", "src/bayesbay/_state.py:ParameterSpaceState.copy", "src/bayesbay/_state.py:State.set_param_values", "src/bayesbay/_state.py:ParameterSpaceState.set_param_values"]}
{"id": "C59", "title": "Proposing never modifies the current state", "statement": "Computing a proposal from the current state does not modify any array reachable from the current state or from saved samples, so a rejection leaves the chain exactly where it was.", "quantifier": "for every perturbation of the library, every state and draw", "why_tests_cant": "aliasing between proposal and current state depends on the particular code path", "anchors": ["src/bayesbay/perturbations/_param_values.py:ParamPerturbation.perturb_param_space_state", "src/bayesbay/perturbations/_param_space.py:ParamSpacePerturbation.perturb", "src/bayesbay/discretization/_voronoi.py:Voronoi.perturb_value", "src/bayesbay/perturbations/_data_noise.py:NoisePerturbation.perturb", "src/bayesbay/_state.py:State.copy"]}
{"id": "C60", "title": "Attribute and item access agree", "statement": "state.name and state['name'] (and likewise for parameter-space states) always denote the same value in every state handed to user functions.", "quantifier": "for every perturbation history", "why_tests_cant": "depends on which code path last wrote the value", "anchors": ["src/bayesbay/_state.py:State.set_param_values", "src/bayesbay/_state.py:ParameterSpaceState.set_param_values", "src/bayesbay/perturbations/_param_values.py:ParamPerturbation.perturb_param_space_state", "src/bayesbay/perturbations/_data_noise.py:NoisePerturbation.perturb"]}
{"id": "C61", "title": "Malformed parameter-space states are rejected", "statement": "A ParameterSpaceState can only be constructed when all values are arrays or lists of parameter-space states of length n_dimensions, otherwise TypeError/ValueError; set_param_values enforces the same types.", "quantifier": "for every candidate value", "why_tests_cant": "decision over arbitrary nested values", "anchors": ["src/bayesbay/_state.py:ParameterSpaceState.__post_init__", "src/bayesbay/_state.py:ParameterSpaceState.set_param_values"]}
{"id": "C62", "title": "Cached spatial trees match the sites", "statement": "Whenever a Voronoi2D state with compute_kdtree offers a cached KD-tree, it has been built from exactly the current sites of that state; and every visited state of such a space offers one.", "quantifier": "for every history of births, deaths, site moves, value perturbations", "why_tests_cant": "cache coherence over unbounded histories", "anchors": ["src/bayesbay/discretization/_voronoi.py:Voronoi2D._initialize", "src/bayesbay/discretization/_voronoi.py:Voronoi2D.perturb_value", "src/bayesbay/discretization/_voronoi.py:Voronoi2D.birth", "src/bayesbay/discretization/_voronoi.py:Voronoi2D.death", "src/bayesbay/_state.py:ParameterSpaceState.copy"]}
{"id": "C63", "title": "Nested neighbour births work for every supported parameter type", "statement": "A birth from the nearest neighbour succeeds for every parameter type that a discretization accepts (priors, discretizations and parameter spaces).", "quantifier": "for every nested parameterization", "why_tests_cant": "combinatorics of nesting and birth modes", "anchors": ["src/bayesbay/discretization/_discretization.py:Discretization._initialize_params_from_neighbour", "src/bayesbay/parameterization/_parameter_space.py:ParameterSpace.sample"]}
{"id": "C64", "title": "Runs stay within the reachable states", "statement": "Under plain sampling, parallel tempering and simulated annealing, the current states of all chains and all states recorded in between are obtained from the starting states by adopted proposals, assignments of the temperature and evaluations of the likelihood only, even if an exception ends the run.", "quantifier": "for every configuration, sampler setting, number of chains and sequence of random numbers", "why_tests_cant": "unboundedly many histories and interleavings of swaps, hooks and exceptions", "anchors": ["src/bayesbay/samplers/_samplers.py:Sampler.advance_chain", "src/bayesbay/_markov_chain.py:BaseMarkovChain._next_iteration", "src/bayesbay/_bayes_inversion.py:BaseBayesianInversion.run"]}
{"id": "C65", "title": "A site move reports the prior ratio of the moved cell", "statement": "Moving a site of a Voronoi tessellation reports the change of the sum of the log priors of the moved cell's values whose priors depend on the position: minus infinity if one of the values is impossible at the new site, zero if no prior depends on the position.", "quantifier": "for every tessellation, state, moved site and draw", "why_tests_cant": "real-valued positions and values, arbitrary priors and arbitrarily many parameters", "anchors": ["src/bayesbay/discretization/_voronoi.py:Voronoi.perturb_value", "src/bayesbay/discretization/_voronoi.py:Voronoi2D.perturb_value"]}
{"id": "C67", "title": "Hyper-parameters of priors are checked and interpolated", "statement": "A prior can only be built when each hyper-parameter is a number or, if positions are given, an array with one element for each position; otherwise AssertionError (ValueError exactly for bounds of a uniform prior that are arrays of different lengths other than one). The hyper-parameter then has the given values at the given positions, lies between the smallest and the largest of them elsewhere (on the line), and the standard deviation of birth perturbations defaults to the ordinary one.", "quantifier": "for every class of prior, hyper-parameters and positions", "why_tests_cant": "real-valued arrays of any length", "anchors": ["src/bayesbay/prior/_prior.py:Prior.add_hyper_params", "src/bayesbay/prior/_prior.py:Prior.get_hyper_param", "src/bayesbay/prior/_prior.py:Prior._init_hyper_param"]}
{"id": "C66", "title": "A run of an inversion raises nothing of its own", "statement": "In an inversion whose spaces, priors, targets and names are as documented, the starting state can always be constructed, every registered perturbation of positive weight returns a proposal in every state that a chain can visit, and any number of iterations of a chain complete, saving included. The only exceptions that can end a run are a draw of exactly 0 in the acceptance test (ValueError from math.log) and functions of the user that fail 500 times in a row (RuntimeError).", "quantifier": "all inversions meeting the stated conditions; all visited states; all numbers of iterations, burn-in and saving periods; all sequences of draws", "why_tests_cant": "An exception may need a rare state (an empty nested space, a space at its bound, a particular nesting) after a long run; tests run a few short chains.", "anchors": ["src/bayesbay/_markov_chain.py:BaseMarkovChain._next_iteration", "src/bayesbay/_markov_chain.py:BaseMarkovChain.advance_chain", "src/bayesbay/_markov_chain.py:BaseMarkovChain._save_state", "src/bayesbay/perturbations/_param_space.py:ParamSpacePerturbation.perturb", "src/bayesbay/likelihood/_log_likelihood.py:LogLikelihood.log_likelihood_ratio"]}
{"id": "C68", "title": "States that share objects and are modified in place behave like values", "statement": "A proposal computed by the code on State objects (copying, replacing dictionary entries, assigning into lists and caches in place) draws the same random numbers, raises the same exceptions, reports the same log ratio and returns a state with the same contents as the function of the values alone, whatever arrays, lists or nested states the objects share with each other and whatever k-d trees are cached. Over whole runs, the contents of the states visited by a chain on objects are exactly those visited by a chain on values, while other proposals, copies and chains go on in between.", "quantifier": "all heaps and all sharing of objects; all states of all nested spaces; all registered perturbations; all draws; all interleavings with other proposals, copies and changes of caches", "why_tests_cant": "Aliasing bugs show only for particular sharing patterns after particular sequences of proposals; there are infinitely many heaps representing one value.", "anchors": ["src/bayesbay/perturbations/_param_space.py:ParamSpacePerturbation.perturb", "src/bayesbay/perturbations/_data_noise.py:NoisePerturbation.perturb", "src/bayesbay/_state.py:State.copy", "src/bayesbay/_state.py:ParameterSpaceState.copy", "src/bayesbay/_state.py:ParameterSpaceState.set_param_values"]}
{"id": "C69", "title": "The posterior is invariant under the iterations of the chain", "statement": "In an inversion for the values of any number of parameter spaces with uniform, Gaussian or Laplace priors and fixed noise, with fixed or variable numbers of dimensions and births from the prior: if the model at the start is distributed like the tempered posterior (prior times likelihood to the power 1/T, over all numbers of dimensions), then so is the model after any number of iterations as the code carries them out. From any model of positive prior density, the iterations are completed almost surely.", "quantifier": "all numbers of spaces, parameters, bounds of the dimensions, parameters of the priors and standard deviations; all measurable log likelihoods; all temperatures, numbers of iterations, burn-in and saving periods; all measurable sets of models", "why_tests_cant": "A wrong stationary law is a property of a measure over infinitely many models; tests can only compare a few histograms within sampling error.", "anchors": ["src/bayesbay/_markov_chain.py:BaseMarkovChain._next_iteration", "src/bayesbay/_markov_chain.py:BaseMarkovChain.advance_chain", "src/bayesbay/perturbations/_param_space.py:ParamSpacePerturbation.perturb", "src/bayesbay/perturbations/_birth_death.py:BirthPerturbation.perturb", "src/bayesbay/perturbations/_birth_death.py:DeathPerturbation.perturb", "src/bayesbay/perturbations/_param_values.py:ParamPerturbation.perturb", "src/bayesbay/likelihood/_log_likelihood.py:LogLikelihood.log_likelihood_ratio"]}
{"id": "C70", "title": "Statistics of ensembles describe the samples position by position", "statement": "get_tessellation_statistics returns, for every position, the mean, the median, the standard deviation and the requested percentiles of the values that the tessellations have there, one value per sample: that of the site nearest to the position (or of the layer containing it, if cell extents are given). The percentiles are interpolated linearly between the samples of the neighbouring ranks and do not decrease with the percentage; the order of the samples does not matter.", "quantifier": "all ensembles with at least one sample and any numbers of cells, all positions, all percentiles between 0 and 100; one and two dimensions", "why_tests_cant": "Ranks, ties and unequal numbers of cells give unboundedly many cases; tests look at a few ensembles.", "anchors": ["src/bayesbay/discretization/_voronoi.py:Voronoi1D.get_tessellation_statistics", "src/bayesbay/discretization/_voronoi.py:Voronoi1D._interpolate_tessellations", "src/bayesbay/discretization/_voronoi.py:Voronoi2D.get_tessellation_statistics", "src/bayesbay/discretization/_voronoi.py:Voronoi2D.interpolate_tessellation"]}
{"id": "C71", "title": "The density of an ensemble is a probability density with one column per position", "statement": "get_tessellation_density returns a histogram that integrates to 1 over all bins, and whose columns belong to the positions one by one: the mass of a bin in the column of a position is the share of the samples whose value at this position is in the bin, divided by the number of positions.", "quantifier": "all ensembles, all positions or numbers of positions, all numbers of bins", "why_tests_cant": "Which bin a position falls into depends on the number and spacing of the positions; tests plot a few histograms.", "anchors": ["src/bayesbay/discretization/_voronoi.py:Voronoi1D.get_tessellation_density"]}
{"id": "C72", "title": "The chain converges to the posterior", "statement": "In the inversions of C69 with non-zero standard deviations of the perturbations and a normalisable posterior: whatever the law of the model at the start, if it has a density with respect to the prior, the law of the model after n iterations of the chain tends to the normalised (tempered) posterior as n grows, in total variation. In particular every region of positive posterior probability, with any number of dimensions, is reached.", "quantifier": "all numbers of spaces, parameters, bounds of the dimensions, parameters of the priors and non-zero standard deviations; all measurable log likelihoods with normalisable posterior; all temperatures, burn-in and saving periods; all laws of the start with a density; all measurable sets of models at once", "why_tests_cant": "Convergence is a limit over the number of iterations and a statement about a measure over infinitely many models; tests run finitely many iterations of a few chains.", "anchors": ["src/bayesbay/_markov_chain.py:BaseMarkovChain._next_iteration", "src/bayesbay/_markov_chain.py:BaseMarkovChain.advance_chain", "src/bayesbay/perturbations/_param_space.py:ParamSpacePerturbation.perturb", "src/bayesbay/perturbations/_birth_death.py:BirthPerturbation.perturb", "src/bayesbay/perturbations/_birth_death.py:DeathPerturbation.perturb", "src/bayesbay/perturbations/_param_values.py:ParamPerturbation.perturb", "src/bayesbay/likelihood/_log_likelihood.py:LogLikelihood.log_likelihood_ratio"]}
{"id": "C73", "title": "Averages over the saved samples approximate posterior means", "statement": "In the inversions of C72 at temperature 1: for every bounded function of the model, the average over the models that the chain has saved (read back from the lists of saved values, after the burn-in and every save_every iterations) is within any tolerance of the posterior mean, with a probability that tends to 1 as the number of iterations grows. In particular the share of the saved models in a set tends to its posterior probability.", "quantifier": "as C72; all bounded measurable functions of the model, all burn-in and saving periods other than 0, all tolerances and probabilities", "why_tests_cant": "Consistency of the estimates is a limit; a test sees one run of finite length and cannot tell slow convergence from convergence to a wrong value.", "anchors": ["src/bayesbay/_markov_chain.py:BaseMarkovChain.advance_chain", "src/bayesbay/_markov_chain.py:BaseMarkovChain._next_iteration", "src/bayesbay/_markov_chain.py:BaseMarkovChain._save_state", "src/bayesbay/_markov_chain.py:BaseMarkovChain.saved_states", "src/bayesbay/_state.py:State._vars"]}
{"id": "C74", "title": "The results of whole inversions approximate posterior means", "statement": "Inversions of C69 with the library's own construction and the default sampler: the starting models of the chains are independent and have the documented law (dimensions uniform over the initial range, values from the priors); the model of a chain constructed and advanced converges in law to the posterior; and after `run` with n iterations, whatever the number of chains, of jobs, the burn-in and the saving period, the dictionary of `get_results` holds one or more models, the average over which of a bounded function is within any tolerance of its posterior mean, with a probability that tends to 1 as n grows.", "quantifier": "all inversions of C69 whose priors have no initialization of the user; all numbers of chains and jobs, burn-ins, saving periods other than 0, bounded measurable functions, tolerances, probabilities", "why_tests_cant": "The claim is about the law of the output of the whole pipeline and its limit; single runs cannot show that the chains are independent, that nothing is raised almost surely, or that the limit is the posterior.", "anchors": ["src/bayesbay/_bayes_inversion.py:BayesianInversion.__init__", "src/bayesbay/_bayes_inversion.py:BaseBayesianInversion.run", "src/bayesbay/_bayes_inversion.py:BaseBayesianInversion.get_results_from_chains", "src/bayesbay/_markov_chain.py:MarkovChain._init_starting_state", "src/bayesbay/samplers/_samplers.py:VanillaSampler.run", "src/bayesbay/samplers/_samplers.py:Sampler.advance_chain", "src/bayesbay/parameterization/_parameter_space.py:ParameterSpace.initialize"]}
{"id": "C75", "title": "Births from the nearest neighbour and deaths satisfy detailed balance", "statement": "With births from the nearest neighbour, the birth/death pair of a Voronoi1D and of a Voronoi2D satisfies detailed balance with respect to the trans-dimensional prior (uniform over the number of dimensions, sites uniform in the domain, values from the priors) times the likelihood to the power 1/T, and leaves that distribution invariant; in particular the ratio that a death reports fits the law of the birth that undoes it.", "quantifier": "all Voronoi1D and Voronoi2D (with or without a polygon) whose parameters are priors of any class with any densities and position-dependent bounds; all standard deviations of births, dimension bounds with a minimum of 1 or more, likelihoods and temperatures", "why_tests_cant": "It is an equality between laws on a space of varying dimension, which depends on the geometry of nearest sites; sampling cannot distinguish a small wrong factor in a ratio from noise.", "anchors": ["src/bayesbay/discretization/_voronoi.py:Voronoi.birth", "src/bayesbay/discretization/_voronoi.py:Voronoi.death", "src/bayesbay/discretization/_discretization.py:Discretization._initialize_params_from_neighbour", "src/bayesbay/discretization/_discretization.py:Discretization._log_prob_death_parameters", "src/bayesbay/discretization/_voronoi.py:Voronoi.nearest_neighbour"]}
{"id": "C76", "title": "What hierarchical inversions sample", "statement": "When the noise of targets is among the unknowns, the chain (the perturbation of the noise beside any perturbations that satisfy the conditions of C09 and leave the noise alone) is in detailed balance with the product of the tempered posterior with uniform noise parameters and the probability, at the noise of the model, that perturbed noise parameters are within their bounds at the first attempt; it leaves that distribution invariant. Since this probability is not constant, the posterior itself is not invariant, for any bounds, step sizes and data; the density of what is sampled with respect to the posterior varies by a factor of at most 2 for each noise parameter.", "quantifier": "all numbers of targets (at least one), with or without correlation; all bounds that leave room and all non-zero steps; all other perturbations, likelihoods with normalisable posterior, and temperatures", "why_tests_cant": "The samples look plausible: the bias is a factor of at most two (for each parameter) in a density near the bounds, and whether a distribution is invariant is a statement about all regions of the models at once.", "anchors": ["src/bayesbay/perturbations/_data_noise.py:NoisePerturbation.perturb", "src/bayesbay/perturbations/_data_noise.py:NoisePerturbation._perturb_target", "src/bayesbay/_markov_chain.py:BaseMarkovChain._next_iteration", "src/bayesbay/likelihood/_log_likelihood.py:LogLikelihood._init_perturbation_funcs"]}
{"id": "C77", "title": "What all perturbations of one parameter space sample together", "statement": "The chain with all perturbations that one parameter space offers (births and deaths if its dimension varies, perturbations of the values, and for a tessellation perturbations of the sites), chosen with their weights: for a ParameterSpace it is in detailed balance with the tempered posterior and leaves it invariant, with fixed or varying dimension; for a Voronoi1D or Voronoi2D (with or without polygon) with a fixed number of cells it is in detailed balance with the posterior times, for each site, the probability that a Gaussian step from there stays in the domain; for a Voronoi1D or Voronoi2D the posterior itself is not invariant, whether the number of cells is fixed, or cells are born from the prior, or from the nearest neighbour.", "quantifier": "all numbers of parameters (at least one) with uniform, Gaussian or Laplace priors, depending on the position or not; all bounds, polygons, step sizes and ranges of the dimension; all likelihoods (measurable functions of the unordered cells, with normalisable posterior for the negative part) and temperatures", "why_tests_cant": "Each perturbation looks right on its own, and the bias concerns only cells near the boundary of the domain; whether a mixture of proposals leaves a distribution invariant is a statement about all regions of the models at once.", "anchors": ["src/bayesbay/parameterization/_parameter_space.py:ParameterSpace._init_perturbation_funcs", "src/bayesbay/perturbations/_param_values.py:ParamPerturbation.perturb_param_space_state", "src/bayesbay/discretization/_voronoi.py:Voronoi._perturb_site", "src/bayesbay/discretization/_voronoi.py:Voronoi.perturb_value", "src/bayesbay/discretization/_voronoi.py:Voronoi._init_perturbation_funcs", "src/bayesbay/discretization/_voronoi.py:Voronoi2D.perturb_value", "src/bayesbay/perturbations/_birth_death.py:BirthPerturbation.perturb", "src/bayesbay/perturbations/_birth_death.py:DeathPerturbation.perturb"]}
{"id": "C78", "title": "What whole inversions sample", "statement": "An inversion with any number of parameter spaces (ParameterSpace with a fixed or varying dimension, Voronoi1D and Voronoi2D with a fixed number of cells), with or without unknown noise of any number of targets, and with the likelihood given by targets and forward functions, by a log likelihood or by a log likelihood ratio: one iteration of a chain of the library (choice of a perturbation with the weights of the library, perturbation of the state, likelihood with its cache, acceptance) is in detailed balance with, and preserves, the tempered posterior times the probability that no site leaves its domain and no noise parameter leaves its bounds when all are perturbed. Without tessellations and unknown noise this is the posterior itself.", "quantifier": "all numbers and combinations of such spaces and of targets; all uniform, Gaussian and Laplace priors, bounds, polygons, step sizes; all data and forward functions for which the likelihood is defined (a measurable function of the unordered models); all temperatures other than 0", "why_tests_cant": "Tests run single chains on single problems; that the blocks of an inversion do not disturb each other, that the state, the caches and the weights of the library yield the same mixture of proposals in every combination of spaces, and what the mixture samples, are statements about all inversions and all sets of models.", "anchors": ["src/bayesbay/_bayes_inversion.py:BayesianInversion.__init__", "src/bayesbay/_bayes_inversion.py:BayesianInversion._init_perturbation_funcs", "src/bayesbay/_markov_chain.py:BaseMarkovChain._next_iteration", "src/bayesbay/parameterization/_parameterization.py:Parameterization._init_perturbation_funcs", "src/bayesbay/perturbations/_param_space.py:ParamSpacePerturbation.perturb", "src/bayesbay/perturbations/_data_noise.py:NoisePerturbation.perturb", "src/bayesbay/likelihood/_log_likelihood.py:LogLikelihood.log_likelihood_ratio"]}
{"id": "C79", "title": "Any number of iterations of whole inversions", "statement": "An inversion as in C78 (any number of ParameterSpaces of fixed or varying dimension and of Voronoi1D and Voronoi2D with a fixed number of cells, with or without unknown noise), the chain of which starts at a model drawn from the tempered posterior times the probability that nothing has to be drawn anew: almost surely every one of n iterations of advance_chain (with burn-in, saving of every k-th model and statistics) is completed without an exception, and after n iterations the model has that same distribution. Without tessellations and unknown noise this is the posterior itself.", "quantifier": "all numbers n of iterations; all burn-in lengths and all intervals of saving other than 0; all inversions and likelihoods as in C78 whose names do not contain 'n_dimensions'; all temperatures other than 0", "why_tests_cant": "Tests run chains of one length on single problems and cannot see a distribution; that the state left by an iteration (caches, statistics, saved models) is again one from which the law of the next iteration is the same, for almost all random numbers and any number of iterations, needs an induction over all reachable states.", "anchors": ["src/bayesbay/_markov_chain.py:BaseMarkovChain.advance_chain", "src/bayesbay/_markov_chain.py:BaseMarkovChain._next_iteration", "src/bayesbay/_markov_chain.py:BaseMarkovChain._save_state", "src/bayesbay/_markov_chain.py:BaseMarkovChain._save_statistics", "src/bayesbay/_bayes_inversion.py:BayesianInversion.__init__"]}
{"id": "C80", "title": "Which whole inversions sample the posterior", "statement": "An inversion with any number of parameter spaces of any kind (ParameterSpace, Voronoi1D, Voronoi2D; fixed or varying number of dimensions; births that draw values from the prior or around those of the nearest cell), with or without unknown noise: one iteration of a chain preserves the tempered posterior (when this is finite) exactly if no space is a tessellation and the noise of all targets is known. With one tessellation or one target with unknown noise it does not, whatever the other spaces, the forward functions and the likelihood are.", "quantifier": "all numbers and kinds of spaces that hold only priors, all numbers of targets, all likelihoods that are defined for all possible models, all temperatures other than 0, all weights that the library assigns", "why_tests_cant": "The defect is a bias of the stationary distribution near the boundaries; it is hidden by Monte Carlo errors, and a test of one problem cannot show that it is there whatever the likelihood and the other parts of the inversion are.", "anchors": ["src/bayesbay/_bayes_inversion.py:BayesianInversion.__init__", "src/bayesbay/_bayes_inversion.py:BayesianInversion._init_perturbation_funcs", "src/bayesbay/_markov_chain.py:BaseMarkovChain._next_iteration", "src/bayesbay/parameterization/_parameterization.py:Parameterization._init_perturbation_funcs", "src/bayesbay/perturbations/_param_space.py:ParamSpacePerturbation.perturb", "src/bayesbay/perturbations/_data_noise.py:NoisePerturbation.perturb", "src/bayesbay/likelihood/_log_likelihood.py:LogLikelihood.log_likelihood_ratio", "src/bayesbay/parameterization/_parameter_space.py:ParameterSpace._init_perturbation_funcs", "src/bayesbay/perturbations/_param_values.py:ParamPerturbation.perturb_param_space_state", "src/bayesbay/discretization/_voronoi.py:Voronoi._perturb_site"]}
{"id": "C81", "title": "Chains of any whole inversion are completed and stay within the prior", "statement": "An inversion with any number of parameter spaces of any kind (ParameterSpace, Voronoi1D, Voronoi2D; fixed or varying number of dimensions; births that draw values from the prior or around those of the nearest cell), with or without unknown noise: from almost every model under the prior, any number of iterations of a chain is completed almost surely without an exception, and any event (that does not depend on the order of the cells) with prior probability 0 has probability 0 after any number of iterations.", "quantifier": "all numbers and kinds of spaces that hold only priors, all numbers of targets, all likelihoods that are defined for all possible models, all temperatures other than 0, all burn-ins and saving frequencies other than 0, all numbers of iterations", "why_tests_cant": "A test runs finitely many iterations of one problem with one seed; exceptions that need coinciding sites, values at bounds or a particular order of moves have small or zero probability, and a test cannot tell these two cases apart.", "anchors": ["src/bayesbay/_bayes_inversion.py:BayesianInversion.__init__", "src/bayesbay/_bayes_inversion.py:BayesianInversion._init_perturbation_funcs", "src/bayesbay/_markov_chain.py:BaseMarkovChain._next_iteration", "src/bayesbay/parameterization/_parameterization.py:Parameterization._init_perturbation_funcs", "src/bayesbay/perturbations/_param_space.py:ParamSpacePerturbation.perturb", "src/bayesbay/perturbations/_data_noise.py:NoisePerturbation.perturb", "src/bayesbay/likelihood/_log_likelihood.py:LogLikelihood.log_likelihood_ratio", "src/bayesbay/parameterization/_parameter_space.py:ParameterSpace._init_perturbation_funcs", "src/bayesbay/perturbations/_param_values.py:ParamPerturbation.perturb_param_space_state", "src/bayesbay/discretization/_voronoi.py:Voronoi._perturb_site", "src/bayesbay/_markov_chain.py:BaseMarkovChain.advance_chain", "src/bayesbay/_markov_chain.py:BaseMarkovChain._save_state"]}
{"id": "C82", "title": "Chains of whole inversions converge", "statement": "An inversion as in C78 (any number of ParameterSpaces of fixed or varying dimension and of Voronoi1D and Voronoi2D with a fixed number of cells, with or without unknown noise), in which no value is perturbed with a standard deviation of zero and the values possible at neighbouring sites overlap: whatever the distribution of the first model (if it has a density with respect to the prior), the distribution of the model after n iterations of advance_chain approaches, uniformly over all events, the tempered posterior times the probability that nothing has to be drawn anew. It approaches the posterior itself exactly if there are no tessellations and all noise is known.", "quantifier": "all inversions and likelihoods as in C78 whose tempered posterior is finite; all distributions of the first model with a density; all temperatures other than 0, burn-ins and intervals of saving other than 0; all events that do not depend on the order of the cells; all tolerances", "why_tests_cant": "Convergence is a statement about the limit of infinitely many iterations for every starting distribution; a test sees one finite chain, cannot tell slow convergence from none, and cannot tell the posterior from a slightly different limit.", "anchors": ["src/bayesbay/_markov_chain.py:BaseMarkovChain.advance_chain", "src/bayesbay/_markov_chain.py:BaseMarkovChain._next_iteration", "src/bayesbay/_markov_chain.py:BaseMarkovChain._save_state", "src/bayesbay/_markov_chain.py:BaseMarkovChain._save_statistics", "src/bayesbay/_bayes_inversion.py:BayesianInversion.__init__", "src/bayesbay/_bayes_inversion.py:BayesianInversion._init_perturbation_funcs", "src/bayesbay/parameterization/_parameterization.py:Parameterization._init_perturbation_funcs", "src/bayesbay/perturbations/_param_space.py:ParamSpacePerturbation.perturb", "src/bayesbay/perturbations/_data_noise.py:NoisePerturbation.perturb", "src/bayesbay/likelihood/_log_likelihood.py:LogLikelihood.log_likelihood_ratio", "src/bayesbay/parameterization/_parameter_space.py:ParameterSpace._init_perturbation_funcs", "src/bayesbay/perturbations/_param_values.py:ParamPerturbation.perturb_param_space_state", "src/bayesbay/discretization/_voronoi.py:Voronoi._perturb_site"]}
{"id": "C83", "title": "Averages over the saved samples of whole inversions", "statement": "An inversion as in C82, at temperature 1: after sufficiently many iterations of advance_chain, with a probability as close to 1 as desired, all iterations were completed, what they have added to the saved lists are the values of one or more models of the inversion in order, and the average over these models of a bounded function of the model is as close as desired to its mean with respect to the posterior times the probability that nothing has to be drawn anew. For all functions this is the mean of the posterior itself exactly if there are no tessellations and all noise is known.", "quantifier": "all inversions and likelihoods as in C82 whose posterior is finite; all distributions of the first model with a density; all burn-ins and intervals of saving other than 0; all bounded measurable functions of the model that do not depend on the order of the cells; all tolerances", "why_tests_cant": "A law of large numbers is about limits and probabilities over all sequences of random numbers; a test compares one finite average with a tolerance that must be wide enough to hide a slightly wrong limit.", "anchors": ["src/bayesbay/_markov_chain.py:BaseMarkovChain._save_state", "src/bayesbay/_markov_chain.py:BaseMarkovChain.saved_states", "src/bayesbay/_state.py:State._vars", "src/bayesbay/_markov_chain.py:BaseMarkovChain.advance_chain", "src/bayesbay/_markov_chain.py:BaseMarkovChain._next_iteration", "src/bayesbay/_markov_chain.py:BaseMarkovChain._save_statistics", "src/bayesbay/_bayes_inversion.py:BayesianInversion.__init__", "src/bayesbay/_bayes_inversion.py:BayesianInversion._init_perturbation_funcs", "src/bayesbay/parameterization/_parameterization.py:Parameterization._init_perturbation_funcs", "src/bayesbay/perturbations/_param_space.py:ParamSpacePerturbation.perturb", "src/bayesbay/perturbations/_data_noise.py:NoisePerturbation.perturb", "src/bayesbay/likelihood/_log_likelihood.py:LogLikelihood.log_likelihood_ratio", "src/bayesbay/parameterization/_parameter_space.py:ParameterSpace._init_perturbation_funcs", "src/bayesbay/perturbations/_param_values.py:ParamPerturbation.perturb_param_space_state", "src/bayesbay/discretization/_voronoi.py:Voronoi._perturb_site"]}
{"id": "C84", "title": "Whole inversions from their start", "statement": "BayesianInversion makes its chains itself: for each space it draws a number of dimensions, then the sites, then the values at all sites, and for each target with unknown noise the noise parameters. For all inversions as in C80 whose values are initialized by the library, this succeeds with probability 1 and gives a chain, with nothing saved, from which iterations can be made; its model has the law given by the priors with a number of dimensions that is uniform in the lowest part of its range, given by n_dimensions_init_range, which is the prior itself if that part is all of it. From there on, without any assumption about the first model, any number of iterations are completed with probability 1; for inversions as in C82 the model converges in law and the averages over the saved samples converge (to the mean of the posterior if there are no tessellations and all noise is known). A Gaussian or Laplacian prior with a hyper-parameter that depends on the position in the plane cannot be initialized for two or more cells: an exception is raised whatever the draws.", "quantifier": "all inversions of any number of spaces (without sites, Voronoi1D, Voronoi2D, with fixed or variable numbers of dimensions, births from the prior or the neighbour) with or without unknown noise, all likelihoods, all numbers of iterations, all burn-ins and intervals of saving other than 0, all tolerances", "why_tests_cant": "The law of the first model and the convergence from it are statements about probabilities over all sequences of random numbers; a test runs one sequence, and cannot tell a slightly wrong law of the start or of the limit.", "anchors": ["src/bayesbay/_bayes_inversion.py:BayesianInversion.__init__", "src/bayesbay/_markov_chain.py:MarkovChain._init_starting_state", "src/bayesbay/parameterization/_parameterization.py:Parameterization.initialize", "src/bayesbay/parameterization/_parameter_space.py:ParameterSpace.initialize", "src/bayesbay/discretization/_voronoi.py:Voronoi.initialize", "src/bayesbay/likelihood/_target.py:Target.initialize", "src/bayesbay/prior/_prior.py:UniformPrior.initialize", "src/bayesbay/prior/_prior.py:GaussianPrior.initialize", "src/bayesbay/prior/_prior.py:LaplacePrior.initialize", "src/bayesbay/prior/_prior.py:_interpolate_linear_nd", "src/bayesbay/_markov_chain.py:BaseMarkovChain.advance_chain", "src/bayesbay/_markov_chain.py:BaseMarkovChain._save_state"]}
{"id": "C85", "title": "Simulated annealing of whole inversions", "statement": "SimulatedAnnealing sets all chains of an inversion to temperature_start and lowers the temperature geometrically to 1 during the burn-in. From the start of any inversion as in C84, and for any positive starting temperature, any number of its iterations are completed with probability 1. For inversions as in C82, whatever the cooling has done to the model, the models converge in law afterwards to what plain sampling converges to, and the averages over the saved samples (none of which is from the burn-in) converge to the mean of that distribution (of the posterior if there are no tessellations and all noise is known). If the inversion is run again, the starting temperature is set again and never lowered, since the burn-in is over: if it is not 1, nothing is saved.", "quantifier": "all inversions of any number of spaces with or without unknown noise, all likelihoods, all positive starting temperatures, all burn-ins, all intervals of saving other than 0, all numbers of iterations, all tolerances", "why_tests_cant": "Convergence in law and of averages after transitions that change from iteration to iteration is about the probabilities over all sequences of random numbers; a test runs a few sequences of one schedule.", "anchors": ["src/bayesbay/samplers/_samplers.py:SimulatedAnnealing.on_initialize", "src/bayesbay/samplers/_samplers.py:SimulatedAnnealing.on_begin_iteration", "src/bayesbay/samplers/_samplers.py:SimulatedAnnealing.run", "src/bayesbay/samplers/_samplers.py:Sampler.begin_iteration", "src/bayesbay/_markov_chain.py:BaseMarkovChain.advance_chain", "src/bayesbay/_markov_chain.py:BaseMarkovChain._next_iteration", "src/bayesbay/_markov_chain.py:BaseMarkovChain._save_state"]}
{"id": "C86", "title": "The results of whole inversions with several chains", "statement": "For any inversion as in C84 with one or more chains, constructing BayesianInversion, run() and get_results() return a dictionary with probability 1, with the default sampler and by simulated annealing (any positive starting temperature), and whether the chains are advanced one after the other or in several processes. Under every key it has, chain after chain, what the saved states contribute, and the number of these states is the number of chains times the number of saving iterations. For inversions as in C82, the average of any bounded function of the model over all samples in the results is, with a probability as close to 1 as desired, as close as desired to the mean of the distribution the iterations preserve (of the posterior if there are no tessellations and all noise is known), if the number of iterations is large.", "quantifier": "all inversions of any number of spaces with or without unknown noise, all likelihoods, all numbers of chains and processes, all burn-ins, all intervals of saving other than 0, all numbers of iterations, all bounded measurable functions that do not depend on the order of the cells, all tolerances", "why_tests_cant": "It is about the probability of what a whole program returns, over all sequences of random numbers of all of its chains and processes.", "anchors": ["src/bayesbay/_bayes_inversion.py:BayesianInversion.__init__", "src/bayesbay/_bayes_inversion.py:BaseBayesianInversion.run", "src/bayesbay/_bayes_inversion.py:BaseBayesianInversion.get_results", "src/bayesbay/samplers/_samplers.py:Sampler.advance_chain", "src/bayesbay/samplers/_samplers.py:VanillaSampler.run", "src/bayesbay/samplers/_samplers.py:SimulatedAnnealing.run", "src/bayesbay/_markov_chain.py:BaseMarkovChain.advance_chain"]}
{"id": "C87", "title": "The swaps of parallel tempering do not keep the posterior", "statement": "Take any number of chains, all at temperature 1 except for one at a temperature T > 1, independent of each other and in equilibrium, i.e. each distributed with a density proportional to the likelihood to the power 1/temperature. The swaps that ParallelTempering performs at the end of a batch succeed with probability 1 and leave all chains but one at temperature 1. Unless all models have the same likelihood, the states at temperature 1 are no longer in equilibrium: the mean of any bounded increasing function of their log likelihoods is strictly lower than before the swaps. In particular this is so for the chains of any whole inversion as in C78, each of which stays in equilibrium on its own; the samples collected at temperature 1 thus do not follow the posterior. Such temperatures are those that ParallelTempering starts with when all chains but one are to have temperature 1 (by default, when there are three chains).", "quantifier": "all numbers of chains, all positions of the hot chain, all inversions of any number of spaces with or without unknown noise, all likelihoods that are not constant, all temperatures T > 1, all bounded increasing functions", "why_tests_cant": "It is about the distribution of the samples of a stochastic program; the bias depends on the likelihood and can be far below the Monte Carlo noise of any run.", "anchors": ["src/bayesbay/samplers/_samplers.py:ParallelTempering.on_end_advance_chain", "src/bayesbay/likelihood/_log_likelihood.py:LogLikelihood.log_likelihood_ratio", "src/bayesbay/samplers/_samplers.py:ParallelTempering.on_initialize"]}
{"id": "C88", "title": "Whole inversions by parallel tempering are completed, and what they return", "statement": "For any inversion as in C84 with enough chains (at least the number of cold chains, max(2, int(n_chains * chains_with_unit_temperature))), any positive maximum temperature and any swap interval of at least one iteration, constructing BayesianInversion, run(sampler=ParallelTempering(...)) and get_results() return a dictionary with probability 1: all iterations of all batches and all swaps between them are completed, in one or several processes. Under every key the dictionary has what the saved states contribute; the number of these states is the number of cold chains (all chains if the maximum temperature is 1) times the number of saving iterations, which are determined batch by batch. With fewer chains, an exception is raised before the first iteration.", "quantifier": "all inversions of any number of spaces with or without unknown noise, all likelihoods, all numbers of chains and processes, all fractions of cold chains, all positive maximum temperatures, all swap intervals, all burn-ins, all intervals of saving other than 0, all numbers of iterations", "why_tests_cant": "That every run is completed concerns all sequences of proposals, acceptances and swaps at all temperatures; a test runs a few, with one likelihood, and which chain is cold at a saving iteration is random.", "anchors": ["src/bayesbay/samplers/_samplers.py:ParallelTempering.run", "src/bayesbay/samplers/_samplers.py:ParallelTempering.on_initialize", "src/bayesbay/samplers/_samplers.py:ParallelTempering.on_end_advance_chain", "src/bayesbay/samplers/_samplers.py:Sampler.advance_chain", "src/bayesbay/_bayes_inversion.py:BayesianInversion.__init__", "src/bayesbay/_bayes_inversion.py:BaseBayesianInversion.run", "src/bayesbay/_bayes_inversion.py:BaseBayesianInversion.get_results", "src/bayesbay/_markov_chain.py:BaseMarkovChain.advance_chain"]}
{"id": "C89", "title": "What is sampled when forward functions fail", "statement": "Take any inversion as in C78 whose forward functions (or whose function for the likelihood) raise an exception on some of the possible models, whichever these are. An iteration whose proposal fails does not reject it: it makes another one, at most 500 times. An iteration is completed unless all 500 attempts fail, i.e. with probability 1 - f^500, where f is the probability that an attempt from the present model fails; it never leads to a model on which the likelihood fails. Given that they are completed, the iterations satisfy detailed balance with respect to, and preserve, the product of the distribution they would preserve without failures (restricted to the models on which the likelihood is defined) and 1 - f. They thus preserve the former distribution if f is the same for all models, but not in general: a chain over three models with symmetric proposals, a constant likelihood on two of them and a failure on the third one preserves the distribution (2/3, 1/3) rather than (1/2, 1/2).", "quantifier": "all inversions of any number of spaces with or without unknown noise, all likelihoods, all measurable sets of models on which they fail, all temperatures", "why_tests_cant": "It is about the distribution of the samples of a stochastic program, over all sequences of attempts; the bias depends on where the forward functions fail and can be far below the Monte Carlo noise of any run.", "anchors": ["src/bayesbay/_markov_chain.py:BaseMarkovChain._next_iteration", "src/bayesbay/_markov_chain.py:BaseMarkovChain._log_likelihood_ratio", "src/bayesbay/likelihood/_log_likelihood.py:LogLikelihood.log_likelihood_ratio"]}
{"id": "C90", "title": "Names of parameters that hide attributes of the state", "statement": "A state of a parameter space stores every parameter also as an attribute with its name, without checking it. For any values that pass the checks of lengths and types, the object is made with its number of dimensions, values and empty cache, with callable methods and with all parameters as attributes if and only if no parameter has one of the ten reserved names (n_dimensions, param_values, cache and the seven methods). An object that has been made can be copied if and only if no parameter is called copy, n_dimensions or param_values; with one of these names no iteration of a chain whose perturbations copy the state is ever completed: it raises, and leaves the current state and the saved states as they are. With the name cache nothing can be cached; with set_param_values or get_param_values values cannot be set or read by name. A parameter called set_param_values or param_values, or n_dimensions with two or more values, must be the last one, or the object is not made at all. Without reserved names, making an object, reading and setting its parameters, caching a tree and copying it return or raise what they do for a plain record of the number of dimensions, the values and the tree.", "quantifier": "all numbers of cells, all dictionaries of values with different names, all positions of the name in it, all perturbations that copy the state whatever they do before and after, all sequences of draws", "why_tests_cant": "The names of parameters are arbitrary strings chosen by users; tests use a few harmless ones, and what fails depends on the name, on the order of the parameters and on the number of cells.", "anchors": ["src/bayesbay/_state.py:ParameterSpaceState.__post_init__", "src/bayesbay/_state.py:ParameterSpaceState.set_param_values", "src/bayesbay/_state.py:ParameterSpaceState.get_param_values", "src/bayesbay/_state.py:ParameterSpaceState.save_to_cache", "src/bayesbay/_state.py:ParameterSpaceState.copy", "src/bayesbay/_state.py:State.copy", "src/bayesbay/_markov_chain.py:BaseMarkovChain._next_iteration"]}
{"id": "C91", "title": "The progress that chains print", "statement": "At every point of every history of a chain at which a model has been proposed, print_statistics prints, without raising, the percentage of the proposals that were accepted and exactly the partial percentages: one for each perturbation with a counter, one for each sub-type of a parameter-space perturbation; all of them are between 0 and 100. Before the first proposal it raises ZeroDivisionError. Whether advance_chain is verbose, and with which interval other than zero it prints, makes no difference to the models, statistics, saved states, draws and exceptions. With an interval of zero it raises after the first iteration, which stays done. Without begin_iteration (None, the default) it raises TypeError before anything is proposed; without end_iteration it does so after the first iteration, which stays done.", "quantifier": "all configurations whose shares of sub-types are positive and add up to one, all histories of calls of advance_chain with any arguments, all hooks that leave the statistics alone, all sequences of draws", "why_tests_cant": "That no denominator is ever zero, and that printing never changes a run, are invariants over unbounded histories; tests look at a few runs and never at the default arguments of advance_chain.", "anchors": ["src/bayesbay/_markov_chain.py:BaseMarkovChain.print_statistics", "src/bayesbay/_markov_chain.py:BaseMarkovChain.advance_chain", "src/bayesbay/_markov_chain.py:BaseMarkovChain._save_statistics"]}
{"id": "C92", "title": "Targets can be added to existing inversions", "statement": "When targets with forward functions are added to a likelihood, every inversion that observes it and each of its chains perturbs, with the same weights, what an inversion made with all the targets would perturb (whatever perturbations the user had set before); the current state of each chain gets noise parameters of the new targets of unknown noise within their bounds and is otherwise unchanged, as are temperatures, saved states and statistics. If the earlier forward functions do not depend on the noise of the new targets, then from then on, for any number of iterations, the noise of all targets stays within bounds and the ratio used is that of all targets computed without a cache. The only exception is ValueError, exactly if names of targets coincide; then no inversion is changed, but nothing can be added any more. If the likelihood was made of a function of the user, the added targets have no influence on the ratio. If all names and bounds are as in C66, then, however often targets have been added between iterations, any number of further iterations is completed unless one of the three exceptions of C66 occurs. From an addition on, the saved standard deviations of each target of unknown noise grow by one for each saved state, so that the list of an added target stays shorter than the others by the number of states saved before.", "quantifier": "all likelihoods, all numbers of inversions and chains in any state, all lists of targets and forward functions, all numbers of iterations, all sequences of draws", "why_tests_cant": "The claim relates runs before and after an addition for all states of all chains, including the contents of their caches; tests add a target once, before the first iteration.", "anchors": ["src/bayesbay/likelihood/_log_likelihood.py:LogLikelihood.add_targets", "src/bayesbay/likelihood/_log_likelihood.py:LogLikelihood.add_targets_observer", "src/bayesbay/_bayes_inversion.py:BayesianInversion.update_log_likelihood_targets", "src/bayesbay/_bayes_inversion.py:BayesianInversion._init_perturbation_funcs", "src/bayesbay/_markov_chain.py:BaseMarkovChain.update_targets", "src/bayesbay/likelihood/_target.py:Target.initialize"]}
{"id": "C93", "title": "Exceptions of the user's functions are reported", "statement": "If a function of the user raises an exception derived from Exception, without an attribute message, then the exception that the chain catches, and after which it tries again, ends with the class and the text of the original one, also if it was a forward function, in which case it has passed through both UserFunctionException and ForwardException; if the original has an attribute message that is a string, a failing forward function is reported with it. Results, and exceptions not derived from Exception such as KeyboardInterrupt, are passed on unchanged. If the attribute message is not a string, the original exception is lost: TypeError takes its place, after which a failing perturbation is not tried again. Sending ForwardException and UserFunctionException from process to process any number of times changes neither their class, text nor message, but args grows each time. A wrapped function is shown by its name, else that of its attribute func, else that of its class.", "quantifier": "all exceptions, all outcomes of functions, all numbers of transports between processes, all wrapped functions", "why_tests_cant": "Which exceptions functions of users raise, and how often they are sent between processes, is unbounded.", "anchors": ["src/bayesbay/exceptions/_exceptions.py:ForwardException.__init__", "src/bayesbay/exceptions/_exceptions.py:UserFunctionException.__init__", "src/bayesbay/_utils.py:_FunctionWrapper.__call__", "src/bayesbay/_utils.py:_FunctionWrapper.__name__", "src/bayesbay/likelihood/_log_likelihood.py:LogLikelihood._get_misfit_and_det"]}
{"id": "C94", "title": "Selecting dimensions of a parameter-space state", "statement": "ps_state[idx] for a list of integers within range (negative ones counting from the end) is the state with these dimensions in this order: the same parameters, and as j-th entry of each of them the entry of dimension idx[j], so that values stay attached to their sites, also for nested states; the cached tree is dropped. Selecting all dimensions gives the same values, selecting from a selection is a selection. An index out of range raises IndexError if there is a parameter, anything other than a string or a list TypeError. The empty list raises IndexError if a parameter is a list of nested states. Lists of Booleans are no masks: if there is an array they are only accepted if all are true, and for lists of nested states they are the indices 1 and 0.", "quantifier": "all states, all parameters of any kind, all lists of indices of any length", "why_tests_cant": "The numbers of dimensions, parameters and indices are unbounded.", "anchors": ["src/bayesbay/_state.py:ParameterSpaceState.__getitem__", "src/bayesbay/_state.py:ParameterSpaceState.__post_init__"]}
{"id": "C95", "title": "States are made of, and give back, what they have been given", "statement": "A State can be made exactly of a number as temperature and a dictionary with strings as keys and ParameterSpaceState or DataNoiseState objects as values, which it then has in the same order; anything else is rejected with TypeError or ValueError. set_param_values raises ValueError exactly if the name is not a string and TypeError exactly if the name is a string and the value is not of the two classes; then nothing is changed. After any sequence of settings, some of which may have failed, get_param_values and state[name] give the value set last without failing, or else the original one, or None if there is none.", "quantifier": "all dictionaries of objects, all sequences of settings, all names", "why_tests_cant": "Sequences of settings and dictionaries are unbounded.", "anchors": ["src/bayesbay/_state.py:State.__post_init__", "src/bayesbay/_state.py:State.set_param_values", "src/bayesbay/_state.py:State.get_param_values", "src/bayesbay/_state.py:State.__getitem__"]}
