# Design of the formal model of bayes-bay

The subject is the Python/Cython package in `/repo/src/bayesbay` (reversible-jump
MCMC: parameter spaces, Voronoi discretizations, priors, likelihoods, Markov chains,
samplers).  The properties are listed in `properties.jsonl` (C01, C02, ...).  The model
and the proofs are the Lean 4 project in `lean/`.

## Trusted base

* Lean 4.33.0's kernel and the installed Mathlib.
* Axioms: only `propext`, `Classical.choice`, `Quot.sound` (checked by
  `Verif/Audit.lean`, which prints the axioms of every property theorem at build time).
  No axiom is declared, there is no `sorry`, `admit`, `native_decide` or `bv_decide`.
* The faithfulness of the hand-written model to the Python/Cython text.  Each
  definition of the model cites the file and the lines that it renders, and states
  where it simplifies.

## Conventions shared by all the models

* **Numbers.**  Python/NumPy floats are modelled by exact real numbers (`Real`, or an
  arbitrary linearly ordered field `K` for the Cython utilities, so that they can be run on
  rationals).  Rounding is not modelled.  Infinities and NaN are modelled where the code
  relies on them (log probability ratios): type `PyF` = finite real, `+inf`, `-inf`, `nan`
  with the IEEE rules for sum, negation and comparison.
* **Exceptions** are values: `Except PyErr a`.  `PyErr.undefinedBehaviour` stands for
  reading an uninitialised C variable or an out-of-bounds access in the Cython module
  (compiled with `boundscheck(False)`); such a branch is never totalised away.
* **Randomness** is an explicit input.  Programs are functions of a *tape* of draws; each
  draw supplies a natural number (for `randint`), a standard deviate `z` (for
  `normalvariate`, `gauss`) and a `u` in `[0,1)` (for `random.random`, `uniform`,
  `choices`, and `np.random.laplace`, by its inverse-CDF formula; NumPy draws again when
  its uniform number is 0, the model returns the mean).  A theorem quantified over all tapes is about
  all executions.  `while True` rejection loops consume the tape; an exhausted tape is the
  outcome `PyErr.tapeExhausted` ("has not terminated yet"), so partial-correctness
  theorems are about arbitrarily long executions.
* **Probability** statements are measures of sets of draws (Mathlib `volume`), or
  weighted sums/integrals over draws.
* **User functions** (forward functions, custom perturbations, callbacks, custom priors) are
  universally quantified parameters.
* **Aliasing** is modelled only in `Verif/Model/Heap.lean` (C58, C59, C60); the other models use values.

## Layout

* `Verif/Model/*.lean`: transcription of the code, function by function.
* `Verif/Spec/*.lean`: independent specifications (textbook definitions).
* `Verif/Lemmas/*.lean`: auxiliary facts.
* `Verif/Props/*.lean`: the property theorems with a concrete case beside each.
* `Verif/Audit.lean`: `#print axioms` for each property theorem.
* `tools/manifest.py` regenerates `MANIFEST.json`, `Verif.lean`, `Verif/Audit.lean` and the
  status table below from the theorems named `C<nn>_*` and from `tools/status.json`.
* `seeded/LOG.jsonl`: wrong programs against which the theorems were tested.

## What is modelled

| Code (`/repo/src/bayesbay`) | Model | Left out |
|---|---|---|
| `_utils_1d.pyx` | `Utils1d` (all functions) | rounding, NaN elements, C integer overflow |
| `discretization/_voronoi.py`: static helpers of `Voronoi1D` and `Voronoi2D` | `Tessellation`, `Ensemble` | plotting; scipy's k-d tree is an arbitrary exact query |
| `_state.py` | `State`, `Save` (values), `Heap` (objects), `Names` (attributes), `Select` (indexing), `StateObject` (construction) | `__repr__`, pickling |
| `prior/_prior.py` | `Prior`, `Construct` | plotting; SciPy's interpolation in the plane is an arbitrary function |
| `parameterization/`, `discretization/` (`Voronoi`, `Voronoi1D`, `Voronoi2D`) | `Space`, `Moves`, `Construct` | user subclasses, geometry of polygons (arbitrary predicate) |
| `perturbations/` | `Moves`, `Inversion`, `Heap` | |
| `likelihood/` | `Likelihood`, `LikelihoodSetup`, `AddTargets` | rounding, forward functions with side effects |
| `_markov_chain.py` | `Chain`, `Save`, `StateChain`, `Report` (printing, C91) | the layout of printed text |
| `samplers/_samplers.py` | `Samplers` | printed output, joblib's scheduling |
| `_bayes_inversion.py` | `Inversion`, `SetPerturbations`, `Results`, `WholeRun`, `AddTargets` | printed output |
| `_utils.py` | `UserFunc`, `Exceptions` | |
| `exceptions/` | `Exceptions` | subclasses, `InitException`, `OutOfDomainException` (only raised, elsewhere) |

The perturbations are modelled twice: on values, and on a heap of objects with references (`Heap`). Property C68
is the refinement between the two: proposals on the heap compute what the model with values computes, and chains on
the heap visit what chains on values visit (`Lemmas/HeapCopy`, `HeapValues`, `HeapBirths`, `HeapPerturb`,
`HeapVisits`). Loops and recursion on the heap have a bound `fuel`, which the theorems require to be at least the
number of nodes of the state; Python has none.

## Plan, property by property

| Id | What is modelled | How it is proved |
|----|------------------|------------------|
| C01 | `_next_iteration` acceptance test on `PyF` values | volume of the accepting set of `u` equals `min 1 (exp a)` |
| C02 | `_next_iteration` over abstract perturbations and likelihood | case analysis; the likelihood call is logged in the model |
| C03 | `advance_chain` loop | induction over the iterations |
| C04 | attempts loop with failure outcomes | induction over the attempts, converse by construction |
| C05 | `_save_statistics` counters | invariant by induction over iterations |
| C06 | `advance_chain` save flag, `_save_state` | refinement to the set of saving iterations; counting lemma |
| C07 | saved lists as a fold over the history | refinement to `map`/`filter` of the visited states; prefix-monotone |
| C08 | `_save_state` incl. `dpred` cache | false in general (witness); aligned under an explicit condition (`_partial`) |
| C09 | transition kernel of one iteration | detailed balance, then invariance by summation |
| C10, C11, C12, C13, C17 | whole parameterization tree, initialization and all perturbations | one conformance invariant, preserved by induction over the tree and the history |
| C14 | Voronoi birth/death/move | multiset equality of rows |
| C15 | the chain with `-inf` rejected | invariant on accepted states |
| C16 | `Target.initialize`, `NoisePerturbation` | rejection-loop invariant |
| C18 | priors' `perturb_value`, `log_prior` | algebra over reals |
| C19 | `CustomPrior.perturb_value` | false (unbound variable): negation proved; birth path proved |
| C20 | `ParamPerturbation` | list lemmas, sum of ratios |
| C21, C22 | births/deaths with neighbours, nested | list lemmas + induction over the nesting |
| C23 | birth/death kernels | detailed balance, discrete and continuous values |
| C24 | the loops of `Target.perturbNoise`, `Vor1.perturbSite` and `Vor2.perturbSite` on an endless tape of normal deviates; densities of the conditional laws in `Spec/Truncated.lean`, `Spec/TruncatedPlane.lean` | the law of each loop as a geometric sum (`until_law`); false: the log ratio of the densities vanishes only for the moves that keep the probability of staying in the range (strict monotonicity of that probability on either side of the middle, `mass_eq_iff`), with witness runs |
| C25 | breadth-first traversal of `ParamSpacePerturbation` | induction on the state tree |
| C26 | `random.choices` | measure of the set of draws choosing index `i` is `w_i / sum w` |
| C27-C31 | `Target`, `LogLikelihood` | linear algebra: LDL factorization of the AR(1) covariance |
| C32, C33 | cache of predicted data | coherence invariant; C33 is false (key mismatch), negation proved |
| C34, C35 | constructor decision, `add_targets` | decision table; C35 false, negation proved |
| C36-C38, C43 | `run` loops of the three samplers | loop invariants; C38, C43 false in general (witnesses) and partial results |
| C39-C41 | temperatures and swaps | permutation invariant; C41 false in general, true for T1 = 1 |
| C42 | annealing schedule | real analysis |
| C44 | hooks | event traces; the end-of-batch callbacks are never called (negation) |
| C45-C52 | Cython utilities | refinement to list operations, argmin, convex combinations, telescoping sums |
| C53-C57 | set-up code | decision logic |
| C58-C60 | heap model of states | frame property, separation; C60 false, negation proved |
| C61 | constructor | decision logic |
| C68 | heap model against the model with values | simulation by induction over the tree of nested states, then over the history |
| C69 | the whole chain on plain parameter spaces, over a tape of independent draws | Metropolis-Hastings kernels on products of trans-dimensional spaces, lifted from balance of one row; a total simulator of the chain has the invariant law; the model of the code almost surely computes what the simulator computes (`Lemmas/IidTape`, `PlainLaw`, `PlainMoves`, `PlainSample`, `PlainKernel`, `PlainRun`, `PlainPert`, `PlainChain`, `PlainPost`) |
| C72 | as C69 | powers of a self-adjoint operator converge in mean square to the invariant functions, by a direct argument with correlations (`Lemmas/Ergodic`); functions that no iteration changes are constant, since the moves reach every row of every space and births and deaths connect the numbers of dimensions (`Lemmas/Refresh`, `PlainIrred`); assembled in `PlainConverge` |
| C73 | as C69, with the store of saved values | second moments of sums along the path of a reversible random map, correlations die out, Chebyshev (`Lemmas/Averages`); the states at the saving iterations are those of the simulation, and each adds its values to the lists of its keys (`PlainSamples`, `PlainAverages`, C07) |
| C74 | as C73, with the construction of the chains, `VanillaSampler` in one or several processes and `get_results` (`Model/WholeRun`) | the initialization of a space has a product law that is absolutely continuous with respect to the prior (`PlainStart`); the run is the runs of the chains on consecutive stretches of the tape, or on a tape each (`PlainWhole`); C73's bound for each chain and a union bound (`PlainOutcome`) |
| C75 | as C23, with births from the nearest neighbour | a proposal scheme whose density is the product of the densities of the rows and the normal densities around the nearest row (`NearScheme`); sites are in general position almost surely, so that the nearest one is unique (`NearCenter`, `NearSites`); the runs of the code draw and report that (`NearRun`); then C09 |
| C76 | chains with the perturbation of the noise (`addNoise`; `Problem.cfg` is of this form) | the law of the first value between the bounds (C24) gives a proposal scheme with a symmetric density for the prior times the probability of not having to redraw, for any number of noise parameters (`NoiseLaw`, `NoiseScheme`); the code runs it (`NoiseRun`); invariance by C09.  A chain in balance with one distribution and preserving another one, with a density that varies, contradicts the strict convexity behind `Tilt.no_flow` |
| C77 | `Space.ownFuncs` with its weights, run by the chain (`ownChain`) | each group of perturbations is a proposal scheme of C09 on unordered tuples: births and deaths (C23, C75), moves of one row by a symmetric walk (`RowMove`, `MoveScheme`), moves of one site by steps redrawn until inside (`Redraw`, `SiteStep`: symmetric for the prior times the probability of staying).  Schemes with the same prior are joined (`Join`, `Parts`).  That the posterior is not preserved: the joined chain preserves it only if the moves of sites alone do (`Part.not_preserved`), and those are in balance with a distribution whose density varies (`TiltSites`) |
| C78 | `Problem.cfg` (all perturbations of all spaces and of the noise, their weights, `logLikelihoodRatio` with the caches) on `State` | the parameters consist of blocks (`Spec/WholeInversion`); each perturbation changes one block (`Realize`: the perturbation of a space runs one of its own functions on the entry of the space, `SpacePert`; that of the noise changes the entries of the targets), in balance with the prior of the block times the probability of staying (C77, C76).  A scheme of a block is lifted to all blocks with the likelihood at the values of the others (`Lift`, `Blocks`), and the chain is the mixture of the lifted ones (`Mixture`, `BlockLaw`, `BlockChain`, `WholeChain`) |
| C79 | as C78, with `Chain.iteration` (flag for saving, statistics, `saveState`) repeated | the law of an iteration is a Markov kernel on models (`BlockKernel`: a mixture of the transitions of the blocks), up to models that stand for the same; for almost all draws the iteration is completed and the chain is again as required (`BlockAgain`, `WholeRuns`), so that by induction `n` iterations have the law of the `n`-th power of the kernel (`Iterate`), which preserves the distribution of C78 |
| C80 | as C78, with tessellations with a variable number of cells (`Explored`) | each block's perturbations are realised by schemes (`Realize`); in a block with sites or noise, one part of them balances the prior and another part the prior times the probability of staying (`Stirs`); if a mixture over all blocks preserved the posterior, the second part would too, by comparing the flow out of sets of models with high density (`TiltSites`, `Stir`), which contradicts that the probability of staying varies |
| C81 | as C80, with `BB.Spec.IterationsLaw` of C79 | no block's perturbations lead from almost every model to a null set of the prior: each is in balance with the prior or with the prior times a positive probability of staying, which have the same null sets (`Spare`); hence the chain stays among the models for which an iteration follows the law of C78 (`Iterate`, `WholeRuns`) |
| C82 | as C79, spaces `BB.Spec.Roaming` | a function of the model that no perturbation can change (up to null sets) is constant: values, sites, numbers of dimensions and noise are removed from it one at a time (`Hears`, `RowRoam`, `WholeRoam`); with a chance of staying this gives convergence in L² of the powers of a self-adjoint kernel (`ErgodicKernel`) and hence in total variation for first models with a density |
| C83 | as C82, together with the list of the states that were saved (`recStep`, a history variable) | the law of the sum of a function along a path of the kernel (`Ker.pathE`) is that of the sum over the saved states (`path_le`); correlations of a function of mean zero tend to 0 by C82's convergence, so the variance of the average does (`Ker.path_lln`), and Chebyshev's inequality applies |
| C84 | `Problem.newChain` (`_init_starting_state`, `Parameterization.initialize`, `initialize` of spaces, priors and targets) on the draws of `Spec/WholeStart.lean` | run of the construction on these draws (`whole_start_run`); sorting the sites permutes the rows, which leaves the law of independent rows alone (`shuffledRows_law`); the law is absolutely continuous to the prior, so C81-C83 apply to the chain made (`whole_limit`, `whole_averaging`, stated for any chain at almost any model) |
| C85 | `annealing` (`SimulatedAnnealing`) on the iterations of C79 and the starts of C84, with the law of `Spec/Annealed.lean` | an iteration with the functions of the sampler is a plain iteration from the chain with the new temperature (`hooked_step`); transitions that change with time (`Lemmas/Cooling.lean`: `back_eq`, `back_le`), all of which spare the null sets of the prior, so that the law after the cooling is absolutely continuous to it and the limits of C82, C83 apply (`annealed_limit`, `annealed_averaging`) |
| C86 | `Problem.results`, `Problem.annealedResults` (construction, `run`, `get_results`), with the means of `Spec/WholeResults.lean` over the draws of all chains | no modelled function looks at draws it does not use, so that the draws of the parts of a program can be put together (`Lemmas/Prefixed.lean`); the law of the program is at least the product of the laws of C84, C85 of its chains (`run_bound`, `outcome`, `power_bound`); runs that succeed give the results of C54 (`results_of`) |
| C87 | `ptEndAdvance` for any number of chains with one hot chain, the likelihood of whole inversions, `ptInit`; the means of `Spec/TemperingSwaps.lean` over the pairs of chains and the uniform numbers of all rounds | one round moves the hot temperature with the probability of the code (`round_hot`), all rounds by induction (`rounds_mean`); compared with the probabilities that would keep the equilibrium, those of the code move it more often to states of higher likelihood, and the fair ones keep functions rising (`Lemmas/SwapOrder.lean`), hence the weighted sum over the positions of the hot chain rises (`rounds_raise`); which chain is hot does not matter for the mean (`hot_any`), so the integral does as well (`swaps_lower`) |
| C88 | `Problem.temperedResults` (`BayesianInversion`, `run` with `ParallelTempering`, `get_results`); the means of `Spec/WholeTempering.lean` over the draws of the start, of the iterations of each chain in each batch and of the swaps | models from which the next `n` iterations are completed at every temperature of the ladder are almost all (`whole_safe`, by induction on `n`); an invariant of the sampler between batches (`Fit`: temperatures a permutation of the ladder, chains at such models, counters and saved states) is kept by the iterations (`fit_iterated`) and the swaps (`fit_swapped`); induction on the number of batches left (`batches_bound`); the start satisfies it (`fit_start`) |
| C89 | `Chain.attempt`, `Chain.attempts`, `Chain.next` with likelihoods that raise on a set `F` of models (`Spec/Failing.lean`); the draws of all attempts of an iteration, each attempt that fails leaving the draw of the acceptance unused | an attempt is compared with the iteration of a virtual inversion whose log likelihood is `M` on `F`, for all `M`; the probability of a failure is the supremum of those of its transitions into `F` (`Lemmas/FailingWhole.lean`); the attempts give a geometric sum (`Lemmas/Retry.lean`, linked to `Chain.next` by induction on the number of attempts left in `Lemmas/RetryLink.lean`); what succeeds is balanced with respect to the restricted posterior (`succeeding_balance`), hence the iterations with respect to its product with the probability of success |
| C90 | `Model/Names.lean`: a `ParameterSpaceState` as an object with an instance dictionary (`newObj`, `PSObj.set`, `PSObj.item`, `PSObj.save`, `PSObj.copy`), `copyAll` for the spaces of a `State`, `copying` for perturbations | induction over the loop of `__post_init__`: an attribute that has become the value of a parameter remains one, others are left alone; induction over the attempts of an iteration; C90_refines relates the objects to the records `PSState` of the other models |
| C91 | `Model/Report.lean`: `Chain.report` (`print_statistics`: the rates, not the texts), `Chain.advanceP` (`advance_chain` with `verbose`, `print_every` and hooks that may be `None`) | the invariant of C05 with positive entries, kept by all updates of the statistics; induction over the iterations |
| C92 | `Model/AddTargets.lean`: `SharedLL.addTargets`, `notifyAll`, `Live.update` (`update_log_likelihood_targets`), `LiveChain.updateTargets`; runs as in C32 | relation between the inversions before and after; `InForce` (coherent caches, noise within bounds, no unknown predictions) kept by additions, perturbations and evaluations; progress: the proof of C66 for any set of states that chains do not leave, applied to the states reachable with additions (`Lived`) |
| C93 | `Model/Exceptions.lean`: `Exc.wrap` (constructors of `ForwardException`, `UserFunctionException`), `wrapperOutcome`, `forwardOutcome`, `Exc.transport` (pickling), `Named.display` | `Reports` (end of the text), `SameToUser`; case analysis, induction on the number of transports |
| C94 | `Model/Select.lean`: `pyAt`, `pyTake`, `pyMask` (indexing of Python and NumPy), `PSState.select` (`__getitem__`) ; the constructor is that of the other models (`mkPS`) | `SelectedDims` (entry by entry), `Means` (indices and dimensions); induction on the indices and the parameters |
| C95 | `Model/StateObject.lean`: `initTop` (`State.__post_init__`), `setTop`, `getTop`, `setAllTop` (sequences of settings) | the last setting that did not fail; induction on the items and on the sequence |
| C70, C71 | statistics and densities of ensembles, with NumPy's functions by their definitions | ranks by counting, sorted lists; bins of equally spaced numbers |
| C62, C63 | KD-tree cache, nested births | invariant; failing nested cases by witness |

The table is the plan; the outcome is in "Status".

## Disagreements between the code and its documentation or evident intention

Each is proved of the model (theorem named) unless marked otherwise.

* Parallel tempering: the burn-in and the phase of the saving schedule are counted per batch of
  `swap_every` iterations (C38_false_burnin, C38_false_phase); a second `run` does not continue the
  schedule (C43_tempering_false, C43_annealing_false); the exponent of a swap is divided by the
  temperature of the chain drawn first once too often, so swaps are not reversible (C41_false,
  C41_false_order, C41_not_balanced) and the states at temperature 1 do not stay in equilibrium
  (C87_lower, C87_whole, C87_not_kept); the last temperature is not the maximum when there are few chains
  (C40_false_last, C40_false_single).
* `_next_iteration` (`_markov_chain.py` lines 201-244) makes another proposal when a forward function
  fails, instead of rejecting the proposal; the samples follow the posterior times the probability
  that a proposal does not fail (C89_sampled), which is not the posterior (C89_three).
* `add_on_end_advance_chain` functions are never called (C44_end_advance_false).
* The setter of `chains` has its check inverted (C53_rejects_chains, C53_accepts_others).
* `get_results` for states that are not `State`/`dict` (C54_other_states, C54_never_list).
* `CustomPrior.perturb_value` raises `UnboundLocalError` outside births (C19_always_raises).
* A plain `ParameterSpace` in a discretization with `birth_from="neighbour"` can never be born
  (C63_plain_never).
* Attributes of states keep old values after value and noise perturbations (C60_values_not,
  C60_noise_not); they stay so in later copies of nested states.
* Predicted data are never reused after a perturbation of the noise, since the keys of the cache
  differ from those looked up (C33_never_reused).
* A state whose likelihood was not evaluated is saved without predicted data, so that lists of
  samples get out of step (C08).
* The draw 0 makes `math.log(random.random())` raise (C66_zero_draw); `save_every=0` raises
  (C66_period_zero).
* Redrawn proposals of noise parameters and sites report a ratio that leaves out the normalisation
  (C24).  For the noise the effect is determined: hierarchical inversions sample the posterior times the probability that the
  perturbed noise parameters are within their bounds at the first attempt, and never the posterior itself (C76).  For sites likewise: tessellations with
  a fixed number of cells sample the posterior times, for each site, the probability that a step from there stays in the domain,
  and no `Voronoi1D` or `Voronoi2D` leaves the posterior invariant (C77).  Inversions that combine such spaces and unknown noise
  sample the posterior times the product of all these probabilities (C78).  An iteration of an inversion preserves the posterior
  exactly if there is no tessellation and no unknown noise (C80).
* Duplicate parameter names replace each other silently (C55_duplicate_parameters); a space with
  nothing to perturb still gets an empty group (C56_empty_group); duplicate targets and bad forward
  functions leave the likelihood modified (C35).
* `set_perturbation_funcs` with the list of weights in force (C52_alias), with `None` (C52_none).
* `ParameterSpaceState` checks lists up to the first element only and fails on empty lists
  (C61_list_accepted, C61_empty_list); most non-functions are accepted as user functions
  (C57_not_rejected).
* Nested `Voronoi2D` states of newborn cells have no kd-tree (C62); births and deaths beyond the bounds
  rewrite the cached tree of the current state (C59_tree_not).
* Arrays of objects share their members with copies (C58_objs_not).
* A Gaussian or Laplacian prior the mean, standard deviation or scale of which depends on the position in the plane raises when two
  or more cells are initialized, since `np.isnan` of an array has no truth value (C84_plane_raises).
* `get_tessellation_density` with positions that are not equally spaced counts several positions in one column
  (C71_uneven_counterexample); ensembles with fewer arrays of sites than of values get samples of zeros
  (C70_missing_counterexample).
* Cython: undefined behaviour for single sites (C49), for fewer than three data with correlated
  noise (C28), for out-of-range indices (C45).
* Parameters with the names of attributes or methods of `ParameterSpaceState` are accepted and hide them (C90_usable_iff); with the
  names `copy`, `n_dimensions` and `param_values` no iteration is completed (C90_no_iteration).
* The default arguments `begin_iteration=None` and `end_iteration=None` of `advance_chain` raise `TypeError` (C91_no_begin,
  C91_no_end); `print_every=0` and printing before the first proposal raise `ZeroDivisionError` (C91_print_every_zero,
  C91_report_zero).
* `update_log_likelihood_targets` gives an inversion the default perturbations, so that those set by `set_perturbation_funcs` are
  silently lost when a target is added (C92_custom_lost).  Targets added to a likelihood made of `log_like_func` or
  `log_like_ratio_func` are accepted, their noise is perturbed, but they are ignored by the ratio (C92_ignored).  `initialize` leaves
  cached predictions in place, which are stale if a forward function looks at the noise (C92_stale_counterexample).
  After an addition of coinciding names no further addition succeeds (C92_stuck).  The lists of saved values are no longer
  aligned if states had been saved before (C92_misaligned).
* An exception of a user's function whose attribute `message` is not a string is lost: building `UserFunctionException` raises
  `TypeError`, which ends the run unless it was a forward function (C93_message_counterexample). All the other models leave
  such exceptions out.
* `ps_state[[]]` raises `IndexError` if a parameter is a list of nested states (C94_empty_counterexample), though it works for arrays. Boolean lists,
  which NumPy takes for masks, are rejected unless all entries are true (C94_mask_counterexample), and taken for the indices 1 and 0 by lists
  of nested states (C94_mask_list).
* Not formalised: a parameter named "discretization" collides with the sites of a discretization.

## Status

<!-- status: generated by tools/manifest.py -->
| Id | Status | Notes |
|----|--------|-------|
| C01 | proved | Exact Lebesgue measure of the accepting draws, for every number of abandoned attempts before the proposal; exact reals. |
| C02 | proved | Independence of the likelihood function is part of the statement; the draw 0 (math.log(0) raises) is covered separately. |
| C03 | proved | For hooks that leave the counters alone. |
| C04 | proved | Characterisation of failed attempts, retries, RuntimeError after 500, other exceptions, absence of traces. |
| C05 | proved | Invariant over all histories of completed iterations. |
| C06 | proved | Schedule and number of samples; temperature other than 1 saves nothing. |
| C07 | proved | Any store; instance for the library's states, under each key; permanence whatever the outcome. |
| C08 | partial | False of the code: a state whose likelihood has not been evaluated yet is saved without predicted data (counterexample run). Proved for runs in which no proposal has an infinite ratio. |
| C09 | proved | For arbitrary state spaces, priors, likelihoods, finite families of proposals with densities, weights and temperature. The law of the state after one iteration is that of the model of the code (Chain.next) under uniform draws for the choice of the perturbation and for the acceptance test and an arbitrary law of the draws of the perturbations. A proposal and its reverse must have the same weight; perturbations and likelihood raise no exceptions (for the retries after exceptions see C89). C09_values instantiates it with the value perturbations of the built-in priors. |
| C10 | proved | For every parameterization whose spaces have distinct names (names of nested spaces included) and ordered bounds; every history of the built-in perturbations. |
| C11 | proved | For every parameterization whose spaces have distinct names (names of nested spaces included) and ordered bounds; every history of the built-in perturbations. |
| C12 | proved | For every parameterization whose spaces have distinct names (names of nested spaces included) and ordered bounds; every history of the built-in perturbations. |
| C13 | proved | For every parameterization whose spaces have distinct names (names of nested spaces included) and ordered bounds; every history of the built-in perturbations. The polygon is an arbitrary predicate. |
| C14 | proved | Births insert one row (site with the values of all parameters there), deaths remove one, moves change the site of one and permute; nested states included as entries. |
| C15 | proved | For every parameterization whose spaces have distinct names (names of nested spaces included) and ordered bounds; every history of the built-in perturbations. Bounds may be position dependent; user initialization functions are assumed to respect them. |
| C16 | proved | all states that a chain of an inversion can visit (set Visits; C64 relates it to the runs of the samplers); target names distinct and bounds ordered, as the constructors check |
| C17 | proved | For every parameterization whose spaces have distinct names (names of nested spaces included) and ordered bounds; every history of the built-in perturbations. |
| C18 | proved | built-in priors; hyper-parameters that depend on the position included; log prior proved equal to the log of the density |
| C19 | partial | False of the code: outside births every perturbation of a custom prior's value raises UnboundLocalError (C19_always_raises). Proved for births. |
| C20 | proved | A value perturbation changes exactly one entry of each listed prior parameter, at the chosen instance, and its reported ratio is the difference of the total log prior of the new and the old values (sums over all instances); stated for every space, state and draw tape. |
| C21 | proved | For plain spaces and 1D/2D tessellations, births from the prior and from the neighbour, nested tessellations included; the state is restored with its cached tree. |
| C22 | proved | Ratio for arbitrarily nested tessellations (C22_neighbour_ratio); draws on the tape for spaces without nested ones (C22_draws) and for each single value at any depth (C22_value_draw). |
| C23 | proved | parameter spaces, Voronoi1D and Voronoi2D (with or without a polygon) all of whose parameters are priors, with births from the prior; models up to the order of the rows; any likelihood and temperature; a custom prior's sampler is assumed to have the density and to use one random number; spaces with nested spaces as parameters are not covered |
| C24 | partial | The law of the redrawn proposals is derived from the loops of the code on an endless tape of normal deviates (conditional Gaussian law, with density), for noise and for sites on a line and in the plane. C24 is false of the code: the ratio reported leaves the densities of the proposals out. The correct ratio vanishes only for moves that keep or mirror the value (iff, for noise and for sites on a line), in the plane exactly for moves between sites from which a step is equally likely to stay in the domain (C24_plane_iff; in a rectangle, for moves along an axis, only those that keep or mirror the site). Witness runs and the cases in which it holds are proved. |
| C25 | proved | The enumeration of instances is complete and without repetition; exactly one is replaced. Hypothesis: dictionaries have distinct keys and no list of nested states is empty (the constructors raise otherwise). Uniformity: relative to the uniform distribution of the number drawn by randint. |
| C26 | proved | At the level of the chain and within a parameter space; probability over the continuum of uniform draws. |
| C27 | proved | For every list of targets with admissible noise (correlated noise needs n >= 3, see C28); exact reals. |
| C28 | partial | Proved for n >= 3; for n <= 2 the Cython function writes out of bounds, proved as undefined behaviour. |
| C29 | proved | For targets whose noise is inferred. |
| C30 | proved | Includes the error branch for predictions of the wrong size. |
| C31 | proved | Targets and user log likelihoods; additivity fails for infinite log likelihoods (inf - inf), proved as counterexample. |
| C32 | proved | All histories; evaluation equals evaluation without cache; at most one successful forward call per state and target. |
| C33 | partial | False of the code, in every case: no predicted data are carried over and all forward functions are called again (C33_never_reused). |
| C34 | proved | Success iff the documented precedence selects a way; error classes covered. |
| C35 | partial | False of the code: duplicates and bad forward functions leave the likelihood modified (counterexamples). Proved: non-targets are rejected without effect; success adds everything. |
| C36 | proved | every chain makes exactly n iterations; with worker processes each result depends on its own chain and draws only, in a single process the draws and the outside world are threaded |
| C37 | proved | also termination, independence of the fuel, and that swap_every >= 1 is needed |
| C38 | partial | false in general (C38_false_burnin, C38_false_phase); C38_actual states exactly what is saved, C38_partial when the schedule is the intended one |
| C39 | proved | for the temperatures of the chains and those carried by the states, however a run ends |
| C40 | partial | C40_partial: all claims but the last temperature, for at least two chains; C40_last_partial: the last temperature when there are more chains than the documented number of ones; false otherwise (C40_false_last, C40_false_single) |
| C41 | partial | false (C41_false, C41_false_order, C41_not_balanced): the exponent is divided by the temperature of the chain drawn first once too often; C41_partial: right when that temperature is 1 |
| C42 | proved | temperatures of all iterations of a fresh run, their course, and the temperature of the saved samples |
| C43 | partial | holds for VanillaSampler (C43_vanilla_partial); false for ParallelTempering and SimulatedAnnealing (C43_tempering_false, C43_annealing_false) |
| C44 | partial | proved for the functions called on initialization, at the beginning and at the end of iterations; false for add_on_end_advance_chain, whose functions are never called (C44_end_advance_false) |
| C45 | proved | insert_1d/delete_1d refine list insertion/deletion for every index; out-of-range indices are shown to be undefined behaviour. |
| C46 | proved | Sorted non-empty arrays; the theorem is shown to need sortedness, and no sites is undefined behaviour. is_sorted is not used elsewhere in the code; for an empty array it reads out of bounds. |
| C47 | proved | Over an arbitrary linearly ordered field. |
| C48 | proved | Includes the list version used by interpolate_tessellation. |
| C49 | partial | Proved for n >= 2 sites; for n = 1 (and n = 2 with lb = -inf) the Cython code reads an unassigned variable, proved as undefined behaviour. |
| C50 | proved | For at least two sites; the error branches are covered. |
| C51 | partial | Proved for n >= 2 sites and ascending non-negative queries; counterexamples for unsorted and negative queries are proved. |
| C52 | partial | Acceptance is characterised exactly (C52_accepts) and what is in force afterwards too (C52_in_force). On rejection the previous perturbations stay in force, the exception is as stated, and only the list of weights that was given may have changed. As stated the property is false: giving the list of weights in force again leaves it modified after a ValueError (C52_alias); None among the functions raises AttributeError after the replacement (C52_none). |
| C53 | partial | False as stated: the check is inverted (C53_rejects_chains, C53_accepts_others). Proved: non-lists raise TypeError, and on acceptance n_chains is the length. |
| C54 | partial | Proved for states of type State/dict: concatenation in chain order of each requested key; without concatenation one entry per chain that has saved something under the key. False for other states: dict() of the list of states raises or misconverts, the list is never returned (C54_other_states, C54_never_list); chains that have nothing under a key are skipped. |
| C55 | partial | Space names: proved (C55_spaces). Parameter names within a space: false, equal names silently replace each other before the check (C55_duplicate_parameters); proved what results instead. |
| C56 | partial | C56_groups_partial: one group per nested space (the enumeration is exactly the nested spaces), members, weights and sums as declared; C56_positive: the groups of positive weight are exactly one per space with something to perturb; C56_inversion: alignment of functions and weights incl. the noise perturbation. The literal claim is false of the code: a space with nothing to perturb still gets an empty group of weight 0 (C56_empty_group). |
| C57 | partial | Proved: supported descriptions are called as stated and every exception becomes a UserFunctionException; what is rejected at setup is characterised exactly (C57_rejected). False: most other objects are accepted at setup (C57_not_rejected). |
| C58 | partial | Model with objects and references (Model/Heap). The copy has equal parameters and temperature at any nesting depth, no cache and no extra storage (C58_value, C58_no_caches); any later modifications of one leave the other unchanged when no parameter is an array of objects (C58_independent_partial, C58_space_partial). Missing: arrays of Python objects, the members of which the copy shares with the original (C58_objs_not: the claim is false there). |
| C59 | proved | Model with objects and references. No proposal, successful or not, changes an array, a parameter-space state or a state that existed before, up to the cached kd-tree of a parameter-space state (C59_proposal); without nested Voronoi2D discretizations not even that (C59_proposal_same). C59_tree_not: Voronoi2D births and deaths beyond the bounds do rewrite the cached tree of the current state. C59_history: over whole runs. |
| C60 | partial | C60_history_partial: over every history, attribute and item are the same object for all names never changed by ParamPerturbation or NoisePerturbation; C60_sites: always, without such functions. False otherwise: the attributes keep the values from before (C60_values_stale, C60_noise_stale, with witnesses C60_values_not, C60_noise_not). |
| C61 | partial | Exact characterisation of what is constructed. False as stated: lists are checked up to the first element only (C61_list_accepted), empty lists raise IndexError (C61_empty_list). |
| C62 | partial | Proved: a cached tree always belongs to the current sites, and top-level states always have one. False for nested spaces: states of newborn cells have no tree (proved). |
| C63 | partial | False of the code for a plain ParameterSpace nested in a discretization with birth_from="neighbour" (C63_plain_never: no birth ever succeeds). Proved for all inversions meeting SpaceSafe, which excludes this nesting: no birth in any space of any visited state raises. |
| C64 | proved | registered user functions are assumed to keep the current states in the set |
| C65 | proved | For states the values of which have finite log prior at the old site; the sum over all parameters with position-dependent priors. |
| C67 | proved | Construction of the four prior classes. The interpolation in the plane is an arbitrary function (SciPy). |
| C66 | proved | Conditions in Spec/Progress (RunSafe): at least one dimension, priors defined with positive widths on the domain, no custom priors (C19) and no plain space under neighbour births (C63), names without "n_dimensions", admissible noise bounds. C66_zero_draw and C66_period_zero show that the exceptions listed do occur. |
| C68 | proved | Refinement between the two models of perturbations. C68_proposal: same draws, exceptions, ratio and contents for every heap representing the state (sharing allowed, k-d trees ignored). C68_same_value: two representations of one value. C68_visits and C68_visited: the contents visited by chains on the heap are exactly those visited by chains on values, with arbitrary other proposals, copies and cache changes in between. C68_conform: C10-C13 for objects. Likelihoods and saving are modelled on values only. |
| C69 | proved | The law of the model after n calls of the modelled iteration (Chain.advance of the configuration that BayesianInversion builds, run on a tape of independent draws), not of an idealised kernel. Plain parameter spaces with built-in priors whose hyperparameters are constants, at least one dimension, births from the prior, fixed noise, a measurable log likelihood. Indices are drawn from numbers uniform below a common multiple of the dimensions. Voronoi spaces, nested spaces and hierarchical noise are not covered (the moves of sites and noise report wrong ratios near their bounds, C24). |
| C70 | partial | Proved for tessellations given by their sites, on the line (C70_statistics) and in the plane (C70_plane, for any exact nearest-neighbour query), with uniqueness of all the numbers (C70_unique), monotone percentiles and independence of the order of the samples. For cell extents only with positions in ascending order, none negative, and two or more cells (C70_extents_partial; false otherwise, C51, C49). Numbers of samples that do not match are not noticed: missing ones count as zeros (C70_missing_counterexample). NumPy's functions are modelled by their definitions without rounding. |
| C71 | partial | The total mass is 1 whenever a density is returned (C71_normalised). One column per position is proved for equally spaced positions, given or computed (C71_columns_partial, C71_columns_number_partial), and false otherwise: the bins are always equally spaced, so that positions share columns and other columns stay empty (C71_uneven_counterexample). |
| C72 | proved | Total variation, uniformly over all measurable sets, for the modelled Chain.advance on a tape of independent draws. Plain parameter spaces as in C69; the standard deviations of the perturbations are not 0 and the posterior has finite mass; the start has a density with respect to the prior. No rate of convergence is given. |
| C73 | proved | Convergence in probability for the models read back from the store of the modelled Chain.advance, jointly for all keys. Same inversions as C72, temperature 1, keys of the saved values distinct (otherwise values overwrite one another). Almost sure convergence and rates are not stated. |
| C74 | proved | From p.newChains to the dictionary of get_results, over one tape for the main process and one per job. Convergence in probability; same inversions as C69, keys of the saved values distinct, priors without user initialization. The draws of the other processes are independent of those of the main one, which is an assumption about joblib's seeding (runLaw). |
| C75 | proved | Voronoi1D and Voronoi2D all of whose parameters are priors (no nested spaces), births from the nearest neighbour, at least one dimension; models up to the order of the rows. Ties for the nearest site have probability 0. Over the reals; the kd-tree is assumed to give the nearest site, as elsewhere. |
| C76 | proved | The consequence of C24 for the noise: what is sampled is determined exactly, and it is not the posterior (a disagreement with the documentation, recorded in DESIGN.md). The other perturbations and the likelihood enter through the conditions of C09 (`Beside`); the chains that the library constructs have this form (`cfg_addNoise`). One iteration; over the reals. |
| C77 | proved | Joins C23 and C75 (births and deaths), the perturbations of the values and C24 (sites redrawn without correction) into the chain with `Space.ownFuncs` and its weights.  What is sampled is determined for ParameterSpace and for tessellations with a fixed number of cells; with births only the negative statement is proved, since births and moves of sites are in balance with different distributions.  A disagreement with the documentation, recorded in DESIGN.md.  One space with priors only (no nested spaces); one iteration; over the reals; parameters are ordered as in the dictionary and models are unordered cells. |
| C78 | proved | At the level of the library: `Problem.cfg`, the chain that `BayesianInversion` sets up, on `State` with all parameter spaces and the noise.  Tessellations with a varying number of cells are left out, since no distribution that they sample is known (C77: never the posterior).  Spaces with priors only (no nested spaces); one iteration without the callbacks of the user; over the reals.  A disagreement with the documentation unless there are no sites and no unknown noise, recorded in DESIGN.md. |
| C79 | proved | The random numbers of different iterations are independent; those of one iteration are as in C78.  An iteration counts only if it returns without an exception and uses exactly its draws (`IterationsLaw`).  The callbacks of the sampler do nothing (the default sampler).  `PlainNames` (no name contains 'n_dimensions') is needed for saving, since `_save_state` otherwise takes the entry for a number of dimensions.  Distribution as in C78: not the posterior as soon as there are sites or unknown noise. |
| C80 | proved | Models and draws as in C78, for all kinds of spaces.  For births around the nearest cell, models are in general position (no two sites coincide, none is as far from a second as from a third one), which has prior probability 1.  The posterior is required to be finite.  `C80_exactly` contains C78's positive result for inversions without sites and unknown noise. |
| C81 | proved | Chains as in C79 (`Ready`: the cache belongs to the model, statistics are kept by sub-type; `PlainNames`: no name contains "n_dimensions"), spaces as in C80. |
| C82 | proved | Chains as in C79 (`Ready`, `PlainNames`), spaces `Roaming`: those of C78 with standard deviations other than 0 and, for tessellations, `Overlaps` (the domain is covered by neighbourhoods, each of which meets the next, in which any two sites have possible values in common).  On a line this follows if the bounds of uniform priors are constant or given at nodes in increasing order (`C82_line`).  No rate of convergence is claimed.  Tessellations with a varying number of cells are not covered: they have no distribution that the moves preserve and that is known (C80). |
| C83 | proved | As C82 at temperature 1 (nothing is saved otherwise).  The saved lists are those of the store of the chain: what they gain is, under every key, the contribution (C07) of the saved states in order.  All possible first chains have completed the same number of iterations.  No rate of convergence is claimed. |
| C84 | proved | The draws of the start are given as in C74: a uniform number modulo the number of choices for the dimension, uniform numbers for sites and noise, the deviates of the priors for the values.  The numbers in the arrays that the library does not initialize are arbitrary.  In the plane, sites are drawn anew until one is in the domain.  For spaces with a user's function for initialization nothing is claimed.  C84_applies shows that all inversions of C80-C83 initialized by the library have such starts. |
| C85 | proved | For samplers without functions registered by the user.  The draws of an iteration are given as in C79; they do not depend on the temperature.  C85_again is about any chain, not only those of whole inversions. |
| C86 | proved | For samplers without functions registered by the user and the default arguments of get_results.  The draws of different chains are independent, also if they are advanced by several processes, which is an assumption about joblib's seeding as in C74. |
| C87 | proved | The consequence of C41 for what is sampled; recorded among the disagreements.  One chain is hot; several hot chains are not covered. |
| C88 | proved | For samplers without functions registered by the user and the default arguments of get_results; independent draws in several processes as in C86.  Which distribution the samples approach is not claimed (C87 shows that the swaps do not keep the posterior). |
| C89 | proved | Recorded among the disagreements.  Perturbations of the library do not fail; the failures of C89_sampled, C89_completed and C89_outside are those of the likelihood (with several targets, of the first forward function that raises).  The general refutation (failing_not_posterior) is a lemma; C89_three is its concrete case, for a BaseBayesianInversion. |
| C90 | proved | Recorded among the disagreements. Objects of nested states are values here, so a nested space whose state cannot be copied is not covered. Empty arrays as n_dimensions raise, as in NumPy 2.2 and later. |
| C91 | proved | The texts around the rates, their rounding and the order of the lines are not part of the claim. The default arguments of advance_chain with which it raises are recorded among the disagreements. |
| C92 | proved | Targets are added together with as many callable forward functions (the other uses of add_targets are in C35). That perturbations set by the user are lost, that targets added to a likelihood made of a function are ignored, and that forward functions looking at the noise make cached predictions stale, and that the saved lists are no longer aligned, is recorded among the disagreements. |
| C93 | proved | Exceptions are records of class, text, message, args and whether they are derived from Exception; how Python pickles exceptions is part of the model. That exceptions with a message that is not a string are lost is recorded among the disagreements. |
| C94 | proved | Values of states; that nested states are copied is C58. That the empty selection and Boolean lists do not work is recorded among the disagreements. |
| C95 | proved | The dictionary param_values; attributes are in C60, names that hide attributes in C90. |
