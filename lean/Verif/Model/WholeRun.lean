import Verif.Model.Inversion
import Verif.Model.Samplers
import Verif.Model.Results

/-!
# Model of a whole inversion: construction, `run` and `get_results`

`/repo/src/bayesbay/_bayes_inversion.py` lines 202-331 and 396-425, `/repo/src/bayesbay/_markov_chain.py` lines 337-364.
-/

namespace BB

variable {E : Type}

/-- `MarkovChain.__init__`, `_markov_chain.py` lines 337-358 (with 37-54): the starting state, temperature 1, and nothing saved
(`w` is the outside world).  The temperature of the starting state is 1 already, so that the setter of `temperature` changes
nothing. -/
noncomputable def Problem.newChain (p : Problem) (w : E) : M (Chain State Store E) := do
  let s ← p.start
  return Chain.init s [] 1 w

/-- The chains of a `BayesianInversion` with `n_chains = k`, `_bayes_inversion.py` lines 414-424: one after the other. -/
noncomputable def Problem.newChains (p : Problem) (k : ℕ) (w : E) : M (List (Chain State Store E)) := M.times k (p.newChain w)

/-- `VanillaSampler()` without registered functions. -/
def vanillaSampler : SamplerDef State Store E :=
  vanilla { onInit := Act.skip, onBegin := Act.skip, onEnd := Act.skip, onEndAdvance := Act.skip }

/-- `BayesianInversion(parameterization, log_likelihood, n_chains=k, save_dpred)` and then
`run(n_iterations=n, burnin_iterations=b, save_every=s, parallel_config)` with the default sampler, lines 240-253.  `nJobs` is
the entry `n_jobs` of `parallel_config`, if there is one; `work` are the draws of the other processes.  The value are the
chains. -/
noncomputable def Problem.sample (p : Problem) (k : ℕ) (nJobs : Option ℤ) (work : ℕ → ℕ → List Draw) (n b s : ℤ) (w : E) :
    M (List (Chain State Store E)) := fun t =>
  match p.newChains k w t with
  | (.error e, t) => (.error e, t)
  | (.ok cs, t) =>
    match inversionRun vanillaSampler (vanillaRun p.cfg ⟨some (nJobs.getD cs.length), work⟩ vanillaSampler n b s) ⟨cs, w, 0⟩ t with
    | (.error e, _, t) => (.error e, t)
    | (.ok _, samp, t) => (.ok samp.chains, t)

open Classical in
/-- The same, and then `get_results()`, lines 255-331, with the default arguments.  What `getResults` needs to know about objects
that are states of other types does not matter here. -/
noncomputable def Problem.results (p : Problem) (k : ℕ) (nJobs : Option ℤ) (work : ℕ → ℕ → List Draw) (n b s : ℤ) (w : E) :
    M (Results SVal) := fun t =>
  match p.sample k nJobs work n b s w t with
  | (.error e, t) => (.error e, t)
  | (.ok cs, t) => (getResults (fun _ => .int 0) (fun _ => true) (fun _ => .error .typeError)
      (.list (cs.map fun c => some (.dict c.saved))) .all true, t)

/-- The same with `run(sampler=SimulatedAnnealing(temperature_start=T0), n_iterations=n, burnin_iterations=b, …)`: the sampler without
registered functions, `samplers/_samplers.py` lines 367-430. -/
noncomputable def Problem.annealedSample (p : Problem) (T0 : ℝ) (k : ℕ) (nJobs : Option ℤ) (work : ℕ → ℕ → List Draw) (n b s : ℤ) (w : E) :
    M (List (Chain State Store E)) := fun t =>
  match p.newChains k w t with
  | (.error e, t) => (.error e, t)
  | (.ok cs, t) =>
    match inversionRun (annealing p.cfg T0 (Real.log T0 / b) b vanillaSampler)
        (saRun p.cfg ⟨some (nJobs.getD cs.length), work⟩ vanillaSampler T0 n b s) ⟨cs, w, 0⟩ t with
    | (.error e, _, t) => (.error e, t)
    | (.ok _, samp, t) => (.ok samp.chains, t)

open Classical in
/-- The same, and then `get_results()`. -/
noncomputable def Problem.annealedResults (p : Problem) (T0 : ℝ) (k : ℕ) (nJobs : Option ℤ) (work : ℕ → ℕ → List Draw) (n b s : ℤ) (w : E) :
    M (Results SVal) := fun t =>
  match p.annealedSample T0 k nJobs work n b s w t with
  | (.error e, t) => (.error e, t)
  | (.ok cs, t) => (getResults (fun _ => .int 0) (fun _ => true) (fun _ => .error .typeError)
      (.list (cs.map fun c => some (.dict c.saved))) .all true, t)

/-- The same with `run(sampler=ParallelTempering(temperature_max=tmax, chains_with_unit_temperature=fraction, swap_every=e), …)`: the sampler
without registered functions, `samplers/_samplers.py` lines 277-364.  `fuel` bounds the number of batches; the value is `none` if the loop
of lines 353-363 has not ended by then. -/
noncomputable def Problem.temperedSample (p : Problem) (fraction tmax : ℝ) (e : ℤ) (k : ℕ) (nJobs : Option ℤ) (work : ℕ → ℕ → List Draw)
    (n b s : ℤ) (w : E) (fuel : ℕ) : M (Option (List (Chain State Store E))) := fun t =>
  match p.newChains k w t with
  | (.error e, t) => (.error e, t)
  | (.ok cs, t) =>
    match inversionRun (tempering p.cfg fraction tmax vanillaSampler)
        (ptRun p.cfg ⟨some (nJobs.getD cs.length), work⟩ (tempering p.cfg fraction tmax vanillaSampler) e n b s fuel) ⟨cs, w, 0⟩ t with
    | (.error e, _, t) => (.error e, t)
    | (.ok none, _, t) => (.ok none, t)
    | (.ok (some _), samp, t) => (.ok (some samp.chains), t)

open Classical in
/-- The same, and then `get_results()`. -/
noncomputable def Problem.temperedResults (p : Problem) (fraction tmax : ℝ) (e : ℤ) (k : ℕ) (nJobs : Option ℤ) (work : ℕ → ℕ → List Draw)
    (n b s : ℤ) (w : E) (fuel : ℕ) : M (Option (Results SVal)) := fun t =>
  match p.temperedSample fraction tmax e k nJobs work n b s w fuel t with
  | (.error e, t) => (.error e, t)
  | (.ok none, t) => (.ok none, t)
  | (.ok (some cs), t) => (match getResults (fun _ => .int 0) (fun _ => true) (fun _ => .error .typeError)
      (.list (cs.map fun c => some (.dict c.saved))) .all true with
    | .error e => .error e
    | .ok r => .ok (some r), t)

end BB
