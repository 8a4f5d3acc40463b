import Verif.Spec.WholeStart
import Verif.Spec.PlainRun

/-!
# Specification: whole inversions with several chains and their results
-/

namespace BB.Spec

open BB BB.Props BB.Lemmas MeasureTheory

section

variable {S σ E Θ : Type} [MeasurableSpace Θ] (cfg : ChainCfg S σ) (burnin saveEvery : ℤ) (beginIt endIt : Act (Chain S σ E) Unit)
  (enc : Fin cfg.perturbs.length → S → Θ → List Draw) (draws : Measure Θ)

/-- The mean of a function (which is not negative) of the draws of `n` iterations from a chain; iterations that raise an exception or do
not use all of their draws are left out. -/
noncomputable def iterationsMean : ℕ → Chain S σ E → (List Draw → ENNReal) → ENNReal
  | 0, _, F => F []
  | n + 1, c, F => ∫⁻ ω, (match Chain.iteration cfg burnin saveEvery beginIt endIt c (iterationDraws cfg enc c.cur ω) with
    | (.ok _, c', []) => iterationsMean n c' fun t => F (iterationDraws cfg enc c.cur ω ++ t)
    | _ => 0) ∂unit.prod (draws.prod unit)

/-- The mean of a function of the draws of several chains, each of which makes `n` iterations; the draws of different chains are
independent. -/
noncomputable def chainsMean (n : ℕ) : List (Chain S σ E) → (List (List Draw) → ENNReal) → ENNReal
  | [], F => F []
  | c :: cs, F => iterationsMean cfg burnin saveEvery beginIt endIt enc draws n c fun t => chainsMean n cs fun ts => F (t :: ts)

end

section

variable {E : Type} (p : Problem) (S : ℕ → Beginning)

/-- The mean of a function of the draws of the construction of `k` chains. -/
noncomputable def startsMean : ℕ → (List Draw → ENNReal) → ENNReal
  | 0, F => F []
  | k + 1, F => ∫⁻ θ, startsMean k (fun t => F (startDraws p S θ ++ t)) ∂Measure.pi fun i : Fin p.cfg.perturbs.length => (S i).draws

/-- The mean of a function of the draws of a run with `k` chains: those of the construction, and those of the `n` iterations of each of
the chains, which the sampler has modified by `init` before. -/
noncomputable def runMean (init : Chain State Store E → Chain State Store E) (beginIt endIt : Act (Chain State Store E) Unit)
    (b s : ℤ) (k n : ℕ) (w : E) (F : List Draw → List (List Draw) → ENNReal) : ENNReal :=
  startsMean p S k fun t => match p.newChains k w t with
    | (.ok cs, []) => chainsMean p.cfg b s beginIt endIt (wholeDraws p fun i => (S i).block) (wholeLaw p fun i => (S i).block) n
        (cs.map init) (F t)
    | _ => 0

/-- The results are what the states `sts` contribute (C07), in this order. -/
def ResultsOf (res : List (String × List (BB.Entry SVal))) (sts : List State) : Prop :=
  ∀ k, resultsUnder k res =
    (sts.flatMap (contribution (some (p.spaces.map fun kv => (kv.1, kv.2.info.transD))) p.saveDpred k)).map .one

open Classical in
/-- The probability that a program returns a dictionary with property `Q`.  Its draws are those of the construction followed by those of
the chains, one after the other; the draws of the chains are also those of the other processes, if it has any. -/
noncomputable def returns (run : (ℕ → ℕ → List Draw) → M (Results SVal)) (Q : List (String × List (BB.Entry SVal)) → Prop)
    (t : List Draw) (ts : List (List Draw)) : ENNReal :=
  if ∃ res t', run (fun _ j => ts.getD j []) (t ++ ts.flatten) = (.ok (.named res), t') ∧ Q res then 1 else 0

/-- The probability that `BayesianInversion(…, n_chains=k)`, `run(n_iterations=n, burnin_iterations=b, save_every=s)` with `nJobs`
processes and `get_results()` return results with property `Q`. -/
noncomputable def ResultsLaw (k : ℕ) (nJobs : Option ℤ) (n : ℕ) (b s : ℤ) (w : E) (Q : List (String × List (BB.Entry SVal)) → Prop) : ENNReal :=
  runMean p S id Act.skip Act.skip b s k n w (returns (fun work => p.results k nJobs work n b s w) Q)

/-- The same for a run by simulated annealing that starts at temperature `T0`. -/
noncomputable def AnnealedResultsLaw (T0 : ℝ) (k : ℕ) (nJobs : Option ℤ) (n : ℕ) (b s : ℤ) (w : E)
    (Q : List (String × List (BB.Entry SVal)) → Prop) : ENNReal :=
  runMean p S (fun c => c.setTemp p.cfg T0) (annealing p.cfg T0 (Real.log T0 / b) b vanillaSampler).beginIteration
    (annealing p.cfg T0 (Real.log T0 / b) b vanillaSampler).endIteration b s k n w
    (returns (fun work => p.annealedResults T0 k nJobs work n b s w) Q)

end

end BB.Spec
