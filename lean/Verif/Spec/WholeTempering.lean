import Verif.Spec.WholeResults
import Verif.Spec.TemperingSwaps

/-!
# Specification: whole inversions by parallel tempering
-/

namespace BB.Spec

open BB BB.Props BB.Lemmas MeasureTheory

/-- The batches of a run of `n` iterations with burn-in `b` that is divided into batches of `e` iterations: the number of iterations and the
burn-in of each.  The last batch has no iterations. -/
def batches (e n : ℕ) (b : ℤ) : List (ℕ × ℤ) :=
  (List.range ((n + e - 1) / e + 1)).map fun i => (min e (n - min (i * e) n), max 0 (min e (b - (min (i * e) n : ℕ))))

/-- The random numbers of a batch: those of the iterations of each chain, and those of the swaps. -/
abbrev BatchDraws := List (List Draw) × List Draw

/-- The random numbers that the main process uses in a batch: all of them, unless other processes make the iterations. -/
def batchTape (nJobs : ℤ) (x : BatchDraws) : List Draw := if 1 < nJobs then x.2 else x.1.flatten ++ x.2

section

variable {S σ E Θ : Type} [MeasurableSpace Θ] (cfg : ChainCfg S σ) (saveEvery : ℤ) (d : SamplerDef S σ E) (nJobs : ℤ)
  (enc : Fin cfg.perturbs.length → S → Θ → List Draw) (draws : Measure Θ)

/-- The mean of a function of the random numbers of the batches of a sampler with `m + 1` chains.  All random numbers are independent, and
all pairs of chains are equally likely to be selected for a swap.  Batches that raise an exception or do not use all of their random numbers
are left out. -/
noncomputable def batchesMean (m : ℕ) : List (ℕ × ℤ) → Samp S σ E → (List BatchDraws → ENNReal) → ENNReal
  | [], _, F => F []
  | x :: rest, samp, F => chainsMean cfg x.2 saveEvery Act.skip Act.skip enc draws x.1 samp.chains fun ts => roundsMean m (m + 1) fun u =>
    match d.advanceChain cfg ⟨some nJobs, fun _ j => ts.getD j []⟩ x.1 x.2 saveEvery samp (batchTape nJobs (ts, u)) with
    | (.ok _, samp', []) => batchesMean m rest samp' fun bs => F ((ts, u) :: bs)
    | _ => 0

end

section

variable {E : Type} (p : Problem) (S : ℕ → Beginning)

open Classical in
/-- The probability that `BayesianInversion(…, n_chains=m + 1)`, `run(sampler=ParallelTempering(tmax, fraction, e), n_iterations=n,
burnin_iterations=b, save_every=s)` with `nJobs` processes and `get_results()` return results with property `Q`. -/
noncomputable def TemperedResultsLaw (fraction tmax : ℝ) (e m : ℕ) (nJobs : Option ℤ) (n : ℕ) (b s : ℤ) (w : E)
    (Q : List (String × List (BB.Entry SVal)) → Prop) : ENNReal :=
  startsMean p S (m + 1) fun t =>
    match p.newChains (m + 1) w t with
    | (.ok cs, []) =>
      match ptInit p.cfg fraction tmax ⟨cs, w, 0⟩ [] with
      | (.ok _, samp, []) =>
        batchesMean p.cfg s (tempering p.cfg fraction tmax vanillaSampler) (nJobs.getD (m + 1)) (wholeDraws p fun i => (S i).block)
          (wholeLaw p fun i => (S i).block) m (batches e n b) samp fun bs =>
            if ∃ fuel res t', p.temperedResults fraction tmax e (m + 1) nJobs (fun i j => (bs.getD i ([], [])).1.getD j []) n b s w fuel
                (t ++ bs.flatMap (batchTape (nJobs.getD (m + 1)))) = (.ok (some (.named res)), t') ∧ Q res then 1 else 0
      | _ => 0
    | _ => 0

end

end BB.Spec
