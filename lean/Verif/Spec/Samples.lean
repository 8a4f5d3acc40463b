import Verif.Spec.Iterations
import Verif.Spec.Saved

/-!
# The samples of whole inversions
-/

namespace BB.Spec

open BB BB.Props BB.Lemmas MeasureTheory

section

variable {S σ E Θ : Type} [MeasurableSpace Θ] (cfg : ChainCfg S σ)

open Classical in
/-- The probability that `n` iterations, the random numbers of which are independent, are completed without an exception, use
all of their draws, and leave the chain in a state in which `Q` holds. -/
noncomputable def RunsLaw (burnin saveEvery : ℤ) (enc : Fin cfg.perturbs.length → S → Θ → List Draw) (draws : Measure Θ)
    (Q : Chain S σ E → Prop) : ℕ → Chain S σ E → ENNReal
  | 0, c => if Q c then 1 else 0
  | n + 1, c => ∫⁻ ω, (match Chain.iteration cfg burnin saveEvery Act.skip Act.skip c (iterationDraws cfg enc c.cur ω) with
    | (.ok _, c', []) => RunsLaw burnin saveEvery enc draws Q n c'
    | _ => 0) ∂unit.prod (draws.prod unit)

end

/-- The lists of the store `after` have, in addition to what is in `before`, what the states `sts` contribute (C07), in this order. -/
def SavesStates (p : Problem) (before after : Store) (sts : List State) : Prop :=
  ∀ k, savedUnder k after =
    savedUnder k before ++ sts.flatMap (contribution (some (p.spaces.map fun kv => (kv.1, kv.2.info.transD))) p.saveDpred k)

/-- The average of a function of the model over states. -/
noncomputable def averageModel (p : Problem) (B : ℕ → Block) (f : Whole p B → ℝ) (sts : List State) : ℝ :=
  (sts.map fun st => f (wholeOf p B st.params)).sum / sts.length

/-- The mean of a function with respect to a measure that is made a probability. -/
noncomputable def meanOf {X : Type} [MeasurableSpace X] (π : Measure X) (f : X → ℝ) : ℝ := (∫ x, f x ∂π) / (π Set.univ).toReal

/-- What whole inversions sample (C78): the posterior times the probability that nothing has to be drawn anew. -/
noncomputable def wholeSampled (p : Problem) (B : ℕ → Block) (logLik : Whole p B → ℝ) (T : ℝ) : Measure (Whole p B) :=
  posterior ((wholePrior p B).withDensity fun x => ENNReal.ofReal (wholeStaying p B x)) logLik T

end BB.Spec
