import Verif.Spec.Samples

/-!
# Iterations with functions that are called before and after each of them
-/

namespace BB.Spec

open BB BB.Props BB.Lemmas MeasureTheory

section

variable {S σ E Θ : Type} [MeasurableSpace Θ] (cfg : ChainCfg S σ)

open Classical in
/-- The probability that `n` iterations, with the functions `beginIt` and `endIt` at the beginning and at the end of each of them, are
completed without an exception, use all of their draws (which are independent), and lead to a chain with property `Q`. -/
noncomputable def HookedLaw (burnin saveEvery : ℤ) (beginIt endIt : Act (Chain S σ E) Unit)
    (enc : Fin cfg.perturbs.length → S → Θ → List Draw) (draws : Measure Θ) (Q : Chain S σ E → Prop) : ℕ → Chain S σ E → ENNReal
  | 0, c => if Q c then 1 else 0
  | n + 1, c => ∫⁻ ω, (match Chain.iteration cfg burnin saveEvery beginIt endIt c (iterationDraws cfg enc c.cur ω) with
    | (.ok _, c', []) => HookedLaw burnin saveEvery beginIt endIt enc draws Q n c'
    | _ => 0) ∂unit.prod (draws.prod unit)

end

end BB.Spec
