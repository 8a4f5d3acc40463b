import Verif.Spec.WholeInversion

/-!
# Specification: several iterations of a chain
-/

namespace BB.Spec

open BB BB.Props BB.Lemmas MeasureTheory

section

variable {S σ E X Θ : Type} [MeasurableSpace X] [MeasurableSpace Θ] (cfg : ChainCfg S σ)

/-- The draws of an iteration: one to choose the perturbation, those of the perturbation, and one for the acceptance. -/
noncomputable def iterationDraws (enc : Fin cfg.perturbs.length → S → Θ → List Draw) (s : S) (ω : ℝ × Θ × ℝ) : List Draw :=
  unitDraw ω.1 :: (match choices cfg.perturbs.length cfg.weights [unitDraw ω.1] with
    | (.ok i, _) => if h : i < cfg.perturbs.length then enc ⟨i, h⟩ s ω.2.1 else []
    | _ => []) ++ [unitDraw ω.2.2]

/-- The probability that `n` iterations, the random numbers of which are independent, are completed without an exception, use
all of their draws, and lead to a model in `A`. -/
noncomputable def IterationsLaw (burnin saveEvery : ℤ) (enc : Fin cfg.perturbs.length → S → Θ → List Draw) (draws : Measure Θ)
    (val : S → X) : ℕ → Chain S σ E → Set X → ENNReal
  | 0, c, A => A.indicator 1 (val c.cur)
  | n + 1, c, A => ∫⁻ ω, (match Chain.iteration cfg burnin saveEvery Act.skip Act.skip c (iterationDraws cfg enc c.cur ω) with
    | (.ok _, c', []) => IterationsLaw burnin saveEvery enc draws val n c' A
    | _ => 0) ∂unit.prod (draws.prod unit)

end

/-- No name of a space, a parameter or a target with unknown noise contains "n_dimensions". -/
def PlainNames (p : Problem) : Prop :=
  (∀ nm sp, (nm, sp) ∈ p.spaces → Plain nm ∧ ∀ k q, (k, q) ∈ sp.params.toList → Plain k) ∧ ∀ t ∈ p.hier, Plain t.name

/-- The chain is at a model of the inversion, at temperature `T`: predicted data in the cache, if any, belong to the model, and
the statistics of perturbations of parameter spaces are kept by sub-type. -/
structure Ready {E : Type} (p : Problem) (B : ℕ → Block) (T : ℝ) (c : Chain State Store E) : Prop where
  holds : HoldsAll p B c.cur.params
  cache : Coherent p.tf c.cur
  extra : c.cur.extra = []
  temp : c.temp = T
  proposed : ∀ name n, name.startsWith "ParamSpacePerturbation" = true → dget c.proposed name ≠ some (.count n)
  accepted : ∀ name n, name.startsWith "ParamSpacePerturbation" = true → dget c.accepted name ≠ some (.count n)

end BB.Spec
