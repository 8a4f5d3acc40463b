import Verif.Model.Samplers
import Verif.Spec.Reversible
import Verif.Spec.RowLaw
import Verif.Props.C09_Balance
import Verif.Props.C23_BirthDeathBalance

/-!
# Specification: the swaps of tempered chains

What `ParallelTempering` does at the end of a batch; the states at temperature 1, which are those that are to be collected; and the
equilibrium of chains at given temperatures.
-/

namespace BB.Spec

open BB BB.Props MeasureTheory

/-- The sum of the function `F` over the states of the chains at temperature 1. -/
noncomputable def coldSum {S σ E : Type} (F : S → ENNReal) (s : Samp S σ E) : ENNReal :=
  (s.chains.map fun c => open Classical in if c.temp = 1 then F c.cur else 0).sum

/-- The draws of one round for `m + 1` chains: the chain that is drawn first, the one that is drawn from the remaining `m`, and the
number deciding about the swap. -/
noncomputable def roundDraws {m : ℕ} (i : Fin (m + 1)) (j : Fin m) (u : ℝ) : List Draw := [indexDraw i, indexDraw j, unitDraw u]

/-- The mean of `G` over the draws of `n` rounds for `m + 1` chains: all pairs of chains are equally likely, in both orders. -/
noncomputable def roundsMean (m : ℕ) : ℕ → (List Draw → ENNReal) → ENNReal
  | 0, G => G []
  | n + 1, G => ∑ i : Fin (m + 1), ∑ j : Fin m, (((m : ENNReal) + 1) * m)⁻¹ *
      ∫⁻ u, roundsMean m n (fun t => G (roundDraws i j u ++ t)) ∂unit

/-- The mean of `F` after the swaps between `m + 1` chains, i.e. `m + 1` rounds.  Swaps that fail do not count. -/
noncomputable def swapsMean {S σ E : Type} (m : ℕ) (cfg : ChainCfg S σ) (F : Samp S σ E → ENNReal) (s : Samp S σ E) : ENNReal :=
  roundsMean m (m + 1) fun t =>
    match ptEndAdvance cfg s t with
    | (.ok _, s', []) => F s'
    | _ => 0

/-- `Good s l`: the state `s` has log likelihood `l`.  The likelihood computes with these values, and neither evaluating it nor a
change of the temperature alters them. -/
structure Scored {S σ : Type} (cfg : ChainCfg S σ) (Good : S → ℝ → Prop) : Prop where
  ratio : ∀ a b la lb T, T ≠ 0 → Good a la → Good b lb → (cfg.llr a b T).1 = .ok (.fin ((lb - la) / T))
  left : ∀ a b la lb T, Good a la → Good b lb → Good (cfg.llr a b T).2.1 la
  right : ∀ a b la lb T, Good a la → Good b lb → Good (cfg.llr a b T).2.2 lb
  heated : ∀ a l T, Good a l → Good (cfg.setTemp a T) l

/-- One hot chain, the one at position `k`. -/
noncomputable def oneHot {m : ℕ} (T : ℝ) (k : Fin (m + 1)) (i : Fin (m + 1)) : ℝ := if i = k then T else 1

/-- The sampler has `m + 1` chains, at the temperatures `τ`, whose states have the log likelihoods `l`. -/
def Tempered {S σ E : Type} {m : ℕ} (Good : S → ℝ → Prop) (τ l : Fin (m + 1) → ℝ) (s : Samp S σ E) : Prop :=
  ∃ c : Fin (m + 1) → Chain S σ E, s.chains = List.ofFn c ∧ ∀ i, (c i).temp = τ i ∧ Good (c i).cur (l i)

/-- The equilibrium at temperature `T`: the distribution with density proportional to the likelihood to the power `1 / T`. -/
noncomputable def equilibrium {X : Type} [MeasurableSpace X] (μ : Measure X) (logLik : X → ℝ) (T : ℝ) : Measure X :=
  (posterior μ logLik T Set.univ)⁻¹ • posterior μ logLik T

end BB.Spec
