import Mathlib.Analysis.SpecialFunctions.Log.Basic
import Mathlib.MeasureTheory.Integral.IntervalIntegral.Basic

/-!
# Specification: Gaussian proposals that are redrawn until they fall in an interval
-/

namespace BB.Spec

/-- The density of a Gaussian with mean `x` and standard deviation `σ` at `y`, up to a factor that does not depend on `x` and
`y`. -/
noncomputable def bell (σ x y : ℝ) : ℝ := Real.exp (-((y - x) ^ 2 / (2 * σ ^ 2)))

/-- The density at `y` of a Gaussian with mean `x` redrawn until it falls in `[a, b]`: the conditional
density given that it does. -/
noncomputable def redrawn (σ a b x y : ℝ) : ℝ := bell σ x y / ∫ z in a..b, bell σ x z

/-- The log ratio of the densities of the reverse proposal (from `y` to `x`) and the forward one. -/
noncomputable def proposalRatio (σ a b x y : ℝ) : ℝ := Real.log (redrawn σ a b y x) - Real.log (redrawn σ a b x y)

end BB.Spec
