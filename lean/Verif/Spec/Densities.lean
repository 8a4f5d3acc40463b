import Mathlib.Probability.Distributions.Gaussian.Real
import Verif.Model.PyF

/-!
# Specification: probability densities of the priors and their logarithms
-/

namespace BB.Spec

open BB

open Classical in
/-- The density of the uniform distribution on `[a, b]`. -/
noncomputable def uniformPDF (a b x : ℝ) : ℝ := if a ≤ x ∧ x ≤ b then 1 / (b - a) else 0

/-- The density of the Laplace distribution. -/
noncomputable def laplacePDF (m s x : ℝ) : ℝ := Real.exp (-|x - m| / s) / (2 * s)

/-- The density of the normal distribution with standard deviation `s` (Mathlib's, which takes the variance). -/
noncomputable def normalPDF (m s x : ℝ) : ℝ := ProbabilityTheory.gaussianPDFReal m (Real.toNNReal (s ^ 2)) x

open Classical in
/-- The logarithm of a density, minus infinity where the density vanishes. -/
noncomputable def logOf (p : ℝ) : PyF := if 0 < p then .fin (Real.log p) else .ninf

end BB.Spec
