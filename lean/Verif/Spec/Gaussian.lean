import Mathlib.LinearAlgebra.Matrix.NonsingularInverse
import Mathlib.LinearAlgebra.Matrix.DotProduct
import Mathlib.Analysis.SpecialFunctions.Log.Basic
import Mathlib.Analysis.Real.Pi.Bounds

/-!
# Specification: covariance matrices and the multivariate normal density

Textbook definitions; nothing here refers to the model of the code.
-/

namespace BB.Spec

open Matrix

/-- The covariance matrix of stationary noise whose correlation decays exponentially with the
lag: `C i j = σ² r^|i-j|` (Bodin et al. 2012, cited in `Target.log_determinant_covariance`). -/
def expCov (σ r : ℝ) (n : ℕ) : Matrix (Fin n) (Fin n) ℝ :=
  Matrix.of fun i j => σ ^ 2 * r ^ ((i : ℤ) - (j : ℤ)).natAbs

/-- Logarithm of the density at `d` of the multivariate normal distribution with mean `μ` and
covariance `C`. -/
noncomputable def normalLogDensity {n : ℕ} (C : Matrix (Fin n) (Fin n) ℝ) (μ d : Fin n → ℝ) : ℝ :=
  -(n / 2) * Real.log (2 * Real.pi) - Real.log C.det / 2
    - ((μ - d) ⬝ᵥ (C⁻¹ *ᵥ (μ - d))) / 2

end BB.Spec
