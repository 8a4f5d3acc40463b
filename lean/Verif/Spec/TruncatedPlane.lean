import Verif.Spec.Truncated
import Mathlib.MeasureTheory.Integral.Bochner.Set
import Mathlib.MeasureTheory.Constructions.BorelSpace.Real
import Mathlib.MeasureTheory.Measure.Lebesgue.Basic

/-!
# Specification: Gaussian proposals in the plane that are redrawn until they fall in a domain
-/

namespace BB.Spec

open MeasureTheory

/-- The density at `y` of two independent Gaussians with means `x` and standard deviations `σ`, up to a factor that does not depend on
`x` and `y`. -/
noncomputable def bell2 (σ x y : ℝ × ℝ) : ℝ := bell σ.1 x.1 y.1 * bell σ.2 x.2 y.2

/-- The density at `y` of these Gaussians redrawn together until they fall in `D`. -/
noncomputable def redrawn2 (σ : ℝ × ℝ) (D : Set (ℝ × ℝ)) (x y : ℝ × ℝ) : ℝ := bell2 σ x y / ∫ z in D, bell2 σ x z

/-- The log ratio of the densities of the reverse proposal (from `y` to `x`) and the forward one. -/
noncomputable def proposalRatio2 (σ : ℝ × ℝ) (D : Set (ℝ × ℝ)) (x y : ℝ × ℝ) : ℝ :=
  Real.log (redrawn2 σ D y x) - Real.log (redrawn2 σ D x y)

end BB.Spec
