import Verif.Spec.RowLaw
import Mathlib.Probability.Distributions.Gaussian.Real

/-!
# Specification: independent draws

The law of a tape of independent draws: in each draw, the natural number is uniform below `K` (a multiple of all numbers
of possibilities that occur), the deviate is standard normal, the number in `[0, 1)` is uniform, and the three are
independent.
-/

namespace BB.Spec

open BB MeasureTheory

instance : MeasurableSpace Draw := MeasurableSpace.comap (fun d => (d.n, d.z, d.u)) inferInstance

/-- The draw with these components (`u` is in `[0, 1)` almost surely). -/
noncomputable def drawOf (x : ℕ × ℝ × ℝ) : Draw := ⟨x.1, x.2.1, (unitDraw x.2.2).u, (unitDraw x.2.2).hu⟩

/-- The law of a draw. -/
noncomputable def drawLaw (K : ℕ) : Measure Draw :=
  ((uniformNat K).prod ((ProbabilityTheory.gaussianReal 0 1).prod unitLaw)).map drawOf

/-- The law of `N` independent draws. -/
noncomputable def tapeLaw (K N : ℕ) : Measure (Fin N → Draw) := Measure.pi fun _ => drawLaw K

end BB.Spec
