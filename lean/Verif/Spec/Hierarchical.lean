import Verif.Spec.Truncated
import Verif.Spec.Reversible
import Verif.Model.Likelihood
import Mathlib.MeasureTheory.Constructions.Pi
import Mathlib.MeasureTheory.Measure.Lebesgue.Basic
import Mathlib.Probability.Distributions.Gaussian.Real
import Mathlib.Probability.ProductMeasure

/-!
# Specification: the unknown noise of a hierarchical inversion
-/

namespace BB.Spec

open MeasureTheory

/-- The bounds of a noise parameter and the standard deviation of its perturbations. -/
structure Range where
  lo : ℝ
  hi : ℝ
  step : ℝ

/-- The bounds leave room, and the steps are not zero. -/
structure Range.Proper (r : Range) : Prop where
  lo_hi : r.lo < r.hi
  step : 0 < r.step

/-- The two noise parameters of a target: its standard deviation, and its correlation (if there is one). -/
def noiseRange (t : Target) : Bool → Option Range
  | false => some ⟨t.stdMin, t.stdMax, t.stdPerturb⟩
  | true => if t.correlated then some ⟨t.corrMin, t.corrMax, t.corrPerturb⟩ else none

/-- The ranges of all noise parameters of the targets. -/
def noiseRanges (ts : List Target) (q : Fin ts.length × Bool) : Option Range := noiseRange ts[q.1] q.2

/-- The values of all noise parameters of the targets. -/
abbrev NoiseValues (ts : List Target) : Type := Fin ts.length × Bool → ℝ

/-- The uniform distribution of a noise parameter (up to a factor); parameters that a target does not have are 0. -/
noncomputable def flat : Option Range → Measure ℝ
  | some r => volume.restrict (Set.Icc r.lo r.hi)
  | none => Measure.dirac 0

/-- The prior of the noise: all parameters are independent and uniform between their bounds (up to a factor). -/
noncomputable def noisePrior (ts : List Target) : Measure (NoiseValues ts) := Measure.pi fun q => flat (noiseRanges ts q)

/-- The probability (up to a factor) that a Gaussian perturbation of `x` is between the bounds. -/
noncomputable def staying : Option Range → ℝ → ℝ
  | some r, x => ∫ z in r.lo..r.hi, bell r.step x z
  | none, _ => 1

/-- The probability (up to a factor) that all perturbed noise parameters are between their bounds at the first attempt. -/
noncomputable def stayingAll (ts : List Target) (x : NoiseValues ts) : ℝ := ∏ q, staying (noiseRanges ts q) (x q)

/-- All bounds leave room, and no steps are zero. -/
def ProperAll (ts : List Target) : Prop := ∀ q r, noiseRanges ts q = some r → r.Proper

/-- Independent sequences of independent normal deviates, one for each noise parameter. -/
noncomputable def deviates (ts : List Target) : Measure (Fin ts.length × Bool → ℕ → ℝ) :=
  Measure.pi fun _ => Measure.infinitePi fun _ : ℕ => ProbabilityTheory.gaussianReal 0 1

/-- The noise of the targets is in the state; the noise of a target with correlated noise has a correlation. -/
def HasNoise (ts : List Target) (p : Params) : Prop :=
  ∀ t ∈ ts, ∃ d, dget p t.name = some (.noise d) ∧ (t.correlated → d.corr ≠ none)

/-- A noise parameter in a state. -/
noncomputable def noiseValue (t : Target) (p : Params) : Bool → ℝ
  | false => match dget p t.name with
    | some (.noise d) => d.std
    | _ => 0
  | true => match dget p t.name with
    | some (.noise d) => if t.correlated then d.corr.getD 0 else 0
    | _ => 0

/-- The noise parameters in a state. -/
noncomputable def noiseValues (ts : List Target) (p : Params) : NoiseValues ts := fun q => noiseValue ts[q.1] p q.2

end BB.Spec
