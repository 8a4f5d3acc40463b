import Verif.Spec.PlainInversion

/-!
# Specification: the models at the start of an inversion for the values of plain parameter spaces
-/

namespace BB.Spec

open BB MeasureTheory

variable {m : ℕ}

/-- The largest number of dimensions at the start: the number itself if it is fixed, otherwise it is in the given fraction of
the range of the numbers of dimensions. -/
noncomputable def PlainSpace.startHi (s : PlainSpace) : ℕ :=
  match s.info.nDim with
  | some n => n
  | none => ⌊(s.info.nMin : ℝ) + s.info.initRange * ((s.info.nMax : ℝ) - s.info.nMin)⌋₊

/-- What is asked for the start: the fraction is one, and the values are initialized by the library. -/
structure PlainSpace.Startable (s : PlainSpace) : Prop where
  range : s.info.nDim = none → 0 ≤ s.info.initRange ∧ s.info.initRange ≤ 1
  init : ∀ j, (s.prior j).init = none

/-- The law of the model at the start: for each space, independently, all numbers of dimensions between the smallest one and
the largest one for the start have the same probability, and given the number, all values are independent and have the
densities of their priors. -/
noncomputable def startOf (sps : Fin m → PlainSpace) : Measure (Values sps) :=
  Measure.pi fun i => (((sps i).startHi - (sps i).info.lo + 1 : ℕ) : ENNReal)⁻¹ •
    transPrior (valuesLaw (sps i).dens) (sps i).info.lo (sps i).startHi

end BB.Spec
