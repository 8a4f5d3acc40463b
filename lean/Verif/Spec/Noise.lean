import Verif.Model.Inversion
import Verif.Spec.Visited

/-!
# Specification: noise parameters within their bounds, and the states an inversion can visit
-/

namespace BB.Spec

open BB

/-- The noise parameters of a target are there and within their bounds; the correlation is a
parameter exactly if it is to be inferred. -/
def NoiseWithin (t : Target) (p : Params) : Prop :=
  ∃ d : Noise, dget p t.name = some (.noise d) ∧ t.stdMin ≤ d.std ∧ d.std ≤ t.stdMax ∧
    if t.correlated then ∃ r, d.corr = some r ∧ t.corrMin ≤ r ∧ r ≤ t.corrMax else d.corr = none

/-- A possible starting state. -/
def Start (p : Problem) (s : State) : Prop := ∃ t t', p.start t = (.ok s, t')

/-- The states that the chains of an inversion can visit. -/
def Visits (p : Problem) : State → Prop := Visited p.cfg (Start p)

end BB.Spec
