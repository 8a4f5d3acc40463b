import Verif.Spec.Neighbour
import Verif.Spec.Conform
import Verif.Spec.LogProb

/-!
# Specification: the total log prior of the parameters of a space
-/

namespace BB.Spec

open BB

/-- `f k j` is the log prior of the `j`-th value of the parameter `k`. -/
def LogPriors (ps : List Prior) (s : PSState) (f : String → ℕ → LogP) : Prop :=
  ∀ p ∈ ps, ∀ j < s.n, ∃ x pos, Num (s.get p.name) j x ∧ SiteAt s j pos ∧ p.logPrior x pos = .ok (f p.name j).num

/-- The sum over all parameters and values. -/
def spaceTotal (ps : List Prior) (n : ℕ) (f : String → ℕ → LogP) : LogP :=
  total (ps.flatMap fun p => (List.range n).map (f p.name))

end BB.Spec
