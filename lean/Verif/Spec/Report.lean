import Verif.Spec.Statistics
import Verif.Model.Report

/-!
# Specification of the acceptance rates that are printed
-/

namespace BB.Spec

variable {S σ E : Type}

/-- The partial acceptance rates: for a perturbation with a counter the percentage of its proposals that were accepted, for one with
sub-types the percentage for each of them. -/
def ExpectedRate (c : Chain S σ E) (name : String) (x : ℝ) : Option String → Prop
  | none => (∃ n, dget c.proposed name = some (.count n)) ∧ x = 100 * (weightOf c.accepted name / weightOf c.proposed name)
  | some k => (∃ d v, dget c.proposed name = some (.sub d) ∧ dget d k = some v) ∧
      x = 100 * (weightSub c.accepted name k / weightSub c.proposed name k)

end BB.Spec
