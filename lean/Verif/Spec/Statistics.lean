import Verif.Model.Chain
import Mathlib.Algebra.BigOperators.Group.List.Basic

/-!
# Specification of the acceptance statistics
-/

namespace BB.Spec

open BB

/-- Number of models recorded by an entry: the counter, or the sum over the sub-types. -/
noncomputable def weight : Stat → ℝ
  | .count n => n
  | .sub d => (d.map (·.2)).sum

/-- Number of models recorded for a perturbation type. -/
noncomputable def weightOf (d : List (String × Stat)) (name : String) : ℝ :=
  match dget d name with
  | none => 0
  | some s => weight s

/-- Number of models recorded for all types. -/
noncomputable def weightAll (d : List (String × Stat)) : ℝ := (d.map (fun kv => weight kv.2)).sum

/-- Number of models recorded for a sub-type. -/
noncomputable def weightSub (d : List (String × Stat)) (name k : String) : ℝ :=
  match dget d name with
  | some (.sub m) => (dget m k).getD 0
  | _ => 0

/-- The statistics of a proposal of a parameter-space perturbation: shares of the sub-types that add
up to one. -/
def Shares (st : List (String × ℝ)) : Prop := (∀ kv ∈ st, 0 ≤ kv.2) ∧ (st.map (·.2)).sum = 1

end BB.Spec
