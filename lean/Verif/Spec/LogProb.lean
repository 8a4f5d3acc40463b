import Verif.Model.PyF

/-!
# Specification: sums of logarithms of densities

The logarithm of a density is a real number, or minus infinity where the density is zero.
-/

namespace BB.Spec

open BB

/-- `none` is minus infinity. -/
abbrev LogP := Option ℝ

/-- The number that stands for it in the program. -/
def LogP.num : LogP → PyF
  | none => .ninf
  | some x => .fin x

/-- The sum: minus infinity if one of them is. -/
def total : List LogP → LogP
  | [] => some 0
  | none :: _ => none
  | some x :: l => (total l).map (x + ·)

/-- The change from a logarithm that is a number. -/
def change (old : ℝ) (new : LogP) : LogP := new.map (· - old)

end BB.Spec
