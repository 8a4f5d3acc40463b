import Mathlib.Algebra.Order.Field.Basic
import Mathlib.Data.List.Sort

/-!
# Textbook notions for one-dimensional tessellations

Independent of the model: sorted arrays, nearest site, midpoints, differences of consecutive
boundaries, layers of a depth profile, piecewise linear interpolant.
-/

namespace BB.Spec

variable {K : Type} [Field K] [LinearOrder K]

/-- The array is sorted in ascending order. -/
def Ascending (x : List K) : Prop := x.Pairwise (· ≤ ·)

/-- The array is strictly increasing. -/
def StrictlyAscending (x : List K) : Prop := x.Pairwise (· < ·)

/-- `i` is the position of a site of `x` that is nearest to `p`. -/
def IsNearest (x : List K) (p : K) (i : ℕ) : Prop :=
  ∃ h : i < x.length, ∀ (j : ℕ) (hj : j < x.length), |x[i] - p| ≤ |x[j] - p|

/-- `i` is the right-most of the nearest sites. -/
def IsRightmostNearest (x : List K) (p : K) (i : ℕ) : Prop :=
  IsNearest x p i ∧ ∀ j, IsNearest x p j → j ≤ i

/-- Midpoints between neighbouring sites. -/
def midpoints : List K → List K
  | a :: b :: rest => (a + b) / 2 :: midpoints (b :: rest)
  | _ => []

/-- Differences between neighbouring entries. -/
def differences : List K → List K
  | a :: b :: rest => (b - a) :: differences (b :: rest)
  | _ => []

/-- The number of interfaces at or above (not deeper than) depth `p`, that is the index of the
layer that contains `p`. -/
def layerIndex (interfaces : List K) (p : K) : ℕ := interfaces.countP (· ≤ p)

/-- Value at `p` of the straight line through `(x0, y0)` and `(x1, y1)`. -/
def line (x0 y0 x1 y1 p : K) : K := y0 + (y1 - y0) / (x1 - x0) * (p - x0)

end BB.Spec
