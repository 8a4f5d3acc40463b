import Mathlib.Data.Real.Basic
import Verif.Spec.Tessellation

/-!
# Statistics of samples, and histograms
-/

namespace BB.Spec

/-- `m` is the arithmetic mean. -/
def IsMean (xs : List ℝ) (m : ℝ) : Prop := m * xs.length = xs.sum

/-- `s` is the standard deviation (of the samples, not corrected for the number of degrees of freedom). -/
def IsStd (xs : List ℝ) (s : ℝ) : Prop :=
  0 ≤ s ∧ ∃ m, IsMean xs m ∧ s ^ 2 * xs.length = (xs.map fun x => (x - m) ^ 2).sum

/-- `r` is the sample that has exactly `k` others before it when all are put in order: at most `k` samples are smaller,
and more than `k` are not larger. -/
def IsRank (xs : List ℝ) (k : ℕ) (r : ℝ) : Prop :=
  r ∈ xs ∧ xs.countP (· < r) ≤ k ∧ k < xs.countP (· ≤ r)

/-- `r` is the quantile at the fractional rank `v`, interpolated linearly between the samples of the neighbouring ranks. -/
def IsQuantile (xs : List ℝ) (v r : ℝ) : Prop :=
  ∃ (k : ℕ) (t a : ℝ), v = k + t ∧ 0 ≤ t ∧ t < 1 ∧ IsRank xs k a ∧
    (t = 0 ∧ r = a ∨ ∃ b, IsRank xs (k + 1) b ∧ r = (1 - t) * a + t * b)

/-- `v` is the value of a site nearest to `p`. -/
def ValueAt (sites values : List ℝ) (p v : ℝ) : Prop :=
  ∃ i, ∃ h : i < values.length, IsNearest sites p i ∧ v = values[i]

/-- `v` is the value of a site in the plane nearest to `p`. -/
def ValueAt2 (sites : List (ℝ × ℝ)) (values : List ℝ) (p : ℝ × ℝ) (v : ℝ) : Prop :=
  ∃ i, ∃ h : i < values.length, v = values[i] ∧ ∃ h' : i < sites.length, ∀ (j : ℕ) (hj : j < sites.length),
    (sites[i].1 - p.1) ^ 2 + (sites[i].2 - p.2) ^ 2 ≤ (sites[j].1 - p.1) ^ 2 + (sites[j].2 - p.2) ^ 2

/-- `x` lies in the `k`-th bin: between two consecutive edges, the upper one belonging to the bin only if it is the last. -/
def InBin (e : List ℝ) (k : ℕ) (x : ℝ) : Prop :=
  ∃ a b, e[k]? = some a ∧ e[k + 1]? = some b ∧ a ≤ x ∧ (x < b ∨ x = b ∧ k + 2 = e.length)

/-- The numbers at a position describe the samples `vs`: mean, median, standard deviation and the requested percentiles. -/
def DescribesSamples (vs : List ℝ) (percentiles : List ℝ) (mean median std : Option ℝ) (rows : List (Option ℝ)) : Prop :=
  (∃ m, mean = some m ∧ IsMean vs m) ∧
  (∃ m, median = some m ∧ IsQuantile vs (((vs.length : ℝ) - 1) / 2) m) ∧
  (∃ s, std = some s ∧ IsStd vs s) ∧
  List.Forall₂ (fun q r => ∃ x, r = some x ∧ IsQuantile vs (((vs.length : ℝ) - 1) * (q / 100)) x) percentiles rows

end BB.Spec
