import Mathlib.Data.Real.Sqrt
import Mathlib.Data.List.Sort
import Verif.Model.Tessellation

/-!
# Model of the statistics of ensembles of tessellations

`/repo/src/bayesbay/discretization/_voronoi.py` lines 738-864 (`Voronoi1D.get_tessellation_statistics`,
`Voronoi1D.get_tessellation_density`) and lines 1432-1506 (`Voronoi2D.interpolate_tessellation`,
`Voronoi2D.get_tessellation_statistics`).  NumPy's `mean`, `std`, `median`, `percentile`, `linspace` and `histogram2d` are
modelled by their definitions over the reals, without rounding.
-/

namespace BB.Ensemble

open BB.Tessellation

/-- `np.mean` of a non-empty array, `_voronoi.py` lines 775 and 1501. -/
noncomputable def npMean (xs : List ℝ) : ℝ := xs.sum / xs.length

/-- `np.std` with its default `ddof=0`, `_voronoi.py` lines 777 and 1503. -/
noncomputable def npStd (xs : List ℝ) : ℝ := Real.sqrt (npMean (xs.map fun x => (x - npMean xs) ^ 2))

/-- The array in ascending order (NumPy sorts, or partitions around the positions that are read). -/
noncomputable def sorted (xs : List ℝ) : List ℝ := xs.insertionSort (· ≤ ·)

/-- `np.median` of a non-empty array, `_voronoi.py` lines 776 and 1502: the middle element or the mean of the two middle
ones. -/
noncomputable def npMedian (xs : List ℝ) : ℝ :=
  if xs.length % 2 = 1 then (sorted xs).getD (xs.length / 2) 0
  else ((sorted xs).getD (xs.length / 2 - 1) 0 + (sorted xs).getD (xs.length / 2) 0) / 2

/-- `np.percentile` of a non-empty array for one percentile between 0 and 100 (method "linear"), `_voronoi.py` lines 778
and 1504: the element with the index `(n - 1) q / 100`, interpolated between the two elements next to it. -/
noncomputable def npPercentile (xs : List ℝ) (q : ℝ) : ℝ :=
  let v := ((xs.length : ℝ) - 1) * (q / 100)
  let i := ⌊v⌋₊
  if xs.length - 1 ≤ i then (sorted xs).getD (xs.length - 1) 0
  else (sorted xs).getD i 0 + ((sorted xs).getD (i + 1) 0 - (sorted xs).getD i 0) * (v - i)

/-- The dictionary returned by `get_tessellation_statistics`: one number per position, and one list of those per
percentile. -/
structure Statistics where
  mean : List ℝ
  median : List ℝ
  std : List ℝ
  percentiles : List (List ℝ)

/-- The column `interp_params[:, j]`. -/
def column (rows : List (List ℝ)) (j : ℕ) : List ℝ := rows.map fun r => r.getD j 0

/-- The part of `get_tessellation_statistics` that the two classes have in common, `_voronoi.py` lines 774-780 and
1500-1506.  Without samples NumPy returns `nan` or raises an exception, depending on the function and the version: the
model returns `nonFinite` for either.  Percentiles outside of `[0, 100]` raise `ValueError`. -/
noncomputable def statistics (rows : List (List ℝ)) (nPos : ℕ) (percentiles : List ℝ) : Except PyErr Statistics :=
  if rows = [] then .error .nonFinite
  else if ∃ q ∈ percentiles, q < 0 ∨ 100 < q then .error .valueError
  else .ok {
    mean := (List.range nPos).map fun j => npMean (column rows j)
    median := (List.range nPos).map fun j => npMedian (column rows j)
    std := (List.range nPos).map fun j => npStd (column rows j)
    percentiles := percentiles.map fun q => (List.range nPos).map fun j => npPercentile (column rows j) q }

/-- `Voronoi1D.get_tessellation_statistics`, `_voronoi.py` lines 738-780. -/
noncomputable def statistics1 (cells values : List (List ℝ)) (positions percentiles : List ℝ) (ty : InputType) :
    Except PyErr Statistics := do
  let rows ← interpolateTessellations cells values positions ty
  statistics rows positions.length percentiles

/-- `Voronoi2D.interpolate_tessellation`, `_voronoi.py` lines 1432-1456.  The answer of `scipy.spatial.KDTree.query` is an
arbitrary function `query` of the sites and the position (the theorems assume that it returns the index of a nearest site);
an index out of bounds raises `IndexError`. -/
def interpolate2 (query : List (ℝ × ℝ) → ℝ × ℝ → ℕ) (sites : List (ℝ × ℝ)) (values : List ℝ) (positions : List (ℝ × ℝ)) :
    Except PyErr (List ℝ) :=
  positions.mapM fun x =>
    match values[query sites x]? with
    | some v => .ok v
    | none => .error .indexError

/-- `Voronoi2D._interpolate_tessellations`, `_voronoi.py` lines 1459-1469: the number of rows is the number of arrays of
values; rows that are not visited stay zero. -/
def interpolates2 (query : List (ℝ × ℝ) → ℝ × ℝ → ℕ) (sites : List (List (ℝ × ℝ))) (values : List (List ℝ))
    (positions : List (ℝ × ℝ)) : Except PyErr (List (List ℝ)) := do
  let rows ← (sites.zip values).mapM fun sv => interpolate2 query sv.1 sv.2 positions
  return rows ++ List.replicate (values.length - rows.length) (List.replicate positions.length 0)

/-- `Voronoi2D.get_tessellation_statistics`, `_voronoi.py` lines 1472-1506. -/
noncomputable def statistics2 (query : List (ℝ × ℝ) → ℝ × ℝ → ℕ) (sites : List (List (ℝ × ℝ))) (values : List (List ℝ))
    (positions : List (ℝ × ℝ)) (percentiles : List ℝ) : Except PyErr Statistics := do
  let rows ← interpolates2 query sites values positions
  statistics rows positions.length percentiles

/-- `np.linspace(lo, hi, n)`. -/
noncomputable def linspace (lo hi : ℝ) (n : ℕ) : List ℝ :=
  (List.range n).map fun (k : ℕ) => lo + k * ((hi - lo) / ((n : ℝ) - 1))

/-- A number of bins or their edges (an argument of type `int` or `np.ndarray`). -/
inductive Bins where
  | number (n : ℕ)
  | edges (e : List ℝ)

/-- The edges that `np.histogramdd` uses for one of the coordinates.  For a number of bins: equally spaced from the smallest to
the largest of the values, or from half below to half above if these are equal; given edges must not decrease.  Empty
arrays of values, for which NumPy takes `[0, 1]`, do not occur. -/
noncomputable def binEdges (xs : List ℝ) : Bins → Except PyErr (List ℝ)
  | .number n =>
    if n = 0 then .error .valueError
    else
      let lo := xs.foldl min (xs.headD 0)
      let hi := xs.foldl max (xs.headD 0)
      if lo = hi then .ok (linspace (lo - 1 / 2) (hi + 1 / 2) (n + 1)) else .ok (linspace lo hi (n + 1))
  | .edges e => if e.Pairwise (· ≤ ·) then .ok e else .error .valueError

/-- The bin of a value in `np.histogramdd`: `searchsorted(edges, x, side="right") - 1`, values on the last edge belong to the
last bin, values outside to none. -/
noncomputable def binOf (e : List ℝ) (x : ℝ) : Option ℕ :=
  if e.getLast? = some x then (if e.length < 2 then none else some (e.length - 2))
  else
    let k := e.countP (· ≤ x)
    if k = 0 ∨ k = e.length then none else some (k - 1)

/-- The width of a bin. -/
noncomputable def width (e : List ℝ) (k : ℕ) : ℝ := e.getD (k + 1) 0 - e.getD k 0

/-- The number of points in a bin. -/
noncomputable def count (pts : List (ℝ × ℝ)) (ex ey : List ℝ) (i j : ℕ) : ℕ :=
  pts.countP fun p => binOf ex p.1 = some i ∧ binOf ey p.2 = some j

/-- `np.histogram2d(x, y, bins=..., density=True)`, `_voronoi.py` lines 860-863, for given edges: counts divided by the
areas of the bins and by the total.  Where NumPy divides by zero (no points in any bin, bins of width zero) the model
returns `nonFinite`. -/
noncomputable def density (pts : List (ℝ × ℝ)) (ex ey : List ℝ) : Except PyErr (List (List ℝ)) :=
  let total := ((List.range (ex.length - 1)).map fun i => ((List.range (ey.length - 1)).map fun j => count pts ex ey i j).sum).sum
  if total = 0 then .error .nonFinite
  else if (∃ i < ex.length - 1, width ex i = 0) ∨ ∃ j < ey.length - 1, width ey j = 0 then .error .nonFinite
  else .ok ((List.range (ex.length - 1)).map fun i => (List.range (ey.length - 1)).map fun j =>
    count pts ex ey i j / (width ex i * width ey j) / total)

/-- The positions in `get_tessellation_density`, `_voronoi.py` lines 841-853: equally spaced between 0 and the largest site
(or sum of extents) for a number, the given array otherwise.  `max` of no samples, and NumPy's of no sites, raise
`ValueError`; for extents the largest sum is at least 0. -/
noncomputable def densityPositions (cells : List (List ℝ)) (ty : InputType) : Bins → Except PyErr (List ℝ)
  | .edges e => .ok e
  | .number n =>
    match ty with
    | .nuclei =>
      if cells = [] ∨ [] ∈ cells then .error .valueError
      else
        let tops := cells.map fun c => c.foldl max (c.headD 0)
        .ok (linspace 0 (tops.foldl max (tops.headD 0)) n)
    | .extents =>
      if [] ∈ cells then .error .valueError
      else .ok (linspace 0 ((cells.map fun c => (cumsum c).foldl max ((cumsum c).headD 0)).foldl max 0) n)
    | .other => .error .valueError

/-- `Voronoi1D.get_tessellation_density`, `_voronoi.py` lines 783-864.  Returns the density and both arrays of edges. -/
noncomputable def tessellationDensity (cells values : List (List ℝ)) (positionBins valueBins : Bins) (ty : InputType) :
    Except PyErr (List (List ℝ) × List ℝ × List ℝ) := do
  if ty = .other then .error .valueError
  let positions ← densityPositions cells ty positionBins
  let rows ← interpolateTessellations cells values positions ty
  let xs := (List.replicate rows.length positions).flatten
  let ys := rows.flatten
  let ex ← binEdges xs (.number positions.length)
  let ey ← binEdges ys valueBins
  let d ← density (xs.zip ys) ex ey
  return (d, ex, ey)

end BB.Ensemble
