import Mathlib.Algebra.Order.Field.Basic
import Verif.Model.Py

/-!
# Model of `/repo/src/bayesbay/_utils_1d.pyx`

Every function of the Cython module, over an arbitrary field `K` with a linear order in place of
`double`.  Arrays are lists; every access is bounds-checked by the model and an access that the
C code would make out of bounds is the outcome `PyErr.undefinedBehaviour`.  C loop variables that
are read after a loop that may not have been entered are `Option`s.

Not modelled: rounding, NaN elements, integer overflow of `int`/`long` indices.
-/

namespace BB.Utils1d

variable {K : Type} [Field K] [LinearOrder K]

/-! ### `is_sorted` -/

/-- Loop of `is_sorted`, `_utils_1d.pyx` lines 21-24: `n` iterations left, next index `i`. -/
def isSortedLoop (arr : List K) : (n : ℕ) → (i : ℕ) → Except PyErr Bool
  | 0, _ => .ok true
  | n + 1, i => do
    let a ← rd arr i
    let b ← rd arr (i + 1)
    if a > b then return false
    isSortedLoop arr n (i + 1)

/-- `is_sorted`, `_utils_1d.pyx` lines 18-24.  For an empty array the unsigned expression
`size - 1` wraps around and the loop reads out of bounds. -/
def isSorted (arr : List K) : Except PyErr Bool :=
  if arr.length = 0 then .error .undefinedBehaviour
  else isSortedLoop arr (arr.length - 1) 0

/-! ### `compute_voronoi1d_cell_extents` -/

/-- The C locals of `compute_voronoi1d_cell_extents` that the loop modifies. -/
structure ExtLocals (K : Type) where
  i : Option ℕ
  d1 : K
  d2 : Option K
  extent : List K

/-- Loop `for i in range(istart, size - 1)`, `_utils_1d.pyx` lines 47-50: `n` iterations left,
next index `k`. -/
def extentsLoop (sites : List K) : (n : ℕ) → (k : ℕ) → ExtLocals K → Except PyErr (ExtLocals K)
  | 0, _, s => .ok s
  | n + 1, k, s => do
    let a ← rd sites k
    let b ← rd sites (k + 1)
    let d2 := (a + b) / 2
    let e ← wr s.extent k (d2 - s.d1)
    extentsLoop sites n (k + 1) { i := some k, d1 := d2, d2 := some d2, extent := e }

/-- `compute_voronoi1d_cell_extents`, `_utils_1d.pyx` lines 30-52.  `lb = none` is
`lb == -INFINITY`, `ub = none` is `ub == INFINITY` (`lb = +inf`, `ub = -inf` are not modelled).
For no sites `size - 1` wraps around and the accesses are out of bounds. -/
def cellExtents (sites : List K) (lb ub : Option K) (fill : K) : Except PyErr (List K) := do
  let size := sites.length
  if size = 0 then throw .undefinedBehaviour
  let extent0 : List K := List.replicate size 0
  let s0 ← (match lb with
    | some l => (pure (0, { i := none, d1 := l, d2 := none, extent := extent0 }) :
        Except PyErr (ℕ × ExtLocals K))
    | none => do
      let e ← wr extent0 0 fill
      let a ← rd sites 0
      let b ← rd sites 1
      pure (1, { i := none, d1 := (a + b) / 2, d2 := none, extent := e }))
  let s ← extentsLoop sites (size - 1 - s0.1) s0.1 s0.2
  let i ← rdVar s.i
  match ub with
  | some u => do
    let d2 ← rdVar s.d2
    wr s.extent (i + 1) (u - d2)
  | none => wr s.extent (i + 1) fill

/-! ### interpolation -/

/-- Loop of `floor_index`, `_utils_1d.pyx` lines 59-61.  `x[i+1]` is only read when `x[i] <= xp`
(chained comparison).  A `cdef int` function that falls off its end returns 0. -/
def floorIndexLoop (xp : K) (x : List K) : (n : ℕ) → (i : ℕ) → Except PyErr ℕ
  | 0, _ => .ok 0
  | n + 1, i => do
    let a ← rd x i
    if a ≤ xp then
      let b ← rd x (i + 1)
      if xp ≤ b then return i
      floorIndexLoop xp x n (i + 1)
    else floorIndexLoop xp x n (i + 1)

/-- `floor_index`, `_utils_1d.pyx` lines 57-61. -/
def floorIndex (xp : K) (x : List K) (xlen : ℕ) : Except PyErr ℕ := floorIndexLoop xp x xlen 0

/-- `_interpolate_linear_1d`, `_utils_1d.pyx` lines 67-81.  `x[xlen-1]` for an empty array is out
of bounds, but `x[0]` already is. -/
def interpLinear (xp : K) (x y : List K) : Except PyErr K := do
  let xlen := x.length
  let x0 ← rd x 0
  if xp ≤ x0 then rd y 0
  else
    let xl ← rd x (xlen - 1)
    if xp ≥ xl then rd y (xlen - 1)
    else
      let i ← floorIndex xp x xlen
      let x0 ← rd x i
      let x1 ← rd x (i + 1)
      let y0 ← rd y i
      let y1 ← rd y (i + 1)
      if x1 - x0 = 0 then throw .nonFinite
      return y0 + (xp - x0) * (y1 - y0) / (x1 - x0)

/-- Loop of `nearest_neighbour_1d`, `_utils_1d.pyx` lines 107-114: `n` iterations left, next index
`k`, `i` the C loop variable (uninitialised before the first iteration). -/
def nearestLoop (xp : K) (x : List K) : (n : ℕ) → (k : ℕ) → (i : Option ℕ) → Except PyErr ℕ
  | 0, _, i => do
    let i ← rdVar i
    return i + 1
  | n + 1, k, _ => do
    let x0 ← rd x k
    let x1 ← rd x (k + 1)
    if x0 ≤ xp ∧ xp ≤ x1 then
      if |x0 - xp| < |x1 - xp| then return k
      else return k + 1
    else nearestLoop xp x n (k + 1) (some k)

/-- `nearest_neighbour_1d`, `_utils_1d.pyx` lines 102-114.  `xlen` is passed separately, as in the
code; all the callers pass the length of `x`. -/
def nearestNeighbour (xp : K) (x : List K) (xlen : ℕ) : Except PyErr ℕ := do
  if xlen = 1 then return 0
  let x0 ← rd x 0
  if xp < x0 then return 0
  nearestLoop xp x (xlen - 1) 0 none

/-- `_interpolate_nearest_1d`, `_utils_1d.pyx` lines 87-97. -/
def interpNearest (xp : K) (x y : List K) : Except PyErr K := do
  let xlen := x.length
  let x0 ← rd x 0
  if xp ≤ x0 then rd y 0
  else
    let xl ← rd x (xlen - 1)
    if xp ≥ xl then rd y (xlen - 1)
    else
      let i ← nearestNeighbour xp x xlen
      rd y i

/-- Array branch of `interpolate_linear_1d`, `_utils_1d.pyx` lines 162-166 (the scalar branch,
lines 160-161, is `interpLinear`). -/
def interpolateLinear (xp x y : List K) : Except PyErr (List K) :=
  xp.mapM (fun p => interpLinear p x y)

/-- Array branch of `interpolate_nearest_1d`, `_utils_1d.pyx` lines 188-192 (the scalar branch,
lines 186-187, is `interpNearest`). -/
def interpolateNearest (xp x y : List K) : Except PyErr (List K) :=
  xp.mapM (fun p => interpNearest p x y)

/-! ### `interpolate_depth_profile` -/

/-- The variables that persist from one query to the next in `interpolate_depth_profile`. -/
structure DepthLocals (K : Type) where
  ilayer : ℕ
  lower : K
  upper : K

/-- The inner `while True`, `_utils_1d.pyx` lines 131-139.  `fuel` bounds the number of passes;
`x.length` suffices because each pass either stops or increments `ilayer`, and the loop stops when
`ilayer + 1 >= x_len`. -/
def depthWhile (x y : List K) (xi : K) :
    (fuel : ℕ) → DepthLocals K → Except PyErr (K × DepthLocals K)
  | 0, _ => .error .tapeExhausted
  | fuel + 1, s =>
    if (s.lower ≤ xi ∧ xi < s.upper) ∨ s.ilayer + 1 ≥ x.length then do
      let v ← rd y s.ilayer
      return (v, s)
    else do
      let t ← rd x (s.ilayer + 1)
      depthWhile x y xi fuel
        { ilayer := s.ilayer + 1, lower := s.upper, upper := s.upper + t }

/-- The outer loop over the queries, `_utils_1d.pyx` lines 129-139. -/
def depthLoop (x y : List K) : (x0 : List K) → DepthLocals K → Except PyErr (List K)
  | [], _ => .ok []
  | xi :: rest, s => do
    let (v, s') ← depthWhile x y xi (x.length + 1) s
    let vs ← depthLoop x y rest s'
    return v :: vs

/-- `interpolate_depth_profile`, `_utils_1d.pyx` lines 119-140: `x` are layer thicknesses, `y` the
layer values, `x0` the queries. -/
def depthProfile (x y x0 : List K) : Except PyErr (List K) := do
  let up ← rd x 0
  depthLoop x y x0 { ilayer := 0, lower := 0, upper := up }

/-! ### `inverse_covariance` -/

/-- An `n × n` C matrix. -/
structure Mat (K : Type) where
  n : ℕ
  f : ℕ → ℕ → K

/-- `matrix[a, b] = v`, bounds-checked. -/
def Mat.wr (m : Mat K) (a b : ℕ) (v : K) : Except PyErr (Mat K) :=
  if a < m.n ∧ b < m.n then
    .ok { m with f := fun i j => if i = a ∧ j = b then v else m.f i j }
  else .error .undefinedBehaviour

/-- Loop `for i in range(1, n-1)` of `inverse_covariance`, `_utils_1d.pyx` lines 203-206: `k`
iterations left, next index `j`, `i` the C loop variable. -/
def invCovLoop (r factor : K) : (k : ℕ) → (j : ℕ) → Option ℕ → Mat K →
    Except PyErr (Option ℕ × Mat K)
  | 0, _, i, m => .ok (i, m)
  | k + 1, j, _, m => do
    let m ← m.wr j j ((1 + r ^ 2) * factor)
    let m ← m.wr j (j - 1) (-r * factor)
    let m ← m.wr (j - 1) j (-r * factor)
    invCovLoop r factor k (j + 1) (some j) m

/-- `inverse_covariance`, `_utils_1d.pyx` lines 198-211.  `1 / 0` gives `inf` in C
(`PyErr.nonFinite`).  For `n = 0` the accesses (and the wrapped-around loop bound) are out of
bounds. -/
def inverseCovariance (sigma r : K) (n : ℕ) : Except PyErr (Mat K) := do
  if sigma ^ 2 * (1 - r ^ 2) = 0 then throw .nonFinite
  let factor := 1 / (sigma ^ 2 * (1 - r ^ 2))
  if n = 0 then throw .undefinedBehaviour
  let m0 : Mat K := { n := n, f := fun _ _ => 0 }
  let (i, m) ← invCovLoop r factor (n - 1 - 1) 1 none m0
  let m ← m.wr 0 0 factor
  let m ← m.wr (n - 1) (n - 1) factor
  let i ← rdVar i
  let m ← m.wr (i + 1) i (-r * factor)
  m.wr i (i + 1) (-r * factor)

/-! ### `insert_1d`, `delete_1d` -/

/-- Loop of `insert_1d`, `_utils_1d.pyx` lines 221-227: `n` iterations left. -/
def insertLoop {α : Type} (values : List α) (index : ℤ) (value : α) :
    (n : ℕ) → (i j : ℕ) → List α → Except PyErr (List α)
  | 0, _, _, nv => .ok nv
  | n + 1, i, j, nv =>
    if (i : ℤ) = index then do
      let nv ← wr nv i value
      insertLoop values index value n (i + 1) j nv
    else do
      let v ← rd values j
      let nv ← wr nv i v
      insertLoop values index value n (i + 1) (j + 1) nv

/-- `insert_1d`, `_utils_1d.pyx` lines 216-228.  `zero` is the filler written by `np.zeros`. -/
def insert1d {α : Type} (zero : α) (values : List α) (index : ℤ) (value : α) :
    Except PyErr (List α) :=
  insertLoop values index value (values.length + 1) 0 0 (List.replicate (values.length + 1) zero)

/-- Loop of `delete_1d`, `_utils_1d.pyx` lines 237-240: `n` iterations left. -/
def deleteLoop {α : Type} (values : List α) (index : ℤ) :
    (n : ℕ) → (i j : ℕ) → List α → Except PyErr (List α)
  | 0, _, _, nv => .ok nv
  | n + 1, i, j, nv =>
    if (i : ℤ) ≠ index then do
      let v ← rd values i
      let nv ← wr nv j v
      deleteLoop values index n (i + 1) (j + 1) nv
    else deleteLoop values index n (i + 1) j nv

/-- `delete_1d`, `_utils_1d.pyx` lines 233-241.  For an empty array the unsigned `size - 1` wraps
around and `np.zeros` raises `ValueError`. -/
def delete1d {α : Type} (zero : α) (values : List α) (index : ℤ) : Except PyErr (List α) :=
  if values.length = 0 then .error .valueError
  else deleteLoop values index values.length 0 0 (List.replicate (values.length - 1) zero)

end BB.Utils1d
