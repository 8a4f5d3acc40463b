import Verif.Model.Utils1d

/-!
# Model of the static helpers of `Voronoi1D`

`/repo/src/bayesbay/discretization/_voronoi.py` lines 605-735.  The `input_type` strings
`"nuclei"`/`"extents"` are an enumeration with a third value for any other string.
-/

namespace BB.Tessellation

open BB.Utils1d

variable {K : Type} [Field K] [LinearOrder K]

/-- The value of the `input_type` argument. -/
inductive InputType where
  | nuclei | extents | other
  deriving DecidableEq, Repr

/-- `Voronoi1D.compute_cell_extents`, `_voronoi.py` lines 606-647: `None` bounds become infinite,
which is how `cellExtents` represents them. -/
def computeCellExtents (sites : List K) (lb ub : Option K) (fill : K) : Except PyErr (List K) :=
  cellExtents sites lb ub fill

/-- `np.cumsum`, with a running total. -/
def cumsumFrom (acc : K) : List K → List K
  | [] => []
  | a :: as => (acc + a) :: cumsumFrom (acc + a) as

/-- `np.cumsum` as used in `_voronoi.py` line 681. -/
def cumsum (xs : List K) : List K := cumsumFrom 0 xs

/-- `Voronoi1D.compute_interface_positions`, `_voronoi.py` lines 650-683. -/
def computeInterfacePositions (cells : List K) (ty : InputType) (lb : Option K) :
    Except PyErr (List K) :=
  match ty with
  | .nuclei => .ok (List.zipWith (fun a b => (a + b) / 2) cells.dropLast cells.tail)
  | .extents =>
    match lb with
    | none => .error .assertionError
    | some l => .ok ((cumsum cells).dropLast.map (· + l))
  | .other => .error .valueError

/-- `Voronoi1D.interpolate_tessellation`, `_voronoi.py` lines 686-716, for an array of
positions. -/
def interpolateTessellation (cells values positions : List K) (ty : InputType) :
    Except PyErr (List K) :=
  match ty with
  | .nuclei => interpolateNearest positions cells values
  | .extents => depthProfile cells values positions
  | .other => .error .valueError

/-- `Voronoi1D._interpolate_tessellations`, `_voronoi.py` lines 719-735: one row per sample.  The
loop zips cells and values, whereas the number of rows is the number of value samples; rows that
are not visited stay zero. -/
def interpolateTessellations (cells values : List (List K)) (positions : List K) (ty : InputType) :
    Except PyErr (List (List K)) := do
  let rows ← (cells.zip values).mapM (fun cv => interpolateTessellation cv.1 cv.2 positions ty)
  return rows ++ List.replicate (values.length - rows.length) (List.replicate positions.length 0)

end BB.Tessellation
