import Mathlib.Data.Real.Basic
import Verif.Model.Dict

/-!
# Model of `/repo/src/bayesbay/_state.py` (value semantics)

States as values.  Sharing and in-place modification of arrays is the subject of `Verif/Model/Heap.lean`;
the attributes set beside the `param_values` entries are the subject of `Verif/Model/Heap.lean`.
-/

namespace BB

/-- `DataNoiseState`, `_state.py` lines 8-14. -/
structure Noise where
  std : ℝ
  corr : Option ℝ

/-- A NumPy array as parameter value: one number per dimension, or one point of the plane per
dimension (sites of a `Voronoi2D`). -/
inductive Arr where
  | vec (xs : List ℝ)
  | pts (xs : List (ℝ × ℝ))

/-- `len(array)` -/
def Arr.len : Arr → ℕ
  | .vec xs => xs.length
  | .pts xs => xs.length

mutual
/-- `ParameterSpaceState`, `_state.py` lines 49-73: number of dimensions, the dictionary
`param_values`, and the cache, of which the library uses only the entry `kdtree`, represented here
by the list of sites from which the tree has been built (`discretization/_voronoi.py` lines
1393-1396). -/
inductive PSState where
  | mk (n : ℕ) (vals : List (String × PVal)) (kd : Option (List (ℝ × ℝ)))
/-- A value of `ParameterSpaceState.param_values`: an array of numbers, a list of nested states, or
an array (`dtype=object`) of nested states, which `ParameterSpace.sample` makes for a nested
discretization (`parameterization/_parameter_space.py` lines 184-186). -/
inductive PVal where
  | arr (a : Arr)
  | states (l : List PSState)
  | objs (l : List PSState)
end

/-- `ps_state.n_dimensions` -/
def PSState.n : PSState → ℕ
  | .mk n _ _ => n

/-- `ps_state.param_values` -/
def PSState.vals : PSState → List (String × PVal)
  | .mk _ v _ => v

/-- `ps_state.cache.get("kdtree")` -/
def PSState.kd : PSState → Option (List (ℝ × ℝ))
  | .mk _ _ k => k

/-- `len(values)` -/
def PVal.len : PVal → ℕ
  | .arr a => a.len
  | .states l => l.length
  | .objs l => l.length

/-- A value of `State.param_values`. -/
inductive TopVal where
  | ps (s : PSState)
  | noise (d : Noise)

/-- The dictionary `State.param_values`. -/
abbrev Params := List (String × TopVal)

/-- The values that the library stores in `State.cache`: predicted data
(`likelihood/_log_likelihood.py` line 320) and the statistics of a parameter-space perturbation
(`perturbations/_param_space.py` line 75). -/
inductive CVal where
  | dpred (d : List ℝ)
  | stats (s : List (String × ℝ))

/-- `State`, `_state.py` lines 235-266.  The values of `extra_storage` are arbitrary Python
objects; here they are opaque (real) labels. -/
structure State where
  params : Params
  temperature : ℝ
  cache : List (String × CVal)
  extra : List (String × ℝ)

/-- `State.copy`, `_state.py` lines 428-461: the parameters and the temperature are copied; the
cache is dropped, except for the entry whose key is *equal* to `"dpred"` when `keep_dpred` is
set. -/
def State.copy (s : State) (keepDpred : Bool := false) : State where
  params := s.params
  temperature := s.temperature
  cache := if keepDpred then s.cache.filter (fun kv => kv.1 == "dpred") else []
  extra := []

end BB
