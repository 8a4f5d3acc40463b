import Verif.Model.Space
import Mathlib.Data.List.Dedup

/-!
# Model of the constructors of priors, parameter spaces, parameterizations and parameter-space states

`/repo/src/bayesbay/prior/_prior.py` lines 31-39, 223-244, 288-298 and the `__init__`s of the four classes;
`/repo/src/bayesbay/parameterization/_parameter_space.py` lines 44-67;
`/repo/src/bayesbay/parameterization/_parameterization.py` lines 19-38;
`/repo/src/bayesbay/_state.py` lines 75-86, 104-127.
-/

namespace BB

/-! ### priors -/

/-- SciPy's `LinearNDInterpolator(points, values)`: an arbitrary function of these, `none` for `nan`. -/
abbrev LinearND := List (ℝ × ℝ) → List ℝ → ℝ × ℝ → Option ℝ

/-- The particular arguments of the four classes. -/
inductive RawDist where
  | uniform (vmin vmax : HyperArg)
  | gaussian (mean std : HyperArg)
  | laplace (mean scale : HyperArg)
  | custom (logPrior : ℝ → Pos → Except PyErr PyF) (logPrior1 : ℝ → Except PyErr PyF) (sample : Pos → M ℝ)

/-- `np.array(vmax) - np.array(vmin)`, line 348: arrays of different lengths cannot be broadcast, unless one has a
single element. -/
def subtractable : HyperArg → HyperArg → Bool
  | .array a, .array b => a.length == b.length || a.length == 1 || b.length == 1
  | _, _ => true

/-- The particular hyper-parameters: `UniformPrior.__init__`, lines 343-349 (the `delta`, computed before anything is added,
has the length of `vmin` or `vmax`), `GaussianPrior.__init__`, lines 526-531, `LaplacePrior.__init__`, lines 724-729,
`CustomPrior.__init__`, lines 912-917. -/
def RawDist.build (nd : LinearND) (pos : PositionArg) : RawDist → Except PyErr Dist
  | .uniform a b =>
    if subtractable a b then do
      let a ← addHyper nd pos a
      let b ← addHyper nd pos b
      return .uniform a b
    else .error .valueError
  | .gaussian a b => do
    let a ← addHyper nd pos a
    let b ← addHyper nd pos b
    return .gaussian a b
  | .laplace a b => do
    let a ← addHyper nd pos a
    let b ← addHyper nd pos b
    return .laplace a b
  | .custom f g s => .ok (.custom f g s)

/-- Whether `self.position` is not `None`. -/
def PositionArg.given : PositionArg → Bool
  | .none => false
  | _ => true

/-- The `__init__`s of the four classes with `Prior.__init__`, lines 31-39.  The standard deviation of the perturbations at
birth is that of the others if it is `None`. -/
def Prior.build (nd : LinearND) (name : String) (raw : RawDist) (std : HyperArg) (stdBirth : Option HyperArg)
    (pos : PositionArg) : Except PyErr Prior := do
  let dist ← raw.build nd pos
  let s ← addHyper nd pos std
  let sb ← addHyper nd pos (stdBirth.getD std)
  return { name := name, dist := dist, std := s, stdBirth := sb,
           hasPosition := pos.given }

/-! ### parameter spaces -/

/-- `self._parameters[param.name] = param` -/
def ParamList.set : ParamList → String → Param → ParamList
  | .nil, n, p => .cons n p .nil
  | .cons n' p' rest, n, p => if n' = n then .cons n' p rest else .cons n' p' (rest.set n p)

/-- `ParameterSpace.__init__`, `_parameter_space.py` lines 59-62. -/
def Space.build (info : Info) (params : List Param) : Space :=
  .mk info (params.foldl (fun d p => d.set p.name p) .nil)

/-- `len(names) != len(set(names))` -/
def hasDuplicates (names : List String) : Bool := names.length != names.dedup.length

/-- `_check_duplicate_param_names`, `_parameterization.py` lines 32-38. -/
def checkParamNames : List Space → Except PyErr Unit
  | [] => .ok ()
  | s :: rest => if hasDuplicates (s.params.toList.map (·.1)) then .error .valueError else checkParamNames rest

/-- `Parameterization.__init__`, lines 19-24: the dictionary `parameter_spaces`. -/
def Parameterization.build (spaces : List Space) : Except PyErr (List (String × Space)) := do
  if hasDuplicates (spaces.map (·.info.name)) then throw .valueError
  checkParamNames spaces
  return spaces.foldl (fun d s => dset d s.info.name s) []

/-! ### parameter-space states from arbitrary objects -/

/-- A Python object given as the values of a parameter: an array (`none`: one without axes, which has no
length), a list, a parameter-space state, another object with a length (a tuple, a string, ...), another one. -/
inductive GivenObj where
  | array (len : Option ℕ)
  | list (l : List GivenObj)
  | psState
  | sized (n : ℕ)
  | unsized

/-- `len(values)` -/
def GivenObj.len : GivenObj → Except PyErr ℕ
  | .array (some n) => .ok n
  | .array none => .error .typeError
  | .list l => .ok l.length
  | .psState => .error .typeError
  | .sized n => .ok n
  | .unsized => .error .typeError

/-- A key of a dictionary: a string or not. -/
inductive Key where
  | str (s : String)
  | other

/-- The test of `set_param_values`, `_state.py` lines 115-127. -/
def setParamCheck : Key → GivenObj → Except PyErr Unit
  | .other, _ => .error .valueError
  | .str _, .array _ => .ok ()
  | .str _, .list [] => .error .indexError
  | .str _, .list (.psState :: _) => .ok ()
  | .str _, _ => .error .typeError

/-- The loop of `__post_init__`, lines 80-86. -/
def postInitLoop (n : ℤ) : List (Key × GivenObj) → Except PyErr Unit
  | [] => .ok ()
  | (k, v) :: rest =>
    match v.len with
    | .error e => .error e
    | .ok l =>
      if (l : ℤ) ≠ n then .error .valueError
      else
        match setParamCheck k v with
        | .error e => .error e
        | .ok () => postInitLoop n rest

/-- `ParameterSpaceState.__post_init__`, lines 75-86; `none`: an `n_dimensions` that is not an `int`, `param_values` that are
not a `dict`. -/
def postInit : Option ℤ → Option (List (Key × GivenObj)) → Except PyErr Unit
  | none, _ => .error .typeError
  | some _, none => .error .typeError
  | some n, some d => postInitLoop n d

end BB
