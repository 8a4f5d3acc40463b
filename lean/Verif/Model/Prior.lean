import Mathlib.Analysis.SpecialFunctions.Log.Basic
import Mathlib.Analysis.Real.Pi.Bounds
import Verif.Model.Likelihood
import Verif.Model.Rand

/-!
# Model of `/repo/src/bayesbay/prior/_prior.py`

A value that the code computes from arrays holding a single number (the position of a new site of a
`Voronoi1D` is an array of shape `(1,)`) is a number here.

Not modelled: rounding; priors depending on position in a space of another number of dimensions than
the discretization they belong to (`PyErr.typeError` here); user functions of a `CustomPrior` that
have side effects or that do not return a number.
-/

namespace BB

/-- A position in the discretization domain: `None`, a point of the line, a point of the plane. -/
inductive Pos where
  | none
  | one (x : ℝ)
  | two (p : ℝ × ℝ)

/-- A hyper-parameter as stored by `add_hyper_params` and `_init_hyper_param`, `_prior.py` lines
223-244 and 288-298: a number, the linear interpolation of the values `ys` given at `xs`, or the
interpolation in the plane by SciPy's `LinearNDInterpolator`, an arbitrary function with `none` for
`nan` (outside of the convex hull of the points). -/
inductive Hyper where
  | const (x : ℝ)
  | line (xs ys : List ℝ)
  | plane (f : ℝ × ℝ → Option ℝ)

/-- `get_hyper_param`, `_prior.py` lines 257-286, and `_interpolate_linear_nd`, lines 1003-1009. -/
noncomputable def Hyper.get : Hyper → Pos → Except PyErr ℝ
  | .const x, _ => .ok x
  | .line _ _, .none => .error .valueError
  | .plane _, .none => .error .valueError
  | .line xs ys, .one x => Utils1d.interpLinear x xs ys
  | .line _ _, .two _ => .error .typeError
  | .plane _, .one _ => .error .typeError
  | .plane f, .two p =>
    match f p with
    | some y => .ok y
    | none => .error .outOfDomain

/-- `get_hyper_param(name, positions)` for an array of positions
(as called by `GaussianPrior.initialize` and `LaplacePrior.initialize`), broadcast to one number for each position: for points of the plane `np.isnan` of
line 1006 is an array, the truth value of which is only defined for a single element. -/
noncomputable def Hyper.getAll (h : Hyper) (ps : List Pos) : Except PyErr (List ℝ) :=
  match h with
  | .const x => .ok (ps.map fun _ => x)
  | .line _ _ => ps.mapM h.get
  | .plane _ =>
    match ps with
    | [p] => do return [← h.get p]
    | _ => .error .valueError

/-- The four classes of priors with their hyper-parameters: `UniformPrior` (lines 301-349),
`GaussianPrior` (483-531), `LaplacePrior` (681-729), `CustomPrior` (877-917).  The user's log prior is
given by its outcomes when called with and without a position. -/
inductive Dist where
  | uniform (vmin vmax : Hyper)
  | gaussian (mean std : Hyper)
  | laplace (mean scale : Hyper)
  | custom (logPrior : ℝ → Pos → Except PyErr PyF) (logPrior1 : ℝ → Except PyErr PyF)
      (sample : Pos → M ℝ)

/-- A `Prior`.  `init` is the function given to `set_custom_initialize` (lines 140-171), if any. -/
structure Prior where
  name : String
  dist : Dist
  std : Hyper
  stdBirth : Hyper
  hasPosition : Bool
  init : Option (List Pos → M Arr) := none

/-- `[f(x) for x in xs]` -/
def M.forEach {α β : Type} (f : α → M β) : List α → M (List β)
  | [] => pure []
  | x :: xs => do
    let y ← f x
    let ys ← M.forEach f xs
    return y :: ys

/-- `get_perturb_std`, lines 173-196, and `get_perturb_std_birth`, lines 198-221. -/
noncomputable def Prior.getStd (p : Prior) (isBirth : Bool) (pos : Pos) : Except PyErr ℝ :=
  if isBirth then p.stdBirth.get pos else p.std.get pos

/-- `sample`: lines 391-393, 571-574, 769-772, 919-920. -/
noncomputable def Prior.sample (p : Prior) (pos : Pos) : M ℝ :=
  match p.dist with
  | .uniform vmin vmax => do
    let a ← M.lift (vmin.get pos)
    let b ← M.lift (vmax.get pos)
    M.uniform a b
  | .gaussian mean std => do
    let m ← M.lift (mean.get pos)
    let s ← M.lift (std.get pos)
    M.normalvariate m s
  | .laplace mean scale => do
    let m ← M.lift (mean.get pos)
    let s ← M.lift (scale.get pos)
    M.npLaplace m s
  | .custom _ _ f => f pos

/-- `result[i] = value` for the array made by `np.empty_like(positions)` (lines 923-925), which has two
columns for positions in the plane. -/
def likePositions : List Pos → List ℝ → Arr
  | .two _ :: _, xs => .pts (xs.map fun x => (x, x))
  | _, xs => .vec xs

/-- `initialize`: lines 395-397 (unpacking the transpose of an empty array raises `ValueError`),
576-596, 774-794, 922-926; or the user's function. -/
noncomputable def Prior.initialize (p : Prior) (ps : List Pos) : M Arr :=
  match p.init with
  | some f => f ps
  | none =>
    match p.dist with
    | .uniform vmin vmax => do
      let bounds ← M.lift (ps.mapM fun q => do
        let a ← vmin.get q
        let b ← vmax.get q
        return (a, b))
      if ps.isEmpty then M.throw .valueError
      else do
        let xs ← M.forEach (fun ab : ℝ × ℝ => M.uniform ab.1 ab.2) bounds
        return .vec xs
    | .gaussian mean std => do
      let ms ← M.lift (mean.getAll ps)
      let ss ← M.lift (std.getAll ps)
      let xs ← M.forEach (fun ab : ℝ × ℝ => M.npNormal ab.1 ab.2) (ms.zip ss)
      return .vec xs
    | .laplace mean scale => do
      let ms ← M.lift (mean.getAll ps)
      let ss ← M.lift (scale.getAll ps)
      let xs ← M.forEach (fun ab : ℝ × ℝ => M.npLaplace ab.1 ab.2) (ms.zip ss)
      return .vec xs
    | .custom _ _ f => do
      let xs ← M.forEach f ps
      return likePositions ps xs

open Classical in
/-- `log_prior`: lines 452-480, 651-679, 849-875, 977-1000.  `math.log` of a number that is not
positive raises `ValueError`, `np.log` of a negative number is `nan`. -/
noncomputable def Prior.logPrior (p : Prior) (v : ℝ) (pos : Pos) : Except PyErr PyF :=
  match p.dist with
  | .uniform vmin vmax => do
    let a ← vmin.get pos
    let b ← vmax.get pos
    if a ≤ v ∧ v ≤ b then do
      let l ← pyLog (b - a)
      return .fin (-l)
    else return .ninf
  | .gaussian mean std => do
    let m ← mean.get pos
    let s ← std.get pos
    if s = 0 then throw .zeroDivisionError
    else if s < 0 then return .nan
    else return .fin (-0.5 * Real.log (2 * Real.pi) - Real.log s - 0.5 * ((v - m) / s) ^ 2)
  | .laplace mean scale => do
    let m ← mean.get pos
    let s ← scale.get pos
    let l ← pyLog s
    return .fin (-Real.log 2 - l - |v - m| / s)
  | .custom f g _ =>
    match f v pos with
    | .ok x => .ok x
    | .error _ => g v

open Classical in
/-- `perturb_value`: lines 399-450, 598-649, 796-847, 928-975.  In `CustomPrior.perturb_value` the
variable `perturb_std` is only assigned when `is_birth` holds. -/
noncomputable def Prior.perturbValue (p : Prior) (v : ℝ) (pos : Pos) (isBirth : Bool) : M (ℝ × PyF) :=
  match p.dist with
  | .uniform vmin vmax => do
    let s ← M.lift (p.getStd isBirth pos)
    let a ← M.lift (vmin.get pos)
    let b ← M.lift (vmax.get pos)
    let d ← M.normalvariate 0 s
    return (v + d, if a ≤ v + d ∧ v + d ≤ b then .fin 0 else .ninf)
  | .gaussian mean std => do
    let s ← M.lift (p.getStd isBirth pos)
    let d ← M.normalvariate 0 s
    let m ← M.lift (mean.get pos)
    let sd ← M.lift (std.get pos)
    if 2 * sd ^ 2 = 0 then M.throw .zeroDivisionError
    else return (v + d, .fin ((v - (v + d)) * (v + (v + d) - 2 * m) / (2 * sd ^ 2)))
  | .laplace mean scale => do
    let s ← M.lift (p.getStd isBirth pos)
    let d ← M.normalvariate 0 s
    let m ← M.lift (mean.get pos)
    let sc ← M.lift (scale.get pos)
    if sc = 0 then M.throw .zeroDivisionError
    else return (v + d, .fin ((|v - m| - |v + d - m|) / sc))
  | .custom _ _ _ => do
    if isBirth then do
      let s ← M.lift (p.getStd true pos)
      let d ← M.normalvariate 0 s
      let new ← M.lift (p.logPrior (v + d) pos)
      let old ← M.lift (p.logPrior v pos)
      return (v + d, new.sub old)
    else M.throw .unboundLocalError

/-! ### construction -/

/-- The argument of a hyper-parameter. -/
inductive HyperArg where
  | scalar (x : ℝ)
  | array (ys : List ℝ)

/-- The argument `position` of a prior. -/
inductive PositionArg where
  | none
  | line (xs : List ℝ)
  | plane (ps : List (ℝ × ℝ))

/-- `len(self.position)` -/
def PositionArg.len : PositionArg → ℕ
  | .none => 0
  | .line xs => xs.length
  | .plane ps => ps.length

/-- One pass of the loop of `add_hyper_params`, lines 236-244, with `_init_hyper_param`, lines
288-298.  `interp` is SciPy's interpolation in the plane. -/
def addHyper (interp : List (ℝ × ℝ) → List ℝ → ℝ × ℝ → Option ℝ) (pos : PositionArg) :
    HyperArg → Except PyErr Hyper
  | .scalar x => .ok (.const x)
  | .array ys =>
    match pos with
    | .none => .error .assertionError
    | .line xs => if ys.length = xs.length then .ok (.line xs ys) else .error .assertionError
    | .plane ps => if ys.length = ps.length then .ok (.plane (interp ps ys)) else .error .assertionError

end BB
