import Mathlib.Analysis.SpecialFunctions.Log.Basic
import Verif.Model.State
import Verif.Model.PyF
import Verif.Model.Utils1d

/-!
# Model of `/repo/src/bayesbay/likelihood/_target.py` and `_log_likelihood.py`

Data vectors are one-dimensional arrays (lists of reals).  Forward functions are arbitrary
deterministic functions of the parameters of a state that either return a one-dimensional array or
raise (`none`).  Not modelled: forward functions returning arrays of more than one dimension,
forward functions that read or write the caches, rounding.
-/

namespace BB

/-! ### NumPy operations on one-dimensional arrays -/

/-- Element-wise operation with broadcasting of arrays of length one. -/
def bcast (f : ℝ → ℝ → ℝ) (a b : List ℝ) : Except PyErr (List ℝ) :=
  if a.length = b.length then .ok (List.zipWith f a b)
  else match a, b with
    | [x], _ => .ok (b.map (f x))
    | _, [y] => .ok (a.map (fun x => f x y))
    | _, _ => .error .valueError

/-- `a @ b` for one-dimensional arrays. -/
def vdot (a b : List ℝ) : Except PyErr ℝ :=
  if a.length = b.length then .ok (List.zipWith (· * ·) a b).sum else .error .valueError

/-- `m @ v` for a two-dimensional array `m` given by its rows. -/
def matVec (m : List (List ℝ)) (v : List ℝ) : Except PyErr (List ℝ) :=
  m.mapM (fun row => vdot row v)

/-- The rows of an `n × n` matrix. -/
def Utils1d.Mat.rows (m : Utils1d.Mat ℝ) : List (List ℝ) :=
  (List.range m.n).map (fun i => (List.range m.n).map (fun j => m.f i j))

/-! ### `Target` -/

/-- The argument `covariance_mat_inv` when it is not `None` (`_target.py` lines 72-77): a number, or
an array of one or two dimensions. -/
inductive CovInv where
  | scalar (c : ℝ)
  | vec (w : List ℝ)
  | mat (m : List (List ℝ))

/-- `Target`, `_target.py` lines 41-79. -/
structure Target where
  name : String
  dobs : List ℝ
  covInv : Option CovInv := none
  correlated : Bool := false
  stdMin : ℝ := 0.01
  stdMax : ℝ := 1
  stdPerturb : ℝ := 0.1
  corrMin : ℝ := 0.01
  corrMax : ℝ := 1
  corrPerturb : ℝ := 0.1

open Classical in
/-- The assertions of `Target.__init__`, `_target.py` lines 63-71. -/
noncomputable def Target.check (t : Target) : Except PyErr Target :=
  if t.stdMin ≤ t.stdMax ∧ 0 ≤ t.stdMin ∧ t.corrMin ≤ t.corrMax ∧ 0 ≤ t.corrMin ∧ t.corrMax ≤ 1
  then .ok t else .error .assertionError

/-- `is_hierarchical`, `_target.py` lines 110-113. -/
def Target.hierarchical (t : Target) : Bool := t.covInv.isNone

/-- `noise = state[self.name]` followed by the attribute access `noise.std`
(`_target.py` lines 161-163, 202-204): `state[...]` is `None` when the name is missing, and
a parameter-space state has no attribute `std` either. -/
def getNoise (p : Params) (name : String) : Except PyErr Noise :=
  match dget p name with
  | some (.noise d) => .ok d
  | _ => .error .attributeError

open Classical in
/-- `inverse_covariance_times_vector`, `_target.py` lines 136-170. -/
noncomputable def Target.invCovTimes (t : Target) (p : Params) (v : List ℝ) :
    Except PyErr (List ℝ) :=
  match t.covInv with
  | some (.scalar c) => .ok (v.map (c * ·))
  | some (.mat m) => matVec m v
  | some (.vec w) => bcast (· * ·) w v
  | none => do
    let noise ← getNoise p t.name
    match noise.corr with
    | none =>
      if noise.std ^ 2 = 0 then throw .zeroDivisionError
      return v.map ((1 / noise.std ^ 2) * ·)
    | some r => do
      let m ← Utils1d.inverseCovariance noise.std r t.dobs.length
      matVec m.rows v

open Classical in
/-- `math.log(x)` -/
noncomputable def pyLog (x : ℝ) : Except PyErr ℝ :=
  if 0 < x then .ok (Real.log x) else .error .valueError

/-- `log_determinant_covariance`, `_target.py` lines 172-208. -/
noncomputable def Target.logDet (t : Target) (p : Params) : Except PyErr ℝ := do
  let noise ← getNoise p t.name
  let r := noise.corr.getD 0
  let n : ℝ := t.dobs.length
  let a ← pyLog noise.std
  let b ← pyLog (1 - r ^ 2)
  return (2 * n) * a + (n - 1) * b

/-! ### `LogLikelihood` -/

/-- A forward function. -/
abbrev Fwd := Params → Option (List ℝ)

/-- What an evaluation of the likelihood can modify: the cache of the state, and (for the purpose
of the properties) the log of the forward functions called. -/
structure EvSt where
  cache : List (String × CVal)
  calls : List String

/-- The key of the cache, `_log_likelihood.py` line 312. -/
def dpredKey (name : String) : String := name ++ ".dpred"

/-- `_log_likelihood.py` lines 312-320: predicted data from the cache, or from the forward function
(whose exceptions become `ForwardException`). -/
def getDpred (t : Target) (f : Fwd) (p : Params) (s : EvSt) : Except PyErr (List ℝ) × EvSt :=
  match dget s.cache (dpredKey t.name) with
  | some (.dpred d) => (.ok d, s)
  | some (.stats _) => (.error .typeError, s)
  | none =>
    let s := { s with calls := s.calls ++ [t.name] }
    match f p with
    | none => (.error .forward, s)
    | some d => (.ok d, { s with cache := dset s.cache (dpredKey t.name) (.dpred d) })

/-- `_log_likelihood.py` lines 321-322. -/
noncomputable def Target.misfit (t : Target) (p : Params) (dpred : List ℝ) : Except PyErr ℝ := do
  let residual ← bcast (· - ·) dpred t.dobs
  let w ← t.invCovTimes p residual
  vdot residual w

/-- Loop of `_get_misfit_and_det`, `_log_likelihood.py` lines 311-324. -/
noncomputable def misfitLoop (p : Params) :
    List (Target × Fwd) → ℝ → ℝ → EvSt → Except PyErr (ℝ × ℝ) × EvSt
  | [], misfit, logDet, s => (.ok (misfit, logDet), s)
  | (t, f) :: rest, misfit, logDet, s =>
    match getDpred t f p s with
    | (.error e, s) => (.error e, s)
    | (.ok dpred, s) =>
      match t.misfit p dpred with
      | .error e => (.error e, s)
      | .ok q =>
        if t.hierarchical then
          match t.logDet p with
          | .error e => (.error e, s)
          | .ok l => misfitLoop p rest (misfit + q) (logDet + l) s
        else misfitLoop p rest (misfit + q) logDet s

/-- `_get_misfit_and_det`, `_log_likelihood.py` lines 308-332, on a state: the second component is
the state with its updated cache, the third the names of the targets whose forward function has
been called. -/
noncomputable def getMisfitAndDet (tf : List (Target × Fwd)) (s : State) :
    Except PyErr (ℝ × ℝ) × State × List String :=
  match misfitLoop s.params tf 0 0 ⟨s.cache, []⟩ with
  | (r, e) => (r, { s with cache := e.cache }, e.calls)

/-- `_log_likelihood_ratio_from_targets`, `_log_likelihood.py` lines 245-251: the result, the two
states with their updated caches, and the forward calls made on each of them. -/
noncomputable def ratioFromTargets (tf : List (Target × Fwd)) (old new : State) :
    Except PyErr ℝ × (State × List String) × (State × List String) :=
  match getMisfitAndDet tf old with
  | (.error e, old', c) => (.error e, (old', c), (new, []))
  | (.ok (oldMisfit, oldLogDet), old', c) =>
    match getMisfitAndDet tf new with
    | (.error e, new', c') => (.error e, (old', c), (new', c'))
    | (.ok (newMisfit, newLogDet), new', c') =>
      (.ok ((oldLogDet - newLogDet + oldMisfit - newMisfit) / 2), (old', c), (new', c'))

open Classical in
/-- Division by a Python number. -/
noncomputable def pyDiv (x : PyF) (t : ℝ) : Except PyErr PyF :=
  if t = 0 then .error .zeroDivisionError else .ok (x.divFin t)

/-- The three ways of computing the ratio; the user supplied functions may return any float or
raise, which reaches the caller as `UserFunctionException` (`_utils.py` lines 41-45). -/
inductive LLKind (S : Type) where
  | targets
  | ratio (f : S → S → Except PyErr PyF)
  | loglike (f : S → Except PyErr PyF)

/-- `_log_likelihood_ratio_from_loglike`, `_log_likelihood.py` lines 253-258. -/
noncomputable def ratioFromLoglike {S : Type} (f : S → Except PyErr PyF) (old new : S) :
    Except PyErr PyF := do
  let o ← f old
  let n ← f new
  return n.sub o

/-- `log_likelihood_ratio`, `_log_likelihood.py` lines 204-243, for states of type `State`. -/
noncomputable def logLikelihoodRatio (kind : LLKind State) (tf : List (Target × Fwd))
    (old new : State) (temperature : ℝ) :
    Except PyErr PyF × (State × List String) × (State × List String) :=
  match kind with
  | .targets =>
    match ratioFromTargets tf old new with
    | (r, o, n) => ((do let x ← r; pyDiv (.fin x) temperature), o, n)
  | .ratio f => ((do let x ← f old new; pyDiv x temperature), (old, []), (new, []))
  | .loglike f => ((do let x ← ratioFromLoglike f old new; pyDiv x temperature),
      (old, []), (new, []))

end BB
