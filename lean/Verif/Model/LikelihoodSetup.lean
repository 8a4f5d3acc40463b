import Verif.Model.Likelihood
import Verif.Model.UserFunc

/-!
# Model of the construction and extension of a `LogLikelihood`

`/repo/src/bayesbay/likelihood/_log_likelihood.py` lines 67-78, 162-202, 265-306.
-/

namespace BB

/-- An argument that may be `None`, a single object or a list of objects. -/
inductive Arg (α : Type) where
  | none
  | one (x : α)
  | list (xs : List α)

/-- `if not isinstance(x, list): x = [x]`; `none` when the argument is `None`. -/
def Arg.toList? {α : Type} : Arg α → Option (List α)
  | .none => Option.none
  | .one x => some [x]
  | .list xs => some xs

/-- An object given as target. -/
inductive TObj where
  | target (t : Target)
  | other

/-- An object given as forward function. -/
abbrev FObj := UF Fwd ℝ

/-- `isinstance(func, (Callable, tuple))`; instances of `Perturbation` are callable. -/
def isCallableOrTuple : FObj → Bool
  | .callable _ => true
  | .seq _ => true
  | .instance_ _ => true
  | _ => false

/-- Which of the three ways of computing the ratio is in use. -/
inductive Sel where
  | targets | ratio | loglike
  deriving DecidableEq

/-- The attributes of a `LogLikelihood`.  A forward function is `inr` once it has been wrapped by
`_preprocess_func`.  `noise` is the list of targets of the `NoisePerturbation`, `none` if there is
no such perturbation.  `notified` lists what the observers have been notified of. -/
structure LL where
  targets : List Target := []
  fwds : List (FObj ⊕ Pre Fwd ℝ) := []
  ratioFunc : Option (Pre Unit ℝ) := Option.none
  loglikeFunc : Option (Pre Unit ℝ) := Option.none
  sel : Option Sel := Option.none
  noise : Option (List Target) := Option.none
  observers : ℕ := 0
  notified : List (List Target) := []

/-- The checks `isinstance(target, Target)`, lines 186-188. -/
def checkTargets : List TObj → Except PyErr (List Target)
  | [] => .ok []
  | .target t :: rest => do return t :: (← checkTargets rest)
  | .other :: _ => .error .typeError

/-- End of `add_targets`: lines 199-202, with `_check_duplicate_target_names` (265-269) and
`_init_perturbation_funcs` (293-306).  `inversion.update_log_likelihood_targets(None)` iterates over
`None` (at least one chain being present). -/
def LL.finish (ll : LL) (ts : Option (List Target)) : Except PyErr Unit × LL :=
  if (ll.targets.map (·.name)).Nodup then
    let hier := ll.targets.filter (·.hierarchical)
    let ll := { ll with noise := if hier.isEmpty then Option.none else some hier }
    match ts with
    | Option.none => if ll.observers = 0 then (.ok (), ll) else (.error .typeError, ll)
    | some ts => (.ok (), { ll with notified := ll.notified ++ List.replicate ll.observers ts })
  else (.error .valueError, ll)

/-- `add_targets`, lines 162-202: outcome and the object afterwards (also when an exception is
raised). -/
def LL.addTargets (ll : LL) (targets : Arg TObj) (fwds : Arg FObj) : Except PyErr Unit × LL :=
  -- lines 183-189
  match (match targets.toList? with
    | Option.none => (Except.ok (Option.none : Option (List Target)))
    | some ts => (checkTargets ts).map some) with
  | .error e => (.error e, ll)
  | .ok ts =>
    let ll1 := { ll with targets := ll.targets ++ ts.getD [] }
    -- lines 191-197
    match fwds.toList? with
    | Option.none => ll1.finish ts
    | some fs =>
      if fs.all isCallableOrTuple then
        { ll1 with fwds := ll1.fwds ++ fs.map Sum.inl }.finish ts
      else (.error .typeError, ll1)

/-- `[_preprocess_func(func) for func in _fwd_functions]`, line 277. -/
def wrapFwds : List (FObj ⊕ Pre Fwd ℝ) → Except PyErr (List (FObj ⊕ Pre Fwd ℝ))
  | [] => .ok []
  | .inl f :: rest => do
    let p ← preprocess f
    return .inr p :: (← wrapFwds rest)
  | .inr p :: rest => do return .inr p :: (← wrapFwds rest)

/-- `_init_log_likelihood_ratio`, lines 271-291. -/
def LL.initRatio (ll : LL) (ratio loglike : UF Unit ℝ) : Except PyErr LL :=
  if ll.targets ≠ [] ∧ ll.fwds ≠ [] then
    if ll.fwds.length = ll.targets.length then do
      let fwds ← wrapFwds ll.fwds
      return { ll with fwds := fwds, sel := some .targets }
    else .error .assertionError
  else match ratio with
    | .none | .seq [] =>
      match loglike with
      | .none | .seq [] => .error .valueError
      | _ => do
        let p ← preprocess loglike
        return { ll with loglikeFunc := some p, sel := some .loglike }
    | _ => do
      let p ← preprocess ratio
      return { ll with ratioFunc := some p, sel := some .ratio }

/-- `LogLikelihood.__init__`, lines 67-78. -/
def LL.init (targets : Arg TObj) (fwds : Arg FObj) (ratio loglike : UF Unit ℝ) :
    Except PyErr LL :=
  match LL.addTargets {} targets fwds with
  | (.error e, _) => .error e
  | (.ok (), ll) => ll.initRatio ratio loglike

end BB
