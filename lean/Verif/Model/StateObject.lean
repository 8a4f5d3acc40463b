import Verif.Model.Construct

/-!
# Model of the construction of a `State` from arbitrary objects, and of reading and setting its parameters

`/repo/src/bayesbay/_state.py` lines 268-320.  `V` is the type of the objects that are instances of `ParameterSpaceState` or `DataNoiseState`.

Simplifications: parameters are not named like an attribute of the class (see `Names`), so that `setattr` of line 298 has no other effect than that
described in C60.
-/

namespace BB

/-- A Python object given as a value: an instance of one of the two classes, or another object. -/
inductive TopGiven (V : Type) where
  | proper (v : V)
  | other

/-- `state.set_param_values(k, v)`, lines 291-300: the outcome, and `param_values` afterwards. -/
def setTop {V : Type} (d : List (String × V)) : Key → TopGiven V → Except PyErr Unit × List (String × V)
  | .str k, .proper v => (.ok (), dset d k v)
  | .str _, .other => (.error .typeError, d)
  | .other, _ => (.error .valueError, d)

/-- `state.get_param_values(k)` and `state[k]`, lines 276-277 and 317-320; `none` is Python's `None`. -/
def getTop {V : Type} (d : List (String × V)) : Key → Except PyErr (Option V)
  | .str k => .ok (dget d k)
  | .other => .error .valueError

/-- The loop of lines 273-274.  Setting the item of a dictionary that is there already changes neither its order nor its size, so that the
iteration goes on. -/
def initTopLoop {V : Type} : List (Key × TopGiven V) → List (String × V) → Except PyErr (List (String × V))
  | [], d => .ok d
  | (k, v) :: rest, d =>
    match setTop d k v with
    | (.ok (), d) => initTopLoop rest d
    | (.error e, _) => .error e

/-- `State(param_values, temperature)`, lines 268-274; `none`: a temperature that is not a number, `param_values` that are not a `dict`. -/
def initTop {V : Type} : Option ℝ → Option (List (Key × TopGiven V)) → Except PyErr (List (String × V))
  | none, _ => .error .typeError
  | some _, none => .error .typeError
  | some _, some d => initTopLoop d []

/-- A sequence of calls of `set_param_values`, the exceptions of which are caught. -/
def setAllTop {V : Type} (d : List (String × V)) : List (Key × TopGiven V) → List (String × V)
  | [] => d
  | (k, v) :: rest => setAllTop (setTop d k v).2 rest

end BB
