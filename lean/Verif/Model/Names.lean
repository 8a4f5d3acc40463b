import Verif.Model.Space
import Verif.Model.Chain

/-!
# Model of the attributes of a `ParameterSpaceState` object

`/repo/src/bayesbay/_state.py` lines 50-232.  The other models identify a state with its number of dimensions, its values and its cached
tree.  Here it is an object with an instance dictionary: `set_param_values` assigns every parameter to the attribute with its name
(line 125), so that a parameter may hide an attribute or a method of the object.

The objects of nested states are not modelled (a nested state is a value, the copy of which is equal).
-/

namespace BB

/-- What an attribute of a `ParameterSpaceState` can be: the number of dimensions, the dictionary of the values, the cache, or the values
of a parameter. -/
inductive AVal where
  | int (n : ℕ)
  | dict (d : List (String × PVal))
  | store (c : List (String × List (ℝ × ℝ)))
  | val (v : PVal)

/-- The instance dictionary of an object. -/
abbrev PSObj := List (String × AVal)

/-- The methods of the class that are found by their names through an object (lines 104-232); `__getitem__` is found through the class. -/
def psMethods : List String :=
  ["set_param_values", "get_param_values", "saved_in_cache", "load_from_cache", "save_to_cache", "copy", "todict"]

/-- `obj.k` for an attribute that is not a method. -/
def PSObj.attr (o : PSObj) (k : String) : Except PyErr AVal :=
  match dget o k with
  | some v => .ok v
  | none => .error .attributeError

/-- `obj.k(…)` for a method `k` of the class: the instance dictionary comes first, and nothing in it can be called. -/
def PSObj.method (o : PSObj) (k : String) : Except PyErr Unit :=
  match dget o k with
  | some _ => .error .typeError
  | none => .ok ()

/-- `if len(values) != self.n_dimensions`, line 81, where `len` is the number on the left.  The comparison with an array is an array,
which has a truth value only if it has one entry (of an empty array too before NumPy 2.2; not modelled); an integer is different from
all other objects. -/
noncomputable def lenDiffers (len : ℕ) : AVal → Except PyErr Bool := by
  classical exact fun
    | .int n => .ok (decide (len ≠ n))
    | .val (.arr (.vec [x])) => .ok (decide ((len : ℝ) ≠ x))
    | .val (.arr _) => .error .valueError
    | .val (.objs [_]) => .ok true
    | .val (.objs _) => .error .valueError
    | .val (.states _) => .ok true
    | .dict _ => .ok true
    | .store _ => .ok true

/-- The body of `set_param_values`, lines 116-125: the type of the values, `self.param_values[param_name] = values` (arrays and lists
have no entries with names) and `setattr`.  The attribute never is a number or the cache. -/
def PSObj.assign (o : PSObj) (k : String) (v : PVal) : Except PyErr PSObj := do
  checkVal v
  match ← o.attr "param_values" with
  | .dict d => .ok (dset (dset o "param_values" (.dict (dset d k v))) k (.val v))
  | .val (.states _) => .error .typeError
  | .val _ => .error .indexError
  | .int _ => .error .typeError
  | .store _ => .error .typeError

/-- `obj.set_param_values(k, v)`. -/
def PSObj.set (o : PSObj) (k : String) (v : PVal) : Except PyErr PSObj := do
  o.method "set_param_values"
  o.assign k v

/-- The loop of `__post_init__`, lines 80-86, over the values not assigned yet. -/
noncomputable def PSObj.fill (o : PSObj) : List (String × PVal) → Except PyErr PSObj
  | [] => .ok o
  | (k, v) :: rest => do
    let n ← o.attr "n_dimensions"
    if ← lenDiffers v.len n then .error .valueError
    else do
      let o ← o.set k v
      PSObj.fill o rest

/-- `ParameterSpaceState(n, vals)` for an integer `n`, lines 69-86. -/
noncomputable def newObj (n : ℕ) (vals : List (String × PVal)) : Except PyErr PSObj :=
  PSObj.fill [("n_dimensions", .int n), ("param_values", .dict vals), ("cache", .store [])] vals

/-- `obj[k]`, lines 88-92 and 129-147 (`None` if missing).  Arrays and lists have no attribute `get`. -/
def PSObj.item (o : PSObj) (k : String) : Except PyErr (Option PVal) := do
  o.method "get_param_values"
  match ← o.attr "param_values" with
  | .dict d => .ok (dget d k)
  | _ => .error .attributeError

/-- `obj.save_to_cache(k, v)`, lines 178-188. -/
def PSObj.save (o : PSObj) (k : String) (v : List (ℝ × ℝ)) : Except PyErr PSObj := do
  o.method "save_to_cache"
  match ← o.attr "cache" with
  | .store c => .ok (dset o "cache" (.store (dset c k v)))
  | .val (.states _) => .error .typeError
  | .val _ => .error .indexError
  | _ => .error .typeError

/-- `obj.copy()`, lines 190-205.  The values are copied one by one (equal values here); `ParameterSpaceState` raises `TypeError` unless
the number of dimensions is an integer (lines 76-77); the copy of the cache is assigned afterwards. -/
noncomputable def PSObj.copy (o : PSObj) : Except PyErr PSObj := do
  o.method "copy"
  match ← o.attr "param_values" with
  | .dict d => do
    match ← o.attr "n_dimensions" with
    | .int n => do
      let new ← newObj n d
      let c ← o.attr "cache"
      .ok (dset new "cache" c)
    | _ => .error .typeError
  | _ => .error .attributeError

/-- The first lines of `State.copy`, `_state.py` lines 455-457, for the spaces of a state: each of them is copied. -/
noncomputable def copyAll : List (String × PSObj) → Except PyErr (List (String × PSObj))
  | [] => .ok []
  | (k, o) :: rest => do
    let o ← o.copy
    let rest ← copyAll rest
    .ok ((k, o) :: rest)

/-- A perturbation of the library: something is done before `new_state = state.copy()` and something after it
(`perturbations/_param_space.py` line 25, `_birth_death.py` lines 54 and 115, `_param_values.py` line 56, `_data_noise.py` line 54).
Both parts are arbitrary; they only read the given state, so that it is not changed if one of them raises. -/
noncomputable def copying {α : Type} (before : List (String × PSObj) → M α)
    (after : α → List (String × PSObj) → M (List (String × PSObj) × PyF)) (s : List (String × PSObj)) :
    M (List (String × PSObj) × PyF) := fun t =>
  match before s t with
  | (.error e, t) => (.error e, t)
  | (.ok a, t) =>
    match copyAll s with
    | .error e => (.error e, t)
    | .ok new => after a new t

end BB
