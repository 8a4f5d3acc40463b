import Verif.Model.Dict

/-!
# Model of `/repo/src/bayesbay/_utils.py`

User functions given as Python objects.  `F` is the type of callables, `V` the type of further
positional/keyword argument values.
-/

namespace BB

/-- An element of the tuple or list by which a user can describe a function. -/
inductive Item (F V : Type) where
  | callable (f : F)
  | seq (args : List V)
  | dict (kwargs : List (String × V))
  | other

/-- A Python object given where a function is expected. `instance_` is an instance of the library's
`Perturbation` (labelled). -/
inductive UF (F V : Type) where
  | none
  | instance_ (label : Nat)
  | callable (f : F)
  | seq (items : List (Item F V))
  | other

/-- The result of `_preprocess_func`: `None`, the perturbation itself, or a `_FunctionWrapper`
(`_utils.py` lines 33-39). -/
inductive Pre (F V : Type) where
  | none
  | instance_ (label : Nat)
  | wrapper (f : Item F V) (args : List V) (kwargs : List (String × V))

/-- `_preprocess_func`, `_utils.py` lines 5-30. -/
def preprocess {F V : Type} : UF F V → Except PyErr (Pre F V)
  | .none => .ok .none
  | .instance_ l => .ok (.instance_ l)
  | .seq (f :: second :: rest) =>
    match second with
    | .seq args =>
      match rest with
      | .dict kwargs :: _ => .ok (.wrapper f args kwargs)
      | _ => .ok (.wrapper f args [])
    | .dict kwargs => .ok (.wrapper f [] kwargs)
    | _ => .error .typeError
  | .seq [f] => .ok (.wrapper f [] [])
  | .seq [] => .error .indexError
  | .callable f => .ok (.wrapper (.callable f) [] [])
  | .other => .ok (.wrapper .other [] [])

/-- `_FunctionWrapper.__call__`, `_utils.py` lines 41-45.  `call f xs ys kw` is the outcome of
`f(*xs, *ys, **kw)`; calling an object that is not callable raises `TypeError`, and every exception
becomes a `UserFunctionException`.  Simplification: exceptions whose attribute `message` is not a string are left out (see
`Exceptions`). -/
def Pre.call {F V R : Type} (call : F → List V → List (String × V) → Except PyErr R)
    (f : Item F V) (args : List V) (kwargs : List (String × V)) (xs : List V) : Except PyErr R :=
  match f with
  | .callable g =>
    match call g (xs ++ args) kwargs with
    | .ok r => .ok r
    | .error _ => .error .userFunction
  | _ => .error .userFunction

end BB
