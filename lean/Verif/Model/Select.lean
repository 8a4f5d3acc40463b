import Verif.Model.Py
import Verif.Model.Space

/-!
# Model of `ParameterSpaceState.__getitem__`, `/repo/src/bayesbay/_state.py` lines 88-102

Simplifications: parameters are not named like an attribute of the class (see `Names`); nested states can be copied (see C58), and
copies are equal to the originals (`_state.py` lines 190-205, where the cache is copied, too).  Nested states in arrays of objects are not copied by
line 97 but shared with the original, which is not visible in a model of values.
-/

namespace BB

/-- `xs[i]` of Python and NumPy for an integer: negative indices count from the end. -/
def pyAt {α : Type} (xs : List α) (i : ℤ) : Except PyErr α :=
  let j := if i < 0 then i + xs.length else i
  if j < 0 then .error .indexError
  else
    match xs[j.toNat]? with
    | some x => .ok x
    | none => .error .indexError

/-- `[xs[i] for i in idx]`, and `xs[idx]` for an array and a list of integers. -/
def pyTake {α : Type} (xs : List α) (idx : List ℤ) : Except PyErr (List α) :=
  idx.mapM (pyAt xs)

/-- `xs[mask]` for an array and a non-empty list of Booleans: NumPy wants as many as there are entries. -/
def pyMask {α : Type} (xs : List α) (mask : List Bool) : Except PyErr (List α) :=
  if mask.length = xs.length then .ok ((xs.zip mask).filterMap fun p => if p.2 then some p.1 else none)
  else .error .indexError

/-- What can be given between the brackets, besides a string (C60): a list of integers (possibly empty), a non-empty list of
Booleans, or something that is neither a string nor a list.  NumPy and Python take lists with both integers and Booleans for lists of
integers. -/
inductive Idx where
  | ints (l : List ℤ)
  | bools (l : List Bool)
  | other

/-- `len(idx)` -/
def Idx.len : Idx → ℕ
  | .ints l => l.length
  | .bools l => l.length
  | .other => 0

/-- `xs[idx]` for an array, line 97. -/
def arrayAt {α : Type} (xs : List α) : Idx → Except PyErr (List α)
  | .ints l => pyTake xs l
  | .bools l => pyMask xs l
  | .other => .error .typeError

/-- `[xs[i] for i in idx]` for a list, line 99: Booleans are the integers 0 and 1. -/
def listAt {α : Type} (xs : List α) : Idx → Except PyErr (List α)
  | .ints l => pyTake xs l
  | .bools l => pyTake xs (l.map fun b => if b then 1 else 0)
  | .other => .error .typeError

/-- The values of one parameter, lines 96-99.  Arrays of nested states are arrays. -/
def PVal.at (idx : Idx) : PVal → Except PyErr PVal
  | .arr (.vec xs) => do return .arr (.vec (← arrayAt xs idx))
  | .arr (.pts xs) => do return .arr (.pts (← arrayAt xs idx))
  | .objs l => do return .objs (← arrayAt l idx)
  | .states l => do return .states (← listAt l idx)

/-- The loop of lines 95-99. -/
def valsAt (idx : Idx) : List (String × PVal) → Except PyErr (List (String × PVal))
  | [] => .ok []
  | (k, v) :: rest => do
    let v ← v.at idx
    return (k, v) :: (← valsAt idx rest)

/-- `ps_state[idx]`, lines 88-102; the new state is checked by its constructor (`mkPS`). -/
def PSState.select (s : PSState) : Idx → Except PyErr PSState
  | .other => .error .typeError
  | idx => do
    let vals ← valsAt idx s.vals
    mkPS idx.len vals

end BB
