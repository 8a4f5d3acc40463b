/-!
# Python/Cython outcomes

Shared vocabulary of the model: the exceptions that the modelled code can raise, as values.
-/

namespace BB

/-- The ways in which a modelled call can fail to return a value.

* The first group are Python's built-in exceptions.
* `userFunction`, `forward`, `outOfDomain` are the classes of
  `/repo/src/bayesbay/exceptions/_exceptions.py`.
* `undefinedBehaviour`: a Cython function compiled with `boundscheck(False)` reads or writes out
  of bounds, or reads a C variable that has never been assigned
  (`/repo/src/bayesbay/_utils_1d.pyx`).
* `nonFinite`: the C code divides by zero (`cdivision(True)`) and goes on with `inf`/`nan`, which
  the model does not follow further.
* `tapeExhausted`: the execution needs more random draws than supplied (a rejection loop has not
  ended yet). -/
inductive PyErr where
  | typeError | valueError | keyError | indexError | attributeError | unboundLocalError
  | zeroDivisionError | assertionError | runtimeError | nameError | overflowError
  | userFunction | forward | outOfDomain
  | undefinedBehaviour | nonFinite | tapeExhausted
  deriving DecidableEq, Repr

/-- C array read `xs[i]`, with the C index `i` as an integer: out of bounds is undefined behaviour
(`boundscheck(False)`, `wraparound(False)` in `/repo/src/bayesbay/_utils_1d.pyx`). -/
def rd {α : Type} (xs : List α) (i : Nat) : Except PyErr α :=
  match xs[i]? with
  | some x => .ok x
  | none => .error .undefinedBehaviour

/-- C array write `xs[i] = v`: out of bounds is undefined behaviour. -/
def wr {α : Type} (xs : List α) (i : Nat) (v : α) : Except PyErr (List α) :=
  if i < xs.length then .ok (xs.set i v) else .error .undefinedBehaviour

/-- Reading a C variable that may not have been assigned yet. -/
def rdVar {α : Type} : Option α → Except PyErr α
  | some x => .ok x
  | none => .error .undefinedBehaviour

end BB
