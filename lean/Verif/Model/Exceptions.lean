import Verif.Model.Py

/-!
# Model of the exceptions of the library and of how exceptions of the user's functions are passed on

`/repo/src/bayesbay/exceptions/_exceptions.py`, `/repo/src/bayesbay/_utils.py` lines 33-59,
`/repo/src/bayesbay/likelihood/_log_likelihood.py` lines 316-319 and `/repo/src/bayesbay/_markov_chain.py` lines 214, 225.

Simplifications: classes are identified by their names; exceptions have no subclasses among those of the library; the text `str(e)` of an exception and its
attribute `message` do not change when they are looked at.
-/

namespace BB

/-- The attribute `message` of an exception: there is none, it is a string, or it is something else. -/
inductive MsgAttr where
  | absent
  | str (m : String)
  | other

/-- An exception: its class, `str(e)`, its attribute `message`, its attribute `args`, and whether its class is derived from `Exception`
(`KeyboardInterrupt` and `SystemExit` are not). -/
structure Exc where
  cls : String
  text : String
  message : MsgAttr
  args : List String
  derived : Bool

/-- What `"…" + x` raises if `x` is not a string. -/
def Exc.notString : Exc :=
  { cls := "TypeError", text := "can only concatenate str", message := .absent, args := ["can only concatenate str"], derived := true }

/-- `ForwardException(e)` and `UserFunctionException(e)`, `_exceptions.py` lines 5-11 and 33-39: the exception that is there afterwards is the new one, or
the one raised by the concatenation of strings. -/
def Exc.wrap (cls before : String) (e : Exc) : Exc :=
  let made (m : String) : Exc := { cls := cls, text := m, message := .str m, args := [m], derived := true }
  match e.message with
  | .str m => made (before ++ m)
  | .absent => made (before ++ (e.cls ++ ": " ++ e.text))
  | .other => Exc.notString

/-- `UserFunctionException`, `_exceptions.py` lines 30-42. -/
def Exc.user : Exc → Exc :=
  Exc.wrap "UserFunctionException" "error occurred when running the user-provided function - "

/-- `ForwardException`, `_exceptions.py` lines 1-14. -/
def Exc.forward : Exc → Exc :=
  Exc.wrap "ForwardException" "error occurred when running the forward function - "

/-- `_FunctionWrapper.__call__`, `_utils.py` lines 41-45, for a function of the user with the given outcome. -/
def wrapperOutcome {R : Type} : Except Exc R → Except Exc R
  | .ok r => .ok r
  | .error e => if e.derived then .error e.user else .error e

/-- The call of a forward function, `_log_likelihood.py` lines 316-319, which is a `_FunctionWrapper`. -/
def forwardOutcome {R : Type} (out : Except Exc R) : Except Exc R :=
  match wrapperOutcome out with
  | .ok r => .ok r
  | .error e => if e.derived then .error e.forward else .error e

/-- The exceptions after which `_next_iteration` tries again: those of a perturbation (`_markov_chain.py` line 214) and those of the
likelihood (line 225). -/
def retriedPerturb (e : Exc) : Bool := e.cls == "UserFunctionException"
def retriedLikelihood (e : Exc) : Bool := e.cls == "ForwardException" || e.cls == "UserFunctionException"

/-- An exception of one of the two classes that is sent from one process to another (`BaseException.__reduce__`): it is made anew
by calling the class with `args`, here with a string, and then the attributes in `__dict__` (that is, `message`) are set. `str` is
`message`, `_exceptions.py` lines 13-14 and 41-42. -/
def Exc.transport (before : String) (e : Exc) : Exc :=
  match e.args, e.message with
  | [a], .str m => { e with text := m, message := .str m, args := [before ++ ("str: " ++ a)] }
  | _, _ => e

/-- A callable object as far as its name is concerned: `__name__` if there is one, `func.__name__` if there is one, and the name of
its class, which every Python object has. -/
structure Named where
  name : Option String
  funcName : Option String
  cls : String

/-- `_FunctionWrapper.__name__`, `_utils.py` lines 47-56. -/
def Named.display (f : Named) : String :=
  match f.name with
  | some n => n
  | none =>
    match f.funcName with
    | some n => n
    | none => f.cls

end BB
