import Mathlib.Analysis.SpecialFunctions.Log.Basic
import Verif.Model.Py

/-!
# Randomness as an explicit input

A program that draws random numbers is a function of a *tape* of draws.  One draw supplies a natural
number (used by `random.randint`), a standard deviate (used by the Gaussian generators) and a number
in `[0, 1)` (used by `random.random`, `random.uniform`, `random.choices` and NumPy's Laplace generator).  A theorem
about all tapes is a theorem about all executions.  The remaining tape is returned also when an
exception is raised, since the chain goes on after some exceptions.

`random.*` is Python 3's module (https://docs.python.org/3/library/random.html), `np.random.*` is
NumPy's legacy generator; both are modelled by the same tape.
-/

namespace BB

/-- One draw. -/
structure Draw where
  n : ℕ
  z : ℝ
  u : ℝ
  hu : 0 ≤ u ∧ u < 1

/-- A random computation. -/
def M (α : Type) : Type := List Draw → Except PyErr α × List Draw

namespace M

instance : Monad M where
  pure a := fun t => (.ok a, t)
  bind m f := fun t =>
    match m t with
    | (.ok a, t') => f a t'
    | (.error e, t') => (.error e, t')

/-- `raise` -/
def throw {α : Type} (e : PyErr) : M α := fun t => (.error e, t)

/-- A computation that draws nothing. -/
def lift {α : Type} (x : Except PyErr α) : M α := fun t => (x, t)

/-- The next draw. -/
def draw : M Draw := fun t =>
  match t with
  | [] => (.error .tapeExhausted, [])
  | d :: t => (.ok d, t)

/-- `random.random()` -/
def random : M ℝ := do return (← draw).u

/-- `random.uniform(a, b)`, `np.random.uniform(a, b)`: `a + (b - a) * random()`. -/
noncomputable def uniform (a b : ℝ) : M ℝ := do return a + (b - a) * (← draw).u

/-- `random.normalvariate(mu, sigma)`, `random.gauss(mu, sigma)`: `mu + z * sigma`. -/
noncomputable def normalvariate (mu sigma : ℝ) : M ℝ := do return mu + (← draw).z * sigma

open Classical in
/-- `np.random.normal(mu, sigma)` (a negative scale raises `ValueError`). -/
noncomputable def npNormal (mu sigma : ℝ) : M ℝ :=
  if sigma < 0 then throw .valueError else normalvariate mu sigma

open Classical in
/-- The standard Laplace deviate that NumPy's `random_laplace` (numpy/random/src/distributions/distributions.c) makes of
a number `U` in `[0, 1)`: `if U >= 0.5: -log(2 - U - U) else if U > 0: log(U + U)`.  Simplification: for `U = 0` NumPy
draws again, here the deviate is `0` (`Real.log 0 = 0`). -/
noncomputable def laplaceDev (u : ℝ) : ℝ := if 1 / 2 ≤ u then -Real.log (2 - u - u) else Real.log (u + u)

open Classical in
/-- `np.random.laplace(mu, scale)`: `mu + scale * z` with a standard Laplace deviate `z` made of a number in `[0, 1)`
(a negative scale raises `ValueError`). -/
noncomputable def npLaplace (mu scale : ℝ) : M ℝ :=
  if scale < 0 then throw .valueError else do return mu + laplaceDev (← draw).u * scale

/-- `random.randint(a, b)`: an integer in `[a, b]`; `ValueError` if there is none. -/
def randint (a b : ℕ) : M ℕ :=
  if b < a then throw .valueError else do return a + (← draw).n % (b - a + 1)

/-- `random.randint(0, n - 1)`. -/
def randIdx (n : ℕ) : M ℕ :=
  if n = 0 then throw .valueError else do return (← draw).n % n

end M

/-! ### `random.choices` -/

open Classical in
/-- `bisect.bisect_right(a, x, lo, hi)`:
`while lo < hi: mid = (lo + hi) // 2; if x < a[mid]: hi = mid else: lo = mid + 1`. -/
noncomputable def bisectRight (a : List ℝ) (x : ℝ) (lo hi : ℕ) : ℕ :=
  if lo < hi then
    if x < a.getD ((lo + hi) / 2) 0 then bisectRight a x lo ((lo + hi) / 2)
    else bisectRight a x ((lo + hi) / 2 + 1) hi
  else lo
termination_by hi - lo
decreasing_by all_goals omega

/-- `itertools.accumulate(weights)`, starting from the partial sum `s`. -/
noncomputable def accumulate (s : ℝ) : List ℝ → List ℝ
  | [] => []
  | w :: ws => (s + w) :: accumulate (s + w) ws

open Classical in
/-- `random.choices(range(n), weights)[0]`. -/
noncomputable def choices (n : ℕ) (weights : List ℝ) : M ℕ :=
  let cum := accumulate 0 weights
  if cum.length ≠ n then M.throw .valueError
  else match cum.getLast? with
    | none => M.throw .indexError
    | some total =>
      if total ≤ 0 then M.throw .valueError
      else do
        let u ← M.random
        return bisectRight cum (u * total) 0 (n - 1)

end BB
