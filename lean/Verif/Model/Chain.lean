import Mathlib.Analysis.SpecialFunctions.Log.Basic
import Verif.Model.Rand
import Verif.Model.PyF
import Verif.Model.Dict

/-!
# Model of `/repo/src/bayesbay/_markov_chain.py`

The chain is modelled over an arbitrary type `S` of states, an arbitrary store `σ` of saved samples
and an arbitrary outside world `E`, which the hooks (the sampler's and the user's functions called at
the beginning and at the end of an iteration) can read and modify, as they can the chain itself.

Not modelled: the printed output, `__repr__`, and user functions that modify in place the
state handed to them (see `Verif/Model/Heap.lean` for the library's own functions).
-/

namespace BB

/-- A method of an object of type `C`: outcome, the object afterwards (also when an exception is
raised), and the remaining draws. -/
def Act (C α : Type) : Type := C → List Draw → Except PyErr α × C × List Draw

namespace Act

instance {C : Type} : Monad (Act C) where
  pure a := fun c t => (.ok a, c, t)
  bind m f := fun c t =>
    match m c t with
    | (.ok a, c, t) => f a c t
    | (.error e, c, t) => (.error e, c, t)

/-- `raise` -/
def throw {C α : Type} (e : PyErr) : Act C α := fun c t => (.error e, c, t)

/-- A hook that does nothing (`on_begin_iteration`, `on_end_iteration` of most samplers). -/
def skip {C : Type} : Act C Unit := fun c t => (.ok (), c, t)

/-- An update of the attributes. -/
def modify {C : Type} (f : C → C) : Act C Unit := fun c t => (.ok (), f c, t)

/-- The object itself. -/
def get {C : Type} : Act C C := fun c t => (.ok c, c, t)

/-- A computation that only draws. -/
def ofM {C α : Type} (m : M α) : Act C α := fun c t =>
  match m t with
  | (r, t) => (r, c, t)

end Act

/-- What a chain is given: the perturbation functions with their `__name__`, the weights, the log
likelihood ratio, and the operations that depend on the type of the states.

* `llr current new temperature` (`_log_likelihood_ratio`, lines 196-199) returns the ratio or an
  exception, and the two states with their caches updated.
* `stats new` is `proposed_state.load_from_cache("perturb_stats")` (line 136).
* `setTemp` is the assignment `self.current_state.temperature = value` (lines 72-73; no effect on
  states that are not of type `State`).
* `save` is the body of `_save_state` (lines 112-131): the store afterwards, also if it raises. -/
structure ChainCfg (S σ : Type) where
  perturbs : List (String × (S → M (S × PyF)))
  weights : List ℝ
  llr : S → S → ℝ → Except PyErr PyF × S × S
  stats : S → Except PyErr (List (String × ℝ))
  setTemp : S → ℝ → S
  save : S → σ → Except PyErr Unit × σ

/-- An entry of `n_proposed_models` or `n_accepted_models`: a counter, or one counter for each
sub-type (lines 133-154). -/
inductive Stat where
  | count (n : ℕ)
  | sub (d : List (String × ℝ))

/-- The attributes of a chain (lines 37-54, 97-110) and the world outside. -/
structure Chain (S σ E : Type) where
  cur : S
  temp : ℝ
  saved : σ
  saveNow : Bool
  proposed : List (String × Stat)
  accepted : List (String × Stat)
  total : ℕ
  accTotal : ℕ
  exceptions : List (String × ℕ)
  world : E

/-- What happened in a completed iteration.  Python's `_next_iteration` returns nothing; the record is
returned by the model for the purpose of stating properties only. -/
structure Event (S : Type) where
  /-- name of the perturbation -/
  name : String
  /-- the temperature of the chain -/
  temp : ℝ
  /-- the current state when the proposal was decided upon -/
  prev : S
  /-- the proposed state -/
  new : S
  /-- log probability ratio plus log likelihood ratio -/
  logProb : PyF
  /-- whether the proposal has been accepted -/
  acc : Bool

section

variable {S σ E : Type}

/-- `__init__`, lines 37-54 with 97-110, for the starting state `s` and the empty store. -/
def Chain.init (s : S) (store : σ) (temp : ℝ) (w : E) : Chain S σ E :=
  { cur := s, temp := temp, saved := store, saveNow := false, proposed := [], accepted := [],
    total := 0, accTotal := 0, exceptions := [], world := w }

/-- The setter of `temperature`, lines 69-73. -/
def Chain.setTemp (cfg : ChainCfg S σ) (c : Chain S σ E) (x : ℝ) : Chain S σ E :=
  { c with temp := x, cur := cfg.setTemp c.cur x }

/-- `d[name][k] += v` for the `defaultdict`s of lines 103-104. -/
noncomputable def bumpSub (d : List (String × Stat)) (name k : String) (v : ℝ) :
    Except PyErr (List (String × Stat)) :=
  match dget d name with
  | some (.count _) => .error .typeError
  | some (.sub m) => .ok (dset d name (.sub (dset m k ((dget m k).getD 0 + v))))
  | none => .ok (dset d name (.sub [(k, 0 + v)]))

/-- The loop of lines 137-141. -/
noncomputable def bumpSubs (name : String) (acc : Bool) :
    List (String × ℝ) → List (String × Stat) → List (String × Stat) →
    Except PyErr (List (String × Stat) × List (String × Stat))
  | [], p, a => .ok (p, a)
  | (k, v) :: rest, p, a => do
    let p ← bumpSub p name k v
    let a ← bumpSub a name k (if acc then v else 0)
    bumpSubs name acc rest p a

/-- Lines 142-152: `+= 1` on a counter; on the first use (or if an entry is not a number) the
`except` branch sets both entries. -/
def bumpCount (name : String) (acc : Bool) (p a : List (String × Stat)) :
    List (String × Stat) × List (String × Stat) :=
  match dget p name, dget a name with
  | some (.count n), some (.count m) =>
    (dset p name (.count (n + 1)), dset a name (.count (m + if acc then 1 else 0)))
  | _, _ => (dset p name (.count 1), dset a name (.count (if acc then 1 else 0)))

/-- `_save_statistics`, lines 133-154.  Simplification: when the loop of lines 137-141 raises, the
partial updates made before are dropped (they are kept in Python). -/
noncomputable def Chain.saveStatistics (cfg : ChainCfg S σ) (name : String)
    (acc : Bool) (new : S) : Act (Chain S σ E) Unit := fun c t =>
  match (if name.startsWith "ParamSpacePerturbation" then do
      let st ← cfg.stats new
      bumpSubs name acc st c.proposed c.accepted
    else .ok (bumpCount name acc c.proposed c.accepted)) with
  | .error e => (.error e, c, t)
  | .ok (p, a) =>
    (.ok (), { c with proposed := p, accepted := a, total := c.total + 1,
                      accTotal := c.accTotal + if acc then 1 else 0 }, t)

/-- `self._statistics["exceptions"][name] += 1` -/
def Chain.countException (name : String) (c : Chain S σ E) : Chain S σ E :=
  { c with exceptions := dset c.exceptions name ((dget c.exceptions name).getD 0 + 1) }

open Classical in
/-- Lines 238-239. -/
noncomputable def Chain.saveIfDue (cfg : ChainCfg S σ) : Act (Chain S σ E) Unit := fun c t =>
  if c.saveNow ∧ c.temp = 1 then
    match cfg.save c.cur c.saved with
    | (r, s) => (r, { c with saved := s }, t)
  else (.ok (), c, t)

open Classical in
/-- The end of an iteration, lines 230-240: the acceptance test (`math.log(random.random())` raises
`ValueError` if the draw is 0), the statistics, and the saving of the state. -/
noncomputable def Chain.finish (cfg : ChainCfg S σ) (name : String) (new : S)
    (logProb : PyF) : Act (Chain S σ E) (Event S) := do
  let u ← Act.ofM M.random
  if u ≤ 0 then Act.throw .valueError
  else do
    let c ← Act.get
    let acc : Bool := decide (logProb.gtFin (Real.log u))
    Act.modify (fun c => if acc then { c with cur := new } else c)
    Chain.saveStatistics cfg name acc new
    Chain.saveIfDue cfg
    return { name := name, temp := c.temp, prev := c.cur, new := new, logProb := logProb, acc := acc }

/-- Lines 221-228: the likelihood ratio of the current and the proposed state; `none` stands for the
`continue` of line 228. -/
noncomputable def Chain.ratio (cfg : ChainCfg S σ) (new : S) :
    Act (Chain S σ E) (Option (PyF × S)) := fun c t =>
  match cfg.llr c.cur new c.temp with
  | (.error .userFunction, cur, _) =>
    (.ok none, Chain.countException "UserFunctionException" { c with cur := cur }, t)
  | (.error .forward, cur, _) =>
    (.ok none, Chain.countException "ForwardException" { c with cur := cur }, t)
  | (.error e, cur, _) => (.error e, { c with cur := cur }, t)
  | (.ok r, cur, new) => (.ok (some (r, new)), { c with cur := cur }, t)

/-- The body of the loop of `_next_iteration`, lines 203-240; `none` stands for `continue`. -/
noncomputable def Chain.attempt (cfg : ChainCfg S σ) : Act (Chain S σ E) (Option (Event S)) := do
  let i ← Act.ofM (choices cfg.perturbs.length cfg.weights)
  match cfg.perturbs[i]? with
  | none => Act.throw .indexError
  | some (name, f) =>
    fun c t =>
    match f c.cur t with
    | (.error .userFunction, t) =>
      (.ok none, Chain.countException "UserFunctionException" c, t)
    | (.error e, t) => (.error e, c, t)
    | (.ok (new, lpr), t) =>
      (if lpr.isInf then do
        let ev ← Chain.finish cfg name new (lpr.add (.fin 0))
        return some ev
      else do
        match ← Chain.ratio cfg new with
        | none => return none
        | some (llr, new) =>
          let ev ← Chain.finish cfg name new (lpr.add llr)
          return some ev : Act (Chain S σ E) (Option (Event S))) c t

/-- The loop of `_next_iteration` with `k` attempts left. -/
noncomputable def Chain.attempts (cfg : ChainCfg S σ) : ℕ → Act (Chain S σ E) (Event S)
  | 0 => Act.throw .runtimeError
  | k + 1 => do
    match ← Chain.attempt cfg with
    | some ev => return ev
    | none => Chain.attempts cfg k

/-- `_next_iteration`, lines 201-244. -/
noncomputable def Chain.next (cfg : ChainCfg S σ) : Act (Chain S σ E) (Event S) :=
  Chain.attempts cfg 500

/-- Lines 282-287: the flag `save_current_iteration` for the iteration that begins.
`burnin_iterations` and `save_every` are Python integers; `%` by 0 raises `ZeroDivisionError`. -/
def Chain.setFlag (burnin saveEvery : ℤ) : Act (Chain S σ E) Unit := fun c t =>
  let i : ℤ := c.total + 1
  if i ≤ burnin then (.ok (), { c with saveNow := false }, t)
  else if saveEvery = 0 then (.error .zeroDivisionError, c, t)
  else (.ok (), { c with saveNow := decide ((i - burnin) % saveEvery = 0) }, t)

/-- The body of the loop of `advance_chain`, lines 281-291. -/
noncomputable def Chain.iteration (cfg : ChainCfg S σ) (burnin saveEvery : ℤ)
    (beginIt endIt : Act (Chain S σ E) Unit) : Act (Chain S σ E) (Event S) := do
  Chain.setFlag burnin saveEvery
  beginIt
  let ev ← Chain.next cfg
  endIt
  return ev

/-- `advance_chain`, lines 246-294, for a number of iterations `n` (a negative number counts as 0,
like `range`). -/
noncomputable def Chain.advance (cfg : ChainCfg S σ) (burnin saveEvery : ℤ)
    (beginIt endIt : Act (Chain S σ E) Unit) : ℕ → Act (Chain S σ E) (List (Event S))
  | 0 => return []
  | n + 1 => do
    let ev ← Chain.iteration cfg burnin saveEvery beginIt endIt
    let evs ← Chain.advance cfg burnin saveEvery beginIt endIt n
    return ev :: evs

end

end BB
