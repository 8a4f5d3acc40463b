import Verif.Model.State
import Verif.Model.Chain

/-!
# Model of the expansion of a state into named values and of `_save_state`

`/repo/src/bayesbay/_state.py` lines 28-48 (`DataNoiseState.todict`), 207-232
(`ParameterSpaceState.todict`), 404-427 (`State._vars`, `items`) and
`/repo/src/bayesbay/_markov_chain.py` lines 97-101, 112-131.
-/

namespace BB

/-- A saved value. -/
inductive SVal where
  | int (n : ℕ)
  | num (x : ℝ)
  | arr (a : Arr)
  | nested (l : List (List (String × SVal)))
  | objs (l : List PSState)
  | dpred (d : List ℝ)

mutual
/-- `ParameterSpaceState.todict`, `_state.py` lines 207-232. -/
def PSState.todict (name : String) : PSState → List (String × SVal)
  | .mk n vals _ => todictVals name [(name ++ ".n_dimensions", .int n)] vals
/-- The loop of lines 227-231. -/
def todictVals (name : String) (res : List (String × SVal)) :
    List (String × PVal) → List (String × SVal)
  | [] => res
  | (k, v) :: rest => todictVals name (dset res (name ++ "." ++ k) (PVal.tosval (name ++ "." ++ k) v)) rest
/-- Lines 228-231. -/
def PVal.tosval (name : String) : PVal → SVal
  | .arr a => .arr a
  | .states l => .nested (todictList name l)
  | .objs l => .objs l
/-- Line 231. -/
def todictList (name : String) : List PSState → List (List (String × SVal))
  | [] => []
  | s :: rest => PSState.todict name s :: todictList name rest
end

/-- `DataNoiseState.todict`, `_state.py` lines 28-48. -/
def Noise.todict (name : String) (d : Noise) : List (String × SVal) :=
  (name ++ ".std", .num d.std) ::
    match d.corr with
    | none => []
    | some r => [(name ++ ".correlation", .num r)]

/-- `v.todict(k)` -/
def TopVal.todict (name : String) : TopVal → List (String × SVal)
  | .ps s => s.todict name
  | .noise d => d.todict name

/-- `State._vars`, `_state.py` lines 404-409. -/
def State.vars (s : State) : List (String × SVal) :=
  dupdate (s.params.foldl (fun d kv => dupdate d (kv.2.todict kv.1)) [])
    (s.extra.map (fun kv => (kv.1, .num kv.2)))

/-- `a in b` for strings. -/
def substr (a b : String) : Bool := b.toList.tails.any (fun t => a.toList.isPrefixOf t)

/-- `k[: -len(".n_dimensions")]` -/
def dropSuffix (k : String) : String := String.ofList (k.toList.take (k.toList.length - 13))

/-- The store of a chain whose states are of type `State`: a `defaultdict(list)`. -/
abbrev Store := List (String × List SVal)

/-- `self.saved_states[k].append(v)` -/
def Store.append (d : Store) (k : String) (v : SVal) : Store :=
  dset d k ((dget d k).getD [] ++ [v])

/-- Lines 115-123: whether the key is skipped.  `spaces` is `None` for a chain without
parameterization, otherwise the parameter spaces with their `trans_d`. -/
def skipKey (spaces : Option (List (String × Bool))) (k : String) : Except PyErr Bool :=
  if substr "n_dimensions" k then
    match spaces with
    | none => .ok false
    | some d =>
      match dget d (dropSuffix k) with
      | none => .error .keyError
      | some transd => .ok (!transd)
  else .ok false

/-- The loop of lines 114-124. -/
def saveVars (spaces : Option (List (String × Bool))) :
    List (String × SVal) → Store → Except PyErr Unit × Store
  | [], d => (.ok (), d)
  | (k, v) :: rest, d =>
    match skipKey spaces k with
    | .error e => (.error e, d)
    | .ok true => saveVars spaces rest d
    | .ok false => saveVars spaces rest (d.append k v)

/-- The loop of lines 126-128. -/
def saveCache : List (String × CVal) → Store → Store
  | [], d => d
  | (k, v) :: rest, d =>
    if substr "dpred" k then
      match v with
      | .dpred x => saveCache rest (d.append k (.dpred x))
      | .stats x => saveCache rest (d.append k (.nested [x.map (fun kv => (kv.1, .num kv.2))]))
    else saveCache rest d

/-- `_save_state` for a state of type `State`, lines 112-128. -/
def saveState (spaces : Option (List (String × Bool))) (saveDpred : Bool) (s : State) (d : Store) :
    Except PyErr Unit × Store :=
  match saveVars spaces s.vars d with
  | (.error e, d) => (.error e, d)
  | (.ok (), d) => (.ok (), if saveDpred then saveCache s.cache d else d)

end BB
