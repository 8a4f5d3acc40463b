import Verif.Model.Dict

/-!
# Model of `get_results_from_chains`

`/repo/src/bayesbay/_bayes_inversion.py` lines 255-331.  `V` is the type of the objects that occur as saved values,
as states of other types than `State`/`dict`, and as the keys of a dictionary made from such.
-/

namespace BB

/-- The `saved_states` of a chain, `_markov_chain.py` lines 97-101: a `defaultdict(list)`, whose values are lists (the only
writes are the `append`s of lines 125 and 129), or a list of states. -/
inductive SavedStates (V : Type) where
  | dict (d : List (String × List V))
  | list (l : List V)

/-- An element of a list in the results: an object, a whole list, or a whole dictionary. -/
inductive Entry (V : Type) where
  | one (v : V)
  | list (l : List V)
  | dict (d : List (String × List V))

/-- The argument `keys`. -/
inductive Keys where
  | all
  | str (k : String)
  | list (ks : List String)

/-- Lines 314-315 and the test of line 320: `keys is None or key in keys`. -/
def Keys.has : Keys → String → Bool
  | .all, _ => true
  | .str k, k' => [k].contains k'
  | .list ks, k' => ks.contains k'

/-- The argument `chains`: a list or another object; an object that is not a chain is `none`. -/
inductive ChainsArg (V : Type) where
  | single (c : Option (SavedStates V))
  | list (l : List (Option (SavedStates V)))

/-- What is returned: a dictionary, made from a `defaultdict(list)` with string keys or from a list of pairs. -/
inductive Results (V : Type) where
  | named (d : List (String × List (Entry V)))
  | pairs (d : List (V × V))

/-- The loop of lines 319-324 over the items of one chain. -/
def addItems {V : Type} (keys : Keys) (concat : Bool) :
    List (String × List V) → List (String × List (Entry V)) → List (String × List (Entry V))
  | [], res => res
  | (key, saved) :: rest, res =>
    if keys.has key then
      let old := (dget res key).getD []
      addItems keys concat rest (dset res key (old ++ if concat then saved.map .one else [.list saved]))
    else addItems keys concat rest res

/-- The loop of lines 318-324; a chain whose `saved_states` is a list has no `items`. -/
def addChains {V : Type} (keys : Keys) (concat : Bool) :
    List (SavedStates V) → List (String × List (Entry V)) → Except PyErr (List (String × List (Entry V)))
  | [], res => .ok res
  | .dict d :: rest, res => addChains keys concat rest (addItems keys concat d res)
  | .list _ :: _, _ => .error .attributeError

/-- The loop of lines 326-331.  Extending a list by a dictionary adds its keys. -/
def addLists {V : Type} (ofKey : String → V) (concat : Bool) : List (SavedStates V) → List (Entry V) → List (Entry V)
  | [], res => res
  | .list l :: rest, res => addLists ofKey concat rest (res ++ if concat then l.map .one else [.list l])
  | .dict d :: rest, res =>
    addLists ofKey concat rest (res ++ if concat then (dkeys d).map (fun k => .one (ofKey k)) else [.dict d])

/-- What the conversion `dict(results)` of line 332 needs from an element: it must be iterable, with exactly two
elements, the first of which is hashable.  `asPair` says this for objects. -/
def Entry.asPair {V : Type} (ofKey : String → V) (hashable : V → Bool) (asPair : V → Except PyErr (V × V)) :
    Entry V → Except PyErr (V × V)
  | .one v => asPair v
  | .list [a, b] => if hashable a then .ok (a, b) else .error .typeError
  | .list _ => .error .valueError
  | .dict [(a, _), (b, _)] => .ok (ofKey a, ofKey b)
  | .dict _ => .error .valueError

/-- Setting an item of a dictionary whose keys are objects. -/
def vset {V : Type} [DecidableEq V] : List (V × V) → V → V → List (V × V)
  | [], k, v => [(k, v)]
  | (k', v') :: rest, k, v => if k' = k then (k', v) :: rest else (k', v') :: vset rest k v

/-- `dict(results)` for a list. -/
def dictOfList {V : Type} [DecidableEq V] (ofKey : String → V) (hashable : V → Bool) (asPair : V → Except PyErr (V × V)) :
    List (Entry V) → List (V × V) → Except PyErr (List (V × V))
  | [], d => .ok d
  | e :: rest, d =>
    match e.asPair ofKey hashable asPair with
    | .ok (k, v) => dictOfList ofKey hashable asPair rest (vset d k v)
    | .error err => .error err

/-- `get_results_from_chains`, lines 306-332. -/
def getResults {V : Type} [DecidableEq V] (ofKey : String → V) (hashable : V → Bool)
    (asPair : V → Except PyErr (V × V)) (chains : ChainsArg V) (keys : Keys) (concat : Bool) : Except PyErr (Results V) :=
  let chains := match chains with
    | .single c => [c]
    | .list l => l
  match chains.mapM id with
  | none => .error .typeError
  | some [] => .error .indexError
  | some (.dict d :: rest) =>
    match addChains keys concat (.dict d :: rest) [] with
    | .ok res => .ok (.named res)
    | .error e => .error e
  | some (.list l :: rest) =>
    match dictOfList ofKey hashable asPair (addLists ofKey concat (.list l :: rest) []) [] with
    | .ok res => .ok (.pairs res)
    | .error e => .error e

end BB
