import Verif.Model.Save

/-!
# Specification of what one saved state contributes to the list of a key
-/

namespace BB.Spec

open BB

/-- The value of a cached entry as it is saved. -/
def cacheVal : CVal → SVal
  | .dpred x => .dpred x
  | .stats x => .nested [x.map (fun kv => (kv.1, .num kv.2))]

/-- The value that the state has under the key, unless it is the number of dimensions of a space of
fixed dimension; and the predicted data cached under the key, if they are to be saved. -/
def contribution (spaces : Option (List (String × Bool))) (saveDpred : Bool) (k : String)
    (s : State) : List SVal :=
  (match dget s.vars k, skipKey spaces k with
    | some v, .ok false => [v]
    | _, _ => []) ++
  (if saveDpred ∧ substr "dpred" k then
    (s.cache.filter (fun kv => kv.1 = k)).map (fun kv => cacheVal kv.2) else [])

/-- The list saved under a key. -/
def savedUnder (k : String) (d : Store) : List SVal := (dget d k).getD []

mutual
/-- The named values of a parameter-space state: the number of dimensions and one value for each
parameter. -/
def expandPS (name : String) : PSState → List (String × SVal)
  | .mk n vals _ => (name ++ ".n_dimensions", .int n) :: expandVals name vals
/-- The values of the parameters. -/
def expandVals (name : String) : List (String × PVal) → List (String × SVal)
  | [] => []
  | (p, .arr a) :: rest => (name ++ "." ++ p, .arr a) :: expandVals name rest
  | (p, .states l) :: rest =>
    (name ++ "." ++ p, .nested (expandList (name ++ "." ++ p) l)) :: expandVals name rest
  | (p, .objs l) :: rest => (name ++ "." ++ p, .objs l) :: expandVals name rest
/-- The values of nested states. -/
def expandList (name : String) : List PSState → List (List (String × SVal))
  | [] => []
  | s :: rest => expandPS name s :: expandList name rest
end

/-- The named values of an entry of the state. -/
def expandTop (name : String) : TopVal → List (String × SVal)
  | .ps s => expandPS name s
  | .noise ⟨std, none⟩ => [(name ++ ".std", .num std)]
  | .noise ⟨std, some r⟩ => [(name ++ ".std", .num std), (name ++ ".correlation", .num r)]

/-- All named values of a state. -/
def expand (s : State) : List (String × SVal) :=
  s.params.flatMap (fun kv => expandTop kv.1 kv.2) ++ s.extra.map (fun kv => (kv.1, .num kv.2))

mutual
/-- Parameter names are unique, at all levels, and no parameter is called `n_dimensions`. -/
def DistinctPS : PSState → Prop
  | .mk _ vals _ => ("n_dimensions" :: vals.map (·.1)).Nodup ∧ DistinctVals vals
def DistinctVals : List (String × PVal) → Prop
  | [] => True
  | (_, .arr _) :: rest => DistinctVals rest
  | (_, .states l) :: rest => DistinctList l ∧ DistinctVals rest
  | (_, .objs _) :: rest => DistinctVals rest
def DistinctList : List PSState → Prop
  | [] => True
  | s :: rest => DistinctPS s ∧ DistinctList rest
end

/-- No two values of a state have the same name. -/
def Distinct (s : State) : Prop :=
  ((expand s).map (·.1)).Nodup ∧ ∀ name ps, (name, TopVal.ps ps) ∈ s.params → DistinctPS ps

/-- The predicted data cached under the key, if predicted data are to be saved. -/
def cachedUnder (saveDpred : Bool) (k : String) (s : State) : List SVal :=
  if saveDpred ∧ substr "dpred" k then
    (s.cache.filter (fun kv => kv.1 = k)).map (fun kv => cacheVal kv.2) else []

end BB.Spec
