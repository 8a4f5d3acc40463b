import Verif.Model.Chain
import Verif.Model.Moves

/-!
# States as objects that share and modify data

The rest of the model treats states as values.  Here the same functions of
`/repo/src/bayesbay/_state.py`, `perturbations/`, `parameterization/_parameter_space.py`, `discretization/`
are modelled as Python runs them: arrays, lists and states are objects on a heap, variables hold references, a
copy is what `copy()` copies, and an assignment to an entry of an array, of a dictionary or of an attribute
changes the object for everybody who holds a reference to it.

Objects are arrays of numbers, lists of states, arrays of states (`dtype=object`), `ParameterSpaceState`s and
`State`s.  The two kinds of states have the dictionary `param_values` *and* the attributes that
`set_param_values` sets beside it.  A `DataNoiseState` is a named tuple and hence a value.

Simplifications.  The dictionary `param_values` of a state is part of the state (the library never shares it
between states).  The k-d tree in the cache is a value (it is never modified).  Parameters are not
named like an attribute of the classes (`cache`, `n_dimensions`, `copy`, …).  Functions that only construct
new objects (`sample`, `sample_discretization`) are the functions of `Verif/Model/Space.lean` followed by `store`,
which puts all parts of the result in new objects.  Recursion and loops along references are bounded by
`fuel`; the theorems hold for all bounds that are at least the size of the state. -/

namespace BB

/-- A reference. -/
abbrev Addr := ℕ

/-- A value of `State.param_values`: a reference to a `ParameterSpaceState`, or a `DataNoiseState`. -/
inductive TRef where
  | ps (a : Addr)
  | noise (d : Noise)

/-- An object.  For the two kinds of states: `vals` is `param_values`, `attrs` the attributes set by `setattr`,
`_state.py` lines 125 and 298. -/
inductive Obj where
  | arr (x : Arr)
  | list (l : List Addr)
  | objs (l : List Addr)
  | ps (n : ℕ) (vals attrs : List (String × Addr)) (kd : Option (List (ℝ × ℝ)))
  | state (vals attrs : List (String × TRef)) (temperature : ℝ) (cache : List (String × CVal))
      (extra : List (String × ℝ))

/-- All objects created so far; a reference is an index. -/
abbrev Heap := List Obj

/-- A program that works on the heap and draws random numbers. -/
abbrev HM (α : Type) := Act Heap α

namespace HM

/-- A new object. -/
def alloc (o : Obj) : HM Addr := fun h t => (.ok h.length, h ++ [o], t)

/-- The object referred to.  (There are no dangling references in Python.) -/
def read (a : Addr) : HM Obj := fun h t =>
  match h[a]? with
  | some o => (.ok o, h, t)
  | none => (.error .typeError, h, t)

/-- Modification in place. -/
def write (a : Addr) (o : Obj) : HM Unit := fun h t => (.ok (), h.set a o, t)

/-- A computation that neither draws nor uses the heap. -/
def lift {α : Type} (x : Except PyErr α) : HM α := fun h t => (x, h, t)

/-- `[f(x) for x in xs]` -/
def forEach {α β : Type} (f : α → HM β) : List α → HM (List β)
  | [] => pure []
  | x :: xs => do
    let y ← f x
    let ys ← forEach f xs
    return y :: ys

end HM

open HM

/-! ### `ParameterSpaceState` -/

/-- `ps_state.n_dimensions`, `ps_state.param_values`, the attributes, `ps_state.cache` -/
def readPS (a : Addr) : HM (ℕ × List (String × Addr) × List (String × Addr) × Option (List (ℝ × ℝ))) := do
  match ← read a with
  | .ps n vals attrs kd => return (n, vals, attrs, kd)
  | _ => Act.throw .attributeError

/-- `ps_state[k]`, `_state.py` lines 88-92, 129-147 (`None` if missing). -/
def getH (a : Addr) (k : String) : HM (Option Addr) := do
  let (_, vals, _, _) ← readPS a
  return dget vals k

/-- `ps_state.<k>`; `None` stands for `AttributeError`. -/
def attrH (a : Addr) (k : String) : HM (Option Addr) := do
  let (_, _, attrs, _) ← readPS a
  return dget attrs k

/-- `len(values)` and the checks of `set_param_values`, `_state.py` lines 116-123, with `__post_init__`, lines
80-86, when `n` is given. -/
def checkH (n : Option ℕ) (b : Addr) : HM Unit := do
  match ← read b with
  | .arr x => if n.any (· ≠ x.len) then Act.throw .valueError else return
  | .objs l => if n.any (· ≠ l.length) then Act.throw .valueError else return
  | .list l =>
    if n.any (· ≠ l.length) then Act.throw .valueError
    else if l.isEmpty then Act.throw .indexError else return
  | _ => Act.throw .typeError

/-- The loop of `__post_init__`, `_state.py` lines 80-86. -/
def checksH (n : ℕ) : List (String × Addr) → HM Unit
  | [] => pure ()
  | (_, b) :: rest => do
    checkH (some n) b
    checksH n rest

/-- The attributes after `setattr` for every entry, in turn. -/
def attrsOf {α : Type} (vals : List (String × α)) : List (String × α) := dupdate [] vals

/-- `ParameterSpaceState(n, vals)`, `_state.py` lines 75-86: for every entry `set_param_values` sets the
attribute, too. -/
def mkPSH (n : ℕ) (vals : List (String × Addr)) : HM Addr := do
  checksH n vals
  alloc (.ps n vals (attrsOf vals) none)

/-- `ps_state.set_param_values(k, values)`, `_state.py` lines 104-127. -/
def setValH (a : Addr) (k : String) (b : Addr) : HM Unit := do
  checkH none b
  let (n, vals, attrs, kd) ← readPS a
  write a (.ps n (dset vals k b) (dset attrs k b) kd)

mutual
/-- A value put in new objects, as its construction by the library's classes does. -/
def storePS : PSState → HM Addr
  | .mk n vals kd => do
    let vs ← storeVals vals
    alloc (.ps n vs (attrsOf vs) kd)
def storeVals : List (String × PVal) → HM (List (String × Addr))
  | [] => pure []
  | (k, .arr x) :: rest => do
    let b ← alloc (.arr x)
    let vs ← storeVals rest
    return (k, b) :: vs
  | (k, .states l) :: rest => do
    let as ← storeList l
    let b ← alloc (.list as)
    let vs ← storeVals rest
    return (k, b) :: vs
  | (k, .objs l) :: rest => do
    let as ← storeList l
    let b ← alloc (.objs as)
    let vs ← storeVals rest
    return (k, b) :: vs
def storeList : List PSState → HM (List Addr)
  | [] => pure []
  | s :: rest => do
    let a ← storePS s
    let as ← storeList rest
    return a :: as
end

/-- A function that only constructs new objects. -/
def fresh (m : M PSState) : HM Addr := do
  let s ← Act.ofM m
  storePS s

/-- The copy of one value in `ParameterSpaceState.copy`, `_state.py` lines 198-201: an array is copied (an
array of states: only the references in it), a list is copied together with its members, by `copy`. -/
def copyVal (copy : Addr → HM Addr) (b : Addr) : HM Addr := do
  match ← read b with
  | .arr x => alloc (.arr x)
  | .objs l => alloc (.objs l)
  | .list l => do
    let l' ← forEach copy l
    alloc (.list l')
  | _ => Act.throw .typeError

/-- The loop of `ParameterSpaceState.copy`, `_state.py` lines 197-202. -/
def copyVals (copy : Addr → HM Addr) : List (String × Addr) → HM (List (String × Addr))
  | [] => pure []
  | (k, b) :: rest => do
    let c ← copyVal copy b
    let vs ← copyVals copy rest
    return (k, c) :: vs

/-- `ParameterSpaceState.copy`, `_state.py` lines 190-205: the new state is made by the constructor, then the
cache is copied. -/
def copyPS : ℕ → Addr → HM Addr
  | 0, _ => Act.throw .runtimeError
  | fuel + 1, a => do
    let (n, vals, _, kd) ← readPS a
    let vs ← copyVals (copyPS fuel) vals
    let b ← mkPSH n vs
    write b (.ps n vs (attrsOf vs) kd)
    return b

/-! ### `State` -/

/-- `state.param_values`, the attributes, temperature, cache, extra storage -/
def readState (a : Addr) : HM (List (String × TRef) × List (String × TRef) × ℝ ×
    List (String × CVal) × List (String × ℝ)) := do
  match ← read a with
  | .state vals attrs temp cache extra => return (vals, attrs, temp, cache, extra)
  | _ => Act.throw .attributeError

/-- `state.set_param_values(k, values)`, `_state.py` lines 279-300. -/
def setTopH (a : Addr) (k : String) (v : TRef) : HM Unit := do
  let (vals, attrs, temp, cache, extra) ← readState a
  write a (.state (dset vals k v) (dset attrs k v) temp cache extra)

/-- The values of a `State`, put in new objects. -/
def storeTops : Params → HM (List (String × TRef))
  | [] => pure []
  | (k, .noise d) :: rest => do
    let vs ← storeTops rest
    return (k, .noise d) :: vs
  | (k, .ps s) :: rest => do
    let a ← storePS s
    let vs ← storeTops rest
    return (k, .ps a) :: vs

/-- `State(param_values, temperature, cache, extra_storage)`, `_state.py` lines 268-274, with new objects for the
values, as `Parameterization.initialize`, `_parameterization.py` lines 44-59, makes the initial states. -/
def storeState (s : State) : HM Addr := do
  let vs ← storeTops s.params
  alloc (.state vs (attrsOf vs) s.temperature s.cache s.extra)

/-- The loop of `State.copy`, `_state.py` lines 455-457. -/
def copyTops (fuel : ℕ) : List (String × TRef) → HM (List (String × TRef))
  | [] => pure []
  | (k, .noise d) :: rest => do
    let vs ← copyTops fuel rest
    return (k, .noise d) :: vs
  | (k, .ps a) :: rest => do
    let b ← copyPS fuel a
    let vs ← copyTops fuel rest
    return (k, .ps b) :: vs

/-- `State.copy`, `_state.py` lines 428-461. -/
def copyState (fuel : ℕ) (a : Addr) (keepDpred : Bool := false) : HM Addr := do
  let (vals, _, temp, cache, _) ← readState a
  let vs ← copyTops fuel vals
  alloc (.state vs (attrsOf vs) temp
    (if keepDpred then cache.filter (fun kv => kv.1 == "dpred") else []) [])

/-! ### reading -/

/-- `values[i]` where a number is needed. -/
def numAtH (v : Option Addr) (i : ℕ) : HM ℝ :=
  match v with
  | none => Act.throw .typeError
  | some b => do
    match ← read b with
    | .arr x => lift (numAt (some (.arr x)) i)
    | _ => Act.throw .typeError

/-- `values[i]` where a nested state is needed. -/
def stateAtH (v : Option Addr) (i : ℕ) : HM Addr :=
  match v with
  | none => Act.throw .typeError
  | some b => do
    match ← read b with
    | .list l | .objs l =>
      match l[i]? with
      | some a => pure a
      | none => Act.throw .indexError
    | _ => Act.throw .typeError

/-- `nearest_neighbour`, `_voronoi.py` lines 525-532. -/
noncomputable def nearestH (k : Kind) (v : Option Addr) (q : Pos) : HM ℕ :=
  match v with
  | none => Act.throw .typeError
  | some b => do
    match ← read b with
    | .arr x => lift (nearest k (some (.arr x)) q)
    | _ => Act.throw .typeError

/-- `ps_state["discretization"]` as positions. -/
def sitesH (a : Addr) : HM (List Pos) := do
  match ← getH a "discretization" with
  | none => Act.throw .typeError
  | some b => do
    match ← read b with
    | .arr x => return x.positions
    | _ => Act.throw .typeError

/-- The position of the dimension `idx`, `_param_values.py` lines 76-77. -/
def posAtH (a : Addr) (idx : ℕ) : HM Pos := do
  match ← getH a "discretization" with
  | none => return .none
  | some b => do
    match ← read b with
    | .arr x =>
      match x.positions[idx]? with
      | some p => return p
      | none => Act.throw .indexError
    | _ => Act.throw .typeError

/-- `values[i] = x` for an array of numbers, in place. -/
def setItemH (v : Option Addr) (i : ℕ) (x : ℝ) : HM Unit :=
  match v with
  | none => Act.throw .typeError
  | some b => do
    match ← read b with
    | .arr (.vec xs) =>
      if i < xs.length then write b (.arr (.vec (xs.set i x))) else Act.throw .indexError
    | _ => Act.throw .typeError

/-! ### births from the nearest neighbour -/

/-- The loop of `_discretization.py` lines 394-412 on the new state, in place. -/
noncomputable def fillInitialH : List (String × Param) → Addr → HM Unit
  | [], _ => pure ()
  | (name, p) :: rest, a => do
    let (n, _, _, _) ← readPS a
    let b ← (match p with
      | .prior _ => alloc (.arr (.vec (List.replicate n 0)))
      | .space sp =>
        if sp.info.kind.isDisc then do
          let l ← forEach (fun _ => fresh sp.sampleDisc) (List.range n)
          alloc (.list l)
        else do
          let l ← forEach (fun _ => fresh sp.sample) (List.range n)
          alloc (.list l) : HM Addr)
    setValH a name b
    fillInitialH rest a

/-- `for i, position in enumerate(positions): acc = body(i, position, acc)` -/
def forSitesH {σ : Type} (body : ℕ → Pos → σ → HM σ) : ℕ → List Pos → σ → HM σ
  | _, [], s => pure s
  | i, p :: ps, s => do
    let s ← body i p s
    forSitesH body (i + 1) ps s

mutual
/-- `_sample_from_neighbour`, `_discretization.py` lines 377-433; `new` is modified in place. -/
noncomputable def Space.sampleFromNeighbourH : Space → Addr → Addr → HM PyF
  | .mk info ps, old, new => do
    fillInitialH ps.toList new
    let sites ← sitesH new
    forSitesH (fun i pos (acc : PyF) => do
      let inb ← nearestH info.kind (← getH old "discretization") pos
      ps.fillPointH old new i inb pos acc) 0 sites (.fin 0)
/-- The loop of lines 417-432. -/
noncomputable def ParamList.fillPointH : ParamList → Addr → Addr → ℕ → ℕ → Pos → PyF → HM PyF
  | .nil, _, _, _, _, _, acc => pure acc
  | .cons name p rest, old, new, i, inb, pos, acc => do
    let acc ← p.fillPointH name old new i inb pos acc
    rest.fillPointH old new i inb pos acc
/-- One pass of the loop of lines 417-432: `new_ps_state[name][i] = new_value` for a prior (line 426), the
recursive call with the nested states for a discretization. -/
noncomputable def Param.fillPointH : Param → String → Addr → Addr → ℕ → ℕ → Pos → PyF → HM PyF
  | .prior p, name, old, new, i, inb, pos, lpr => do
    let nb ← numAtH (← getH old name) inb
    let (x, r) ← Act.ofM (p.fromNeighbour nb pos)
    setItemH (← getH new name) i x
    return lpr.add r
  | .space s, name, old, new, i, inb, _, lpr =>
    if s.info.kind.isDisc then do
      let oldi ← stateAtH (← getH old name) inb
      let newi ← stateAtH (← getH new name) i
      let r ← s.sampleFromNeighbourH oldi newi
      return lpr.add r
    else pure lpr
end

/-- A value of the newborn dimension. -/
inductive HVal where
  | num (x : ℝ)
  | ps (a : Addr)

/-- `_initialize_params_from_prior`, `_discretization.py` lines 299-321. -/
noncomputable def newbornFromPriorH : List (String × Param) → Pos → HM (List (String × HVal))
  | [], _ => pure []
  | (name, p) :: rest, pos => do
    let v ← (match p with
      | .prior p => do return .num (← Act.ofM (p.sample pos))
      | .space s => do return .ps (← fresh s.sample) : HM HVal)
    let vs ← newbornFromPriorH rest pos
    return (name, v) :: vs

/-- The loop of `_initialize_params_from_neighbour`, `_discretization.py` lines 343-374. -/
noncomputable def newbornFromNeighbourH (old : Addr) (inear : ℕ) (pos : Pos) :
    List (String × Param) → PyF → HM (List (String × HVal) × PyF)
  | [], lpr => pure ([], lpr)
  | (name, p) :: rest, lpr => do
    let (v, lpr) ← (match p with
      | .prior p => do
        let nb ← numAtH (← getH old name) inear
        let (x, r) ← Act.ofM (p.fromNeighbour nb pos)
        return (.num x, lpr.add r)
      | .space s =>
        if s.info.kind.isDisc then do
          let oldi ← stateAtH (← getH old s.info.name) inear
          let newi ← fresh s.sampleDisc
          let r ← s.sampleFromNeighbourH oldi newi
          return (.ps newi, lpr.add r)
        else do
          let _ ← fresh s.sample
          Act.throw .typeError : HM (HVal × PyF))
    let (vs, lpr) ← newbornFromNeighbourH old inear pos rest lpr
    return ((name, v) :: vs, lpr)

/-- `_initialize_newborn_params`, `_discretization.py` lines 268-297. -/
noncomputable def Space.newbornH (s : Space) (pos : Pos) (old : Addr) :
    HM (List (String × HVal) × PyF) :=
  if s.info.fromPrior then do
    let vs ← newbornFromPriorH s.params.toList pos
    return (vs, .fin 0)
  else do
    let inear ← nearestH s.info.kind (← getH old "discretization") pos
    newbornFromNeighbourH old inear pos s.params.toList (.fin 0)

mutual
/-- `_log_prob_death_ps_state`, `_discretization.py` lines 467-494. -/
noncomputable def Space.deathPSH : Space → Addr → Addr → HM PyF
  | .mk info ps, old, new => do
    let sites ← sitesH old
    forSitesH (fun i pos (acc : PyF) => do
      let inear ← nearestH info.kind (← getH new "discretization") pos
      ps.deathPointH old new i inear pos acc) 0 sites (.fin 0)
/-- The loop of lines 476-493 and of lines 450-464. -/
noncomputable def ParamList.deathPointH : ParamList → Addr → Addr → ℕ → ℕ → Pos → PyF → HM PyF
  | .nil, _, _, _, _, _, acc => pure acc
  | .cons name p rest, old, new, i, inear, pos, acc => do
    let acc ← p.deathPointH name old new i inear pos acc
    rest.deathPointH old new i inear pos acc
/-- One pass of the loop. -/
noncomputable def Param.deathPointH : Param → String → Addr → Addr → ℕ → ℕ → Pos → PyF → HM PyF
  | .prior p, name, old, new, i, inear, pos, acc => do
    let v ← numAtH (← getH old name) i
    let w ← numAtH (← getH new name) inear
    lift (p.toNeighbour v w pos acc)
  | .space s, name, old, new, i, inear, _, acc =>
    if s.info.kind.isDisc then do
      let v ← stateAtH (← getH old name) i
      let w ← stateAtH (← getH new name) inear
      let r ← s.deathPSH v w
      return (acc.sub (.fin 0)).add r
    else pure acc
end

/-! ### new values from old ones

Arrays are always new; a list is new, too, but its members are the members of the old list. -/

/-- The insertion of a value at index `i`, `_parameter_space.py` lines 262-272 and `_voronoi.py` lines
376-383. -/
def insertAtH (v : Option Addr) (i : ℕ) (x : HVal) : HM Addr :=
  match v with
  | none => Act.throw .typeError
  | some b => do
    match ← read b, x with
    | .arr (.vec xs), .num y => do
      let ys ← lift (Utils1d.insert1d 0 xs i y)
      alloc (.arr (.vec ys))
    | .arr (.pts _), .num _ => Act.throw .valueError
    | .objs _, _ => Act.throw .valueError
    | .list l, .ps a => alloc (.list (listInsert l i a))
    | _, _ => Act.throw .typeError

/-- The same at the end, `_voronoi.py` lines 388-393. -/
def appendH (v : Option Addr) (x : HVal) : HM Addr :=
  match v with
  | none => Act.throw .typeError
  | some b => do
    match ← read b, x with
    | .arr (.vec xs), .num y => alloc (.arr (.vec (xs ++ [y])))
    | .arr (.pts ps), .num y => alloc (.arr (.vec (ps.flatMap (fun p => [p.1, p.2]) ++ [y])))
    | .objs l, .ps a => alloc (.objs (l ++ [a]))
    | .list l, .ps a => alloc (.list (l ++ [a]))
    | _, _ => Act.throw .typeError

/-- The deletion of the entry at index `i`, `_parameter_space.py` lines 314-319, `_voronoi.py` lines
436-442. -/
def deleteAtH (b : Addr) (i : ℕ) : HM Addr := do
  match ← read b with
  | .arr (.vec xs) => do
    let ys ← lift (Utils1d.delete1d 0 xs i)
    alloc (.arr (.vec ys))
  | .arr (.pts _) => Act.throw .valueError
  | .objs _ => Act.throw .valueError
  | .list l => alloc (.list (listDelete l i))
  | _ => Act.throw .typeError

/-- The same with `np.delete(…, axis=0)` for arrays, `_voronoi.py` lines 440-442. -/
def npDeleteH (b : Addr) (i : ℕ) : HM Addr := do
  match ← read b with
  | .arr (.vec xs) =>
    if i < xs.length then alloc (.arr (.vec (xs.eraseIdx i))) else Act.throw .indexError
  | .arr (.pts ps) =>
    if i < ps.length then alloc (.arr (.pts (ps.eraseIdx i))) else Act.throw .indexError
  | .objs l => if i < l.length then alloc (.objs (l.eraseIdx i)) else Act.throw .indexError
  | .list l => alloc (.list (listDelete l i))
  | _ => Act.throw .typeError

/-- Lines 250-254 of `_voronoi.py`: `values[isort]` or `[values[i] for i in isort]`. -/
def gatherH (b : Addr) (is : List ℕ) : HM Addr := do
  match ← read b with
  | .arr (.vec xs) => do
    let ys ← lift (gather xs is)
    alloc (.arr (.vec ys))
  | .arr (.pts ps) => do
    let ys ← lift (gather ps is)
    alloc (.arr (.pts ys))
  | .objs l => do
    let l' ← lift (gather l is)
    alloc (.objs l')
  | .list l => do
    let l' ← lift (gather l is)
    alloc (.list l')
  | _ => Act.throw .typeError

/-- `{name: f(values) for name, values in …}` -/
def mapValsH (f : Addr → HM Addr) : List (String × Addr) → HM (List (String × Addr))
  | [] => pure []
  | (k, b) :: rest => do
    let c ← f b
    let vs ← mapValsH f rest
    return (k, c) :: vs

/-- `_add_kdtree_to_ps_state`, `_voronoi.py` lines 1379-1383, in place. -/
def addKdH (a : Addr) : HM Unit := do
  let (n, vals, attrs, _) ← readPS a
  match dget vals "discretization" with
  | none => Act.throw .valueError
  | some b => do
    match ← read b with
    | .arr (.pts ps) => write a (.ps n vals attrs (some ps))
    | _ => Act.throw .valueError

/-- `if self.compute_kdtree: …`, `_voronoi.py` lines 1375-1377, 1413-1415, 1421-1423, 1427-1429. -/
def Kind.withKdH (k : Kind) (a : Addr) : HM Unit :=
  match k with
  | .vor2 v => if v.kdtree then addKdH a else pure ()
  | _ => pure ()

/-! ### births, deaths, moves of the sites -/

/-- The loop of `ParameterSpace.birth`, `_parameter_space.py` lines 262-272. -/
noncomputable def birthValuesH (ps : ParamList) (i : ℕ) :
    List (String × Addr) → HM (List (String × Addr))
  | [] => pure []
  | (k, b) :: rest => do
    let x ← (match ps.get? k with
      | none => Act.throw .keyError
      | some (.prior p) => do return .num (← Act.ofM (p.sample .none))
      | some (.space s) => do return .ps (← fresh s.sample) : HM HVal)
    let c ← insertAtH (some b) i x
    let vs ← birthValuesH ps i rest
    return (k, c) :: vs

/-- `ParameterSpace.birth`, `_parameter_space.py` lines 257-275; the old state itself is returned when it is
full. -/
noncomputable def plainBirthH (info : Info) (ps : ParamList) (a : Addr) : HM (Addr × PyF) := do
  let (n, vals, _, _) ← readPS a
  if n = info.hi then return (a, .ninf)
  else do
    let i ← Act.ofM (M.randint 0 n)
    let vs ← birthValuesH ps i vals
    let new ← mkPSH (n + 1) vs
    return (new, .fin 0)

/-- `ParameterSpace.death`, `_parameter_space.py` lines 308-322. -/
def plainDeathH (info : Info) (a : Addr) : HM (Addr × PyF) := do
  let (n, vals, _, _) ← readPS a
  if n = info.lo then return (a, .ninf)
  else do
    let i ← Act.ofM (M.randIdx n)
    let vs ← mapValsH (fun b => deleteAtH b i) vals
    let new ← mkPSH (n - 1) vs
    return (new, .fin 0)

/-- The loops of `_voronoi.py` lines 376-383 and 388-393. -/
def addNewbornH (old : Addr) (add : Option Addr → HVal → HM Addr) :
    List (String × HVal) → List (String × Addr) → HM (List (String × Addr))
  | [], vals => pure vals
  | (name, x) :: rest, vals => do
    let c ← add (← getH old name) x
    addNewbornH old add rest (dset vals name c)

/-- `Voronoi.birth`, `_voronoi.py` lines 365-395. -/
noncomputable def vorBirthH (sp : Space) (a : Addr) : HM (Addr × PyF) :=
  match sp.info.kind with
  | .plain => Act.throw .attributeError
  | .vor1 v => do
    let x ← Act.ofM v.sampleSite
    let (nv, lpr) ← sp.newbornH (.one x) a
    let (n, vals, _, _) ← readPS a
    match dget vals "discretization" with
    | none => Act.throw .typeError
    | some b => do
      match ← read b with
      | .arr (.vec xs) => do
        let i := bisectLeft xs x 0 xs.length
        let sites ← lift (Utils1d.insert1d 0 xs i x)
        let c ← alloc (.arr (.vec sites))
        let vs ← addNewbornH a (fun v y => insertAtH v i y) nv [("discretization", c)]
        let new ← mkPSH (n + 1) vs
        return (new, lpr)
      | _ => Act.throw .typeError
  | .vor2 v => do
    let p ← Act.ofM v.sampleSite
    let (nv, lpr) ← sp.newbornH (.two p) a
    let (n, vals, _, _) ← readPS a
    match dget vals "discretization" with
    | none => Act.throw .valueError
    | some b => do
      match ← read b with
      | .arr (.pts ps) => do
        let c ← alloc (.arr (.pts (ps ++ [p])))
        let vs ← addNewbornH a appendH nv [("discretization", c)]
        let new ← mkPSH (n + 1) vs
        return (new, lpr)
      | _ => Act.throw .valueError

/-- `birth` of any space: `_voronoi.py` lines 362-364 and 1417-1423, `_parameter_space.py` lines 257-275.  The
k-d tree of a `Voronoi2D` is added to the state returned, which is the *old* state when it is full. -/
noncomputable def Space.birthH (sp : Space) (a : Addr) : HM (Addr × PyF) :=
  if sp.info.kind.isDisc then do
    let (n, _, _, _) ← readPS a
    let (new, lpr) ← (if n = sp.info.hi then pure (a, .ninf) else vorBirthH sp a : HM (Addr × PyF))
    sp.info.kind.withKdH new
    return (new, lpr)
  else plainBirthH sp.info sp.params a

/-- `_log_prob_death_parameters`, `_discretization.py` lines 435-465. -/
noncomputable def Space.deathRatioH (sp : Space) (old new : Addr) (i : ℕ) : HM PyF :=
  if sp.info.fromPrior then return .fin 0
  else do
    let sites ← sitesH old
    match sites[i]? with
    | none => Act.throw .indexError
    | some pos => do
      let inear ← nearestH sp.info.kind (← getH new "discretization") pos
      sp.params.deathPointH old new i inear pos (.fin 0)

/-- `Voronoi.death`, `_voronoi.py` lines 431-446. -/
noncomputable def vorDeathH (sp : Space) (a : Addr) : HM (Addr × PyF) := do
  let (n, vals, _, _) ← readPS a
  let i ← Act.ofM (M.randIdx n)
  let vs ← mapValsH
    (fun b => match sp.info.kind with | .vor2 _ => npDeleteH b i | _ => deleteAtH b i) vals
  let new ← mkPSH (n - 1) vs
  let lpr ← sp.deathRatioH a new i
  return (new, lpr)

/-- `death` of any space: `_voronoi.py` lines 428-430 and 1425-1429, `_parameter_space.py` lines 308-322. -/
noncomputable def Space.deathH (sp : Space) (a : Addr) : HM (Addr × PyF) :=
  if sp.info.kind.isDisc then do
    let (n, _, _, _) ← readPS a
    let (new, lpr) ← (if n = sp.info.lo then pure (a, .ninf) else vorDeathH sp a : HM (Addr × PyF))
    sp.info.kind.withKdH new
    return (new, lpr)
  else plainDeathH sp.info a

/-- The loops of `_voronoi.py` lines 244-254 and 258-264. -/
noncomputable def moveValuesH (old : Addr) (isite : ℕ) (oldSite newSite : Pos) (f : Addr → HM Addr) :
    List (String × Param) → List (String × Addr) → PyF → HM (List (String × Addr) × PyF)
  | [], vals, lpr => pure (vals, lpr)
  | (name, p) :: rest, vals, lpr => do
    let v ← getH old name
    let lpr ← (match p with
      | .prior p =>
        if p.hasPosition then do
          let x ← numAtH v isite
          let a ← lift (p.logPrior x oldSite)
          let b ← lift (p.logPrior x newSite)
          return lpr.add (b.sub a)
        else return lpr
      | .space _ => return lpr : HM PyF)
    let c ← (match v with
      | none => Act.throw .typeError
      | some b => f b : HM Addr)
    moveValuesH old isite oldSite newSite f rest (dset vals name c) lpr

/-- `Voronoi.perturb_value`, `_voronoi.py` lines 209-270.  The sites are copied, the copy is modified in
place; in two dimensions the new state holds the arrays and lists of the old one (line 264). -/
noncomputable def vorMoveH (sp : Space) (a : Addr) (isite : ℕ) : HM (Addr × PyF) :=
  match sp.info.kind with
  | .plain => Act.throw .attributeError
  | .vor1 v => do
    let (n, vals, _, _) ← readPS a
    match dget vals "discretization" with
    | none => Act.throw .typeError
    | some b => do
      match ← read b with
      | .arr (.vec xs) =>
        match xs[isite]? with
        | none => Act.throw .indexError
        | some x => do
          let y ← Act.ofM (v.perturbSite x)
          let c ← alloc (.arr (.vec xs))
          setItemH (some c) isite y
          let isort := v.argsort.f (xs.set isite y)
          let c' ← gatherH c isort
          let (vs, lpr) ← moveValuesH a isite (.one x) (.one y) (fun b => gatherH b isort)
            sp.params.toList [("discretization", c')] (.fin 0)
          let new ← mkPSH n vs
          return (new, lpr)
      | _ => Act.throw .typeError
  | .vor2 v => do
    let (n, vals, _, _) ← readPS a
    match dget vals "discretization" with
    | none => Act.throw .typeError
    | some b => do
      match ← read b with
      | .arr (.pts ps) =>
        match ps[isite]? with
        | none => Act.throw .indexError
        | some p => do
          let q ← Act.ofM (v.perturbSite p)
          let c ← alloc (.arr (.pts ps))
          write c (.arr (.pts (ps.set isite q)))
          let (vs, lpr) ← moveValuesH a isite (.two p) (.two q) (fun b => pure b)
            sp.params.toList [("discretization", c)] (.fin 0)
          let new ← mkPSH n vs
          return (new, lpr)
      | _ => Act.throw .typeError

/-- `perturb_value`, `_voronoi.py` lines 209-270 and 1411-1415. -/
noncomputable def Space.perturbSiteH (sp : Space) (a : Addr) (isite : ℕ) : HM (Addr × PyF) := do
  let (new, lpr) ← vorMoveH sp a isite
  sp.info.kind.withKdH new
  return (new, lpr)

/-! ### the perturbation classes -/

/-- The loop of `ParamPerturbation.perturb_param_space_state`, `_param_values.py` lines 69-80: the values are
copied (line 74), and the new value is put in the copy (line 80). -/
noncomputable def perturbPriorsH (a : Addr) (idx : ℕ) :
    List Prior → List (String × Addr) → PyF → HM (List (String × Addr) × PyF)
  | [], vals, lpr => pure (vals, lpr)
  | p :: rest, vals, lpr => do
    match ← getH a p.name with
    | none => Act.throw .attributeError
    | some b => do
      match ← read b with
      | .arr (.vec xs) => do
        let c ← alloc (.arr (.vec xs))
        let old ← numAtH (some b) idx
        let pos ← posAtH a idx
        let (new, r) ← Act.ofM (p.perturbValue old pos false)
        setItemH (some c) idx new
        perturbPriorsH a idx rest (dset vals p.name c) (lpr.add r)
      | _ => Act.throw .typeError

/-- `perturb_param_space_state`: `_birth_death.py` lines 58-61 and 119-122, `_param_values.py` lines 60-85.
`new_ps_state.param_values.update(…)` (line 83) changes the dictionary, not the attributes. -/
noncomputable def PSFunc.runH (fuel : ℕ) (f : PSFunc) (a : Addr) : HM (Addr × PyF) :=
  match f with
  | .birth sp => sp.birthH a
  | .death sp => sp.deathH a
  | .site sp => do
    let (n, _, _, _) ← readPS a
    let idx ← Act.ofM (M.randIdx n)
    sp.perturbSiteH a idx
  | .values _ priors => do
    let (n, _, _, _) ← readPS a
    let idx ← Act.ofM (M.randIdx n)
    let (vals, lpr) ← perturbPriorsH a idx priors [] (.fin 0)
    let new ← copyPS fuel a
    let (n', vs, attrs, kd) ← readPS new
    write new (.ps n' (dupdate vs vals) attrs kd)
    return (new, lpr)

/-- `perturb_param_space_state`, `_param_space.py` lines 78-91. -/
noncomputable def PSPert.perturbPSH (fuel : ℕ) (g : PSPert) (a : Addr) : HM (Addr × PyF × String) := do
  let i ← Act.ofM (choices g.funcs.length g.weights)
  match g.funcs[i]? with
  | none => Act.throw .indexError
  | some f => do
    let (new, lpr) ← f.runH fuel a
    return (new, lpr, f.name)

/-- The loop over the values of a parameter-space state, `_param_space.py` lines 31-39 (counting). -/
def countValsH (name : String) : List (String × Addr) → HM (ℕ × List Addr)
  | [] => pure (0, [])
  | (k, b) :: rest => do
    match ← read b with
    | .list l =>
      if k = name then do
        let (n, q) ← countValsH name rest
        return (l.length + n, q)
      else if l.isEmpty then Act.throw .indexError
      else do
        let (n, q) ← countValsH name rest
        return (n, l ++ q)
    | _ => countValsH name rest

/-- The first `while` loop, `_param_space.py` lines 28-39, for the parameter-space states in the queue. -/
def countQueueH (name : String) : ℕ → List Addr → ℕ → HM ℕ
  | _, [], n => pure n
  | 0, _ :: _, _ => Act.throw .tapeExhausted
  | fuel + 1, a :: queue, n => do
    let (_, vals, _, _) ← readPS a
    let (m, q) ← countValsH name vals
    countQueueH name fuel (queue ++ q) (n + m)

/-- The first pass of that loop, over the values of the `State` itself. -/
def countTopH (name : String) : List (String × TRef) → ℕ × List Addr
  | [] => (0, [])
  | (k, .ps a) :: rest =>
    let (n, q) := countTopH name rest
    if k = name then (1 + n, q) else (n, a :: q)
  | (_, .noise _) :: rest => countTopH name rest

/-- The variables of the second loop: `i_ps_state`, `log_prob_ratio`, `stats`. -/
structure PertVars where
  i : ℕ
  lpr : PyF
  stats : List (String × ℝ)

/-- What lines 53-56 and 63-67 do to the variables when a state has been perturbed. -/
noncomputable def PertVars.done (l : PertVars) (r : PyF) (nm : String) : PertVars where
  i := l.i + 1
  lpr := l.lpr.add r
  stats := dset l.stats nm ((dget l.stats nm).getD 0 + 1)

/-- The loop of `_param_space.py` lines 59-67: the members of `new_vv_list`. -/
noncomputable def PSPert.visitAllH (fuel : ℕ) (g : PSPert) (target : ℕ) :
    List Addr → PertVars → HM (List Addr × PertVars)
  | [], l => pure ([], l)
  | a :: as, l => do
    let (new, l) ← (if l.i = target then do
        let (new, r, nm) ← g.perturbPSH fuel a
        return (new, l.done r nm)
      else do
        let new ← copyPS fuel a
        return (new, { l with i := l.i + 1 }) : HM (Addr × PertVars))
    let (news, l) ← g.visitAllH fuel target as l
    return (new :: news, l)

/-- The members of the list `ps_state[k]`. -/
def membersH (a : Addr) (k : String) : HM (List Addr) := do
  match ← getH a k with
  | none => Act.throw .typeError
  | some b => do
    match ← read b with
    | .list l => return l
    | _ => Act.throw .typeError

/-- The loop over the values of a parameter-space state in the second `while` loop, `_param_space.py` lines
49-72; the queue holds pairs of a state in the copy and the corresponding old state. -/
noncomputable def PSPert.pertValsH (fuel : ℕ) (g : PSPert) (target : ℕ) (new : Addr) :
    List (String × Addr) → PertVars → HM (PertVars × List (Addr × Addr))
  | [], l => pure (l, [])
  | (k, b) :: rest, l => do
    match ← read b with
    | .list xs =>
      if k = g.name then do
        let (ys, l) ← g.visitAllH fuel target xs l
        let c ← alloc (.list ys)
        setValH new k c
        g.pertValsH fuel target new rest l
      else if xs.isEmpty then Act.throw .indexError
      else do
        let ys ← membersH new k
        let (l, queue) ← g.pertValsH fuel target new rest l
        return (l, ys.zip xs ++ queue)
    | _ => g.pertValsH fuel target new rest l

/-- The second `while` loop, `_param_space.py` lines 46-72, for the parameter-space states in the queue. -/
noncomputable def PSPert.pertQueueH (fuel : ℕ) (g : PSPert) (target : ℕ) :
    ℕ → List (Addr × Addr) → PertVars → HM PertVars
  | _, [], l => pure l
  | 0, _ :: _, _ => Act.throw .tapeExhausted
  | passes + 1, (new, old) :: queue, l =>
    if l.i ≤ target then do
      let (_, vals, _, _) ← readPS old
      let (l, q) ← g.pertValsH fuel target new vals l
      g.pertQueueH fuel target passes (queue ++ q) l
    else pure l

/-- The first pass of that loop, over the values of the `State` itself. -/
noncomputable def PSPert.pertTopH (fuel : ℕ) (g : PSPert) (target : ℕ) (new : Addr) :
    List (String × TRef) → PertVars → HM (PertVars × List (Addr × Addr))
  | [], l => pure (l, [])
  | (_, .noise _) :: rest, l => g.pertTopH fuel target new rest l
  | (k, .ps a) :: rest, l =>
    if k = g.name then
      if l.i = target then do
        let (b, r, nm) ← g.perturbPSH fuel a
        setTopH new k (.ps b)
        g.pertTopH fuel target new rest (l.done r nm)
      else g.pertTopH fuel target new rest { l with i := l.i + 1 }
    else do
      let (vals, _, _, _, _) ← readState new
      match dget vals k with
      | some (.ps b) => do
        let (l, queue) ← g.pertTopH fuel target new rest l
        return (l, (b, a) :: queue)
      | _ => Act.throw .attributeError

/-- `ParamSpacePerturbation.perturb`, `_param_space.py` lines 24-76. -/
noncomputable def PSPert.perturbH (fuel : ℕ) (g : PSPert) (a : Addr) : HM (Addr × PyF) := do
  let new ← copyState fuel a
  let (vals, _, _, _, _) ← readState a
  let n ← countQueueH g.name fuel (countTopH g.name vals).2 (countTopH g.name vals).1
  let target ← Act.ofM (M.randIdx n)
  let (l, queue) ← g.pertTopH fuel target new vals { i := 0, lpr := .fin 0, stats := [] }
  let l ← g.pertQueueH fuel target fuel queue l
  let total := (l.stats.map (·.2)).sum
  let stats := l.stats.map fun kv => (kv.1, kv.2 / total)
  let (vs, attrs, temp, cache, extra) ← readState new
  write new (.state vs attrs temp (dset cache "perturb_stats" (.stats stats)) extra)
  return (new, l.lpr)

/-- The loop of `NoisePerturbation.perturb`, `_data_noise.py` lines 49-53. -/
noncomputable def perturbNoisesH (a : Addr) : List Target → List (String × TRef) → HM (List (String × TRef))
  | [], acc => pure acc
  | t :: ts, acc => do
    let (vals, _, _, _, _) ← readState a
    match dget vals t.name with
    | some (.noise d) => do
      let d ← Act.ofM (t.perturbNoise d)
      perturbNoisesH a ts (dset acc t.name (.noise d))
    | _ => Act.throw .attributeError

/-- `NoisePerturbation.perturb`, `_data_noise.py` lines 49-56: `new_state.param_values.update(…)` (line 55)
changes the dictionary, not the attributes. -/
noncomputable def noisePerturbH (fuel : ℕ) (ts : List Target) (a : Addr) : HM (Addr × PyF) := do
  let new ← perturbNoisesH a ts []
  let c ← copyState fuel a (keepDpred := true)
  let (vals, attrs, temp, cache, extra) ← readState c
  write c (.state (dupdate vals new) attrs temp cache extra)
  return (c, .fin 0)

end BB
