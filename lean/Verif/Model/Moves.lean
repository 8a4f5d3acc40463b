import Verif.Model.Space

/-!
# Model of the perturbations

Births, deaths and moves of the sites: `/repo/src/bayesbay/parameterization/_parameter_space.py` lines
197-322 and `/repo/src/bayesbay/discretization/_voronoi.py` lines 180-446, 1385-1429; the perturbation
classes in `/repo/src/bayesbay/perturbations/`.
-/

namespace BB

/-! ### arrays and lists -/

/-- `l[:i] + [x] + l[i:]` -/
def listInsert {α : Type} (l : List α) (i : ℕ) (x : α) : List α := l.take i ++ x :: l.drop i

/-- `l[:i] + l[i + 1:]` -/
def listDelete {α : Type} (l : List α) (i : ℕ) : List α := l.take i ++ l.drop (i + 1)

/-- The insertion of a value at index `i`, `_parameter_space.py` lines 262-272 and `_voronoi.py` lines
376-383.  `insert_1d` takes a one-dimensional array of numbers (otherwise `ValueError`) and a number
(otherwise `TypeError`).  A number put into a list of states is not modelled further (`TypeError` here). -/
def PVal.insertAt (v : Option PVal) (i : ℕ) (x : NVal) : Except PyErr PVal :=
  match v, x with
  | some (.arr (.vec xs)), .num y => do return .arr (.vec (← Utils1d.insert1d 0 xs i y))
  | some (.arr (.pts _)), .num _ => .error .valueError
  | some (.objs _), .num _ => .error .valueError
  | some (.objs _), .ps _ => .error .valueError
  | some (.arr _), .ps _ => .error .typeError
  | some (.states l), .ps s => .ok (.states (listInsert l i s))
  | some (.states _), .num _ => .error .typeError
  | none, _ => .error .typeError

/-- The same at the end, `_voronoi.py` lines 388-393: `np.append` flattens an array of two columns. -/
def PVal.append (v : Option PVal) (x : NVal) : Except PyErr PVal :=
  match v, x with
  | some (.arr (.vec xs)), .num y => .ok (.arr (.vec (xs ++ [y])))
  | some (.arr (.pts ps)), .num y => .ok (.arr (.vec (ps.flatMap (fun p => [p.1, p.2]) ++ [y])))
  | some (.objs l), .ps s => .ok (.objs (l ++ [s]))
  | some (.states l), .ps s => .ok (.states (l ++ [s]))
  | _, _ => .error .typeError

/-- The deletion of the entry at index `i` with `delete_1d` for arrays, `_parameter_space.py` lines
314-319, `_voronoi.py` lines 436-442. -/
def PVal.deleteAt (v : PVal) (i : ℕ) : Except PyErr PVal :=
  match v with
  | .arr (.vec xs) => do return .arr (.vec (← Utils1d.delete1d 0 xs i))
  | .arr (.pts _) => .error .valueError
  | .objs _ => .error .valueError
  | .states l => .ok (.states (listDelete l i))

/-- The deletion of the entry at index `i` with `np.delete(…, axis=0)` for arrays, `_voronoi.py` lines 440-442. -/
def PVal.npDelete (v : PVal) (i : ℕ) : Except PyErr PVal :=
  match v with
  | .arr (.vec xs) => if i < xs.length then .ok (.arr (.vec (xs.eraseIdx i))) else .error .indexError
  | .arr (.pts ps) => if i < ps.length then .ok (.arr (.pts (ps.eraseIdx i))) else .error .indexError
  | .objs l => if i < l.length then .ok (.objs (l.eraseIdx i)) else .error .indexError
  | .states l => .ok (.states (listDelete l i))

/-- `{name: f(values) for name, values in …}` -/
def mapVals (f : PVal → Except PyErr PVal) : List (String × PVal) → Except PyErr (List (String × PVal))
  | [] => .ok []
  | (k, v) :: rest => do
    let v ← f v
    let vs ← mapVals f rest
    return (k, v) :: vs

/-! ### `ParameterSpace` -/

/-- The loop of `ParameterSpace.birth`, `_parameter_space.py` lines 262-272: `self.parameters[name]`
is sampled without a position. -/
noncomputable def birthValues (ps : ParamList) (i : ℕ) :
    List (String × PVal) → M (List (String × PVal))
  | [] => pure []
  | (k, v) :: rest => do
    let x ← (match ps.get? k with
      | none => M.throw .keyError
      | some (.prior p) => do return .num (← p.sample .none)
      | some (.space s) => do return .ps (← s.sample) : M NVal)
    let v ← M.lift (PVal.insertAt (some v) i x)
    let vs ← birthValues ps i rest
    return (k, v) :: vs

/-- `ParameterSpace.birth`, `_parameter_space.py` lines 257-275. -/
noncomputable def plainBirth (info : Info) (ps : ParamList) (s : PSState) : M (PSState × PyF) :=
  if s.n = info.hi then pure (s, .ninf)
  else do
    let i ← M.randint 0 s.n
    let vals ← birthValues ps i s.vals
    let new ← M.lift (mkPS (s.n + 1) vals)
    return (new, .fin 0)

/-- `ParameterSpace.death`, `_parameter_space.py` lines 308-322. -/
def plainDeath (info : Info) (s : PSState) : M (PSState × PyF) :=
  if s.n = info.lo then pure (s, .ninf)
  else do
    let i ← M.randIdx s.n
    let vals ← M.lift (mapVals (fun v => v.deleteAt i) s.vals)
    let new ← M.lift (mkPS (s.n - 1) vals)
    return (new, .fin 0)

/-! ### `Voronoi` -/

open Classical in
/-- `bisect.bisect_left(a, x, lo, hi)`:
`while lo < hi: mid = (lo + hi) // 2; if a[mid] < x: lo = mid + 1 else: hi = mid`. -/
noncomputable def bisectLeft (a : List ℝ) (x : ℝ) (lo hi : ℕ) : ℕ :=
  if lo < hi then
    if a.getD ((lo + hi) / 2) 0 < x then bisectLeft a x ((lo + hi) / 2 + 1) hi
    else bisectLeft a x lo ((lo + hi) / 2)
  else lo
termination_by hi - lo
decreasing_by all_goals omega

/-- The loops of `_voronoi.py` lines 376-383 and 388-393: the newborn values are added to the old ones
by `add`. -/
def addNewborn (old : PSState) (add : Option PVal → NVal → Except PyErr PVal) :
    List (String × NVal) → List (String × PVal) → Except PyErr (List (String × PVal))
  | [], vals => .ok vals
  | (name, x) :: rest, vals => do
    let v ← add (old.get name) x
    addNewborn old add rest (dset vals name v)

/-- `Voronoi.birth`, `_voronoi.py` lines 365-395.  The new site is drawn first, then the values. -/
noncomputable def vorBirth (sp : Space) (s : PSState) : M (PSState × PyF) :=
  match sp.info.kind with
  | .plain => M.throw .attributeError
  | .vor1 v => do
    let x ← v.sampleSite
    let (nv, lpr) ← sp.newborn (.one x) s
    match s.get "discretization" with
    | some (.arr (.vec xs)) => do
      let i := bisectLeft xs x 0 xs.length
      let sites ← M.lift (Utils1d.insert1d 0 xs i x)
      let vals ← M.lift (addNewborn s (fun v y => PVal.insertAt v i y) nv
        [("discretization", .arr (.vec sites))])
      let new ← M.lift (mkPS (s.n + 1) vals)
      return (new, lpr)
    | _ => M.throw .typeError
  | .vor2 v => do
    let p ← v.sampleSite
    let (nv, lpr) ← sp.newborn (.two p) s
    match s.get "discretization" with
    | some (.arr (.pts ps)) => do
      let vals ← M.lift (addNewborn s PVal.append nv [("discretization", .arr (.pts (ps ++ [p])))])
      let new ← M.lift (mkPS (s.n + 1) vals)
      return (new, lpr)
    | _ => M.throw .valueError

/-- `birth` of any space; for Voronoi tessellations lines 362-364 of `_voronoi.py`, for `Voronoi2D` lines 1417-1423. -/
noncomputable def Space.birth (sp : Space) (s : PSState) : M (PSState × PyF) :=
  if sp.info.kind.isDisc then do
    let (new, lpr) ← (if s.n = sp.info.hi then pure (s, .ninf) else vorBirth sp s)
    let new ← M.lift (sp.info.kind.withKd new)
    return (new, lpr)
  else plainBirth sp.info sp.params s

/-- `_log_prob_death_parameters`, `_discretization.py` lines 435-465. -/
noncomputable def Space.deathRatio (sp : Space) (old new : PSState) (i : ℕ) : Except PyErr PyF :=
  if sp.info.fromPrior then .ok (.fin 0)
  else do
    let sites ← old.sites
    match sites[i]? with
    | none => throw .indexError
    | some pos => do
      let inear ← nearest sp.info.kind (new.get "discretization") pos
      sp.params.deathPoint old new i inear pos (.fin 0)

/-- `Voronoi.death`, `_voronoi.py` lines 431-446. -/
noncomputable def vorDeath (sp : Space) (s : PSState) : M (PSState × PyF) := do
  let i ← M.randIdx s.n
  let vals ← M.lift (mapVals
    (fun v => match sp.info.kind with | .vor2 _ => v.npDelete i | _ => v.deleteAt i) s.vals)
  let new ← M.lift (mkPS (s.n - 1) vals)
  let lpr ← M.lift (sp.deathRatio s new i)
  return (new, lpr)

/-- `death` of any space; for Voronoi tessellations lines 428-430 of `_voronoi.py`, for `Voronoi2D` lines 1425-1429. -/
noncomputable def Space.death (sp : Space) (s : PSState) : M (PSState × PyF) :=
  if sp.info.kind.isDisc then do
    let (new, lpr) ← (if s.n = sp.info.lo then pure (s, .ninf) else vorDeath sp s)
    let new ← M.lift (sp.info.kind.withKd new)
    return (new, lpr)
  else plainDeath sp.info s

open Classical in
/-- `_perturb_site`, `_voronoi.py` lines 195-200. -/
noncomputable def Vor1.perturbSite (v : Vor1) (x : ℝ) : M ℝ := M.until do
  let d ← M.normalvariate 0 v.std
  return if x + d ≥ v.vmin ∧ x + d ≤ v.vmax then some (x + d) else none

open Classical in
/-- `_perturb_site`, `_voronoi.py` lines 201-207, and `Voronoi2D._perturb_site`, lines 1400-1409. -/
noncomputable def Vor2.perturbSite (v : Vor2) (p : ℝ × ℝ) : M (ℝ × ℝ) := M.until do
  let dx ← M.npNormal 0 v.std.1
  let dy ← M.npNormal 0 v.std.2
  let q := (p.1 + dx, p.2 + dy)
  let ok : Prop :=
    match v.polygon with
    | none => (q.1 ≥ v.vmin.1 ∧ q.2 ≥ v.vmin.2) ∧ (q.1 ≤ v.vmax.1 ∧ q.2 ≤ v.vmax.2)
    | some inside => inside q
  return if ok then some q else none

/-- `values[isort]` -/
def gather {α : Type} (xs : List α) : List ℕ → Except PyErr (List α)
  | [] => .ok []
  | i :: is =>
    match xs[i]? with
    | none => .error .indexError
    | some x => do return x :: (← gather xs is)

/-- Lines 250-254 of `_voronoi.py`: `values[isort]` or `[values[i] for i in isort]`. -/
def PVal.gather (v : PVal) (is : List ℕ) : Except PyErr PVal :=
  match v with
  | .arr (.vec xs) => do return .arr (.vec (← BB.gather xs is))
  | .arr (.pts ps) => do return .arr (.pts (← BB.gather ps is))
  | .objs l => do return .objs (← BB.gather l is)
  | .states l => do return .states (← BB.gather l is)

/-- The loops of `_voronoi.py` lines 244-254 and 258-264: each parameter of the space is rearranged
by `f`, and the prior ratio of a parameter that depends on position is added. -/
noncomputable def moveValues (old : PSState) (isite : ℕ) (oldSite newSite : Pos)
    (f : PVal → Except PyErr PVal) :
    List (String × Param) → List (String × PVal) → PyF → Except PyErr (List (String × PVal) × PyF)
  | [], vals, lpr => .ok (vals, lpr)
  | (name, p) :: rest, vals, lpr => do
    let lpr ← (match p with
      | .prior p =>
        if p.hasPosition then do
          let x ← numAt (old.get name) isite
          let a ← p.logPrior x oldSite
          let b ← p.logPrior x newSite
          return lpr.add (b.sub a)
        else return lpr
      | .space _ => return lpr : Except PyErr PyF)
    let v ← (match old.get name with
      | none => throw .typeError
      | some v => f v)
    moveValues old isite oldSite newSite f rest (dset vals name v) lpr

/-- `Voronoi.perturb_value`, `_voronoi.py` lines 209-270 (without the kd-tree). -/
noncomputable def vorMove (sp : Space) (s : PSState) (isite : ℕ) : M (PSState × PyF) :=
  match sp.info.kind with
  | .plain => M.throw .attributeError
  | .vor1 v =>
    match s.get "discretization" with
    | some (.arr (.vec xs)) =>
      match xs[isite]? with
      | none => M.throw .indexError
      | some x => do
        let y ← v.perturbSite x
        let moved := xs.set isite y
        let isort := v.argsort.f moved
        let sites ← M.lift (gather moved isort)
        let (vals, lpr) ← M.lift (moveValues s isite (.one x) (.one y) (fun v => v.gather isort)
          sp.params.toList [("discretization", .arr (.vec sites))] (.fin 0))
        let new ← M.lift (mkPS s.n vals)
        return (new, lpr)
    | _ => M.throw .typeError
  | .vor2 v =>
    match s.get "discretization" with
    | some (.arr (.pts ps)) =>
      match ps[isite]? with
      | none => M.throw .indexError
      | some p => do
        let q ← v.perturbSite p
        let (vals, lpr) ← M.lift (moveValues s isite (.two p) (.two q) (fun v => .ok v)
          sp.params.toList [("discretization", .arr (.pts (ps.set isite q)))] (.fin 0))
        let new ← M.lift (mkPS s.n vals)
        return (new, lpr)
    | _ => M.throw .typeError

/-- `perturb_value`, `_voronoi.py` lines 209-270 and 1411-1415. -/
noncomputable def Space.perturbSite (sp : Space) (s : PSState) (isite : ℕ) : M (PSState × PyF) := do
  let (new, lpr) ← vorMove sp s isite
  let new ← M.lift (sp.info.kind.withKd new)
  return (new, lpr)

/-! ### the perturbation classes -/

/-- The position of the dimension `idx`, `_param_values.py` lines 76-77. -/
def posAt (s : PSState) (idx : ℕ) : Except PyErr Pos :=
  match s.get "discretization" with
  | none => .ok .none
  | some (.arr a) =>
    match a.positions[idx]? with
    | some p => .ok p
    | none => .error .indexError
  | some _ => .error .typeError

/-- The loop of `ParamPerturbation.perturb_param_space_state`, `_param_values.py` lines 69-80. -/
noncomputable def perturbPriors (s : PSState) (idx : ℕ) :
    List Prior → List (String × PVal) → PyF → M (List (String × PVal) × PyF)
  | [], vals, lpr => pure (vals, lpr)
  | p :: rest, vals, lpr =>
    match s.get p.name with
    | some (.arr (.vec xs)) => do
      let old ← M.lift (numAt (some (.arr (.vec xs))) idx)
      let pos ← M.lift (posAt s idx)
      let (new, r) ← p.perturbValue old pos false
      perturbPriors s idx rest (dset vals p.name (.arr (.vec (xs.set idx new)))) (lpr.add r)
    | none => M.throw .attributeError
    | some _ => M.throw .typeError

/-- A member of the list `_ps_perturbation_funcs` (`_parameter_space.py` lines 327-340, `_voronoi.py` lines
466-488): `BirthPerturbation(space)`, `DeathPerturbation(space)`, `ParamPerturbation(name, priors)`,
`ParamPerturbation(name, [space])`. -/
inductive PSFunc where
  | birth (sp : Space)
  | death (sp : Space)
  | values (space : String) (priors : List Prior)
  | site (sp : Space)

/-- `perturb_param_space_state`: `_birth_death.py` lines 58-61 and 119-122, `_param_values.py` lines 60-85.
`ps_state.copy()` keeps the cache. -/
noncomputable def PSFunc.run (f : PSFunc) (s : PSState) : M (PSState × PyF) :=
  match f with
  | .birth sp => sp.birth s
  | .death sp => sp.death s
  | .site sp => do
    let idx ← M.randIdx s.n
    sp.perturbSite s idx
  | .values _ priors => do
    let idx ← M.randIdx s.n
    let (vals, lpr) ← perturbPriors s idx priors [] (.fin 0)
    return (.mk s.n (dupdate s.vals vals) s.kd, lpr)

/-- `str(names)` for a list of strings (without quotes in them). -/
def strList (names : List String) : String :=
  "[" ++ String.intercalate ", " (names.map fun n => "'" ++ n ++ "'") ++ "]"

/-- `__name__`: `_birth_death.py` lines 63-65 and 124-126, `_param_values.py` lines 86-99. -/
def PSFunc.name : PSFunc → String
  | .birth sp => "BirthPerturbation(" ++ sp.info.name ++ ")"
  | .death sp => "DeathPerturbation(" ++ sp.info.name ++ ")"
  | .site sp => "ParamPerturbation(" ++ sp.info.name ++ ".discretization)"
  | .values space priors =>
    let names := priors.map fun p => space ++ "." ++ p.name
    "ParamPerturbation(" ++ (match names with | [n] => n | _ => strList names) ++ ")"

/-- `ParamSpacePerturbation`, `_param_space.py` lines 10-22. -/
structure PSPert where
  name : String
  funcs : List PSFunc
  weights : List ℝ

/-- `perturb_param_space_state`, `_param_space.py` lines 78-91, with the `__name__` of the function chosen. -/
noncomputable def PSPert.perturbPS (g : PSPert) (s : PSState) : M (PSState × PyF × String) := do
  let i ← choices g.funcs.length g.weights
  match g.funcs[i]? with
  | none => M.throw .indexError
  | some f => do
    let (new, lpr) ← f.run s
    return (new, lpr, f.name)

mutual
/-- The number of parameter-space states in a state, itself included (those in lists only). -/
def PSState.nodes : PSState → ℕ
  | .mk _ vals _ => 1 + nodesVals vals
def nodesVals : List (String × PVal) → ℕ
  | [] => 0
  | (_, .states l) :: rest => nodesList l + nodesVals rest
  | (_, .arr _) :: rest => nodesVals rest
  | (_, .objs _) :: rest => nodesVals rest
def nodesList : List PSState → ℕ
  | [] => 0
  | s :: rest => s.nodes + nodesList rest
end

/-- Where a nested state is found: the key of a value and the index in the list, from the top down. -/
abbrev Path := List (String × ℕ)

/-- Replaces the nested state at a path by its image under `f` (the assignments to
`new_ps_state`, a reference into the copy of the state). -/
def PSState.modifyAt (f : PSState → PSState) : Path → PSState → PSState
  | [], s => f s
  | (k, i) :: path, s =>
    match s.get k with
    | some (.states l) =>
      match l[i]? with
      | some x => .mk s.n (dset s.vals k (.states (l.set i (x.modifyAt f path)))) s.kd
      | none => s
    | _ => s

/-- Replaces the state at a key and a path. -/
def Params.modifyAt (f : PSState → PSState) (p : Params) (k : String) (path : Path) : Params :=
  match dget p k with
  | some (.ps s) => dset p k (.ps (s.modifyAt f path))
  | _ => p

/-- A state waiting in the queue `states_queue`: where it is, and what it was. -/
structure QItem where
  key : String
  path : Path
  st : PSState

/-- The items for the members of a list. -/
def qitems (q : QItem) (k : String) (l : List PSState) : List QItem :=
  l.mapIdx fun i s => { key := q.key, path := q.path ++ [(k, i)], st := s }

/-- The loop over the values of a parameter-space state, `_param_space.py` lines 31-39 (counting): how
many states of the space `name` are among the values, and which states are put in the queue.  `v[0]` raises
`IndexError` for an empty list. -/
def countVals (name : String) : List (String × PVal) → Except PyErr (ℕ × List PSState)
  | [] => .ok (0, [])
  | (k, .states l) :: rest =>
    if k = name then do
      let (n, q) ← countVals name rest
      return (l.length + n, q)
    else if l.isEmpty then .error .indexError
    else do
      let (n, q) ← countVals name rest
      return (n, l ++ q)
  | (_, .arr _) :: rest => countVals name rest
  | (_, .objs _) :: rest => countVals name rest

theorem nodesList_append (a b : List PSState) : nodesList (a ++ b) = nodesList a + nodesList b := by
  induction a with
  | nil => simp [nodesList]
  | cons s a ih => simp only [List.cons_append, nodesList, ih]; omega

theorem countVals_nodes {name : String} : ∀ {vals : List (String × PVal)} {n : ℕ} {q : List PSState},
    countVals name vals = .ok (n, q) → nodesList q ≤ nodesVals vals
  | [], n, q, h => by
    injection h with h; injection h with h1 h2; subst h2; simp [nodesList, nodesVals]
  | (k, .arr a) :: rest, n, q, h => by
    rw [nodesVals]; exact countVals_nodes h
  | (k, .objs l) :: rest, n, q, h => by
    rw [nodesVals]; exact countVals_nodes h
  | (k, .states l) :: rest, n, q, h => by
    rw [countVals] at h
    rw [nodesVals]
    cases hr : countVals name rest with
    | error e =>
      rw [hr] at h
      split at h
      · cases h
      · split at h <;> cases h
    | ok r =>
      obtain ⟨m, q'⟩ := r
      have ih := countVals_nodes hr
      rw [hr] at h
      split at h
      · injection h with h; injection h with h1 h2; subst h2; omega
      · split at h
        · cases h
        · injection h with h; injection h with h1 h2; subst h2
          rw [nodesList_append]; omega

/-- The first `while` loop, `_param_space.py` lines 28-39, for the parameter-space states in the queue. -/
def countQueue (name : String) : List PSState → ℕ → Except PyErr ℕ
  | [], n => .ok n
  | s :: queue, n =>
    match h : countVals name s.vals with
    | .error e => .error e
    | .ok (m, q) =>
      have := countVals_nodes h
      countQueue name (queue ++ q) (n + m)
termination_by queue => nodesList queue
decreasing_by
  rw [nodesList_append, nodesList]
  cases s
  simp only [PSState.nodes, PSState.vals] at *
  omega

/-- The first pass of that loop, over the values of the `State` itself. -/
def countTop (name : String) : Params → ℕ × List PSState
  | [] => (0, [])
  | (k, .ps s) :: rest =>
    let (n, q) := countTop name rest
    if k = name then (1 + n, q) else (n, s :: q)
  | (_, .noise _) :: rest => countTop name rest

/-- `n_ps_states_to_perturb`, `_param_space.py` lines 27-39. -/
def countInstances (name : String) (p : Params) : Except PyErr ℕ :=
  countQueue name (countTop name p).2 (countTop name p).1

/-- The variables of the second loop: the new state, `i_ps_state`, `log_prob_ratio`, `stats`. -/
structure PertLocals where
  params : Params
  i : ℕ
  lpr : PyF
  stats : List (String × ℝ)

/-- One state of the space has been reached, `_param_space.py` lines 50-56 and 60-67: if its turn has
come it is replaced by its perturbation. -/
noncomputable def PSPert.visit (g : PSPert) (target : ℕ) (key : String) (path : Path) (s : PSState)
    (l : PertLocals) : M PertLocals :=
  if l.i = target then do
    let (new, r, nm) ← g.perturbPS s
    return { params := l.params.modifyAt (fun _ => new) key path, i := l.i + 1, lpr := l.lpr.add r,
             stats := dset l.stats nm ((dget l.stats nm).getD 0 + 1) }
  else return { l with i := l.i + 1 }

/-- Visits states one after the other. -/
noncomputable def PSPert.visitAll (g : PSPert) (target : ℕ) : List QItem → PertLocals → M PertLocals
  | [], l => pure l
  | q :: qs, l => do
    let l ← g.visit target q.key q.path q.st l
    g.visitAll target qs l

/-- The loop over the values of a parameter-space state in the second `while` loop, `_param_space.py` lines
49-72: the states reached and the states put in the queue.  `set_param_values(k, new_vv_list)` of line 68 sets
a list of the same length, and raises `IndexError` if that is 0. -/
noncomputable def PSPert.pertVals (g : PSPert) (target : ℕ) (q : QItem) :
    List (String × PVal) → PertLocals → M (PertLocals × List QItem)
  | [], l => pure (l, [])
  | (k, .states xs) :: rest, l =>
    if k = g.name then do
      let l ← g.visitAll target (qitems q k xs) l
      if xs.isEmpty then M.throw .indexError else g.pertVals target q rest l
    else if xs.isEmpty then M.throw .indexError
    else do
      let (l, queue) ← g.pertVals target q rest l
      return (l, qitems q k xs ++ queue)
  | (_, .arr _) :: rest, l => g.pertVals target q rest l
  | (_, .objs _) :: rest, l => g.pertVals target q rest l

/-- The second `while` loop, `_param_space.py` lines 46-72, for the parameter-space states in the queue.
`fuel` bounds the number of states. -/
noncomputable def PSPert.pertQueue (g : PSPert) (target : ℕ) :
    ℕ → List QItem → PertLocals → M PertLocals
  | _, [], l => pure l
  | 0, _ :: _, _ => M.throw .tapeExhausted
  | fuel + 1, q :: queue, l =>
    if l.i ≤ target then do
      let (l, q') ← g.pertVals target q q.st.vals l
      g.pertQueue target fuel (queue ++ q') l
    else pure l

/-- The first pass of that loop, over the values of the `State` itself. -/
noncomputable def PSPert.pertTop (g : PSPert) (target : ℕ) :
    Params → PertLocals → M (PertLocals × List QItem)
  | [], l => pure (l, [])
  | (k, .ps s) :: rest, l =>
    if k = g.name then do
      let l ← g.visit target k [] s l
      g.pertTop target rest l
    else do
      let (l, queue) ← g.pertTop target rest l
      return (l, { key := k, path := [], st := s } :: queue)
  | (_, .noise _) :: rest, l => g.pertTop target rest l

/-- The number of parameter-space states in a `State`. -/
def nodesParams : Params → ℕ
  | [] => 0
  | (_, .ps s) :: rest => s.nodes + nodesParams rest
  | (_, .noise _) :: rest => nodesParams rest

/-- `ParamSpacePerturbation.perturb`, `_param_space.py` lines 24-76. -/
noncomputable def PSPert.perturb (g : PSPert) (s : State) : M (State × PyF) := do
  let n ← M.lift (countInstances g.name s.params)
  let target ← M.randIdx n
  let (l, queue) ← g.pertTop target s.params { params := s.params, i := 0, lpr := .fin 0, stats := [] }
  let l ← g.pertQueue target (nodesParams s.params) queue l
  let total := (l.stats.map (·.2)).sum
  let stats := l.stats.map fun kv => (kv.1, kv.2 / total)
  let new := s.copy
  return ({ new with params := l.params, cache := dset new.cache "perturb_stats" (.stats stats) }, l.lpr)

/-- `__name__`, `_param_space.py` lines 109-112. -/
def PSPert.displayName (g : PSPert) : String :=
  "ParamSpacePerturbation(param_space_name=" ++ g.name ++ ")"

/-! ### the noise -/

open Classical in
/-- The loop of `_data_noise.py` lines 70-76. -/
noncomputable def redraw (vmin vmax std old : ℝ) : M ℝ := M.until do
  let d ← M.normalvariate 0 std
  return if old + d < vmin ∨ old + d > vmax then none else some (old + d)

/-- `_perturb_target`, `_data_noise.py` lines 58-78.  `None + random_deviate` is a `TypeError`. -/
noncomputable def Target.perturbNoise (t : Target) (d : Noise) : M Noise := do
  let std ← redraw t.stdMin t.stdMax t.stdPerturb d.std
  if t.correlated then
    match d.corr with
    | none => M.throw .typeError
    | some r => do
      let c ← redraw t.corrMin t.corrMax t.corrPerturb r
      return { std := std, corr := some c }
  else return { std := std, corr := none }

/-- The loop of `NoisePerturbation.perturb`, `_data_noise.py` lines 49-53. -/
noncomputable def perturbNoises (p : Params) : List Target → List (String × TopVal) →
    M (List (String × TopVal))
  | [], acc => pure acc
  | t :: ts, acc => do
    let d ← M.lift (getNoise p t.name)
    let d ← t.perturbNoise d
    perturbNoises p ts (dset acc t.name (.noise d))

/-- `NoisePerturbation.perturb`, `_data_noise.py` lines 49-56. -/
noncomputable def noisePerturb (ts : List Target) (s : State) : M (State × PyF) := do
  let new ← perturbNoises s.params ts []
  let c := s.copy (keepDpred := true)
  return ({ c with params := dupdate c.params new }, .fin 0)

/-- `Target.initialize`, `_target.py` lines 115-134. -/
noncomputable def Target.initialize (t : Target) (s : State) : M State :=
  if t.hierarchical then do
    let std ← M.uniform t.stdMin t.stdMax
    if t.correlated then do
      let r ← M.uniform t.corrMin t.corrMax
      return { s with params := dset s.params t.name (.noise { std := std, corr := some r }) }
    else return { s with params := dset s.params t.name (.noise { std := std, corr := none }) }
  else return s

/-! ### the perturbations offered by a parameterization -/

/-- `[p for p in params if not isinstance(p, ParameterSpace)]` -/
def ParamList.priors : ParamList → List Prior
  | .nil => []
  | .cons _ (.prior p) rest => p :: rest.priors
  | .cons _ (.space _) rest => rest.priors

/-- The functions of a space and their weights: `_parameter_space.py` lines 327-340, `_voronoi.py` lines 466-488. -/
def Space.ownFuncs (sp : Space) : List (PSFunc × ℝ) :=
  (if sp.info.transD then [(PSFunc.birth sp, (1 : ℝ)), (PSFunc.death sp, 1)] else []) ++
  (match sp.params.priors with
    | [] => []
    | ps => [(PSFunc.values sp.info.name ps, (3 : ℝ))]) ++
  (if sp.info.kind.isDisc then [(PSFunc.site sp, (1 : ℝ))] else [])

/-- The `ParamSpacePerturbation` of a space. -/
def Space.ownPert (sp : Space) : PSPert where
  name := sp.info.name
  funcs := sp.ownFuncs.map (·.1)
  weights := sp.ownFuncs.map (·.2)

mutual
/-- `_init_perturbation_funcs`, `_parameter_space.py` lines 324-352, `_voronoi.py` lines 463-493: the
perturbations of the nested spaces, then the one of the space itself, each with its weight. -/
def Space.perts : Space → List (PSPert × ℝ)
  | .mk info ps =>
    ps.perts ++ [((Space.mk info ps).ownPert, ((Space.mk info ps).ownPert).weights.sum)]
def ParamList.perts : ParamList → List (PSPert × ℝ)
  | .nil => []
  | .cons _ p rest => p.perts ++ rest.perts
def Param.perts : Param → List (PSPert × ℝ)
  | .prior _ => []
  | .space s => s.perts
end

/-! ### `Parameterization` -/

/-- `Parameterization`, `_parameterization.py` lines 19-25: the spaces by name. -/
abbrev Spaces := List (String × Space)

/-- `_init_perturbation_funcs`, `_parameterization.py` lines 40-45. -/
def Spaces.perts (ps : Spaces) : List (PSPert × ℝ) := ps.flatMap fun kv => kv.2.perts

/-- The loop of `initialize`, `_parameterization.py` lines 56-58. -/
noncomputable def Spaces.initValues : Spaces → M Params
  | [] => pure []
  | (k, sp) :: rest => do
    let s ← sp.initialize
    let vs ← Spaces.initValues rest
    return (k, .ps s) :: vs

/-- `initialize`, `_parameterization.py` lines 47-59. -/
noncomputable def Spaces.initialize (ps : Spaces) : M State := do
  let params ← ps.initValues
  return { params := params, temperature := 1, cache := [], extra := [] }

end BB
