import Mathlib.Data.List.Sort
import Mathlib.Analysis.SpecialFunctions.Pow.Real
import Verif.Model.Prior

/-!
# Model of parameter spaces and discretizations

`/repo/src/bayesbay/parameterization/_parameter_space.py`,
`/repo/src/bayesbay/discretization/_discretization.py` and the classes `Voronoi`, `Voronoi1D`, `Voronoi2D`
of `/repo/src/bayesbay/discretization/_voronoi.py`.

States are values here; which arrays are shared and modified in place is the subject of
`Verif/Model/Heap.lean`.  Numbers of dimensions are natural numbers.  Not modelled: user-defined subclasses; `vmin`,
`vmax`, `perturb_std` given as arrays for a `Voronoi1D`.
-/

namespace BB

/-! ### spaces -/

/-- NumPy's `argsort`: some permutation that sorts.  The default algorithm is not stable, so nothing is
said about the order of equal elements. -/
structure ArgSort where
  f : List ℝ → List ℕ
  perm : ∀ xs, (f xs).Perm (List.range xs.length)
  sorted : ∀ xs, ((f xs).map fun i => xs.getD i 0).Pairwise (· ≤ ·)

/-- What a `Voronoi1D` is given (`_voronoi.py` lines 578-603). -/
structure Vor1 where
  vmin : ℝ
  vmax : ℝ
  std : ℝ
  argsort : ArgSort

/-- What a `Voronoi2D` is given (`_voronoi.py` lines 1325-1362); scalar bounds and standard deviations
are broadcast to both coordinates.  A polygon is represented by Shapely's `contains`; its `bounds`
are the `vmin`, `vmax` (lines 1345-1348). -/
structure Vor2 where
  vmin : ℝ × ℝ
  vmax : ℝ × ℝ
  std : ℝ × ℝ
  polygon : Option (ℝ × ℝ → Prop)
  bounds : ∀ inside, polygon = some inside → ∀ p, inside p →
    (vmin.1 ≤ p.1 ∧ p.1 ≤ vmax.1) ∧ (vmin.2 ≤ p.2 ∧ p.2 ≤ vmax.2)
  kdtree : Bool

/-- The class of a parameter space. -/
inductive Kind where
  | plain
  | vor1 (v : Vor1)
  | vor2 (v : Vor2)

/-- `isinstance(param, Discretization)` -/
def Kind.isDisc : Kind → Bool
  | .plain => false
  | _ => true

/-- The attributes of a parameter space apart from its parameters
(`_parameter_space.py` lines 44-58, `_discretization.py` lines 53-84).  `fromPrior` is
`birth_from == "prior"`. -/
structure Info where
  name : String
  nDim : Option ℕ := none
  nMin : ℕ := 1
  nMax : ℕ := 10
  initRange : ℝ := 0.3
  kind : Kind
  fromPrior : Bool := false

/-- `trans_d`, `_parameter_space.py` line 54. -/
def Info.transD (i : Info) : Bool := i.nDim.isNone

/-- `_n_dimensions_min`, line 56. -/
def Info.lo (i : Info) : ℕ := i.nDim.getD i.nMin

/-- `_n_dimensions_max`, line 57. -/
def Info.hi (i : Info) : ℕ := i.nDim.getD i.nMax

mutual
/-- A parameter: a prior or a nested parameter space. -/
inductive Param where
  | prior (p : Prior)
  | space (s : Space)
/-- A parameter space (or discretization). -/
inductive Space where
  | mk (info : Info) (params : ParamList)
/-- The dictionary `_parameters`, lines 59-62, in the order of insertion. -/
inductive ParamList where
  | nil
  | cons (name : String) (p : Param) (rest : ParamList)
end

def Space.info : Space → Info
  | .mk i _ => i

def Space.params : Space → ParamList
  | .mk _ ps => ps

/-- `self.parameters.items()` -/
def ParamList.toList : ParamList → List (String × Param)
  | .nil => []
  | .cons n p rest => (n, p) :: rest.toList

/-- `param.name` -/
def Param.name : Param → String
  | .prior p => p.name
  | .space s => s.info.name

/-- `self.parameters[name]` -/
def ParamList.get? : ParamList → String → Option Param
  | .nil, _ => none
  | .cons n p rest, k => if n = k then some p else rest.get? k

/-! ### `ParameterSpaceState` -/

/-- The checks that `set_param_values` (`_state.py` lines 116-125) makes on the values that occur here: `values[0]` raises
`IndexError` for an empty list. -/
def checkVal : PVal → Except PyErr Unit
  | .states [] => .error .indexError
  | _ => .ok ()

/-- The loop of `__post_init__`, `_state.py` lines 80-86. -/
def checkVals (n : ℕ) : List (String × PVal) → Except PyErr Unit
  | [] => .ok ()
  | (_, v) :: rest =>
    if v.len ≠ n then .error .valueError
    else do
      checkVal v
      checkVals n rest

/-- `ParameterSpaceState(n, vals)`, `_state.py` lines 75-86. -/
def mkPS (n : ℕ) (vals : List (String × PVal)) : Except PyErr PSState := do
  checkVals n vals
  return .mk n vals none

/-- `ps_state.set_param_values(name, values)`, `_state.py` lines 104-127. -/
def PSState.setVal (s : PSState) (k : String) (v : PVal) : Except PyErr PSState := do
  checkVal v
  return .mk s.n (dset s.vals k v) s.kd

/-- `ps_state[k]`, `_state.py` lines 88-92, 129-147 (`None` if missing). -/
def PSState.get (s : PSState) (k : String) : Option PVal := dget s.vals k

/-- `values[i]` where a number is needed.  `None[i]` is a `TypeError`; so is (later) the use of a state as
a number.  For an array with two columns it would be an array; not modelled further. -/
def numAt (v : Option PVal) (i : ℕ) : Except PyErr ℝ :=
  match v with
  | some (.arr (.vec xs)) =>
    match xs[i]? with
    | some x => .ok x
    | none => .error .indexError
  | _ => .error .typeError

/-- `values[i]` where a nested state is needed. -/
def stateAt (v : Option PVal) (i : ℕ) : Except PyErr PSState :=
  match v with
  | some (.states l) | some (.objs l) =>
    match l[i]? with
    | some x => .ok x
    | none => .error .indexError
  | _ => .error .typeError

/-- The positions of the sites, in order (`for p in ps_state["discretization"]`). -/
def Arr.positions : Arr → List Pos
  | .vec xs => xs.map .one
  | .pts ps => ps.map .two

/-- `ps_state["discretization"]` as positions; iterating over `None` is a `TypeError`. -/
def PSState.sites (s : PSState) : Except PyErr (List Pos) :=
  match s.get "discretization" with
  | some (.arr a) => .ok a.positions
  | _ => .error .typeError

/-! ### random loops -/

/-- `while True: x = m(); if ok: return x`, with at most `fuel` passes. -/
def M.untilFuel {α : Type} (m : M (Option α)) : ℕ → M α
  | 0 => M.throw .tapeExhausted
  | fuel + 1 => do
    match ← m with
    | some x => return x
    | none => M.untilFuel m fuel

/-- The unbounded loop: every pass draws at least one number, so that the length of the tape bounds the
number of passes. -/
def M.until {α : Type} (m : M (Option α)) : M α := fun t => M.untilFuel m (t.length + 1) t

/-- `[f() for _ in range(n)]` -/
def M.times {α : Type} (n : ℕ) (f : M α) : M (List α) := M.forEach (fun _ => f) (List.range n)

/-! ### numbers of dimensions -/

open Classical in
/-- `int(x)`: towards zero. -/
noncomputable def pyInt (x : ℝ) : ℤ := if 0 ≤ x then ⌊x⌋ else ⌈x⌉

/-- `init_max`, `_parameter_space.py` line 154, `_voronoi.py` line 166. -/
noncomputable def Info.initMax (i : Info) : ℤ :=
  pyInt (((i.nMax : ℝ) - i.nMin) * i.initRange + i.nMin)

/-- The number of dimensions at initialization, `_parameter_space.py` lines 148-155, `_voronoi.py`
lines 160-167. -/
noncomputable def Info.initDim (i : Info) : M ℕ :=
  match i.nDim with
  | some n => pure n
  | none => if i.initMax < i.nMin then M.throw .valueError else M.randint i.nMin i.initMax.toNat

/-- The number of dimensions of a sample, `_parameter_space.py` lines 175-180, `_voronoi.py` lines
127-132. -/
def Info.sampleDim (i : Info) : M ℕ :=
  match i.nDim with
  | some n => pure n
  | none => M.randint i.nMin i.nMax

/-! ### sites -/

/-- `sample_site`, `_voronoi.py` lines 121-123, for two dimensions. -/
noncomputable def Vor2.sampleBox (v : Vor2) : M (ℝ × ℝ) := do
  let x ← M.uniform v.vmin.1 v.vmax.1
  let y ← M.uniform v.vmin.2 v.vmax.2
  return (x, y)

open Classical in
/-- `Voronoi2D.sample_site`, `_voronoi.py` lines 1364-1371. -/
noncomputable def Vor2.sampleSite (v : Vor2) : M (ℝ × ℝ) :=
  match v.polygon with
  | none => v.sampleBox
  | some inside => M.until do
    let p ← v.sampleBox
    return if inside p then some p else none

/-- `sample_site`, `_voronoi.py` lines 121-123, for one dimension. -/
noncomputable def Vor1.sampleSite (v : Vor1) : M ℝ := M.uniform v.vmin v.vmax

open Classical in
/-- `np.sort` -/
noncomputable def npSort (xs : List ℝ) : List ℝ := xs.insertionSort (· ≤ ·)

/-- The sites of a new state, `_voronoi.py` lines 133-138 and 168-172; `none` for a parameter space that
is not a discretization.  `np.array([])` is one-dimensional. -/
noncomputable def Kind.sampleSites (k : Kind) (n : ℕ) : M (Option Arr) :=
  match k with
  | .plain => pure none
  | .vor1 v => do
    let xs ← M.times n v.sampleSite
    return some (.vec (npSort xs))
  | .vor2 v => do
    let ps ← M.times n v.sampleSite
    return some (if n = 0 then .vec [] else .pts ps)

/-- `_add_kdtree_to_ps_state`, `_voronoi.py` lines 1379-1383.  `scipy.spatial.KDTree` needs an array of two
dimensions. -/
def addKd (s : PSState) : Except PyErr PSState :=
  match s.get "discretization" with
  | some (.arr (.pts ps)) => .ok (.mk s.n s.vals (some ps))
  | _ => .error .valueError

/-- `if self.compute_kdtree: …`, `_voronoi.py` lines 1375-1377, 1413-1415, 1421-1423, 1427-1429. -/
def Kind.withKd (k : Kind) (s : PSState) : Except PyErr PSState :=
  match k with
  | .vor2 v => if v.kdtree then addKd s else .ok s
  | _ => .ok s

/-! ### initialization and sampling -/

/-- The values `[x for …]` of a nested parameter: a list, or an array of objects. -/
def nestedVal (asArray : Bool) (l : List PSState) : PVal := if asArray then .objs l else .states l

/-- `np.empty(n)`: arbitrary numbers, supplied by the tape. -/
def garbage (n : ℕ) : M (List Pos) := M.times n do return .one (← M.draw).z

mutual
/-- `ParameterSpace.sample`, `_parameter_space.py` lines 162-187, and `Discretization.sample`,
`_discretization.py` lines 86-98, with `Voronoi.sample_discretization`, `_voronoi.py` lines 125-141. -/
noncomputable def Space.sample : Space → M PSState
  | .mk info ps => do
    let n ← info.sampleDim
    match ← info.kind.sampleSites n with
    | none => do
      let vals ← ps.samplePlain n
      M.lift (mkPS n vals)
    | some sites => do
      let s ← M.lift (mkPS n [("discretization", .arr sites)])
      ps.sampleAt sites.positions s
/-- The loop of `_parameter_space.py` lines 182-186. A discretization is a `Prior`, too. -/
noncomputable def ParamList.samplePlain : ParamList → ℕ → M (List (String × PVal))
  | .nil, _ => pure []
  | .cons name p rest, n => do
    let v ← p.sampleMany true (List.replicate n .none)
    let vs ← rest.samplePlain n
    return (name, v) :: vs
/-- The loop of `_discretization.py` lines 92-96. -/
noncomputable def ParamList.sampleAt : ParamList → List Pos → PSState → M PSState
  | .nil, _, s => pure s
  | .cons name p rest, sites, s => do
    let v ← p.sampleMany false sites
    let s ← M.lift (s.setVal name v)
    rest.sampleAt sites s
/-- `[param.sample(p) for p in positions]`, converted to an array for priors. -/
noncomputable def Param.sampleMany : Param → Bool → List Pos → M PVal
  | .prior p, _, sites => do
    let xs ← M.forEach p.sample sites
    return .arr (.vec xs)
  | .space s, plain, sites => do
    let l ← M.forEach (fun _ => s.sample) sites
    return nestedVal (plain && s.info.kind.isDisc) l
end

mutual
/-- `ParameterSpace._initialize`, `_parameter_space.py` lines 146-160; `Voronoi._initialize`, `_voronoi.py`
lines 158-178; `Voronoi2D._initialize`, lines 1373-1377. -/
noncomputable def Space.initialize : Space → M PSState
  | .mk info ps => do
    let n ← info.initDim
    match ← info.kind.sampleSites n with
    | none => do
      let vals ← ps.initPlain n
      M.lift (mkPS n vals)
    | some sites => do
      let vals ← ps.initAt sites.positions [("discretization", .arr sites)]
      let s ← M.lift (mkPS n vals)
      M.lift (info.kind.withKd s)
/-- The loop of `_parameter_space.py` lines 157-159. -/
noncomputable def ParamList.initPlain : ParamList → ℕ → M (List (String × PVal))
  | .nil, _ => pure []
  | .cons name p rest, n => do
    let g ← garbage n
    let v ← p.initialize g
    let vs ← rest.initPlain n
    return (name, v) :: vs
/-- The loop of `_voronoi.py` lines 174-177. -/
noncomputable def ParamList.initAt :
    ParamList → List Pos → List (String × PVal) → M (List (String × PVal))
  | .nil, _, vals => pure vals
  | .cons name p rest, sites, vals => do
    let v ← p.initialize sites
    rest.initAt sites (dset vals name v)
/-- `param.initialize(positions)`; for parameter spaces `_parameter_space.py` lines 141-144, `_voronoi.py`
lines 153-156. -/
noncomputable def Param.initialize : Param → List Pos → M PVal
  | .prior p, sites => do
    let a ← p.initialize sites
    return .arr a
  | .space s, sites => do
    let l ← M.forEach (fun _ => s.initialize) sites
    return .states l
end

/-! ### nearest neighbours -/

/-- The Euclidean distance, `np.linalg.norm` of `_voronoi.py` line 532. -/
noncomputable def dist2 (p q : ℝ × ℝ) : ℝ := Real.sqrt ((p.1 - q.1) ^ 2 + (p.2 - q.2) ^ 2)

open Classical in
/-- `np.argmin`: the first position of the smallest element. -/
noncomputable def argmin : List ℝ → Option ℕ
  | [] => none
  | x :: xs =>
    match argmin xs with
    | none => some 0
    | some j => if x ≤ xs.getD j 0 then some 0 else some (j + 1)

/-- `nearest_neighbour`, `_voronoi.py` lines 525-532. -/
noncomputable def nearest (k : Kind) (sites : Option PVal) (q : Pos) : Except PyErr ℕ :=
  match k, sites, q with
  | .vor1 _, some (.arr (.vec xs)), .one x => Utils1d.nearestNeighbour x xs xs.length
  | .vor2 _, some (.arr (.pts ps)), .two p =>
    match argmin (ps.map fun s => dist2 s p) with
    | some i => .ok i
    | none => .error .valueError
  | .vor2 _, some (.arr (.vec [])), .two _ => .error .valueError
  | _, _, _ => .error .typeError

/-! ### births from the nearest neighbour -/

/-- A value of the newborn dimension. -/
inductive NVal where
  | num (x : ℝ)
  | ps (s : PSState)

open Classical in
/-- `math.log(std * SQRT_TWO_PI) + (x - y)**2 / (2 * std**2)`, minus the log of the density of a Gaussian:
`_discretization.py` lines 362-364, 428-430, 460-462, 488-490. -/
noncomputable def negLogGauss (std x y : ℝ) : Except PyErr ℝ := do
  let l ← pyLog (std * Real.sqrt (2 * Real.pi))
  return l + (x - y) ^ 2 / (2 * std ^ 2)

/-- Lines 355-365 and 421-431 of `_discretization.py`: a new value drawn near the value `old` of the
neighbour, with its contribution to the log ratio. -/
noncomputable def Prior.fromNeighbour (p : Prior) (old : ℝ) (pos : Pos) : M (ℝ × PyF) := do
  let (new, _) ← p.perturbValue old pos true
  let std ← M.lift (p.getStd true pos)
  let lp ← M.lift (p.logPrior new pos)
  let g ← M.lift (negLogGauss std new old)
  return (new, lp.add (.fin g))

/-- Minus that contribution, for the death of the value: lines 457-462 and 485-490 (the two subtractions
in turn from `acc`). -/
noncomputable def Prior.toNeighbour (p : Prior) (value near : ℝ) (pos : Pos) (acc : PyF) :
    Except PyErr PyF := do
  let std ← p.getStd true pos
  let lp ← p.logPrior value pos
  let g ← negLogGauss std value near
  return (acc.sub lp).sub (.fin g)

/-- `sample_discretization`, `_voronoi.py` lines 125-141; only discretizations have it. -/
noncomputable def Space.sampleDisc (s : Space) : M PSState := do
  let n ← s.info.sampleDim
  match ← s.info.kind.sampleSites n with
  | none => M.throw .attributeError
  | some sites => M.lift (mkPS n [("discretization", .arr sites)])

/-- `new_ps_state[name][i] = value` on an array. -/
def PSState.setNumAt (s : PSState) (k : String) (i : ℕ) (x : ℝ) : Except PyErr PSState :=
  match s.get k with
  | some (.arr (.vec xs)) =>
    if i < xs.length then .ok (.mk s.n (dset s.vals k (.arr (.vec (xs.set i x)))) s.kd)
    else .error .indexError
  | _ => .error .typeError

/-- In-place modification of the nested state `new_ps_state[name][i]`. -/
def PSState.setStateAt (s : PSState) (k : String) (i : ℕ) (x : PSState) : PSState :=
  match s.get k with
  | some (.states l) => .mk s.n (dset s.vals k (.states (l.set i x))) s.kd
  | some (.objs l) => .mk s.n (dset s.vals k (.objs (l.set i x))) s.kd
  | _ => s

/-- The loop of `_discretization.py` lines 394-412: the parameters of the new state are filled with
initial values.  (`log_prob_initialize_discretization` is 0 for Voronoi tessellations, `_voronoi.py` lines
534-537; the content of `np.empty` is overwritten in the second loop.) -/
noncomputable def fillInitial : List (String × Param) → PSState → M PSState
  | [], s => pure s
  | (name, p) :: rest, s => do
    let v ← (match p with
      | .prior _ => pure (.arr (.vec (List.replicate s.n 0)))
      | .space sp =>
        if sp.info.kind.isDisc then do return .states (← M.times s.n sp.sampleDisc)
        else do return .states (← M.times s.n sp.sample) : M PVal)
    let s ← M.lift (s.setVal name v)
    fillInitial rest s

/-- `for i, position in enumerate(positions): state = body(i, position, state)` -/
def forSites {σ : Type} (body : ℕ → Pos → σ → M σ) : ℕ → List Pos → σ → M σ
  | _, [], s => pure s
  | i, p :: ps, s => do
    let s ← body i p s
    forSites body (i + 1) ps s

mutual
/-- `_sample_from_neighbour`, `_discretization.py` lines 377-433: the new state (which the code modifies in
place) and the log ratio. -/
noncomputable def Space.sampleFromNeighbour : Space → PSState → PSState → M (PSState × PyF)
  | .mk info ps, old, new => do
    let new ← fillInitial ps.toList new
    let sites ← M.lift new.sites
    forSites (fun i pos (acc : PSState × PyF) => do
      let inb ← M.lift (nearest info.kind (old.get "discretization") pos)
      ps.fillPoint old i inb pos acc) 0 sites (new, .fin 0)
/-- The loop of lines 417-432. -/
noncomputable def ParamList.fillPoint :
    ParamList → PSState → ℕ → ℕ → Pos → PSState × PyF → M (PSState × PyF)
  | .nil, _, _, _, _, acc => pure acc
  | .cons name p rest, old, i, inb, pos, acc => do
    let acc ← p.fillPoint name old i inb pos acc
    rest.fillPoint old i inb pos acc
/-- One pass of the loop of lines 417-432. -/
noncomputable def Param.fillPoint :
    Param → String → PSState → ℕ → ℕ → Pos → PSState × PyF → M (PSState × PyF)
  | .prior p, name, old, i, inb, pos, (new, lpr) => do
    let nb ← M.lift (numAt (old.get name) inb)
    let (x, r) ← p.fromNeighbour nb pos
    let new ← M.lift (new.setNumAt name i x)
    return (new, lpr.add r)
  | .space s, name, old, i, inb, _, (new, lpr) =>
    if s.info.kind.isDisc then do
      let oldi ← M.lift (stateAt (old.get name) inb)
      let newi ← M.lift (stateAt (new.get name) i)
      let (newi, r) ← s.sampleFromNeighbour oldi newi
      return (new.setStateAt name i newi, lpr.add r)
    else pure (new, lpr)
end

/-- `_initialize_params_from_prior`, `_discretization.py` lines 299-321. -/
noncomputable def newbornFromPrior : List (String × Param) → Pos → M (List (String × NVal))
  | [], _ => pure []
  | (name, p) :: rest, pos => do
    let v ← (match p with
      | .prior p => do return .num (← p.sample pos)
      | .space s => do return .ps (← s.sample) : M NVal)
    let vs ← newbornFromPrior rest pos
    return (name, v) :: vs

/-- The loop of `_initialize_params_from_neighbour`, `_discretization.py` lines 343-374.  In line 370
`new_value, _ = param.sample()` unpacks a `ParameterSpaceState`, which is not iterable by integers
(`__getitem__` raises `TypeError`). -/
noncomputable def newbornFromNeighbour (old : PSState) (inear : ℕ) (pos : Pos) :
    List (String × Param) → PyF → M (List (String × NVal) × PyF)
  | [], lpr => pure ([], lpr)
  | (name, p) :: rest, lpr => do
    let (v, lpr) ← (match p with
      | .prior p => do
        let nb ← M.lift (numAt (old.get name) inear)
        let (x, r) ← p.fromNeighbour nb pos
        return (.num x, lpr.add r)
      | .space s =>
        if s.info.kind.isDisc then do
          let oldi ← M.lift (stateAt (old.get s.info.name) inear)
          let newi ← s.sampleDisc
          let (newi, r) ← s.sampleFromNeighbour oldi newi
          return (.ps newi, lpr.add r)
        else do
          let _ ← s.sample
          M.throw .typeError : M (NVal × PyF))
    let (vs, lpr) ← newbornFromNeighbour old inear pos rest lpr
    return ((name, v) :: vs, lpr)

/-- `_initialize_newborn_params`, `_discretization.py` lines 268-297. -/
noncomputable def Space.newborn (s : Space) (pos : Pos) (old : PSState) :
    M (List (String × NVal) × PyF) :=
  if s.info.fromPrior then do
    let vs ← newbornFromPrior s.params.toList pos
    return (vs, .fin 0)
  else do
    let inear ← M.lift (nearest s.info.kind (old.get "discretization") pos)
    newbornFromNeighbour old inear pos s.params.toList (.fin 0)

/-! ### deaths towards the nearest neighbour -/

/-- `forSites` without random draws. -/
def forSitesE {σ : Type} (body : ℕ → Pos → σ → Except PyErr σ) : ℕ → List Pos → σ → Except PyErr σ
  | _, [], s => .ok s
  | i, p :: ps, s => do
    let s ← body i p s
    forSitesE body (i + 1) ps s

mutual
/-- `_log_prob_death_ps_state`, `_discretization.py` lines 467-494. -/
noncomputable def Space.deathPS : Space → PSState → PSState → Except PyErr PyF
  | .mk info ps, old, new => do
    let sites ← old.sites
    forSitesE (fun i pos acc => do
      let inear ← nearest info.kind (new.get "discretization") pos
      ps.deathPoint old new i inear pos acc) 0 sites (.fin 0)
/-- The loop of lines 476-493, and of lines 450-464 (there the values of a nested space that is not a
discretization are looked up, too, without being used). -/
noncomputable def ParamList.deathPoint :
    ParamList → PSState → PSState → ℕ → ℕ → Pos → PyF → Except PyErr PyF
  | .nil, _, _, _, _, _, acc => .ok acc
  | .cons name p rest, old, new, i, inear, pos, acc => do
    let acc ← p.deathPoint name old new i inear pos acc
    rest.deathPoint old new i inear pos acc
/-- One pass of the loop. -/
noncomputable def Param.deathPoint :
    Param → String → PSState → PSState → ℕ → ℕ → Pos → PyF → Except PyErr PyF
  | .prior p, name, old, new, i, inear, pos, acc => do
    let v ← numAt (old.get name) i
    let w ← numAt (new.get name) inear
    p.toNeighbour v w pos acc
  | .space s, name, old, new, i, inear, _, acc =>
    if s.info.kind.isDisc then do
      let v ← stateAt (old.get name) i
      let w ← stateAt (new.get name) inear
      let r ← s.deathPS v w
      return (acc.sub (.fin 0)).add r
    else .ok acc
end

end BB
