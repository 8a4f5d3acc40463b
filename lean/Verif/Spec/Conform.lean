import Verif.Model.Inversion

/-!
# Specification: well-formed parameterizations and the states of their (nested) spaces
-/

namespace BB.Spec

open BB

/-- The space `sp'` is `sp` or nested in it. -/
inductive SubSpace : Space → Space → Prop
  | refl {sp : Space} : SubSpace sp sp
  | step {sp sp1 sp' : Space} {k : String} :
    (k, Param.space sp1) ∈ sp.params.toList → SubSpace sp1 sp' → SubSpace sp sp'

/-- The state `s'` of the space `sp'` is the state `s` of the space `sp` or nested in it, in a list or in an array
of objects. -/
inductive SubState : Space → PSState → Space → PSState → Prop
  | refl {sp : Space} {s : PSState} : SubState sp s sp s
  | step {sp sp1 sp' : Space} {s x s' : PSState} {k : String} {l : List PSState} :
    (k, Param.space sp1) ∈ sp.params.toList →
    (s.get k = some (.states l) ∨ s.get k = some (.objs l)) → x ∈ l → SubState sp1 x sp' s' →
    SubState sp s sp' s'

/-- What is asked of each parameter space: the parameters have distinct names, other than
`"discretization"`, and are found under their names; the bounds of the number of dimensions and of the domain are in order; the
initial number of dimensions is within the bounds. -/
structure SpaceOk (sp : Space) : Prop where
  nodup : (sp.params.toList.map (·.1)).Nodup
  disc : "discretization" ∉ sp.params.toList.map (·.1)
  key : ∀ k p, (k, p) ∈ sp.params.toList → k = p.name
  dims : sp.info.nDim = none →
    sp.info.nMin ≤ sp.info.nMax ∧ 0 ≤ sp.info.initRange ∧ sp.info.initRange ≤ 1
  line : ∀ v, sp.info.kind = .vor1 v → v.vmin ≤ v.vmax
  plane : ∀ v, sp.info.kind = .vor2 v → v.vmin.1 ≤ v.vmax.1 ∧ v.vmin.2 ≤ v.vmax.2

/-- `sp` is one of the spaces of the parameterization or nested in one. -/
def Occurs (p : Problem) (sp : Space) : Prop := ∃ k top, (k, top) ∈ p.spaces ∧ SubSpace top sp

/-- What is asked of an inversion: spaces are found under their names, those with the same name are the same, and no
target is named like a space. -/
structure ProblemOk (p : Problem) : Prop where
  key : ∀ k sp, (k, sp) ∈ p.spaces → k = sp.info.name
  nodup : (p.spaces.map (·.1)).Nodup
  ok : ∀ sp, Occurs p sp → SpaceOk sp
  names : ∀ sp sp', Occurs p sp → Occurs p sp' → sp.info.name = sp'.info.name → sp = sp'
  targets : ∀ t ∈ p.targets, t.hierarchical = true → t.name ∉ p.spaces.map (·.1)

/-- `s` is the state of the (nested) space `sp` in the parameters of a state. -/
def StateOf (p : Problem) (params : Params) (sp : Space) (s : PSState) : Prop :=
  ∃ k top s0, (k, top) ∈ p.spaces ∧ dget params k = some (.ps s0) ∧ SubState top s0 sp s

/-- A point in the domain of a `Voronoi2D`: in the rectangle, and in the polygon if there is one. -/
def InDomain (v : Vor2) (q : ℝ × ℝ) : Prop :=
  ((v.vmin.1 ≤ q.1 ∧ q.1 ≤ v.vmax.1) ∧ (v.vmin.2 ≤ q.2 ∧ q.2 ≤ v.vmax.2)) ∧
    ∀ inside, v.polygon = some inside → inside q

/-- The value has exactly `n` entries. -/
def HasLen : PVal → ℕ → Prop
  | .arr (.vec xs), n => xs.length = n
  | .arr (.pts ps), n => ps.length = n
  | .states l, n => l.length = n
  | .objs l, n => l.length = n

/-- The number of dimensions is the fixed one, or within the bounds. -/
def DimsOk (i : Info) (n : ℕ) : Prop :=
  (∀ m, i.nDim = some m → n = m) ∧ (i.nDim = none → i.nMin ≤ n ∧ n ≤ i.nMax)

/-- The values of a state are those of the parameters of the space, in order, with the sites of a
discretization before them; each has as many entries as there are dimensions; those of a prior are an array, those
of a nested space are states. -/
def ArraysOk (sp : Space) (s : PSState) : Prop :=
  s.vals.map (·.1) =
    (match sp.info.kind with | .plain => [] | _ => ["discretization"]) ++ sp.params.toList.map (·.1) ∧
  (∀ k v, (k, v) ∈ s.vals → HasLen v s.n) ∧
  (∀ k q, (k, Param.prior q) ∈ sp.params.toList → ∃ a, s.get k = some (.arr a)) ∧
  (∀ k sp1, (k, Param.space sp1) ∈ sp.params.toList →
    ∃ l, s.get k = some (.states l) ∨ s.get k = some (.objs l))

/-- The sites of a `Voronoi1D` are in ascending order and in the domain. -/
def LineOk (v : Vor1) (s : PSState) : Prop :=
  ∃ xs, s.get "discretization" = some (.arr (.vec xs)) ∧ xs.length = s.n ∧ xs.Pairwise (· ≤ ·) ∧
    ∀ x ∈ xs, v.vmin ≤ x ∧ x ≤ v.vmax

/-- The sites of a `Voronoi2D` are in the domain (there may be none; NumPy's empty array has one dimension). -/
def PlaneOk (v : Vor2) (s : PSState) : Prop :=
  (s.n = 0 ∧ s.get "discretization" = some (.arr (.vec []))) ∨
  ∃ ps, s.get "discretization" = some (.arr (.pts ps)) ∧ ps.length = s.n ∧ ∀ q ∈ ps, InDomain v q

/-- The position of the `i`-th dimension. -/
def SiteAt (s : PSState) (i : ℕ) (pos : Pos) : Prop :=
  (∃ xs x, s.get "discretization" = some (.arr (.vec xs)) ∧ xs[i]? = some x ∧ pos = .one x) ∨
  (∃ ps q, s.get "discretization" = some (.arr (.pts ps)) ∧ ps[i]? = some q ∧ pos = .two q) ∨
  (s.get "discretization" = none ∧ pos = .none)

/-- What is asked of a uniform prior: the lower bound is below the upper one wherever both are defined; the
bounds depend on position only if the prior knows of positions; a user's function for the initialization
returns values within the bounds. -/
structure UniformOk (q : Prior) (vmin vmax : Hyper) : Prop where
  ordered : ∀ pos lo hi, vmin.get pos = .ok lo → vmax.get pos = .ok hi → lo ≤ hi
  const : q.hasPosition = false → ∃ a b, vmin = .const a ∧ vmax = .const b
  init : ∀ f, q.init = some f → ∀ ps t a t', f ps t = (.ok a, t') → ∃ xs, a = .vec xs ∧
    ∀ (i : ℕ) pos x, ps[i]? = some pos → xs[i]? = some x →
      ∀ lo hi, vmin.get pos = .ok lo → vmax.get pos = .ok hi → lo ≤ x ∧ x ≤ hi

/-- The values of the uniform parameter `q` are within the bounds at their positions. -/
def UniformWithin (q : Prior) (vmin vmax : Hyper) (s : PSState) : Prop :=
  ∃ xs, s.get q.name = some (.arr (.vec xs)) ∧ xs.length = s.n ∧
    ∀ (i : ℕ) x pos, xs[i]? = some x → SiteAt s i pos →
      ∀ lo hi, vmin.get pos = .ok lo → vmax.get pos = .ok hi → lo ≤ x ∧ x ≤ hi

end BB.Spec
