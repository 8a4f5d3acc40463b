import Verif.Spec.Densities
import Verif.Spec.Tessellation
import Verif.Model.Moves

/-!
# Specification: prior over proposal density for values drawn near those of the nearest neighbours

The state `new` of a space has been made from the state `old`: the value of every parameter at every site has been
drawn from a normal distribution centred at the value of `old` in the cell nearest to the site.  The ratio is the sum of the
logarithms of prior density over proposal density.
-/

namespace BB.Spec

open BB

/-- `j` is the index of a site that is nearest to the position. -/
def Nearest (sites : Option PVal) (pos : Pos) (j : ℕ) : Prop :=
  (∃ xs x p, sites = some (.arr (.vec xs)) ∧ pos = .one p ∧ xs[j]? = some x ∧ ∀ y ∈ xs, |x - p| ≤ |y - p|) ∨
  (∃ ps q p, sites = some (.arr (.pts ps)) ∧ pos = .two p ∧ ps[j]? = some q ∧
    ∀ y ∈ ps, Real.sqrt ((q.1 - p.1) ^ 2 + (q.2 - p.2) ^ 2) ≤ Real.sqrt ((y.1 - p.1) ^ 2 + (y.2 - p.2) ^ 2))

/-- The draw of a site in the domain. -/
noncomputable def drawSite (k : Kind) : M Pos :=
  match k with
  | .plain => M.throw .attributeError
  | .vor1 v => do return .one (← v.sampleSite)
  | .vor2 v => do return .two (← v.sampleSite)

/-- The `i`-th number in the array. -/
def Num (v : Option PVal) (i : ℕ) (x : ℝ) : Prop := ∃ xs, v = some (.arr (.vec xs)) ∧ xs[i]? = some x

/-- The `i`-th nested state. -/
def Nested (v : Option PVal) (i : ℕ) (s : PSState) : Prop :=
  ∃ l, (v = some (.states l) ∨ v = some (.objs l)) ∧ l[i]? = some s

/-- What says which site is the nearest one to a position: the kind of the space and the sites are given. -/
abbrev Near := Kind → Option PVal → Pos → ℕ → Prop

/-- The nearest site by distance. -/
def byDistance : Near := fun _ sites pos j => Nearest sites pos j

/-- The sum of a list. -/
noncomputable def sumF : List PyF → PyF
  | [] => .fin 0
  | x :: l => x.add (sumF l)

mutual
/-- `r` is the log ratio of prior and proposal density for the whole state. -/
def SpaceRatio (near : Near) : Space → PSState → PSState → PyF → Prop
  | .mk info ps, old, new, r => ∃ a rs, new.get "discretization" = some (.arr a) ∧ rs.length = a.positions.length ∧
      (∀ (i : ℕ) pos ri, a.positions[i]? = some pos → rs[i]? = some ri →
        ∃ j, near info.kind (old.get "discretization") pos j ∧ PointRatio near ps old new i j pos ri) ∧
      r = sumF rs
/-- The same for the parameters at site `i` of the new state, which is at `pos` and nearest to site `j` of the
old state. -/
def PointRatio (near : Near) : ParamList → PSState → PSState → ℕ → ℕ → Pos → PyF → Prop
  | .nil, _, _, _, _, _, r => r = .fin 0
  | .cons name p rest, old, new, i, j, pos, r =>
    ∃ a b, ParamRatio near p name old new i j pos a ∧ PointRatio near rest old new i j pos b ∧ r = a.add b
/-- The same for one parameter: for a prior the log prior of the new value minus the logarithm of the density of the
normal distribution centred at the old one; states of a space that is not a discretization are drawn from the
prior. -/
def ParamRatio (near : Near) : Param → String → PSState → PSState → ℕ → ℕ → Pos → PyF → Prop
  | .prior p, name, old, new, i, j, pos, r => ∃ x nb std lp, Num (new.get name) i x ∧ Num (old.get name) j nb ∧
      p.stdBirth.get pos = .ok std ∧ 0 < std ∧ p.logPrior x pos = .ok lp ∧
      r = lp.sub (.fin (Real.log (normalPDF nb std x)))
  | .space sp, name, old, new, i, j, _, r =>
    (sp.info.kind.isDisc = false ∧ r = .fin 0) ∨
    (sp.info.kind.isDisc = true ∧ ∃ o n, Nested (old.get name) j o ∧ Nested (new.get name) i n ∧
      SpaceRatio near sp o n r)
end

end BB.Spec
