import Verif.Spec.Conform
import Verif.Spec.LogProb

/-!
# Specification: the rows of a parameter-space state

A state with `n` dimensions is seen as a table of `n` rows; a row has the site and one value of each
parameter.
-/

namespace BB.Spec

open BB

/-- One value. -/
inductive Entry where
  | num (x : ℝ)
  | pt (p : ℝ × ℝ)
  | state (s : PSState)

/-- The values of an array or a list, in order. -/
def entries : PVal → List Entry
  | .arr (.vec xs) => xs.map .num
  | .arr (.pts ps) => ps.map .pt
  | .states l => l.map .state
  | .objs l => l.map .state

/-- A row: the names with the values. -/
abbrev Row := List (String × Option Entry)

/-- The `i`-th row. -/
def row (s : PSState) (i : ℕ) : Row := s.vals.map fun kv => (kv.1, (entries kv.2)[i]?)

/-- All rows. -/
def rows (s : PSState) : List Row := (List.range s.n).map (row s)

/-- The row with another site. -/
def withSite (r : Row) (e : Entry) : Row := r.map fun kv => if kv.1 = "discretization" then (kv.1, some e) else kv

/-- The site is in the domain of the space. -/
def SiteIn (k : Kind) : Entry → Prop
  | .num x => ∃ v, k = .vor1 v ∧ v.vmin ≤ x ∧ x ≤ v.vmax
  | .pt q => ∃ v, k = .vor2 v ∧ InDomain v q
  | .state _ => False

/-- The position a site stands for. -/
def Entry.pos : Entry → Pos
  | .num x => .one x
  | .pt p => .two p
  | .state _ => .none

/-- The parameter has a prior that depends on the position. -/
def positional : String × Param → Bool
  | (_, .prior p) => p.hasPosition
  | (_, .space _) => false

end BB.Spec
