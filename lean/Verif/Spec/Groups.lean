import Verif.Spec.Conform

/-!
# Specification: the perturbations to be offered for a parameterization
-/

namespace BB.Spec

open BB

mutual
/-- All spaces nested in a space, each before the one it is nested in, and the space itself. -/
def spacesOf : Space → List Space
  | .mk info ps => spacesOfList ps ++ [.mk info ps]
def spacesOfList : ParamList → List Space
  | .nil => []
  | .cons _ p rest => spacesOfParam p ++ spacesOfList rest
def spacesOfParam : Param → List Space
  | .prior _ => []
  | .space sp => spacesOf sp
end

/-- The parameters of the space that are not spaces. -/
def priorsOf (sp : Space) : List Prior :=
  sp.params.toList.filterMap fun kp => match kp.2 with | .prior p => some p | .space _ => none

/-- The function is offered for the space, with the given weight. -/
inductive Offered (sp : Space) : PSFunc → ℝ → Prop
  | birth : sp.info.nDim = none → Offered sp (.birth sp) 1
  | death : sp.info.nDim = none → Offered sp (.death sp) 1
  | values : priorsOf sp ≠ [] → Offered sp (.values sp.info.name (priorsOf sp)) 3
  | site : sp.info.kind ≠ .plain → Offered sp (.site sp) 1

/-- There is something to perturb. -/
def Perturbable (sp : Space) : Prop := sp.info.nDim = none ∨ priorsOf sp ≠ [] ∨ sp.info.kind ≠ .plain

/-- The group of a space with its weight: each function offered is there once, with its weight, and nothing else; the
weight of the group is the sum. -/
structure IsGroup (sp : Space) (g : PSPert) (w : ℝ) : Prop where
  name : g.name = sp.info.name
  lengths : g.funcs.length = g.weights.length
  nodup : g.funcs.Nodup
  members : ∀ f x, (f, x) ∈ g.funcs.zip g.weights ↔ Offered sp f x
  weight : w = g.weights.sum

end BB.Spec
