import Verif.Model.SetPerturbations

/-!
# Specification: what `set_perturbation_funcs` accepts
-/

namespace BB.Spec

open BB

/-- A description of a function that can be interpreted: a tuple or list is not empty, and its second
element, if there is one, is a sequence of arguments or a dictionary. -/
def Describes {F V : Type} : UF F V → Prop
  | .seq [] => False
  | .seq (_ :: .callable _ :: _) => False
  | .seq (_ :: .other :: _) => False
  | _ => True

/-- Whether an object given as a function is a birth or a death. -/
def classOf {F V : Type} (cls : ℕ → PClass) : UF F V → PClass
  | .instance_ l => cls l
  | _ => .other

/-- Each space with a birth or a death has exactly one of each. -/
def Paired (cs : List PClass) : Prop :=
  ∀ n, PClass.birth n ∈ cs ∨ PClass.death n ∈ cs → cs.count (.birth n) = 1 ∧ cs.count (.death n) = 1

/-- The weights that are given with the functions: ones if there are none. -/
def givenWeights {F V : Type} (m : Mem) (fs : List (UF F V)) : Option ℕ → List ℝ
  | none => List.replicate fs.length 1
  | some a => m a

end BB.Spec
