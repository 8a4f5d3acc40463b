import Verif.Spec.PlainInversion
import Verif.Spec.Saved
import Verif.Spec.Schedule

/-!
# Specification: the samples of an inversion for the values of plain parameter spaces
-/

namespace BB.Spec

open BB MeasureTheory

variable {m : ℕ}

/-- The key under which the values of a parameter are saved. -/
def PlainSpace.key (s : PlainSpace) (j : Fin s.size) : String := s.info.name ++ "." ++ (s.prior j).name

/-- The key under which the number of dimensions is saved. -/
def PlainSpace.dimKey (s : PlainSpace) : String := s.info.name ++ ".n_dimensions"

/-- No two values are saved under the same key, and no predicted data are saved under these keys. -/
structure OwnKeys (p : Problem) (sps : Fin m → PlainSpace) : Prop where
  distinct : (List.ofFn fun i => (sps i).dimKey :: List.ofFn (sps i).key).flatten.Nodup
  dpred : p.saveDpred = false ∨ ∀ i, substr "dpred" (sps i).dimKey = false ∧ ∀ j, substr "dpred" ((sps i).key j) = false

/-- The store `after` has, in addition to what is in `before`, the models `ys` in this order: the values of each parameter
of each model, and its numbers of dimensions where they are variable. -/
def HasModels (sps : Fin m → PlainSpace) (before after : Store) (ys : List (Values sps)) : Prop :=
  ∀ i, (∀ j, savedUnder ((sps i).key j) after =
      savedUnder ((sps i).key j) before ++ ys.map fun y => .arr (.vec (List.ofFn fun r => (y i).2 r j))) ∧
    ((sps i).info.transD = true → savedUnder (sps i).dimKey after = savedUnder (sps i).dimKey before ++ ys.map fun y => .int (y i).1)

/-- The average of a function over models. -/
noncomputable def averageOver {X : Type} (f : X → ℝ) (ys : List X) : ℝ := (ys.map f).sum / ys.length

/-- The mean of a function of the model with respect to the (tempered) posterior. -/
noncomputable def posteriorMean (sps : Fin m → PlainSpace) (logLik : Values sps → ℝ) (T : ℝ) (f : Values sps → ℝ) : ℝ :=
  (∫ x, f x ∂posteriorOf sps logLik T) / (posteriorOf sps logLik T Set.univ).toReal

end BB.Spec
