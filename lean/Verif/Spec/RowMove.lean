import Verif.Spec.TransD

/-!
# Specification: moves of a single row
-/

namespace BB.Spec

open MeasureTheory

/-- The row at the index `k` (modulo the number of rows) is moved by `m`; nothing happens if there are more than `hi` rows
(which does not occur). -/
def moveRow {R Θ : Type} (m : R → Θ → R) (hi : ℕ) (x : Tuple R) (k : ℕ) (θ : Θ) : Tuple R :=
  if hi < x.1 then x else ⟨x.1, fun i => if i.val = k % x.1 then m (x.2 i) θ else x.2 i⟩

/-- A single row, chosen at random, is moved.  Rows have the density `F` with respect to `ν`; the moves of a row (with random
`θ` of the law `μ`) are in balance with `ν`, so that the density of a proposal is that of the model itself. -/
noncomputable def rowMove {R Θ : Type} [MeasurableSpace R] [MeasurableSpace Θ] (ν : Measure R) (F : R → ℝ) (μ : Measure Θ)
    (m : R → Θ → R) (lo hi : ℕ) : Scheme (Tuple R) (ℕ × Θ) 1 where
  prior := transPrior (ν.withDensity fun r => ENNReal.ofReal (F r)) lo hi
  draws := (uniformNat hi.factorial).prod μ
  move := fun _ x θ => moveRow m hi x θ.1 θ.2
  rev := id
  common := fun _ => ((transPrior ν lo hi).prod ((uniformNat hi.factorial).prod μ)).map
    fun z => (z.1, moveRow m hi z.1 z.2.1 z.2.2)
  dens := fun _ z => ∏ i, F (z.1.2 i)

end BB.Spec
