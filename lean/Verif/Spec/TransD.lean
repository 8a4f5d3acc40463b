import Verif.Spec.Reversible
import Mathlib.MeasureTheory.Constructions.Pi
import Mathlib.Data.Fin.Tuple.Basic
import Mathlib.Data.Nat.Factorial.Basic

/-!
# Specification: the trans-dimensional prior, and births and deaths of rows
-/

namespace BB.Spec

open MeasureTheory

/-- A model with any number of dimensions; a row has the values of one dimension. -/
abbrev Tuple (R : Type) : Type := Σ n : ℕ, (Fin n → R)

/-- The model with these rows. -/
abbrev tup {R : Type} (n : ℕ) (v : Fin n → R) : Tuple R := ⟨n, v⟩

/-- The same rows, in another order. -/
def SameRows {R : Type} (x y : Tuple R) : Prop :=
  (List.ofFn x.2).Perm (List.ofFn y.2)

/-- The trans-dimensional prior: all numbers of dimensions between the bounds have the same mass; given the number, the
rows are independent, with the law `ρ`.  (The mass of each number is 1; normalization does not matter.) -/
noncomputable def transPrior {R : Type} [MeasurableSpace R] (ρ : Measure R) (lo hi : ℕ) : Measure (Tuple R) :=
  ∑ n ∈ Finset.Ico lo (hi + 1), (Measure.pi fun _ : Fin n => ρ).map (tup n)

/-- The uniform law of a natural number below `K`. -/
noncomputable def uniformNat (K : ℕ) : Measure ℕ := (K : ENNReal)⁻¹ • ∑ k ∈ Finset.range K, Measure.dirac k

/-- The row `y` is added, unless the number of dimensions is `hi` already. -/
def addRow {R : Type} (hi : ℕ) (x : Tuple R) (k : ℕ) (y : R) : Tuple R :=
  if x.1 = hi then x else ⟨x.1 + 1, Fin.insertNth (α := fun _ => R) (Fin.ofNat (x.1 + 1) k) y x.2⟩

/-- A row is removed, unless the number of dimensions is `lo` already (or above `hi`, which does not occur). -/
def removeRow {R : Type} (lo hi : ℕ) (x : Tuple R) (k : ℕ) : Tuple R :=
  if x.1 = lo ∨ hi < x.1 then x else
    match x with
    | ⟨0, v⟩ => ⟨0, v⟩
    | ⟨n + 1, v⟩ => ⟨n, Fin.removeNth (Fin.ofNat (n + 1) k) v⟩

open Classical in
/-- Births (the first proposal) and deaths (the second one).  The row of a birth is `new ω`, where `ω` has the law `μ`;
indices are drawn by the remainder of a number that is uniform below `hi !`, a multiple of all numbers of rows.
The density of a birth with respect to `common` is 1 for pairs of models of which the second one has one dimension more,
likewise that of a death; at the bounds nothing happens. -/
noncomputable def birthDeath {R Ω : Type} [MeasurableSpace R] [MeasurableSpace Ω] (ρ : Measure R) (μ : Measure Ω)
    (new : Ω → R) (lo hi : ℕ) (common : Measure (Tuple R × Tuple R)) : Scheme (Tuple R) (ℕ × Ω) 2 where
  prior := transPrior ρ lo hi
  draws := (uniformNat hi.factorial).prod μ
  move := fun i x θ => if i = 0 then addRow hi x θ.1 (new θ.2) else removeRow lo hi x θ.1
  rev := fun i => if i = 0 then 1 else 0
  common := fun _ => common
  dens := fun i z =>
    if i = 0 then if z.2.1 = z.1.1 + 1 ∨ (z.1.1 = hi ∧ z.2.1 = z.1.1) then 1 else 0
    else if z.1.1 = z.2.1 + 1 ∨ (z.1.1 = lo ∧ z.2.1 = z.1.1) then 1 else 0

end BB.Spec
