import Verif.Spec.WholeInversion

/-!
# Spaces all of which can be reached by perturbations
-/

namespace BB.Spec

open BB Props MeasureTheory

/-- The domain is covered by neighbourhoods, each of which has sites in common with the next one, such that any two sites of a
neighbourhood have possible values in common. -/
def Overlaps {P : Type} [MeasurableSpace P] {k : ℕ} (lam : Measure P) (dom : Set P) (dens : Fin k → P → ℝ → ℝ) : Prop :=
  ∃ U : ℕ → Set P, (∀ x ∈ dom, ∃ i, x ∈ U i) ∧ (∀ i, lam (dom ∩ (U i ∩ U (i + 1))) ≠ 0) ∧
    ∀ i, ∀ x ∈ U i, ∀ y ∈ U i, x ∈ dom → y ∈ dom → ∀ j, volume {v | 0 < dens j x v ∧ 0 < dens j y v} ≠ 0

/-- The spaces of C78 whose values are perturbed by a standard deviation other than zero and which, if they have sites, have values in
common at neighbouring sites. -/
inductive Roaming : Space → Block → Prop
  | plain {k : ℕ} (sp : Space) (prs : Fin k → Prior) (dens : Fin k → Unit → ℝ → ℝ) (std : Fin k → Unit → ℝ) :
      sp.info.kind = .plain → Perturbable sp prs (fun _ : Unit => .none) Set.univ dens std → sp.info.transD = true →
      sp.info.lo < sp.info.hi → (∀ j x, std j x ≠ 0) → Roaming sp (plainBlock sp prs dens)
  | fixed {k : ℕ} (sp : Space) (prs : Fin k → Prior) (dens : Fin k → Unit → ℝ → ℝ) (std : Fin k → Unit → ℝ) :
      sp.info.kind = .plain → Perturbable sp prs (fun _ : Unit => .none) Set.univ dens std → sp.info.transD = false →
      (∀ j x, std j x ≠ 0) → Roaming sp (fixedBlock sp prs dens)
  | line {k : ℕ} (sp : Space) (prs : Fin k → Prior) (v : Vor1) (dens : Fin k → ℝ → ℝ → ℝ) (std : Fin k → ℝ → ℝ) :
      OnLine sp prs v dens std → sp.info.transD = false → (∀ j, ∀ x ∈ Set.Icc v.vmin v.vmax, std j x ≠ 0) →
      Overlaps volume (Set.Icc v.vmin v.vmax) dens → Roaming sp (lineBlock sp prs v dens)
  | plane {k : ℕ} (sp : Space) (prs : Fin k → Prior) (v : Vor2) (dens : Fin k → ℝ × ℝ → ℝ → ℝ) (std : Fin k → ℝ × ℝ → ℝ) :
      OnPlane sp prs v dens std → sp.info.transD = false → (∀ j, ∀ x ∈ {q | InDomain v q}, std j x ≠ 0) →
      Overlaps volume {q | InDomain v q} dens → Roaming sp (planeBlock sp prs v dens)

/-- A number, or values given at nodes in increasing order. -/
def Ordered : Hyper → Prop
  | .const _ => True
  | .line xs ys => xs.Pairwise (· < ·) ∧ xs.length = ys.length ∧ 0 < xs.length
  | .plane _ => False

/-- The bounds of a `UniformPrior` are such. -/
def OrderedBounds (pr : Prior) : Prop :=
  match pr.dist with
  | .uniform a b => Ordered a ∧ Ordered b
  | _ => True

end BB.Spec
