import Verif.Spec.LogProb
import Mathlib.MeasureTheory.Measure.Prod
import Mathlib.MeasureTheory.Measure.WithDensity
import Mathlib.Analysis.SpecialFunctions.Log.Basic

/-!
# Specification: detailed balance with respect to the tempered posterior
-/

namespace BB.Spec

open MeasureTheory

/-- The logarithm of a quotient of densities. -/
noncomputable def logQuotient (a b : ℝ) : LogP := if a = 0 then none else some (Real.log (a / b))

/-- A prior and `n` random proposals.  The `i`-th one leads from the model `x` to `move i x θ`, where `θ` is random
with the law `draws`; the reverse of the `i`-th proposal is the proposal `rev i`.  `dens i (x, y)` stands for the
product of the prior density of `x` and the density `q(y | x)` of the `i`-th proposal, with respect to `common i`. -/
structure Scheme (X Θ : Type) [MeasurableSpace X] [MeasurableSpace Θ] (n : ℕ) where
  prior : Measure X
  draws : Measure Θ
  move : Fin n → X → Θ → X
  rev : Fin n → Fin n
  common : Fin n → Measure (X × X)
  dens : Fin n → X × X → ℝ

/-- The densities are those of the proposals, where the measures of a proposal and of its reverse agree (up to the order of
the models), and a proposal is chosen as often as its reverse. -/
structure Scheme.Ok {X Θ : Type} [MeasurableSpace X] [MeasurableSpace Θ] {n : ℕ} (p : Scheme X Θ n) (w : Fin n → ℝ) :
    Prop where
  sfinite : SFinite p.prior
  prob : IsProbabilityMeasure p.draws
  meas : ∀ i, Measurable fun z : X × Θ => p.move i z.1 z.2
  rev_rev : ∀ i, p.rev (p.rev i) = i
  rev_weight : ∀ i, w (p.rev i) = w i
  symm : ∀ i, (p.common i).map Prod.swap = p.common (p.rev i)
  dens_meas : ∀ i, Measurable (p.dens i)
  dens_nonneg : ∀ i z, 0 ≤ p.dens i z
  joint : ∀ i, (p.prior.prod p.draws).map (fun z => (z.1, p.move i z.1 z.2)) =
    (p.common i).withDensity fun z => ENNReal.ofReal (p.dens i z)

/-- The prior times the likelihood to the power `1 / T`. -/
noncomputable def posterior {X : Type} [MeasurableSpace X] (prior : Measure X) (logLik : X → ℝ) (T : ℝ) : Measure X :=
  prior.withDensity fun x => ENNReal.ofReal (Real.exp (logLik x / T))

/-- Models are distinguished only up to the relation `r`. -/
def Invariant {X : Type} (r : X → X → Prop) (A : Set X) : Prop := ∀ x y, r x y → (x ∈ A ↔ y ∈ A)

/-- The proposals do not distinguish between models related by `r`. -/
structure Scheme.Lumps {X Θ : Type} [MeasurableSpace X] [MeasurableSpace Θ] {n : ℕ} (p : Scheme X Θ n)
    (r : X → X → Prop) : Prop where
  dens : ∀ i x x' y y', r x x' → r y y' → p.dens i (x, y) = p.dens i (x', y')
  law : ∀ i x x', r x x' → ∀ G : X → ENNReal, Measurable G → (∀ y y', r y y' → G y = G y') →
    ∫⁻ θ, G (p.move i x θ) ∂p.draws = ∫⁻ θ, G (p.move i x' θ) ∂p.draws

/-- Detailed balance: moves from `A` to `B` are as probable as moves from `B` to `A`. -/
def DetailedBalance {X : Type} [MeasurableSpace X] (π : Measure X) (P : X → Set X → ENNReal) : Prop :=
  ∀ A B, MeasurableSet A → MeasurableSet B → ∫⁻ x in A, P x B ∂π = ∫⁻ x in B, P x A ∂π

/-- Detailed balance where models are distinguished only up to `r`. -/
def DetailedBalanceUpTo {X : Type} [MeasurableSpace X] (r : X → X → Prop) (π : Measure X) (P : X → Set X → ENNReal) :
    Prop :=
  ∀ A B, MeasurableSet A → MeasurableSet B → Invariant r A → Invariant r B →
    ∫⁻ x in A, P x B ∂π = ∫⁻ x in B, P x A ∂π

/-- A random transition leaves a distribution as it is, where models are distinguished only up to `r`. -/
def PreservesUpTo {X : Type} [MeasurableSpace X] (r : X → X → Prop) (π : Measure X) (P : X → Set X → ENNReal) : Prop :=
  ∀ A, MeasurableSet A → Invariant r A → ∫⁻ x, P x A ∂π = π A

/-- A random transition leaves a distribution as it is. -/
def Preserves {X : Type} [MeasurableSpace X] (π : Measure X) (P : X → Set X → ENNReal) : Prop :=
  ∀ A, MeasurableSet A → ∫⁻ x, P x A ∂π = π A

end BB.Spec
