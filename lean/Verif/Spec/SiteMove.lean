import Verif.Spec.RowMove
import Verif.Spec.RowLaw
import Verif.Spec.Conform
import Verif.Model.Moves
import Verif.Model.Chain
import Mathlib.Probability.Distributions.Gaussian.Real

/-!
# Specification: the perturbations of one parameter space together

A chain with all perturbations that a parameter space offers, and the probability that a Gaussian step from a site stays in the
domain of a tessellation.
-/

namespace BB.Spec

open BB MeasureTheory ProbabilityTheory

/-- A chain with these perturbations of a parameter space and their weights.  States are those of the space; the log likelihood
is a function `logLik` of the model `val s`. -/
noncomputable def funcsChain {X : Type} (fs : List (PSFunc × ℝ)) (val : PSState → X) (logLik : X → ℝ) : ChainCfg PSState Unit where
  perturbs := fs.map fun f => (f.1.name, f.1.run)
  weights := fs.map (·.2)
  llr := fun s new T => (.ok (.fin ((logLik (val new) - logLik (val s)) / T)), s, new)
  stats := fun _ => .ok []
  setTemp := fun s _ => s
  save := fun _ s => (.ok (), s)

/-- The chain with all perturbations that a parameter space offers. -/
noncomputable def ownChain {X : Type} (sp : Space) (val : PSState → X) (logLik : X → ℝ) : ChainCfg PSState Unit :=
  funcsChain sp.ownFuncs val logLik

/-- The draws of perturbations, given for each function. -/
def funcDraws {X Θ : Type} (fs : List (PSFunc × ℝ)) (val : PSState → X) (logLik : X → ℝ) (enc : PSFunc → PSState → Θ → List Draw)
    (i : Fin (funcsChain fs val logLik).perturbs.length) : PSState → Θ → List Draw :=
  enc (fs[i.val]'(Nat.lt_of_lt_of_eq i.isLt (List.length_map _))).1

/-- The draws of the perturbations of a space: `births` are those of births (0) and deaths (1). -/
def ownDraws {Θb Θv Θs : Type} (births : Fin 2 → PSState → Θb → List Draw) (values : PSState → Θv → List Draw)
    (sites : PSState → Θs → List Draw) (f : PSFunc) (s : PSState) (θ : (Θb × Θv) × Θs) : List Draw :=
  match f with
  | .birth _ => births 0 s θ.1.1
  | .death _ => births 1 s θ.1.1
  | .values _ _ => values s θ.1.2
  | .site _ => sites s θ.2

/-- No draws, for perturbations that a space does not offer. -/
def noDraws {ι : Type} (_ : ι) (_ : PSState) (_ : Unit) : List Draw := []

/-- The probability that a Gaussian step from `x` is between the bounds. -/
noncomputable def lineStay (v : Vor1) (x : ℝ) : ℝ :=
  (gaussianReal x (v.std ^ 2).toNNReal).real (Set.Icc v.vmin v.vmax)

/-- The probability that a Gaussian step from `p` is in the domain. -/
noncomputable def planeStay (v : Vor2) (p : ℝ × ℝ) : ℝ :=
  ((gaussianReal p.1 (v.std.1 ^ 2).toNNReal).prod (gaussianReal p.2 (v.std.2 ^ 2).toNNReal)).real {q | InDomain v q}

/-- The product over all sites. -/
noncomputable def overSites {P V : Type} (Z : P → ℝ) (x : Tuple (P × V)) : ℝ := ∏ i, Z (x.2 i).1

/-- A prior without `position` has the same density everywhere. -/
def SameEverywhere {P : Type} (pr : Prior) (dom : Set P) (dens : P → ℝ → ℝ) : Prop :=
  pr.hasPosition = false → ∀ x ∈ dom, ∀ y ∈ dom, dens x = dens y

/-- The prior is not a `CustomPrior` (the values of which cannot be perturbed, C19). -/
def NotCustom (pr : Prior) : Prop := ∀ f g h, pr.dist ≠ .custom f g h

end BB.Spec
