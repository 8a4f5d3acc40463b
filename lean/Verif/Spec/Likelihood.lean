import Mathlib.LinearAlgebra.Matrix.PosDef
import Verif.Spec.Gaussian
import Verif.Model.Likelihood

/-!
# Specification: the Gaussian likelihood of a set of targets

Refers to the *types* of targets and parameters, not to the functions of the model.
-/

namespace BB.Spec

open Matrix

/-- A list of length `n` as a vector. -/
def vecOf (n : ℕ) (xs : List ℝ) : Fin n → ℝ := fun i => xs.getD i 0

/-- Rows as a matrix. -/
def matOf (n : ℕ) (m : List (List ℝ)) : Matrix (Fin n) (Fin n) ℝ :=
  Matrix.of fun i j => (m.getD i []).getD j 0

/-- The data covariance of a target, as documented: given by its inverse, or
`σ² I` / `σ² r^|i-j|` with the noise parameters of the state. -/
noncomputable def dataCov (t : Target) (noise : Noise) :
    Matrix (Fin t.dobs.length) (Fin t.dobs.length) ℝ :=
  match t.covInv with
  | some (.scalar c) => Matrix.diagonal fun _ => c⁻¹
  | some (.vec w) => Matrix.diagonal fun i => (vecOf _ w i)⁻¹
  | some (.mat m) => (matOf _ m)⁻¹
  | none =>
    match noise.corr with
    | none => Matrix.diagonal fun _ => noise.std ^ 2
    | some r => expCov noise.std r _

/-- The noise description is usable: a positive (definite) inverse covariance of the right size, or
noise parameters with `σ > 0`, `|r| < 1`; with correlated noise, at least three data
(`inverse_covariance` has undefined behaviour below that, see C28). -/
def Admissible (t : Target) (noise : Noise) : Prop :=
  match t.covInv with
  | some (.scalar c) => 0 < c
  | some (.vec w) => w.length = t.dobs.length ∧ ∀ x ∈ w, 0 < x
  | some (.mat m) => m.length = t.dobs.length ∧ (∀ row ∈ m, row.length = t.dobs.length) ∧
      (matOf t.dobs.length m).PosDef
  | none => 0 < noise.std ∧ ∀ r, noise.corr = some r → |r| < 1 ∧ 3 ≤ t.dobs.length

/-- Log density of the data of a target given the predicted data. -/
noncomputable def targetLogLik (t : Target) (noise : Noise) (dpred : List ℝ) : ℝ :=
  normalLogDensity (dataCov t noise) (vecOf _ dpred) (vecOf _ t.dobs)

/-- `noise` is the noise of target `t` in the parameters `p` (irrelevant if the noise of the target
is fixed). -/
def NoiseOf (p : Params) (t : Target) (noise : Noise) : Prop :=
  t.covInv = none → dget p t.name = some (.noise noise)

end BB.Spec

namespace BB.Spec

/-- Evaluation of misfit and log determinant when nothing is cached: every prediction is the one
that the forward function gives on the parameters `p`. -/
noncomputable def freshEval (p : Params) (tf : List (Target × Fwd)) : Except PyErr (ℝ × ℝ) :=
  tf.foldlM (fun acc x => do
    let d ← (x.2 p).elim (.error .forward) .ok
    let q ← x.1.misfit p d
    let l ← if x.1.hierarchical then x.1.logDet p else pure 0
    pure (acc.1 + q, acc.2 + l)) (0, 0)

/-- Every cached prediction of a target is the one that its forward function gives on the
parameters of the same state. -/
def Coherent (tf : List (Target × Fwd)) (s : State) : Prop :=
  ∀ x ∈ tf, ∀ v, dget s.cache (x.1.name ++ ".dpred") = some v →
    ∃ d, v = .dpred d ∧ x.2 s.params = some d

/-- The noise parameters of a target in `p`. -/
def noiseIn (p : Params) (t : Target) : Noise :=
  match dget p t.name with
  | some (.noise d) => d
  | _ => ⟨1, none⟩

/-- The prediction is available and has the size of the data, and the noise is admissible. -/
def Evaluable (p : Params) (x : Target × Fwd) : Prop :=
  (∃ d, x.2 p = some d ∧ d.length = x.1.dobs.length) ∧ x.1.dobs ≠ [] ∧
    NoiseOf p x.1 (noiseIn p x.1) ∧ Admissible x.1 (noiseIn p x.1)

/-- Gaussian log likelihood of the parameters `p`: sum over the (independent) targets. -/
noncomputable def logLik (tf : List (Target × Fwd)) (p : Params) : ℝ :=
  (tf.map fun x => targetLogLik x.1 (noiseIn p x.1) ((x.2 p).getD [])).sum

end BB.Spec
