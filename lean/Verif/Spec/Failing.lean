import Verif.Spec.Iterations

/-!
# Inversions whose forward functions fail on some models
-/

namespace BB.Spec

open BB Props MeasureTheory

section

variable {S σ E X Θ : Type} [MeasurableSpace X] [MeasurableSpace Θ] (cfg : ChainCfg S σ)
  (enc : Fin cfg.perturbs.length → S → Θ → List Draw) (draws : Measure Θ)

/-- The probability that an attempt of an iteration fails: that the loop is continued with another perturbation. -/
noncomputable def FailureProb (c : Chain S σ E) : ENNReal :=
  unit.prod (draws.prod unit) {ω | ∃ c' t, Chain.attempt cfg c (iterationDraws cfg enc c.cur ω) = (.ok none, c', t)}

/-- The probability that the iteration that started at `c₀` is completed without an exception and leads to a model in `A`, if it is
at `c` after attempts that failed and used the draws `t`, and at most `k` more attempts are made.  An attempt that fails leaves the
draw for the acceptance unused. -/
noncomputable def RetryLaw (val : S → X) (c₀ : Chain S σ E) (A : Set X) : ℕ → Chain S σ E → List Draw → ENNReal
  | 0, _, _ => 0
  | k + 1, c, t => ∫⁻ ω, (match Chain.attempt cfg c (iterationDraws cfg enc c.cur ω) with
    | (.ok none, c', [_]) => RetryLaw val c₀ A k c' (t ++ (iterationDraws cfg enc c.cur ω).dropLast)
    | _ => match Chain.next cfg c₀ (t ++ iterationDraws cfg enc c.cur ω) with
      | (.ok _, c', []) => A.indicator 1 (val c'.cur)
      | _ => 0) ∂unit.prod (draws.prod unit)

/-- The probability that an iteration is completed without an exception and leads to a model in `A`. -/
noncomputable def CompletedLaw (val : S → X) (c : Chain S σ E) (A : Set X) : ENNReal := RetryLaw cfg enc draws val c A 500 c []

/-- The distribution of the model after an iteration, given that it is completed without an exception. -/
noncomputable def GivenCompleted (val : S → X) (c : Chain S σ E) (A : Set X) : ENNReal :=
  CompletedLaw cfg enc draws val c A / CompletedLaw cfg enc draws val c Set.univ

end

section

variable (p : Problem) (B : ℕ → Block)

/-- The likelihood is defined for all possible models apart from those in `F`, and its logarithm is `logLik`; on the models in `F`,
a forward function or the function of the user raises an exception. -/
def FailsExactlyOn (F : Set (Whole p B)) (logLik : Whole p B → ℝ) : Prop :=
  match p.kind with
  | .targets => ∀ q, HoldsAll p B q → PossibleWhole (wholeOf p B q) →
      (wholeOf p B q ∉ F → (∀ y ∈ p.tf, Evaluable q y) ∧ logLik (wholeOf p B q) = Spec.logLik p.tf q) ∧
      (wholeOf p B q ∈ F → ∃ before y after, p.tf = before ++ y :: after ∧ (∀ z ∈ before, Evaluable q z) ∧ y.2 q = none)
  | .loglike f => ∀ s : State, HoldsAll p B s.params → PossibleWhole (wholeOf p B s.params) →
      (wholeOf p B s.params ∉ F → f s = .ok (.fin (logLik (wholeOf p B s.params)))) ∧
      (wholeOf p B s.params ∈ F → f s = .error .userFunction)
  | .ratio f => ∀ s t : State, HoldsAll p B s.params → PossibleWhole (wholeOf p B s.params) → wholeOf p B s.params ∉ F →
      HoldsAll p B t.params → PossibleWhole (wholeOf p B t.params) →
      (wholeOf p B t.params ∉ F → f s t = .ok (.fin (logLik (wholeOf p B t.params) - logLik (wholeOf p B s.params)))) ∧
      (wholeOf p B t.params ∈ F → f s t = .error .userFunction)

/-- An inversion of spaces with blocks such that `Known`, with or without unknown noise, the likelihood of which fails on the models
in `F`. -/
structure FailingInversion (Known : Space → Block → Prop) (F : Set (Whole p B)) (logLik : Whole p B → ℝ) : Prop where
  exist : p.spaces ≠ [] ∨ p.hier ≠ []
  spaces : ∀ i nm sp, p.spaces[i]? = some (nm, sp) → nm = sp.info.name ∧ Known sp (B i)
  noise : p.hier ≠ [] → B p.spaces.length = noiseBlock p.hier
  distinct : (p.spaces.map (·.1) ++ p.hier.map (·.name)).Nodup
  targets : (p.targets.map (·.name)).Nodup
  bounds : ProperAll p.hier
  likelihood : FailsExactlyOn p B F logLik
  meas : Measurable logLik
  lumps : ∀ x y, SameWhole x y → logLik x = logLik y
  fails_meas : MeasurableSet F
  fails_lumps : Invariant SameWhole F

end

end BB.Spec
