import Verif.Spec.IidTape
import Verif.Spec.Progress

/-!
# Specification: inversions for the values of plain parameter spaces

The models, the prior and the posterior of an inversion for any number of plain `ParameterSpace`s, with a fixed or a
variable number of dimensions, uniform, Gaussian and Laplace priors, and fixed noise.
-/

namespace BB.Spec

open BB MeasureTheory

/-- `f` is the density of the prior (one of the library's, with hyper-parameters that make sense). -/
def DensityOf (pr : Prior) (f : ℝ → ℝ) : Prop :=
  match pr.dist with
  | .uniform vmin vmax => ∃ a b, vmin.get .none = .ok a ∧ vmax.get .none = .ok b ∧ a < b ∧ f = uniformPDF a b
  | .gaussian mean std => ∃ m s, mean.get .none = .ok m ∧ std.get .none = .ok s ∧ 0 < s ∧ f = normalPDF m s
  | .laplace mean scale => ∃ m s, mean.get .none = .ok m ∧ scale.get .none = .ok s ∧ 0 < s ∧ f = laplacePDF m s
  | .custom _ _ _ => False

/-- A plain parameter space: its attributes, its parameters, their densities and the standard deviations of their
perturbations. -/
structure PlainSpace where
  info : Info
  size : ℕ
  prior : Fin size → Prior
  dens : Fin size → ℝ → ℝ
  step : Fin size → ℝ

/-- The dictionary of parameters. -/
def paramDict : List Prior → ParamList
  | [] => .nil
  | q :: qs => .cons q.name (.prior q) (paramDict qs)

/-- The `ParameterSpace`. -/
def PlainSpace.space (s : PlainSpace) : Space := .mk s.info (paramDict (List.ofFn s.prior))

/-- What is asked of the space. -/
structure PlainSpace.Ok (s : PlainSpace) : Prop where
  plain : s.info.kind = .plain
  size : 0 < s.size
  lo : 1 ≤ s.info.lo
  hi : s.info.lo ≤ s.info.hi
  distinct : Function.Injective fun j => (s.prior j).name
  names : ∀ j, (s.prior j).name ≠ "discretization" ∧ Plain (s.prior j).name
  name : Plain s.info.name
  dens : ∀ j, DensityOf (s.prior j) (s.dens j)
  step : ∀ j, (s.prior j).getStd false .none = .ok (s.step j)

variable {m : ℕ}

/-- A model: for each space a number of dimensions, and for each dimension the values of the parameters. -/
abbrev Values (sps : Fin m → PlainSpace) : Type := ∀ i, Tuple (Fin (sps i).size → ℝ)

/-- The state of a parameter space with these values. -/
def PlainSpace.stateOf (s : PlainSpace) (y : Tuple (Fin s.size → ℝ)) : PSState :=
  .mk y.1 (List.ofFn fun j => ((s.prior j).name, .arr (.vec (List.ofFn fun r => y.2 r j)))) none

/-- The parameters of the `State` with these values. -/
def paramsOf (sps : Fin m → PlainSpace) (x : Values sps) : Params :=
  List.ofFn fun i => ((sps i).info.name, .ps ((sps i).stateOf (x i)))

/-- The law of independent values with the given densities. -/
noncomputable def valuesLaw {k : ℕ} (dens : Fin k → ℝ → ℝ) : Measure (Fin k → ℝ) :=
  volume.withDensity fun v => ∏ j, ENNReal.ofReal (dens j (v j))

/-- The prior: for each space, independently, all numbers of dimensions between the bounds have the same mass, and given
the number, all values are independent and have the densities of their priors. -/
noncomputable def priorOf (sps : Fin m → PlainSpace) : Measure (Values sps) :=
  Measure.pi fun i => transPrior (valuesLaw (sps i).dens) (sps i).info.lo (sps i).info.hi

/-- The posterior (up to normalization) for the log likelihood `logLik`, at temperature `T`. -/
noncomputable def posteriorOf (sps : Fin m → PlainSpace) (logLik : Values sps → ℝ) (T : ℝ) : Measure (Values sps) :=
  (priorOf sps).withDensity fun x => ENNReal.ofReal (Real.exp (logLik x / T))

/-- The numbers of dimensions are in the bounds, and the prior densities of all values are positive. -/
def Possible (sps : Fin m → PlainSpace) (x : Values sps) : Prop :=
  ∀ i, ((sps i).info.lo ≤ (x i).1 ∧ (x i).1 ≤ (sps i).info.hi) ∧ ∀ r j, 0 < (sps i).dens j ((x i).2 r j)

/-- `K` is a multiple of all numbers of dimensions (then the remainder of a uniform number below `K` is uniform). -/
def Multiple (sps : Fin m → PlainSpace) (K : ℕ) : Prop := ∀ i n, 0 < n → n ≤ (sps i).info.hi → n ∣ K

/-- The likelihood of the inversion is defined for all possible models, and its logarithm is `logLik`. -/
def HasLogLik (p : Problem) (sps : Fin m → PlainSpace) (logLik : Values sps → ℝ) : Prop :=
  match p.kind with
  | .targets => ∀ x, Possible sps x →
      (∀ y ∈ p.tf, Evaluable (paramsOf sps x) y) ∧ logLik x = Spec.logLik p.tf (paramsOf sps x)
  | .loglike f => ∀ x, Possible sps x → ∀ s : State, s.params = paramsOf sps x → f s = .ok (.fin (logLik x))
  | .ratio f => ∀ x y, Possible sps x → Possible sps y → ∀ s t : State, s.params = paramsOf sps x →
      t.params = paramsOf sps y → f s t = .ok (.fin (logLik y - logLik x))

/-- An inversion for the values of these spaces. -/
structure PlainProblem (p : Problem) (sps : Fin m → PlainSpace) (logLik : Values sps → ℝ) : Prop where
  some : 0 < m
  spaces : p.spaces = List.ofFn fun i => ((sps i).info.name, (sps i).space)
  ok : ∀ i, (sps i).Ok
  distinct : Function.Injective fun i => (sps i).info.name
  noise : p.hier = []
  targets : (p.targets.map (·.name)).Nodup
  likelihood : HasLogLik p sps logLik
  meas : Measurable logLik

/-- The chain is at the model `x`, at temperature `T`: predicted data in the cache, if any, belong to the model, and the
statistics of perturbations of parameter spaces are kept by sub-type. -/
structure At {E : Type} (p : Problem) (sps : Fin m → PlainSpace) (T : ℝ) (x : Values sps) (c : Chain State Store E) :
    Prop where
  params : c.cur.params = paramsOf sps x
  extra : c.cur.extra = []
  cache : Coherent p.tf c.cur
  temp : c.temp = T
  proposed : ∀ name n, name.startsWith "ParamSpacePerturbation" = true → dget c.proposed name ≠ some (.count n)
  accepted : ∀ name n, name.startsWith "ParamSpacePerturbation" = true → dget c.accepted name ≠ some (.count n)

end BB.Spec
