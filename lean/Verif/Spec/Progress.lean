import Verif.Spec.Conform
import Verif.Spec.Likelihood
import Verif.Spec.Noise

/-!
# Specification: inversions of which no computation raises an exception
-/

namespace BB.Spec

open BB

/-- The computation raises no exception, whatever is drawn: if it does not return a value, it is because the draws
supplied have been used up. -/
def NoRaise {α : Type} (m : M α) : Prop := ∀ t e t', m t = (.error e, t') → e = .tapeExhausted

/-- The positions at which the parameters of a space of this kind are evaluated: those in the domain of a
discretization; `None` or the arbitrary content of `np.empty` otherwise. -/
def PosOf : Kind → Pos → Prop
  | .plain, _ => True
  | .vor1 v, pos => ∃ x, pos = .one x ∧ v.vmin ≤ x ∧ x ≤ v.vmax
  | .vor2 v, pos => ∃ q, pos = .two q ∧ InDomain v q

/-- The hyper-parameter has a value at all these positions. -/
def Defined (k : Kind) (h : Hyper) : Prop := ∀ pos, PosOf k pos → ∃ x, h.get pos = .ok x

/-- The hyper-parameter has a positive value at all these positions. -/
def Positive (k : Kind) (h : Hyper) : Prop := ∀ pos, PosOf k pos → ∃ x, h.get pos = .ok x ∧ 0 < x

/-- The hyper-parameter does not depend on position. -/
def Constant (h : Hyper) : Prop := ∃ x, h = .const x

/-- What is asked of the distribution of a parameter.  The values of Gaussian and Laplace priors with
hyper-parameters that vary in the plane cannot be initialized by the library, so the user has to do it; custom priors cannot be
perturbed at all (C19). -/
def DistSafe (k : Kind) (custom : Bool) : Dist → Prop
  | .uniform vmin vmax => ∀ pos, PosOf k pos → ∃ lo hi, vmin.get pos = .ok lo ∧ vmax.get pos = .ok hi ∧ lo < hi
  | .gaussian mean std => Defined k mean ∧ Positive k std ∧
      (custom = false → ∀ v, k = .vor2 v → Constant mean ∧ Constant std)
  | .laplace mean scale => Defined k mean ∧ Positive k scale ∧
      (custom = false → ∀ v, k = .vor2 v → Constant mean ∧ Constant scale)
  | .custom _ _ _ => False

/-- What is asked of a parameter of a space of the given kind. -/
structure PriorSafe (k : Kind) (q : Prior) : Prop where
  dist : DistSafe k q.init.isSome q.dist
  std : Defined k q.std
  birth : k.isDisc = true → Positive k q.stdBirth
  init : ∀ f, q.init = some f → ∀ ps, NoRaise (f ps) ∧
    ∀ t a t', f ps t = (.ok a, t') → ∃ xs, a = .vec xs ∧ xs.length = ps.length

/-- What is asked of a space: at least one dimension; if newborn values are drawn near those of the nearest
neighbour, then no nested space is a plain `ParameterSpace`; a nested plain `ParameterSpace` has no
discretizations nested in it. -/
structure SpaceSafe (sp : Space) : Prop where
  dims : 1 ≤ sp.info.lo
  priors : ∀ k q, (k, Param.prior q) ∈ sp.params.toList → PriorSafe sp.info.kind q
  neighbours : sp.info.kind.isDisc = true → sp.info.fromPrior = false →
    ∀ k sp1, (k, Param.space sp1) ∈ sp.params.toList → sp1.info.kind.isDisc = true
  nested : ∀ k sp1, (k, Param.space sp1) ∈ sp.params.toList → sp1.info.kind.isDisc = false →
    ∀ k' sp2, (k', Param.space sp2) ∈ sp1.params.toList → sp2.info.kind.isDisc = false
  plane : ∀ v, sp.info.kind = .vor2 v → 0 ≤ v.std.1 ∧ 0 ≤ v.std.2

/-- What is asked of an inversion. -/
structure ProblemSafe (p : Problem) : Prop where
  ok : ProblemOk p
  safe : ∀ sp, Occurs p sp → SpaceSafe sp
  targets : (p.targets.map (·.name)).Nodup
  checked : ∀ tg ∈ p.targets, tg.check = .ok tg

/-! ### chains -/

/-- What is asked of a target and its forward function: predictions of the size of the data (the function may also
raise an exception); a positive definite inverse covariance, or bounds of the noise parameters away from the values at
which the covariance is singular. -/
structure TargetSafe (x : Target × Fwd) : Prop where
  size : ∀ q d, x.2 q = some d → d.length = x.1.dobs.length
  data : x.1.dobs ≠ []
  fixed : x.1.covInv ≠ none → ∀ noise, Admissible x.1 noise
  std : x.1.covInv = none → 0 < x.1.stdMin
  corr : x.1.covInv = none → x.1.correlated = true → x.1.corrMax < 1 ∧ 3 ≤ x.1.dobs.length

/-- What is asked of the likelihood. -/
def LikelihoodSafe (p : Problem) : Prop :=
  match p.kind with
  | .targets => ∀ x ∈ p.tf, TargetSafe x
  | .ratio f => ∀ a b e, f a b = .error e → e = .userFunction
  | .loglike f => ∀ a e, f a = .error e → e = .userFunction

/-- The user's functions raise no exceptions. -/
def NeverFails (p : Problem) : Prop :=
  match p.kind with
  | .targets => ∀ x ∈ p.tf, ∀ q, x.2 q ≠ none
  | .ratio f => ∀ a b e, f a b ≠ .error e
  | .loglike f => ∀ a e, f a ≠ .error e

/-- The name does not contain `n_dimensions`. -/
def Plain (name : String) : Prop := ¬ "n_dimensions".toList <:+: name.toList

/-- What is asked of an inversion for its chains to run: there is something to perturb, the likelihood is as asked, and
no name contains `n_dimensions`. -/
structure RunSafe (p : Problem) : Prop where
  base : ProblemSafe p
  moves : (∃ sp, Occurs p sp ∧ (sp.info.transD = true ∨ sp.info.kind.isDisc = true ∨
      ∃ k q, (k, Param.prior q) ∈ sp.params.toList)) ∨ ∃ tg ∈ p.targets, tg.hierarchical = true
  likelihood : LikelihoodSafe p
  spaces : ∀ k sp, (k, sp) ∈ p.spaces → Plain k ∧ ∀ k' q, (k', q) ∈ sp.params.toList → Plain k'
  names : ∀ tg ∈ p.targets, Plain tg.name

/-- Chains the current state of which satisfies `P`, the temperature of which is not 0, and in which the statistics of the
perturbations of parameter spaces are kept by sub-type. -/
structure RunInvOf {E : Type} (P : State → Prop) (c : Chain State Store E) : Prop where
  cur : P c.cur
  temp : c.temp ≠ 0
  proposed : ∀ name n, name.startsWith "ParamSpacePerturbation" = true → dget c.proposed name ≠ some (.count n)
  accepted : ∀ name n, name.startsWith "ParamSpacePerturbation" = true → dget c.accepted name ≠ some (.count n)

/-- The chains considered: the current state can be visited. -/
abbrev RunInv {E : Type} (p : Problem) (c : Chain State Store E) : Prop := RunInvOf (Visits p) c

/-- A function called at the beginning or at the end of an iteration that raises no exception, uses draws in turn, and
leaves the chain as described. -/
def HookSafeOf {E : Type} (P : State → Prop) (m : Act (Chain State Store E) Unit) : Prop :=
  ∀ c t, RunInvOf P c → ∃ c' t', m c t = (.ok (), c', t') ∧ RunInvOf P c' ∧ t' <:+ t

/-- The same for the chains considered. -/
abbrev HookSafe {E : Type} (p : Problem) (m : Act (Chain State Store E) Unit) : Prop := HookSafeOf (Visits p) m

/-- The exceptions that can end a run: the draws supplied have been used up; a draw of `random.random()` was
exactly 0, so that `math.log` raised `ValueError`; the user's functions failed 500 times in a row. -/
def Expected (p : Problem) (t : List Draw) (e : PyErr) : Prop :=
  e = .tapeExhausted ∨ (e = .valueError ∧ ∃ d ∈ t, d.u = 0) ∨ (e = .runtimeError ∧ ¬ NeverFails p)

end BB.Spec
