import Verif.Model.Moves
import Verif.Model.StateChain

/-!
# Model of `BayesianInversion` and `MarkovChain`: what the chains of an inversion are made of

`/repo/src/bayesbay/_bayes_inversion.py` lines 396-425, 445-452 and `/repo/src/bayesbay/_markov_chain.py` lines
337-364.
-/

namespace BB

/-- The arguments of `BayesianInversion`: the parameter spaces of the parameterization, the likelihood (which
way of computing the ratio it uses; the targets and their forward functions), and `save_dpred`. -/
structure Problem where
  spaces : Spaces
  kind : LLKind State
  tf : List (Target × Fwd)
  saveDpred : Bool := true

/-- `self.targets` of the likelihood. -/
def Problem.targets (p : Problem) : List Target := p.tf.map (·.1)

/-- `hier_targets`, `_log_likelihood.py` lines 295-299. -/
def Problem.hier (p : Problem) : List Target := p.targets.filter (·.hierarchical)

/-- `__name__`, `_data_noise.py` lines 80-86.  Simplification: names without quotes and escapes. -/
def noiseName (ts : List Target) : String :=
  "NoisePerturbation(" ++ (match ts with | [t] => t.name | _ => strList (ts.map (·.name))) ++ ")"

/-- `_init_perturbation_funcs`, `_log_likelihood.py` lines 293-303. -/
noncomputable def Problem.noisePerturbs (p : Problem) : List (String × (State → M (State × PyF))) :=
  if p.hier.isEmpty then [] else [(noiseName p.hier, noisePerturb p.hier)]

/-- `_init_perturbation_funcs`, `_bayes_inversion.py` lines 445-452: the functions. -/
noncomputable def Problem.perturbs (p : Problem) : List (String × (State → M (State × PyF))) :=
  (p.spaces.perts.map fun g => (g.1.displayName, g.1.perturb)) ++ p.noisePerturbs

/-- The weights, `_bayes_inversion.py` lines 445-452 and `_log_likelihood.py` line 303. -/
noncomputable def Problem.weights (p : Problem) : List ℝ :=
  p.spaces.perts.map (·.2) ++ (if p.hier.isEmpty then [] else [1])

/-- The configuration of the chains, `_bayes_inversion.py` lines 414-424. -/
noncomputable def Problem.cfg (p : Problem) : ChainCfg State Store :=
  stateCfg p.kind p.tf p.perturbs p.weights (some (p.spaces.map fun kv => (kv.1, kv.2.info.transD)))
    p.saveDpred

/-- `LogLikelihood.initialize`, `_log_likelihood.py` lines 145-147. -/
noncomputable def initTargets : List Target → State → M State
  | [], s => pure s
  | t :: ts, s => do
    let s ← t.initialize s
    initTargets ts s

/-- `_init_starting_state`, `_markov_chain.py` lines 360-364. -/
noncomputable def Problem.start (p : Problem) : M State := do
  let s ← p.spaces.initialize
  initTargets p.targets s

end BB
