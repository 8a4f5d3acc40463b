import Verif.Model.Inversion

/-!
# Model of the addition of targets to the likelihood of existing inversions

`/repo/src/bayesbay/likelihood/_log_likelihood.py` lines 149-160, 162-202,
`/repo/src/bayesbay/_bayes_inversion.py` lines 395-425, 446-474 and `/repo/src/bayesbay/_markov_chain.py` lines 88-95.

Simplifications: targets are added together with as many callable forward functions (the other uses of
`add_targets` are in `Model/LikelihoodSetup.lean`); the lists of functions and weights are values here (their sharing is in
`Model/SetPerturbations.lean`); the chains are `MarkovChain`s.
-/

namespace BB

variable {E : Type}

/-- A chain of an inversion: the functions and weights given to it by `set_perturbation_funcs`, and the rest of it. -/
structure LiveChain (E : Type) where
  perturbs : List (String × (State → M (State × PyF)))
  weights : List ℝ
  chain : Chain State Store E

/-- An inversion: its parameterization, `save_dpred`, `perturbation_funcs`, `perturbation_weights`, and the chains. -/
structure Live (E : Type) where
  spaces : Spaces
  saveDpred : Bool
  perturbs : List (String × (State → M (State × PyF)))
  weights : List ℝ
  chains : List (LiveChain E)

/-- A likelihood with the inversions that observe it. -/
structure SharedLL (E : Type) where
  kind : LLKind State
  tf : List (Target × Fwd)
  observers : List (Live E)

/-- The arguments of an inversion, given the likelihood as it is now. -/
def Live.problem (l : Live E) (kind : LLKind State) (tf : List (Target × Fwd)) : Problem :=
  { spaces := l.spaces, kind := kind, tf := tf, saveDpred := l.saveDpred }

/-- What a chain of an inversion runs with: the likelihood and the parameterization of the inversion, its own functions and weights. -/
noncomputable def LiveChain.cfg (c : LiveChain E) (p : Problem) : ChainCfg State Store :=
  stateCfg p.kind p.tf c.perturbs c.weights (some (p.spaces.map fun kv => (kv.1, kv.2.info.transD))) p.saveDpred

/-- `BaseMarkovChain.set_perturbation_funcs`, `_markov_chain.py` lines 88-91. -/
def LiveChain.setPerturbs (c : LiveChain E) (fs : List (String × (State → M (State × PyF)))) (ws : List ℝ) :
    LiveChain E := { c with perturbs := fs, weights := ws }

/-- `BaseMarkovChain.update_targets`, `_markov_chain.py` lines 93-95: `initialize` modifies the current state. -/
noncomputable def LiveChain.updateTargets (c : LiveChain E) (ts : List Target) : M (LiveChain E) := do
  let s ← initTargets ts c.chain.cur
  return { c with chain := { c.chain with cur := s } }

/-- The loop of lines 470-474 of `_bayes_inversion.py`. -/
noncomputable def updateChains (fs : List (String × (State → M (State × PyF)))) (ws : List ℝ) (ts : List Target) :
    List (LiveChain E) → M (List (LiveChain E))
  | [] => pure []
  | c :: cs => do
    let c ← (c.setPerturbs fs ws).updateTargets ts
    let cs ← updateChains fs ws ts cs
    return c :: cs

/-- `update_log_likelihood_targets`, `_bayes_inversion.py` lines 454-474; `kind` and `tf` are those of the likelihood, which has the
new targets already. -/
noncomputable def Live.update (kind : LLKind State) (tf : List (Target × Fwd)) (ts : List Target) (l : Live E) :
    M (Live E) := do
  let p := l.problem kind tf
  let cs ← updateChains p.perturbs p.weights ts l.chains
  return { l with perturbs := p.perturbs, weights := p.weights, chains := cs }

/-- The loop of lines 201-202 of `_log_likelihood.py`. -/
noncomputable def notifyAll (kind : LLKind State) (tf : List (Target × Fwd)) (ts : List Target) :
    List (Live E) → M (List (Live E))
  | [] => pure []
  | l :: ls => do
    let l ← l.update kind tf ts
    let ls ← notifyAll kind tf ts ls
    return l :: ls

/-- `add_targets`, `_log_likelihood.py` lines 162-202.  If the names are not distinct, the targets stay added although an
exception is raised (lines 189, 197, 199).  (`initialize` raises no exceptions; that the
draws supplied are used up does not happen to Python.) -/
noncomputable def SharedLL.addTargets (ll : SharedLL E) (new : List (Target × Fwd)) (t : List Draw) :
    Except PyErr Unit × SharedLL E × List Draw :=
  let tf := ll.tf ++ new
  if (tf.map (·.1.name)).Nodup then
    match notifyAll ll.kind tf (new.map (·.1)) ll.observers t with
    | (.ok ls, t) => (.ok (), { ll with tf := tf, observers := ls }, t)
    | (.error e, t) => (.error e, { ll with tf := tf }, t)
  else (.error .valueError, { ll with tf := tf }, t)

/-- `BayesianInversion.__init__`, `_bayes_inversion.py` lines 408-425, for given chains: the inversion, the chains of which
have the functions and weights of the inversion. -/
noncomputable def Live.make (p : Problem) (cs : List (Chain State Store E)) : Live E :=
  { spaces := p.spaces, saveDpred := p.saveDpred, perturbs := p.perturbs, weights := p.weights
    chains := cs.map fun c => ⟨p.perturbs, p.weights, c⟩ }

end BB
