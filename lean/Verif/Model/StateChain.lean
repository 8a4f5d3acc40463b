import Verif.Model.Save
import Verif.Model.Likelihood

/-!
# The chain over the library's states

`ChainCfg` of `Verif/Model/Chain.lean` for states of type `State`:
`/repo/src/bayesbay/_markov_chain.py` lines 69-73, 112-136, 196-199.
-/

namespace BB

/-- `proposed_state.load_from_cache("perturb_stats")`, `_markov_chain.py` line 136. -/
def loadStats (s : State) : Except PyErr (List (String × ℝ)) :=
  match dget s.cache "perturb_stats" with
  | some (.stats x) => .ok x
  | some (.dpred _) => .error .attributeError
  | none => .error .keyError

/-- The configuration of a chain over `State`. -/
noncomputable def stateCfg (kind : LLKind State) (tf : List (Target × Fwd))
    (perturbs : List (String × (State → M (State × PyF)))) (weights : List ℝ)
    (spaces : Option (List (String × Bool))) (saveDpred : Bool) : ChainCfg State Store where
  perturbs := perturbs
  weights := weights
  llr := fun old new T =>
    match logLikelihoodRatio kind tf old new T with
    | (r, (o, _), (n, _)) => (r, o, n)
  stats := loadStats
  setTemp := fun s x => { s with temperature := x }
  save := saveState spaces saveDpred

end BB
