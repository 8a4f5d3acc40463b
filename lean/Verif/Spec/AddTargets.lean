import Verif.Spec.Noise
import Verif.Spec.Likelihood
import Verif.Model.AddTargets

/-!
# Specification: states and chains to which the noise of new targets has been added
-/

namespace BB.Spec

open BB

variable {E : Type}

/-- The second state is the first with the noise parameters of the targets of unknown noise. -/
structure Extended (ts : List Target) (s s' : State) : Prop where
  noise : ∀ tg ∈ ts, tg.covInv = none → NoiseWithin tg s'.params
  others : ∀ k, (∀ tg ∈ ts, tg.covInv = none → tg.name ≠ k) → dget s'.params k = dget s.params k
  cache : s'.cache = s.cache
  temperature : s'.temperature = s.temperature
  extra : s'.extra = s.extra

/-- A chain of the inversion of `p` as if it had been made for `p`, all of it but the current state as before. -/
structure ChainAdapted (p : Problem) (ts : List Target) (c c' : LiveChain E) : Prop where
  cfg : c'.cfg p = p.cfg
  cur : Extended ts c.chain.cur c'.chain.cur
  rest : c'.chain = { c.chain with cur := c'.chain.cur }

/-- An inversion the likelihood of which now consists of `kind` and `tf`. -/
structure Adapted (kind : LLKind State) (tf : List (Target × Fwd)) (ts : List Target) (l l' : Live E) : Prop where
  spaces : l'.spaces = l.spaces
  saveDpred : l'.saveDpred = l.saveDpred
  perturbs : l'.perturbs = (l.problem kind tf).perturbs
  weights : l'.weights = (l.problem kind tf).weights
  chains : List.Forall₂ (ChainAdapted (l.problem kind tf) ts) l.chains l'.chains

/-- The predictions do not depend on the noise parameters of the targets. -/
def NoiseBlind (ts : List Target) (f : Fwd) : Prop :=
  ∀ q, ∀ tg ∈ ts, ∀ d, f (dset q tg.name (.noise d)) = f q

/-- What the likelihood relies on in a state: cached predictions are those of the state, the noise parameters of all targets of unknown noise
are there and within their bounds, and no predictions are cached under other names. -/
structure InForce (tf : List (Target × Fwd)) (s : State) : Prop where
  coherent : Coherent tf s
  noise : ∀ x ∈ tf, x.1.covInv = none → NoiseWithin x.1 s.params
  known : ∀ name, (∀ x ∈ tf, x.1.name ≠ name) → dget s.cache (name ++ ".dpred") = none

/-- The states that a chain of an inversion can have when the likelihood has the targets `tf`, if targets may be added to the likelihood at
any time: starting states, states to which noise parameters of new targets have been added (on which the forward
functions so far do not depend), and what becomes of these in iterations with the targets there are at the time. -/
inductive Lived (p : Problem) : List (Target × Fwd) → State → Prop
  | start {tf : List (Target × Fwd)} {s : State} (h : Start { p with tf := tf } s) : Lived p tf s
  | added {tf new : List (Target × Fwd)} {s s' : State} {t t' : List Draw} (h : Lived p tf s)
      (hblind : ∀ x ∈ tf, NoiseBlind ((new.map (·.1)).filter (·.hierarchical)) x.2)
      (hi : initTargets (new.map (·.1)) s t = (.ok s', t')) : Lived p (tf ++ new) s'
  | temp {tf : List (Target × Fwd)} {s : State} (x : ℝ) (h : Lived p tf s) :
      Lived p tf (({ p with tf := tf } : Problem).cfg.setTemp s x)
  | left {tf : List (Target × Fwd)} {a : State} (b : State) (T : ℝ) (h : Lived p tf a) :
      Lived p tf (({ p with tf := tf } : Problem).cfg.llr a b T).2.1
  | right {tf : List (Target × Fwd)} {b : State} (a : State) (T : ℝ) (h : Lived p tf b) :
      Lived p tf (({ p with tf := tf } : Problem).cfg.llr a b T).2.2
  | adopt {tf : List (Target × Fwd)} {s new : State} {name : String} {f : State → M (State × PyF)} {t t' : List Draw} {lpr : PyF}
      (hf : (name, f) ∈ ({ p with tf := tf } : Problem).cfg.perturbs) (h : Lived p tf s)
      (hp : f s t = (.ok (new, lpr), t')) (h1 : lpr ≠ .ninf) (h2 : lpr ≠ .nan) : Lived p tf new

end BB.Spec
