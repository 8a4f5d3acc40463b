import Verif.Spec.Heap
import Verif.Spec.Noise

/-!
# Specification: chains on the heap

The states that a chain visits when states are objects that share arrays and lists, and are modified in place.
-/

namespace BB.Spec

open BB BB.HM

/-- The perturbation function on values. -/
noncomputable def Proposer.value : Proposer → State → M (State × PyF)
  | .space g, s => g.perturb s
  | .noise ts, s => noisePerturb ts s

/-- The perturbation functions of an inversion. -/
noncomputable def proposers (p : Problem) : List Proposer :=
  p.spaces.perts.map (fun g => .space g.1) ++ (if p.hier.isEmpty then [] else [.noise p.hier])

/-- The object `a` is a `State` with these parameters, whatever its temperature and caches. -/
def Holds (h : Heap) (a : Addr) (p : Params) : Prop :=
  ∃ vs attrs temp cache extra, h[a]? = some (.state vs attrs temp cache extra) ∧ RepTop h p vs

/-- In Python, recursion and loops have no bound; `fuel` is large enough for the state `a`. -/
def Enough (h : Heap) (a : Addr) (fuel : ℕ) : Prop := ∃ p, Holds h a p ∧ nodesParams p ≤ fuel

/-- The states that a chain visits: an initial state, a proposal that is adopted; meanwhile other things happen –
proposals that are not adopted, other chains, copies, changes of the caches and of the temperature. -/
inductive HeapVisits (p : Problem) : Heap → Addr → Prop
  | start {h h' : Heap} {a : Addr} {s : State} {t : List Draw} : Start p s → storeState s h t = (.ok a, h', t) →
      HeapVisits p h' a
  | meanwhile {h h' : Heap} {a : Addr} : HeapVisits p h a → History (proposers p) h h' → HeapVisits p h' a
  | adopt {h h' : Heap} {a b : Addr} {q : Proposer} {fuel : ℕ} {t t' : List Draw} {lpr : PyF} :
      HeapVisits p h a → q ∈ proposers p → Enough h a fuel → q.run fuel a h t = (.ok (b, lpr), h', t') →
      lpr ≠ .ninf → lpr ≠ .nan → HeapVisits p h' b

end BB.Spec
