import Verif.Spec.PlainSamples
import Verif.Model.WholeRun

/-!
# Specification: the results of a whole inversion for the values of plain parameter spaces
-/

namespace BB.Spec

open BB MeasureTheory

variable {m : ℕ}

/-- The list under a key of the results (empty if there is none). -/
def resultsUnder (k : String) (res : List (String × List (Entry SVal))) : List (Entry SVal) := (dget res k).getD []

/-- The results are the models `ys`, in this order: the values of each parameter of each model, and its numbers of dimensions
where they are variable. -/
def HasResults (sps : Fin m → PlainSpace) (res : List (String × List (Entry SVal))) (ys : List (Values sps)) : Prop :=
  ∀ i, (∀ j, resultsUnder ((sps i).key j) res = ys.map fun y => .one (.arr (.vec (List.ofFn fun r => (y i).2 r j)))) ∧
    ((sps i).info.transD = true → resultsUnder (sps i).dimKey res = ys.map fun y => .one (.int (y i).1))

/-- The draws of a run with `k` chains: those of the process that constructs and runs the inversion, and those of the
processes that advance the chains, should there be any. -/
abbrev RunDraws (k N : ℕ) : Type := (Fin N → Draw) × (Fin k → Fin N → Draw)

/-- All draws are independent. -/
noncomputable def runLaw (K k N : ℕ) : Measure (RunDraws k N) := (tapeLaw K N).prod (Measure.pi fun _ => tapeLaw K N)

/-- The draws of the other processes (there is one call of `advance_chain`). -/
def workOf {k N : ℕ} (w : Fin k → Fin N → Draw) : ℕ → ℕ → List Draw := fun _ j => if h : j < k then List.ofFn (w ⟨j, h⟩) else []

end BB.Spec
