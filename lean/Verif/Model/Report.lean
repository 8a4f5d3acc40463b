import Verif.Model.Chain
import Mathlib.Data.List.Sort

/-!
# Model of the progress that chains print

`/repo/src/bayesbay/_markov_chain.py` lines 156-194 (`print_statistics`) and 246-294 (`advance_chain` with `verbose`, `print_every`
and functions that may be missing).  What is printed is represented by the acceptance rates in the order of the lines; the texts
around them and their rounding are not modelled.
-/

namespace BB

/-- A line with a partial acceptance rate: the perturbation, the sub-type if there is one, and the percentage. -/
structure RateLine where
  name : String
  sub : Option String
  rate : ℝ

/-- `accepted / explored * 100`, lines 166, 184 and 190. -/
noncomputable def acceptanceRate (accepted explored : ℝ) : Except PyErr ℝ := by
  classical exact if explored = 0 then .error .zeroDivisionError else .ok (accepted / explored * 100)

/-- The lines printed for the elements of a list, one after the other. -/
def collectLines (f : String → Except PyErr (List RateLine)) : List String → Except PyErr (List RateLine)
  | [] => .ok []
  | k :: ks => do
    let a ← f k
    let b ← collectLines f ks
    .ok (a ++ b)

/-- `sorted(d)` for a dictionary: its keys in the order of their code points. -/
def sortedKeys {α : Type} (d : List (String × α)) : List String :=
  (dkeys d).mergeSort (fun a b => decide (a ≤ b))

/-- Lines 181-188: a line for a sub-type.  `_accepted[sub_perturb_type]` of a `defaultdict` is 0 if it is missing (Python also adds
the entry; not modelled). -/
noncomputable def subLine (name : String) (explored : List (String × ℝ)) (accepted : Option Stat) (k : String) :
    Except PyErr (List RateLine) := do
  let e ← match dget explored k with
    | some x => .ok x
    | none => .error .keyError
  let a ← match accepted with
    | some (.sub m) => .ok ((dget m k).getD 0)
    | some (.count _) => .error .typeError
    | none => .ok 0
  let r ← acceptanceRate a e
  .ok [⟨name, some k, r⟩]

/-- Lines 175-194: the lines for a perturbation. -/
noncomputable def typeLines (p a : List (String × Stat)) (name : String) : Except PyErr (List RateLine) :=
  match dget p name with
  | none => .error .keyError
  | some (.sub d) => collectLines (subLine name d (dget a name)) (sortedKeys d)
  | some (.count n) =>
    match dget a name with
    | some (.count m) => do
      let r ← acceptanceRate m n
      .ok [⟨name, none, r⟩]
    | _ => .error .typeError

variable {S σ E : Type}

/-- `print_statistics`, lines 156-194: the acceptance rate of all proposals and the partial ones. -/
noncomputable def Chain.report (c : Chain S σ E) : Except PyErr (ℝ × List RateLine) := do
  let r ← acceptanceRate c.accTotal c.total
  let lines ← collectLines (typeLines c.proposed c.accepted) (sortedKeys c.proposed)
  .ok (r, lines)

/-- `begin_iteration(self)` or `end_iteration(self)`, lines 288 and 290: `None` cannot be called. -/
def callHook : Option (Act (Chain S σ E) Unit) → Act (Chain S σ E) Unit
  | some f => f
  | none => Act.throw .typeError

/-- `if verbose and not i % print_every: self.print_statistics()`, lines 291-292, where `i` has been computed before the iteration. -/
noncomputable def Chain.printIfDue (verbose : Bool) (printEvery i : ℤ) : Act (Chain S σ E) Unit := fun c t =>
  if verbose then
    if printEvery = 0 then (.error .zeroDivisionError, c, t)
    else if i % printEvery = 0 then
      match c.report with
      | .ok _ => (.ok (), c, t)
      | .error e => (.error e, c, t)
    else (.ok (), c, t)
  else (.ok (), c, t)

/-- The body of the loop of `advance_chain`, lines 281-292. -/
noncomputable def Chain.iterationP (cfg : ChainCfg S σ) (burnin saveEvery : ℤ) (verbose : Bool) (printEvery : ℤ)
    (beginIt endIt : Option (Act (Chain S σ E) Unit)) : Act (Chain S σ E) (Event S) := fun c t =>
  (do
    let ev ← Chain.iteration cfg burnin saveEvery (callHook beginIt) (callHook endIt)
    Chain.printIfDue verbose printEvery (c.total + 1)
    return ev : Act (Chain S σ E) (Event S)) c t

/-- `advance_chain` with all its arguments, lines 246-294. -/
noncomputable def Chain.advanceP (cfg : ChainCfg S σ) (burnin saveEvery : ℤ) (verbose : Bool) (printEvery : ℤ)
    (beginIt endIt : Option (Act (Chain S σ E) Unit)) : ℕ → Act (Chain S σ E) (List (Event S))
  | 0 => return []
  | n + 1 => do
    let ev ← Chain.iterationP cfg burnin saveEvery verbose printEvery beginIt endIt
    let evs ← Chain.advanceP cfg burnin saveEvery verbose printEvery beginIt endIt n
    return ev :: evs

end BB
