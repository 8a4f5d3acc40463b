import Verif.Model.Chain

/-!
# Specification of the saving schedule
-/

namespace BB.Spec

open BB

/-- Iteration `i` (counted from the creation of the chain) is a saving iteration. -/
def Due (burnin saveEvery : ℤ) (i : ℕ) : Prop := burnin < i ∧ saveEvery ∣ ((i : ℤ) - burnin)

/-- The state in which an iteration leaves the chain. -/
def visited {S : Type} (ev : Event S) : S := if ev.acc then ev.new else ev.prev

open Classical in
/-- The states visited at the saving iterations, when iteration `i` is the first of the list: those
due, provided the temperature of the chain is one. -/
noncomputable def dueStates {S : Type} (burnin saveEvery : ℤ) : ℕ → List (Event S) → List S
  | _, [] => []
  | i, ev :: rest =>
    (if Due burnin saveEvery i ∧ ev.temp = 1 then [visited ev] else []) ++
      dueStates burnin saveEvery (i + 1) rest

open Classical in
/-- The states visited at the iterations with property `P`, when iteration `i` is the first of the list,
provided the temperature of the chain is one. -/
noncomputable def statesBy {S : Type} (P : ℕ → Prop) : ℕ → List (Event S) → List S
  | _, [] => []
  | i, ev :: rest => (if P i ∧ ev.temp = 1 then [visited ev] else []) ++ statesBy P (i + 1) rest

/-- The saving iterations of a run that is divided into batches of `sw` iterations, with a burn-in per
batch: `m` is the number of iterations before the batch of iteration `i`. -/
def BatchDue (sw burnin saveEvery : ℤ) (i : ℕ) : Prop :=
  let m := sw * ((i - 1) / sw)
  Due (max 0 (min sw (burnin - m))) saveEvery i

end BB.Spec
