import Verif.Spec.Failing
import Verif.Lemmas.Retry
import Verif.Lemmas.Chain

/-!
# The attempts of an iteration
-/

namespace BB.Lemmas

open BB Spec Props MeasureTheory

variable {S σ E X Θ : Type} [MeasurableSpace X] [MeasurableSpace Θ] (cfg : ChainCfg S σ)
  (enc : Fin cfg.perturbs.length → S → Θ → List Draw)

/-- How an attempt ends. -/
noncomputable def tried (c : Chain S σ E) (ω : ℝ × Θ × ℝ) : Tried (Chain S σ E) :=
  match Chain.attempt cfg c (iterationDraws cfg enc c.cur ω) with
  | (.ok none, c', [_]) => .failed c'
  | (.ok (some _), c', []) => .done c'
  | _ => .lost

variable {cfg enc}

theorem tried_failed {c c' : Chain S σ E} {ω : ℝ × Θ × ℝ} (h : tried cfg enc c ω = .failed c') :
    ∃ d, Chain.attempt cfg c (iterationDraws cfg enc c.cur ω) = (.ok none, c', [d]) := by
  unfold tried at h
  split at h
  · injection h with h
    subst h
    exact ⟨_, by assumption⟩
  · cases h
  · cases h

theorem tried_done {c c' : Chain S σ E} {ω : ℝ × Θ × ℝ} (h : tried cfg enc c ω = .done c') :
    ∃ ev, Chain.attempt cfg c (iterationDraws cfg enc c.cur ω) = (.ok (some ev), c', []) := by
  unfold tried at h
  split at h
  · cases h
  · injection h with h
    subst h
    exact ⟨_, by assumption⟩
  · cases h

/-- The law of an iteration in terms of its attempts. -/
theorem retry_link {draws : Measure Θ} {val : S → X} {A : Set X} {ok : Chain S σ E → Prop}
    (hk : ∀ c, ok c → ∀ᵐ ω ∂unit.prod (draws.prod unit), ∃ c', (tried cfg enc c ω = .failed c' ∧ ok c' ∧
        ∀ rest, Chain.attempt cfg c ((iterationDraws cfg enc c.cur ω).dropLast ++ rest) = (.ok none, c', rest)) ∨
      tried cfg enc c ω = .done c') (c₀ : Chain S σ E) :
    ∀ k c t, ok c → (∀ rest, Chain.next cfg c₀ (t ++ rest) = Chain.attempts cfg k c rest) →
      RetryLaw cfg enc draws val c₀ A k c t =
        retryLaw (unit.prod (draws.prod unit)) (tried cfg enc) (fun c => val c.cur) A k c
  | 0, _, _, _, _ => rfl
  | k + 1, c, t, hc, hn => by
    unfold RetryLaw retryLaw
    refine lintegral_congr_ae ?_
    filter_upwards [hk c hc] with ω hω
    obtain ⟨c', ⟨h1, h2, h3⟩ | h1⟩ := hω
    · obtain ⟨d, e⟩ := tried_failed h1
      simp only [e, h1]
      refine retry_link hk c₀ k c' _ h2 fun rest => ?_
      rw [List.append_assoc, hn, attempts_succ, h3]
    · obtain ⟨ev, e⟩ := tried_done h1
      simp only [e, h1]
      rw [hn, attempts_succ, e]

/-- The probability that an attempt fails. -/
theorem failure_link {draws : Measure Θ} {c : Chain S σ E}
    (hk : ∀ᵐ ω ∂unit.prod (draws.prod unit), ∃ c', tried cfg enc c ω = .failed c' ∨ tried cfg enc c ω = .done c') :
    FailureProb cfg enc draws c = unit.prod (draws.prod unit) (failSet (tried cfg enc) c) := by
  unfold FailureProb
  refine measure_congr ?_
  filter_upwards [hk] with ω hω
  apply propext
  change (∃ c' t, Chain.attempt cfg c (iterationDraws cfg enc c.cur ω) = (.ok none, c', t)) ↔ ∃ c', tried cfg enc c ω = .failed c'
  obtain ⟨c', h1 | h1⟩ := hω
  · obtain ⟨d, e⟩ := tried_failed h1
    exact ⟨fun _ => ⟨c', h1⟩, fun _ => ⟨c', [d], e⟩⟩
  · obtain ⟨ev, e⟩ := tried_done h1
    constructor
    · rintro ⟨c'', t, e'⟩
      rw [e] at e'
      cases e'
    · rintro ⟨c'', e'⟩
      rw [h1] at e'
      cases e'

end BB.Lemmas
