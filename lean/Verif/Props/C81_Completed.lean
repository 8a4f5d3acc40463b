import Verif.Props.C79_Iterations
import Verif.Props.C80_WholeNotPosterior

/-!
# C81 — any number of iterations of any inversion

The chain of an inversion as in C80 (any number of parameter spaces of any kind, with or without unknown noise) starts at a model
that is possible under the prior.  For almost all of these models, and almost surely, all iterations are completed without an
exception; and events that have prior probability 0 have probability 0 after any number of iterations.
-/

namespace BB.Props

open BB Spec Lemmas MeasureTheory

variable {E : Type} {p : Problem} {B : ℕ → Block} {logLik : Whole p B → ℝ}

/-- Almost surely, the iterations are completed. -/
theorem C81_completed (h : AnyProblem p B logLik) (hn : PlainNames p) {T : ℝ} (hT : T ≠ 0) {b s : ℤ} (hs : s ≠ 0)
    (state : Whole p B → Chain State Store E)
    (hstate : ∀ x, PossibleWhole x → Ready p B T (state x) ∧ SameWhole x (wholeOf p B (state x).cur.params)) (n : ℕ) :
    ∀ᵐ x ∂wholePrior p B,
      IterationsLaw p.cfg b s (wholeDraws p B) (wholeLaw p B) (fun st => wholeOf p B st.params) n (state x) Set.univ = 1 :=
  (any_completed h hn hT hs state hstate n).1

/-- What is impossible under the prior stays impossible. -/
theorem C81_impossible (h : AnyProblem p B logLik) (hn : PlainNames p) {T : ℝ} (hT : T ≠ 0) {b s : ℤ} (hs : s ≠ 0)
    (state : Whole p B → Chain State Store E)
    (hstate : ∀ x, PossibleWhole x → Ready p B T (state x) ∧ SameWhole x (wholeOf p B (state x).cur.params)) (n : ℕ)
    (N : Set (Whole p B)) (hN : MeasurableSet N) (hNr : Invariant SameWhole N) (h0 : wholePrior p B N = 0) :
    ∀ᵐ x ∂wholePrior p B,
      IterationsLaw p.cfg b s (wholeDraws p B) (wholeLaw p B) (fun st => wholeOf p B st.params) n (state x) N = 0 :=
  (any_completed h hn hT hs state hstate n).2 N hN hNr h0

/-! ### examples

Those of C78 and C80. -/

section Examples

example (s : ArgSort) := C81_completed (any_of_whole (ex78_problem s)) (ex79_names s) one_ne_zero (b := 10) (s := 5) (by norm_num) ex78s
  (ex79_ready s)

theorem ex81_names (s : ArgSort) : PlainNames (ex80p s) := by
  have hs : Plain "s" := plain_of (by decide +kernel)
  have ht : Plain "t" := plain_of (by decide +kernel)
  have ha : Plain "a" := plain_of (by decide +kernel)
  have hb : Plain "b" := plain_of (by decide +kernel)
  refine ⟨fun nm sp h => ?_, fun t ht => by cases ht⟩
  rcases List.mem_cons.1 h with h | h
  · obtain ⟨rfl, rfl⟩ := Prod.mk.inj h
    refine ⟨hs, fun k q hk => ?_⟩
    rcases List.mem_cons.1 hk with e | hk
    · rw [(Prod.mk.inj e).1]
      exact ha
    · rw [(Prod.mk.inj (List.mem_singleton.1 hk)).1]
      exact hb
  · obtain ⟨rfl, rfl⟩ := Prod.mk.inj (List.mem_singleton.1 h)
    refine ⟨ht, fun k q hk => ?_⟩
    rcases List.mem_cons.1 hk with e | hk
    · rw [(Prod.mk.inj e).1]
      exact ha
    · rw [(Prod.mk.inj (List.mem_singleton.1 hk)).1]
      exact hb

theorem ex81_ready (s : ArgSort) (x : Whole (ex80p s) (ex80B s)) (hx : PossibleWhole x) :
    Ready (ex80p s) (ex80B s) 1 (ex80s x) ∧ SameWhole x (wholeOf (ex80p s) (ex80B s) (ex80s x).cur.params) := by
  obtain ⟨h1, h2, h3⟩ := ex80_state s x hx
  exact ⟨⟨h1, h3, rfl, rfl, fun _ _ _ h => (by cases h), fun _ _ _ h => (by cases h)⟩, h2⟩

example (s : ArgSort) := C81_completed (ex80_problem s) (ex81_names s) one_ne_zero (b := 10) (s := 5) (by norm_num) ex80s (ex81_ready s)

/-- No sample is without cells. -/
example (s : ArgSort) (n : ℕ) : ∀ᵐ x ∂wholePrior (ex80p s) (ex80B s), IterationsLaw (ex80p s).cfg 10 5 (wholeDraws (ex80p s) (ex80B s))
    (wholeLaw (ex80p s) (ex80B s)) (fun st => wholeOf (ex80p s) (ex80B s) st.params) n (ex80s x) {x | (ex80y x).1 = 0} = 0 := by
  refine C81_impossible (ex80_problem s) (ex81_names s) one_ne_zero (by norm_num) ex80s (ex81_ready s) n _ ?_ ?_ ?_
  · have h1 : Measurable (fun q : Tuple (ℝ × (Fin 2 → ℝ)) => q.1) := measurable_tuple fun _ => measurable_const
    have h2 : Measurable fun x : Whole (ex80p s) (ex80B s) => ex80y x :=
      measurable_pi_apply (⟨0, Nat.zero_lt_two⟩ : Fin (ex80p s).cfg.perturbs.length)
    exact (h1.comp h2) (measurableSet_singleton 0)
  · intro x y h
    have hp : (List.ofFn (ex80y x).2).Perm (List.ofFn (ex80y y).2) := h (⟨0, Nat.zero_lt_two⟩ : Fin (ex80p s).cfg.perturbs.length)
    have := hp.length_eq
    simp only [List.length_ofFn] at this
    change (ex80y x).1 = 0 ↔ (ex80y y).1 = 0
    rw [this]
  · have hp := whole_possible_prior (ex80_problem s)
    refine measure_mono_null (t := {x | ¬ PossibleWhole x}) (fun x hx => ?_) hp
    intro hc
    have h0 := hc (⟨0, Nat.zero_lt_two⟩ : Fin (ex80p s).cfg.perturbs.length)
    have h1 : 1 ≤ (ex80y x).1 := h0.1.1.1
    have h2 : (ex80y x).1 = 0 := hx
    omega

end Examples

end BB.Props
