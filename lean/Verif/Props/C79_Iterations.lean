import Verif.Props.C78_WholeInversion
import Verif.Lemmas.WholeRuns

/-!
# C79 — any number of iterations of whole inversions

The chain of an inversion as in C78 starts at a model drawn from the distribution that one iteration preserves (the posterior times
the probability that nothing has to be drawn anew).  Almost surely all iterations are completed without an exception, and after
any number of them the model has that same distribution.
-/

namespace BB.Props

open BB Spec Lemmas MeasureTheory

variable {E : Type} {p : Problem} {B : ℕ → Block} {logLik : Whole p B → ℝ}

/-- After any number of iterations, the model has the distribution it had at the beginning. -/
theorem C79_sampled (h : WholeProblem p B logLik) (hn : PlainNames p) {T : ℝ} (hT : T ≠ 0) {b s : ℤ} (hs : s ≠ 0)
    (state : Whole p B → Chain State Store E)
    (hstate : ∀ x, PossibleWhole x → Ready p B T (state x) ∧ SameWhole x (wholeOf p B (state x).cur.params)) (n : ℕ)
    (A : Set (Whole p B)) (hA : MeasurableSet A) (hAr : Invariant SameWhole A) :
    ∫⁻ x, IterationsLaw p.cfg b s (wholeDraws p B) (wholeLaw p B) (fun st => wholeOf p B st.params) n (state x) A
        ∂posterior ((wholePrior p B).withDensity fun x => ENNReal.ofReal (wholeStaying p B x)) logLik T =
      posterior ((wholePrior p B).withDensity fun x => ENNReal.ofReal (wholeStaying p B x)) logLik T A :=
  (whole_iterations h hn hT hs state hstate n).1 A hA hAr

/-- Almost surely, the iterations are completed. -/
theorem C79_completed (h : WholeProblem p B logLik) (hn : PlainNames p) {T : ℝ} (hT : T ≠ 0) {b s : ℤ} (hs : s ≠ 0)
    (state : Whole p B → Chain State Store E)
    (hstate : ∀ x, PossibleWhole x → Ready p B T (state x) ∧ SameWhole x (wholeOf p B (state x).cur.params)) (n : ℕ) :
    ∀ᵐ x ∂posterior ((wholePrior p B).withDensity fun x => ENNReal.ofReal (wholeStaying p B x)) logLik T,
      IterationsLaw p.cfg b s (wholeDraws p B) (wholeLaw p B) (fun st => wholeOf p B st.params) n (state x) Set.univ = 1 :=
  (whole_iterations h hn hT hs state hstate n).2

/-- Without sites and unknown noise, the distribution is the posterior. -/
theorem C79_posterior (h : WholeProblem p B logLik)
    (hplain : ∀ (i : ℕ) (nm : String) (sp : Space), p.spaces[i]? = some (nm, sp) → sp.info.kind = .plain) (hnoise : p.hier = [])
    (hn : PlainNames p) {T : ℝ} (hT : T ≠ 0) {b s : ℤ} (hs : s ≠ 0) (state : Whole p B → Chain State Store E)
    (hstate : ∀ x, PossibleWhole x → Ready p B T (state x) ∧ SameWhole x (wholeOf p B (state x).cur.params)) (n : ℕ)
    (A : Set (Whole p B)) (hA : MeasurableSet A) (hAr : Invariant SameWhole A) :
    ∫⁻ x, IterationsLaw p.cfg b s (wholeDraws p B) (wholeLaw p B) (fun st => wholeOf p B st.params) n (state x) A
        ∂posterior (wholePrior p B) logLik T = posterior (wholePrior p B) logLik T A := by
  have key := C79_sampled h hn hT hs (b := b) state hstate n A hA hAr
  have e : (wholePrior p B).withDensity (fun x => ENNReal.ofReal (wholeStaying p B x)) = wholePrior p B := by
    simp only [wholeStaying_one h hplain hnoise, ENNReal.ofReal_one]
    exact withDensity_one
  rw [e] at key
  exact key

/-! ### examples

Those of C78. -/

section Examples

theorem ex79_names (s : ArgSort) : PlainNames (ex78p s) := by
  have hs : Plain "s" := plain_of (by decide +kernel)
  have ha : Plain "a" := plain_of (by decide +kernel)
  have hb : Plain "b" := plain_of (by decide +kernel)
  have ho : Plain "obs" := plain_of (by decide +kernel)
  refine ⟨fun nm sp h => ?_, fun t ht => ?_⟩
  · obtain ⟨rfl, rfl⟩ := Prod.mk.inj (List.mem_singleton.1 h)
    refine ⟨hs, fun k q hk => ?_⟩
    rcases List.mem_cons.1 hk with e | hk
    · rw [(Prod.mk.inj e).1]
      exact ha
    · rw [(Prod.mk.inj (List.mem_singleton.1 hk)).1]
      exact hb
  · rw [List.mem_singleton.1 (show t ∈ [ex78t] from ht)]
    exact ho

theorem ex79_ready (s : ArgSort) (x : Whole (ex78p s) (ex78B s)) (hx : PossibleWhole x) :
    Ready (ex78p s) (ex78B s) 1 (ex78s x) ∧ SameWhole x (wholeOf (ex78p s) (ex78B s) (ex78s x).cur.params) := by
  obtain ⟨h1, h2, h3⟩ := ex78_state s x hx
  exact ⟨⟨h1, h3, rfl, rfl, fun _ _ _ h => (by cases h), fun _ _ _ h => (by cases h)⟩, h2⟩

example (s : ArgSort) := C79_sampled (ex78_problem s) (ex79_names s) one_ne_zero (b := 10) (s := 5) (by norm_num) ex78s (ex79_ready s)

example (s : ArgSort) := C79_completed (ex78_problem s) (ex79_names s) one_ne_zero (b := 10) (s := 5) (by norm_num) ex78s (ex79_ready s)

theorem ex79q_names : PlainNames ex78q := by
  have hs : Plain "s" := plain_of (by decide +kernel)
  have ht : Plain "t" := plain_of (by decide +kernel)
  have ha : Plain "a" := plain_of (by decide +kernel)
  have hb : Plain "b" := plain_of (by decide +kernel)
  refine ⟨fun nm sp h => ?_, fun t ht => by cases ht⟩
  rcases List.mem_cons.1 h with h | h
  · obtain ⟨rfl, rfl⟩ := Prod.mk.inj h
    refine ⟨hs, fun k q hk => ?_⟩
    rcases List.mem_cons.1 hk with e | hk
    · rw [(Prod.mk.inj e).1]
      exact ha
    · rw [(Prod.mk.inj (List.mem_singleton.1 hk)).1]
      exact hb
  · obtain ⟨rfl, rfl⟩ := Prod.mk.inj (List.mem_singleton.1 h)
    refine ⟨ht, fun k q hk => ?_⟩
    rcases List.mem_cons.1 hk with e | hk
    · rw [(Prod.mk.inj e).1]
      exact ha
    · rw [(Prod.mk.inj (List.mem_singleton.1 hk)).1]
      exact hb

theorem ex79q_ready (x : Whole ex78q ex78C) (hx : PossibleWhole x) :
    Ready ex78q ex78C 1 (ex78u x) ∧ SameWhole x (wholeOf ex78q ex78C (ex78u x).cur.params) := by
  obtain ⟨h1, h2, h3⟩ := ex78u_state x hx
  exact ⟨⟨h1, h3, rfl, rfl, fun _ _ _ h => (by cases h), fun _ _ _ h => (by cases h)⟩, h2⟩

example := C79_posterior ex78q_problem ex78q_plain rfl ex79q_names one_ne_zero (b := 10) (s := 5) (by norm_num) ex78u ex79q_ready

end Examples

end BB.Props
