import Verif.Props.C79_Iterations
import Verif.Props.C80_WholeNotPosterior
import Verif.Lemmas.WholeRoam
import Verif.Lemmas.LineOverlap

/-!
# C82 — chains of whole inversions converge

The chain of an inversion as in C78 (any number of parameter spaces without sites, of fixed or variable dimension, and Voronoi
tessellations in one or two dimensions with a fixed number of cells, with or without unknown noise, and with any likelihood), in which
no value is perturbed by a standard deviation of zero and the possible values at neighbouring sites overlap.  Whatever the distribution
of the first model (if it has a density), the distribution of the model after `n` iterations approaches that of C78 as `n` grows, uniformly
over all sets of models.  It approaches the posterior exactly if there are no tessellations and all noise is known.
-/

namespace BB.Props

open BB Spec Lemmas MeasureTheory

variable {E : Type} {p : Problem} {B : ℕ → Block} {logLik : Whole p B → ℝ}

/-- From any first model, the models approach the distribution that the iterations preserve. -/
theorem C82_converges (h : InversionOf p B Roaming logLik) (hn : PlainNames p) {T : ℝ} (hT : T ≠ 0) {b s : ℤ} (hs : s ≠ 0)
    (state : Whole p B → Chain State Store E)
    (hstate : ∀ x, PossibleWhole x → Ready p B T (state x) ∧ SameWhole x (wholeOf p B (state x).cur.params))
    (hfin : posterior (wholePrior p B) logLik T Set.univ ≠ ⊤) (μ : Measure (Whole p B)) (hμ : IsProbabilityMeasure μ)
    (hac : μ ≪ wholePrior p B) (ε : ℝ) (hε : 0 < ε) :
    ∃ n₀, ∀ n ≥ n₀, ∀ A, MeasurableSet A → Invariant SameWhole A →
      |(∫⁻ x, IterationsLaw p.cfg b s (wholeDraws p B) (wholeLaw p B) (fun st => wholeOf p B st.params) n (state x) A ∂μ).toReal -
        (posterior ((wholePrior p B).withDensity fun x => ENNReal.ofReal (wholeStaying p B x)) logLik T A /
          posterior ((wholePrior p B).withDensity fun x => ENNReal.ofReal (wholeStaying p B x)) logLik T Set.univ).toReal| ≤ ε :=
  whole_converges h hn hT hs state hstate hfin μ hac hε

/-- They approach the posterior exactly if there are no tessellations and all noise is known. -/
theorem C82_exactly (h : InversionOf p B Roaming logLik) (hn : PlainNames p) {T : ℝ} (hT : T ≠ 0) {b s : ℤ} (hs : s ≠ 0)
    (state : Whole p B → Chain State Store E)
    (hstate : ∀ x, PossibleWhole x → Ready p B T (state x) ∧ SameWhole x (wholeOf p B (state x).cur.params))
    (hfin : posterior (wholePrior p B) logLik T Set.univ ≠ ⊤) :
    (∀ μ : Measure (Whole p B), IsProbabilityMeasure μ → μ ≪ wholePrior p B → ∀ A, MeasurableSet A → Invariant SameWhole A →
      Filter.Tendsto (fun n => (∫⁻ x, IterationsLaw p.cfg b s (wholeDraws p B) (wholeLaw p B) (fun st => wholeOf p B st.params) n
          (state x) A ∂μ).toReal) Filter.atTop
        (nhds (posterior (wholePrior p B) logLik T A / posterior (wholePrior p B) logLik T Set.univ).toReal)) ↔
    (∀ kv ∈ p.spaces, kv.2.info.kind = .plain) ∧ p.hier = [] := by
  have hw : WholeProblem p B logLik := inversion_mono (fun _ _ => roaming_modelled) h
  have ha := any_of_whole hw
  have hlim : ∀ μ : Measure (Whole p B), IsProbabilityMeasure μ → μ ≪ wholePrior p B → ∀ A, MeasurableSet A → Invariant SameWhole A →
      Filter.Tendsto (fun n => (∫⁻ x, IterationsLaw p.cfg b s (wholeDraws p B) (wholeLaw p B) (fun st => wholeOf p B st.params) n
          (state x) A ∂μ).toReal) Filter.atTop
        (nhds (posterior ((wholePrior p B).withDensity fun x => ENNReal.ofReal (wholeStaying p B x)) logLik T A /
          posterior ((wholePrior p B).withDensity fun x => ENNReal.ofReal (wholeStaying p B x)) logLik T Set.univ).toReal) := by
    intro μ hμ hac A hA hAr
    rw [Metric.tendsto_atTop]
    intro ε hε
    obtain ⟨n₀, h₀⟩ := C82_converges h hn hT hs (b := b) state hstate hfin μ hμ hac (ε / 2) (half_pos hε)
    exact ⟨n₀, fun n hn => lt_of_le_of_lt (h₀ n hn A hA hAr) (half_lt_self hε)⟩
  constructor
  · intro hp
    have hfi := wholePrior_finite ha
    have h0 : wholePrior p B Set.univ ≠ 0 := fun hc => wholePrior_ne ha (Measure.measure_univ_eq_zero.1 hc)
    have hμ : IsProbabilityMeasure ((wholePrior p B Set.univ)⁻¹ • wholePrior p B) :=
      ⟨by rw [Measure.smul_apply, smul_eq_mul, ENNReal.inv_mul_cancel h0 (measure_ne_top _ _)]⟩
    have hac : (wholePrior p B Set.univ)⁻¹ • wholePrior p B ≪ wholePrior p B := Measure.smul_absolutelyContinuous
    have hst : ∀ x, PossibleWhole x → HoldsAll p B ({ state x with temp := T } : Chain State Store E).cur.params ∧
        SameWhole x (wholeOf p B ({ state x with temp := T } : Chain State Store E).cur.params) ∧
        Coherent p.tf ({ state x with temp := T } : Chain State Store E).cur := fun x hx =>
      ⟨(hstate x hx).1.holds, (hstate x hx).2, (hstate x hx).1.cache⟩
    refine (C80_exactly ha hT (fun x => { state x with temp := T }) hst (fun _ => rfl) hfin).1
      (whole_same_posterior hw hT (fun x => { state x with temp := T }) hst (fun _ => rfl) hfin fun A hA hAr => ?_)
    exact tendsto_nhds_unique (hlim _ hμ hac A hA hAr) (hp _ hμ hac A hA hAr)
  · rintro ⟨h1, h2⟩
    have hplain : ∀ (i : ℕ) (nm : String) (sp : Space), p.spaces[i]? = some (nm, sp) → sp.info.kind = .plain :=
      fun i nm sp hi => h1 _ (List.mem_of_getElem? hi)
    have e : (wholePrior p B).withDensity (fun x => ENNReal.ofReal (wholeStaying p B x)) = wholePrior p B := by
      simp only [wholeStaying_one hw hplain h2, ENNReal.ofReal_one]
      exact withDensity_one
    rw [e] at hlim
    exact hlim

/-- On a line, the possible values always overlap at neighbouring sites if the bounds of the uniform priors are constant or given at
nodes in increasing order. -/
theorem C82_line {k : ℕ} (sp : Space) (prs : Fin k → Prior) (v : Vor1) (dens : Fin k → ℝ → ℝ → ℝ) (std : Fin k → ℝ → ℝ)
    (h : OnLine sp prs v dens std) (hfix : sp.info.transD = false) (hstd : ∀ j, ∀ x ∈ Set.Icc v.vmin v.vmax, std j x ≠ 0)
    (ho : ∀ j, OrderedBounds (prs j)) : Roaming sp (lineBlock sp prs v dens) :=
  .line sp prs v dens std h hfix hstd (online_overlaps h ho)

/-! ### examples

Those of C78. -/

section Examples

theorem ex82_ordered (j : Fin 2) : OrderedBounds (exPriors23 j) := by
  fin_cases j
  · exact ⟨trivial, trivial⟩
  · exact trivial

/-- Bounds that depend on the depth. -/
example : OrderedBounds ⟨"vs", .uniform (.line [0, 4, 10] [1, 2, 5]) (.line [0, 4, 10] [3, 4, 6]), .const 1, .const 1, true, none⟩ := by
  refine ⟨⟨?_, rfl, by simp⟩, ?_, rfl, by simp⟩ <;>
  · simp only [List.pairwise_cons, List.mem_cons, List.not_mem_nil]
    norm_num

/-- Three cells on a line and unknown noise. -/
theorem ex82_problem (s : ArgSort) : InversionOf (ex78p s) (ex78B s) Roaming ex78l :=
  { ex78_problem s with
    spaces := by
      intro i nm sp h
      match i with
      | 0 =>
        obtain ⟨rfl, rfl⟩ := Prod.mk.inj (Option.some.inj h)
        exact ⟨rfl, C82_line _ _ _ _ _ (ex77_line (ex77_only _) (by change 1 ≤ 3; decide) s rfl) rfl (fun _ _ _ => one_ne_zero)
          ex82_ordered⟩
      | i + 1 => cases h }

example (s : ArgSort) := C82_converges (ex82_problem s) (ex79_names s) one_ne_zero (b := 10) (s := 5) (by norm_num) ex78s (ex79_ready s)
  (ex80_fin s)

example (s : ArgSort) := C82_exactly (ex82_problem s) (ex79_names s) one_ne_zero (b := 10) (s := 5) (by norm_num) ex78s (ex79_ready s)
  (ex80_fin s)

/-- Two spaces without sites. -/
theorem ex82q_problem : InversionOf ex78q ex78C Roaming fun x => exLik23 (ex78y x) :=
  { ex78q_problem with
    spaces := by
      intro i nm sp h
      match i with
      | 0 =>
        obtain ⟨rfl, rfl⟩ := Prod.mk.inj (Option.some.inj h)
        exact ⟨rfl, .plain _ _ _ _ rfl (ex77_can _ _ (ex23_only _) (by decide)) rfl (by decide) fun _ _ => one_ne_zero⟩
      | 1 =>
        obtain ⟨rfl, rfl⟩ := Prod.mk.inj (Option.some.inj h)
        exact ⟨rfl, .fixed _ _ _ _ rfl (ex77_can _ _ ⟨rfl, (ex23_only .plain).inj, (ex23_only .plain).disc⟩ (by decide)) rfl
          fun _ _ => one_ne_zero⟩
      | i + 2 => cases h }

theorem ex82q_fin : posterior (wholePrior ex78q ex78C) (fun x => exLik23 (ex78y x)) 1 Set.univ ≠ ⊤ := by
  refine fin80 (any_of_whole ex78q_problem) 0 fun x _ => ?_
  change -(_ : ℝ) ≤ 0
  exact neg_nonpos.2 (Nat.cast_nonneg _)

example := C82_converges ex82q_problem ex79q_names one_ne_zero (b := 10) (s := 5) (by norm_num) ex78u ex79q_ready ex82q_fin

example := C82_exactly ex82q_problem ex79q_names one_ne_zero (b := 10) (s := 5) (by norm_num) ex78u ex79q_ready ex82q_fin

end Examples

end BB.Props
