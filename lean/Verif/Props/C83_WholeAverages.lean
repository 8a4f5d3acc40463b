import Verif.Props.C82_WholeConvergence
import Verif.Lemmas.WholeAverages

/-!
# C83 — averages over the saved samples of whole inversions

The chain of an inversion as in C82, at temperature 1.  After sufficiently many iterations, with a probability as close to one as desired:
all of the iterations were completed; what they have added to the lists of saved values are the values of one or more models of the
inversion, in the order in which they were visited; and the average of a bounded function over these models is as close as desired to
its mean with respect to the distribution of C78.  For all functions, this mean is that of the posterior exactly if there are no
tessellations and all noise is known.
-/

namespace BB.Props

open BB Spec Lemmas MeasureTheory

variable {E : Type} {p : Problem} {B : ℕ → Block} {logLik : Whole p B → ℝ}

/-- From any first model, the averages over the saved models approach the mean of the distribution that the iterations preserve. -/
theorem C83_averages (h : InversionOf p B Roaming logLik) (hn : PlainNames p) {b s : ℤ} (hs : s ≠ 0)
    (state : Whole p B → Chain State Store E)
    (hstate : ∀ x, PossibleWhole x → Ready p B 1 (state x) ∧ SameWhole x (wholeOf p B (state x).cur.params))
    (τ : ℕ) (hτ : ∀ x, PossibleWhole x → (state x).total = τ)
    (hfin : posterior (wholePrior p B) logLik 1 Set.univ ≠ ⊤) (μ : Measure (Whole p B)) (hμ : IsProbabilityMeasure μ)
    (hac : μ ≪ wholePrior p B) (f : Whole p B → ℝ) (hf : Measurable f) (C : ℝ) (hC : ∀ x, |f x| ≤ C)
    (hfr : ∀ x y, SameWhole x y → f x = f y) (ε δ : ℝ) (hε : 0 < ε) (hδ : 0 < δ) :
    ∃ n₀, ∀ n ≥ n₀, 1 - ENNReal.ofReal ε ≤
      ∫⁻ x, RunsLaw p.cfg b s (wholeDraws p B) (wholeLaw p B) (fun c' => ∃ sts, SavesStates p (state x).saved c'.saved sts ∧
        (∀ st ∈ sts, HoldsAll p B st.params) ∧ sts ≠ [] ∧
        |averageModel p B f sts - meanOf (wholeSampled p B logLik 1) f| ≤ δ) n (state x) ∂μ :=
  whole_averages h hn hs state hstate τ hτ hfin μ hac ⟨hf, C, hC⟩ hfr hε hδ

theorem meanOf_indicator {X : Type} [MeasurableSpace X] (π : Measure X) {A : Set X} (hA : MeasurableSet A) :
    meanOf π (A.indicator 1) = (π A / π Set.univ).toReal := by
  unfold meanOf
  rw [integral_indicator_one hA, measureReal_def, ENNReal.toReal_div]

/-- The means are those of the posterior exactly if there are no tessellations and all noise is known. -/
theorem C83_exactly (h : InversionOf p B Roaming logLik) (state : Whole p B → Chain State Store E)
    (hstate : ∀ x, PossibleWhole x → Ready p B 1 (state x) ∧ SameWhole x (wholeOf p B (state x).cur.params))
    (hfin : posterior (wholePrior p B) logLik 1 Set.univ ≠ ⊤) :
    (∀ f : Whole p B → ℝ, Measurable f → (∃ C, ∀ x, |f x| ≤ C) → (∀ x y, SameWhole x y → f x = f y) →
      meanOf (wholeSampled p B logLik 1) f = meanOf (posterior (wholePrior p B) logLik 1) f) ↔
    (∀ kv ∈ p.spaces, kv.2.info.kind = .plain) ∧ p.hier = [] := by
  have hw : WholeProblem p B logLik := inversion_mono (fun _ _ => roaming_modelled) h
  have ha := any_of_whole hw
  constructor
  · intro hp
    have hst : ∀ x, PossibleWhole x → HoldsAll p B ({ state x with temp := 1 } : Chain State Store E).cur.params ∧
        SameWhole x (wholeOf p B ({ state x with temp := 1 } : Chain State Store E).cur.params) ∧
        Coherent p.tf ({ state x with temp := 1 } : Chain State Store E).cur := fun x hx =>
      ⟨(hstate x hx).1.holds, (hstate x hx).2, (hstate x hx).1.cache⟩
    refine (C80_exactly ha one_ne_zero (fun x => { state x with temp := 1 }) hst (fun _ => rfl) hfin).1
      (whole_same_posterior hw one_ne_zero (fun x => { state x with temp := 1 }) hst (fun _ => rfl) hfin fun A hA hAr => ?_)
    have e := hp (A.indicator 1) (measurable_one.indicator hA) ⟨1, fun x => ?_⟩ fun x y hxy => ?_
    · rw [meanOf_indicator _ hA, meanOf_indicator _ hA] at e
      exact e
    · by_cases hx : x ∈ A
      · rw [Set.indicator_of_mem hx]; simp
      · rw [Set.indicator_of_notMem hx]; simp
    · by_cases hx : x ∈ A
      · rw [Set.indicator_of_mem hx, Set.indicator_of_mem ((hAr x y hxy).1 hx)]; rfl
      · rw [Set.indicator_of_notMem hx, Set.indicator_of_notMem fun hy => hx ((hAr x y hxy).2 hy)]
  · rintro ⟨h1, h2⟩ f - - -
    have hplain : ∀ (i : ℕ) (nm : String) (sp : Space), p.spaces[i]? = some (nm, sp) → sp.info.kind = .plain :=
      fun i nm sp hi => h1 _ (List.mem_of_getElem? hi)
    have e : (wholePrior p B).withDensity (fun x => ENNReal.ofReal (wholeStaying p B x)) = wholePrior p B := by
      simp only [wholeStaying_one hw hplain h2, ENNReal.ofReal_one]
      exact withDensity_one
    unfold wholeSampled
    rw [e]

/-- Without tessellations and with known noise, the averages over the saved models approach the means of the posterior. -/
theorem C83_posterior (h : InversionOf p B Roaming logLik) (hn : PlainNames p) (hplain : ∀ kv ∈ p.spaces, kv.2.info.kind = .plain)
    (hknown : p.hier = []) {b s : ℤ} (hs : s ≠ 0) (state : Whole p B → Chain State Store E)
    (hstate : ∀ x, PossibleWhole x → Ready p B 1 (state x) ∧ SameWhole x (wholeOf p B (state x).cur.params))
    (τ : ℕ) (hτ : ∀ x, PossibleWhole x → (state x).total = τ)
    (hfin : posterior (wholePrior p B) logLik 1 Set.univ ≠ ⊤) (μ : Measure (Whole p B)) (hμ : IsProbabilityMeasure μ)
    (hac : μ ≪ wholePrior p B) (f : Whole p B → ℝ) (hf : Measurable f) (C : ℝ) (hC : ∀ x, |f x| ≤ C)
    (hfr : ∀ x y, SameWhole x y → f x = f y) (ε δ : ℝ) (hε : 0 < ε) (hδ : 0 < δ) :
    ∃ n₀, ∀ n ≥ n₀, 1 - ENNReal.ofReal ε ≤
      ∫⁻ x, RunsLaw p.cfg b s (wholeDraws p B) (wholeLaw p B) (fun c' => ∃ sts, SavesStates p (state x).saved c'.saved sts ∧
        (∀ st ∈ sts, HoldsAll p B st.params) ∧ sts ≠ [] ∧
        |averageModel p B f sts - meanOf (posterior (wholePrior p B) logLik 1) f| ≤ δ) n (state x) ∂μ := by
  rw [← (C83_exactly h state hstate hfin).2 ⟨hplain, hknown⟩ f hf ⟨C, hC⟩ hfr]
  exact C83_averages h hn hs state hstate τ hτ hfin μ hμ hac f hf C hC hfr ε δ hε hδ

/-! ### examples

Those of C82. -/

section Examples

example (s : ArgSort) := C83_averages (ex82_problem s) (ex79_names s) (b := 10) (s := 5) (by norm_num) ex78s (ex79_ready s) 0
  (fun _ _ => rfl) (ex80_fin s)

example (s : ArgSort) := C83_exactly (ex82_problem s) ex78s (ex79_ready s) (ex80_fin s)

theorem ex83_plain : ∀ kv ∈ ex78q.spaces, kv.2.info.kind = .plain := by
  intro kv hkv
  have h : kv ∈ [_, _] := hkv
  rcases List.mem_cons.1 h with rfl | h
  · rfl
  · rw [List.mem_singleton] at h
    rw [h]
    rfl

/-- Whether the first space has two dimensions. -/
noncomputable def ex83f : Whole ex78q ex78C → ℝ := {x | (ex78y x).1 = 2}.indicator 1

theorem ex83f_meas : Measurable ex83f :=
  measurable_one.indicator ((dim_meas.comp (measurable_pi_apply _)) (measurableSet_singleton 2))

theorem ex83f_same (x y : Whole ex78q ex78C) (h : SameWhole x y) : ex83f x = ex83f y := by
  have h0 : SameRows (ex78y x) (ex78y y) := h (⟨0, Nat.zero_lt_two⟩ : Fin ex78q.cfg.perturbs.length)
  have h1 : (ex78y x).1 = (ex78y y).1 := by
    have := h0.length_eq
    rwa [List.length_ofFn, List.length_ofFn] at this
  unfold ex83f
  by_cases hx : (ex78y x).1 = 2
  · rw [Set.indicator_of_mem (show x ∈ {x | (ex78y x).1 = 2} from hx),
      Set.indicator_of_mem (show y ∈ {x | (ex78y x).1 = 2} from h1.symm.trans hx)]
    rfl
  · rw [Set.indicator_of_notMem (show x ∉ {x | (ex78y x).1 = 2} from hx),
      Set.indicator_of_notMem (show y ∉ {x | (ex78y x).1 = 2} from fun hy => hx (h1.trans hy))]

/-- How often two dimensions are among the samples. -/
example (μ : Measure (Whole ex78q ex78C)) (hμ : IsProbabilityMeasure μ) (hac : μ ≪ wholePrior ex78q ex78C) :=
  C83_posterior ex82q_problem ex79q_names ex83_plain rfl (b := 10) (s := 5) (by norm_num) ex78u ex79q_ready 0
    (fun _ _ => rfl) ex82q_fin μ hμ hac ex83f ex83f_meas 1 (fun x => by
      unfold ex83f
      by_cases hx : x ∈ {x | (ex78y x).1 = 2}
      · rw [Set.indicator_of_mem hx]; simp
      · rw [Set.indicator_of_notMem hx]; simp) ex83f_same (1 / 100) (1 / 1000) (by norm_num) (by norm_num)

end Examples

end BB.Props
