import Verif.Lemmas.Truncated
import Mathlib.Probability.Moments.MGFAnalytic
import Mathlib.Analysis.Analytic.Order
import Mathlib.MeasureTheory.Topology

/-!
# A mass of a Gaussian function takes no value on a set of positive measure
-/

namespace BB.Lemmas

open BB.Spec MeasureTheory ProbabilityTheory Filter

theorem bell_split {σ : ℝ} (hσ : σ ≠ 0) (x a : ℝ) :
    bell σ x a = Real.exp (-(x ^ 2 / (2 * σ ^ 2))) * (Real.exp (x / σ ^ 2 * a) * Real.exp (-(a ^ 2 / (2 * σ ^ 2)))) := by
  unfold bell
  rw [← Real.exp_add, ← Real.exp_add]
  congr 1
  field_simp
  ring

theorem exp_integrable {μ : Measure ℝ} [IsFiniteMeasure μ] {K : ℝ} (hK : ∀ᵐ a ∂μ, |a| ≤ K) (t : ℝ) :
    Integrable (fun a => Real.exp (t * a)) μ := by
  refine Integrable.of_bound (by fun_prop) (Real.exp (|t| * K)) ?_
  filter_upwards [hK] with a ha
  rw [Real.norm_eq_abs, abs_of_pos (Real.exp_pos _)]
  refine Real.exp_le_exp.2 ?_
  calc t * a ≤ |t * a| := le_abs_self _
    _ = |t| * |a| := abs_mul _ _
    _ ≤ _ := by gcongr

/-- The integral of the Gaussian function centred at `x` takes no value on a set of positive measure. -/
theorem level_null {σ : ℝ} (hσ : σ ≠ 0) {μ : Measure ℝ} [IsFiniteMeasure μ] (hμ : μ ≠ 0) {K : ℝ} (hK : ∀ᵐ a ∂μ, |a| ≤ K)
    (c : ℝ) : volume {x | ∫ a, bell σ x a ∂μ = c} = 0 := by
  have hcont : ∀ x, Continuous (bell σ x) := bell_continuous σ
  -- positive, and small far away
  have hint : ∀ x, Integrable (bell σ x) μ := fun x => by
    refine Integrable.of_bound (hcont x).aestronglyMeasurable 1 (.of_forall fun a => ?_)
    rw [Real.norm_eq_abs, abs_of_pos (bell_pos _ _ _)]
    refine Real.exp_le_one_iff.2 (neg_nonpos.2 (by positivity))
  have hpos : ∀ x, 0 < ∫ a, bell σ x a ∂μ := fun x => by
    rw [integral_pos_iff_support_of_nonneg (fun a => (bell_pos _ _ _).le) (hint x)]
    have : Function.support (bell σ x) = Set.univ := by
      ext a
      simp [(bell_pos σ x a).ne']
    rw [this]
    exact pos_iff_ne_zero.2 (by simpa using hμ)
  set ν : Measure ℝ := μ.withDensity fun a => ENNReal.ofReal (Real.exp (-(a ^ 2 / (2 * σ ^ 2)))) with hν
  have hg : Measurable fun a : ℝ => Real.exp (-(a ^ 2 / (2 * σ ^ 2))) := by fun_prop
  have hmass : ∀ x, ∫ a, bell σ x a ∂μ = Real.exp (-(x ^ 2 / (2 * σ ^ 2))) * mgf id ν (x / σ ^ 2) := by
    intro x
    unfold mgf
    rw [hν, integral_withDensity_eq_integral_toReal_smul hg.ennreal_ofReal (.of_forall fun a => ENNReal.ofReal_lt_top),
      ← integral_const_mul]
    refine integral_congr_ae (.of_forall fun a => ?_)
    simp only [id, smul_eq_mul]
    rw [ENNReal.toReal_ofReal (Real.exp_pos _).le, bell_split hσ]
    ring
  have hfin : IsFiniteMeasure ν := by
    refine isFiniteMeasure_withDensity_ofReal (Integrable.hasFiniteIntegral ?_)
    have := hint 0
    have e : bell σ 0 = fun a : ℝ => Real.exp (-(a ^ 2 / (2 * σ ^ 2))) := by
      funext a
      simp [bell]
    rwa [e] at this
  have hK' : ∀ᵐ a ∂ν, |a| ≤ K := (withDensity_absolutelyContinuous _ _).ae_le hK
  have hset : integrableExpSet id ν = Set.univ := by
    ext t
    simp only [Set.mem_univ, iff_true]
    exact exp_integrable hK' t
  have han : AnalyticOnNhd ℝ (fun x => ∫ a, bell σ x a ∂μ - c) Set.univ := by
    have h1 : AnalyticOnNhd ℝ (mgf id ν) Set.univ := by
      have := analyticOnNhd_mgf (X := id) (μ := ν)
      rwa [hset, interior_univ] at this
    have h2 : AnalyticOnNhd ℝ (fun x : ℝ => mgf id ν (x / σ ^ 2)) Set.univ := by
      intro x _
      have h3 : AnalyticAt ℝ (fun x : ℝ => x / σ ^ 2) x := analyticAt_id.div_const
      exact AnalyticAt.comp (g := mgf id ν) (f := fun x : ℝ => x / σ ^ 2) (h1 _ trivial) h3
    have h4 : (fun x => ∫ a, bell σ x a ∂μ - c) =
        fun x => Real.exp (-(x ^ 2 / (2 * σ ^ 2))) * mgf id ν (x / σ ^ 2) - c := by
      funext x
      rw [hmass]
    rw [h4]
    intro x _
    have h5 : AnalyticAt ℝ (fun x : ℝ => -(x ^ 2 / (2 * σ ^ 2))) x := by fun_prop
    exact (h5.rexp.mul (h2 x trivial)).sub analyticAt_const
  have hlim : ∀ ε > 0, ∃ x, ∫ a, bell σ x a ∂μ < ε := by
    intro ε hε
    have hlim : Tendsto (fun x : ℝ => (Real.exp (-((x - K) ^ 2 / (2 * σ ^ 2)))) * (μ Set.univ).toReal) atTop (nhds (0 * (μ Set.univ).toReal)) := by
      refine Tendsto.mul_const _ (Real.tendsto_exp_neg_atTop_nhds_zero.comp ?_)
      have h1 : Tendsto (fun x : ℝ => (x - K) ^ 2) atTop atTop :=
        (tendsto_pow_atTop two_ne_zero).comp (tendsto_atTop_add_const_right _ (-K) tendsto_id)
      exact h1.atTop_div_const (by positivity)
    rw [zero_mul] at hlim
    obtain ⟨x, hx1, hx2⟩ := ((hlim.eventually_lt_const hε).and (eventually_ge_atTop K)).exists
    refine ⟨x, lt_of_le_of_lt ?_ hx1⟩
    calc ∫ a, bell σ x a ∂μ ≤ ∫ a, Real.exp (-((x - K) ^ 2 / (2 * σ ^ 2))) ∂μ := by
          refine integral_mono_ae (hint x) (integrable_const _) ?_
          filter_upwards [hK] with a ha
          unfold bell
          refine Real.exp_le_exp.2 (neg_le_neg ?_)
          have h1 : a ≤ K := (abs_le.1 ha).2
          have h2 : (x - K) ^ 2 ≤ (a - x) ^ 2 := by nlinarith
          gcongr
      _ = _ := by
          rw [integral_const, smul_eq_mul, mul_comm]
          rfl
  obtain ⟨x, hx⟩ : ∃ x, ∫ a, bell σ x a ∂μ - c ≠ 0 := by
    by_contra hc
    push Not at hc
    have h1 : ∀ x, ∫ a, bell σ x a ∂μ = c := fun x => sub_eq_zero.1 (hc x)
    have h2 : 0 < c := h1 0 ▸ hpos 0
    obtain ⟨x, hx⟩ := hlim c h2
    exact absurd (h1 x) hx.ne
  have hco := han.preimage_zero_mem_codiscrete hx
  have hae := ae_restrict_le_codiscreteWithin (μ := (volume : Measure ℝ)) MeasurableSet.univ hco
  rw [Measure.restrict_univ, mem_ae_iff] at hae
  refine measure_mono_null ?_ hae
  intro x hx
  have hx' : ∫ a, bell σ x a ∂μ = c := hx
  simp [hx']

end BB.Lemmas
