import Verif.Lemmas.Truncated
import Verif.Spec.TruncatedPlane
import Verif.Spec.SiteMove
import Mathlib.MeasureTheory.Measure.Prod
import Mathlib.MeasureTheory.Integral.Prod

/-!
# Gaussian proposals in the plane that are redrawn
-/

namespace BB.Lemmas

open BB Spec MeasureTheory ProbabilityTheory

/-- The factor between the density of a Gaussian and `bell`. -/
noncomputable def bellC (σ : ℝ) : ℝ := (√(2 * Real.pi * σ ^ 2))⁻¹

theorem bellC_pos {σ : ℝ} (h : 0 < σ) : 0 < bellC σ := by
  unfold bellC
  positivity

theorem pdf_bell (σ x y : ℝ) : gaussianPDFReal x (σ ^ 2).toNNReal y = bellC σ * bell σ x y := by
  unfold gaussianPDFReal bell bellC
  rw [Real.coe_toNNReal _ (sq_nonneg σ), neg_div]

theorem bell_int {σ : ℝ} (h : 0 < σ) (x : ℝ) : Integrable (bell σ x) := by
  have := (integrable_gaussianPDFReal x (σ ^ 2).toNNReal).const_mul (bellC σ)⁻¹
  refine this.congr (.of_forall fun y => ?_)
  change (bellC σ)⁻¹ * gaussianPDFReal x (σ ^ 2).toNNReal y = bell σ x y
  rw [pdf_bell, inv_mul_cancel_left₀ (bellC_pos h).ne']

variable {σ : ℝ × ℝ} {D : Set (ℝ × ℝ)}

theorem bell2_pos (σ x y : ℝ × ℝ) : 0 < bell2 σ x y := mul_pos (bell_pos _ _ _) (bell_pos _ _ _)

theorem bell2_symm (σ x y : ℝ × ℝ) : bell2 σ x y = bell2 σ y x := by
  unfold bell2
  rw [bell_symm σ.1, bell_symm σ.2]

theorem bell2_int (h1 : 0 < σ.1) (h2 : 0 < σ.2) (x : ℝ × ℝ) : Integrable (bell2 σ x) :=
  (bell_int h1 x.1).mul_prod (bell_int h2 x.2)

theorem bell2_meas (x : ℝ × ℝ) : Measurable (bell2 σ x) :=
  ((bell_continuous _ _).measurable.comp measurable_fst).mul ((bell_continuous _ _).measurable.comp measurable_snd)

theorem mass2_pos (h1 : 0 < σ.1) (h2 : 0 < σ.2) (hv : volume D ≠ 0) (x : ℝ × ℝ) : 0 < ∫ z in D, bell2 σ x z := by
  rw [integral_pos_iff_support_of_nonneg (fun z => (bell2_pos σ x z).le) (bell2_int h1 h2 x).integrableOn]
  have : Function.support (bell2 σ x) = Set.univ := Set.eq_univ_of_forall fun z => (bell2_pos σ x z).ne'
  rw [this, Measure.restrict_apply_univ]
  exact pos_iff_ne_zero.2 hv

/-- The law of a step in the plane. -/
theorem step2_apply (h1 : 0 < σ.1) (h2 : 0 < σ.2) (x : ℝ × ℝ) {A : Set (ℝ × ℝ)} (hA : MeasurableSet A) :
    ((gaussianReal x.1 (σ.1 ^ 2).toNNReal).prod (gaussianReal x.2 (σ.2 ^ 2).toNNReal)) A =
      ∫⁻ y in A, ENNReal.ofReal (bellC σ.1 * bellC σ.2 * bell2 σ x y) := by
  rw [gaussianReal_of_var_ne_zero _ (by simpa using h1.ne'), gaussianReal_of_var_ne_zero _ (by simpa using h2.ne'),
    prod_withDensity (measurable_gaussianPDF _ _) (measurable_gaussianPDF _ _), withDensity_apply _ hA]
  refine lintegral_congr fun y => ?_
  change ENNReal.ofReal (gaussianPDFReal _ _ _) * ENNReal.ofReal (gaussianPDFReal _ _ _) = _
  rw [← ENNReal.ofReal_mul (gaussianPDFReal_nonneg _ _ _), pdf_bell, pdf_bell]
  congr 1
  unfold bell2
  ring

theorem stay2_eq (h1 : 0 < σ.1) (h2 : 0 < σ.2) (hD : MeasurableSet D) (x : ℝ × ℝ) :
    ((gaussianReal x.1 (σ.1 ^ 2).toNNReal).prod (gaussianReal x.2 (σ.2 ^ 2).toNNReal)) D =
      ENNReal.ofReal (bellC σ.1 * bellC σ.2 * ∫ z in D, bell2 σ x z) := by
  rw [step2_apply h1 h2 x hD, ← ofReal_integral_eq_lintegral_ofReal ((bell2_int h1 h2 x).const_mul _).integrableOn
    (.of_forall fun z => (mul_pos (mul_pos (bellC_pos h1) (bellC_pos h2)) (bell2_pos σ x z)).le), integral_const_mul]

/-- `redrawn2` is the density of the conditional law. -/
theorem cond_gaussian2 (h1 : 0 < σ.1) (h2 : 0 < σ.2) (hD : MeasurableSet D) (hv : volume D ≠ 0) (x : ℝ × ℝ) {A : Set (ℝ × ℝ)}
    (hA : MeasurableSet A) :
    ((gaussianReal x.1 (σ.1 ^ 2).toNNReal).prod (gaussianReal x.2 (σ.2 ^ 2).toNNReal))[A | D] =
      ∫⁻ y in D ∩ A, ENNReal.ofReal (redrawn2 σ D x y) := by
  have hc := mul_pos (bellC_pos h1) (bellC_pos h2)
  have hm := mass2_pos h1 h2 hv x
  rw [cond_apply hD, stay2_eq h1 h2 hD, step2_apply h1 h2 x (hD.inter hA), ← lintegral_const_mul]
  · refine lintegral_congr fun y => ?_
    rw [← ENNReal.ofReal_inv_of_pos (by positivity), ← ENNReal.ofReal_mul (by positivity)]
    congr 1
    unfold redrawn2
    generalize ∫ z in D, bell2 σ x z = m at *
    field_simp
    exact mul_div_cancel_left₀ _ hc.ne'
  · exact ((bell2_meas x).const_mul _).ennreal_ofReal

theorem ratio2_zero_iff (h1 : 0 < σ.1) (h2 : 0 < σ.2) (hv : volume D ≠ 0) (x y : ℝ × ℝ) :
    proposalRatio2 σ D x y = 0 ↔ ∫ z in D, bell2 σ y z = ∫ z in D, bell2 σ x z := by
  unfold proposalRatio2 redrawn2
  have hx := mass2_pos h1 h2 hv x
  have hy := mass2_pos h1 h2 hv y
  rw [Real.log_div (bell2_pos _ _ _).ne' hy.ne', Real.log_div (bell2_pos _ _ _).ne' hx.ne', bell2_symm σ y x]
  constructor
  · intro h
    exact Real.log_injOn_pos hy hx (by linarith)
  · intro h
    rw [h, sub_self]

theorem planeStay_iff {v : Vor2} (h1 : 0 < v.std.1) (h2 : 0 < v.std.2) (hD : MeasurableSet {q | InDomain v q})
    (hv : volume {q | InDomain v q} ≠ 0) (x y : ℝ × ℝ) :
    proposalRatio2 v.std {q | InDomain v q} x y = 0 ↔ planeStay v y = planeStay v x := by
  have hc := mul_pos (bellC_pos h1) (bellC_pos h2)
  rw [ratio2_zero_iff h1 h2 hv]
  unfold planeStay
  rw [measureReal_def, measureReal_def, stay2_eq h1 h2 hD, stay2_eq h1 h2 hD,
    ENNReal.toReal_ofReal (mul_pos hc (mass2_pos h1 h2 hv y)).le, ENNReal.toReal_ofReal (mul_pos hc (mass2_pos h1 h2 hv x)).le]
  exact ⟨fun h => by rw [h], fun h => mul_left_cancel₀ hc.ne' h⟩

end BB.Lemmas
