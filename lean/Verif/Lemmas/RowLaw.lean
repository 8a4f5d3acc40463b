import Verif.Spec.RowLaw
import Verif.Lemmas.TransD
import Verif.Lemmas.Prior
import Mathlib.MeasureTheory.Measure.Lebesgue.Basic
import Mathlib.MeasureTheory.Integral.IntegralEqImproper
import Mathlib.Probability.Distributions.Gaussian.Real

/-!
# The law of the values drawn from a prior, and of rows
-/

namespace BB.Lemmas

open BB BB.Spec MeasureTheory ProbabilityTheory

/-! ### independent values -/

theorem lintegral_pi_prod : ∀ {k : ℕ} (f : Fin k → ℝ → ENNReal), (∀ j, Measurable (f j)) →
    ∫⁻ v : Fin k → ℝ, ∏ j, f j (v j) ∂(Measure.pi fun _ => volume) = ∏ j, ∫⁻ x, f j x
  | 0, f, _ => by simp
  | k + 1, f, hf => by
    have hm : Measurable fun v : Fin k → ℝ => ∏ j : Fin k, f j.succ (v j) :=
      Finset.measurable_prod _ fun j _ => (hf j.succ).comp (measurable_pi_apply j)
    rw [lintegral_succ volume 0]
    have e : (fun z : ℝ × (Fin k → ℝ) => ∏ j, f j (insertAt 0 z.1 z.2 j)) =
        fun z => f 0 z.1 * ∏ j : Fin k, f j.succ (z.2 j) := by
      funext z
      rw [Fin.prod_univ_succ]
      simp [insertAt]
    rw [e, lintegral_prod_mul (hf 0).aemeasurable hm.aemeasurable, lintegral_pi_prod _ fun j => hf j.succ,
      Fin.prod_univ_succ]

theorem pi_withDensity {k : ℕ} (f : Fin k → ℝ → ENNReal) (hf : ∀ j, Measurable (f j))
    [∀ j, SigmaFinite (volume.withDensity (f j))] :
    (Measure.pi fun j => volume.withDensity (f j)) =
      (volume : Measure (Fin k → ℝ)).withDensity fun v => ∏ j, f j (v j) := by
  refine Measure.pi_eq fun s hs => ?_
  have hms : MeasurableSet (Set.pi Set.univ s) := MeasurableSet.univ_pi hs
  rw [withDensity_apply _ hms, ← lintegral_indicator hms]
  have e : (Set.pi Set.univ s).indicator (fun v : Fin k → ℝ => ∏ j, f j (v j)) =
      fun v => ∏ j, (s j).indicator (f j) (v j) := by
    classical
    funext v
    by_cases h : v ∈ Set.pi Set.univ s
    · rw [Set.indicator_of_mem h]
      exact Finset.prod_congr rfl fun j _ => (Set.indicator_of_mem (h j trivial) _).symm
    · rw [Set.indicator_of_notMem h]
      obtain ⟨j, hj⟩ : ∃ j, v j ∉ s j := by
        by_contra hc
        push Not at hc
        exact h fun j _ => hc j
      exact (Finset.prod_eq_zero (Finset.mem_univ j) (Set.indicator_of_notMem hj _)).symm
  rw [e]
  refine (lintegral_pi_prod _ fun j => (hf j).indicator (hs j)).trans ?_
  refine Finset.prod_congr rfl fun j _ => ?_
  rw [lintegral_indicator (hs j), withDensity_apply _ (hs j)]

/-- Drawing a site, then the values: the law of the row. -/
theorem row_law {P Ω : Type} [MeasurableSpace P] [MeasurableSpace Ω] {σ : Measure P} [IsProbabilityMeasure σ] {k : ℕ}
    {dens : Fin k → P → ℝ → ℝ} (hm : ∀ j, Measurable fun z : P × ℝ => dens j z.1 z.2) {μ : Measure Ω}
    [IsProbabilityMeasure μ] {site : Ω → P} (hs : Measurable site) (hσ : μ.map site = σ) {dom : Set P}
    (hdom : ∀ᵐ x ∂σ, x ∈ dom) {value : Fin k → P → ℝ → ℝ} (hv : ∀ j, Measurable fun z : P × ℝ => value j z.1 z.2)
    {dev : Fin k → Measure ℝ} [∀ j, IsProbabilityMeasure (dev j)]
    (law : ∀ j, ∀ x ∈ dom, (dev j).map (value j x) = volume.withDensity fun v => ENNReal.ofReal (dens j x v)) :
    (μ.prod (Measure.pi dev)).map (fun ω => (site ω.1, fun j => value j (site ω.1) (ω.2 j))) = rowLaw σ dens := by
  have hval : Measurable fun z : P × (Fin k → ℝ) => (z.1, fun j => value j z.1 (z.2 j)) := by
    refine measurable_fst.prodMk (measurable_pi_lambda _ fun j => ?_)
    exact (hv j).comp (measurable_fst.prodMk ((measurable_pi_apply j).comp measurable_snd))
  have hdens : Measurable fun z : P × (Fin k → ℝ) => ∏ j, ENNReal.ofReal (dens j z.1 (z.2 j)) := by
    refine Finset.measurable_prod _ fun j _ => ENNReal.measurable_ofReal.comp ?_
    exact (hm j).comp (measurable_fst.prodMk ((measurable_pi_apply j).comp measurable_snd))
  have hrow : Measurable fun ω : Ω × (Fin k → ℝ) => (site ω.1, fun j => value j (site ω.1) (ω.2 j)) :=
    hval.comp ((hs.comp measurable_fst).prodMk measurable_snd)
  refine Measure.ext_of_lintegral _ fun F hF => ?_
  rw [lintegral_map hF hrow, lintegral_prod (fun ω : Ω × (Fin k → ℝ) => F (site ω.1, fun j => value j (site ω.1) (ω.2 j)))
    (hF.comp hrow).aemeasurable]
  have h1 : Measurable fun x : P => ∫⁻ d, F (x, fun j => value j x (d j)) ∂(Measure.pi dev) :=
    Measurable.lintegral_prod_right' (f := fun z : P × (Fin k → ℝ) => F (z.1, fun j => value j z.1 (z.2 j))) (hF.comp hval)
  have h2 := lintegral_map (μ := μ) h1 hs
  rw [hσ] at h2
  refine h2.symm.trans ?_
  unfold rowLaw
  rw [lintegral_withDensity_eq_lintegral_mul _ hdens hF, lintegral_prod _ (hdens.mul hF).aemeasurable]
  refine lintegral_congr_ae (hdom.mono fun x hx => ?_)
  have hmx : ∀ j, Measurable fun v => ENNReal.ofReal (dens j x v) := fun j =>
    ENNReal.measurable_ofReal.comp ((hm j).comp measurable_prodMk_left)
  have hvx : ∀ j, Measurable (value j x) := fun j => (hv j).comp measurable_prodMk_left
  have hp : ∀ j, IsProbabilityMeasure (volume.withDensity fun v => ENNReal.ofReal (dens j x v)) := fun j => by
    rw [← law j x hx]
    exact Measure.isProbabilityMeasure_map (hvx j).aemeasurable
  have hFx : Measurable fun v : Fin k → ℝ => F (x, v) := hF.comp measurable_prodMk_left
  have h3 : (Measure.pi dev).map (fun d j => value j x (d j)) =
      (volume : Measure (Fin k → ℝ)).withDensity fun v => ∏ j, ENNReal.ofReal (dens j x (v j)) := by
    rw [← pi_withDensity (fun j v => ENNReal.ofReal (dens j x v)) hmx,
      Measure.pi_map_pi fun j => (hvx j).aemeasurable]
    · congr 1
      funext j
      exact law j x hx
  have h4 : ∫⁻ d, F (x, fun j => value j x (d j)) ∂(Measure.pi dev) =
      ∫⁻ v, F (x, v) ∂((Measure.pi dev).map fun d j => value j x (d j)) := by
    have h5 : Measurable fun (d : Fin k → ℝ) j => value j x (d j) :=
      measurable_pi_lambda _ fun j => (hvx j).comp (measurable_pi_apply j)
    rw [lintegral_map hFx h5]
  refine h4.trans ?_
  have h6 : Measurable fun v : Fin k → ℝ => ∏ j, ENNReal.ofReal (dens j x (v j)) :=
    Finset.measurable_prod _ fun j _ => (hmx j).comp (measurable_pi_apply j)
  rw [h3, lintegral_withDensity_eq_lintegral_mul _ h6 hFx]
  rfl

/-! ### one value -/

/-- An affine function of a deviate that has a density. -/
theorem map_affine {f : ℝ → ENNReal} (hf : Measurable f) (m : ℝ) {s : ℝ} (hs : 0 < s) :
    (volume.withDensity f).map (fun z => m + z * s) = volume.withDensity fun y => ENNReal.ofReal s⁻¹ * f ((y - m) / s) := by
  have hmeas : Measurable fun z : ℝ => m + z * s := by fun_prop
  have hvol : (volume : Measure ℝ).map (fun z => m + z * s) = ENNReal.ofReal s⁻¹ • volume := by
    have : (fun z : ℝ => m + z * s) = (fun y => m + y) ∘ fun z => z * s := rfl
    rw [this, ← Measure.map_map (by fun_prop) (by fun_prop), Real.map_volume_mul_right hs.ne', Measure.map_smul,
      map_add_left_eq_self, abs_of_pos (inv_pos.2 hs)]
  refine Measure.ext_of_lintegral _ fun F hF => ?_
  have hg : Measurable fun y : ℝ => F y * f ((y - m) / s) := hF.mul (hf.comp (by fun_prop))
  have hd : Measurable fun y : ℝ => ENNReal.ofReal s⁻¹ * f ((y - m) / s) := (hf.comp (by fun_prop)).const_mul _
  rw [lintegral_map hF hmeas, lintegral_withDensity_eq_lintegral_mul _ hf (g := fun z => F (m + z * s)) (hF.comp hmeas),
    lintegral_withDensity_eq_lintegral_mul _ hd hF]
  have e1 : ∫⁻ z, (f * fun z => F (m + z * s)) z = ∫⁻ z, (fun y => F y * f ((y - m) / s)) (m + z * s) := by
    refine lintegral_congr fun z => ?_
    simp only [Pi.mul_apply]
    rw [show (m + z * s - m) / s = z by field_simp; ring, mul_comm]
  rw [e1, ← lintegral_map hg hmeas, hvol, lintegral_smul_measure, smul_eq_mul,
    ← lintegral_const_mul _ hg]
  refine lintegral_congr fun y => ?_
  simp only [Pi.mul_apply]
  ring

theorem unitLaw_density : unitLaw = volume.withDensity ((Set.Ico (0 : ℝ) 1).indicator 1) := by
  unfold unitLaw
  rw [withDensity_indicator_one measurableSet_Ico]

instance : IsProbabilityMeasure unitLaw := ⟨by simp [unitLaw]⟩

theorem unitDraw_u {u : ℝ} (h : 0 ≤ u ∧ u < 1) : (unitDraw u).u = u := by
  unfold unitDraw
  rw [dif_pos h]

theorem unitDraw_meas : Measurable fun u => (unitDraw u).u := by
  classical
  have : (fun u => (unitDraw u).u) = fun u => if 0 ≤ u ∧ u < 1 then u else 0 := by
    funext u
    unfold unitDraw
    split <;> rfl
  rw [this]
  exact Measurable.ite measurableSet_Ico measurable_id measurable_const

theorem unitDraw_ae : (fun u => (unitDraw u).u) =ᵐ[unitLaw] fun u => u := by
  unfold unitLaw
  exact (ae_restrict_iff' measurableSet_Ico).2 (.of_forall fun u hu => unitDraw_u hu)

theorem map_unitLaw {a b : ℝ} (h : a < b) :
    unitLaw.map (fun u => a + (b - a) * (unitDraw u).u) = volume.withDensity fun v => ENNReal.ofReal (uniformPDF a b v) := by
  have h0 : 0 < b - a := sub_pos.2 h
  have e : (fun u => a + (b - a) * (unitDraw u).u) =ᵐ[unitLaw] fun u => a + u * (b - a) :=
    unitDraw_ae.mono fun u hu => by
      change a + (b - a) * (unitDraw u).u = a + u * (b - a)
      have hu' : (unitDraw u).u = u := hu
      rw [hu', mul_comm]
  rw [Measure.map_congr e, unitLaw_density, map_affine (measurable_one.indicator measurableSet_Ico) a h0]
  refine withDensity_congr_ae ?_
  have hb : ∀ᵐ v : ℝ, v ≠ b := by
    rw [ae_iff]
    simp
  refine hb.mono fun v hv => ?_
  change ENNReal.ofReal (b - a)⁻¹ * (Set.Ico (0 : ℝ) 1).indicator 1 ((v - a) / (b - a)) = ENNReal.ofReal (uniformPDF a b v)
  unfold uniformPDF
  by_cases hin : a ≤ v ∧ v ≤ b
  · have hmem : (v - a) / (b - a) ∈ Set.Ico (0 : ℝ) 1 := by
      refine ⟨div_nonneg (by linarith) h0.le, (div_lt_one h0).2 ?_⟩
      have := lt_of_le_of_ne hin.2 hv
      linarith
    rw [if_pos hin, Set.indicator_of_mem hmem, Pi.one_apply, mul_one, one_div]
  · have hmem : (v - a) / (b - a) ∉ Set.Ico (0 : ℝ) 1 := by
      rintro ⟨h1, h2⟩
      rw [div_lt_one h0] at h2
      have h3 : 0 ≤ v - a := by
        by_contra hc
        exact absurd h1 (not_le.2 (div_neg_of_neg_of_pos (not_le.1 hc) h0))
      exact hin ⟨by linarith, by linarith⟩
    rw [if_neg hin, Set.indicator_of_notMem hmem, mul_zero, ENNReal.ofReal_zero]

theorem map_normalLaw (m : ℝ) {s : ℝ} (hs : 0 < s) :
    (gaussianReal 0 1).map (fun z => m + z * s) = volume.withDensity fun v => ENNReal.ofReal (normalPDF m s v) := by
  have h1 : (fun z : ℝ => m + z * s) = (fun z => m + z) ∘ fun z => z * s := rfl
  have hne : (s ^ 2).toNNReal ≠ 0 := by simpa using hs.ne'
  rw [h1, ← Measure.map_map (by fun_prop) (by fun_prop), gaussianReal_map_mul_const, gaussianReal_map_const_add]
  simp only [mul_zero, zero_add, mul_one]
  have h2 : NNReal.mk (s ^ 2) (sq_nonneg s) = (s ^ 2).toNNReal := (Real.toNNReal_of_nonneg (sq_nonneg s)).symm
  rw [h2, gaussianReal_of_var_ne_zero _ hne]
  rfl

theorem laplace_half : ∫⁻ x in Set.Ioi (0 : ℝ), ENNReal.ofReal (Real.exp (-x)) = 1 := by
  rw [← ofReal_integral_eq_lintegral_ofReal]
  · rw [integral_exp_neg_Ioi_zero, ENNReal.ofReal_one]
  · have := exp_neg_integrableOn_Ioi 0 one_pos
    have h2 : IntegrableOn (fun x : ℝ => Real.exp (-x)) (Set.Ioi 0) := by simpa using this
    exact h2
  · exact .of_forall fun x => (Real.exp_pos _).le

instance : IsProbabilityMeasure laplaceLaw := ⟨by
  unfold laplaceLaw
  rw [withDensity_apply _ MeasurableSet.univ, Measure.restrict_univ]
  have hm : Measurable fun x : ℝ => ENNReal.ofReal (laplacePDF 0 1 x) := by
    unfold laplacePDF
    fun_prop
  rw [← lintegral_add_compl _ (measurableSet_Ioi (a := (0 : ℝ))), Set.compl_Ioi]
  have h2 : (2 : ENNReal)⁻¹ + 2⁻¹ = 1 := ENNReal.inv_two_add_inv_two
  have hhalf : ENNReal.ofReal (1 / 2) = 2⁻¹ := by
    rw [one_div, ENNReal.ofReal_inv_of_pos two_pos]
    simp
  have hpos : ∫⁻ x in Set.Ioi (0 : ℝ), ENNReal.ofReal (laplacePDF 0 1 x) = 2⁻¹ := by
    rw [setLIntegral_congr_fun (g := fun x => ENNReal.ofReal (1 / 2) * ENNReal.ofReal (Real.exp (-x))) measurableSet_Ioi,
      lintegral_const_mul _ (by fun_prop), laplace_half, mul_one, hhalf]
    intro x hx
    simp only [laplacePDF]
    rw [← ENNReal.ofReal_mul (by norm_num), sub_zero, abs_of_pos hx]
    congr 1
    ring_nf
  have hneg : ∫⁻ x in Set.Iic (0 : ℝ), ENNReal.ofReal (laplacePDF 0 1 x) = 2⁻¹ := by
    rw [← hpos, ← Measure.restrict_congr_set (Iio_ae_eq_Iic (μ := volume) (a := (0 : ℝ)))]
    have hmp := (Measure.measurePreserving_neg (volume : Measure ℝ))
    have := hmp.setLIntegral_comp_preimage (measurableSet_Ioi (a := (0 : ℝ))) hm
    rw [← this]
    have hpre : (Neg.neg : ℝ → ℝ) ⁻¹' Set.Ioi 0 = Set.Iio 0 := by
      ext x
      simp
    rw [hpre]
    refine lintegral_congr fun x => ?_
    simp [laplacePDF]
  rw [hpos, hneg, h2]⟩

theorem map_laplaceLaw (m : ℝ) {s : ℝ} (hs : 0 < s) :
    laplaceLaw.map (fun z => m + z * s) = volume.withDensity fun v => ENNReal.ofReal (laplacePDF m s v) := by
  unfold laplaceLaw
  rw [map_affine (by unfold laplacePDF; fun_prop) m hs]
  congr 1
  funext v
  rw [← ENNReal.ofReal_mul (inv_pos.2 hs).le]
  congr 1
  unfold laplacePDF
  have e : -|(v - m) / s - 0| / 1 = -|v - m| / s := by
    rw [sub_zero, div_one, abs_div, abs_of_pos hs, neg_div]
  rw [e]
  field_simp

theorem laplaceDev_meas : Measurable M.laplaceDev := by
  classical
  unfold M.laplaceDev
  refine Measurable.ite measurableSet_Ici ?_ ?_
  · exact (Real.measurable_log.comp (by fun_prop)).neg
  · exact Real.measurable_log.comp (by fun_prop)

theorem laplace_tail (a : ℝ) : ∫⁻ x in Set.Ioi a, ENNReal.ofReal (Real.exp (-x)) = ENNReal.ofReal (Real.exp (-a)) := by
  rw [← ofReal_integral_eq_lintegral_ofReal]
  · rw [integral_exp_neg_Ioi]
  · have := exp_neg_integrableOn_Ioi a one_pos
    have h2 : IntegrableOn (fun x : ℝ => Real.exp (-x)) (Set.Ioi a) := by simpa using this
    exact h2
  · exact .of_forall fun x => (Real.exp_pos _).le

theorem laplaceLaw_Ioi {a : ℝ} (ha : 0 ≤ a) : laplaceLaw (Set.Ioi a) = ENNReal.ofReal (Real.exp (-a) / 2) := by
  unfold laplaceLaw
  rw [withDensity_apply _ measurableSet_Ioi,
    setLIntegral_congr_fun (g := fun x => ENNReal.ofReal (1 / 2) * ENNReal.ofReal (Real.exp (-x))) measurableSet_Ioi,
    lintegral_const_mul _ (by fun_prop), laplace_tail, ← ENNReal.ofReal_mul (by norm_num)]
  · congr 1
    ring
  · intro x hx
    have hx' : 0 < x := lt_of_le_of_lt ha hx
    simp only [laplacePDF]
    rw [← ENNReal.ofReal_mul (by norm_num), sub_zero, abs_of_pos hx']
    congr 1
    ring_nf

theorem laplaceLaw_neg : laplaceLaw.map (fun x => -x) = laplaceLaw := by
  unfold laplaceLaw
  refine Measure.ext_of_lintegral _ fun F hF => ?_
  have hm : Measurable fun x : ℝ => ENNReal.ofReal (laplacePDF 0 1 x) := by
    unfold laplacePDF
    fun_prop
  rw [lintegral_map hF measurable_neg, lintegral_withDensity_eq_lintegral_mul _ hm (g := fun x => F (-x)) (hF.comp measurable_neg),
    lintegral_withDensity_eq_lintegral_mul _ hm hF]
  have hmp := (Measure.measurePreserving_neg (volume : Measure ℝ))
  rw [← hmp.lintegral_comp (hm.mul hF)]
  refine lintegral_congr fun x => ?_
  simp [laplacePDF]

theorem laplaceLaw_Iio {a : ℝ} (ha : a ≤ 0) : laplaceLaw (Set.Iio a) = ENNReal.ofReal (Real.exp a / 2) := by
  rw [← laplaceLaw_neg, Measure.map_apply measurable_neg measurableSet_Iio]
  have : (fun x : ℝ => -x) ⁻¹' Set.Iio a = Set.Ioi (-a) := by
    ext x
    simp only [Set.mem_preimage, Set.mem_Iio, Set.mem_Ioi]
    constructor <;> intro h <;> linarith
  rw [this, laplaceLaw_Ioi (by linarith), neg_neg]

theorem laplaceDev_Ioi {a : ℝ} (ha : 0 ≤ a) :
    unitLaw {u | a < M.laplaceDev u} = ENNReal.ofReal (Real.exp (-a) / 2) := by
  have hE : Real.exp (-a) ≤ 1 := Real.exp_le_one_iff.2 (by linarith)
  have hp := Real.exp_pos (-a)
  have hs : {u | a < M.laplaceDev u} ∩ Set.Ico 0 1 = Set.Ioo (1 - Real.exp (-a) / 2) 1 := by
    ext u
    simp only [Set.mem_inter_iff, Set.mem_setOf_eq, Set.mem_Ico, Set.mem_Ioo]
    unfold M.laplaceDev
    constructor
    · rintro ⟨h, h0, h1⟩
      split at h
      · rename_i h2
        have h3 : Real.log (2 - u - u) < -a := by linarith
        rw [Real.log_lt_iff_lt_exp (by linarith)] at h3
        exact ⟨by linarith, h1⟩
      · rename_i h2
        have : Real.log (u + u) ≤ 0 := Real.log_nonpos (by linarith) (by linarith)
        linarith
    · rintro ⟨h, h1⟩
      refine ⟨?_, by linarith, h1⟩
      rw [if_pos (by linarith)]
      have : Real.log (2 - u - u) < -a := by
        rw [Real.log_lt_iff_lt_exp (by linarith)]
        linarith
      linarith
  unfold unitLaw
  rw [Measure.restrict_apply (measurableSet_lt measurable_const laplaceDev_meas), hs, Real.volume_Ioo]
  congr 1
  ring

theorem laplaceDev_Iic {a : ℝ} (ha : a < 0) :
    unitLaw {u | M.laplaceDev u ≤ a} = ENNReal.ofReal (Real.exp a / 2) := by
  have hE : Real.exp a < 1 := Real.exp_lt_one_iff.2 ha
  have hp := Real.exp_pos a
  have hs : {u | M.laplaceDev u ≤ a} ∩ Set.Ico 0 1 = Set.Ioc 0 (Real.exp a / 2) := by
    ext u
    simp only [Set.mem_inter_iff, Set.mem_setOf_eq, Set.mem_Ico, Set.mem_Ioc]
    unfold M.laplaceDev
    constructor
    · rintro ⟨h, h0, h1⟩
      split at h
      · rename_i h2
        have : Real.log (2 - u - u) ≤ 0 := Real.log_nonpos (by linarith) (by linarith)
        linarith
      · rename_i h2
        have hu : 0 < u := by
          rcases h0.lt_or_eq with h0 | h0
          · exact h0
          · rw [← h0] at h
            simp at h
            linarith
        rw [Real.log_le_iff_le_exp (by linarith)] at h
        exact ⟨hu, by linarith⟩
    · rintro ⟨h, h1⟩
      refine ⟨?_, by linarith, by linarith⟩
      rw [if_neg (by linarith), Real.log_le_iff_le_exp (by linarith)]
      linarith
  unfold unitLaw
  rw [Measure.restrict_apply (measurableSet_le laplaceDev_meas measurable_const), hs, Real.volume_Ioc]
  congr 1
  ring

/-- NumPy's formula gives Laplace deviates. -/
theorem map_laplaceDev : unitLaw.map (fun u => M.laplaceDev (unitDraw u).u) = laplaceLaw := by
  have e : (fun u => M.laplaceDev (unitDraw u).u) =ᵐ[unitLaw] M.laplaceDev :=
    unitDraw_ae.mono fun u hu => congrArg M.laplaceDev hu
  rw [Measure.map_congr e]
  have : IsProbabilityMeasure (unitLaw.map M.laplaceDev) :=
    Measure.isProbabilityMeasure_map laplaceDev_meas.aemeasurable
  refine Measure.ext_of_Iic _ _ fun a => ?_
  rcases le_or_gt 0 a with ha | ha
  · rw [← Set.compl_Ioi, prob_compl_eq_one_sub measurableSet_Ioi, prob_compl_eq_one_sub measurableSet_Ioi,
      Measure.map_apply laplaceDev_meas measurableSet_Ioi, laplaceLaw_Ioi ha]
    congr 1
    exact laplaceDev_Ioi ha
  · rw [Measure.map_apply laplaceDev_meas measurableSet_Iic]
    have h1 : laplaceLaw (Set.Iic a) = laplaceLaw (Set.Iio a) := by
      unfold laplaceLaw
      rw [withDensity_apply _ measurableSet_Iio, withDensity_apply _ measurableSet_Iic,
        ← Measure.restrict_congr_set (Iio_ae_eq_Iic (μ := volume) (a := a))]
    rw [h1, laplaceLaw_Iio ha.le]
    exact laplaceDev_Iic ha

instance devLaw_prob (d : Dist) : IsProbabilityMeasure (devLaw d) := by
  cases d <;> unfold devLaw <;> infer_instance

theorem uniformPDF_meas2 {P : Type} [MeasurableSpace P] {a b : P → ℝ} (ha : Measurable a) (hb : Measurable b) :
    Measurable fun z : P × ℝ => uniformPDF (a z.1) (b z.1) z.2 := by
  classical
  unfold uniformPDF
  refine Measurable.ite ?_ (by fun_prop) measurable_const
  exact (measurableSet_le (ha.comp measurable_fst) measurable_snd).inter
    (measurableSet_le measurable_snd (hb.comp measurable_fst))

/-- What the code draws from a prior has the density of the prior. -/
theorem HasDensity.sampled {P : Type} [MeasurableSpace P] {pr : Prior} {loc : P → Pos} {dom : Set P} {dens : P → ℝ → ℝ}
    (h : HasDensity pr loc dom dens) : (Measurable fun z : P × ℝ => dens z.1 z.2) ∧
    ∃ value : P → ℝ → ℝ, (Measurable fun z : P × ℝ => value z.1 z.2) ∧
      (∀ x ∈ dom, ∀ ω rest, pr.sample (loc x) (devDraw pr.dist ω :: rest) = (.ok (value x ω), rest)) ∧
      ∀ x ∈ dom, (devLaw pr.dist).map (value x) = volume.withDensity fun v => ENNReal.ofReal (dens x v) := by
  unfold HasDensity at h
  match hd : pr.dist with
  | .uniform vmin vmax =>
    rw [hd] at h
    obtain ⟨a, b, ha, hb, hab, rfl⟩ := h
    refine ⟨uniformPDF_meas2 ha hb, fun x u => a x + (b x - a x) * (unitDraw u).u, ?_, ?_, ?_⟩
    · have h1 : Measurable fun z : P × ℝ => (unitDraw z.2).u := unitDraw_meas.comp measurable_snd
      exact (ha.comp measurable_fst).add (((hb.comp measurable_fst).sub (ha.comp measurable_fst)).mul h1)
    · intro x hx ω rest
      obtain ⟨h1, h2, -⟩ := hab x hx
      unfold Prior.sample
      rw [hd]
      simp only [h1, h2]
      exact (M.bind_of rfl).trans ((M.bind_of rfl).trans (M.uniform_run _ _ _ _))
    · intro x hx
      exact map_unitLaw (hab x hx).2.2
  | .gaussian mean std =>
    rw [hd] at h
    obtain ⟨m, s, hm, hs, hms, rfl⟩ := h
    refine ⟨?_, fun x z => m x + z * s x, by fun_prop, ?_, ?_⟩
    · unfold normalPDF gaussianPDFReal
      fun_prop
    · intro x hx ω rest
      obtain ⟨h1, h2, -⟩ := hms x hx
      unfold Prior.sample
      rw [hd]
      simp only [h1, h2]
      exact (M.bind_of rfl).trans ((M.bind_of rfl).trans (M.normalvariate_run _ _ _ _))
    · intro x hx
      exact map_normalLaw _ (hms x hx).2.2
  | .laplace mean scale =>
    rw [hd] at h
    obtain ⟨m, s, hm, hs, hms, rfl⟩ := h
    refine ⟨?_, fun x u => m x + M.laplaceDev (unitDraw u).u * s x, ?_, ?_, ?_⟩
    · unfold laplacePDF
      fun_prop
    · have h1 : Measurable fun z : P × ℝ => M.laplaceDev (unitDraw z.2).u :=
        laplaceDev_meas.comp (unitDraw_meas.comp measurable_snd)
      exact (hm.comp measurable_fst).add (h1.mul (hs.comp measurable_fst))
    · intro x hx ω rest
      obtain ⟨h1, h2, h3⟩ := hms x hx
      unfold Prior.sample
      rw [hd]
      simp only [h1, h2]
      refine (M.bind_of rfl).trans ((M.bind_of rfl).trans ?_)
      unfold M.npLaplace
      rw [if_neg (not_lt.2 h3.le)]
      rfl
    · intro x hx
      have h1 := Measure.map_map (μ := unitLaw) (g := fun z => m x + z * s x) (by fun_prop)
        (laplaceDev_meas.comp unitDraw_meas)
      rw [← map_laplaceLaw _ (hms x hx).2.2, ← map_laplaceDev]
      exact h1.symm
  | .custom f g sm =>
    rw [hd] at h
    obtain ⟨h1, -, value, h2, h3, h4⟩ := h
    refine ⟨h1, value, h2, fun x hx ω rest => ?_, h4⟩
    unfold Prior.sample
    rw [hd]
    exact h3 x hx ω rest

end BB.Lemmas
