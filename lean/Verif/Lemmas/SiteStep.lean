import Verif.Lemmas.Redraw
import Verif.Lemmas.Levels
import Verif.Lemmas.RowLaw
import Verif.Spec.SiteMove

/-!
# Gaussian steps of a site on a line or in the plane
-/

namespace BB.Lemmas

open BB BB.Spec MeasureTheory ProbabilityTheory

/-- What is used of the steps of a site. -/
structure SiteStep {P α : Type} [MeasurableSpace P] [MeasurableSpace α] (lam : Measure P) (D : Set P) (γ : Measure α)
    (step : P → α → P) (κ : P × P → ℝ) : Prop where
  step_meas : Measurable fun z : P × α => step z.1 z.2
  dom_meas : MeasurableSet D
  kernel_meas : Measurable κ
  law : ∀ s, γ.map (step s) = lam.withDensity fun y => ENNReal.ofReal (κ (s, y))
  stays : ∀ s, γ.map (step s) D ≠ 0
  symm : ∀ z, κ z.swap = κ z
  pos : ∀ z, 0 < κ z
  level : ∀ c, lam ({s | stayIn γ step D s = c} ∩ D) = 0

theorem normalPDF_bell {σ : ℝ} (hσ : 0 < σ) (x y : ℝ) : normalPDF x σ y = (Real.sqrt (2 * Real.pi * σ ^ 2))⁻¹ * bell σ x y := by
  unfold normalPDF gaussianPDFReal bell
  rw [Real.coe_toNNReal _ (sq_nonneg σ)]
  congr 2
  ring

theorem normalPDF_symm {σ : ℝ} (hσ : 0 < σ) (x y : ℝ) : normalPDF x σ y = normalPDF y σ x := by
  rw [normalPDF_bell hσ, normalPDF_bell hσ, bell_symm]

theorem normalPDF_meas2 (σ : ℝ) : Measurable fun z : ℝ × ℝ => normalPDF z.1 σ z.2 := by
  unfold normalPDF gaussianPDFReal
  fun_prop

theorem normalPDF_meas1 (x σ : ℝ) : Measurable fun y : ℝ => normalPDF x σ y := by
  unfold normalPDF gaussianPDFReal
  fun_prop

theorem normalPDF_gt {σ : ℝ} (hσ : 0 < σ) (x y : ℝ) : 0 < normalPDF x σ y :=
  gaussianPDFReal_pos _ _ _ (by simpa using hσ.ne')

/-- A step on a line. -/
def lineStep (v : Vor1) (x z : ℝ) : ℝ := x + (0 + z * v.std)

/-- A step in the plane. -/
def planeStep (v : Vor2) (p z : ℝ × ℝ) : ℝ × ℝ := (p.1 + (0 + z.1 * v.std.1), p.2 + (0 + z.2 * v.std.2))

theorem step_law {σ : ℝ} (hσ : 0 < σ) (x : ℝ) : (gaussianReal 0 1).map (fun z => x + (0 + z * σ)) =
    volume.withDensity fun y => ENNReal.ofReal (normalPDF x σ y) := by
  rw [← map_normalLaw x hσ]
  congr 1
  funext z
  rw [zero_add]

theorem step_gauss {σ : ℝ} (hσ : 0 < σ) (x : ℝ) : (gaussianReal 0 1).map (fun z => x + (0 + z * σ)) =
    gaussianReal x (σ ^ 2).toNNReal := by
  rw [step_law hσ, gaussianReal_of_var_ne_zero _ (by simpa using hσ.ne')]
  rfl

theorem step_stays {P α : Type} [MeasurableSpace P] [MeasurableSpace α] {lam : Measure P} {D : Set P} {γ : Measure α}
    {step : P → α → P} {κ : P × P → ℝ} (hD : MeasurableSet D) (h0 : lam D ≠ 0) (hk : Measurable κ) (hpos : ∀ z, 0 < κ z)
    {s : P} (hlaw : γ.map (step s) = lam.withDensity fun y => ENNReal.ofReal (κ (s, y))) : γ.map (step s) D ≠ 0 := by
  rw [hlaw, withDensity_apply _ hD]
  intro h
  have hm : Measurable fun y => ENNReal.ofReal (κ (s, y)) := (hk.comp measurable_prodMk_left).ennreal_ofReal
  rw [lintegral_eq_zero_iff hm] at h
  have h1 : ∀ᵐ y ∂lam.restrict D, False := h.mono fun y hy => (ENNReal.ofReal_pos.2 (hpos _)).ne' hy
  rw [Filter.eventually_false_iff_eq_bot, ae_eq_bot, Measure.restrict_eq_zero] at h1
  exact h0 h1

theorem lineStep_meas (v : Vor1) : Measurable fun z : ℝ × ℝ => lineStep v z.1 z.2 := by
  unfold lineStep
  fun_prop

theorem planeStep_meas (v : Vor2) : Measurable fun z : (ℝ × ℝ) × (ℝ × ℝ) => planeStep v z.1 z.2 := by
  unfold planeStep
  fun_prop

theorem lineStay_eq {v : Vor1} (h : 0 < v.std) : stayIn (gaussianReal 0 1) (lineStep v) (Set.Icc v.vmin v.vmax) = lineStay v := by
  funext x
  unfold stayIn lineStay
  rw [← step_gauss h]
  rfl

theorem lineStep_law {v : Vor1} (h : 0 < v.std) (x : ℝ) : (gaussianReal 0 1).map (lineStep v x) =
    volume.withDensity fun y => ENNReal.ofReal (normalPDF x v.std y) := step_law h x

theorem line_stay_integral {v : Vor1} (h : 0 < v.std) (x : ℝ) :
    stayIn (gaussianReal 0 1) (lineStep v) (Set.Icc v.vmin v.vmax) x =
      (Real.sqrt (2 * Real.pi * v.std ^ 2))⁻¹ * ∫ y in Set.Icc v.vmin v.vmax, bell v.std x y := by
  have hm : Measurable fun y => normalPDF x v.std y := normalPDF_meas1 _ _
  have e : stayIn (gaussianReal 0 1) (lineStep v) (Set.Icc v.vmin v.vmax) x = ∫ y in Set.Icc v.vmin v.vmax, normalPDF x v.std y := by
    unfold stayIn Measure.real
    rw [lineStep_law h, withDensity_apply _ measurableSet_Icc,
      integral_eq_lintegral_of_nonneg_ae (.of_forall fun y => (normalPDF_gt h _ _).le) hm.aestronglyMeasurable]
  rw [e]
  simp only [normalPDF_bell h]
  rw [integral_const_mul]

theorem line_level {v : Vor1} (hv : v.vmin < v.vmax) (h : 0 < v.std) (c : ℝ) :
    volume ({s | stayIn (gaussianReal 0 1) (lineStep v) (Set.Icc v.vmin v.vmax) s = c} ∩ Set.Icc v.vmin v.vmax) = 0 := by
  have hμ : (volume.restrict (Set.Icc v.vmin v.vmax) : Measure ℝ) ≠ 0 := by
    rw [Ne, Measure.restrict_eq_zero]
    simpa using hv
  have hK : ∀ᵐ a ∂(volume.restrict (Set.Icc v.vmin v.vmax) : Measure ℝ), |a| ≤ max |v.vmin| |v.vmax| := by
    filter_upwards [ae_restrict_mem measurableSet_Icc] with a ha
    exact abs_le_max_abs_abs ha.1 ha.2
  refine measure_mono_null ?_ (level_null h.ne' hμ hK (Real.sqrt (2 * Real.pi * v.std ^ 2) * c))
  rintro x ⟨hx, -⟩
  have hx' : stayIn (gaussianReal 0 1) (lineStep v) (Set.Icc v.vmin v.vmax) x = c := hx
  have h2 : 0 < Real.sqrt (2 * Real.pi * v.std ^ 2) := Real.sqrt_pos.2 (by positivity)
  change ∫ a in Set.Icc v.vmin v.vmax, bell v.std x a = _
  rw [← hx', line_stay_integral h, mul_inv_cancel_left₀ h2.ne']

/-- The density of a step on a line. -/
noncomputable def lineKernel (v : Vor1) (z : ℝ × ℝ) : ℝ := normalPDF z.1 v.std z.2

theorem line_step {v : Vor1} (hv : v.vmin < v.vmax) (h : 0 < v.std) :
    SiteStep volume (Set.Icc v.vmin v.vmax) (gaussianReal 0 1) (lineStep v) (lineKernel v) where
  step_meas := lineStep_meas v
  dom_meas := measurableSet_Icc
  kernel_meas := normalPDF_meas2 _
  law := lineStep_law h
  stays := fun s => by
    have h0 : volume (Set.Icc v.vmin v.vmax) ≠ 0 := by simpa using hv
    exact step_stays (κ := lineKernel v) measurableSet_Icc h0 (normalPDF_meas2 _) (fun z => normalPDF_gt h _ _) (lineStep_law h s)
  symm := fun z => normalPDF_symm h _ _
  pos := fun z => normalPDF_gt h _ _
  level := line_level hv h

theorem plane_law {v : Vor2} (h1 : 0 < v.std.1) (h2 : 0 < v.std.2) (p : ℝ × ℝ) :
    ((gaussianReal 0 1).prod (gaussianReal 0 1)).map (planeStep v p) =
      (gaussianReal p.1 (v.std.1 ^ 2).toNNReal).prod (gaussianReal p.2 (v.std.2 ^ 2).toNNReal) := by
  rw [← step_gauss h1, ← step_gauss h2, Measure.map_prod_map _ _ (by fun_prop) (by fun_prop)]
  rfl

theorem plane_density {v : Vor2} (h1 : 0 < v.std.1) (h2 : 0 < v.std.2) (p : ℝ × ℝ) :
    ((gaussianReal 0 1).prod (gaussianReal 0 1)).map (planeStep v p) =
      volume.withDensity fun q => ENNReal.ofReal (normalPDF p.1 v.std.1 q.1 * normalPDF p.2 v.std.2 q.2) := by
  have hm : ∀ x σ : ℝ, Measurable fun y => ENNReal.ofReal (normalPDF x σ y) := fun x σ =>
    ((normalPDF_meas2 σ).comp measurable_prodMk_left).ennreal_ofReal
  have e := Measure.map_prod_map (gaussianReal 0 1) (gaussianReal 0 1) (f := fun z => p.1 + (0 + z * v.std.1))
    (g := fun z => p.2 + (0 + z * v.std.2)) (by fun_prop) (by fun_prop)
  refine e.symm.trans ?_
  have s1 : SFinite (volume.withDensity fun y => ENNReal.ofReal (normalPDF p.2 v.std.2 y)) := by
    rw [← step_law h2]
    infer_instance
  rw [step_law h1, step_law h2, prod_withDensity (hm _ _) (hm _ _)]
  congr 1
  funext q
  rw [ENNReal.ofReal_mul (normalPDF_gt h1 _ _).le]

theorem planeStay_eq {v : Vor2} (h1 : 0 < v.std.1) (h2 : 0 < v.std.2) :
    stayIn ((gaussianReal 0 1).prod (gaussianReal 0 1)) (planeStep v) (domain2 v) = planeStay v := by
  funext x
  unfold stayIn planeStay
  rw [← plane_law h1 h2]
  rfl

/-- The density of a step in the plane. -/
noncomputable def planeKernel (v : Vor2) (z : (ℝ × ℝ) × (ℝ × ℝ)) : ℝ :=
  normalPDF z.1.1 v.std.1 z.2.1 * normalPDF z.1.2 v.std.2 z.2.2

theorem planeKernel_meas (v : Vor2) : Measurable (planeKernel v) := by
  unfold planeKernel normalPDF gaussianPDFReal
  fun_prop

theorem planeKernel_pos {v : Vor2} (h1 : 0 < v.std.1) (h2 : 0 < v.std.2) (z : (ℝ × ℝ) × (ℝ × ℝ)) : 0 < planeKernel v z :=
  mul_pos (normalPDF_gt h1 _ _) (normalPDF_gt h2 _ _)

theorem planeStep_law {v : Vor2} (h1 : 0 < v.std.1) (h2 : 0 < v.std.2) (p : ℝ × ℝ) :
    ((gaussianReal 0 1).prod (gaussianReal 0 1)).map (planeStep v p) =
      volume.withDensity fun q => ENNReal.ofReal (planeKernel v (p, q)) := plane_density h1 h2 p

/-- The second coordinate is fixed: what remains is a mass of a Gaussian function of the first one. -/
theorem plane_fibre {v : Vor2} (h1 : 0 < v.std.1) (h2 : 0 < v.std.2) (hD : MeasurableSet (domain2 v))
    (hvol : volume (domain2 v) ≠ 0) (y c : ℝ) :
    volume {x | stayIn ((gaussianReal 0 1).prod (gaussianReal 0 1)) (planeStep v) (domain2 v) (x, y) = c} = 0 := by
  have hm2 : Measurable fun q : ℝ × ℝ => ENNReal.ofReal (normalPDF y v.std.2 q.2) := by
    have h3 : Measurable fun b : ℝ => ENNReal.ofReal (normalPDF y v.std.2 b) := (normalPDF_meas1 _ _).ennreal_ofReal
    exact h3.comp measurable_snd
  set ν : Measure (ℝ × ℝ) := (volume.restrict (domain2 v)).withDensity fun q => ENNReal.ofReal (normalPDF y v.std.2 q.2) with hν
  have hsub := domain2_sub v
  have hbd : ∀ᵐ q ∂ν, q ∈ domain2 v := (withDensity_absolutelyContinuous _ _).ae_le (ae_restrict_mem hD)
  have hfin : IsFiniteMeasure ν := by
    refine ⟨?_⟩
    rw [hν, withDensity_apply _ MeasurableSet.univ, Measure.restrict_univ]
    calc ∫⁻ q in domain2 v, ENNReal.ofReal (normalPDF y v.std.2 q.2)
        ≤ ∫⁻ q in domain2 v, ENNReal.ofReal (Real.sqrt (2 * Real.pi * v.std.2 ^ 2))⁻¹ := by
          refine lintegral_mono fun q => ENNReal.ofReal_le_ofReal ?_
          rw [normalPDF_bell h2]
          refine mul_le_of_le_one_right (by positivity) (Real.exp_le_one_iff.2 (neg_nonpos.2 (by positivity)))
      _ = ENNReal.ofReal (Real.sqrt (2 * Real.pi * v.std.2 ^ 2))⁻¹ * volume (domain2 v) := by
          rw [setLIntegral_const]
      _ < ⊤ := ENNReal.mul_lt_top ENNReal.ofReal_lt_top
          (lt_of_le_of_lt (measure_mono hsub) (lt_top_iff_ne_top.2 (box_volume (v := v))))
  have hne : ν ≠ 0 := by
    intro h0
    rw [hν, withDensity_eq_zero_iff hm2.aemeasurable] at h0
    have h3 : ∀ᵐ q ∂(volume : Measure (ℝ × ℝ)).restrict (domain2 v), False :=
      h0.mono fun q hq => (ENNReal.ofReal_pos.2 (normalPDF_gt h2 _ _)).ne' hq
    rw [Filter.eventually_false_iff_eq_bot, ae_eq_bot, Measure.restrict_eq_zero] at h3
    exact hvol h3
  have hμfin : IsFiniteMeasure (ν.map Prod.fst) := inferInstance
  have hμ : ν.map Prod.fst ≠ 0 := by
    rw [Ne, Measure.map_eq_zero_iff measurable_fst.aemeasurable]
    exact hne
  have hK : ∀ᵐ a ∂ν.map Prod.fst, |a| ≤ max |v.vmin.1| |v.vmax.1| := by
    have hset : MeasurableSet {a : ℝ | |a| ≤ max |v.vmin.1| |v.vmax.1|} := measurableSet_le (by fun_prop) measurable_const
    rw [ae_map_iff measurable_fst.aemeasurable hset]
    exact hbd.mono fun q hq => abs_le_max_abs_abs (hsub hq).1.1 (hsub hq).1.2
  refine measure_mono_null ?_ (level_null h1.ne' hμ hK (Real.sqrt (2 * Real.pi * v.std.1 ^ 2) * c))
  intro x hx
  have hx' : stayIn ((gaussianReal 0 1).prod (gaussianReal 0 1)) (planeStep v) (domain2 v) (x, y) = c := hx
  have hr : 0 < Real.sqrt (2 * Real.pi * v.std.1 ^ 2) := Real.sqrt_pos.2 (by positivity)
  change ∫ a, bell v.std.1 x a ∂ν.map Prod.fst = _
  have hb : Continuous (bell v.std.1 x) := bell_continuous _ _
  have hk : Measurable fun q => planeKernel v ((x, y), q) := (planeKernel_meas v).comp measurable_prodMk_left
  have e : stayIn ((gaussianReal 0 1).prod (gaussianReal 0 1)) (planeStep v) (domain2 v) (x, y) =
      ∫ q in domain2 v, planeKernel v ((x, y), q) := by
    unfold stayIn Measure.real
    rw [planeStep_law h1 h2, withDensity_apply _ hD,
      integral_eq_lintegral_of_nonneg_ae (.of_forall fun y => (planeKernel_pos h1 h2 _).le) hk.aestronglyMeasurable]
  rw [integral_map measurable_fst.aemeasurable hb.aestronglyMeasurable, hν,
    integral_withDensity_eq_integral_toReal_smul hm2 (.of_forall fun a => ENNReal.ofReal_lt_top), ← hx', e,
    ← integral_const_mul]
  refine integral_congr_ae (.of_forall fun q => ?_)
  simp only [smul_eq_mul]
  unfold planeKernel
  simp only
  rw [ENNReal.toReal_ofReal (normalPDF_gt h2 _ _).le, normalPDF_bell h1 x q.1]
  field_simp

theorem plane_level {v : Vor2} (h1 : 0 < v.std.1) (h2 : 0 < v.std.2) (hD : MeasurableSet (domain2 v))
    (hvol : volume (domain2 v) ≠ 0) (c : ℝ) :
    volume ({s | stayIn ((gaussianReal 0 1).prod (gaussianReal 0 1)) (planeStep v) (domain2 v) s = c} ∩ domain2 v) = 0 := by
  have hm : MeasurableSet {s | stayIn ((gaussianReal 0 1).prod (gaussianReal 0 1)) (planeStep v) (domain2 v) s = c} :=
    (stayIn_meas (γ := (gaussianReal 0 1).prod (gaussianReal 0 1)) (planeStep_meas v) hD) (measurableSet_singleton c)
  refine measure_mono_null Set.inter_subset_left ?_
  rw [Measure.volume_eq_prod, Measure.prod_apply_symm hm]
  exact (lintegral_congr fun y => plane_fibre h1 h2 hD hvol y c).trans lintegral_zero

theorem plane_step {v : Vor2} (h1 : 0 < v.std.1) (h2 : 0 < v.std.2) (hD : MeasurableSet (domain2 v))
    (hvol : volume (domain2 v) ≠ 0) :
    SiteStep volume (domain2 v) ((gaussianReal 0 1).prod (gaussianReal 0 1)) (planeStep v) (planeKernel v) where
  step_meas := planeStep_meas v
  dom_meas := hD
  kernel_meas := planeKernel_meas v
  law := planeStep_law h1 h2
  stays := fun s => step_stays hD hvol (planeKernel_meas v) (planeKernel_pos h1 h2) (planeStep_law h1 h2 s)
  symm := fun z => by
    unfold planeKernel
    rw [Prod.fst_swap, Prod.snd_swap, normalPDF_symm h1, normalPDF_symm h2]
  pos := planeKernel_pos h1 h2
  level := plane_level h1 h2 hD hvol

end BB.Lemmas
