import Verif.Lemmas.PlainMoves
import Verif.Lemmas.Prior

/-!
# Values drawn and perturbed under the library's priors
-/

namespace BB.Lemmas

open BB Spec MeasureTheory ProbabilityTheory

/-- The value that the prior makes of a draw. -/
noncomputable def sampleOf (pr : Prior) (d : Draw) : ℝ :=
  match (pr.sample .none [d]).1 with
  | .ok v => v
  | .error _ => 0

theorem DensityOf.meas {pr : Prior} {f : ℝ → ℝ} (h : DensityOf pr f) : Measurable f := by
  unfold DensityOf at h
  match hd : pr.dist with
  | .uniform vmin vmax =>
    rw [hd] at h
    obtain ⟨a, b, -, -, -, rfl⟩ := h
    have := uniformPDF_meas2 (P := Unit) (a := fun _ => a) (b := fun _ => b) measurable_const measurable_const
    exact this.comp (measurable_const (a := ()) |>.prodMk measurable_id)
  | .gaussian mean std =>
    rw [hd] at h
    obtain ⟨m, s, -, -, -, rfl⟩ := h
    unfold normalPDF gaussianPDFReal
    fun_prop
  | .laplace mean scale =>
    rw [hd] at h
    obtain ⟨m, s, -, -, -, rfl⟩ := h
    unfold laplacePDF
    fun_prop
  | .custom _ _ _ => rw [hd] at h; exact h.elim

theorem DensityOf.nonneg {pr : Prior} {f : ℝ → ℝ} (h : DensityOf pr f) (x : ℝ) : 0 ≤ f x := by
  unfold DensityOf at h
  match hd : pr.dist with
  | .uniform vmin vmax =>
    rw [hd] at h
    obtain ⟨a, b, -, -, hab, rfl⟩ := h
    unfold uniformPDF
    split
    · have : 0 < b - a := by linarith
      positivity
    · exact le_rfl
  | .gaussian mean std =>
    rw [hd] at h
    obtain ⟨m, s, -, -, -, rfl⟩ := h
    exact gaussianPDFReal_nonneg _ _ _
  | .laplace mean scale =>
    rw [hd] at h
    obtain ⟨m, s, -, -, hs, rfl⟩ := h
    unfold laplacePDF
    positivity
  | .custom _ _ _ => rw [hd] at h; exact h.elim

/-- What is drawn from a prior has its density. -/
theorem DensityOf.sampled {pr : Prior} {f : ℝ → ℝ} (h : DensityOf pr f) :
    (∀ d t, pr.sample .none (d :: t) = (.ok (sampleOf pr d), t)) ∧ Measurable (sampleOf pr) ∧
    ∀ K, K ≠ 0 → (drawLaw K).map (sampleOf pr) = volume.withDensity fun v => ENNReal.ofReal (f v) := by
  have key : ∀ value : Draw → ℝ, (∀ d t, pr.sample .none (d :: t) = (.ok (value d), t)) → sampleOf pr = value := by
    intro value hv
    funext d
    unfold sampleOf
    rw [hv d []]
  unfold DensityOf at h
  match hd : pr.dist with
  | .uniform vmin vmax =>
    rw [hd] at h
    obtain ⟨a, b, h1, h2, hab, rfl⟩ := h
    have hv : ∀ d t, pr.sample .none (d :: t) = (.ok (a + (b - a) * d.u), t) := by
      intro d t
      unfold Prior.sample
      rw [hd]
      simp only [h1, h2]
      exact (M.bind_of rfl).trans ((M.bind_of rfl).trans (M.uniform_run _ _ _ _))
    rw [key _ hv]
    have hm : Measurable fun u : ℝ => a + (b - a) * u := by fun_prop
    refine ⟨hv, hm.comp draw_u_meas, fun K hK => ?_⟩
    have e : (fun d : Draw => a + (b - a) * d.u) = (fun u : ℝ => a + (b - a) * u) ∘ Draw.u := rfl
    rw [e, ← Measure.map_map hm draw_u_meas, drawLaw_u hK, ← map_unitLaw hab]
    refine Measure.map_congr ?_
    filter_upwards [unitDraw_ae] with u hu
    rw [hu]
  | .gaussian mean std =>
    rw [hd] at h
    obtain ⟨m, s, h1, h2, hs, rfl⟩ := h
    have hv : ∀ d t, pr.sample .none (d :: t) = (.ok (m + d.z * s), t) := by
      intro d t
      unfold Prior.sample
      rw [hd]
      simp only [h1, h2]
      exact (M.bind_of rfl).trans ((M.bind_of rfl).trans (M.normalvariate_run _ _ _ _))
    rw [key _ hv]
    have hm : Measurable fun z : ℝ => m + z * s := by fun_prop
    refine ⟨hv, hm.comp draw_z_meas, fun K hK => ?_⟩
    have e : (fun d : Draw => m + d.z * s) = (fun z : ℝ => m + z * s) ∘ Draw.z := rfl
    rw [e, ← Measure.map_map hm draw_z_meas, drawLaw_z hK]
    exact map_normalLaw m hs
  | .laplace mean scale =>
    rw [hd] at h
    obtain ⟨m, s, h1, h2, hs, rfl⟩ := h
    have hv : ∀ d t, pr.sample .none (d :: t) = (.ok (m + M.laplaceDev d.u * s), t) := by
      intro d t
      unfold Prior.sample
      rw [hd]
      simp only [h1, h2]
      refine (M.bind_of rfl).trans ((M.bind_of rfl).trans ?_)
      unfold M.npLaplace
      rw [if_neg (not_lt.2 hs.le)]
      rfl
    rw [key _ hv]
    have hm : Measurable fun u : ℝ => m + M.laplaceDev u * s := by
      have := laplaceDev_meas
      fun_prop
    refine ⟨hv, hm.comp draw_u_meas, fun K hK => ?_⟩
    have e : (fun d : Draw => m + M.laplaceDev d.u * s) = (fun u : ℝ => m + M.laplaceDev u * s) ∘ Draw.u := rfl
    rw [e, ← Measure.map_map hm draw_u_meas, drawLaw_u hK, ← map_laplaceLaw m hs, ← map_laplaceDev]
    have h3 : Measurable fun u => M.laplaceDev (unitDraw u).u := laplaceDev_meas.comp unitDraw_meas
    have h4 : Measurable fun z : ℝ => m + z * s := by fun_prop
    rw [Measure.map_map h4 h3]
    refine Measure.map_congr ?_
    filter_upwards [unitDraw_ae] with u hu
    simp only [Function.comp, hu]
  | .custom _ _ _ => rw [hd] at h; exact h.elim

/-- The values that priors make of draws. -/
noncomputable def samplesOf {k : ℕ} (prior : Fin k → Prior) (w : Fin k → Draw) : Fin k → ℝ := fun j => sampleOf (prior j) (w j)

theorem samplesOf_meas {k : ℕ} {prior : Fin k → Prior} {dens : Fin k → ℝ → ℝ} (h : ∀ j, DensityOf (prior j) (dens j)) :
    Measurable (samplesOf prior) :=
  measurable_pi_lambda _ fun j => (DensityOf.sampled (h j)).2.1.comp (measurable_pi_apply j)

theorem samplesOf_law {K : ℕ} (hK : K ≠ 0) {k : ℕ} {prior : Fin k → Prior} {dens : Fin k → ℝ → ℝ}
    (h : ∀ j, DensityOf (prior j) (dens j)) : (tapeLaw K k).map (samplesOf prior) = valuesLaw dens := by
  have hp := drawLaw_prob hK
  have hpr : ∀ j, IsProbabilityMeasure (volume.withDensity fun v => ENNReal.ofReal (dens j v)) := by
    intro j
    rw [← (DensityOf.sampled (h j)).2.2 K hK]
    exact Measure.isProbabilityMeasure_map (DensityOf.sampled (h j)).2.1.aemeasurable
  unfold valuesLaw
  rw [← pi_withDensity (fun j v => ENNReal.ofReal (dens j v)) fun j => (DensityOf.meas (h j)).ennreal_ofReal]
  have e : (fun j => volume.withDensity fun v => ENNReal.ofReal (dens j v)) = fun j => (drawLaw K).map (sampleOf (prior j)) :=
    funext fun j => ((DensityOf.sampled (h j)).2.2 K hK).symm
  rw [e]
  have hpr' : ∀ j, IsProbabilityMeasure ((drawLaw K).map (sampleOf (prior j))) := fun j =>
    Measure.isProbabilityMeasure_map (DensityOf.sampled (h j)).2.1.aemeasurable
  exact Measure.pi_map_pi (μ := fun _ => drawLaw K) fun j => (DensityOf.sampled (h j)).2.1.aemeasurable

theorem valuesLaw_prob {k : ℕ} {prior : Fin k → Prior} {dens : Fin k → ℝ → ℝ} (h : ∀ j, DensityOf (prior j) (dens j)) :
    IsProbabilityMeasure (valuesLaw dens) := by
  have hp := drawLaw_prob one_ne_zero
  rw [← samplesOf_law one_ne_zero h]
  unfold tapeLaw
  exact Measure.isProbabilityMeasure_map (samplesOf_meas h).aemeasurable

/-! ### perturbations -/

theorem logOf_mul {a b : ℝ} (ha : 0 ≤ a) (hb : 0 ≤ b) : logOf (a * b) = (logOf a).add (logOf b) := by
  unfold logOf
  rcases ha.lt_or_eq with ha | rfl
  · rcases hb.lt_or_eq with hb | rfl
    · rw [if_pos ha, if_pos hb, if_pos (mul_pos ha hb), Real.log_mul ha.ne' hb.ne']; rfl
    · simp [ha, PyF.add]
  · rcases hb.lt_or_eq with hb | rfl
    · simp [hb, PyF.add]
    · simp [PyF.add]

theorem logOf_one : logOf 1 = .fin 0 := by
  unfold logOf
  rw [if_pos one_pos, Real.log_one]

/-- A perturbed value, with the logarithm of the ratio of the densities. -/
theorem DensityOf.perturbed {pr : Prior} {f : ℝ → ℝ} (h : DensityOf pr f) {s : ℝ} (hs : pr.getStd false .none = .ok s)
    {v : ℝ} (hv : 0 < f v) (d : Draw) (t : List Draw) :
    pr.perturbValue v .none false (d :: t) = (.ok (v + d.z * s, logOf (f (v + d.z * s) / f v)), t) := by
  unfold DensityOf at h
  match hd : pr.dist with
  | .uniform vmin vmax =>
    rw [hd] at h
    obtain ⟨a, b, h1, h2, hab, rfl⟩ := h
    refine (perturbValue_uniform hd).2 ⟨s, a, b, d, hs, h1, h2, rfl, rfl, ?_⟩
    have hva : a ≤ v ∧ v ≤ b := by
      by_contra hn
      unfold uniformPDF at hv
      rw [if_neg hn] at hv
      exact lt_irrefl _ hv
    by_cases hc : a ≤ v + d.z * s ∧ v + d.z * s ≤ b
    · refine Or.inl ⟨hc.1, hc.2, ?_⟩
      unfold uniformPDF
      rw [if_pos hc, if_pos hva, div_self (by have : b - a ≠ 0 := by linarith
                                              exact one_div_ne_zero this), logOf_one]
    · refine Or.inr ⟨hc, ?_⟩
      unfold uniformPDF
      rw [if_neg hc, zero_div]
      simp [logOf]
  | .gaussian mean std =>
    rw [hd] at h
    obtain ⟨m, sd, h1, h2, hsd, rfl⟩ := h
    refine (perturbValue_gaussian hd).2 ⟨s, m, sd, d, hs, h1, h2, rfl, rfl, hsd.ne', ?_⟩
    generalize v + d.z * s = w
    have e : normalPDF m sd w / normalPDF m sd v = Real.exp ((v - w) * (v + w - 2 * m) / (2 * sd ^ 2)) := by
      unfold normalPDF gaussianPDFReal
      have hpos : 0 < sd ^ 2 := by positivity
      rw [Real.coe_toNNReal _ hpos.le, mul_div_mul_left _ _ (by positivity), ← Real.exp_sub]
      congr 1
      field_simp
      ring
    rw [e]
    unfold logOf
    rw [if_pos (Real.exp_pos _), Real.log_exp]
  | .laplace mean scale =>
    rw [hd] at h
    obtain ⟨m, sc, h1, h2, hsc, rfl⟩ := h
    refine (perturbValue_laplace hd).2 ⟨s, m, sc, d, hs, h1, h2, rfl, rfl, hsc.ne', ?_⟩
    generalize v + d.z * s = w
    have e : laplacePDF m sc w / laplacePDF m sc v = Real.exp ((|v - m| - |w - m|) / sc) := by
      unfold laplacePDF
      rw [div_div_div_cancel_right₀ (by positivity), ← Real.exp_sub]
      congr 1
      field_simp
      ring
    rw [e]
    unfold logOf
    rw [if_pos (Real.exp_pos _), Real.log_exp]
  | .custom _ _ _ => rw [hd] at h; exact h.elim

open Classical in
/-- The acceptance test, without logarithms. -/
theorem accept_iff {r Δ u : ℝ} (hr : 0 ≤ r) (hu : 0 < u) : ((logOf r).add (.fin Δ)).gtFin (Real.log u) ↔ u < r * Real.exp Δ := by
  unfold logOf
  rcases hr.lt_or_eq with hr | rfl
  · rw [if_pos hr]
    change Real.log u < Real.log r + Δ ↔ _
    rw [Real.log_lt_iff_lt_exp hu, Real.exp_add, Real.exp_log hr]
  · rw [if_neg (lt_irrefl _)]
    change False ↔ _
    simp [hu.le]

end BB.Lemmas
