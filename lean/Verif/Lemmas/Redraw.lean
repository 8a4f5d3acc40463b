import Verif.Lemmas.SiteLaw

/-!
# Steps that are repeated until they stay in a domain
-/

namespace BB.Lemmas

open BB.Spec MeasureTheory ProbabilityTheory

section

variable {P α : Type} [MeasurableSpace P] [MeasurableSpace α]

/-- Where the first step from `s` that does not leave `D` leads to. -/
noncomputable def landIn (step : P → α → P) (D : Set P) (s : P) (ω : ℕ → α) : P :=
  step s (ω (firstIn D fun j => step s (ω j)))

/-- The probability that a step from `s` does not leave `D`. -/
noncomputable def stayIn (γ : Measure α) (step : P → α → P) (D : Set P) (s : P) : ℝ := (γ.map (step s)).real D

variable {lam : Measure P} {D : Set P} {γ : Measure α} [IsProbabilityMeasure γ] {step : P → α → P} {κ : P × P → ℝ}

theorem landIn_meas (hs : Measurable fun z : P × α => step z.1 z.2) (hD : MeasurableSet D) :
    Measurable fun z : P × (ℕ → α) => landIn step D z.1 z.2 := by
  have h1 := firstIn_meas hs hD
  have h2 : Measurable fun z : P × (ℕ → α) => fun k => (z.1, z.2 k) :=
    measurable_pi_lambda _ fun k => measurable_fst.prodMk ((measurable_pi_apply k).comp measurable_snd)
  exact h1.comp h2

omit [IsProbabilityMeasure γ] in
theorem stayIn_eq (hs : Measurable fun z : P × α => step z.1 z.2) (hD : MeasurableSet D) (s : P) :
    stayIn γ step D s = (γ (step s ⁻¹' D)).toReal := by
  have : Measurable (step s) := hs.comp measurable_prodMk_left
  unfold stayIn Measure.real
  rw [Measure.map_apply this hD]

theorem stayIn_meas (hs : Measurable fun z : P × α => step z.1 z.2) (hD : MeasurableSet D) : Measurable (stayIn γ step D) := by
  have e : stayIn γ step D = fun s => (γ (Prod.mk s ⁻¹' ((fun z : P × α => step z.1 z.2) ⁻¹' D))).toReal := by
    funext s
    exact stayIn_eq hs hD s
  rw [e]
  exact (measurable_measure_prodMk_left (hs hD)).ennreal_toReal

omit [IsProbabilityMeasure γ] in
theorem stayIn_nonneg (s : P) : 0 ≤ stayIn γ step D s := measureReal_nonneg

theorem stayIn_le (hs : Measurable fun z : P × α => step z.1 z.2) (s : P) : stayIn γ step D s ≤ 1 := by
  have h1 : Measurable (step s) := hs.comp measurable_prodMk_left
  have := Measure.isProbabilityMeasure_map (μ := γ) h1.aemeasurable
  exact measureReal_le_one

theorem stayIn_pos (hs : Measurable fun z : P × α => step z.1 z.2) {s : P} (h0 : γ.map (step s) D ≠ 0) : 0 < stayIn γ step D s := by
  have h1 : Measurable (step s) := hs.comp measurable_prodMk_left
  have := Measure.isProbabilityMeasure_map (μ := γ) h1.aemeasurable
  exact ENNReal.toReal_pos h0 (measure_ne_top _ _)

theorem landIn_law (hs : Measurable fun z : P × α => step z.1 z.2) (hD : MeasurableSet D) (hk : Measurable κ)
    (hlaw : ∀ s, γ.map (step s) = lam.withDensity fun y => ENNReal.ofReal (κ (s, y))) {s : P} (h0 : γ.map (step s) D ≠ 0) :
    (Measure.infinitePi fun _ : ℕ => γ).map (landIn step D s) =
      (lam.restrict D).withDensity fun y => ENNReal.ofReal (κ (s, y) / stayIn γ step D s) := by
  have h1 : Measurable (step s) := hs.comp measurable_prodMk_left
  have hp := Measure.isProbabilityMeasure_map (μ := γ) h1.aemeasurable
  have e := firstIn_law γ h1 hD h0
  refine e.trans ?_
  have hks : Measurable fun y => ENNReal.ofReal (κ (s, y)) := (hk.comp measurable_prodMk_left).ennreal_ofReal
  have hpos := stayIn_pos hs h0
  have e2 : (fun y => ENNReal.ofReal (κ (s, y) / stayIn γ step D s)) =
      fun y => (γ.map (step s) D)⁻¹ * ENNReal.ofReal (κ (s, y)) := by
    funext y
    rw [div_eq_inv_mul, ENNReal.ofReal_mul (inv_nonneg.2 hpos.le), ENNReal.ofReal_inv_of_pos hpos]
    congr 2
    exact ENNReal.ofReal_toReal (measure_ne_top _ _)
  rw [e2]
  have e3 : (fun y => (γ.map (step s) D)⁻¹ * ENNReal.ofReal (κ (s, y))) = (γ.map (step s) D)⁻¹ • fun y => ENNReal.ofReal (κ (s, y)) := rfl
  rw [e3, withDensity_smul _ hks, ← restrict_withDensity hD, ← hlaw s]
  rfl

/-- Steps with a symmetric density, repeated until they do not leave the domain, are in balance with the uniform distribution times the
probability that a step does not leave it. -/
theorem landIn_joint [SFinite lam] (hs : Measurable fun z : P × α => step z.1 z.2) (hD : MeasurableSet D) (hk : Measurable κ)
    (hlaw : ∀ s, γ.map (step s) = lam.withDensity fun y => ENNReal.ofReal (κ (s, y)))
    (h0 : ∀ s, γ.map (step s) D ≠ 0) (c : ENNReal) :
    (((c • lam.restrict D).withDensity fun x => ENNReal.ofReal (stayIn γ step D x)).prod (Measure.infinitePi fun _ : ℕ => γ)).map
        (fun z => (z.1, landIn step D z.1 z.2)) =
      (c • (lam.restrict D).prod (lam.restrict D)).withDensity fun z => ENNReal.ofReal (κ z) := by
  have hm : Measurable fun z : P × (ℕ → α) => (z.1, landIn step D z.1 z.2) := measurable_fst.prodMk (landIn_meas hs hD)
  have hst := (stayIn_meas (γ := γ) hs hD).ennreal_ofReal
  have hk' := hk.ennreal_ofReal
  refine Measure.ext_of_lintegral _ fun F hF => ?_
  have h2 : Measurable fun z : P × (ℕ → α) => F (z.1, landIn step D z.1 z.2) := hF.comp hm
  have h1 : Measurable fun x => ∫⁻ ω, F (x, landIn step D x ω) ∂Measure.infinitePi fun _ : ℕ => γ :=
    Measurable.lintegral_prod_right' h2
  have h3 : Measurable fun z : P × P => ENNReal.ofReal (κ z) * F z := hk'.mul hF
  rw [lintegral_map hF hm, lintegral_prod _ h2.aemeasurable,
    lintegral_withDensity_eq_lintegral_mul _ hst h1, lintegral_withDensity_eq_lintegral_mul _ hk' hF, lintegral_smul_measure,
    lintegral_smul_measure]
  congr 1
  refine Eq.trans ?_ (lintegral_prod _ h3.aemeasurable).symm
  refine lintegral_congr fun x => ?_
  simp only [Pi.mul_apply]
  have hx : Measurable (landIn step D x) := (landIn_meas hs hD).comp measurable_prodMk_left
  have hFx : Measurable fun y => F (x, y) := hF.comp measurable_prodMk_left
  have hkx : Measurable fun y => ENNReal.ofReal (κ (x, y) / stayIn γ step D x) :=
    ((hk.comp measurable_prodMk_left).div_const _).ennreal_ofReal
  have hpos := stayIn_pos hs (h0 x)
  rw [← lintegral_map (f := fun y => F (x, y)) hFx hx, landIn_law hs hD hk hlaw (h0 x),
    lintegral_withDensity_eq_lintegral_mul _ hkx hFx, ← lintegral_const_mul _ (hkx.mul hFx)]
  refine lintegral_congr fun y => ?_
  simp only [Pi.mul_apply]
  rw [← mul_assoc, ← ENNReal.ofReal_mul hpos.le, mul_div_cancel₀ _ hpos.ne']

theorem landIn_mem (hs : Measurable fun z : P × α => step z.1 z.2) (hD : MeasurableSet D) {s : P} (h0 : γ.map (step s) D ≠ 0) :
    ∀ᵐ ω ∂Measure.infinitePi fun _ : ℕ => γ, ∃ k, step s (ω k) ∈ D :=
  some_accepted γ (hs.comp measurable_prodMk_left) hD h0

end

end BB.Lemmas
