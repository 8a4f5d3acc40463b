import Verif.Lemmas.Tilt
import Verif.Lemmas.MoveScheme

/-!
# Moves of the sites do not preserve the posterior
-/

namespace BB.Lemmas

open BB BB.Spec BB.Props MeasureTheory ProbabilityTheory

section

variable {X Θ : Type} [MeasurableSpace X] [MeasurableSpace Θ] {n : ℕ} {p : Scheme X Θ n} {w : Fin n → ℝ}
  {ℓ : X → ℝ} {T : ℝ}

/-- If the chain in balance with the posterior of a scheme never leads to where `h` is smaller, then `h` does not change between
two models, if the `i`-th proposal can lead from one to the other and back. -/
theorem keeps_flow (hp : p.Ok w) (hw : ∀ i, 0 ≤ w i) (hℓ : Measurable ℓ) {h : X → ENNReal} (hh : Measurable h)
    (hno : ∀ q : ℚ, ∫⁻ x in {x | (Real.toNNReal q : ENNReal) < h x}, transition p w ℓ T x {x | (Real.toNNReal q : ENNReal) < h x}ᶜ
      ∂posterior p.prior ℓ T = 0) (i : Fin n) (hi : 0 < w i) (hrev : p.rev i = i) :
    ∀ᵐ z ∂p.common i, 0 < p.dens i z → 0 < p.dens i z.swap → h z.1 = h z.2 := by
  have hs : 0 < ∑ j, w j := lt_of_lt_of_le hi (Finset.single_le_sum (fun j _ => hw j) (Finset.mem_univ i))
  have key : ∀ q : ℚ, p.common i ({z | 0 < p.dens i z ∧ 0 < p.dens i z.swap} ∩
      {x | (Real.toNNReal q : ENNReal) < h x} ×ˢ {x | (Real.toNNReal q : ENNReal) < h x}ᶜ) = 0 := by
    intro q
    set c : ENNReal := ((Real.toNNReal q : NNReal) : ENNReal) with hc
    have hA : MeasurableSet {x | c < h x} := measurableSet_lt measurable_const hh
    have h1 := flow_le (T := T) hp hℓ hA i
    rw [hno q, nonpos_iff_eq_zero] at h1
    have h2 : ∫⁻ z in {x | c < h x} ×ˢ {x | c < h x}ᶜ, flow p ℓ T i z ∂p.common i = 0 := by
      rcases mul_eq_zero.1 h1 with h | h
      · exact absurd h (ENNReal.ofReal_pos.2 (div_pos hi hs)).ne'
      · exact h
    have hfm : Measurable (flow p ℓ T i) := by
      have h1 := acceptance_meas (T := T) hp hℓ i
      have h2 := hp.dens_meas i
      unfold flow
      fun_prop
    rw [setLIntegral_eq_zero_iff (hA.prod hA.compl) hfm] at h2
    refine measure_mono_null (t := {z | ¬ (z ∈ {x | c < h x} ×ˢ {x | c < h x}ᶜ → flow p ℓ T i z = 0)}) ?_ (ae_iff.1 h2)
    rintro z ⟨⟨g1, g2⟩, hz⟩ g3
    refine flow_pos hp i g1 ?_ (g3 hz)
    rw [hrev]
    exact g2
  have hle : ∀ᵐ z ∂p.common i, 0 < p.dens i z → 0 < p.dens i z.swap → h z.1 ≤ h z.2 := by
    rw [ae_iff]
    refine measure_mono_null (t := ⋃ q : ℚ, {z | 0 < p.dens i z ∧ 0 < p.dens i z.swap} ∩
      {x | (Real.toNNReal q : ENNReal) < h x} ×ˢ {x | (Real.toNNReal q : ENNReal) < h x}ᶜ)
      ?_ (measure_iUnion_null fun q => key _)
    intro z hz
    have hz' : ¬ (0 < p.dens i z → 0 < p.dens i z.swap → h z.1 ≤ h z.2) := hz
    push Not at hz'
    obtain ⟨g1, g2, g3⟩ := hz'
    obtain ⟨q, -, h1, h2⟩ := ENNReal.lt_iff_exists_rat_btwn.1 g3
    exact Set.mem_iUnion.2 ⟨q, ⟨g1, g2⟩, h2, not_lt.2 h1.le⟩
  have hge : ∀ᵐ z ∂p.common i, 0 < p.dens i z.swap → 0 < p.dens i z.swap.swap → h z.2 ≤ h z.1 := by
    have h1 : ∀ᵐ z ∂(p.common i).map Prod.swap, 0 < p.dens i z → 0 < p.dens i z.swap → h z.1 ≤ h z.2 := by
      rw [hp.symm i, hrev]
      exact hle
    exact ae_of_ae_map measurable_swap.aemeasurable h1
  filter_upwards [hle, hge] with z h1 h2 g1 g2
  refine le_antisymm (h1 g1 g2) (h2 g2 ?_)
  rw [Prod.swap_swap]
  exact g1

/-- If the chain in balance with the posterior of a scheme preserves another distribution, too, with a density `h`, then
`h` does not change between two models, if the `i`-th proposal can lead from one to the other and back. -/
theorem keeps_where (hp : p.Ok w) (hw : ∀ i, 0 ≤ w i) (hℓ : Measurable ℓ) {h : X → ENNReal} (hh : Measurable h)
    (hfin : ∫⁻ x, h x ∂posterior p.prior ℓ T ≠ ⊤)
    (hpres : ∀ c, ∫⁻ x, transition p w ℓ T x {x | c < h x} ∂(posterior p.prior ℓ T).withDensity h =
      (posterior p.prior ℓ T).withDensity h {x | c < h x}) (i : Fin n) (hi : 0 < w i) (hrev : p.rev i = i) :
    ∀ᵐ z ∂p.common i, 0 < p.dens i z → 0 < p.dens i z.swap → h z.1 = h z.2 := by
  have hs : 0 < ∑ j, w j := lt_of_lt_of_le hi (Finset.single_le_sum (fun j _ => hw j) (Finset.mem_univ i))
  exact keeps_flow hp hw hℓ hh (fun q => no_flow (detailed_balance hp hℓ) (fun B hB => transition_meas hp hℓ hB)
    (fun x B hB => transition_add_compl hp hw hs hℓ x hB) hh hfin _ (hpres _)) i hi hrev

end

section rows

variable {R Θ : Type} [MeasurableSpace R] [MeasurableSpace Θ] {ν : Measure R} {F : R → ℝ} {μ : Measure Θ} {m : R → Θ → R}
  {lo hi : ℕ}

theorem insertAt_prod {n : ℕ} (F : R → ℝ) (i : Fin (n + 1)) (r : R) (v : Fin n → R) :
    ∏ j, F (insertAt i r v j) = F r * ∏ j, F (v j) := by
  unfold insertAt
  rw [Fin.prod_univ_succAbove _ i]
  simp

/-- If a product over the rows does not change where the densities are positive, then the factor of a row does not change where
its density is positive. -/
theorem one_row [Nonempty R] [SigmaFinite ν] [IsProbabilityMeasure μ] (hm : Measurable fun z : R × Θ => m z.1 z.2) (hF : Measurable F)
    (h0 : ∀ r, 0 ≤ F r) (hne : ν.withDensity (fun r => ENNReal.ofReal (F r)) ≠ 0) {Z : R → ℝ} (hZ : Measurable Z)
    (hpos : ∀ r, 0 < Z r) (hlo : 1 ≤ lo) (hlh : lo ≤ hi)
    (hk : ∀ᵐ z ∂(rowMove ν F μ m lo hi).common 0, 0 < ∏ i, F (z.1.2 i) → 0 < ∏ i, F (z.2.2 i) →
      ∏ i, Z (z.1.2 i) = ∏ i, Z (z.2.2 i)) :
    ∀ᵐ z ∂(ν.prod μ).map (fun z => (z.1, m z.1 z.2)), 0 < F z.1 → 0 < F z.2 → Z z.1 = Z z.2 := by
  obtain ⟨n, rfl⟩ : ∃ n, lo = n + 1 := ⟨lo - 1, by omega⟩
  set B : Set (Tuple R × Tuple R) := {z | 0 < ∏ i, F (z.1.2 i) ∧ 0 < ∏ i, F (z.2.2 i) ∧
    ∏ i, Z (z.1.2 i) ≠ ∏ i, Z (z.2.2 i)} with hB
  have hPF := prodF_meas hF
  have hPZ := prodF_meas hZ
  have hBm : MeasurableSet B := by
    refine (measurableSet_lt measurable_const (hPF.comp measurable_fst)).inter
      ((measurableSet_lt measurable_const (hPF.comp measurable_snd)).inter ?_)
    exact (measurableSet_eq_fun (hPZ.comp measurable_fst) (hPZ.comp measurable_snd)).compl
  have hB0 : (rowMove ν F μ m (n + 1) hi).common 0 B = 0 := by
    rw [ae_iff] at hk
    refine measure_mono_null ?_ hk
    rintro z ⟨h1, h2, h3⟩ hc
    exact h3 (hc h1 h2)
  have hG : Measurable (B.indicator (1 : Tuple R × Tuple R → ENNReal)) := measurable_one.indicator hBm
  rw [← lintegral_indicator_one hBm, rowMove_common hm hG, Finset.sum_eq_zero_iff] at hB0
  have h1 := hB0 (n + 1) (Finset.mem_Ico.2 ⟨le_rfl, by omega⟩)
  rw [lintegral_moveRow hm hlh hG, mul_eq_zero] at h1
  have h2 := h1.resolve_left (by simp)
  rw [Finset.sum_eq_zero_iff] at h2
  have h3 := h2 0 (Finset.mem_univ _)
  have hv : Measurable fun z : (Fin n → R) × (R × R) =>
      B.indicator (1 : Tuple R × Tuple R → ENNReal) (tup (n + 1) (insertAt 0 z.2.1 z.1), tup (n + 1) (insertAt 0 z.2.2 z.1)) :=
    hG.comp (((measurable_mk _).comp ((insertAt_meas 0).comp (measurable_snd.fst.prodMk measurable_fst))).prodMk
      ((measurable_mk _).comp ((insertAt_meas 0).comp (measurable_snd.snd.prodMk measurable_fst))))
  have hv' := fun v : Fin n → R => hv.comp (measurable_const (a := v) |>.prodMk measurable_id)
  rw [lintegral_eq_zero_iff (Measurable.lintegral_prod_right' hv)] at h3
  -- other rows of positive density
  have hd : Measurable fun v : Fin n → R => ∏ i, ENNReal.ofReal (F (v i)) := by fun_prop
  have e := pi_density (fun _ : Fin n => ν) (fun _ => hF.ennreal_ofReal)
  have hpi : (Measure.pi fun _ : Fin n => ν.withDensity fun r => ENNReal.ofReal (F r)) ≠ 0 := by
    intro hc
    have := congrArg (· Set.univ) hc
    simp only [Measure.pi_univ, Measure.coe_zero, Pi.zero_apply, Finset.prod_eq_zero_iff] at this
    obtain ⟨-, -, h⟩ := this
    exact hne (Measure.measure_univ_eq_zero.1 h)
  have h4 : ∀ᵐ v ∂Measure.pi fun _ : Fin n => ν.withDensity fun r => ENNReal.ofReal (F r),
      (∫⁻ z, B.indicator (1 : Tuple R × Tuple R → ENNReal) (tup (n + 1) (insertAt 0 z.1 v), tup (n + 1) (insertAt 0 z.2 v))
        ∂(ν.prod μ).map fun z => (z.1, m z.1 z.2)) = 0 := by
    rw [e]
    exact (withDensity_absolutelyContinuous _ _).ae_le h3
  have h5 : ∀ᵐ v ∂Measure.pi fun _ : Fin n => ν.withDensity fun r => ENNReal.ofReal (F r), 0 < ∏ i, F (v i) := by
    rw [e, ae_withDensity_iff hd]
    refine .of_forall fun v hv => lt_of_le_of_ne (Finset.prod_nonneg fun i _ => h0 _) fun hc => hv ?_
    rw [← ENNReal.ofReal_prod_of_nonneg fun i _ => h0 _, ← hc, ENNReal.ofReal_zero]
  have : Filter.NeBot (ae (Measure.pi fun _ : Fin n => ν.withDensity fun r => ENNReal.ofReal (F r))) := ae_neBot.2 hpi
  obtain ⟨v, h6, h7⟩ := (h4.and h5).exists
  filter_upwards [(lintegral_eq_zero_iff (hv' v)).1 h6] with z hz g1 g2
  by_contra hne'
  have hmem : (tup (n + 1) (insertAt 0 z.1 v), tup (n + 1) (insertAt 0 z.2 v)) ∈ B := by
    have hZv : ∏ j, Z (v j) ≠ 0 := (Finset.prod_pos fun j _ => hpos _).ne'
    refine ⟨?_, ?_, ?_⟩
    · exact (insertAt_prod F 0 z.1 v).symm ▸ mul_pos g1 h7
    · exact (insertAt_prod F 0 z.2 v).symm ▸ mul_pos g2 h7
    · intro hc
      have hc' : ∏ j, Z (insertAt 0 z.1 v j) = ∏ j, Z (insertAt 0 z.2 v j) := hc
      rw [insertAt_prod, insertAt_prod] at hc'
      exact hne' (mul_right_cancel₀ hZv hc')
  have : B.indicator (1 : Tuple R × Tuple R → ENNReal) (tup (n + 1) (insertAt 0 z.1 v), tup (n + 1) (insertAt 0 z.2 v)) = 0 := hz
  rw [Set.indicator_of_mem hmem] at this
  exact one_ne_zero this

end rows

section sites

variable {P α : Type} [MeasurableSpace P] [MeasurableSpace α] {k : ℕ} {lam : Measure P} {D : Set P} {γ : Measure α}
  [IsProbabilityMeasure γ] {step : P → α → P} {κ : P × P → ℝ} {F : P × (Fin k → ℝ) → ℝ}

/-- The probability that a step does not leave the domain is not constant where the density is positive. -/
theorem site_level [SigmaFinite lam] (h : SiteStep lam D γ step κ) (htop : lam D ≠ ⊤) (hF : Measurable F)
    (hk : ∀ᵐ z ∂(((tilted lam D γ step).prod (volume : Measure (Fin k → ℝ))).prod (Measure.infinitePi fun _ : ℕ => γ)).map
      (fun z => (z.1, newSite (landIn step D) z.1 z.2)), 0 < F z.1 → 0 < F z.2 →
      stayIn γ step D z.1.1 = stayIn γ step D z.2.1) :
    ∀ᵐ r ∂(lam.restrict D).prod (volume : Measure (Fin k → ℝ)), F r ≤ 0 := by
  have hland := landIn_meas h.step_meas h.dom_meas
  have hZ : Measurable (stayIn γ step D) := stayIn_meas h.step_meas h.dom_meas
  rw [newSite_joint hland] at hk
  have h1 := ae_of_ae_map sideBySide_meas.aemeasurable hk
  rw [site_joint h] at h1
  have hac : ((lam.restrict D).prod (lam.restrict D)).prod (volume : Measure (Fin k → ℝ)) ≪
      (((lam D)⁻¹ • (lam.restrict D).prod (lam.restrict D)).withDensity fun z => ENNReal.ofReal (κ z)).prod volume := by
    refine Measure.AbsolutelyContinuous.prod ?_ .rfl
    refine Measure.AbsolutelyContinuous.trans ?_ (withDensity_absolutelyContinuous' h.kernel_meas.ennreal_ofReal.aemeasurable
      (.of_forall fun z => (ENNReal.ofReal_pos.2 (h.pos z)).ne'))
    exact Measure.absolutelyContinuous_smul (ENNReal.inv_ne_zero.2 htop)
  have h2 : ∀ᵐ y ∂((lam.restrict D).prod (lam.restrict D)).prod (volume : Measure (Fin k → ℝ)),
      0 < F (y.1.1, y.2) → 0 < F (y.1.2, y.2) → stayIn γ step D y.1.1 = stayIn γ step D y.1.2 := hac.ae_le h1
  -- for almost all values
  have hsw : Measurable fun y : (Fin k → ℝ) × (P × P) => (y.2, y.1) := measurable_swap
  have h3 : ∀ᵐ y ∂(volume : Measure (Fin k → ℝ)).prod ((lam.restrict D).prod (lam.restrict D)),
      0 < F (y.2.1, y.1) → 0 < F (y.2.2, y.1) → stayIn γ step D y.2.1 = stayIn γ step D y.2.2 := by
    rw [← Measure.prod_swap] at h2
    exact ae_of_ae_map measurable_swap.aemeasurable h2
  have h4 := Measure.ae_ae_of_ae_prod h3
  have hgoal : ∀ᵐ y ∂(volume : Measure (Fin k → ℝ)).prod (lam.restrict D), F (y.2, y.1) ≤ 0 := by
    have hms : MeasurableSet {y : (Fin k → ℝ) × P | F (y.2, y.1) ≤ 0} :=
      measurableSet_le (hF.comp measurable_swap) measurable_const
    rw [Measure.ae_prod_iff_ae_ae hms]
    filter_upwards [h4] with v hv
    have h5 := Measure.ae_ae_of_ae_prod hv
    by_contra hc
    have hfreq : ∃ᵐ x ∂lam.restrict D, 0 < F (x, v) := by
      intro hn
      exact hc (hn.mono fun x hx => not_lt.1 hx)
    obtain ⟨x, hx, hx'⟩ := (hfreq.and_eventually h5).exists
    have h6 : ∀ᵐ y ∂lam.restrict D, F (y, v) ≤ 0 := by
      have hl : ∀ᵐ y ∂lam.restrict D, stayIn γ step D y ≠ stayIn γ step D x := by
        rw [ae_iff]
        have hs : {y | ¬ stayIn γ step D y ≠ stayIn γ step D x} = {y | stayIn γ step D y = stayIn γ step D x} := by
          ext y
          simp
        rw [hs, Measure.restrict_apply (measurableSet_eq_fun hZ measurable_const)]
        exact h.level _
      filter_upwards [hx', hl] with y h7 h8
      by_contra h9
      exact h8 (h7 hx (not_le.1 h9)).symm
    exact hc h6
  have hswap := Measure.prod_swap (μ := (volume : Measure (Fin k → ℝ))) (ν := lam.restrict D)
  rw [← hswap, ae_map_iff measurable_swap.aemeasurable (measurableSet_le hF measurable_const)]
  exact hgoal

/-- The probabilities that steps from the sites stay in the domain are not the same before and after the moves. -/
theorem sites_vary [SigmaFinite lam] [Nonempty P] (h : SiteStep lam D γ step κ) (htop : lam D ≠ ⊤)
    {dens : Fin k → P → ℝ → ℝ} (hm : ∀ j, Measurable fun z : P × ℝ => dens j z.1 z.2) [SigmaFinite (rowLaw lam[|D] dens)]
    (hne : rowLaw lam[|D] dens ≠ 0) {lo hi : ℕ} (hlo : 1 ≤ lo) (hlh : lo ≤ hi) :
    ¬ ∀ᵐ z ∂(siteScheme (tilted lam D γ step) dens γ step D lo hi).common 0,
      0 < (siteScheme (tilted lam D γ step) dens γ step D lo hi).dens 0 z →
      0 < (siteScheme (tilted lam D γ step) dens γ step D lo hi).dens 0 z.swap →
      overSites (stayIn γ step D) z.1 = overSites (stayIn γ step D) z.2 := by
  intro h1
  have hZ : Measurable (stayIn γ step D) := stayIn_meas h.step_meas h.dom_meas
  have hZ1 : Measurable fun r : P × (Fin k → ℝ) => stayIn γ step D r.1 := hZ.comp measurable_fst
  have hZp : ∀ r : P × (Fin k → ℝ), 0 < stayIn γ step D r.1 := fun r => stayIn_pos h.step_meas (h.stays _)
  have hF := priorDens_meas hm
  have h2 := one_row (ν := (tilted lam D γ step).prod volume) (μ := Measure.infinitePi fun _ : ℕ => γ)
    (newSite_meas (landIn_meas h.step_meas h.dom_meas)) hF (priorDens_nonneg dens) (by
      rw [sites_row h hm, Ne, withDensity_eq_zero_iff hZ1.ennreal_ofReal.aemeasurable]
      intro h3
      have h4 : ∀ᵐ r ∂rowLaw lam[|D] dens, False := h3.mono fun r hr => (ENNReal.ofReal_pos.2 (hZp r)).ne' hr
      rw [Filter.eventually_false_iff_eq_bot, ae_eq_bot] at h4
      exact hne h4) hZ1 hZp hlo hlh h1
  have h3 := site_level h htop hF h2
  refine hne ?_
  rw [rowLaw_eq, withDensity_eq_zero_iff hF.ennreal_ofReal.aemeasurable]
  have hac : (lam[|D]).prod (volume : Measure (Fin k → ℝ)) ≪ (lam.restrict D).prod volume :=
    Measure.AbsolutelyContinuous.prod (Measure.smul_absolutelyContinuous) .rfl
  filter_upwards [hac.ae_le h3] with r hr
  exact ENNReal.ofReal_eq_zero.2 hr

omit [MeasurableSpace P] in
/-- Models with the same sites. -/
theorem overSites_same {Z : P → ℝ} {x y : Tuple (P × (Fin k → ℝ))} (h : SameRows x y) : overSites Z x = overSites Z y := by
  unfold overSites
  have h2 := (h.map fun r => Z r.1).prod_eq
  rw [List.map_ofFn, List.map_ofFn, List.prod_ofFn, List.prod_ofFn] at h2
  exact h2

/-- The moves of the sites do not preserve the posterior. -/
theorem sites_not_preserved [SigmaFinite lam] [Nonempty P] (h : SiteStep lam D γ step κ) (htop : lam D ≠ ⊤)
    {dens : Fin k → P → ℝ → ℝ} (hm : ∀ j, Measurable fun z : P × ℝ => dens j z.1 z.2) [SigmaFinite (rowLaw lam[|D] dens)]
    (hne : rowLaw lam[|D] dens ≠ 0) {lo hi : ℕ} (hlo : 1 ≤ lo) (hlh : lo ≤ hi) {w : Fin 1 → ℝ} (hw : 0 < w 0)
    {ℓ : Tuple (P × (Fin k → ℝ)) → ℝ} (hℓ : Measurable ℓ) (T : ℝ)
    (hfin : posterior (transPrior (rowLaw lam[|D] dens) lo hi) ℓ T Set.univ ≠ ⊤) :
    ¬ PreservesUpTo SameRows (posterior (transPrior (rowLaw lam[|D] dens) lo hi) ℓ T)
      (transition (siteScheme (tilted lam D γ step) dens γ step D lo hi) w ℓ T) := by
  intro hc
  set q := siteScheme (tilted lam D γ step) dens γ step D lo hi with hq
  have hok : q.Ok w := site_ok h hm lo hi w
  have hZ : Measurable (stayIn γ step D) := stayIn_meas h.step_meas h.dom_meas
  have hZ1 : Measurable fun r : P × (Fin k → ℝ) => stayIn γ step D r.1 := hZ.comp measurable_fst
  have hZp : ∀ r : P × (Fin k → ℝ), 0 < stayIn γ step D r.1 := fun r => stayIn_pos h.step_meas (h.stays _)
  have hO : Measurable fun x : Tuple (P × (Fin k → ℝ)) => overSites (stayIn γ step D) x := prodF_meas hZ1
  have hOp : ∀ x : Tuple (P × (Fin k → ℝ)), 0 < overSites (stayIn γ step D) x := fun x => Finset.prod_pos fun i _ => hZp _
  set g : Tuple (P × (Fin k → ℝ)) → ENNReal := fun x => ENNReal.ofReal (overSites (stayIn γ step D) x)⁻¹ with hg
  have hgm : Measurable g := hO.inv.ennreal_ofReal
  have hprior : q.prior = (transPrior (rowLaw lam[|D] dens) lo hi).withDensity fun x =>
      ENNReal.ofReal (overSites (stayIn γ step D) x) := sites_prior h hm lo hi
  have hle : Measurable fun x => ENNReal.ofReal (Real.exp (ℓ x / T)) := by fun_prop
  have e : (posterior q.prior ℓ T).withDensity g = posterior (transPrior (rowLaw lam[|D] dens) lo hi) ℓ T := by
    unfold posterior
    rw [hprior, ← withDensity_mul _ hO.ennreal_ofReal hle, ← withDensity_mul _ (hO.ennreal_ofReal.mul hle) hgm]
    congr 1
    funext x
    simp only [Pi.mul_apply, hg]
    rw [mul_right_comm, ← ENNReal.ofReal_mul (hOp x).le, mul_inv_cancel₀ (hOp x).ne', ENNReal.ofReal_one, one_mul]
  have h1 := keeps_where (T := T) hok (fun i => by rw [Subsingleton.elim i 0]; exact hw.le) hℓ hgm
    (by
      rw [← setLIntegral_univ, ← withDensity_apply _ MeasurableSet.univ, e]
      exact hfin)
    (fun c => by
      rw [e]
      refine hc _ (measurableSet_lt measurable_const hgm) fun x y hxy => ?_
      have : overSites (stayIn γ step D) x = overSites (stayIn γ step D) y := overSites_same hxy
      change c < g x ↔ c < g y
      simp only [hg, this]) 0 hw rfl
  refine sites_vary h htop hm hne hlo hlh ?_
  filter_upwards [h1] with z hz g1 g2
  have h3 := hz g1 g2
  simp only [hg] at h3
  exact inv_injective ((ENNReal.ofReal_eq_ofReal_iff (inv_pos.2 (hOp _)).le (inv_pos.2 (hOp _)).le).1 h3)

end sites

end BB.Lemmas
