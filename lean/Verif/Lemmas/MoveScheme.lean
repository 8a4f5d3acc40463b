import Verif.Lemmas.MoveReports

/-!
# The perturbations of values and sites of one parameter space
-/

namespace BB.Lemmas

open BB BB.Spec BB.Props MeasureTheory ProbabilityTheory

section

variable {P : Type} [MeasurableSpace P] {k : ℕ}

/-- The draws of a perturbation of values: the index of the dimension and a normal deviate for each parameter. -/
def walkDraws (_ : PSState) (θ : ℕ × (Fin k → ℝ)) : List Draw := indexDraw θ.1 :: normalDraws θ.2

/-- The draws of a perturbation of a site: the index, and the deviates up to the first step that does not leave the domain. -/
noncomputable def siteDraws {α : Type} (enc : α → List Draw) (step : P → α → P) (dom : Set P)
    (val : PSState → Tuple (P × (Fin k → ℝ))) (s : PSState) (θ : ℕ × (ℕ → α)) : List Draw :=
  indexDraw θ.1 :: match (List.ofFn (val s).2)[θ.1 % (List.ofFn (val s).2).length]? with
    | some r => landTape enc step dom r.1 θ.2
    | none => []

/-- The moves of the values. -/
noncomputable abbrev valuesScheme (τ : Measure P) (dens : Fin k → P → ℝ → ℝ) (std : Fin k → P → ℝ) (lo hi : ℕ) :
    Scheme (Tuple (P × (Fin k → ℝ))) (ℕ × (Fin k → ℝ)) 1 :=
  rowMove (τ.prod volume) (priorDens dens) (walkLaw k) (newValues std) lo hi

/-- The moves of the sites. -/
noncomputable abbrev siteScheme {α : Type} [MeasurableSpace α] (τ : Measure P) (dens : Fin k → P → ℝ → ℝ) (γ : Measure α) (step : P → α → P) (D : Set P)
    (lo hi : ℕ) : Scheme (Tuple (P × (Fin k → ℝ))) (ℕ × (ℕ → α)) 1 :=
  rowMove (τ.prod volume) (priorDens dens) (Measure.infinitePi fun _ : ℕ => γ) (newSite (landIn step D)) lo hi

theorem values_ok {τ : Measure P} [SigmaFinite τ] [Nonempty P] {dens : Fin k → P → ℝ → ℝ}
    (hm : ∀ j, Measurable fun z : P × ℝ => dens j z.1 z.2) {std : Fin k → P → ℝ} (hs : ∀ j, Measurable (std j)) (lo hi : ℕ)
    (w : Fin 1 → ℝ) : (valuesScheme τ dens std lo hi).Ok w :=
  rowMove_ok (newValues_meas hs) (priorDens_meas hm) (priorDens_nonneg dens) (newValues_rev hs) w

theorem values_lumps {τ : Measure P} {dens : Fin k → P → ℝ → ℝ} {std : Fin k → P → ℝ} (hs : ∀ j, Measurable (std j)) (lo hi : ℕ) :
    (valuesScheme τ dens std lo hi).Lumps SameRows := rowMove_lumps (newValues_meas hs)

section site

variable {α : Type} [MeasurableSpace α] {lam : Measure P} {D : Set P} {γ : Measure α} [IsProbabilityMeasure γ] {step : P → α → P}
  {κ : P × P → ℝ}

/-- The uniform distribution in the domain times the probability that a step does not leave it. -/
noncomputable def tilted (lam : Measure P) (D : Set P) (γ : Measure α) (step : P → α → P) : Measure P :=
  lam[|D].withDensity fun x => ENNReal.ofReal (stayIn γ step D x)

instance [SigmaFinite lam] : SigmaFinite (tilted lam D γ step) := by
  unfold tilted
  infer_instance

theorem site_joint [SigmaFinite lam] (h : SiteStep lam D γ step κ) :
    ((tilted lam D γ step).prod (Measure.infinitePi fun _ : ℕ => γ)).map (fun z => (z.1, landIn step D z.1 z.2)) =
      ((lam D)⁻¹ • (lam.restrict D).prod (lam.restrict D)).withDensity fun z => ENNReal.ofReal (κ z) :=
  landIn_joint h.step_meas h.dom_meas h.kernel_meas h.law h.stays _

theorem site_symm [SigmaFinite lam] (h : SiteStep lam D γ step κ) :
    (((tilted lam D γ step).prod (Measure.infinitePi fun _ : ℕ => γ)).map fun z => (z.1, landIn step D z.1 z.2)).map Prod.swap =
      ((tilted lam D γ step).prod (Measure.infinitePi fun _ : ℕ => γ)).map fun z => (z.1, landIn step D z.1 z.2) := by
  rw [site_joint h]
  refine Measure.ext_of_lintegral _ fun G hG => ?_
  have hk := h.kernel_meas.ennreal_ofReal
  have hGs : Measurable fun z : P × P => G z.swap := hG.comp measurable_swap
  rw [lintegral_map hG measurable_swap, lintegral_withDensity_eq_lintegral_mul _ hk hGs,
    lintegral_withDensity_eq_lintegral_mul _ hk hG, lintegral_smul_measure, lintegral_smul_measure]
  congr 1
  have h1 : Measurable fun z : P × P => ENNReal.ofReal (κ z) * G z := hk.mul hG
  have := lintegral_map (μ := (lam.restrict D).prod (lam.restrict D)) h1 measurable_swap
  rw [Measure.prod_swap] at this
  simp only [Pi.mul_apply]
  rw [this]
  refine lintegral_congr fun z => ?_
  rw [h.symm z]

theorem site_ok [SigmaFinite lam] [Nonempty P] (h : SiteStep lam D γ step κ) {dens : Fin k → P → ℝ → ℝ}
    (hm : ∀ j, Measurable fun z : P × ℝ => dens j z.1 z.2) (lo hi : ℕ) (w : Fin 1 → ℝ) :
    (siteScheme (tilted lam D γ step) dens γ step D lo hi).Ok w :=
  rowMove_ok (newSite_meas (landIn_meas h.step_meas h.dom_meas)) (priorDens_meas hm) (priorDens_nonneg dens)
    (newSite_rev (landIn_meas h.step_meas h.dom_meas) (site_symm h)) w

theorem site_lumps (h : SiteStep lam D γ step κ) (τ : Measure P) (dens : Fin k → P → ℝ → ℝ) (lo hi : ℕ) :
    (siteScheme τ dens γ step D lo hi).Lumps SameRows :=
  rowMove_lumps (newSite_meas (landIn_meas h.step_meas h.dom_meas))

/-- The tilted law of the rows. -/
theorem sites_row [SigmaFinite lam] (h : SiteStep lam D γ step κ) {dens : Fin k → P → ℝ → ℝ}
    (hm : ∀ j, Measurable fun z : P × ℝ => dens j z.1 z.2) :
    ((tilted lam D γ step).prod (volume : Measure (Fin k → ℝ))).withDensity (fun r => ENNReal.ofReal (priorDens dens r)) =
      (rowLaw lam[|D] dens).withDensity fun r => ENNReal.ofReal (stayIn γ step D r.1) := by
  have hZ : Measurable (stayIn γ step D) := stayIn_meas h.step_meas h.dom_meas
  have hZ1 : Measurable fun r : P × (Fin k → ℝ) => stayIn γ step D r.1 := hZ.comp measurable_fst
  have hF := (priorDens_meas hm).ennreal_ofReal
  unfold tilted
  rw [prod_withDensity_left hZ.ennreal_ofReal, rowLaw_eq, ← withDensity_mul _ hZ1.ennreal_ofReal hF,
    ← withDensity_mul _ hF hZ1.ennreal_ofReal, mul_comm]

/-- The tilted prior. -/
theorem sites_prior [SigmaFinite lam] [Nonempty P] (h : SiteStep lam D γ step κ) {dens : Fin k → P → ℝ → ℝ}
    (hm : ∀ j, Measurable fun z : P × ℝ => dens j z.1 z.2) [SigmaFinite (rowLaw lam[|D] dens)] (lo hi : ℕ) :
    transPrior (((tilted lam D γ step).prod volume).withDensity fun r => ENNReal.ofReal (priorDens dens r)) lo hi =
      (transPrior (rowLaw lam[|D] dens) lo hi).withDensity fun x => ENNReal.ofReal (overSites (stayIn γ step D) x) := by
  have hZ : Measurable (stayIn γ step D) := stayIn_meas h.step_meas h.dom_meas
  have hZ1 : Measurable fun r : P × (Fin k → ℝ) => stayIn γ step D r.1 := hZ.comp measurable_fst
  rw [sites_row h hm, transPrior_density hZ1 fun r => stayIn_nonneg _]
  rfl

end site

/-! ### what the code does -/

theorem values_reports {prs : Fin k → Prior} {col : List P → List (String × PVal)} {loc : P → Pos} {dom : Set P} {dens : Fin k → P → ℝ → ℝ}
    {std : Fin k → P → ℝ} (hst : Stored prs col loc) (hd : ∀ j, HasDensity (prs j) loc dom (dens j))
    (hc : ∀ j, NotCustom (prs j)) (hstd : ∀ j, ∀ x ∈ dom, (prs j).std.get (loc x) = .ok (std j x)) (name : String) (w : ℝ)
    {GS : List P → Prop} (hGS : ∀ xs, GS xs → ∀ x ∈ xs, x ∈ dom) {lo hi : ℕ} (hlo : 1 ≤ lo)
    (val : PSState → Tuple (P × (Fin k → ℝ))) (hval : ∀ l s, Holds col prs l s → val s = ofRows l)
    (logLik : Tuple (P × (Fin k → ℝ)) → ℝ) (T : ℝ) (τ : Measure P) :
    Reports (funcsChain [(PSFunc.values name (List.ofFn prs), w)] val logLik) (valuesScheme τ dens std lo hi) logLik T
      (fun _ => walkDraws) val (RowInv prs col lo hi fun l => GS (l.map Prod.fst)) SameRows := by
  refine move_reports hlo (priorDens_nonneg dens) val hval _ (fun l s hl hg m hm => .of_forall fun z => ?_) logLik T _
  have hdom : (l[m % l.length]).1 ∈ dom := hGS _ hg _ (List.mem_map.2 ⟨_, List.getElem_mem hm, rfl⟩)
  obtain ⟨s', lpr, e1, e2, e3⟩ := values_moved hst hd hc hstd name hl m hm hdom z
  refine ⟨_, s', lpr, .refl _, e1, ?_, e2, e3⟩
  have e7 : (l.set (m % l.length) (newValues std l[m % l.length] z)).map Prod.fst = l.map Prod.fst := by
    rw [List.map_set]
    have h3 : m % l.length < (l.map Prod.fst).length := by rw [List.length_map]; exact hm
    have h4 : (newValues std l[m % l.length] z).1 = (l.map Prod.fst)[m % l.length] := by
      rw [List.getElem_map]
      rfl
    rw [h4]
    exact List.set_getElem_self h3
  rw [e7]
  exact hg

theorem site_reports {α : Type} [MeasurableSpace α] {lam : Measure P} {dom : Set P} {γ : Measure α} [IsProbabilityMeasure γ]
    {step : P → α → P} {κ : P × P → ℝ} (h : SiteStep lam dom γ step κ) {sp : Space} {prs : Fin k → Prior}
    {col : List P → List (String × PVal)} {ok : List P → Prop} {enc : α → List Draw} {dens : Fin k → P → ℝ → ℝ}
    (hr : SiteRuns sp prs col ok dom step enc dens) (w : ℝ)
    {GS : List P → Prop} (hGS : ∀ xs, GS xs → ∀ x ∈ xs, x ∈ dom)
    (hstays : ∀ xs, GS xs → ∀ i (hi : i < xs.length), ∀ᵐ ω ∂Measure.infinitePi fun _ : ℕ => γ, ∀ ys,
      ys.Perm (xs.set i (landIn step dom xs[i] ω)) → ok ys → GS ys) {lo hi : ℕ} (hlo : 1 ≤ lo)
    (val : PSState → Tuple (P × (Fin k → ℝ))) (hval : ∀ l s, Holds col prs l s → val s = ofRows l)
    (logLik : Tuple (P × (Fin k → ℝ)) → ℝ) (T : ℝ) (τ : Measure P) :
    Reports (funcsChain [(PSFunc.site sp, w)] val logLik) (siteScheme τ dens γ step dom lo hi) logLik T
      (fun _ => siteDraws enc step dom val) val (RowInv prs col lo hi fun l => GS (l.map Prod.fst)) SameRows := by
  refine move_reports hlo (priorDens_nonneg dens) val hval _ (fun l s hl hg m hm => ?_) logLik T _
  have hdom : (l[m % l.length]).1 ∈ dom := hGS _ hg _ (List.mem_map.2 ⟨_, List.getElem_mem hm, rfl⟩)
  have hm' : m % l.length < (l.map Prod.fst).length := by rw [List.length_map]; exact hm
  filter_upwards [landIn_mem h.step_meas h.dom_meas (h.stays (l[m % l.length]).1), hstays _ hg _ hm'] with ω h1 h2
  obtain ⟨l', s', lpr, e1, e2, e3, e4, e5⟩ := hr l s hl m hm hdom ω h1
  refine ⟨l', s', lpr, e1, e2, h2 _ ?_ e3, fun rest => ?_, e5⟩
  · have := e1.map Prod.fst
    rw [List.map_set] at this
    rw [List.getElem_map]
    exact this
  · have hd : siteDraws enc step dom val s (m, ω) = indexDraw m :: landTape enc step dom (l[m % l.length]).1 ω := by
      unfold siteDraws
      rw [hval l s hl, rows_ofRows]
      simp only [List.getElem?_eq_getElem hm]
    rw [hd]
    exact e4 rest

end

end BB.Lemmas
