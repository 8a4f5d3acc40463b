import Verif.Lemmas.Blocks

/-!
# The law of the perturbation of one block
-/

namespace BB.Lemmas

open BB Spec Props MeasureTheory

section possible

variable {X Θ : Type} [MeasurableSpace X] [MeasurableSpace Θ] {n : ℕ} {p : Scheme X Θ n} {w : Fin n → ℝ} {P : Set X}

/-- Almost all proposals that can be reversed are possible models. -/
theorem ae_rev (hp : p.Ok w) (hP : MeasurableSet P) (hae : ∀ᵐ x ∂p.prior, x ∈ P) :
    ∀ᵐ x ∂p.prior, ∀ i, ∀ᵐ θ ∂p.draws, p.dens (p.rev i) (p.move i x θ, x) ≠ 0 → p.move i x θ ∈ P := by
  have := hp.prob
  have := hp.sfinite
  rw [ae_all_iff]
  intro i
  have hm : ∀ i, Measurable fun z : X × Θ => (z.1, p.move i z.1 z.2) := fun i => measurable_fst.prodMk (hp.meas i)
  have h0 : ∀ᵐ z ∂(p.prior.prod p.draws).map (fun z => (z.1, p.move (p.rev i) z.1 z.2)), z.1 ∈ P := by
    rw [ae_map_iff (hm _).aemeasurable (measurable_fst hP)]
    exact Measure.quasiMeasurePreserving_fst.ae hae
  rw [hp.joint (p.rev i), ae_withDensity_iff (hp.dens_meas _).ennreal_ofReal] at h0
  have h1 : ∀ᵐ z ∂p.common i, p.dens (p.rev i) z.swap ≠ 0 → z.2 ∈ P := by
    have h2 := h0
    rw [← hp.symm i] at h2
    have h3 := ae_of_ae_map measurable_swap.aemeasurable h2
    filter_upwards [h3] with z hz hd
    refine hz ?_
    exact (ENNReal.ofReal_pos.2 (lt_of_le_of_ne (hp.dens_nonneg _ _) (Ne.symm hd))).ne'
  have h4 : ∀ᵐ z ∂(p.prior.prod p.draws).map (fun z => (z.1, p.move i z.1 z.2)), p.dens (p.rev i) z.swap ≠ 0 → z.2 ∈ P := by
    rw [hp.joint i]
    exact (withDensity_absolutelyContinuous _ _).ae_le h1
  exact Measure.ae_ae_of_ae_prod (ae_of_ae_map (hm i).aemeasurable h4)

theorem rev_lumps (hp : p.Ok w) {r : X → X → Prop} (hrefl : ∀ x, r x x) (hr : p.Lumps r) (hP : MeasurableSet P)
    (hPr : Invariant r P) {x x' : X} (hx : r x x') (i : Fin n)
    (h : ∀ᵐ θ ∂p.draws, p.dens (p.rev i) (p.move i x θ, x) ≠ 0 → p.move i x θ ∈ P) :
    ∀ᵐ θ ∂p.draws, p.dens (p.rev i) (p.move i x' θ, x') ≠ 0 → p.move i x' θ ∈ P := by
  classical
  set G : X → ENNReal := fun y => if p.dens (p.rev i) (y, x) ≠ 0 ∧ y ∉ P then 1 else 0 with hG
  have hd : Measurable fun y => p.dens (p.rev i) (y, x) := (hp.dens_meas _).comp (measurable_id.prodMk measurable_const)
  have hGm : Measurable G :=
    Measurable.ite ((hd (measurableSet_singleton 0)).compl.inter hP.compl) measurable_const measurable_const
  have hmove : ∀ x, Measurable fun θ => p.move i x θ := fun x => (hp.meas i).comp (measurable_const.prodMk measurable_id)
  have h2 := hr.law i x x' hx G hGm fun y y' hy => by
    simp only [hG]
    rw [hr.dens _ y y' x x hy (hrefl x), hPr y y' hy]
  have h3 : ∫⁻ θ, G (p.move i x θ) ∂p.draws = 0 := by
    refine (lintegral_eq_zero_iff (hGm.comp (hmove x))).2 ?_
    filter_upwards [h] with θ hθ
    simp only [hG, Function.comp]
    rw [if_neg fun hc => hc.2 (hθ hc.1)]
    rfl
  rw [h3] at h2
  have h4 := (lintegral_eq_zero_iff (hGm.comp (hmove x'))).1 h2.symm
  filter_upwards [h4] with θ hθ hd
  by_contra hc
  simp only [hG, Function.comp, Pi.zero_apply] at hθ
  rw [if_pos] at hθ
  · exact one_ne_zero hθ
  · refine ⟨?_, hc⟩
    rw [hr.dens _ _ _ x x' (hrefl _) hx]
    exact hd

end possible

section law

variable {S S' σ σ' E E' X C Θ : Type} [MeasurableSpace X] [MeasurableSpace C] [MeasurableSpace Θ]

/-- What the perturbation of the chain has to do with the function chosen: the same as the function does in the block, with a log
likelihood ratio as given by `ℓ` unless the proposal is impossible. -/
def Simulates (cfg : ChainCfg S σ) (c : Chain S σ E) (g : S → M (S × PyF)) (tp : List Draw) (val : S → X) (ℓ : C → ℝ) (Φ : C → X)
    (cur' new' : C) (lpr : PyF) : Prop :=
  ∃ new, (∀ rest, g c.cur (tp ++ rest) = (.ok (new, lpr), rest)) ∧ val new = Φ new' ∧
    (lpr.isInf = false → ∃ cur1 new1, cfg.llr c.cur new c.temp = (.ok (.fin ((ℓ new' - ℓ cur') / c.temp)), cur1, new1) ∧
      val cur1 = val c.cur ∧ val new1 = val new)

theorem decided_eq (cfg : ChainCfg S σ) (c : Chain S σ E) (val : S → X) (cfg' : ChainCfg S' σ') (c' : Chain S' σ' E') (val' : S' → X)
    {new : S} {new' : S'} {lpr : PyF} (hc : val c.cur = val' c'.cur) (hn : val new = val' new')
    (h : lpr.isInf = false → ∃ q cur1 new1 cur1' new1', cfg.llr c.cur new c.temp = (.ok q, cur1, new1) ∧
      cfg'.llr c'.cur new' c'.temp = (.ok q, cur1', new1') ∧ val cur1 = val' cur1' ∧ val new1 = val' new1') (v : ℝ) :
    val (decided cfg c new lpr v) = val' (decided cfg' c' new' lpr v) := by
  unfold decided
  by_cases hinf : lpr.isInf = true
  · rw [if_pos hinf, if_pos hinf]
    split
    · exact hn
    · exact hc
  · rw [if_neg hinf, if_neg hinf]
    obtain ⟨q, cur1, new1, cur1', new1', h1, h2, h3, h4⟩ := h (by simpa using hinf)
    rw [h1, h2]
    simp only
    split
    · exact h4
    · exact h3

theorem block_law (cfg : ChainCfg S σ) (g : S → M (S × PyF)) (enc : S → ℝ × Θ → List Draw) (val : S → X) (c : Chain S σ E)
    (cfg' : ChainCfg S' σ') (hlen : cfg'.perturbs.length = cfg'.weights.length) (hw : ∀ w ∈ cfg'.weights, 0 ≤ w)
    (hs : 0 < cfg'.weights.sum) (enc' : Fin cfg'.perturbs.length → S' → Θ → List Draw) (val' : S' → C)
    (q : Scheme C Θ cfg'.perturbs.length) (hq : q.Ok (weight cfg')) {ℓ : C → ℝ} (hℓ : Measurable ℓ) {inv : S' → Prop}
    {r : C → C → Prop} (hℓr : ∀ x y, r x y → ℓ x = ℓ y) (c' : Chain S' σ' E') (htemp : c'.temp = c.temp)
    (hllr : ∀ s new, cfg'.llr s new c.temp = (.ok (.fin ((ℓ (val' new) - ℓ (val' s)) / c.temp)), s, new))
    (hrep : Reports cfg' q ℓ c.temp enc' val' inv r) (hinv : inv c'.cur)
    (hgood : ∀ i, ∀ᵐ θ ∂q.draws, q.dens i (val' c'.cur, q.move i (val' c'.cur) θ) ≠ 0)
    {P : Set C} (hPr : Invariant r P)
    (hrev : ∀ i, ∀ᵐ θ ∂q.draws, q.dens (q.rev i) (q.move i (val' c'.cur) θ, val' c'.cur) ≠ 0 → q.move i (val' c'.cur) θ ∈ P)
    {Φ : C → X} (hΦ : Measurable Φ) (hcur : val c.cur = Φ (val' c'.cur))
    (hsim : ∀ (i : Fin cfg'.perturbs.length) θ new' lpr,
      (∀ rest, cfg'.perturbs[i].2 c'.cur (enc' i c'.cur θ ++ rest) = (.ok (new', lpr), rest)) → inv new' →
      (lpr.isInf = false → val' new' ∈ P) → ∀ u ∈ chosen cfg' i, Simulates cfg c g (enc c.cur (u, θ)) val ℓ Φ (val' c'.cur) (val' new') lpr)
    {A : Set X} (hA : MeasurableSet A) (hAr : Invariant r (Φ ⁻¹' A)) :
    stepLaw cfg g enc (unit.prod q.draws) val c A = transition q (weight cfg') ℓ c.temp (val' c'.cur) (Φ ⁻¹' A) := by
  have := hq.prob
  rw [← htemp] at hrep
  have hll : ∀ s new, cfg'.llr s new c'.temp = (.ok (.fin ((ℓ (val' new) - ℓ (val' s)) / c.temp)), s, new) := by
    rw [htemp]
    exact hllr
  rw [← htemp, ← law_eq cfg' hlen hw hs q hq ℓ hℓ enc' val' c' hrep hinv hℓr hgood (hΦ hA) hAr]
  refine group_law cfg g enc cfg' hlen hw hs enc' q.draws val (Φ ∘ val') c c' ?_ A
  have h1 := ae_all_iff.2 fun i => hrep.proposal i c'.cur hinv
  filter_upwards [h1, ae_all_iff.2 hgood, ae_all_iff.2 hrev] with θ g1 g2 g3 i
  obtain ⟨new', lpr, k1, k2, k3, k4⟩ := g1 i
  have hpos : lpr.isInf = false → val' new' ∈ P := by
    intro hi
    rw [hPr _ _ k3]
    refine g3 i fun hz => ?_
    rw [k4 (g2 i), logQuotient, if_pos hz] at hi
    cases hi
  refine ⟨new', lpr, k1, fun _ => ⟨_, _, _, hll _ _⟩, fun u hu => ?_⟩
  obtain ⟨new, m1, m2, m3⟩ := hsim i θ new' lpr k1 k2 hpos u hu
  refine ⟨new, m1, decided_eq cfg c val cfg' c' (Φ ∘ val') hcur m2 fun hi => ?_⟩
  obtain ⟨cur1, new1, e1, e2, e3⟩ := m3 hi
  exact ⟨_, cur1, new1, _, _, e1, hll _ _, e2.trans hcur, e3.trans m2⟩

/-- The perturbation almost always leads to a proposal that can be decided upon. -/
theorem block_steps (cfg : ChainCfg S σ) (g : S → M (S × PyF)) (enc : S → ℝ × Θ → List Draw) (val : S → X) (c : Chain S σ E)
    (cfg' : ChainCfg S' σ') (hlen : cfg'.perturbs.length = cfg'.weights.length) (hw : ∀ w ∈ cfg'.weights, 0 ≤ w)
    (hs : 0 < cfg'.weights.sum) (enc' : Fin cfg'.perturbs.length → S' → Θ → List Draw) (val' : S' → C)
    (q : Scheme C Θ cfg'.perturbs.length) (hq : q.Ok (weight cfg')) {ℓ : C → ℝ} {inv : S' → Prop}
    {r : C → C → Prop} (c' : Chain S' σ' E')
    (hrep : Reports cfg' q ℓ c.temp enc' val' inv r) (hinv : inv c'.cur)
    (hgood : ∀ i, ∀ᵐ θ ∂q.draws, q.dens i (val' c'.cur, q.move i (val' c'.cur) θ) ≠ 0)
    {P : Set C} (hPr : Invariant r P)
    (hrev : ∀ i, ∀ᵐ θ ∂q.draws, q.dens (q.rev i) (q.move i (val' c'.cur) θ, val' c'.cur) ≠ 0 → q.move i (val' c'.cur) θ ∈ P)
    {Φ : C → X}
    (hsim : ∀ (i : Fin cfg'.perturbs.length) θ new' lpr,
      (∀ rest, cfg'.perturbs[i].2 c'.cur (enc' i c'.cur θ ++ rest) = (.ok (new', lpr), rest)) → inv new' →
      (lpr.isInf = false → val' new' ∈ P) → ∀ u ∈ chosen cfg' i, Simulates cfg c g (enc c.cur (u, θ)) val ℓ Φ (val' c'.cur) (val' new') lpr) :
    StepRuns cfg g enc (unit.prod q.draws) c := by
  have := hq.prob
  unfold StepRuns
  have h1 : ∀ᵐ θ ∂q.draws, ∀ i : Fin cfg'.perturbs.length, ∀ u ∈ chosen cfg' i, ∃ new lpr,
      (∀ rest, g c.cur (enc c.cur (u, θ) ++ rest) = (.ok (new, lpr), rest)) ∧ Decides cfg c new lpr := by
    have h1 := ae_all_iff.2 fun i => hrep.proposal i c'.cur hinv
    filter_upwards [h1, ae_all_iff.2 hgood, ae_all_iff.2 hrev] with θ g1 g2 g3 i u hu
    obtain ⟨new', lpr, k1, k2, k3, k4⟩ := g1 i
    have hpos : lpr.isInf = false → val' new' ∈ P := by
      intro hi
      rw [hPr _ _ k3]
      refine g3 i fun hz => ?_
      rw [k4 (g2 i), logQuotient, if_pos hz] at hi
      cases hi
    obtain ⟨new, m1, m2, m3⟩ := hsim i θ new' lpr k1 k2 hpos u hu
    refine ⟨new, lpr, m1, fun hi => ?_⟩
    obtain ⟨cur1, new1, e1, -⟩ := m3 hi
    exact ⟨_, _, _, e1⟩
  have h2 : ∀ᵐ z : ℝ × Θ ∂unit.prod q.draws, z.1 ∈ Set.Ico (0 : ℝ) 1 := by
    have h3 : ∀ᵐ u ∂unit, u ∈ Set.Ico (0 : ℝ) 1 := ae_restrict_mem measurableSet_Ico
    exact Measure.quasiMeasurePreserving_fst.ae h3
  have h3 : ∀ᵐ z : ℝ × Θ ∂unit.prod q.draws, ∀ i : Fin cfg'.perturbs.length, ∀ u ∈ chosen cfg' i, ∃ new lpr,
      (∀ rest, g c.cur (enc c.cur (u, z.2) ++ rest) = (.ok (new, lpr), rest)) ∧ Decides cfg c new lpr :=
    Measure.quasiMeasurePreserving_snd.ae h1
  filter_upwards [h2, h3] with z hz1 hz2
  rw [← chosen_cover cfg' hlen hw hs] at hz1
  obtain ⟨i, hi⟩ := Set.mem_iUnion.1 hz1
  exact hz2 i z.1 hi

end law

section draws

variable {S σ E X Θ : Type} [MeasurableSpace Θ]

theorem stepLaw_snd (cfg : ChainCfg S σ) (f : S → M (S × PyF)) (D : Measure Θ) [IsProbabilityMeasure D] (enc : S → Θ → List Draw)
    (val : S → X) (c : Chain S σ E) (A : Set X) :
    stepLaw cfg f (fun s θ => enc s θ.2) (unit.prod D) val c A = stepLaw cfg f enc D val c A := by
  unfold stepLaw
  set B : Set (Θ × ℝ) := {z | z.2 ∈ Set.Ico (0 : ℝ) 1 ∧ ∃ new lpr, (∀ rest, f c.cur (enc c.cur z.1 ++ rest) = (.ok (new, lpr), rest)) ∧
    val (decided cfg c new lpr z.2) ∈ A} with hB
  change ((unit.prod D).prod unit) {z | (z.1.2, z.2) ∈ B} = (D.prod unit) B
  clear_value B
  have h3 : MeasurePreserving (MeasurableEquiv.prodAssoc (α := ℝ) (β := Θ) (γ := ℝ)) ((unit.prod D).prod unit)
      (unit.prod (D.prod unit)) := measurePreserving_prodAssoc _ _ _
  have e : {z : (ℝ × Θ) × ℝ | (z.1.2, z.2) ∈ B} = MeasurableEquiv.prodAssoc ⁻¹' (Set.univ ×ˢ B) := by
    ext z
    simp [MeasurableEquiv.prodAssoc]
  rw [e, h3.measure_preimage_equiv, Measure.prod_prod, measure_univ, one_mul]

end draws

end BB.Lemmas
