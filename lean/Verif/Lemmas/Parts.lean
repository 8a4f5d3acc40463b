import Verif.Lemmas.Join

/-!
# Chains with several groups of perturbations
-/

namespace BB.Lemmas

open BB Spec Props MeasureTheory

section

variable {S σ E X Θ Θ' : Type} [MeasurableSpace X] [MeasurableSpace Θ] [MeasurableSpace Θ']

/-- The perturbations satisfy the conditions of C09 with this prior. -/
def Part (cfg : ChainCfg S σ) (prior : Measure X) (logLik : X → ℝ) (T : ℝ) (enc : Fin cfg.perturbs.length → S → Θ → List Draw)
    (draws : Measure Θ) (val : S → X) (inv : S → Prop) (r : X → X → Prop) : Prop :=
  ∃ p : Scheme X Θ cfg.perturbs.length, p.prior = prior ∧ p.draws = draws ∧ p.Ok (weight cfg) ∧ p.Lumps r ∧
    Reports cfg p logLik T enc val inv r

variable {cfg cfg1 cfg2 : ChainCfg S σ} {prior : Measure X} {logLik : X → ℝ} {T : ℝ}
  {enc1 : Fin cfg1.perturbs.length → S → Θ → List Draw} {enc2 : Fin cfg2.perturbs.length → S → Θ' → List Draw}
  {draws1 : Measure Θ} {draws2 : Measure Θ'} {val : S → X} {inv : S → Prop} {r : X → X → Prop}

theorem Part.join (h : Joins cfg cfg1 cfg2) (h1 : Part cfg1 prior logLik T enc1 draws1 val inv r)
    (h2 : Part cfg2 prior logLik T enc2 draws2 val inv r) :
    Part cfg prior logLik T (h.draws enc1 enc2) (draws1.prod draws2) val inv r := by
  obtain ⟨p, hp1, hp2, hp3, hp4, hp5⟩ := h1
  obtain ⟨q, hq1, hq2, hq3, hq4, hq5⟩ := h2
  have := hp3.prob
  have := hq3.prob
  refine ⟨append p q h.from, hp1, ?_, h.ok hp3 hq3 (hq1.trans hp1.symm), append_lumps hp3 hq3 hp4 hq4, h.reports hp5 hq5⟩
  rw [← hp2, ← hq2]
  rfl

theorem Part.mono (h1 : Part cfg1 prior logLik T enc1 draws1 val inv r) {inv' : S → Prop} (hi : ∀ s, inv s ↔ inv' s) :
    Part cfg1 prior logLik T enc1 draws1 val inv' r := by
  rw [show inv' = inv from funext fun s => propext (hi s).symm]
  exact h1

theorem Part.balance (h : Part cfg1 prior logLik T enc1 draws1 val inv r)
    (hlen : cfg1.perturbs.length = cfg1.weights.length) (hw : ∀ w ∈ cfg1.weights, 0 ≤ w) (hs : 0 < cfg1.weights.sum)
    (hℓ : Measurable logLik) (hrefl : ∀ x, r x x) (hℓr : ∀ x y, r x y → logLik x = logLik y)
    (state : X → Chain S σ E) (hval : ∀ᵐ x ∂prior, inv (state x).cur ∧ r x (val (state x).cur))
    (htemp : ∀ x, (state x).temp = T) :
    DetailedBalanceUpTo r (posterior prior logLik T) (fun x => IterationLaw cfg1 enc1 draws1 val (state x)) ∧
    PreservesUpTo r (posterior prior logLik T) (fun x => IterationLaw cfg1 enc1 draws1 val (state x)) := by
  obtain ⟨p, hp1, hp2, hp3, hp4, hp5⟩ := h
  subst hp1
  subst hp2
  exact C09_up_to cfg1 hlen hw hs p hp3 logLik hℓ T enc1 val inv r hrefl hp4 hℓr hp5 state hval htemp

/-- If some perturbations are in balance with the posterior and the others do not preserve it, then the chain does not
preserve it. -/
theorem Part.not_preserved (h : Joins cfg cfg1 cfg2) (h1 : Part cfg1 prior logLik T enc1 draws1 val inv r)
    {q : Scheme X Θ' cfg2.perturbs.length} (hq : q.Ok (weight cfg2)) (hql : q.Lumps r)
    (hqr : Reports cfg2 q logLik T enc2 val inv r) (hac : prior ≪ q.prior)
    (hw1 : ∀ w ∈ cfg1.weights, 0 ≤ w) (hs1 : 0 < cfg1.weights.sum) (hw2 : ∀ w ∈ cfg2.weights, 0 ≤ w)
    (hs2 : 0 < cfg2.weights.sum) (hℓ : Measurable logLik) (hrefl : ∀ x, r x x)
    (hℓr : ∀ x y, r x y → logLik x = logLik y) (hfin : posterior prior logLik T Set.univ ≠ ⊤)
    (hne : ¬ PreservesUpTo r (posterior prior logLik T) (transition q (weight cfg2) logLik T))
    (state : X → Chain S σ E) (hval : ∀ᵐ x ∂prior, inv (state x).cur ∧ r x (val (state x).cur))
    (htemp : ∀ x, (state x).temp = T) :
    ¬ PreservesUpTo r (posterior prior logLik T)
      (fun x => IterationLaw cfg (h.draws enc1 enc2) (draws1.prod q.draws) val (state x)) := by
  obtain ⟨p, hp1, hp2, hp3, hp4, hp5⟩ := h1
  subst hp1
  subst hp2
  intro hc
  have := hp3.prob
  have := hq.prob
  have hw : ∀ w ∈ cfg.weights, 0 ≤ w := by
    intro w hw
    rw [h.weights] at hw
    rcases List.mem_append.1 hw with hw | hw
    · exact hw1 w hw
    · exact hw2 w hw
  have hs : 0 < cfg.weights.sum := by
    rw [h.weights, List.sum_append]
    exact add_pos hs1 hs2
  have hwp := weight_nonneg cfg1 h.len1 hw1
  have hwq := weight_nonneg cfg2 h.len2 hw2
  have hsp : 0 < ∑ i, weight cfg1 i := by rw [sum_weight cfg1 h.len1]; exact hs1
  have hsq : 0 < ∑ i, weight cfg2 i := by rw [sum_weight cfg2 h.len2]; exact hs2
  have hsum : 0 < ∑ i, weight cfg i := by rw [sum_weight cfg h.len]; exact hs
  set π := posterior p.prior logLik T with hπ
  have hbp := bare_ok hp3
  have hbq := bare_ok hq
  have hok : (append (bare p) (bare q) h.from).Ok (weight cfg) := h.ok hbp hbq rfl
  have hrep : Reports cfg (append (bare p) (bare q) h.from) logLik T (h.draws enc1 enc2) val inv r := by
    have : IsProbabilityMeasure (bare p).draws := hbp.prob
    have : IsProbabilityMeasure (bare q).draws := hbq.prob
    exact h.reports (bare_reports hp5) (bare_reports hqr)
  have hπac : π ≪ p.prior := withDensity_absolutelyContinuous _ _
  have key : ∀ A, MeasurableSet A → Invariant r A → ∀ᵐ x ∂π,
      IterationLaw cfg (h.draws enc1 enc2) (p.draws.prod q.draws) val (state x) A =
        ENNReal.ofReal ((∑ i, weight cfg1 i) / ∑ i, weight cfg i) * transition p (weight cfg1) logLik T x A +
        ENNReal.ofReal ((∑ i, weight cfg2 i) / ∑ i, weight cfg i) * transition q (weight cfg2) logLik T x A := by
    intro A hA hAr
    filter_upwards [hπac.ae_le (ae_good hp3), (hπac.trans hac).ae_le (ae_good hq), hπac.ae_le hval] with x hx1 hx2 hv
    have hg1 : ∀ j, ∀ᵐ θ ∂p.draws, p.dens j (val (state x).cur, p.move j (val (state x).cur) θ) ≠ 0 :=
      fun j => good_lumps hp3 hrefl hp4 hv.2 j (hx1 j)
    have hg2 : ∀ j, ∀ᵐ θ ∂q.draws, q.dens j (val (state x).cur, q.move j (val (state x).cur) θ) ≠ 0 :=
      fun j => good_lumps hq hrefl hql hv.2 j (hx2 j)
    have e := law_eq cfg h.len hw hs (append (bare p) (bare q) h.from) hok logLik hℓ (h.draws enc1 enc2) val (state x)
      (by rw [htemp]; exact hrep) hv.1 hℓr (fun i => by
        rcases h.cases i with ⟨j, e1, -⟩ | ⟨j, e1, -⟩
        · simp only [append, e1, Sum.elim_inl]
          exact Measure.quasiMeasurePreserving_fst.ae (hg1 j)
        · simp only [append, e1, Sum.elim_inr]
          exact Measure.quasiMeasurePreserving_snd.ae (hg2 j)) hA hAr
    refine e.trans ?_
    rw [htemp, transition_append hbp hbq h.weight hwp hwq hℓ T _ hA,
      transition_lumps hp3 hℓ hrefl hp4 hℓr hA hAr hv.2, transition_lumps hq hℓ hrefl hql hℓr hA hAr hv.2]
    rfl
  refine hne fun A hA hAr => ?_
  have e1 := hc A hA hAr
  rw [lintegral_congr_ae (key A hA hAr)] at e1
  have hmp := (transition_meas (T := T) (w := weight cfg1) hp3 hℓ hA)
  have hmq := (transition_meas (T := T) (w := weight cfg2) hq hℓ hA)
  have hpp : ∫⁻ x, transition p (weight cfg1) logLik T x A ∂π = π A :=
    preserves_of_balance (detailed_balance (T := T) hp3 hℓ) (.of_forall fun x => transition_univ hp3 hwp hsp x) A hA
  rw [lintegral_add_left (hmp.const_mul _), lintegral_const_mul _ hmp, lintegral_const_mul _ hmq, hpp] at e1
  have hone : ENNReal.ofReal ((∑ i, weight cfg1 i) / ∑ i, weight cfg i) +
      ENNReal.ofReal ((∑ i, weight cfg2 i) / ∑ i, weight cfg i) = 1 := by
    rw [← ENNReal.ofReal_add (div_nonneg hsp.le hsum.le) (div_nonneg hsq.le hsum.le), ← add_div, ← h.sum,
      div_self hsum.ne', ENNReal.ofReal_one]
  have hAfin : π A ≠ ⊤ := ne_top_of_le_ne_top hfin (measure_mono (Set.subset_univ A))
  have e2 : ENNReal.ofReal ((∑ i, weight cfg1 i) / ∑ i, weight cfg i) * π A +
      ENNReal.ofReal ((∑ i, weight cfg2 i) / ∑ i, weight cfg i) * ∫⁻ x, transition q (weight cfg2) logLik T x A ∂π =
      ENNReal.ofReal ((∑ i, weight cfg1 i) / ∑ i, weight cfg i) * π A +
      ENNReal.ofReal ((∑ i, weight cfg2 i) / ∑ i, weight cfg i) * π A := by
    rw [e1, ← add_mul, hone, one_mul]
  have e3 := (ENNReal.add_right_inj (ENNReal.mul_ne_top ENNReal.ofReal_ne_top hAfin)).1 e2
  exact (ENNReal.mul_right_inj (ENNReal.ofReal_pos.2 (div_pos hsq hsum)).ne' ENNReal.ofReal_ne_top).1 e3

end

end BB.Lemmas
