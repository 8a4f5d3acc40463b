import Verif.Lemmas.Reversible
import Mathlib.MeasureTheory.Measure.Prod
import Mathlib.MeasureTheory.Measure.WithDensity

/-!
# Proposals that change only a part of the model
-/

namespace BB.Lemmas

open BB Spec MeasureTheory

section trim

variable {X Θ : Type} [MeasurableSpace X] [MeasurableSpace Θ] {n : ℕ} {p : Scheme X Θ n} {w : Fin n → ℝ}

/-- Where the density of the proposal or that of the reverse proposal is not zero. -/
def support (p : Scheme X Θ n) (i : Fin n) : Set (X × X) := {z | p.dens i z ≠ 0} ∪ {z | p.dens (p.rev i) z.swap ≠ 0}

/-- The same proposals, where `common` is zero where it does not matter. -/
noncomputable def trim (p : Scheme X Θ n) : Scheme X Θ n :=
  { p with common := fun i => (p.common i).restrict (support p i) }

theorem support_meas (hp : p.Ok w) (i : Fin n) : MeasurableSet (support p i) :=
  ((hp.dens_meas i) (measurableSet_singleton 0).compl).union
    (((hp.dens_meas (p.rev i)).comp measurable_swap) (measurableSet_singleton 0).compl)

theorem swap_preserving (hp : p.Ok w) (i : Fin n) : MeasurePreserving Prod.swap (p.common i) (p.common (p.rev i)) :=
  ⟨measurable_swap, hp.symm i⟩

theorem support_swap (hp : p.Ok w) (i : Fin n) : Prod.swap ⁻¹' support p (p.rev i) = support p i := by
  ext z
  unfold support
  simp only [Set.mem_preimage, Set.mem_union, Set.mem_ofPred_eq, hp.rev_rev, Prod.swap_swap]
  exact or_comm

theorem trim_ok (hp : p.Ok w) : (trim p).Ok w where
  sfinite := hp.sfinite
  prob := hp.prob
  meas := hp.meas
  rev_rev := hp.rev_rev
  rev_weight := hp.rev_weight
  symm := fun i => by
    have h := (swap_preserving hp i).restrict_preimage (support_meas hp (p.rev i))
    rw [support_swap hp] at h
    exact h.map_eq
  dens_meas := hp.dens_meas
  dens_nonneg := hp.dens_nonneg
  joint := fun i => by
    refine (hp.joint i).trans ?_
    change _ = ((p.common i).restrict (support p i)).withDensity _
    rw [← restrict_withDensity (support_meas hp i)]
    refine (Measure.restrict_eq_self_of_ae_mem ?_).symm
    rw [ae_withDensity_iff (hp.dens_meas i).ennreal_ofReal]
    refine .of_forall fun z hz => .inl fun hc => hz ?_
    rw [hc, ENNReal.ofReal_zero]

/-- Then `common` is s-finite. -/
theorem trim_sfinite (hp : p.Ok w) (i : Fin n) : SFinite ((trim p).common i) := by
  have := hp.sfinite
  have := hp.prob
  have key : ∀ i, SFinite ((p.common i).restrict {z | p.dens i z ≠ 0}) := by
    intro i
    have hm : MeasurableSet {z | p.dens i z ≠ 0} := (hp.dens_meas i) (measurableSet_singleton 0).compl
    have hd := (hp.dens_meas i).ennreal_ofReal
    have hs : SFinite ((p.common i).withDensity fun z => ENNReal.ofReal (p.dens i z)) := by
      rw [← hp.joint i]
      infer_instance
    have e : (p.common i).restrict {z | p.dens i z ≠ 0} =
        ((p.common i).withDensity fun z => ENNReal.ofReal (p.dens i z)).withDensity
          fun z => (ENNReal.ofReal (p.dens i z))⁻¹ := by
      rw [← withDensity_mul _ hd (g := fun z => (ENNReal.ofReal (p.dens i z))⁻¹) hd.inv, ← withDensity_indicator_one hm]
      congr 1
      funext z
      simp only [Pi.mul_apply]
      by_cases hz : p.dens i z = 0
      · rw [Set.indicator_of_notMem (by simp [hz]), hz, ENNReal.ofReal_zero, zero_mul]
      · rw [Set.indicator_of_mem (by simpa using hz), Pi.one_apply, ENNReal.mul_inv_cancel]
        · exact (ENNReal.ofReal_pos.2 (lt_of_le_of_ne (hp.dens_nonneg i z) (Ne.symm hz))).ne'
        · exact ENNReal.ofReal_ne_top
    rw [e]
    infer_instance
  have h1 := key i
  have h2 : SFinite ((p.common i).restrict {z | p.dens (p.rev i) z.swap ≠ 0}) := by
    have hm : MeasurableSet {z | p.dens (p.rev i) z ≠ 0} := (hp.dens_meas (p.rev i)) (measurableSet_singleton 0).compl
    have h3 := (swap_preserving hp (p.rev i)).restrict_preimage (s := {z : X × X | p.dens (p.rev i) z.swap ≠ 0})
      (((hp.dens_meas (p.rev i)).comp measurable_swap) (measurableSet_singleton 0).compl)
    rw [hp.rev_rev] at h3
    have h4 := key (p.rev i)
    rw [← h3.map_eq]
    have e : Prod.swap ⁻¹' {z : X × X | p.dens (p.rev i) z.swap ≠ 0} = {z | p.dens (p.rev i) z ≠ 0} := by
      ext z
      simp
    rw [e]
    infer_instance
  change SFinite ((p.common i).restrict (support p i))
  have hm : MeasurableSet {z : X × X | p.dens (p.rev i) z.swap ≠ 0} :=
    ((hp.dens_meas (p.rev i)).comp measurable_swap) (measurableSet_singleton 0).compl
  have hm1 : MeasurableSet {z | p.dens i z ≠ 0} := (hp.dens_meas i) (measurableSet_singleton 0).compl
  have e : (p.common i).restrict (support p i) = (p.common i).restrict {z | p.dens i z ≠ 0} +
      ((p.common i).restrict {z | p.dens (p.rev i) z.swap ≠ 0}).restrict {z | p.dens i z ≠ 0}ᶜ := by
    rw [Measure.restrict_restrict hm1.compl, ← Measure.restrict_union _ (hm1.compl.inter hm)]
    · congr 1
      ext z
      unfold support
      simp only [Set.mem_union, Set.mem_inter_iff, Set.mem_compl_iff]
      tauto
    · exact Set.disjoint_left.2 fun z h1 h2 => h2.1 h1
  rw [e]
  infer_instance

end trim

section lift

variable {X C R Θ : Type} [MeasurableSpace X] [MeasurableSpace C] [MeasurableSpace R] [MeasurableSpace Θ] {n : ℕ}
  {p : Scheme C Θ n} {w : Fin n → ℝ}

/-- Two models that agree in the rest. -/
def withRest (e : X ≃ᵐ C × R) (z : (C × C) × R) : X × X := (e.symm (z.1.1, z.2), e.symm (z.1.2, z.2))

theorem withRest_meas (e : X ≃ᵐ C × R) : Measurable (withRest e) :=
  (e.symm.measurable.comp ((measurable_fst.comp measurable_fst).prodMk measurable_snd)).prodMk
    (e.symm.measurable.comp ((measurable_snd.comp measurable_fst).prodMk measurable_snd))

/-- Proposals for a part of the model; the law of the rest is `ρ`. -/
noncomputable def lift (e : X ≃ᵐ C × R) (ρ : Measure R) (p : Scheme C Θ n) : Scheme X Θ n where
  prior := (p.prior.prod ρ).map e.symm
  draws := p.draws
  move := fun i x θ => e.symm (p.move i (e x).1 θ, (e x).2)
  rev := p.rev
  common := fun i => ((p.common i).prod ρ).map (withRest e)
  dens := fun i z => p.dens i ((e z.1).1, (e z.2).1)

theorem lift_scheme_ok (e : X ≃ᵐ C × R) (ρ : Measure R) [SFinite ρ] (hp : p.Ok w) (hs : ∀ i, SFinite (p.common i)) :
    (lift e ρ p).Ok w := by
  have h1 := hp.sfinite
  have h2 := hp.prob
  have hd : ∀ i, Measurable fun z : X × X => p.dens i ((e z.1).1, (e z.2).1) := fun i =>
    (hp.dens_meas i).comp ((measurable_fst.comp (e.measurable.comp measurable_fst)).prodMk
      (measurable_fst.comp (e.measurable.comp measurable_snd)))
  refine
    { sfinite := inferInstanceAs (SFinite ((p.prior.prod ρ).map e.symm))
      prob := h2
      meas := fun i => ?_
      rev_rev := hp.rev_rev
      rev_weight := hp.rev_weight
      symm := fun i => ?_
      dens_meas := hd
      dens_nonneg := fun i z => hp.dens_nonneg i _
      joint := fun i => ?_ }
  · have h3 : Measurable fun z : X × Θ => p.move i (e z.1).1 z.2 :=
      (hp.meas i).comp ((measurable_fst.comp (e.measurable.comp measurable_fst)).prodMk measurable_snd)
    exact e.symm.measurable.comp (h3.prodMk (measurable_snd.comp (e.measurable.comp measurable_fst)))
  · change (((p.common i).prod ρ).map (withRest e)).map Prod.swap = ((p.common (p.rev i)).prod ρ).map (withRest e)
    have := hs i
    rw [Measure.map_map measurable_swap (withRest_meas e), ← hp.symm i]
    have h3 : ((p.common i).map Prod.swap).prod ρ = ((p.common i).prod ρ).map (Prod.map Prod.swap id) := by
      rw [← Measure.map_prod_map _ _ measurable_swap measurable_id, Measure.map_id]
    rw [h3, Measure.map_map (withRest_meas e) (measurable_swap.prodMap measurable_id)]
    rfl
  · change (((p.prior.prod ρ).map e.symm).prod p.draws).map _ = (((p.common i).prod ρ).map (withRest e)).withDensity _
    have := hs i
    have hm : Measurable fun z : C × Θ => (z.1, p.move i z.1 z.2) := measurable_fst.prodMk (hp.meas i)
    have h3 : ((p.common i).prod ρ).withDensity (fun z => ENNReal.ofReal (p.dens i z.1)) =
        ((p.prior.prod p.draws).prod ρ).map (Prod.map (fun z => (z.1, p.move i z.1 z.2)) id) := by
      rw [← Measure.map_prod_map _ _ hm measurable_id, Measure.map_id, hp.joint i,
        prod_withDensity_left]
      exact (hp.dens_meas i).ennreal_ofReal
    have h4 : (((p.common i).prod ρ).map (withRest e)).withDensity
        (fun z : X × X => ENNReal.ofReal (p.dens i ((e z.1).1, (e z.2).1))) =
        (((p.common i).prod ρ).withDensity (fun z => ENNReal.ofReal (p.dens i z.1))).map (withRest e) := by
      ext A hA
      rw [withDensity_apply _ hA, Measure.map_apply (withRest_meas e) hA,
        withDensity_apply _ (withRest_meas e hA), setLIntegral_map hA (hd i).ennreal_ofReal (withRest_meas e)]
      refine lintegral_congr fun z => ?_
      unfold withRest
      simp
    refine Eq.trans ?_ h4.symm
    rw [h3, Measure.map_map (withRest_meas e) (hm.prodMap measurable_id)]
    have h5 : ((p.prior.prod ρ).map e.symm).prod p.draws =
        ((p.prior.prod p.draws).prod ρ).map fun z => (e.symm (z.1.1, z.2), z.1.2) := by
      refine Measure.ext_of_lintegral _ fun f hf => ?_
      have hg : Measurable fun z : (C × Θ) × R => (e.symm (z.1.1, z.2), z.1.2) :=
        (e.symm.measurable.comp ((measurable_fst.comp measurable_fst).prodMk measurable_snd)).prodMk
          (measurable_snd.comp measurable_fst)
      have hk : Measurable fun x => ∫⁻ θ, f (x, θ) ∂p.draws := hf.lintegral_prod_right'
      rw [lintegral_map hf hg, lintegral_prod _ hf.aemeasurable, lintegral_map hk e.symm.measurable,
        lintegral_prod (fun a : C × R => ∫⁻ θ, f (e.symm a, θ) ∂p.draws) (hk.comp e.symm.measurable).aemeasurable,
        lintegral_prod (fun z : (C × Θ) × R => f (e.symm (z.1.1, z.2), z.1.2)) (hf.comp hg).aemeasurable]
      have hr : Measurable fun y : C × Θ => ∫⁻ b, f (e.symm (y.1, b), y.2) ∂ρ := (hf.comp hg).lintegral_prod_right'
      rw [lintegral_prod _ hr.aemeasurable]
      refine lintegral_congr fun c => ?_
      refine lintegral_lintegral_swap ?_
      refine (hf.comp ?_).aemeasurable
      exact (e.symm.measurable.comp (measurable_const.prodMk measurable_fst)).prodMk measurable_snd
    rw [h5, Measure.map_map]
    · congr 1
      funext z
      simp [withRest, lift]
    · refine measurable_fst.prodMk ?_
      have h8 : Measurable fun z : X × Θ => p.move i (e z.1).1 z.2 :=
        (hp.meas i).comp ((measurable_fst.comp (e.measurable.comp measurable_fst)).prodMk measurable_snd)
      exact e.symm.measurable.comp (h8.prodMk (measurable_snd.comp (e.measurable.comp measurable_fst)))
    · exact (e.symm.measurable.comp ((measurable_fst.comp measurable_fst).prodMk measurable_snd)).prodMk
        (measurable_snd.comp measurable_fst)

/-- Models are compared part by part. -/
def both (e : X ≃ᵐ C × R) (r : C → C → Prop) (r' : R → R → Prop) (x y : X) : Prop := r (e x).1 (e y).1 ∧ r' (e x).2 (e y).2

theorem lift_lumps (e : X ≃ᵐ C × R) (ρ : Measure R) {r : C → C → Prop} {r' : R → R → Prop} (hr : ∀ x, r x x)
    (hr' : ∀ x, r' x x) (h : p.Lumps r) : (lift e ρ p).Lumps (both e r r') where
  dens := fun i x x' y y' hx hy => h.dens i _ _ _ _ hx.1 hy.1
  law := fun i x x' hx G hG hGr => by
    change ∫⁻ θ, G (e.symm (p.move i (e x).1 θ, (e x).2)) ∂p.draws = ∫⁻ θ, G (e.symm (p.move i (e x').1 θ, (e x').2)) ∂p.draws
    have h1 := h.law i _ _ hx.1 (fun c => G (e.symm (c, (e x).2)))
      (hG.comp (e.symm.measurable.comp (measurable_id.prodMk measurable_const)))
      fun c c' hc => hGr _ _ ⟨by simpa using hc, by simpa using hr' _⟩
    refine h1.trans (lintegral_congr fun θ => hGr _ _ ⟨by simpa using hr _, by simpa using hx.2⟩)

end lift

end BB.Lemmas
