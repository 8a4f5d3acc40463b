import Mathlib.MeasureTheory.Constructions.Pi
import Mathlib.MeasureTheory.Integral.Prod

/-!
# Functions that are constant along each coordinate
-/

namespace BB.Lemmas

open MeasureTheory

section two

variable {X Z : Type} [MeasurableSpace X] [MeasurableSpace Z] {μ : Measure X} {ν : Measure Z} [SFinite μ] [SFinite ν]

/-- If `g (·, z)` is constant, its value is that at almost any point. -/
theorem const_at {g : X × Z → ℝ} (hg : Measurable g) (h : ∀ᵐ z ∂ν, ∃ a, ∀ᵐ x ∂μ, g (x, z) = a) :
    ∀ᵐ x ∂μ, ∀ᵐ z ∂ν, ∀ᵐ y ∂μ, g (y, z) = g (x, z) := by
  have hs : MeasurableSet {q : (X × Z) × X | g (q.2, q.1.2) ≠ g q.1} :=
    (measurableSet_eq_fun (hg.comp (measurable_snd.prodMk measurable_fst.snd)) (hg.comp measurable_fst)).compl
  have hN : MeasurableSet {q : X × Z | ∀ᵐ y ∂μ, g (y, q.2) = g q} := by
    have e : {q : X × Z | ∀ᵐ y ∂μ, g (y, q.2) = g q} =
        (fun q => μ (Prod.mk q ⁻¹' {q : (X × Z) × X | g (q.2, q.1.2) ≠ g q.1})) ⁻¹' {0} := rfl
    rw [e]
    exact measurable_measure_prodMk_left hs (measurableSet_singleton 0)
  rw [Measure.ae_ae_comm (p := fun x z => ∀ᵐ y ∂μ, g (y, z) = g (x, z)) hN]
  filter_upwards [h] with z hz
  obtain ⟨a, ha⟩ := hz
  filter_upwards [ha] with x hx
  filter_upwards [ha] with y hy
  rw [hx, hy]

/-- A function that is constant along both coordinates is constant. -/
theorem const_both {g : X × Z → ℝ} (hg : Measurable g) (h1 : ∀ᵐ z ∂ν, ∃ a, ∀ᵐ x ∂μ, g (x, z) = a)
    (h2 : ∀ᵐ x ∂μ, ∃ a, ∀ᵐ z ∂ν, g (x, z) = a) : ∃ a, ∀ᵐ q ∂μ.prod ν, g q = a := by
  by_cases h0 : μ = 0
  · refine ⟨0, ?_⟩
    rw [h0, Measure.zero_prod, ae_zero]
    exact Filter.eventually_bot
  have : Filter.NeBot (ae μ) := ae_neBot.2 h0
  obtain ⟨x, hx, a, ha⟩ := ((const_at hg h1).and h2).exists
  refine ⟨a, ?_⟩
  have hm : MeasurableSet {q : X × Z | g q = a} := hg (measurableSet_singleton a)
  rw [Measure.ae_prod_iff_ae_ae hm, Measure.ae_ae_comm (p := fun x z => g (x, z) = a) hm]
  filter_upwards [hx, ha] with z e1 e2
  filter_upwards [e1] with y hy
  rw [hy, e2]

end two

section pi

/-- What holds for almost all points holds, for almost all points, for almost all values of one coordinate. -/
theorem pi_slice {n : ℕ} {X : Fin n → Type} [∀ i, MeasurableSpace (X i)] (μ : ∀ i, Measure (X i)) [∀ i, SigmaFinite (μ i)] (b : Fin n)
    {Q : (∀ i, X i) → Prop} (h : ∀ᵐ x ∂Measure.pi μ, Q x) : ∀ᵐ x ∂Measure.pi μ, ∀ᵐ y ∂μ b, Q (Function.update x b y) := by
  cases n with
  | zero => exact b.elim0
  | succ n =>
    have h1 := (measurePreserving_piFinSuccAbove μ b).symm
    set e := MeasurableEquiv.piFinSuccAbove X b with he
    have h2 : ∀ᵐ z ∂(μ b).prod (Measure.pi fun j => μ (b.succAbove j)), Q (e.symm z) := by
      rw [← h1.map_eq] at h
      exact ae_of_ae_map h1.measurable.aemeasurable h
    have h3 : ∀ᵐ v ∂Measure.pi fun j => μ (b.succAbove j), ∀ᵐ y ∂μ b, Q (e.symm (y, v)) := by
      rw [← Measure.prod_swap] at h2
      exact Measure.ae_ae_of_ae_prod (ae_of_ae_map measurable_swap.aemeasurable h2)
    have h4 : ∀ᵐ z ∂(μ b).prod (Measure.pi fun j => μ (b.succAbove j)), ∀ᵐ y ∂μ b, Q (e.symm (y, z.2)) :=
      Measure.quasiMeasurePreserving_snd.ae h3
    have h5 := (measurePreserving_piFinSuccAbove μ b).quasiMeasurePreserving.ae h4
    filter_upwards [h5] with x hx
    filter_upwards [hx] with y hy
    have : e.symm (y, (MeasurableEquiv.piFinSuccAbove X b x).2) = Function.update x b y := by
      change Fin.insertNth b y (Fin.removeNth b x) = _
      rw [Fin.insertNth_removeNth]
    rw [this] at hy
    exact hy

/-- What holds, for almost all points, for almost all values of one coordinate, holds for almost all points. -/
theorem pi_unslice {n : ℕ} {X : Fin n → Type} [∀ i, MeasurableSpace (X i)] (μ : ∀ i, Measure (X i)) [∀ i, SigmaFinite (μ i)] (b : Fin n)
    {Q : (∀ i, X i) → Prop} (hQ : MeasurableSet {x | Q x}) (h : ∀ᵐ x ∂Measure.pi μ, ∀ᵐ y ∂μ b, Q (Function.update x b y)) :
    ∀ᵐ x ∂Measure.pi μ, Q x := by
  cases n with
  | zero => exact b.elim0
  | succ n =>
    have h1 := (measurePreserving_piFinSuccAbove μ b).symm
    set e := MeasurableEquiv.piFinSuccAbove X b with he
    have e2 : ∀ y y' v, Function.update (e.symm (y, v)) b y' = e.symm (y', v) := fun y y' v => by
      change Function.update (Fin.insertNth b y v) b y' = Fin.insertNth b y' v
      rw [Fin.update_insertNth]
    have h2 : ∀ᵐ z ∂(μ b).prod (Measure.pi fun j => μ (b.succAbove j)), ∀ᵐ y ∂μ b, Q (Function.update (e.symm z) b y) := by
      rw [← h1.map_eq] at h
      exact ae_of_ae_map h1.measurable.aemeasurable h
    have hm : MeasurableSet {z | Q (e.symm z)} := h1.measurable hQ
    have h3 := Measure.ae_ae_of_ae_prod h2
    simp only [e2] at h3
    have h4 : ∀ᵐ z ∂(μ b).prod (Measure.pi fun j => μ (b.succAbove j)), Q (e.symm z) := by
      by_cases h0 : μ b = 0
      · rw [h0, Measure.zero_prod, ae_zero]
        exact Filter.eventually_bot
      have : Filter.NeBot (ae (μ b)) := ae_neBot.2 h0
      obtain ⟨y, hy⟩ := h3.exists
      rw [Measure.ae_prod_iff_ae_ae hm, Measure.ae_ae_comm (p := fun x z => Q (e.symm (x, z))) hm]
      exact hy
    have h5 := (measurePreserving_piFinSuccAbove μ b).quasiMeasurePreserving.ae h4
    filter_upwards [h5] with x hx
    exact (congrArg Q (e.symm_apply_apply x)).mp hx

/-- A function that is constant along each coordinate is constant. -/
theorem const_each : ∀ {n : ℕ} {X : Fin n → Type} [∀ i, MeasurableSpace (X i)] (μ : ∀ i, Measure (X i)) [∀ i, SigmaFinite (μ i)]
    {g : (∀ i, X i) → ℝ}, Measurable g → (∀ i, ∀ᵐ x ∂Measure.pi μ, ∃ a, ∀ᵐ y ∂μ i, g (Function.update x i y) = a) →
    ∃ a, ∀ᵐ x ∂Measure.pi μ, g x = a
  | 0, X, _, μ, _, g, _, _ => ⟨g fun i => i.elim0, .of_forall fun x => congrArg g (funext fun i => i.elim0)⟩
  | n + 1, X, _, μ, _, g, hg, h => by
    have h1 := (measurePreserving_piFinSuccAbove μ 0).symm
    set e := MeasurableEquiv.piFinSuccAbove X 0 with he
    have hl : ∀ {Q : (∀ i, X i) → Prop}, (∀ᵐ x ∂Measure.pi μ, Q x) →
        ∀ᵐ z ∂(μ 0).prod (Measure.pi fun j => μ (Fin.succAbove 0 j)), Q (e.symm z) := by
      intro Q hQ
      rw [← h1.map_eq] at hQ
      exact ae_of_ae_map h1.measurable.aemeasurable hQ
    have e0 : ∀ y y' v, Function.update (e.symm (y, v)) 0 y' = e.symm (y', v) := fun y y' v => by
      change Function.update (Fin.insertNth 0 y v) 0 y' = Fin.insertNth 0 y' v
      rw [Fin.update_insertNth]
    have ej : ∀ y v j y', Function.update (e.symm (y, v)) (Fin.succAbove 0 j) y' = e.symm (y, Function.update v j y') := fun y v j y' => by
      change Function.update (Fin.insertNth 0 y v) _ y' = Fin.insertNth 0 y (Function.update v j y')
      rw [Fin.insertNth_update]
    have hG : Measurable fun z => g (e.symm z) := hg.comp e.symm.measurable
    suffices H : ∃ a, ∀ᵐ z ∂(μ 0).prod (Measure.pi fun j => μ (Fin.succAbove 0 j)), g (e.symm z) = a by
      obtain ⟨a, ha⟩ := H
      refine ⟨a, ?_⟩
      filter_upwards [(measurePreserving_piFinSuccAbove μ 0).quasiMeasurePreserving.ae ha] with x hx
      exact (congrArg g (e.symm_apply_apply x)).symm.trans hx
    by_cases h0 : μ 0 = 0
    · refine ⟨0, ?_⟩
      rw [h0, Measure.zero_prod, ae_zero]
      exact Filter.eventually_bot
    have : Filter.NeBot (ae (μ 0)) := ae_neBot.2 h0
    refine const_both hG ?_ ?_
    · have h2 := Measure.ae_ae_of_ae_prod (hl (h 0))
      simp only [e0] at h2
      obtain ⟨y, hy⟩ := h2.exists
      exact hy
    · have h2 : ∀ j, ∀ᵐ x ∂μ 0, ∀ᵐ v ∂Measure.pi fun j => μ (Fin.succAbove 0 j), ∃ a, ∀ᵐ y ∂μ (Fin.succAbove 0 j),
          g (e.symm (x, Function.update v j y)) = a := fun j => by
        have := Measure.ae_ae_of_ae_prod (hl (h (Fin.succAbove 0 j)))
        simp only [ej] at this
        exact this
      filter_upwards [ae_all_iff.2 h2] with x hx
      exact const_each (fun j => μ (Fin.succAbove 0 j)) (hG.comp measurable_prodMk_left) hx

end pi

end BB.Lemmas
