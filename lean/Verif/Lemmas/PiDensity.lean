import Mathlib.MeasureTheory.Constructions.Pi
import Mathlib.MeasureTheory.Measure.WithDensity

/-!
# Densities of products
-/

namespace BB.Lemmas

open MeasureTheory

theorem lintegral_prod_fin : ∀ {n : ℕ} {Y : Fin n → Type} [∀ i, MeasurableSpace (Y i)] (μ : ∀ i, Measure (Y i))
    [∀ i, SigmaFinite (μ i)] {f : ∀ i, Y i → ENNReal} (_ : ∀ i, Measurable (f i)),
    ∫⁻ x, ∏ i, f i (x i) ∂Measure.pi μ = ∏ i, ∫⁻ t, f i t ∂μ i := by
  intro n
  induction n with
  | zero =>
    intro Y _ μ _ f _
    simp
  | succ n ih =>
    intro Y _ μ _ f hf
    have hm : Measurable fun x : ∀ i, Y i => ∏ i, f i (x i) :=
      Finset.measurable_prod _ fun i _ => (hf i).comp (measurable_pi_apply i)
    calc _ = ∫⁻ x : Y 0 × ((i : Fin n) → Y (Fin.succ i)), f 0 x.1 * ∏ i : Fin n, f (Fin.succ i) (x.2 i)
            ∂((μ 0).prod (Measure.pi fun i => μ i.succ)) := by
          refine (((measurePreserving_piFinSuccAbove μ 0).symm).lintegral_comp hm).symm.trans (lintegral_congr fun x => ?_)
          rw [Fin.prod_univ_succ]
          rfl
      _ = (∫⁻ x, f 0 x ∂μ 0) * ∏ i : Fin n, ∫⁻ x : Y (Fin.succ i), f (Fin.succ i) x ∂μ i.succ := by
          rw [← ih (fun i : Fin n => μ i.succ) fun i : Fin n => hf i.succ]
          exact lintegral_prod_mul (hf 0).aemeasurable
            (Finset.measurable_prod _ fun (i : Fin n) _ => (hf i.succ).comp (measurable_pi_apply i)).aemeasurable
      _ = _ := by rw [Fin.prod_univ_succ]

theorem pi_density_fin {n : ℕ} {Y : Fin n → Type} [∀ i, MeasurableSpace (Y i)] (μ : ∀ i, Measure (Y i)) [∀ i, SigmaFinite (μ i)]
    {f : ∀ i, Y i → ENNReal} (hf : ∀ i, Measurable (f i)) [∀ i, SigmaFinite ((μ i).withDensity (f i))] :
    (Measure.pi fun i => (μ i).withDensity (f i)) = (Measure.pi μ).withDensity fun x => ∏ i, f i (x i) := by
  refine Measure.pi_eq fun s hs => ?_
  have hms : MeasurableSet (Set.pi Set.univ s) := MeasurableSet.univ_pi hs
  rw [withDensity_apply _ hms, ← lintegral_indicator hms]
  have e : (Set.pi Set.univ s).indicator (fun v : ∀ i, Y i => ∏ j, f j (v j)) =
      fun v => ∏ j, (s j).indicator (f j) (v j) := by
    classical
    funext v
    by_cases hv : v ∈ Set.pi Set.univ s
    · rw [Set.indicator_of_mem hv]
      exact Finset.prod_congr rfl fun j _ => (Set.indicator_of_mem (hv j (Set.mem_univ j)) _).symm
    · rw [Set.indicator_of_notMem hv]
      simp only [Set.mem_pi, Set.mem_univ, true_implies, not_forall] at hv
      obtain ⟨j, hj⟩ := hv
      exact (Finset.prod_eq_zero (Finset.mem_univ j) (Set.indicator_of_notMem hj _)).symm
  rw [e, lintegral_prod_fin μ fun i => (hf i).indicator (hs i)]
  refine Finset.prod_congr rfl fun i _ => ?_
  rw [lintegral_indicator (hs i), withDensity_apply _ (hs i)]

end BB.Lemmas
