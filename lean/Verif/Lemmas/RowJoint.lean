import Verif.Lemmas.RowMove
import Verif.Lemmas.SiteStep
import Verif.Lemmas.NearCenter

/-!
# Moves of the site or of the values of a row
-/

namespace BB.Lemmas

open BB BB.Spec MeasureTheory ProbabilityTheory

section site

variable {P V Ω : Type} [MeasurableSpace P] [MeasurableSpace V] [MeasurableSpace Ω]

/-- A row with a new site. -/
def newSite (g : P → Ω → P) (r : P × V) (ω : Ω) : P × V := (g r.1 ω, r.2)

theorem newSite_meas {g : P → Ω → P} (hg : Measurable fun z : P × Ω => g z.1 z.2) :
    Measurable fun z : (P × V) × Ω => newSite g z.1 z.2 := by
  have h : Measurable fun z : (P × V) × Ω => g z.1.1 z.2 := hg.comp (measurable_fst.fst.prodMk measurable_snd)
  exact h.prodMk measurable_fst.snd

/-- Two rows with the same values. -/
def sideBySide (y : (P × P) × V) : (P × V) × (P × V) := ((y.1.1, y.2), (y.1.2, y.2))

theorem sideBySide_meas : Measurable (sideBySide : (P × P) × V → (P × V) × (P × V)) :=
  (measurable_fst.fst.prodMk measurable_snd).prodMk (measurable_fst.snd.prodMk measurable_snd)

/-- The law of a row with its successor. -/
theorem newSite_joint {τ : Measure P} {μ : Measure Ω} {vol : Measure V} [SFinite τ] [SFinite μ] [SFinite vol] {g : P → Ω → P}
    (hg : Measurable fun z : P × Ω => g z.1 z.2) :
    ((τ.prod vol).prod μ).map (fun z => (z.1, newSite g z.1 z.2)) =
      (((τ.prod μ).map fun z => (z.1, g z.1 z.2)).prod vol).map sideBySide := by
  have h1 : Measurable fun z : (P × V) × Ω => (z.1, newSite g z.1 z.2) := measurable_fst.prodMk (newSite_meas hg)
  have h2 : Measurable fun z : P × Ω => (z.1, g z.1 z.2) := measurable_fst.prodMk hg
  refine Measure.ext_of_lintegral _ fun G hG => ?_
  have hGs : Measurable fun y : (P × P) × V => G (sideBySide y) := hG.comp sideBySide_meas
  have h3 : Measurable fun z : (P × V) × Ω => G (z.1, newSite g z.1 z.2) := hG.comp h1
  rw [lintegral_map hG h1, lintegral_map hG sideBySide_meas, lintegral_prod _ h3.aemeasurable,
    lintegral_prod _ hGs.aemeasurable]
  have h4 : Measurable fun z : P × V => ∫⁻ ω, G (z, newSite g z ω) ∂μ := Measurable.lintegral_prod_right' h3
  have h5 : Measurable fun z : P × P => ∫⁻ w, G (sideBySide (z, w)) ∂vol := Measurable.lintegral_prod_right' hGs
  have h6 : Measurable fun z : P × Ω => ∫⁻ w, G (sideBySide ((z.1, g z.1 z.2), w)) ∂vol := h5.comp h2
  rw [lintegral_prod _ h4.aemeasurable, lintegral_map h5 h2, lintegral_prod _ h6.aemeasurable]
  refine lintegral_congr fun s => ?_
  have h7 : Measurable fun z : V × Ω => G ((s, z.1), newSite g (s, z.1) z.2) :=
    h3.comp ((measurable_const.prodMk measurable_fst).prodMk measurable_snd)
  exact lintegral_lintegral_swap h7.aemeasurable

theorem sideBySide_swap (y : (P × P) × V) : (sideBySide y).swap = sideBySide (y.1.swap, y.2) := rfl

/-- If the moves of the site are in balance, then so are those of the row. -/
theorem newSite_rev {τ : Measure P} {μ : Measure Ω} {vol : Measure V} [SFinite τ] [SFinite μ] [SFinite vol] {g : P → Ω → P}
    (hg : Measurable fun z : P × Ω => g z.1 z.2)
    (hrev : ((τ.prod μ).map fun z => (z.1, g z.1 z.2)).map Prod.swap = (τ.prod μ).map fun z => (z.1, g z.1 z.2)) :
    (((τ.prod vol).prod μ).map fun z => (z.1, newSite g z.1 z.2)).map Prod.swap =
      ((τ.prod vol).prod μ).map fun z => (z.1, newSite g z.1 z.2) := by
  rw [newSite_joint hg]
  set J := (τ.prod μ).map fun z => (z.1, g z.1 z.2) with hJ
  have e : (J.prod vol).map (fun y => (y.1.swap, y.2)) = J.prod vol := by
    have := Measure.map_prod_map J vol measurable_swap measurable_id
    rw [hrev, Measure.map_id] at this
    exact this.symm
  have hm : Measurable fun y : (P × P) × V => (y.1.swap, y.2) := (measurable_swap.comp measurable_fst).prodMk measurable_snd
  have h2 : (Prod.swap ∘ sideBySide : (P × P) × V → _) = sideBySide ∘ fun y => (y.1.swap, y.2) := rfl
  rw [Measure.map_map measurable_swap sideBySide_meas, h2, ← Measure.map_map sideBySide_meas hm, e]

end site

section values

variable {P : Type} [MeasurableSpace P] {k : ℕ}

/-- A row with new values. -/
def newValues (std : Fin k → P → ℝ) (r : P × (Fin k → ℝ)) (z : Fin k → ℝ) : P × (Fin k → ℝ) :=
  (r.1, fun j => r.2 j + z j * std j r.1)

theorem newValues_meas {std : Fin k → P → ℝ} (hs : ∀ j, Measurable (std j)) :
    Measurable fun z : (P × (Fin k → ℝ)) × (Fin k → ℝ) => newValues std z.1 z.2 := by
  refine measurable_fst.fst.prodMk (measurable_pi_lambda _ fun j => ?_)
  have h1 : Measurable fun z : (P × (Fin k → ℝ)) × (Fin k → ℝ) => z.1.2 j := (measurable_pi_apply j).comp measurable_fst.snd
  have h2 : Measurable fun z : (P × (Fin k → ℝ)) × (Fin k → ℝ) => z.2 j := (measurable_pi_apply j).comp measurable_snd
  have h3 : Measurable fun z : (P × (Fin k → ℝ)) × (Fin k → ℝ) => std j z.1.1 := (hs j).comp measurable_fst.fst
  exact h1.add (h2.mul h3)

/-- The law of a deviate for each parameter. -/
noncomputable def walkLaw (k : ℕ) : Measure (Fin k → ℝ) := Measure.pi fun _ => gaussianReal 0 1

instance (k : ℕ) : IsProbabilityMeasure (walkLaw k) := by
  unfold walkLaw
  infer_instance

theorem walkLaw_neg (k : ℕ) : (walkLaw k).map (fun z => -z) = walkLaw k := by
  unfold walkLaw
  have h := Measure.pi_map_pi (μ := fun _ : Fin k => gaussianReal 0 1) (f := fun _ x => -x)
    (fun _ => measurable_neg.aemeasurable)
  have e : (gaussianReal 0 1).map (fun x => -x) = gaussianReal 0 1 := by
    rw [gaussianReal_map_neg, neg_zero]
  rw [e] at h
  exact h

/-- Steps of the values are in balance with the volume. -/
theorem newValues_rev {τ : Measure P} [SFinite τ] {std : Fin k → P → ℝ} (hs : ∀ j, Measurable (std j)) :
    (((τ.prod volume).prod (walkLaw k)).map fun z => (z.1, newValues std z.1 z.2)).map Prod.swap =
      ((τ.prod volume).prod (walkLaw k)).map fun z => (z.1, newValues std z.1 z.2) := by
  have h1 : Measurable fun z : (P × (Fin k → ℝ)) × (Fin k → ℝ) => (z.1, newValues std z.1 z.2) :=
    measurable_fst.prodMk (newValues_meas hs)
  refine Measure.ext_of_lintegral _ fun G hG => ?_
  have hGs : Measurable fun z : (P × (Fin k → ℝ)) × (P × (Fin k → ℝ)) => G z.swap := hG.comp measurable_swap
  rw [lintegral_map hG measurable_swap, lintegral_map hGs h1, lintegral_map hG h1]
  have e : ∀ {H : (P × (Fin k → ℝ)) × (Fin k → ℝ) → ENNReal}, Measurable H →
      ∫⁻ z, H z ∂(τ.prod volume).prod (walkLaw k) = ∫⁻ s, ∫⁻ z, ∫⁻ v, H ((s, v), z) ∂volume ∂walkLaw k ∂τ := by
    intro H hH
    have h2 : Measurable fun x : P × (Fin k → ℝ) => ∫⁻ z, H (x, z) ∂walkLaw k := Measurable.lintegral_prod_right' hH
    rw [lintegral_prod _ hH.aemeasurable, lintegral_prod _ h2.aemeasurable]
    refine lintegral_congr fun s => ?_
    have h3 : Measurable fun y : (Fin k → ℝ) × (Fin k → ℝ) => H ((s, y.1), y.2) :=
      hH.comp ((measurable_const.prodMk measurable_fst).prodMk measurable_snd)
    exact lintegral_lintegral_swap h3.aemeasurable
  have m1 : Measurable fun z : (P × (Fin k → ℝ)) × (Fin k → ℝ) => G (z.1, newValues std z.1 z.2) := hG.comp h1
  have m2 : Measurable fun z : (P × (Fin k → ℝ)) × (Fin k → ℝ) => G (z.1, newValues std z.1 z.2).swap := hGs.comp h1
  rw [e m1, e m2]
  refine lintegral_congr fun s => ?_
  have m3 : Measurable fun y : (Fin k → ℝ) × (Fin k → ℝ) => G ((s, y.2), newValues std (s, y.2) y.1) :=
    m1.comp ((measurable_const.prodMk measurable_snd).prodMk measurable_fst)
  have m4 : Measurable fun z : Fin k → ℝ => ∫⁻ v, G ((s, v), newValues std (s, v) z) ∂volume :=
    Measurable.lintegral_prod_right' m3
  have hneg : ∫⁻ z, ∫⁻ v, G ((s, v), newValues std (s, v) z) ∂volume ∂walkLaw k =
      ∫⁻ z, ∫⁻ v, G ((s, v), newValues std (s, v) (-z)) ∂volume ∂walkLaw k := by
    conv_lhs => rw [← walkLaw_neg k]
    rw [lintegral_map m4 measurable_neg]
  rw [hneg]
  refine lintegral_congr fun z => ?_
  have := lintegral_add_right_eq_self (μ := (volume : Measure (Fin k → ℝ)))
    (fun v => G ((s, v), newValues std (s, v) (-z))) fun j => z j * std j s
  rw [← this]
  refine lintegral_congr fun v => ?_
  congr 1
  unfold newValues
  refine Prod.ext rfl (Prod.ext rfl (funext fun j => ?_))
  simp

end values

end BB.Lemmas
