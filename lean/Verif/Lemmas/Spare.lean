import Verif.Lemmas.Stir
import Verif.Lemmas.BlockKernel
import Verif.Lemmas.Iterate

/-!
# Null sets are not entered
-/

namespace BB.Lemmas

open BB Spec Props MeasureTheory

variable {n : ℕ} {X : Fin n → Type} [∀ i, MeasurableSpace (X i)]

/-- The priors with a factor in one block. -/
theorem tilt_pi (μ : ∀ i, Measure (X i)) [∀ i, IsFiniteMeasure (μ i)] (b : Fin n) {f : X b → ENNReal} (hf : Measurable f)
    (hfin : IsFiniteMeasure ((μ b).withDensity f)) : ∃ ν : ∀ i, Measure (X i), (∀ i, IsFiniteMeasure (ν i)) ∧
      ν b = (μ b).withDensity f ∧ Measure.pi ν = (Measure.pi μ).withDensity fun x => f (x b) := by
  classical
  set g : ∀ i, X i → ENNReal := Function.update (fun _ _ => 1) b f with hg
  have hgb : g b = f := Function.update_self _ _ _
  have hgo : ∀ i, i ≠ b → g i = fun _ => 1 := fun i hi => Function.update_of_ne hi _ _
  have hgm : ∀ i, Measurable (g i) := by
    intro i
    by_cases hi : i = b
    · subst hi
      rw [hgb]
      exact hf
    · rw [hgo i hi]
      exact measurable_const
  have hνf : ∀ i, IsFiniteMeasure ((μ i).withDensity (g i)) := by
    intro i
    by_cases hi : i = b
    · subst hi
      rw [hgb]
      exact hfin
    · rw [hgo i hi]
      change IsFiniteMeasure ((μ i).withDensity 1)
      rw [withDensity_one]
      infer_instance
  refine ⟨fun i => (μ i).withDensity (g i), hνf, by simp only [hgb], ?_⟩
  rw [pi_density_fin μ hgm]
  congr 1
  funext x
  rw [Finset.prod_eq_single b (fun j _ hj => by rw [hgo j hj]) (fun hb => absurd (Finset.mem_univ b) hb), hgb]

/-- Moves in balance with the prior of a block times a positive function do not enter null sets. -/
theorem null_step (μ : ∀ i, Measure (X i)) [∀ i, IsFiniteMeasure (μ i)] (b : Fin n) {Θ : Type} [MeasurableSpace Θ] {k : ℕ}
    {q : Scheme (X b) Θ k} {w : Fin k → ℝ} (hq : q.Ok w) (hw : ∀ i, 0 ≤ w i) (hs : 0 < ∑ i, w i) {st : X b → ℝ}
    (hst : Measurable st) (hpos : ∀ x, 0 < st x) (htilt : IsFiniteMeasure ((μ b).withDensity fun x => ENNReal.ofReal (st x)))
    (hq1 : q.prior = (μ b).withDensity fun x => ENNReal.ofReal (st x)) {ℓ : (∀ i, X i) → ℝ} (hℓ : Measurable ℓ) (T : ℝ)
    {N : Set (∀ i, X i)} (hN : MeasurableSet N) (h0 : Measure.pi μ N = 0) :
    ∀ᵐ x ∂Measure.pi μ, blockStep b q w ℓ T x N = 0 := by
  obtain ⟨ν, hν, hνb, hpi⟩ := tilt_pi μ b hst.ennreal_ofReal htilt
  have h1 := block_balance ν b hq (hq1.trans hνb.symm) hℓ T Set.univ N MeasurableSet.univ hN
  simp only [blockStep_univ b hq hw hs, setLIntegral_univ, setLIntegral_one] at h1
  have h2 : posterior (Measure.pi ν) ℓ T N = 0 := by
    refine withDensity_absolutelyContinuous _ _ ?_
    rw [hpi]
    exact withDensity_absolutelyContinuous _ _ h0
  rw [h2, lintegral_eq_zero_iff (blockStep_meas ν b hq (hq1.trans hνb.symm) hℓ T hN)] at h1
  have h3 : Measurable fun x => ENNReal.ofReal (Real.exp (ℓ x / T)) := by fun_prop
  have h4 : Measure.pi ν ≪ posterior (Measure.pi ν) ℓ T := withDensity_absolutelyContinuous' h3.aemeasurable
    (.of_forall fun x => (ENNReal.ofReal_pos.2 (Real.exp_pos _)).ne')
  have h5 : Measure.pi μ ≪ Measure.pi ν := by
    rw [hpi]
    exact withDensity_absolutelyContinuous' (hst.comp (measurable_pi_apply b)).ennreal_ofReal.aemeasurable
      (.of_forall fun x => (ENNReal.ofReal_pos.2 (hpos _)).ne')
  exact (h5.trans h4).ae_le h1

/-- The moves of a block are all in balance with the prior times a function, or some of them, and the others with the prior. -/
def Settled {X Θ : Type} [MeasurableSpace X] [MeasurableSpace Θ] (prior : Measure X) (staying : X → ℝ) {k : ℕ}
    (m : Scheme X Θ k) (w : Fin k → ℝ) : Prop :=
  m.prior = prior.withDensity (fun x => ENNReal.ofReal (staying x)) ∨ Stirs prior staying m w

theorem settled_step (μ : ∀ i, Measure (X i)) [∀ i, IsFiniteMeasure (μ i)] (b : Fin n) {Θ : Type} [MeasurableSpace Θ] {k : ℕ}
    {m : Scheme (X b) Θ k} {w : Fin k → ℝ} (hm : m.Ok w) (hw : ∀ i, 0 ≤ w i) (hs : 0 < ∑ i, w i) {st : X b → ℝ}
    (hst : Measurable st) (hpos : ∀ x, 0 < st x) (htilt : IsFiniteMeasure ((μ b).withDensity fun x => ENNReal.ofReal (st x)))
    (h : Settled (μ b) st m w) {ℓ : (∀ i, X i) → ℝ} (hℓ : Measurable ℓ) (T : ℝ)
    {N : Set (∀ i, X i)} (hN : MeasurableSet N) (h0 : Measure.pi μ N = 0) :
    ∀ᵐ x ∂Measure.pi μ, blockStep b m w ℓ T x N = 0 := by
  rcases h with h | h
  · exact null_step μ b hm hw hs hst hpos htilt h hℓ T hN h0
  · obtain ⟨Θ1, Θ2, _, _, k1, p, w1, q, w2, α, β, hp, hp1, hp2, hp3, hq, hq1, hq2, hq3, hαβ, hβ, hmix⟩ := h.stir
    have hw2 : ∀ i, 0 ≤ w2 i := fun i => by rw [Subsingleton.elim i 0]; exact hq2.le
    have hs2 : 0 < ∑ i, w2 i := by simpa using hq2
    have e1 : (μ b).withDensity (fun _ => ENNReal.ofReal 1) = μ b := by
      rw [ENNReal.ofReal_one]
      exact withDensity_one
    have g1 : ∀ᵐ x ∂Measure.pi μ, α * blockStep b p w1 ℓ T x N = 0 := by
      by_cases hα : α = 0
      · refine .of_forall fun x => ?_
        rw [hα, zero_mul]
      · filter_upwards [null_step μ b hp hp2 (hp3 hα) (st := fun _ => 1) measurable_const (fun _ => one_pos)
          (by rw [e1]; infer_instance) (hp1.trans e1.symm) hℓ T hN h0] with x hx
        rw [hx, mul_zero]
    filter_upwards [g1, null_step μ b hq hw2 hs2 hst hpos htilt hq1 hℓ T hN h0] with x k1 k2
    have := hmix _ T (x b) _ (hℓ.comp (measurable_update x)) (measurable_update x hN)
    refine Eq.trans this ?_
    change α * blockStep b p w1 ℓ T x N + β * blockStep b q w2 ℓ T x N = 0
    rw [k1, k2, mul_zero, add_zero]

/-- A mixture of such moves. -/
theorem settled_spares (μ : ∀ i, Measure (X i)) [∀ i, IsFiniteMeasure (μ i)] {Θ : Fin n → Type} [∀ i, MeasurableSpace (Θ i)]
    {k : Fin n → ℕ} {m : ∀ i, Scheme (X i) (Θ i) (k i)} {w : ∀ i, Fin (k i) → ℝ} (hm : ∀ i, (m i).Ok (w i)) (hw : ∀ i j, 0 ≤ w i j)
    (hs : ∀ i, 0 < ∑ j, w i j) {st : ∀ i, X i → ℝ} (hst : ∀ i, Measurable (st i)) (hpos : ∀ i x, 0 < st i x)
    (htilt : ∀ i, IsFiniteMeasure ((μ i).withDensity fun x => ENNReal.ofReal (st i x))) (h : ∀ i, Settled (μ i) (st i) (m i) (w i))
    {ℓ : (∀ i, X i) → ℝ} (hℓ : Measurable ℓ) (T : ℝ) (a : Fin n → ENNReal) : Spares (Measure.pi μ) (mixTrans m w ℓ T a) := by
  intro N hN h0
  have h1 : ∀ᵐ x ∂Measure.pi μ, ∀ i, blockStep i (m i) (w i) ℓ T x N = 0 :=
    ae_all_iff.2 fun i => settled_step μ i (hm i) (hw i) (hs i) (hst i) (hpos i) (htilt i) (h i) hℓ T hN h0
  filter_upwards [h1] with x hx
  rw [mixTrans_apply hm hℓ x hN]
  exact Finset.sum_eq_zero fun i _ => by rw [hx, mul_zero]

end BB.Lemmas
