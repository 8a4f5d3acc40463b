import Verif.Lemmas.Slices
import Verif.Lemmas.BlockKernel
import Verif.Lemmas.ErgodicKernel

/-!
# Functions that do not notice the moves of a scheme
-/

namespace BB.Lemmas

open BB Spec Props MeasureTheory ProbabilityTheory

section one

variable {X Θ : Type} [MeasurableSpace X] [MeasurableSpace Θ] {n : ℕ} {p : Scheme X Θ n} {w : Fin n → ℝ} {g c : X → ℝ}

/-- After every move that may be accepted, `g` has a value determined by the model before. -/
def Hears (p : Scheme X Θ n) (w : Fin n → ℝ) (g c : X → ℝ) : Prop :=
  ∀ j, 0 < w j → ∀ᵐ x ∂p.prior, ∀ᵐ θ ∂p.draws, p.dens (p.rev j) (p.move j x θ, x) ≠ 0 → g (p.move j x θ) = c x

/-- Such functions are constant. -/
def Roams (p : Scheme X Θ n) (w : Fin n → ℝ) : Prop :=
  ∀ g c, Measurable g → Measurable c → Hears p w g c → ∃ a, ∀ᵐ x ∂p.prior, g x = a

theorem hears_trans (hp : p.Ok w) (hw : ∀ j, 0 ≤ w j) {ℓ : X → ℝ} (hℓ : Measurable ℓ) {T : ℝ} (hg : Measurable g)
    (h : ∀ᵐ x ∂p.prior, ∀ᵐ y ∂transLaw p w ℓ T x, g y = c x) : Hears p w g c := by
  intro j hj
  filter_upwards [h, ae_good hp] with x hx hgood
  have hA : MeasurableSet {y | g y ≠ c x} := (hg (measurableSet_singleton (c x))).compl
  have h0 : transition p w ℓ T x {y | g y ≠ c x} = 0 := by
    rw [← transLaw_apply hp hℓ x hA]
    exact hx
  have hmove : Measurable (p.move j x) := (hp.meas j).comp measurable_prodMk_left
  have hacc : Measurable fun θ => acceptance p ℓ T j (x, p.move j x θ) :=
    (acceptance_meas hp hℓ j).comp (measurable_const.prodMk hmove)
  unfold transition at h0
  rw [Finset.sum_eq_zero_iff] at h0
  have h1 := (mul_eq_zero.1 (h0 j (Finset.mem_univ _))).resolve_left fun hc => by
    rw [ENNReal.ofReal_eq_zero] at hc
    have : 0 < w j / ∑ j, w j := div_pos hj (hj.trans_le (Finset.single_le_sum (fun i _ => hw i) (Finset.mem_univ j)))
    linarith
  have m1 : Measurable fun θ => acceptance p ℓ T j (x, p.move j x θ) * Set.indicator {y | g y ≠ c x} 1 (p.move j x θ) :=
    hacc.mul ((measurable_one.indicator hA).comp hmove)
  have m2 : Measurable fun θ => acceptance p ℓ T j (x, p.move j x θ) * Set.indicator {y | g y ≠ c x} 1 (p.move j x θ) +
      (1 - acceptance p ℓ T j (x, p.move j x θ)) * Set.indicator {y | g y ≠ c x} 1 x := m1.add ((hacc.const_sub 1).mul_const _)
  rw [lintegral_eq_zero_iff m2] at h1
  filter_upwards [h1, hgood j] with θ k1 k2 k3
  by_contra hne
  have k4 := (add_eq_zero.1 (show _ + _ = (0 : ENNReal) from k1)).1
  rw [Set.indicator_of_mem (show p.move j x θ ∈ {y | g y ≠ c x} from hne), Pi.one_apply, mul_one] at k4
  unfold acceptance at k4
  rw [ENNReal.ofReal_eq_zero] at k4
  have hpos : 0 < threshold p ℓ T j (x, p.move j x θ) := by
    unfold threshold
    refine mul_pos (div_pos ?_ ?_) (Real.exp_pos _)
    · exact lt_of_le_of_ne (hp.dens_nonneg _ _) (Ne.symm k3)
    · exact lt_of_le_of_ne (hp.dens_nonneg _ _) (Ne.symm k2)
  exact absurd k4 (not_le.2 (lt_min one_pos hpos))

end one

section pi

variable {n : ℕ} {X : Fin n → Type} [∀ i, MeasurableSpace (X i)] {Θ : Fin n → Type} [∀ i, MeasurableSpace (Θ i)] {k : Fin n → ℕ}
  {p : ∀ i, Scheme (X i) (Θ i) (k i)} {w : ∀ i, Fin (k i) → ℝ} {ℓ : (∀ i, X i) → ℝ} {T : ℝ} {a : Fin n → ENNReal}

/-- The likelihood is positive. -/
theorem ae_posterior {Y : Type} [MeasurableSpace Y] {π : Measure Y} {ℓ : Y → ℝ} (hℓ : Measurable ℓ) (T : ℝ) :
    π ≪ posterior π ℓ T := by
  unfold posterior
  refine withDensity_absolutelyContinuous' (by fun_prop) (.of_forall fun x => ?_)
  exact (ENNReal.ofReal_pos.2 (Real.exp_pos _)).ne'

/-- The kernel of the mixture. -/
noncomputable def mixKernel (μ : ∀ i, Measure (X i)) [∀ i, SigmaFinite (μ i)] (hp : ∀ i, (p i).Ok (w i))
    (hpr : ∀ i, (p i).prior = μ i) (hℓ : Measurable ℓ) (T : ℝ) (a : Fin n → ENNReal) : Kernel (∀ i, X i) (∀ i, X i) :=
  ⟨mixTrans p w ℓ T a, mixTrans_meas μ hp hpr hℓ⟩

/-- Transitions of blocks chosen at random are irreducible, if those of each block are. -/
theorem mix_irred (μ : ∀ i, Measure (X i)) [∀ i, SigmaFinite (μ i)] (hp : ∀ i, (p i).Ok (w i))
    (hpr : ∀ i, (p i).prior = μ i) (hw : ∀ i j, 0 ≤ w i j) (hℓ : Measurable ℓ) (ha : ∀ i, a i ≠ 0)
    (hr : ∀ i, Roams (p i) (w i)) : Ker.Irred (posterior (Measure.pi μ) ℓ T) (mixKernel μ hp hpr hℓ T a) := by
  intro g c hg hc h
  have h1 : ∀ᵐ x ∂Measure.pi μ, ∀ᵐ y ∂mixTrans p w ℓ T a x, g y = c x := (ae_posterior hℓ T).ae_le h
  have key : ∃ a, ∀ᵐ x ∂Measure.pi μ, g x = a := by
    refine const_each μ hg fun i => ?_
    have hu : ∀ x : ∀ i, X i, Measurable fun y => Function.update x i y := fun x => measurable_update x
    have h2 : ∀ᵐ x ∂Measure.pi μ, ∀ᵐ y ∂transLaw (p i) (w i) (fun y => ℓ (Function.update x i y)) T (x i),
        g (Function.update x i y) = c x := by
      filter_upwards [h1] with x hx
      have hA : MeasurableSet {y | g y ≠ c x} := (hg (measurableSet_singleton (c x))).compl
      have h3 : mixTrans p w ℓ T a x {y | g y ≠ c x} = 0 := hx
      unfold mixTrans at h3
      rw [Measure.finsetSum_apply, Finset.sum_eq_zero_iff] at h3
      have h4 := h3 i (Finset.mem_univ _)
      rw [Measure.smul_apply, smul_eq_mul] at h4
      have h5 := (mul_eq_zero.1 h4).resolve_left (ha i)
      unfold blockTrans at h5
      rw [Measure.map_apply (hu x) hA] at h5
      exact h5
    filter_upwards [pi_slice μ i h2] with x hx
    simp only [Function.update_idem, Function.update_self] at hx
    have h3 : Hears (p i) (w i) (fun y => g (Function.update x i y)) fun y => c (Function.update x i y) := by
      refine hears_trans (hp i) (hw i) (ℓ := fun y => ℓ (Function.update x i y)) (hℓ.comp (hu x)) (T := T) (hg.comp (hu x)) ?_
      rw [hpr i]
      exact hx
    have h4 := hr i _ _ (hg.comp (hu x)) (hc.comp (hu x)) h3
    rw [hpr i] at h4
    exact h4
  obtain ⟨b, hb⟩ := key
  have hac : posterior (Measure.pi μ) ℓ T ≪ Measure.pi μ := withDensity_absolutelyContinuous _ _
  exact ⟨b, hac.ae_le hb⟩

theorem mix_revers (μ : ∀ i, Measure (X i)) [∀ i, SigmaFinite (μ i)] (hp : ∀ i, (p i).Ok (w i))
    (hpr : ∀ i, (p i).prior = μ i) (hw : ∀ i j, 0 ≤ w i j) (hs : ∀ i, 0 < ∑ j, w i j) (hℓ : Measurable ℓ)
    (ha : ∑ i, a i = 1) : Ker.Revers (posterior (Measure.pi μ) ℓ T) (mixKernel μ hp hpr hℓ T a) := by
  intro s t hs' ht
  exact (mixture_balance μ hp hpr hw hs hℓ T a ha Eq (fun x => mixTrans p w ℓ T a x)
    (.of_forall fun x A hA _ => mixTrans_apply hp hℓ x hA)).1 s t hs' ht (fun x y e => by rw [e]) fun x y e => by rw [e]

end pi

section power

variable {X : Type} [MeasurableSpace X]

/-- The probabilities after several transitions are means. -/
theorem power_avgs (K : Kernel X X) [IsMarkovKernel K] {A : Set X} (hA : MeasurableSet A) :
    ∀ n x, (power K n x A).toReal = Ker.avgs K n (A.indicator 1) x ∧ power K n x A ≤ 1
  | 0, x => by
    unfold power Ker.avgs
    by_cases h : x ∈ A <;> simp [h]
  | n + 1, x => by
    have ih := power_avgs K hA n
    have hm : Measurable fun y => power K n y A := power_meas K.measurable hA n
    refine ⟨?_, ?_⟩
    · unfold power Ker.avgs Ker.avg
      rw [← integral_toReal hm.aemeasurable (.of_forall fun y => (ih y).2.trans_lt ENNReal.one_lt_top)]
      exact integral_congr_ae (.of_forall fun y => (ih y).1)
    · unfold power
      refine (lintegral_mono fun y => (ih y).2).trans ?_
      simp

/-- The probabilities after more and more transitions converge, uniformly for all events. -/
theorem power_tendsto {π : Measure X} [IsFiniteMeasure π] (K : Kernel X X) [IsMarkovKernel K] (h : Ker.Revers π K) (hi : Ker.Irred π K)
    (hπ : π ≠ 0) (μ : Measure X) [IsProbabilityMeasure μ] (hμ : μ ≪ π) {ε : ℝ} (hε : 0 < ε) :
    ∃ N, ∀ n ≥ N, ∀ A, MeasurableSet A → |(∫⁻ x, power K n x A ∂μ).toReal - (π A / π Set.univ).toReal| ≤ ε := by
  obtain ⟨N, hN⟩ := Ker.avgs_tv h hi hπ μ hμ hε
  refine ⟨N, fun n hn A hA => ?_⟩
  have h1 := hN n hn (A.indicator 1) (measurable_one.indicator hA) fun x => by
    by_cases hx : x ∈ A <;> simp [hx]
  have hm : Measurable fun y => power K n y A := power_meas K.measurable hA n
  have e1 : (∫⁻ x, power K n x A ∂μ).toReal = ∫ x, Ker.avgs K n (A.indicator 1) x ∂μ := by
    rw [← integral_toReal hm.aemeasurable (.of_forall fun y => (power_avgs K hA n y).2.trans_lt ENNReal.one_lt_top)]
    exact integral_congr_ae (.of_forall fun y => (power_avgs K hA n y).1)
  have e2 : (π A / π Set.univ).toReal = (∫ x, A.indicator 1 x ∂π) / π.real Set.univ := by
    rw [ENNReal.toReal_div, integral_indicator_one hA]
    rfl
  rw [e1, e2]
  exact h1

end power

end BB.Lemmas
