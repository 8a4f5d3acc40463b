import Verif.Lemmas.Averages
import Verif.Lemmas.ErgodicKernel

/-!
# Reversible kernels: averages along the path

What `Averages` shows of random maps, for transitions given by a Markov kernel.
-/

set_option linter.unusedSectionVars false

namespace BB.Lemmas.Ker

open MeasureTheory ProbabilityTheory Filter Topology

variable {X : Type} [MeasurableSpace X]

/-- The mean of `G (s + Σ aᵢ f (xᵢ))`, where `x₁, x₂, …` are the points visited from `x` on and `aᵢ` the weights in the list. -/
noncomputable def pathE (K : Kernel X X) (f : X → ℝ) (G : ℝ → ENNReal) : List ℝ → X → ℝ → ENNReal
  | [], _, s => G s
  | a :: w, x, s => ∫⁻ y, pathE K f G w y (s + a * f y) ∂K x

/-- The mean of the sum. -/
noncomputable def sumM (K : Kernel X X) (f : X → ℝ) : List ℝ → X → ℝ
  | [] => fun _ => 0
  | a :: w => avg K fun y => a * f y + sumM K f w y

/-- The mean of the square of the sum. -/
noncomputable def sumQ (K : Kernel X X) (f : X → ℝ) : List ℝ → X → ℝ
  | [] => fun _ => 0
  | a :: w => avg K fun y => (a * f y) ^ 2 + 2 * (a * f y * sumM K f w y) + sumQ K f w y

variable {π : Measure X} [IsFiniteMeasure π] {K : Kernel X X} [IsMarkovKernel K] {f : X → ℝ}

theorem sumM_bdd (h : Revers π K) (hf : Bdd f) : ∀ w, Bdd (sumM K f w)
  | [] => Bdd.const 0
  | a :: w => Bdd.avgK ((hf.smul a).add (sumM_bdd h hf w)) h

theorem sumQ_bdd (h : Revers π K) (hf : Bdd f) : ∀ w, Bdd (sumQ K f w)
  | [] => Bdd.const 0
  | a :: w => Bdd.avgK (((hf.smul a).pow.add ((((hf.smul a).mul (sumM_bdd h hf w))).smul 2)).add (sumQ_bdd h hf w)) h

theorem pathE_meas (h : Revers π K) (hf : Measurable f) {G : ℝ → ENNReal} (hG : Measurable G) :
    ∀ w, Measurable fun z : X × ℝ => pathE K f G w z.1 z.2
  | [] => hG.comp measurable_snd
  | a :: w => by
    have ih := pathE_meas h hf hG w
    have h1 : Measurable fun z : (X × ℝ) × X => (z.2, z.1.2 + a * f z.2) :=
      measurable_snd.prodMk ((measurable_snd.comp measurable_fst).add ((hf.comp measurable_snd).const_mul a))
    have h2 := Measurable.lintegral_kernel_prod_right' (κ := K.comap Prod.fst measurable_fst) (ih.comp h1)
    exact h2

theorem pathE_at (h : Revers π K) (hf : Measurable f) {G : ℝ → ENNReal} (hG : Measurable G) (w : List ℝ) (s : ℝ) :
    Measurable fun x => pathE K f G w x s := (pathE_meas h hf hG w).comp (measurable_id.prodMk measurable_const)

theorem pathE_mono {G H : ℝ → ENNReal} (hGH : ∀ s, G s ≤ H s) : ∀ w x s, pathE K f G w x s ≤ pathE K f H w x s
  | [], _, s => hGH s
  | a :: w, x, s => lintegral_mono fun y => pathE_mono hGH w _ _

theorem pathE_one : ∀ w (x : X) s, pathE K f (fun _ => 1) w x s = 1
  | [], _, s => rfl
  | a :: w, x, s => by
    change ∫⁻ y, pathE K f (fun _ => 1) w _ _ ∂K x = 1
    simp only [pathE_one w, lintegral_one, measure_univ]

theorem pathE_smul (h : Revers π K) (hf : Measurable f) {G : ℝ → ENNReal} (hG : Measurable G) (c : ENNReal) :
    ∀ w x s, pathE K f (fun s => c * G s) w x s = c * pathE K f G w x s
  | [], _, s => rfl
  | a :: w, x, s => by
    change ∫⁻ y, pathE K f (fun s => c * G s) w _ _ ∂K x = c * ∫⁻ y, pathE K f G w _ _ ∂K x
    simp only [pathE_smul h hf hG c w]
    refine lintegral_const_mul c ?_
    exact (pathE_meas h hf hG w).comp (measurable_id.prodMk (measurable_const.add (hf.const_mul a)))

/-- The second moment of the sum. -/
theorem pathE_sq (h : Revers π K) (hf : Bdd f) : ∀ w x s,
    pathE K f (fun s => ENNReal.ofReal (s ^ 2)) w x s = ENNReal.ofReal (s ^ 2 + 2 * (s * sumM K f w x) + sumQ K f w x) ∧
      0 ≤ s ^ 2 + 2 * (s * sumM K f w x) + sumQ K f w x
  | [], x, s => by
    constructor
    · change ENNReal.ofReal (s ^ 2) = ENNReal.ofReal (s ^ 2 + 2 * (s * 0) + 0)
      congr 1
      ring
    · change 0 ≤ s ^ 2 + 2 * (s * 0) + 0
      nlinarith [sq_nonneg s]
  | a :: w, x, s => by
    have hM := sumM_bdd h hf w
    have hQ := sumQ_bdd h hf w
    set g : X → ℝ := fun y => (s + a * f y) ^ 2 + 2 * ((s + a * f y) * sumM K f w y) + sumQ K f w y with hg
    have hb1 : Bdd fun y => s + a * f y := (Bdd.const s).add (hf.smul a)
    have hgb : Bdd g := (hb1.pow.add ((hb1.mul hM).smul 2)).add hQ
    have hgn : ∀ y, 0 ≤ g y := fun y => (pathE_sq h hf w y (s + a * f y)).2
    have e1 : pathE K f (fun s => ENNReal.ofReal (s ^ 2)) (a :: w) x s = ∫⁻ y, ENNReal.ofReal (g y) ∂K x :=
      lintegral_congr fun y => (pathE_sq h hf w y (s + a * f y)).1
    have e2 : ∫⁻ y, ENNReal.ofReal (g y) ∂K x = ENNReal.ofReal (avg K g x) :=
      (ofReal_integral_eq_lintegral_ofReal (hgb.integrable (K x)) (ae_of_all _ fun y => hgn _)).symm
    have e3 : avg K g x = s ^ 2 + 2 * (s * sumM K f (a :: w) x) + sumQ K f (a :: w) x := by
      have hA : Bdd fun y => a * f y + sumM K f w y := (hf.smul a).add hM
      have hB : Bdd fun y => (a * f y) ^ 2 + 2 * (a * f y * sumM K f w y) + sumQ K f w y :=
        ((hf.smul a).pow.add (((hf.smul a).mul hM).smul 2)).add hQ
      have i1 : Integrable (fun _ : X => s ^ 2) (K x) := integrable_const _
      have i2 : Integrable (fun y => 2 * s * (a * f y + sumM K f w y)) (K x) := (hA.integrable (K x)).const_mul _
      have i3 : Integrable (fun y => (a * f y) ^ 2 + 2 * (a * f y * sumM K f w y) + sumQ K f w y) (K x) :=
        hB.integrable (K x)
      have i12 : Integrable (fun y => s ^ 2 + 2 * s * (a * f y + sumM K f w y)) (K x) := i1.add i2
      have e4 : ∀ y, g y = s ^ 2 + 2 * s * (a * f y + sumM K f w y) +
          ((a * f y) ^ 2 + 2 * (a * f y * sumM K f w y) + sumQ K f w y) := fun y => by
        rw [hg]
        ring
      change ∫ y, g y ∂K x = s ^ 2 + 2 * (s * ∫ y, (a * f y + sumM K f w y) ∂K x) +
        ∫ y, ((a * f y) ^ 2 + 2 * (a * f y * sumM K f w y) + sumQ K f w y) ∂K x
      simp only [e4]
      rw [integral_add i12 i3, integral_add i1 i2, integral_const_mul]
      simp only [integral_const, probReal_univ, smul_eq_mul, one_mul]
      ring
    constructor
    · rw [e1, e2, e3]
    · rw [← e3]
      exact integral_nonneg fun y => hgn _

/-! ### the correlations of a function of mean 0 die out -/

theorem abs_corr_le (h : Revers π K) (hf : Bdd f) (k : ℕ) : |corr π K f k| ≤ corr π K f 0 := by
  have h0 : corr π K f 0 = ∫ x, f x ^ 2 ∂π := corr_even h hf 0
  have h1 : ∀ n, ∫ x, avgs K n f x ^ 2 ∂π ≤ corr π K f 0 := fun n => by
    rw [← corr_even h hf n]
    exact corr_anti h hf (Nat.zero_le n)
  have hk := hf.avgsK h k
  have i1 : Integrable (fun x => f x ^ 2 / 2) π := (hf.pow.integrable π).div_const 2
  have i2 : Integrable (fun x => avgs K k f x ^ 2 / 2) π := (hk.pow.integrable π).div_const 2
  refine abs_integral_le_integral_abs.trans ?_
  have h2 : ∫ x, |f x * avgs K k f x| ∂π ≤ ∫ x, (f x ^ 2 / 2 + avgs K k f x ^ 2 / 2) ∂π := by
    refine integral_mono ((hf.mul hk).integrable π).abs (i1.add i2) fun x => ?_
    change |f x * avgs K k f x| ≤ f x ^ 2 / 2 + avgs K k f x ^ 2 / 2
    rw [abs_mul, ← sq_abs (f x), ← sq_abs (avgs K k f x)]
    nlinarith [sq_nonneg (|f x| - |avgs K k f x|)]
  refine h2.trans ?_
  rw [integral_add i1 i2, integral_div, integral_div, ← h0]
  linarith [h1 k]

theorem corr_tendsto (h : Revers π K) (hi : Irred π K) (hf : Bdd f) (hπ : π ≠ 0) (hmean : ∫ x, f x ∂π = 0) {ε : ℝ} (hε : 0 < ε) :
    ∃ N, ∀ n ≥ N, |corr π K f n| ≤ ε := by
  have h1 := avgs_tendsto h hi hf hπ
  rw [hmean, zero_div, Metric.tendsto_atTop] at h1
  obtain ⟨N, hN⟩ := h1 ε hε
  have h2 : ∀ n ≥ N, ∫ x, avgs K n f x ^ 2 ∂π ≤ ε := fun n hn => by
    have := hN n hn
    rw [Real.dist_eq, sub_zero, abs_of_nonneg (dist2_nonneg _ _)] at this
    unfold dist2 at this
    simp only [sub_zero] at this
    exact this.le
  refine ⟨N + N, fun n hn => ?_⟩
  obtain ⟨a, b, rfl, ha, hb⟩ : ∃ a b, n = a + b ∧ N ≤ a ∧ N ≤ b := ⟨N, n - N, by omega, le_rfl, by omega⟩
  rw [← avgs_mul h hf a b]
  have hA := hf.avgsK h a
  have hB := hf.avgsK h b
  have i1 : Integrable (fun x => avgs K a f x ^ 2 / 2) π := (hA.pow.integrable π).div_const 2
  have i2 : Integrable (fun x => avgs K b f x ^ 2 / 2) π := (hB.pow.integrable π).div_const 2
  refine abs_integral_le_integral_abs.trans ?_
  have h3 : ∫ x, |avgs K a f x * avgs K b f x| ∂π ≤ ∫ x, (avgs K a f x ^ 2 / 2 + avgs K b f x ^ 2 / 2) ∂π := by
    refine integral_mono ((hA.mul hB).integrable π).abs (i1.add i2) fun x => ?_
    change |avgs K a f x * avgs K b f x| ≤ avgs K a f x ^ 2 / 2 + avgs K b f x ^ 2 / 2
    rw [abs_mul, ← sq_abs (avgs K a f x), ← sq_abs (avgs K b f x)]
    nlinarith [sq_nonneg (|avgs K a f x| - |avgs K b f x|)]
  refine h3.trans ?_
  rw [integral_add i1 i2, integral_div, integral_div]
  linarith [h2 a ha, h2 b hb]

/-! ### the variance of the sum -/

theorem mean_cross (h : Revers π K) (hf : Bdd f) {ε D : ℝ} {k : ℕ} (hD : 0 ≤ D) (hk : ∀ n ≥ k, |corr π K f n| ≤ ε)
    (hall : ∀ n, |corr π K f n| ≤ D) : ∀ (w : List ℝ), (∀ a ∈ w, a = 0 ∨ a = 1) → ∀ i,
    |∫ x, avgs K i f x * sumM K f w x ∂π| ≤ ((k - i : ℕ) : ℝ) * D + ε * w.sum
  | [], _, i => by
    change |∫ x, avgs K i f x * 0 ∂π| ≤ ((k - i : ℕ) : ℝ) * D + ε * ([] : List ℝ).sum
    simp only [mul_zero, integral_zero, abs_zero, List.sum_nil]
    positivity
  | a :: w, hw, i => by
    have hε : 0 ≤ ε := (abs_nonneg _).trans (hk k le_rfl)
    have ih := mean_cross h hf hD hk hall w (fun b hb => hw b (List.mem_cons_of_mem _ hb)) (i + 1)
    have hM := sumM_bdd h hf w
    have hi := hf.avgsK h i
    have hi1 := hf.avgsK h (i + 1)
    have e : ∫ x, avgs K i f x * sumM K f (a :: w) x ∂π =
        a * corr π K f (i + 1) + ∫ x, avgs K (i + 1) f x * sumM K f w x ∂π := by
      change ∫ x, avgs K i f x * avg K (fun y => a * f y + sumM K f w y) x ∂π = _
      rw [avg_symm h hi ((hf.smul a).add hM)]
      change ∫ x, avgs K (i + 1) f x * (a * f x + sumM K f w x) ∂π = _
      have i1 : Integrable (fun x => a * (avgs K (i + 1) f x * f x)) π := ((hi1.mul hf).integrable π).const_mul a
      have e1 : ∀ x, avgs K (i + 1) f x * (a * f x + sumM K f w x) =
          a * (avgs K (i + 1) f x * f x) + avgs K (i + 1) f x * sumM K f w x := fun x => by ring
      simp only [e1]
      rw [integral_add i1 ((hi1.mul hM).integrable π), integral_const_mul]
      have := avgs_mul h hf (i + 1) 0
      rw [add_zero] at this
      rw [← this]
      rfl
    rw [e, List.sum_cons]
    have h1 : |a * corr π K f (i + 1)| ≤ (((k - i : ℕ) : ℝ) - ((k - (i + 1) : ℕ) : ℝ)) * D + ε * a := by
      rcases hw a (List.mem_cons_self ..) with rfl | rfl
      · rw [zero_mul, abs_zero, mul_zero, add_zero]
        refine mul_nonneg (sub_nonneg.2 (Nat.cast_le.2 (by omega))) hD
      · rw [one_mul, mul_one]
        by_cases hik : k ≤ i + 1
        · have h2 : 0 ≤ (((k - i : ℕ) : ℝ) - ((k - (i + 1) : ℕ) : ℝ)) * D :=
            mul_nonneg (sub_nonneg.2 (Nat.cast_le.2 (by omega))) hD
          linarith [hk (i + 1) hik]
        · have h2 : ((k - i : ℕ) : ℝ) - ((k - (i + 1) : ℕ) : ℝ) = 1 := by
            have : k - i = (k - (i + 1)) + 1 := by omega
            rw [this]
            push_cast
            ring
          rw [h2, one_mul]
          linarith [hall (i + 1)]
    refine (abs_add_le _ _).trans ?_
    have h3 := add_le_add h1 ih
    refine h3.trans (le_of_eq ?_)
    ring

theorem mean_sumQ (h : Revers π K) (hf : Bdd f) {ε D : ℝ} {k : ℕ} (hD : 0 ≤ D) (hk : ∀ n ≥ k, |corr π K f n| ≤ ε)
    (hall : ∀ n, |corr π K f n| ≤ D) : ∀ (w : List ℝ), (∀ a ∈ w, a = 0 ∨ a = 1) →
    ∫ x, sumQ K f w x ∂π ≤ w.sum * (D + 2 * ((k : ℝ) * D + ε * w.sum))
  | [], _ => by
    change ∫ x, (0 : ℝ) ∂π ≤ ([] : List ℝ).sum * _
    simp
  | a :: w, hw => by
    have hw' : ∀ b ∈ w, b = 0 ∨ b = 1 := fun b hb => hw b (List.mem_cons_of_mem _ hb)
    have hε : 0 ≤ ε := (abs_nonneg _).trans (hk k le_rfl)
    have ih := mean_sumQ h hf hD hk hall w hw'
    have hM := sumM_bdd h hf w
    have hQ := sumQ_bdd h hf w
    have hs := weights_sum_nonneg hw'
    have hc := mean_cross h hf hD hk hall w hw' 0
    have e : ∫ x, sumQ K f (a :: w) x ∂π = a ^ 2 * corr π K f 0 + 2 * (a * ∫ x, f x * sumM K f w x ∂π) + ∫ x, sumQ K f w x ∂π := by
      change ∫ x, avg K (fun y => (a * f y) ^ 2 + 2 * (a * f y * sumM K f w y) + sumQ K f w y) x ∂π = _
      rw [avg_mean h (((hf.smul a).pow.add (((hf.smul a).mul hM).smul 2)).add hQ)]
      have i1 : Integrable (fun x => a ^ 2 * (f x * f x)) π := ((hf.mul hf).integrable π).const_mul _
      have i2 : Integrable (fun x => 2 * (a * (f x * sumM K f w x))) π := (((hf.mul hM).integrable π).const_mul a).const_mul 2
      have i12 : Integrable (fun x => a ^ 2 * (f x * f x) + 2 * (a * (f x * sumM K f w x))) π := i1.add i2
      have e1 : ∀ x, (a * f x) ^ 2 + 2 * (a * f x * sumM K f w x) + sumQ K f w x =
          a ^ 2 * (f x * f x) + 2 * (a * (f x * sumM K f w x)) + sumQ K f w x := fun x => by ring
      simp only [e1]
      rw [integral_add i12 (hQ.integrable π), integral_add i1 i2, integral_const_mul, integral_const_mul, integral_const_mul]
      rfl
    rw [e, List.sum_cons]
    rcases hw a (List.mem_cons_self ..) with rfl | rfl
    · simpa using ih
    · have h1 := (abs_le.1 (hall 0)).2
      have h2 := (abs_le.1 hc).2
      rw [Nat.sub_zero] at h2
      change ∫ x, f x * sumM K f w x ∂π ≤ (k : ℝ) * D + ε * w.sum at h2
      have h3 : 0 ≤ ε * w.sum := mul_nonneg hε hs
      have h4 : 0 ≤ (k : ℝ) * D := by positivity
      nlinarith

/-- The variance of the average is small if there are many points. -/
theorem mean_sumQ_small (h : Revers π K) (hi : Irred π K) (hf : Bdd f) (hπ : π ≠ 0) (hmean : ∫ x, f x ∂π = 0) {η : ℝ} (hη : 0 < η) :
    ∃ W : ℝ, 0 < W ∧ ∀ w : List ℝ, (∀ a ∈ w, a = 0 ∨ a = 1) → W ≤ w.sum → ∫ x, sumQ K f w x ∂π ≤ η * w.sum ^ 2 := by
  obtain ⟨k, hk⟩ := corr_tendsto h hi hf hπ hmean (ε := η / 4) (by linarith)
  set D := corr π K f 0 with hDd
  have hD : 0 ≤ D := (abs_nonneg _).trans (abs_corr_le h hf 0)
  refine ⟨(D + 2 * ((k : ℝ) * D)) / (η / 2) + 1, by positivity, fun w hw hW => ?_⟩
  have h1 := mean_sumQ h hf hD hk (abs_corr_le h hf) w hw
  have hs := weights_sum_nonneg hw
  have h2 : (D + 2 * ((k : ℝ) * D)) / (η / 2) ≤ w.sum := by linarith
  rw [div_le_iff₀ (by linarith)] at h2
  refine h1.trans ?_
  nlinarith

/-! ### the law of large numbers -/

/-- **Law of large numbers**: for a function of mean 0, the probability that the average over the points with weight 1 is
not within `δ` of 0 is at most `ε`, if there are enough of them. -/
theorem path_lln (h : Revers π K) (hi : Irred π K) (hf : Bdd f) (hπ : π ≠ 0) (hmean : ∫ x, f x ∂π = 0) (μ : Measure X)
    [IsProbabilityMeasure μ] (hμ : μ ≪ π) {ε δ : ℝ} (hε : 0 < ε) (hδ : 0 < δ) : ∃ W : ℝ, 0 < W ∧ ∀ w : List ℝ,
      (∀ a ∈ w, a = 0 ∨ a = 1) → W ≤ w.sum → ∫⁻ x, pathE K f (far (δ * w.sum)) w x 0 ∂μ ≤ ENNReal.ofReal ε := by
  obtain ⟨η, hη, hac⟩ := ac_small hμ hε
  obtain ⟨W, hW, hv⟩ := mean_sumQ_small h hi hf hπ hmean (η := η * δ ^ 2) (by positivity)
  refine ⟨W, hW, fun w hw hs => ?_⟩
  have hs0 : 0 < w.sum := hW.trans_le hs
  have hc : 0 < δ * w.sum := mul_pos hδ hs0
  refine hac _ (pathE_at h hf.1 (far_meas _) w 0) (fun x => (pathE_mono (far_le _) w x 0).trans (pathE_one w x 0).le) ?_
  -- Chebyshev
  have h1 : ∀ s, far (δ * w.sum) s ≤ ENNReal.ofReal (((δ * w.sum) ^ 2)⁻¹) * ENNReal.ofReal (s ^ 2) := by
    intro s
    unfold far
    by_cases hsc : δ * w.sum < |s|
    · rw [Set.indicator_of_mem (show s ∈ {s : ℝ | δ * w.sum < |s|} from hsc), ← ENNReal.ofReal_mul (by positivity)]
      change (1 : ENNReal) ≤ _
      rw [← ENNReal.ofReal_one]
      refine ENNReal.ofReal_le_ofReal ?_
      rw [inv_mul_eq_div, le_div_iff₀ (by positivity), one_mul, ← sq_abs s]
      exact pow_le_pow_left₀ hc.le hsc.le 2
    · rw [Set.indicator_of_notMem (show s ∉ {s : ℝ | δ * w.sum < |s|} from hsc)]
      exact zero_le
  have hsq : Measurable fun s : ℝ => ENNReal.ofReal (s ^ 2) := by fun_prop
  have hQ := sumQ_bdd h hf w
  have h2 : ∀ x, pathE K f (far (δ * w.sum)) w x 0 ≤ ENNReal.ofReal (((δ * w.sum) ^ 2)⁻¹ * sumQ K f w x) := by
    intro x
    refine (pathE_mono h1 w x 0).trans ?_
    rw [pathE_smul h hf.1 hsq, (pathE_sq h hf w x 0).1, ← ENNReal.ofReal_mul (by positivity)]
    refine ENNReal.ofReal_le_ofReal (le_of_eq ?_)
    ring
  have hQ0 : ∀ x, 0 ≤ sumQ K f w x := fun x => by
    have := (pathE_sq h hf w x 0).2
    linarith
  refine (lintegral_mono h2).trans ?_
  rw [← ofReal_integral_eq_lintegral_ofReal ((hQ.smul _).integrable π) (ae_of_all _ fun x => mul_nonneg (by positivity) (hQ0 x))]
  refine ENNReal.ofReal_le_ofReal ?_
  rw [integral_const_mul, inv_mul_eq_div, div_le_iff₀ (by positivity)]
  refine (hv w hw hs).trans (le_of_eq ?_)
  ring

end BB.Lemmas.Ker
