import Verif.Lemmas.Ergodic

/-!
# Reversible random maps: averages along the path

The law of large numbers: the average of a bounded function over some of the points of a path is close to its mean, with a
probability that approaches 1 with the number of points.
-/

set_option linter.unusedSectionVars false

namespace BB.Lemmas

open MeasureTheory Filter Topology

variable {X Ω : Type} [MeasurableSpace X] [MeasurableSpace Ω]

/-- The mean of `G (s + Σ aᵢ f (xᵢ))`, where `x₁, x₂, …` are the points visited from `x` on and `aᵢ` the weights in the list. -/
noncomputable def pathE (ρ : Measure Ω) (F : X → Ω → X) (f : X → ℝ) (G : ℝ → ENNReal) : List ℝ → X → ℝ → ENNReal
  | [], _, s => G s
  | a :: w, x, s => ∫⁻ ω, pathE ρ F f G w (F x ω) (s + a * f (F x ω)) ∂ρ

/-- The mean of the sum. -/
noncomputable def sumM (ρ : Measure Ω) (F : X → Ω → X) (f : X → ℝ) : List ℝ → X → ℝ
  | [] => fun _ => 0
  | a :: w => avg ρ F fun y => a * f y + sumM ρ F f w y

/-- The mean of the square of the sum. -/
noncomputable def sumQ (ρ : Measure Ω) (F : X → Ω → X) (f : X → ℝ) : List ℝ → X → ℝ
  | [] => fun _ => 0
  | a :: w => avg ρ F fun y => (a * f y) ^ 2 + 2 * (a * f y * sumM ρ F f w y) + sumQ ρ F f w y

variable {π : Measure X} [IsFiniteMeasure π] {ρ : Measure Ω} [IsProbabilityMeasure ρ] {F : X → Ω → X} {f : X → ℝ}

theorem Bdd.add {f g : X → ℝ} (hf : Bdd f) (hg : Bdd g) : Bdd fun x => f x + g x := by
  obtain ⟨C, hC⟩ := hf.2
  obtain ⟨D, hD⟩ := hg.2
  exact ⟨hf.1.add hg.1, C + D, fun x => (abs_add_le _ _).trans (add_le_add (hC x) (hD x))⟩

theorem Bdd.smul {f : X → ℝ} (hf : Bdd f) (a : ℝ) : Bdd fun x => a * f x := (Bdd.const a).mul hf

theorem sumM_bdd (h : Revers π ρ F) (hf : Bdd f) : ∀ w, Bdd (sumM ρ F f w)
  | [] => Bdd.const 0
  | a :: w => Bdd.avg ((hf.smul a).add (sumM_bdd h hf w)) h

theorem sumQ_bdd (h : Revers π ρ F) (hf : Bdd f) : ∀ w, Bdd (sumQ ρ F f w)
  | [] => Bdd.const 0
  | a :: w => Bdd.avg (((hf.smul a).pow.add ((((hf.smul a).mul (sumM_bdd h hf w))).smul 2)).add (sumQ_bdd h hf w)) h

theorem pathE_meas (h : Revers π ρ F) (hf : Measurable f) {G : ℝ → ENNReal} (hG : Measurable G) :
    ∀ w, Measurable fun z : X × ℝ => pathE ρ F f G w z.1 z.2
  | [] => hG.comp measurable_snd
  | a :: w => by
    have ih := pathE_meas h hf hG w
    have h0 : Measurable fun z : (X × ℝ) × Ω => F z.1.1 z.2 := h.meas.comp ((measurable_fst.comp measurable_fst).prodMk measurable_snd)
    have h1 : Measurable fun z : (X × ℝ) × Ω => (F z.1.1 z.2, z.1.2 + a * f (F z.1.1 z.2)) :=
      h0.prodMk ((measurable_snd.comp measurable_fst).add ((hf.comp h0).const_mul a))
    exact Measurable.lintegral_prod_right' (ih.comp h1)

theorem pathE_at (h : Revers π ρ F) (hf : Measurable f) {G : ℝ → ENNReal} (hG : Measurable G) (w : List ℝ) (s : ℝ) :
    Measurable fun x => pathE ρ F f G w x s := (pathE_meas h hf hG w).comp (measurable_id.prodMk measurable_const)

theorem pathE_mono {G H : ℝ → ENNReal} (hGH : ∀ s, G s ≤ H s) : ∀ w x s, pathE ρ F f G w x s ≤ pathE ρ F f H w x s
  | [], _, s => hGH s
  | a :: w, x, s => lintegral_mono fun ω => pathE_mono hGH w _ _

theorem pathE_one : ∀ w x s, pathE ρ F f (fun _ => 1) w x s = 1
  | [], _, s => rfl
  | a :: w, x, s => by
    change ∫⁻ ω, pathE ρ F f (fun _ => 1) w _ _ ∂ρ = 1
    simp only [pathE_one w, lintegral_one, measure_univ]

theorem pathE_smul (h : Revers π ρ F) (hf : Measurable f) {G : ℝ → ENNReal} (hG : Measurable G) (c : ENNReal) :
    ∀ w x s, pathE ρ F f (fun s => c * G s) w x s = c * pathE ρ F f G w x s
  | [], _, s => rfl
  | a :: w, x, s => by
    change ∫⁻ ω, pathE ρ F f (fun s => c * G s) w _ _ ∂ρ = c * ∫⁻ ω, pathE ρ F f G w _ _ ∂ρ
    simp only [pathE_smul h hf hG c w]
    refine lintegral_const_mul c ?_
    exact (pathE_meas h hf hG w).comp ((h.at x).prodMk (measurable_const.add ((hf.comp (h.at x)).const_mul a)))

/-- The second moment of the sum. -/
theorem pathE_sq (h : Revers π ρ F) (hf : Bdd f) : ∀ w x s,
    pathE ρ F f (fun s => ENNReal.ofReal (s ^ 2)) w x s = ENNReal.ofReal (s ^ 2 + 2 * (s * sumM ρ F f w x) + sumQ ρ F f w x) ∧
      0 ≤ s ^ 2 + 2 * (s * sumM ρ F f w x) + sumQ ρ F f w x
  | [], x, s => by
    constructor
    · change ENNReal.ofReal (s ^ 2) = ENNReal.ofReal (s ^ 2 + 2 * (s * 0) + 0)
      congr 1
      ring
    · change 0 ≤ s ^ 2 + 2 * (s * 0) + 0
      nlinarith [sq_nonneg s]
  | a :: w, x, s => by
    have hM := sumM_bdd h hf w
    have hQ := sumQ_bdd h hf w
    set g : X → ℝ := fun y => (s + a * f y) ^ 2 + 2 * ((s + a * f y) * sumM ρ F f w y) + sumQ ρ F f w y with hg
    have hb1 : Bdd fun y => s + a * f y := (Bdd.const s).add (hf.smul a)
    have hgb : Bdd g := (hb1.pow.add ((hb1.mul hM).smul 2)).add hQ
    have hgn : ∀ y, 0 ≤ g y := fun y => (pathE_sq h hf w y (s + a * f y)).2
    have e1 : pathE ρ F f (fun s => ENNReal.ofReal (s ^ 2)) (a :: w) x s = ∫⁻ ω, ENNReal.ofReal (g (F x ω)) ∂ρ :=
      lintegral_congr fun ω => (pathE_sq h hf w (F x ω) (s + a * f (F x ω))).1
    have e2 : ∫⁻ ω, ENNReal.ofReal (g (F x ω)) ∂ρ = ENNReal.ofReal (avg ρ F g x) :=
      (ofReal_integral_eq_lintegral_ofReal ((hgb.at h x).integrable ρ) (ae_of_all _ fun ω => hgn _)).symm
    have e3 : avg ρ F g x = s ^ 2 + 2 * (s * sumM ρ F f (a :: w) x) + sumQ ρ F f (a :: w) x := by
      have hA : Bdd fun y => a * f y + sumM ρ F f w y := (hf.smul a).add hM
      have hB : Bdd fun y => (a * f y) ^ 2 + 2 * (a * f y * sumM ρ F f w y) + sumQ ρ F f w y :=
        ((hf.smul a).pow.add (((hf.smul a).mul hM).smul 2)).add hQ
      have i1 : Integrable (fun _ : Ω => s ^ 2) ρ := integrable_const _
      have i2 : Integrable (fun ω => 2 * s * (a * f (F x ω) + sumM ρ F f w (F x ω))) ρ := ((hA.at h x).integrable ρ).const_mul _
      have i3 : Integrable (fun ω => (a * f (F x ω)) ^ 2 + 2 * (a * f (F x ω) * sumM ρ F f w (F x ω)) + sumQ ρ F f w (F x ω)) ρ :=
        (hB.at h x).integrable ρ
      have i12 : Integrable (fun ω => s ^ 2 + 2 * s * (a * f (F x ω) + sumM ρ F f w (F x ω))) ρ := i1.add i2
      have e4 : ∀ ω, g (F x ω) = s ^ 2 + 2 * s * (a * f (F x ω) + sumM ρ F f w (F x ω)) +
          ((a * f (F x ω)) ^ 2 + 2 * (a * f (F x ω) * sumM ρ F f w (F x ω)) + sumQ ρ F f w (F x ω)) := fun ω => by
        rw [hg]
        ring
      change ∫ ω, g (F x ω) ∂ρ = s ^ 2 + 2 * (s * ∫ ω, (a * f (F x ω) + sumM ρ F f w (F x ω)) ∂ρ) +
        ∫ ω, ((a * f (F x ω)) ^ 2 + 2 * (a * f (F x ω) * sumM ρ F f w (F x ω)) + sumQ ρ F f w (F x ω)) ∂ρ
      simp only [e4]
      rw [integral_add i12 i3, integral_add i1 i2, integral_const_mul]
      simp only [integral_const, probReal_univ, smul_eq_mul, one_mul]
      ring
    constructor
    · rw [e1, e2, e3]
    · rw [← e3]
      exact integral_nonneg fun ω => hgn _

/-! ### the correlations of a function of mean 0 die out -/

theorem abs_corr_le (h : Revers π ρ F) (hf : Bdd f) (k : ℕ) : |corr π ρ F f k| ≤ corr π ρ F f 0 := by
  have h0 : corr π ρ F f 0 = ∫ x, f x ^ 2 ∂π := corr_even h hf 0
  have h1 : ∀ n, ∫ x, avgs ρ F n f x ^ 2 ∂π ≤ corr π ρ F f 0 := fun n => by
    rw [← corr_even h hf n]
    exact corr_anti h hf (Nat.zero_le n)
  have hk := hf.avgs h k
  have i1 : Integrable (fun x => f x ^ 2 / 2) π := (hf.pow.integrable π).div_const 2
  have i2 : Integrable (fun x => avgs ρ F k f x ^ 2 / 2) π := (hk.pow.integrable π).div_const 2
  refine abs_integral_le_integral_abs.trans ?_
  have h2 : ∫ x, |f x * avgs ρ F k f x| ∂π ≤ ∫ x, (f x ^ 2 / 2 + avgs ρ F k f x ^ 2 / 2) ∂π := by
    refine integral_mono ((hf.mul hk).integrable π).abs (i1.add i2) fun x => ?_
    change |f x * avgs ρ F k f x| ≤ f x ^ 2 / 2 + avgs ρ F k f x ^ 2 / 2
    rw [abs_mul, ← sq_abs (f x), ← sq_abs (avgs ρ F k f x)]
    nlinarith [sq_nonneg (|f x| - |avgs ρ F k f x|)]
  refine h2.trans ?_
  rw [integral_add i1 i2, integral_div, integral_div, ← h0]
  linarith [h1 k]

theorem corr_tendsto (h : Revers π ρ F) (hi : Irred π ρ F) (hf : Bdd f) (hπ : π ≠ 0) (hmean : ∫ x, f x ∂π = 0) {ε : ℝ} (hε : 0 < ε) :
    ∃ N, ∀ n ≥ N, |corr π ρ F f n| ≤ ε := by
  have h1 := avgs_tendsto h hi hf hπ
  rw [hmean, zero_div, Metric.tendsto_atTop] at h1
  obtain ⟨N, hN⟩ := h1 ε hε
  have h2 : ∀ n ≥ N, ∫ x, avgs ρ F n f x ^ 2 ∂π ≤ ε := fun n hn => by
    have := hN n hn
    rw [Real.dist_eq, sub_zero, abs_of_nonneg (dist2_nonneg _ _)] at this
    unfold dist2 at this
    simp only [sub_zero] at this
    exact this.le
  refine ⟨N + N, fun n hn => ?_⟩
  obtain ⟨a, b, rfl, ha, hb⟩ : ∃ a b, n = a + b ∧ N ≤ a ∧ N ≤ b := ⟨N, n - N, by omega, le_rfl, by omega⟩
  rw [← avgs_mul h hf a b]
  have hA := hf.avgs h a
  have hB := hf.avgs h b
  have i1 : Integrable (fun x => avgs ρ F a f x ^ 2 / 2) π := (hA.pow.integrable π).div_const 2
  have i2 : Integrable (fun x => avgs ρ F b f x ^ 2 / 2) π := (hB.pow.integrable π).div_const 2
  refine abs_integral_le_integral_abs.trans ?_
  have h3 : ∫ x, |avgs ρ F a f x * avgs ρ F b f x| ∂π ≤ ∫ x, (avgs ρ F a f x ^ 2 / 2 + avgs ρ F b f x ^ 2 / 2) ∂π := by
    refine integral_mono ((hA.mul hB).integrable π).abs (i1.add i2) fun x => ?_
    change |avgs ρ F a f x * avgs ρ F b f x| ≤ avgs ρ F a f x ^ 2 / 2 + avgs ρ F b f x ^ 2 / 2
    rw [abs_mul, ← sq_abs (avgs ρ F a f x), ← sq_abs (avgs ρ F b f x)]
    nlinarith [sq_nonneg (|avgs ρ F a f x| - |avgs ρ F b f x|)]
  refine h3.trans ?_
  rw [integral_add i1 i2, integral_div, integral_div]
  linarith [h2 a ha, h2 b hb]

/-! ### the variance of the sum -/

theorem mean_cross (h : Revers π ρ F) (hf : Bdd f) {ε D : ℝ} {k : ℕ} (hD : 0 ≤ D) (hk : ∀ n ≥ k, |corr π ρ F f n| ≤ ε)
    (hall : ∀ n, |corr π ρ F f n| ≤ D) : ∀ (w : List ℝ), (∀ a ∈ w, a = 0 ∨ a = 1) → ∀ i,
    |∫ x, avgs ρ F i f x * sumM ρ F f w x ∂π| ≤ ((k - i : ℕ) : ℝ) * D + ε * w.sum
  | [], _, i => by
    change |∫ x, avgs ρ F i f x * 0 ∂π| ≤ ((k - i : ℕ) : ℝ) * D + ε * ([] : List ℝ).sum
    simp only [mul_zero, integral_zero, abs_zero, List.sum_nil]
    positivity
  | a :: w, hw, i => by
    have hε : 0 ≤ ε := (abs_nonneg _).trans (hk k le_rfl)
    have ih := mean_cross h hf hD hk hall w (fun b hb => hw b (List.mem_cons_of_mem _ hb)) (i + 1)
    have hM := sumM_bdd h hf w
    have hi := hf.avgs h i
    have hi1 := hf.avgs h (i + 1)
    have e : ∫ x, avgs ρ F i f x * sumM ρ F f (a :: w) x ∂π =
        a * corr π ρ F f (i + 1) + ∫ x, avgs ρ F (i + 1) f x * sumM ρ F f w x ∂π := by
      change ∫ x, avgs ρ F i f x * avg ρ F (fun y => a * f y + sumM ρ F f w y) x ∂π = _
      rw [avg_symm h hi ((hf.smul a).add hM)]
      change ∫ x, avgs ρ F (i + 1) f x * (a * f x + sumM ρ F f w x) ∂π = _
      have i1 : Integrable (fun x => a * (avgs ρ F (i + 1) f x * f x)) π := ((hi1.mul hf).integrable π).const_mul a
      have e1 : ∀ x, avgs ρ F (i + 1) f x * (a * f x + sumM ρ F f w x) =
          a * (avgs ρ F (i + 1) f x * f x) + avgs ρ F (i + 1) f x * sumM ρ F f w x := fun x => by ring
      simp only [e1]
      rw [integral_add i1 ((hi1.mul hM).integrable π), integral_const_mul]
      have := avgs_mul h hf (i + 1) 0
      rw [add_zero] at this
      rw [← this]
      rfl
    rw [e, List.sum_cons]
    have h1 : |a * corr π ρ F f (i + 1)| ≤ (((k - i : ℕ) : ℝ) - ((k - (i + 1) : ℕ) : ℝ)) * D + ε * a := by
      rcases hw a (List.mem_cons_self ..) with rfl | rfl
      · rw [zero_mul, abs_zero, mul_zero, add_zero]
        refine mul_nonneg (sub_nonneg.2 (Nat.cast_le.2 (by omega))) hD
      · rw [one_mul, mul_one]
        by_cases hik : k ≤ i + 1
        · have h2 : 0 ≤ (((k - i : ℕ) : ℝ) - ((k - (i + 1) : ℕ) : ℝ)) * D :=
            mul_nonneg (sub_nonneg.2 (Nat.cast_le.2 (by omega))) hD
          linarith [hk (i + 1) hik]
        · have h2 : ((k - i : ℕ) : ℝ) - ((k - (i + 1) : ℕ) : ℝ) = 1 := by
            have : k - i = (k - (i + 1)) + 1 := by omega
            rw [this]
            push_cast
            ring
          rw [h2, one_mul]
          linarith [hall (i + 1)]
    refine (abs_add_le _ _).trans ?_
    have h3 := add_le_add h1 ih
    refine h3.trans (le_of_eq ?_)
    ring

theorem weights_sum_nonneg {w : List ℝ} (hw : ∀ a ∈ w, a = 0 ∨ a = 1) : 0 ≤ w.sum :=
  List.sum_nonneg fun a ha => by rcases hw a ha with rfl | rfl <;> norm_num

theorem mean_sumQ (h : Revers π ρ F) (hf : Bdd f) {ε D : ℝ} {k : ℕ} (hD : 0 ≤ D) (hk : ∀ n ≥ k, |corr π ρ F f n| ≤ ε)
    (hall : ∀ n, |corr π ρ F f n| ≤ D) : ∀ (w : List ℝ), (∀ a ∈ w, a = 0 ∨ a = 1) →
    ∫ x, sumQ ρ F f w x ∂π ≤ w.sum * (D + 2 * ((k : ℝ) * D + ε * w.sum))
  | [], _ => by
    change ∫ x, (0 : ℝ) ∂π ≤ ([] : List ℝ).sum * _
    simp
  | a :: w, hw => by
    have hw' : ∀ b ∈ w, b = 0 ∨ b = 1 := fun b hb => hw b (List.mem_cons_of_mem _ hb)
    have hε : 0 ≤ ε := (abs_nonneg _).trans (hk k le_rfl)
    have ih := mean_sumQ h hf hD hk hall w hw'
    have hM := sumM_bdd h hf w
    have hQ := sumQ_bdd h hf w
    have hs := weights_sum_nonneg hw'
    have hc := mean_cross h hf hD hk hall w hw' 0
    have e : ∫ x, sumQ ρ F f (a :: w) x ∂π = a ^ 2 * corr π ρ F f 0 + 2 * (a * ∫ x, f x * sumM ρ F f w x ∂π) + ∫ x, sumQ ρ F f w x ∂π := by
      change ∫ x, avg ρ F (fun y => (a * f y) ^ 2 + 2 * (a * f y * sumM ρ F f w y) + sumQ ρ F f w y) x ∂π = _
      rw [avg_mean h (((hf.smul a).pow.add (((hf.smul a).mul hM).smul 2)).add hQ)]
      have i1 : Integrable (fun x => a ^ 2 * (f x * f x)) π := ((hf.mul hf).integrable π).const_mul _
      have i2 : Integrable (fun x => 2 * (a * (f x * sumM ρ F f w x))) π := (((hf.mul hM).integrable π).const_mul a).const_mul 2
      have i12 : Integrable (fun x => a ^ 2 * (f x * f x) + 2 * (a * (f x * sumM ρ F f w x))) π := i1.add i2
      have e1 : ∀ x, (a * f x) ^ 2 + 2 * (a * f x * sumM ρ F f w x) + sumQ ρ F f w x =
          a ^ 2 * (f x * f x) + 2 * (a * (f x * sumM ρ F f w x)) + sumQ ρ F f w x := fun x => by ring
      simp only [e1]
      rw [integral_add i12 (hQ.integrable π), integral_add i1 i2, integral_const_mul, integral_const_mul, integral_const_mul]
      rfl
    rw [e, List.sum_cons]
    rcases hw a (List.mem_cons_self ..) with rfl | rfl
    · simpa using ih
    · have h1 := (abs_le.1 (hall 0)).2
      have h2 := (abs_le.1 hc).2
      rw [Nat.sub_zero] at h2
      change ∫ x, f x * sumM ρ F f w x ∂π ≤ (k : ℝ) * D + ε * w.sum at h2
      have h3 : 0 ≤ ε * w.sum := mul_nonneg hε hs
      have h4 : 0 ≤ (k : ℝ) * D := by positivity
      nlinarith

/-- The variance of the average is small if there are many points. -/
theorem mean_sumQ_small (h : Revers π ρ F) (hi : Irred π ρ F) (hf : Bdd f) (hπ : π ≠ 0) (hmean : ∫ x, f x ∂π = 0) {η : ℝ} (hη : 0 < η) :
    ∃ W : ℝ, 0 < W ∧ ∀ w : List ℝ, (∀ a ∈ w, a = 0 ∨ a = 1) → W ≤ w.sum → ∫ x, sumQ ρ F f w x ∂π ≤ η * w.sum ^ 2 := by
  obtain ⟨k, hk⟩ := corr_tendsto h hi hf hπ hmean (ε := η / 4) (by linarith)
  set D := corr π ρ F f 0 with hDd
  have hD : 0 ≤ D := (abs_nonneg _).trans (abs_corr_le h hf 0)
  refine ⟨(D + 2 * ((k : ℝ) * D)) / (η / 2) + 1, by positivity, fun w hw hW => ?_⟩
  have h1 := mean_sumQ h hf hD hk (abs_corr_le h hf) w hw
  have hs := weights_sum_nonneg hw
  have h2 : (D + 2 * ((k : ℝ) * D)) / (η / 2) ≤ w.sum := by linarith
  rw [div_le_iff₀ (by linarith)] at h2
  refine h1.trans ?_
  nlinarith

/-! ### laws with a density -/

/-- If a function between 0 and 1 has a small mean with respect to `π`, it has a small mean with respect to `μ`. -/
theorem ac_small {μ : Measure X} [IsProbabilityMeasure μ] (hμ : μ ≪ π) {ε : ℝ} (hε : 0 < ε) : ∃ η : ℝ, 0 < η ∧
    ∀ p : X → ENNReal, Measurable p → (∀ x, p x ≤ 1) → ∫⁻ x, p x ∂π ≤ ENNReal.ofReal η → ∫⁻ x, p x ∂μ ≤ ENNReal.ofReal ε := by
  have hε2 : ENNReal.ofReal (ε / 2) ≠ 0 := (ENNReal.ofReal_pos.2 (by linarith)).ne'
  have hfin : ∫⁻ x, μ.rnDeriv π x ∂π ≠ ⊤ := (Measure.lintegral_rnDeriv_lt_top μ π).ne
  obtain ⟨δ, hδ, hs⟩ := exists_pos_setLIntegral_lt_of_measure_lt hfin hε2
  obtain ⟨δ', hδ'0, hδ'⟩ : ∃ δ' : ℝ, 0 < δ' ∧ ENNReal.ofReal δ' < δ := by
    obtain ⟨r, hr0, hr⟩ := ENNReal.lt_iff_exists_nnreal_btwn.1 hδ
    refine ⟨r, NNReal.coe_pos.2 (ENNReal.coe_pos.1 hr0), ?_⟩
    rw [ENNReal.ofReal_coe_nnreal]
    exact hr
  refine ⟨ε / 2 * δ', by positivity, fun p hp hp1 hm => ?_⟩
  set S := {x | ENNReal.ofReal (ε / 2) ≤ p x} with hS
  have hSm : MeasurableSet S := measurableSet_le measurable_const hp
  have h1 : π S < δ := by
    have h2 := (mul_meas_ge_le_lintegral (μ := π) hp (ENNReal.ofReal (ε / 2))).trans hm
    rw [ENNReal.ofReal_mul (by linarith)] at h2
    have h3 : π S ≤ ENNReal.ofReal δ' := (ENNReal.mul_le_mul_iff_right hε2 ENNReal.ofReal_ne_top).1 h2
    exact h3.trans_lt hδ'
  have h2 : μ S < ENNReal.ofReal (ε / 2) := by
    have h3 := hs S h1
    rw [Measure.setLIntegral_rnDeriv hμ] at h3
    exact h3
  have h3 : ∫⁻ x, p x ∂μ ≤ ∫⁻ x, (S.indicator 1 x + ENNReal.ofReal (ε / 2)) ∂μ := by
    refine lintegral_mono fun x => ?_
    by_cases hx : x ∈ S
    · rw [Set.indicator_of_mem hx]
      exact (hp1 x).trans le_self_add
    · rw [Set.indicator_of_notMem hx, zero_add]
      exact (not_le.1 hx).le
  refine h3.trans ?_
  rw [lintegral_add_right _ measurable_const, lintegral_indicator_one hSm, lintegral_const, measure_univ, mul_one]
  refine (add_le_add_left h2.le _).trans ?_
  rw [← ENNReal.ofReal_add (by linarith) (by linarith)]
  exact ENNReal.ofReal_le_ofReal (by linarith)

/-! ### the law of large numbers -/

/-- Whether the sum is more than `c` away from 0. -/
noncomputable def far (c : ℝ) (s : ℝ) : ENNReal := {s : ℝ | c < |s|}.indicator 1 s

theorem far_meas (c : ℝ) : Measurable (far c) :=
  measurable_one.indicator (measurableSet_lt measurable_const (by fun_prop))

theorem far_le (c : ℝ) (s : ℝ) : far c s ≤ 1 := Set.indicator_le_self' (fun _ _ => zero_le) s

/-- **Law of large numbers**: for a function of mean 0, the probability that the average over the points with weight 1 is
not within `δ` of 0 is at most `ε`, if there are enough of them. -/
theorem path_lln (h : Revers π ρ F) (hi : Irred π ρ F) (hf : Bdd f) (hπ : π ≠ 0) (hmean : ∫ x, f x ∂π = 0) (μ : Measure X)
    [IsProbabilityMeasure μ] (hμ : μ ≪ π) {ε δ : ℝ} (hε : 0 < ε) (hδ : 0 < δ) : ∃ W : ℝ, 0 < W ∧ ∀ w : List ℝ,
      (∀ a ∈ w, a = 0 ∨ a = 1) → W ≤ w.sum → ∫⁻ x, pathE ρ F f (far (δ * w.sum)) w x 0 ∂μ ≤ ENNReal.ofReal ε := by
  obtain ⟨η, hη, hac⟩ := ac_small hμ hε
  obtain ⟨W, hW, hv⟩ := mean_sumQ_small h hi hf hπ hmean (η := η * δ ^ 2) (by positivity)
  refine ⟨W, hW, fun w hw hs => ?_⟩
  have hs0 : 0 < w.sum := hW.trans_le hs
  have hc : 0 < δ * w.sum := mul_pos hδ hs0
  refine hac _ (pathE_at h hf.1 (far_meas _) w 0) (fun x => (pathE_mono (far_le _) w x 0).trans (pathE_one w x 0).le) ?_
  -- Chebyshev
  have h1 : ∀ s, far (δ * w.sum) s ≤ ENNReal.ofReal (((δ * w.sum) ^ 2)⁻¹) * ENNReal.ofReal (s ^ 2) := by
    intro s
    unfold far
    by_cases hsc : δ * w.sum < |s|
    · rw [Set.indicator_of_mem (show s ∈ {s : ℝ | δ * w.sum < |s|} from hsc), ← ENNReal.ofReal_mul (by positivity)]
      change (1 : ENNReal) ≤ _
      rw [← ENNReal.ofReal_one]
      refine ENNReal.ofReal_le_ofReal ?_
      rw [inv_mul_eq_div, le_div_iff₀ (by positivity), one_mul, ← sq_abs s]
      exact pow_le_pow_left₀ hc.le hsc.le 2
    · rw [Set.indicator_of_notMem (show s ∉ {s : ℝ | δ * w.sum < |s|} from hsc)]
      exact zero_le
  have hsq : Measurable fun s : ℝ => ENNReal.ofReal (s ^ 2) := by fun_prop
  have hQ := sumQ_bdd h hf w
  have h2 : ∀ x, pathE ρ F f (far (δ * w.sum)) w x 0 ≤ ENNReal.ofReal (((δ * w.sum) ^ 2)⁻¹ * sumQ ρ F f w x) := by
    intro x
    refine (pathE_mono h1 w x 0).trans ?_
    rw [pathE_smul h hf.1 hsq, (pathE_sq h hf w x 0).1, ← ENNReal.ofReal_mul (by positivity)]
    refine ENNReal.ofReal_le_ofReal (le_of_eq ?_)
    ring
  have hQ0 : ∀ x, 0 ≤ sumQ ρ F f w x := fun x => by
    have := (pathE_sq h hf w x 0).2
    linarith
  refine (lintegral_mono h2).trans ?_
  rw [← ofReal_integral_eq_lintegral_ofReal ((hQ.smul _).integrable π) (ae_of_all _ fun x => mul_nonneg (by positivity) (hQ0 x))]
  refine ENNReal.ofReal_le_ofReal ?_
  rw [integral_const_mul, inv_mul_eq_div, div_le_iff₀ (by positivity)]
  refine (hv w hw hs).trans (le_of_eq ?_)
  ring

end BB.Lemmas
