import Verif.Spec.Truncated
import Mathlib.MeasureTheory.Integral.IntervalIntegral.FundThmCalculus
import Mathlib.Analysis.SpecialFunctions.Integrals.Basic
import Mathlib.Probability.Distributions.Gaussian.Real
import Mathlib.Probability.ConditionalProbability

/-!
# When the densities of redrawn Gaussian proposals are symmetric
-/

namespace BB.Lemmas

open BB.Spec MeasureTheory

theorem bell_continuous (σ x : ℝ) : Continuous (bell σ x) := by
  unfold bell
  fun_prop

theorem bell_pos (σ x y : ℝ) : 0 < bell σ x y := Real.exp_pos _

theorem bell_symm (σ x y : ℝ) : bell σ x y = bell σ y x := by
  unfold bell
  rw [show (y - x) ^ 2 = (x - y) ^ 2 by ring]

/-- The probability of not having to redraw, up to a factor. -/
noncomputable def mass (σ a b x : ℝ) : ℝ := ∫ z in a..b, bell σ x z

theorem mass_pos {σ a b : ℝ} (h : a < b) (x : ℝ) : 0 < mass σ a b x :=
  intervalIntegral.intervalIntegral_pos_of_pos ((bell_continuous σ x).intervalIntegrable _ _) (bell_pos σ x) h

theorem ratio_eq {σ a b : ℝ} (h : a < b) (x y : ℝ) :
    proposalRatio σ a b x y = Real.log (mass σ a b x) - Real.log (mass σ a b y) := by
  change Real.log (bell σ y x / mass σ a b y) - Real.log (bell σ x y / mass σ a b x) = _
  rw [Real.log_div (bell_pos _ _ _).ne' (mass_pos h y).ne', Real.log_div (bell_pos _ _ _).ne' (mass_pos h x).ne',
    bell_symm σ y x]
  ring

theorem mass_shift (σ a b x : ℝ) : mass σ a b x = ∫ t in (a - x)..(b - x), bell σ 0 t := by
  unfold mass
  have : (fun z => bell σ x z) = fun z => bell σ 0 (z - x) := by
    funext z
    simp [bell]
  rw [this, intervalIntegral.integral_comp_sub_right (fun t => bell σ 0 t)]

theorem mass_reflect (σ a b x : ℝ) : mass σ a b (a + b - x) = mass σ a b x := by
  rw [mass_shift, mass_shift]
  have : (fun z => bell σ 0 z) = fun z => bell σ 0 (-z) := by
    funext z
    simp [bell]
  rw [this, intervalIntegral.integral_comp_neg (fun t => bell σ 0 t)]
  congr 1 <;> ring

/-- On the right half of the interval the mass decreases. -/
theorem mass_lt {σ a b : ℝ} (hσ : 0 < σ) (h : a < b) {x y : ℝ} (hx : a + b ≤ 2 * x) (hxy : x < y) :
    mass σ a b y < mass σ a b x := by
  have hi : ∀ c d, IntervalIntegrable (bell σ 0) volume c d := fun c d => (bell_continuous σ 0).intervalIntegrable _ _
  rw [mass_shift, mass_shift]
  -- both contain the integral over the intersection-like part
  have e1 : ∫ t in (a - y)..(b - y), bell σ 0 t =
      (∫ t in (a - y)..(a - x), bell σ 0 t) + ∫ t in (a - x)..(b - y), bell σ 0 t :=
    (intervalIntegral.integral_add_adjacent_intervals (hi _ _) (hi _ _)).symm
  have e2 : ∫ t in (a - x)..(b - x), bell σ 0 t =
      (∫ t in (a - x)..(b - y), bell σ 0 t) + ∫ t in (b - y)..(b - x), bell σ 0 t :=
    (intervalIntegral.integral_add_adjacent_intervals (hi _ _) (hi _ _)).symm
  have e3 : ∫ t in (a - y)..(a - x), bell σ 0 t < ∫ t in (b - y)..(b - x), bell σ 0 t := by
    have s1 : ∫ t in (a - y)..(a - x), bell σ 0 t = ∫ t in (0:ℝ)..(y - x), bell σ 0 (t + (a - y)) := by
      rw [intervalIntegral.integral_comp_add_right (fun t => bell σ 0 t)]
      congr 1 <;> ring
    have s2 : ∫ t in (b - y)..(b - x), bell σ 0 t = ∫ t in (0:ℝ)..(y - x), bell σ 0 (t + (b - y)) := by
      rw [intervalIntegral.integral_comp_add_right (fun t => bell σ 0 t)]
      congr 1 <;> ring
    rw [s1, s2]
    have hc : ∀ c, Continuous fun t => bell σ 0 (t + c) := fun c => (bell_continuous σ 0).comp (by fun_prop)
    have hyx : 0 < y - x := by linarith
    have hkey : ∀ t, t < y - x → bell σ 0 (t + (a - y)) < bell σ 0 (t + (b - y)) := by
      intro t ht
      unfold bell
      apply Real.exp_lt_exp.2
      apply neg_lt_neg
      apply div_lt_div_of_pos_right _ (by positivity)
      nlinarith
    refine intervalIntegral.integral_lt_integral_of_continuousOn_of_le_of_exists_lt hyx (hc _).continuousOn (hc _).continuousOn ?_ ?_
    · intro t ht
      rcases ht.2.lt_or_eq with h' | h'
      · exact (hkey t h').le
      · subst h'
        unfold bell
        apply Real.exp_le_exp.2
        apply neg_le_neg
        apply div_le_div_of_nonneg_right _ (by positivity)
        nlinarith
    · exact ⟨0, ⟨le_refl _, hyx.le⟩, hkey 0 hyx⟩
  rw [e1, e2]
  linarith

/-- The masses of two points are equal only if the points are equal or symmetric to the centre. -/
theorem mass_eq_iff {σ a b : ℝ} (hσ : 0 < σ) (h : a < b) (x y : ℝ) :
    mass σ a b x = mass σ a b y ↔ y = x ∨ x + y = a + b := by
  constructor
  · intro he
    by_contra hne
    push Not at hne
    obtain ⟨h1, h2⟩ := hne
    -- reflect both to the right half
    have key : ∀ x' y', (x' = x ∨ x' = a + b - x) → (y' = y ∨ y' = a + b - y) → a + b ≤ 2 * x' → a + b ≤ 2 * y' →
        False := by
      intro x' y' hx' hy' hx hy
      have ex : mass σ a b x' = mass σ a b x := by
        rcases hx' with rfl | rfl
        · rfl
        · exact mass_reflect σ a b x
      have ey : mass σ a b y' = mass σ a b y := by
        rcases hy' with rfl | rfl
        · rfl
        · exact mass_reflect σ a b y
      have hne : x' ≠ y' := by
        rcases hx' with rfl | rfl <;> rcases hy' with rfl | rfl <;> intro hc
        · exact h1 hc.symm
        · exact h2 (by linarith)
        · exact h2 (by linarith)
        · exact h1 (by linarith)
      rcases lt_or_gt_of_ne hne with hl | hl
      · have := mass_lt hσ h hx hl
        rw [ex, ey, he] at this
        exact lt_irrefl _ this
      · have := mass_lt hσ h hy hl
        rw [ex, ey, he] at this
        exact lt_irrefl _ this
    rcases le_total (a + b) (2 * x) with hx | hx <;> rcases le_total (a + b) (2 * y) with hy | hy
    · exact key x y (.inl rfl) (.inl rfl) hx hy
    · exact key x (a + b - y) (.inl rfl) (.inr rfl) hx (by linarith)
    · exact key (a + b - x) y (.inr rfl) (.inl rfl) (by linarith) hy
    · exact key (a + b - x) (a + b - y) (.inr rfl) (.inr rfl) (by linarith) (by linarith)
  · rintro (rfl | h')
    · rfl
    · rw [show y = a + b - x by linarith, mass_reflect]

/-- The log ratio vanishes only for points that are equal or symmetric to the centre. -/
theorem ratio_zero_iff {σ a b : ℝ} (hσ : 0 < σ) (h : a < b) (x y : ℝ) :
    proposalRatio σ a b x y = 0 ↔ y = x ∨ x + y = a + b := by
  rw [ratio_eq h, sub_eq_zero, ← mass_eq_iff hσ h]
  constructor
  · intro he
    exact Real.log_injOn_pos (mass_pos h x) (mass_pos h y) he
  · intro he
    rw [he]

open ProbabilityTheory in
/-- `redrawn` is the density of the conditional law. -/
theorem cond_gaussian {σ a b : ℝ} (hσ : 0 < σ) (h : a < b) (x : ℝ) {A : Set ℝ} (hA : MeasurableSet A) :
    (gaussianReal x (σ ^ 2).toNNReal)[A | Set.Icc a b] =
      ∫⁻ y in Set.Icc a b ∩ A, ENNReal.ofReal (redrawn σ a b x y) := by
  have hv : (σ ^ 2).toNNReal ≠ 0 := by simpa using hσ.ne'
  set c : ℝ := (√(2 * Real.pi * σ ^ 2))⁻¹ with hc
  have hcpos : 0 < c := by rw [hc]; positivity
  have hpdf : ∀ y, gaussianPDFReal x (σ ^ 2).toNNReal y = c * bell σ x y := by
    intro y
    unfold gaussianPDFReal bell
    rw [Real.coe_toNNReal _ (sq_nonneg σ), neg_div]
  have hI : gaussianReal x (σ ^ 2).toNNReal (Set.Icc a b) = ENNReal.ofReal (c * mass σ a b x) := by
    rw [gaussianReal_apply_eq_integral x hv]
    congr 1
    simp only [hpdf]
    rw [MeasureTheory.integral_const_mul, mass, intervalIntegral.integral_of_le h.le, integral_Icc_eq_integral_Ioc]
  have hm := mass_pos (σ := σ) h x
  rw [cond_apply measurableSet_Icc, hI, gaussianReal_apply x hv, ← lintegral_const_mul]
  · refine lintegral_congr fun y => ?_
    change _ * ENNReal.ofReal (gaussianPDFReal x _ y) = _
    rw [hpdf, ← ENNReal.ofReal_inv_of_pos (by positivity), ← ENNReal.ofReal_mul (by positivity)]
    congr 1
    change _ = bell σ x y / mass σ a b x
    field_simp
  · exact measurable_gaussianPDF _ _

end BB.Lemmas
