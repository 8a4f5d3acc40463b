import Mathlib.MeasureTheory.Function.L2Space
import Mathlib.MeasureTheory.Integral.Prod
import Mathlib.MeasureTheory.Measure.Prod
import Mathlib.MeasureTheory.Measure.Decomposition.IntegralRNDeriv

/-!
# Reversible random maps: convergence of the means

A random map `F x ω`, where `ω` has the law `ρ`, is applied again and again to a point of `X`.  If it is reversible with
respect to the finite measure `π`, and if functions that do not notice the map are constant, then the means of a bounded
function after `n` steps converge, in `L²`, to its mean with respect to `π`.
-/

set_option linter.unusedSectionVars false

namespace BB.Lemmas

open MeasureTheory Filter Topology

variable {X Ω : Type} [MeasurableSpace X] [MeasurableSpace Ω]

/-- Measurable and bounded. -/
def Bdd (f : X → ℝ) : Prop := Measurable f ∧ ∃ C, ∀ x, |f x| ≤ C

/-- The mean of `f` after a step. -/
noncomputable def avg (ρ : Measure Ω) (F : X → Ω → X) (f : X → ℝ) (x : X) : ℝ := ∫ ω, f (F x ω) ∂ρ

/-- The mean of `f` after `n` steps. -/
noncomputable def avgs (ρ : Measure Ω) (F : X → Ω → X) : ℕ → (X → ℝ) → X → ℝ
  | 0, f => f
  | n + 1, f => avg ρ F (avgs ρ F n f)

/-- The random map is measurable and reversible with respect to `π`. -/
structure Revers (π : Measure X) (ρ : Measure Ω) (F : X → Ω → X) : Prop where
  meas : Measurable fun z : X × Ω => F z.1 z.2
  symm : ∀ H G : X → ENNReal, Measurable H → Measurable G →
    ∫⁻ x, H x * ∫⁻ ω, G (F x ω) ∂ρ ∂π = ∫⁻ x, G x * ∫⁻ ω, H (F x ω) ∂ρ ∂π

/-! ### bounded functions -/

theorem Bdd.const (c : ℝ) : Bdd fun _ : X => c := ⟨measurable_const, |c|, fun _ => le_rfl⟩

theorem Bdd.sub {f g : X → ℝ} (hf : Bdd f) (hg : Bdd g) : Bdd fun x => f x - g x := by
  obtain ⟨C, hC⟩ := hf.2
  obtain ⟨D, hD⟩ := hg.2
  exact ⟨hf.1.sub hg.1, C + D, fun x => (abs_sub _ _).trans (add_le_add (hC x) (hD x))⟩

theorem Bdd.mul {f g : X → ℝ} (hf : Bdd f) (hg : Bdd g) : Bdd fun x => f x * g x := by
  obtain ⟨C, hC⟩ := hf.2
  obtain ⟨D, hD⟩ := hg.2
  refine ⟨hf.1.mul hg.1, C * D, fun x => ?_⟩
  rw [abs_mul]
  exact mul_le_mul (hC x) (hD x) (abs_nonneg _) ((abs_nonneg _).trans (hC x))

theorem Bdd.pow {f : X → ℝ} (hf : Bdd f) : Bdd fun x => f x ^ 2 := by
  simp only [pow_two]
  exact hf.mul hf

theorem Bdd.integrable {f : X → ℝ} (hf : Bdd f) (π : Measure X) [IsFiniteMeasure π] : Integrable f π := by
  obtain ⟨C, hC⟩ := hf.2
  exact Integrable.of_bound hf.1.aestronglyMeasurable C (ae_of_all _ fun x => by rw [Real.norm_eq_abs]; exact hC x)

variable {π : Measure X} [IsFiniteMeasure π] {ρ : Measure Ω} [IsProbabilityMeasure ρ] {F : X → Ω → X}

theorem Revers.at (h : Revers π ρ F) (x : X) : Measurable (F x) := h.meas.comp measurable_prodMk_left

theorem Bdd.along {f : X → ℝ} (hf : Bdd f) (h : Revers π ρ F) : Bdd fun z : X × Ω => f (F z.1 z.2) := by
  obtain ⟨C, hC⟩ := hf.2
  exact ⟨hf.1.comp h.meas, C, fun z => hC _⟩

theorem Bdd.at {f : X → ℝ} (hf : Bdd f) (h : Revers π ρ F) (x : X) : Bdd fun ω => f (F x ω) := by
  obtain ⟨C, hC⟩ := hf.2
  exact ⟨hf.1.comp (h.at x), C, fun z => hC _⟩

theorem Bdd.fst {f : X → ℝ} (hf : Bdd f) : Bdd fun z : X × Ω => f z.1 := by
  obtain ⟨C, hC⟩ := hf.2
  exact ⟨hf.1.comp measurable_fst, C, fun z => hC _⟩

theorem avg_le {f : X → ℝ} (h : Revers π ρ F) (hf : Measurable f) {C : ℝ} (hC : ∀ x, |f x| ≤ C) (x : X) : |avg ρ F f x| ≤ C := by
  have hb : Bdd fun ω => f (F x ω) := Bdd.at ⟨hf, C, hC⟩ h x
  unfold avg
  refine abs_integral_le_integral_abs.trans ?_
  have h1 := integral_mono (μ := ρ) (hb.integrable ρ).abs (integrable_const C) fun ω => hC (F x ω)
  simpa using h1

theorem avg_meas {f : X → ℝ} (h : Revers π ρ F) (hf : Measurable f) : Measurable (avg ρ F f) := by
  have h1 : StronglyMeasurable fun z : X × Ω => f (F z.1 z.2) := (hf.comp h.meas).stronglyMeasurable
  exact h1.integral_prod_right.measurable

theorem Bdd.avg {f : X → ℝ} (hf : Bdd f) (h : Revers π ρ F) : Bdd (avg ρ F f) := by
  obtain ⟨C, hC⟩ := hf.2
  exact ⟨avg_meas h hf.1, C, avg_le h hf.1 hC⟩

theorem avgs_meas {f : X → ℝ} (h : Revers π ρ F) (hf : Measurable f) : ∀ n, Measurable (avgs ρ F n f)
  | 0 => hf
  | n + 1 => avg_meas h (avgs_meas h hf n)

theorem avgs_le {f : X → ℝ} (h : Revers π ρ F) (hf : Measurable f) {C : ℝ} (hC : ∀ x, |f x| ≤ C) : ∀ n x, |avgs ρ F n f x| ≤ C
  | 0, x => hC x
  | n + 1, x => avg_le h (avgs_meas h hf n) (avgs_le h hf hC n) x

theorem Bdd.avgs {f : X → ℝ} (hf : Bdd f) (h : Revers π ρ F) (n : ℕ) : Bdd (avgs ρ F n f) := by
  obtain ⟨C, hC⟩ := hf.2
  exact ⟨avgs_meas h hf.1 n, C, avgs_le h hf.1 hC n⟩

theorem avg_sub {f g : X → ℝ} (h : Revers π ρ F) (hf : Bdd f) (hg : Bdd g) (x : X) :
    avg ρ F (fun x => f x - g x) x = avg ρ F f x - avg ρ F g x :=
  integral_sub ((hf.at h x).integrable ρ) ((hg.at h x).integrable ρ)

theorem avg_const (c : ℝ) (x : X) : avg ρ F (fun _ => c) x = c := by
  unfold avg
  simp

theorem avgs_add (n m : ℕ) (f : X → ℝ) : avgs ρ F (n + m) f = avgs ρ F n (avgs ρ F m f) := by
  induction n with
  | zero => rw [Nat.zero_add]; rfl
  | succ n ih => rw [Nat.succ_add]; change avg ρ F _ = avg ρ F _; rw [ih]

/-! ### symmetry -/

/-- The law of a point and its image, when the point has the law `π`, does not change when they are swapped. -/
theorem Revers.swap (h : Revers π ρ F) : ((π.prod ρ).map fun z => (F z.1 z.2, z.1)) = (π.prod ρ).map fun z => (z.1, F z.1 z.2) := by
  have m1 : Measurable fun z : X × Ω => (F z.1 z.2, z.1) := h.meas.prodMk measurable_fst
  have m2 : Measurable fun z : X × Ω => (z.1, F z.1 z.2) := measurable_fst.prodMk h.meas
  have key : ∀ {s t : Set X}, MeasurableSet s → MeasurableSet t → (π.prod ρ) {z | z.1 ∈ s ∧ F z.1 z.2 ∈ t} =
      ∫⁻ x, s.indicator 1 x * ∫⁻ ω, t.indicator 1 (F x ω) ∂ρ ∂π := by
    intro s t hs ht
    have hm : MeasurableSet {z : X × Ω | z.1 ∈ s ∧ F z.1 z.2 ∈ t} := (measurable_fst hs).inter (h.meas ht)
    rw [Measure.prod_apply hm]
    refine lintegral_congr fun x => ?_
    by_cases hx : x ∈ s
    · rw [Set.indicator_of_mem hx, Pi.one_apply, one_mul, ← lintegral_indicator_one (measurable_prodMk_left hm)]
      refine lintegral_congr fun ω => ?_
      by_cases hy : F x ω ∈ t
      · rw [Set.indicator_of_mem hy, Set.indicator_of_mem (show ω ∈ Prod.mk x ⁻¹' {z : X × Ω | z.1 ∈ s ∧ F z.1 z.2 ∈ t} from ⟨hx, hy⟩)]; rfl
      · rw [Set.indicator_of_notMem hy, Set.indicator_of_notMem (show ω ∉ Prod.mk x ⁻¹' {z : X × Ω | z.1 ∈ s ∧ F z.1 z.2 ∈ t} from fun h => hy h.2)]
    · rw [Set.indicator_of_notMem hx, zero_mul]
      have : Prod.mk x ⁻¹' {z : X × Ω | z.1 ∈ s ∧ F z.1 z.2 ∈ t} = ∅ := by
        ext ω
        simp [hx]
      rw [this, measure_empty]
  have f1 : IsFiniteMeasure ((π.prod ρ).map fun z => (F z.1 z.2, z.1)) := by
    constructor
    rw [Measure.map_apply m1 MeasurableSet.univ]
    exact measure_lt_top _ _
  refine Measure.ext_prod (fun {s t} hs ht => ?_)
  rw [Measure.map_apply m1 (hs.prod ht), Measure.map_apply m2 (hs.prod ht)]
  have e1 : (fun z : X × Ω => (F z.1 z.2, z.1)) ⁻¹' s ×ˢ t = {z | z.1 ∈ t ∧ F z.1 z.2 ∈ s} := by
    ext z
    exact and_comm
  have e2 : (fun z : X × Ω => (z.1, F z.1 z.2)) ⁻¹' s ×ˢ t = {z | z.1 ∈ s ∧ F z.1 z.2 ∈ t} := rfl
  rw [e1, e2, key ht hs, key hs ht]
  exact h.symm _ _ (measurable_one.indicator ht) (measurable_one.indicator hs)

theorem integral_step {f g : X → ℝ} (h : Revers π ρ F) (hf : Bdd f) (hg : Bdd g) :
    ∫ x, f x * avg ρ F g x ∂π = ∫ z, f z.1 * g (F z.1 z.2) ∂(π.prod ρ) := by
  rw [integral_prod _ ((hf.fst.mul (hg.along h)).integrable _)]
  refine integral_congr_ae (ae_of_all _ fun x => ?_)
  exact (integral_const_mul _ _).symm

theorem avg_symm {f g : X → ℝ} (h : Revers π ρ F) (hf : Bdd f) (hg : Bdd g) :
    ∫ x, f x * avg ρ F g x ∂π = ∫ x, avg ρ F f x * g x ∂π := by
  have m1 : Measurable fun z : X × Ω => (F z.1 z.2, z.1) := h.meas.prodMk measurable_fst
  have m2 : Measurable fun z : X × Ω => (z.1, F z.1 z.2) := measurable_fst.prodMk h.meas
  have hm : Measurable fun z : X × X => f z.1 * g z.2 := (hf.1.comp measurable_fst).mul (hg.1.comp measurable_snd)
  have e2 := integral_map (μ := π.prod ρ) m2.aemeasurable (f := fun z : X × X => f z.1 * g z.2) hm.aestronglyMeasurable
  have e1 := integral_map (μ := π.prod ρ) m1.aemeasurable (f := fun z : X × X => f z.1 * g z.2) hm.aestronglyMeasurable
  rw [integral_step h hf hg]
  have e3 : ∫ x, avg ρ F f x * g x ∂π = ∫ z, g z.1 * f (F z.1 z.2) ∂(π.prod ρ) := by
    rw [← integral_step h hg hf]
    exact integral_congr_ae (ae_of_all _ fun x => mul_comm _ _)
  rw [e3]
  refine e2.symm.trans ((congrArg (fun ν => ∫ z, f z.1 * g z.2 ∂ν) h.swap.symm).trans (e1.trans ?_))
  exact integral_congr_ae (ae_of_all _ fun x => mul_comm _ _)

theorem avg_mean {f : X → ℝ} (h : Revers π ρ F) (hf : Bdd f) : ∫ x, avg ρ F f x ∂π = ∫ x, f x ∂π := by
  have := avg_symm h hf (Bdd.const 1)
  simp only [avg_const, mul_one] at this
  exact this.symm

theorem avgs_mean {f : X → ℝ} (h : Revers π ρ F) (hf : Bdd f) : ∀ n, ∫ x, avgs ρ F n f x ∂π = ∫ x, f x ∂π
  | 0 => rfl
  | n + 1 => (avg_mean h (hf.avgs h n)).trans (avgs_mean h hf n)

theorem avgs_symm {f g : X → ℝ} (h : Revers π ρ F) (hf : Bdd f) (hg : Bdd g) : ∀ n,
    ∫ x, f x * avgs ρ F n g x ∂π = ∫ x, avgs ρ F n f x * g x ∂π
  | 0 => rfl
  | n + 1 => by
    change ∫ x, f x * avg ρ F (avgs ρ F n g) x ∂π = _
    rw [avg_symm h hf (hg.avgs h n), avgs_symm h (hf.avg h) hg n]
    have : avgs ρ F n (avg ρ F f) = avgs ρ F (n + 1) f := (avgs_add n 1 f).symm
    rw [this]

/-! ### the variance in a step -/

/-- The mean square difference between `f` after a step and its mean. -/
theorem step_var {f : X → ℝ} (h : Revers π ρ F) (hf : Bdd f) :
    ∫ z, (f (F z.1 z.2) - avg ρ F f z.1) ^ 2 ∂(π.prod ρ) = ∫ x, f x ^ 2 ∂π - ∫ x, avg ρ F f x ^ 2 ∂π := by
  have ha : Bdd fun z : X × Ω => avg ρ F f z.1 := (hf.avg h).fst
  have hl := hf.along h
  have hb : Bdd fun z : X × Ω => (f (F z.1 z.2) - avg ρ F f z.1) ^ 2 := (hl.sub ha).pow
  rw [integral_prod _ (hb.integrable _)]
  have e : ∀ x, ∫ ω, (f (F x ω) - avg ρ F f x) ^ 2 ∂ρ = avg ρ F (fun x => f x ^ 2) x - avg ρ F f x ^ 2 := by
    intro x
    have h1 : Integrable (fun ω => f (F x ω) ^ 2) ρ := (hf.at h x).pow.integrable ρ
    have h2 : Integrable (fun ω => 2 * avg ρ F f x * f (F x ω)) ρ := ((hf.at h x).integrable ρ).const_mul _
    have h3 : Integrable (fun _ : Ω => avg ρ F f x ^ 2) ρ := integrable_const _
    have e1 : ∀ ω, (f (F x ω) - avg ρ F f x) ^ 2 = f (F x ω) ^ 2 - 2 * avg ρ F f x * f (F x ω) + avg ρ F f x ^ 2 := by
      intro ω
      ring
    simp only [e1]
    have h12 : Integrable (fun ω => f (F x ω) ^ 2 - 2 * avg ρ F f x * f (F x ω)) ρ := h1.sub h2
    rw [integral_add h12 h3, integral_sub h1 h2, integral_const_mul]
    simp only [integral_const, probReal_univ, smul_eq_mul, one_mul]
    change avg ρ F (fun x => f x ^ 2) x - 2 * avg ρ F f x * avg ρ F f x + avg ρ F f x ^ 2 = _
    ring
  simp only [e]
  rw [integral_sub ((hf.pow.avg h).integrable π) ((hf.avg h).pow.integrable π), avg_mean h hf.pow]

theorem avg_sq_le {f : X → ℝ} (h : Revers π ρ F) (hf : Bdd f) : ∫ x, avg ρ F f x ^ 2 ∂π ≤ ∫ x, f x ^ 2 ∂π := by
  have h1 := step_var h hf
  have h2 : 0 ≤ ∫ z, (f (F z.1 z.2) - avg ρ F f z.1) ^ 2 ∂(π.prod ρ) := integral_nonneg fun z => sq_nonneg _
  linarith

/-! ### distances -/

/-- The squared distance in `L²`. -/
noncomputable def dist2 (π : Measure X) (f g : X → ℝ) : ℝ := ∫ x, (f x - g x) ^ 2 ∂π

theorem dist2_nonneg (f g : X → ℝ) : 0 ≤ dist2 π f g := integral_nonneg fun _ => sq_nonneg _

theorem dist2_comm (f g : X → ℝ) : dist2 π f g = dist2 π g f := by
  unfold dist2
  refine integral_congr_ae (ae_of_all _ fun x => ?_)
  ring

theorem dist2_triangle {f g k : X → ℝ} (hf : Bdd f) (hg : Bdd g) (hk : Bdd k) :
    dist2 π f k ≤ 2 * dist2 π f g + 2 * dist2 π g k := by
  unfold dist2
  have h1 : Integrable (fun x => 2 * (f x - g x) ^ 2) π := ((hf.sub hg).pow.integrable π).const_mul _
  have h2 : Integrable (fun x => 2 * (g x - k x) ^ 2) π := ((hg.sub hk).pow.integrable π).const_mul _
  rw [← integral_const_mul, ← integral_const_mul, ← integral_add h1 h2]
  refine integral_mono ((hf.sub hk).pow.integrable π) (h1.add h2) fun x => ?_
  change (f x - k x) ^ 2 ≤ 2 * (f x - g x) ^ 2 + 2 * (g x - k x) ^ 2
  nlinarith [sq_nonneg (f x - g x - (g x - k x))]

theorem dist2_avg {f g : X → ℝ} (h : Revers π ρ F) (hf : Bdd f) (hg : Bdd g) :
    dist2 π (avg ρ F f) (avg ρ F g) ≤ dist2 π f g := by
  have := avg_sq_le h (hf.sub hg)
  unfold dist2
  simpa only [avg_sub h hf hg] using this

/-- The correlation of `f` with itself `k` steps later. -/
noncomputable def corr (π : Measure X) (ρ : Measure Ω) (F : X → Ω → X) (f : X → ℝ) (k : ℕ) : ℝ := ∫ x, f x * avgs ρ F k f x ∂π

theorem avgs_mul {f : X → ℝ} (h : Revers π ρ F) (hf : Bdd f) (n m : ℕ) :
    ∫ x, avgs ρ F n f x * avgs ρ F m f x ∂π = corr π ρ F f (n + m) := by
  unfold corr
  rw [avgs_add, avgs_symm h hf (hf.avgs h m) n]

theorem dist2_avgs {f : X → ℝ} (h : Revers π ρ F) (hf : Bdd f) (n m : ℕ) :
    dist2 π (avgs ρ F n f) (avgs ρ F m f) = corr π ρ F f (n + n) - 2 * corr π ρ F f (n + m) + corr π ρ F f (m + m) := by
  have hn := hf.avgs h n
  have hm := hf.avgs h m
  rw [← avgs_mul h hf n n, ← avgs_mul h hf n m, ← avgs_mul h hf m m]
  unfold dist2
  have i12 : Integrable (fun x => avgs ρ F n f x * avgs ρ F n f x - 2 * (avgs ρ F n f x * avgs ρ F m f x)) π :=
    ((hn.mul hn).integrable π).sub (((hn.mul hm).integrable π).const_mul 2)
  rw [← integral_const_mul, ← integral_sub ((hn.mul hn).integrable π) (((hn.mul hm).integrable π).const_mul 2),
    ← integral_add i12 ((hm.mul hm).integrable π)]
  refine integral_congr_ae (ae_of_all _ fun x => ?_)
  ring

theorem corr_even {f : X → ℝ} (h : Revers π ρ F) (hf : Bdd f) (k : ℕ) : corr π ρ F f (k + k) = ∫ x, avgs ρ F k f x ^ 2 ∂π := by
  rw [← avgs_mul h hf k k]
  refine integral_congr_ae (ae_of_all _ fun x => ?_)
  ring

theorem corr_anti {f : X → ℝ} (h : Revers π ρ F) (hf : Bdd f) : Antitone fun k => corr π ρ F f (k + k) := by
  refine antitone_nat_of_succ_le fun k => ?_
  rw [corr_even h hf, corr_even h hf]
  exact avg_sq_le h (hf.avgs h k)

theorem corr_nonneg {f : X → ℝ} (h : Revers π ρ F) (hf : Bdd f) (k : ℕ) : 0 ≤ corr π ρ F f (k + k) := by
  rw [corr_even h hf]
  exact integral_nonneg fun _ => sq_nonneg _

/-- The means after even numbers of steps approach one another. -/
theorem avgs_cauchy {f : X → ℝ} (h : Revers π ρ F) (hf : Bdd f) {ε : ℝ} (hε : 0 < ε) :
    ∃ N, ∀ j ≥ N, ∀ k ≥ N, dist2 π (avgs ρ F (j + j) f) (avgs ρ F (k + k) f) < ε := by
  have hconv := tendsto_atTop_ciInf (corr_anti h hf) ⟨0, by rintro _ ⟨k, rfl⟩; exact corr_nonneg h hf k⟩
  set s := ⨅ k, corr π ρ F f (k + k)
  rw [Metric.tendsto_atTop] at hconv
  obtain ⟨N, hN⟩ := hconv (ε / 4) (by linarith)
  refine ⟨N, fun j hj k hk => ?_⟩
  rw [dist2_avgs h hf]
  have e : j + j + (k + k) = (j + k) + (j + k) := by ring
  rw [e]
  have h1 := hN (j + j) (by omega)
  have h2 := hN (j + k) (by omega)
  have h3 := hN (k + k) (by omega)
  rw [Real.dist_eq, abs_lt] at h1 h2 h3
  linarith [h1.1, h1.2, h2.1, h2.2, h3.1, h3.2]

/-! ### the limit -/

theorem Bdd.memLp {f : X → ℝ} (hf : Bdd f) : MemLp f 2 π := by
  obtain ⟨C, hC⟩ := hf.2
  exact MemLp.of_bound hf.1.aestronglyMeasurable C (ae_of_all _ fun x => by rw [Real.norm_eq_abs]; exact hC x)

theorem norm_toLp_sub {f g : X → ℝ} (hf : MemLp f 2 π) (hg : MemLp g 2 π) : ‖hf.toLp f - hg.toLp g‖ ^ 2 = dist2 π f g := by
  rw [← MemLp.toLp_sub, ← real_inner_self_eq_norm_sq, L2.inner_def]
  unfold dist2
  refine integral_congr_ae ?_
  filter_upwards [(hf.sub hg).coeFn_toLp] with x hx
  rw [hx]
  simp only [Pi.sub_apply, real_inner_self_eq_norm_sq, Real.norm_eq_abs, sq_abs]

theorem clip_sq {a C : ℝ} (h1 : -C ≤ a) (h2 : a ≤ C) (y : ℝ) : (a - max (-C) (min C y)) ^ 2 ≤ (a - y) ^ 2 := by
  rcases le_total C y with hy | hy
  · rw [min_eq_left hy, max_eq_right (by linarith)]
    nlinarith
  · rw [min_eq_right hy]
    rcases le_total (-C) y with hy' | hy'
    · rw [max_eq_right hy']
    · rw [max_eq_left hy']
      nlinarith

/-- There is a bounded limit of the means after even numbers of steps. -/
theorem avgs_limit {f : X → ℝ} (h : Revers π ρ F) (hf : Bdd f) :
    ∃ g, Bdd g ∧ Tendsto (fun k => dist2 π (avgs ρ F (k + k) f) g) atTop (𝓝 0) := by
  obtain ⟨C, hC⟩ := hf.2
  have hu : ∀ k, Bdd (avgs ρ F (k + k) f) := fun k => hf.avgs h _
  let u : ℕ → Lp ℝ 2 π := fun k => (hu k).memLp.toLp _
  have hcau : CauchySeq u := by
    rw [Metric.cauchySeq_iff]
    intro ε hε
    obtain ⟨N, hN⟩ := avgs_cauchy h hf (ε := ε ^ 2) (by positivity)
    refine ⟨N, fun j hj k hk => ?_⟩
    have h1 := hN j hj k hk
    rw [← norm_toLp_sub (hu j).memLp (hu k).memLp] at h1
    rw [dist_eq_norm]
    exact lt_of_pow_lt_pow_left₀ 2 hε.le h1
  obtain ⟨l, hl⟩ := cauchySeq_tendsto_of_complete hcau
  obtain ⟨g0, hg0, hae⟩ := (Lp.aestronglyMeasurable l)
  have hmem : MemLp g0 2 π := (memLp_congr_ae hae).1 (Lp.memLp l)
  have hg0m : Measurable g0 := hg0.measurable
  refine ⟨fun x => max (-C) (min C (g0 x)), ⟨by fun_prop, C, fun x => ?_⟩, ?_⟩
  · have hC0 : 0 ≤ C := (abs_nonneg _).trans (hC x)
    rw [abs_le]
    exact ⟨le_max_left _ _, max_le (by linarith) (min_le_left _ _)⟩
  · have h1 : Tendsto (fun k => dist2 π (avgs ρ F (k + k) f) g0) atTop (𝓝 0) := by
      have e : ∀ k, dist2 π (avgs ρ F (k + k) f) g0 = ‖u k - l‖ ^ 2 := by
        intro k
        rw [← norm_toLp_sub (hu k).memLp hmem]
        congr 2
        congr 1
        refine Lp.ext ?_
        exact hmem.coeFn_toLp.trans hae.symm
      simp only [e]
      have h2 : Tendsto (fun k => ‖u k - l‖) atTop (𝓝 0) := tendsto_iff_norm_sub_tendsto_zero.1 hl
      have h3 := h2.pow 2
      simpa using h3
    refine squeeze_zero (fun k => dist2_nonneg _ _) (fun k => ?_) h1
    unfold dist2
    refine integral_mono_of_nonneg (ae_of_all _ fun x => sq_nonneg _) ?_ (ae_of_all _ fun x => ?_)
    · exact ((hu k).memLp.sub hmem).integrable_sq
    · have hb := abs_le.1 (avgs_le h hf.1 hC (k + k) x)
      exact clip_sq hb.1 hb.2 _

theorem dist2_ae {f g : X → ℝ} (hf : Bdd f) (hg : Bdd g) (h0 : dist2 π f g = 0) : ∀ᵐ x ∂π, f x = g x := by
  have h1 := (integral_eq_zero_iff_of_nonneg (μ := π) (fun x => sq_nonneg (f x - g x)) ((hf.sub hg).pow.integrable π)).1 h0
  filter_upwards [h1] with x hx
  have : f x - g x = 0 := by simpa using hx
  linarith

/-- A random map is *irreducible* if a function that takes, after a step, a value determined by the point before, is
constant. -/
def Irred (π : Measure X) (ρ : Measure Ω) (F : X → Ω → X) : Prop :=
  ∀ g k : X → ℝ, Measurable g → Measurable k → (∀ᵐ x ∂π, ∀ᵐ ω ∂ρ, g (F x ω) = k x) → ∃ c, ∀ᵐ x ∂π, g x = c

/-- The means after even numbers of steps converge to a constant. -/
theorem avgs_even {f : X → ℝ} (h : Revers π ρ F) (hi : Irred π ρ F) (hf : Bdd f) :
    ∃ c : ℝ, Tendsto (fun k => dist2 π (avgs ρ F (k + k) f) fun _ => c) atTop (𝓝 0) := by
  obtain ⟨g, hg, hlim⟩ := avgs_limit h hf
  have hu : ∀ k, Bdd (avgs ρ F (k + k) f) := fun k => hf.avgs h _
  have hg2 : Bdd (avg ρ F (avg ρ F g)) := (hg.avg h).avg h
  -- two steps do not change the limit
  have htwo : dist2 π (avg ρ F (avg ρ F g)) g = 0 := by
    refine le_antisymm (le_of_forall_pos_le_add fun ε hε => ?_) (dist2_nonneg _ _)
    rw [Metric.tendsto_atTop] at hlim
    obtain ⟨N, hN⟩ := hlim (ε / 4) (by linarith)
    have h1 := hN N le_rfl
    have h2 := hN (N + 1) (by omega)
    rw [Real.dist_eq, sub_zero, abs_of_nonneg (dist2_nonneg _ _)] at h1 h2
    have e : avgs ρ F (N + 1 + (N + 1)) f = avg ρ F (avg ρ F (avgs ρ F (N + N) f)) := by
      rw [show N + 1 + (N + 1) = N + N + 1 + 1 by ring]
      rfl
    have h3 : dist2 π (avg ρ F (avg ρ F g)) (avgs ρ F (N + 1 + (N + 1)) f) ≤ dist2 π (avgs ρ F (N + N) f) g := by
      rw [e, dist2_comm (avgs ρ F (N + N) f) g]
      exact (dist2_avg h (hg.avg h) ((hu N).avg h)).trans (dist2_avg h hg (hu N))
    have h4 := dist2_triangle (π := π) hg2 (hu (N + 1)) hg
    linarith
  have hae := dist2_ae hg2 hg htwo
  -- a step does not change the mean square
  have h1 := avg_sq_le h hg
  have h2 := avg_sq_le h (hg.avg h)
  have h3 : ∫ x, avg ρ F (avg ρ F g) x ^ 2 ∂π = ∫ x, g x ^ 2 ∂π :=
    integral_congr_ae (hae.mono fun x hx => by simp only [hx])
  have h4 := step_var h hg
  have h5 : ∫ z, (g (F z.1 z.2) - avg ρ F g z.1) ^ 2 ∂(π.prod ρ) = 0 := by rw [h4]; linarith
  have h6 : ∀ᵐ z ∂(π.prod ρ), g (F z.1 z.2) = avg ρ F g z.1 := dist2_ae (π := π.prod ρ) (hg.along h) (hg.avg h).fst h5
  obtain ⟨c, hc⟩ := hi g _ hg.1 (hg.avg h).1 (Measure.ae_ae_of_ae_prod h6)
  refine ⟨c, hlim.congr fun k => ?_⟩
  exact integral_congr_ae (hc.mono fun x hx => by simp only [hx])

/-- **Convergence of the means** of a bounded function after more and more steps of an irreducible reversible map. -/
theorem avgs_tendsto {f : X → ℝ} (h : Revers π ρ F) (hi : Irred π ρ F) (hf : Bdd f) (hπ : π ≠ 0) :
    Tendsto (fun n => dist2 π (avgs ρ F n f) fun _ => (∫ x, f x ∂π) / π.real Set.univ) atTop (𝓝 0) := by
  obtain ⟨c, hc⟩ := avgs_even h hi hf
  have hu : ∀ k, Bdd (avgs ρ F k f) := fun k => hf.avgs h _
  have hpos : 0 < π.real Set.univ := by
    rw [measureReal_def]
    exact ENNReal.toReal_pos (fun h0 => hπ (Measure.measure_univ_eq_zero.1 h0)) (measure_ne_top _ _)
  -- all steps
  have hall : Tendsto (fun n => dist2 π (avgs ρ F n f) fun _ => c) atTop (𝓝 0) := by
    rw [Metric.tendsto_atTop] at hc ⊢
    intro ε hε
    obtain ⟨N, hN⟩ := hc ε hε
    refine ⟨N + N + 1, fun n hn => ?_⟩
    rw [Real.dist_eq, sub_zero, abs_of_nonneg (dist2_nonneg _ _)]
    rcases Nat.even_or_odd' n with ⟨k, rfl | rfl⟩
    · have := hN k (by omega)
      rw [Real.dist_eq, sub_zero, abs_of_nonneg (dist2_nonneg _ _)] at this
      rwa [two_mul]
    · have := hN k (by omega)
      rw [Real.dist_eq, sub_zero, abs_of_nonneg (dist2_nonneg _ _)] at this
      have h1 := dist2_avg h (hu (k + k)) (Bdd.const c)
      have e : avg ρ F (fun _ : X => c) = fun _ => c := funext fun x => avg_const c x
      rw [e] at h1
      rw [two_mul]
      exact h1.trans_lt this
  -- the constant is the mean
  have hmean : c = (∫ x, f x ∂π) / π.real Set.univ := by
    have key : ∀ n, ((∫ x, f x ∂π) - c * π.real Set.univ) ^ 2 ≤ π.real Set.univ * dist2 π (avgs ρ F n f) fun _ => c := by
      intro n
      set d : X → ℝ := fun x => avgs ρ F n f x - c
      have hd : Bdd d := (hu n).sub (Bdd.const c)
      have e1 : ∫ x, d x ∂π = (∫ x, f x ∂π) - c * π.real Set.univ := by
        rw [integral_sub ((hu n).integrable π) (integrable_const c), avgs_mean h hf n]
        simp [mul_comm]
      rw [← e1]
      -- Cauchy–Schwarz
      set m := ∫ x, d x ∂π
      set w := π.real Set.univ
      have h0 : 0 ≤ ∫ x, (d x - m / w) ^ 2 ∂π := integral_nonneg fun _ => sq_nonneg _
      have e2 : ∫ x, (d x - m / w) ^ 2 ∂π = (∫ x, d x ^ 2 ∂π) - 2 * (m / w) * m + (m / w) ^ 2 * w := by
        have e3 : ∀ x, (d x - m / w) ^ 2 = d x ^ 2 - 2 * (m / w) * d x + (m / w) ^ 2 := fun x => by ring
        simp only [e3]
        have i2 : Integrable (fun x => 2 * (m / w) * d x) π := (hd.integrable π).const_mul _
        have i12 : Integrable (fun x => d x ^ 2 - 2 * (m / w) * d x) π := (hd.pow.integrable π).sub i2
        rw [integral_add i12 (integrable_const _), integral_sub (hd.pow.integrable π) i2, integral_const_mul]
        simp only [integral_const, smul_eq_mul]
        ring
      rw [e2] at h0
      change m ^ 2 ≤ w * ∫ x, d x ^ 2 ∂π
      have e4 : (∫ x, d x ^ 2 ∂π) - 2 * (m / w) * m + (m / w) ^ 2 * w = (∫ x, d x ^ 2 ∂π) - m ^ 2 / w := by
        field_simp
        ring
      rw [e4] at h0
      have h1 : m ^ 2 / w ≤ ∫ x, d x ^ 2 ∂π := by linarith
      rw [div_le_iff₀ hpos] at h1
      linarith
    have h0 : ((∫ x, f x ∂π) - c * π.real Set.univ) ^ 2 ≤ π.real Set.univ * 0 :=
      ge_of_tendsto' (hall.const_mul _) key
    rw [mul_zero] at h0
    have h1 := pow_eq_zero_iff (two_ne_zero) |>.1 (le_antisymm h0 (sq_nonneg _))
    rw [eq_div_iff hpos.ne']
    linarith
  rwa [← hmean]

/-! ### total variation -/

/-- Cauchy–Schwarz for the mean of a difference over a set. -/
theorem abs_mean_le {f g k : X → ℝ} (hf : Bdd f) (hg : Bdd g) (hk : Bdd k) (h1 : ∀ x, |k x| ≤ 1) {δ : ℝ} (hδ : 0 < δ) :
    |∫ x, k x * f x ∂π - ∫ x, k x * g x ∂π| ≤ δ * π.real Set.univ + dist2 π f g / δ := by
  rw [← integral_sub ((hk.mul hf).integrable π) ((hk.mul hg).integrable π)]
  refine abs_integral_le_integral_abs.trans ?_
  have i2 : Integrable (fun x => (f x - g x) ^ 2 / δ) π := ((hf.sub hg).pow.integrable π).div_const δ
  have e : δ * π.real Set.univ + dist2 π f g / δ = ∫ x, (δ + (f x - g x) ^ 2 / δ) ∂π := by
    rw [integral_add (integrable_const _) i2, integral_div]
    simp [dist2, mul_comm]
  rw [e]
  refine integral_mono (((hk.mul hf).sub (hk.mul hg)).integrable π).abs ((integrable_const _).add i2) fun x => ?_
  change |k x * f x - k x * g x| ≤ δ + (f x - g x) ^ 2 / δ
  rw [← mul_sub, abs_mul]
  have h2 : |k x| * |f x - g x| ≤ 1 * |f x - g x| := mul_le_mul_of_nonneg_right (h1 x) (abs_nonneg _)
  have h3 : |f x - g x| ≤ δ + (f x - g x) ^ 2 / δ := by
    rw [← sq_abs (f x - g x), ← sub_nonneg]
    have : δ + |f x - g x| ^ 2 / δ - |f x - g x| = (δ ^ 2 + |f x - g x| ^ 2 - δ * |f x - g x|) / δ := by
      field_simp
    rw [this]
    refine div_nonneg ?_ hδ.le
    nlinarith [sq_nonneg (δ - |f x - g x|), abs_nonneg (f x - g x), sq_nonneg δ, sq_nonneg (|f x - g x|)]
  linarith

/-- The laws after more and more steps converge in total variation, whatever law with a density the chain starts from. -/
theorem avgs_tv (h : Revers π ρ F) (hi : Irred π ρ F) (hπ : π ≠ 0) (μ : Measure X) [IsProbabilityMeasure μ] (hμ : μ ≪ π)
    {ε : ℝ} (hε : 0 < ε) : ∃ N, ∀ n ≥ N, ∀ k : X → ℝ, Measurable k → (∀ x, |k x| ≤ 1) →
      |∫ x, avgs ρ F n k x ∂μ - (∫ x, k x ∂π) / π.real Set.univ| ≤ ε := by
  set w := π.real Set.univ with hw
  have hpos : 0 < w := by
    rw [hw, measureReal_def]
    exact ENNReal.toReal_pos (fun h0 => hπ (Measure.measure_univ_eq_zero.1 h0)) (measure_ne_top _ _)
  set φ : X → ℝ := fun x => (μ.rnDeriv π x).toReal with hφ
  have hφm : Measurable φ := (Measure.measurable_rnDeriv μ π).ennreal_toReal
  have hφ0 : ∀ x, 0 ≤ φ x := fun x => ENNReal.toReal_nonneg
  have hφi : Integrable φ π := Measure.integrable_toReal_rnDeriv
  have hφ1 : ∫ x, φ x ∂π = 1 := by
    have := integral_rnDeriv_smul (f := fun _ : X => (1 : ℝ)) hμ
    simpa using this
  -- the density cut at `M`
  let cut : ℕ → X → ℝ := fun M x => min (φ x) M
  have hcut0 : ∀ M x, 0 ≤ cut M x := fun M x => le_min (hφ0 x) (Nat.cast_nonneg M)
  have hcutb : ∀ M, Bdd (cut M) := fun M => ⟨hφm.min measurable_const, M, fun x => by
    rw [abs_of_nonneg (hcut0 M x)]; exact min_le_right _ _⟩
  have hlim : Tendsto (fun M => ∫ x, cut M x ∂π) atTop (𝓝 1) := by
    rw [← hφ1]
    refine tendsto_integral_of_dominated_convergence φ (fun M => (hcutb M).1.aestronglyMeasurable) hφi
      (fun M => ae_of_all _ fun x => ?_) (ae_of_all _ fun x => ?_)
    · rw [Real.norm_eq_abs, abs_of_nonneg (hcut0 M x)]
      exact min_le_left _ _
    · obtain ⟨M0, hM0⟩ := exists_nat_ge (φ x)
      refine tendsto_const_nhds.congr' ?_
      filter_upwards [eventually_ge_atTop M0] with M hM
      exact (min_eq_left (hM0.trans (Nat.cast_le.2 hM))).symm
  rw [Metric.tendsto_atTop] at hlim
  obtain ⟨M, hM⟩ := hlim (ε / 4) (by linarith)
  have hM := hM M le_rfl
  rw [Real.dist_eq, abs_lt] at hM
  set a := ∫ x, cut M x ∂π with ha
  have ha1 : a ≤ 1 := by
    rw [← hφ1]
    exact integral_mono ((hcutb M).integrable π) hφi fun x => min_le_left _ _
  -- the means of the cut density
  have hconv := avgs_tendsto h hi (hcutb M) hπ
  rw [Metric.tendsto_atTop] at hconv
  set δ := ε / (4 * w) with hδ
  have hδ0 : 0 < δ := by positivity
  obtain ⟨N, hN⟩ := hconv (δ * (ε / 4)) (by positivity)
  refine ⟨N, fun n hn k hk hk1 => ?_⟩
  have hkb : Bdd k := ⟨hk, 1, hk1⟩
  have hn := hN n hn
  rw [Real.dist_eq, sub_zero, abs_of_nonneg (dist2_nonneg _ _)] at hn
  have hPk := hkb.avgs h n
  -- (1) the law of the start against the cut density
  have s1 : |∫ x, avgs ρ F n k x ∂μ - ∫ x, cut M x * avgs ρ F n k x ∂π| ≤ ε / 4 := by
    have e1 : ∫ x, avgs ρ F n k x ∂μ = ∫ x, φ x * avgs ρ F n k x ∂π := (integral_rnDeriv_smul hμ).symm
    have i1 : Integrable (fun x => φ x * avgs ρ F n k x) π :=
      hφi.mul_bdd (c := 1) hPk.1.aestronglyMeasurable (ae_of_all _ fun x => by
        rw [Real.norm_eq_abs]; exact avgs_le h hk hk1 n x)
    rw [e1, ← integral_sub i1 (((hcutb M).mul hPk).integrable π)]
    refine abs_integral_le_integral_abs.trans ?_
    have : ∫ x, |φ x * avgs ρ F n k x - cut M x * avgs ρ F n k x| ∂π ≤ ∫ x, (φ x - cut M x) ∂π := by
      refine integral_mono (i1.sub (((hcutb M).mul hPk).integrable π)).abs (hφi.sub ((hcutb M).integrable π)) fun x => ?_
      change |φ x * avgs ρ F n k x - cut M x * avgs ρ F n k x| ≤ φ x - cut M x
      have h0 : 0 ≤ φ x - cut M x := sub_nonneg.2 (min_le_left _ _)
      rw [← sub_mul, abs_mul, abs_of_nonneg h0]
      exact mul_le_of_le_one_right h0 (avgs_le h hk hk1 n x)
    refine this.trans ?_
    rw [integral_sub hφi ((hcutb M).integrable π), hφ1]
    linarith [hM.1]
  -- (2) the steps move to the density
  have s2 : |∫ x, cut M x * avgs ρ F n k x ∂π - ∫ x, k x * (a / w) ∂π| ≤ ε / 2 := by
    rw [avgs_symm h (hcutb M) hkb n]
    have e : ∫ x, avgs ρ F n (cut M) x * k x ∂π = ∫ x, k x * avgs ρ F n (cut M) x ∂π :=
      integral_congr_ae (ae_of_all _ fun x => mul_comm _ _)
    rw [e]
    refine (abs_mean_le ((hcutb M).avgs h n) (Bdd.const (a / w)) hkb hk1 hδ0).trans ?_
    have h1 : δ * w = ε / 4 := by rw [hδ]; field_simp
    have h2 : dist2 π (avgs ρ F n (cut M)) (fun _ => a / w) / δ ≤ ε / 4 := by
      rw [div_le_iff₀ hδ0, mul_comm]
      exact hn.le
    rw [← hw, h1]
    linarith
  -- (3) the cut density has nearly the whole mass
  have s3 : |∫ x, k x * (a / w) ∂π - (∫ x, k x ∂π) / w| ≤ ε / 4 := by
    rw [integral_mul_const]
    have e : (∫ x, k x ∂π) * (a / w) - (∫ x, k x ∂π) / w = ((∫ x, k x ∂π) / w) * (a - 1) := by ring
    rw [e, abs_mul, abs_div, abs_of_pos hpos]
    have h1 : |∫ x, k x ∂π| ≤ w := by
      refine abs_integral_le_integral_abs.trans ?_
      have := integral_mono (μ := π) (hkb.integrable π).abs (integrable_const 1) hk1
      simpa using this
    have h2 : |∫ x, k x ∂π| / w ≤ 1 := (div_le_one hpos).2 h1
    have h3 : |a - 1| ≤ ε / 4 := by rw [abs_le]; constructor <;> linarith [hM.1]
    calc |∫ x, k x ∂π| / w * |a - 1| ≤ 1 * |a - 1| := mul_le_mul_of_nonneg_right h2 (abs_nonneg _)
      _ ≤ ε / 4 := by rw [one_mul]; exact h3
  have t := abs_le.1 s1
  have t' := abs_le.1 s2
  have t'' := abs_le.1 s3
  rw [abs_le]
  constructor <;> linarith [t.1, t.2, t'.1, t'.2, t''.1, t''.2]

end BB.Lemmas
