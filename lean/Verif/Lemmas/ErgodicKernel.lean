import Verif.Lemmas.Ergodic
import Mathlib.Probability.Kernel.Composition.MeasureCompProd
import Mathlib.Probability.Kernel.Composition.IntegralCompProd

/-!
# Reversible kernels: convergence of the means

What `Ergodic` shows of random maps, for transitions given by a Markov kernel.
-/

set_option linter.unusedSectionVars false

namespace BB.Lemmas.Ker

open MeasureTheory ProbabilityTheory Filter Topology

variable {X : Type} [MeasurableSpace X]

/-- The mean of `f` after a transition. -/
noncomputable def avg (K : Kernel X X) (f : X → ℝ) (x : X) : ℝ := ∫ y, f y ∂K x

/-- The mean of `f` after `n` transitions. -/
noncomputable def avgs (K : Kernel X X) : ℕ → (X → ℝ) → X → ℝ
  | 0, f => f
  | n + 1, f => avg K (avgs K n f)

/-- The kernel is reversible with respect to `π`. -/
def Revers (π : Measure X) (K : Kernel X X) : Prop := ∀ s t : Set X, MeasurableSet s → MeasurableSet t →
  ∫⁻ x in s, K x t ∂π = ∫⁻ x in t, K x s ∂π

variable {π : Measure X} [IsFiniteMeasure π] {K : Kernel X X} [IsMarkovKernel K]

theorem fst {f : X → ℝ} (hf : Bdd f) : Bdd fun z : X × X => f z.1 := by
  obtain ⟨C, hC⟩ := hf.2
  exact ⟨hf.1.comp measurable_fst, C, fun z => hC _⟩

theorem snd {f : X → ℝ} (hf : Bdd f) : Bdd fun z : X × X => f z.2 := by
  obtain ⟨C, hC⟩ := hf.2
  exact ⟨hf.1.comp measurable_snd, C, fun z => hC _⟩

theorem avg_le {f : X → ℝ} (_h : Revers π K) (hf : Measurable f) {C : ℝ} (hC : ∀ x, |f x| ≤ C) (x : X) : |avg K f x| ≤ C := by
  have hb : Bdd f := ⟨hf, C, hC⟩
  unfold avg
  refine abs_integral_le_integral_abs.trans ?_
  have h1 := integral_mono (μ := K x) (hb.integrable (K x)).abs (integrable_const C) fun y => hC y
  simpa using h1

theorem avg_meas {f : X → ℝ} (_h : Revers π K) (hf : Measurable f) : Measurable (avg K f) :=
  (StronglyMeasurable.integral_kernel (κ := K) hf.stronglyMeasurable).measurable

theorem _root_.BB.Lemmas.Bdd.avgK {f : X → ℝ} (hf : Bdd f) (h : Revers π K) : Bdd (avg K f) := by
  obtain ⟨C, hC⟩ := hf.2
  exact ⟨avg_meas h hf.1, C, avg_le h hf.1 hC⟩

theorem avgs_meas {f : X → ℝ} (h : Revers π K) (hf : Measurable f) : ∀ n, Measurable (avgs K n f)
  | 0 => hf
  | n + 1 => avg_meas h (avgs_meas h hf n)

theorem avgs_le {f : X → ℝ} (h : Revers π K) (hf : Measurable f) {C : ℝ} (hC : ∀ x, |f x| ≤ C) : ∀ n x, |avgs K n f x| ≤ C
  | 0, x => hC x
  | n + 1, x => avg_le h (avgs_meas h hf n) (avgs_le h hf hC n) x

theorem _root_.BB.Lemmas.Bdd.avgsK {f : X → ℝ} (hf : Bdd f) (h : Revers π K) (n : ℕ) : Bdd (avgs K n f) := by
  obtain ⟨C, hC⟩ := hf.2
  exact ⟨avgs_meas h hf.1 n, C, avgs_le h hf.1 hC n⟩

theorem avg_sub {f g : X → ℝ} (h : Revers π K) (hf : Bdd f) (hg : Bdd g) (x : X) :
    avg K (fun x => f x - g x) x = avg K f x - avg K g x :=
  integral_sub (hf.integrable _) (hg.integrable _)

theorem avg_const (c : ℝ) (x : X) : avg K (fun _ => c) x = c := by
  unfold avg
  simp

theorem avgs_add (n m : ℕ) (f : X → ℝ) : avgs K (n + m) f = avgs K n (avgs K m f) := by
  induction n with
  | zero => rw [Nat.zero_add]; rfl
  | succ n ih => rw [Nat.succ_add]; change avg K _ = avg K _; rw [ih]

/-! ### symmetry -/

/-- The law of a point and the next, when the point has the law `π`, does not change when they are swapped. -/
theorem swap (h : Revers π K) : (π ⊗ₘ K).map Prod.swap = π ⊗ₘ K := by
  refine Measure.ext_prod (fun {s t} hs ht => ?_)
  rw [Measure.map_apply measurable_swap (hs.prod ht)]
  have e1 : (Prod.swap : X × X → X × X) ⁻¹' s ×ˢ t = t ×ˢ s := by
    ext z
    exact and_comm
  rw [e1, Measure.compProd_apply_prod ht hs, Measure.compProd_apply_prod hs ht]
  exact h t s ht hs

theorem integral_step {f g : X → ℝ} (_h : Revers π K) (hf : Bdd f) (hg : Bdd g) :
    ∫ x, f x * avg K g x ∂π = ∫ z, f z.1 * g z.2 ∂(π ⊗ₘ K) := by
  rw [Measure.integral_compProd (((fst hf).mul (snd hg)).integrable _)]
  refine integral_congr_ae (ae_of_all _ fun x => ?_)
  exact (integral_const_mul _ _).symm

theorem avg_symm {f g : X → ℝ} (h : Revers π K) (hf : Bdd f) (hg : Bdd g) :
    ∫ x, f x * avg K g x ∂π = ∫ x, avg K f x * g x ∂π := by
  have hm : Measurable fun z : X × X => f z.1 * g z.2 := (hf.1.comp measurable_fst).mul (hg.1.comp measurable_snd)
  have e1 := integral_map (μ := π ⊗ₘ K) measurable_swap.aemeasurable (f := fun z : X × X => f z.1 * g z.2) hm.aestronglyMeasurable
  rw [swap h] at e1
  have e3 : ∫ x, avg K f x * g x ∂π = ∫ z, g z.1 * f z.2 ∂(π ⊗ₘ K) := by
    rw [← integral_step h hg hf]
    exact integral_congr_ae (ae_of_all _ fun x => mul_comm _ _)
  rw [e3, integral_step h hf hg, e1]
  exact integral_congr_ae (ae_of_all _ fun x => mul_comm _ _)

theorem avg_mean {f : X → ℝ} (h : Revers π K) (hf : Bdd f) : ∫ x, avg K f x ∂π = ∫ x, f x ∂π := by
  have := avg_symm h hf (Bdd.const 1)
  simp only [avg_const, mul_one] at this
  exact this.symm

theorem avgs_mean {f : X → ℝ} (h : Revers π K) (hf : Bdd f) : ∀ n, ∫ x, avgs K n f x ∂π = ∫ x, f x ∂π
  | 0 => rfl
  | n + 1 => (avg_mean h (hf.avgsK h n)).trans (avgs_mean h hf n)

theorem avgs_symm {f g : X → ℝ} (h : Revers π K) (hf : Bdd f) (hg : Bdd g) : ∀ n,
    ∫ x, f x * avgs K n g x ∂π = ∫ x, avgs K n f x * g x ∂π
  | 0 => rfl
  | n + 1 => by
    change ∫ x, f x * avg K (avgs K n g) x ∂π = _
    rw [avg_symm h hf (hg.avgsK h n), avgs_symm h (hf.avgK h) hg n]
    have : avgs K n (avg K f) = avgs K (n + 1) f := (avgs_add n 1 f).symm
    rw [this]

/-! ### the variance in a step -/

/-- The mean square difference between `f` after a transition and its mean. -/
theorem step_var {f : X → ℝ} (h : Revers π K) (hf : Bdd f) :
    ∫ z, (f z.2 - avg K f z.1) ^ 2 ∂(π ⊗ₘ K) = ∫ x, f x ^ 2 ∂π - ∫ x, avg K f x ^ 2 ∂π := by
  have ha : Bdd fun z : X × X => avg K f z.1 := fst (hf.avgK h)
  have hl := snd hf
  have hb : Bdd fun z : X × X => (f z.2 - avg K f z.1) ^ 2 := (hl.sub ha).pow
  rw [Measure.integral_compProd (hb.integrable _)]
  have e : ∀ x, ∫ y, (f y - avg K f x) ^ 2 ∂K x = avg K (fun x => f x ^ 2) x - avg K f x ^ 2 := by
    intro x
    have h1 : Integrable (fun y => f y ^ 2) (K x) := hf.pow.integrable _
    have h2 : Integrable (fun y => 2 * avg K f x * f y) (K x) := (hf.integrable _).const_mul _
    have h3 : Integrable (fun _ : X => avg K f x ^ 2) (K x) := integrable_const _
    have e1 : ∀ y, (f y - avg K f x) ^ 2 = f y ^ 2 - 2 * avg K f x * f y + avg K f x ^ 2 := by
      intro y
      ring
    simp only [e1]
    have h12 : Integrable (fun y => f y ^ 2 - 2 * avg K f x * f y) (K x) := h1.sub h2
    rw [integral_add h12 h3, integral_sub h1 h2, integral_const_mul]
    simp only [integral_const, probReal_univ, smul_eq_mul, one_mul]
    change avg K (fun x => f x ^ 2) x - 2 * avg K f x * avg K f x + avg K f x ^ 2 = _
    ring
  simp only [e]
  rw [integral_sub ((hf.pow.avgK h).integrable π) ((hf.avgK h).pow.integrable π), avg_mean h hf.pow]

theorem avg_sq_le {f : X → ℝ} (h : Revers π K) (hf : Bdd f) : ∫ x, avg K f x ^ 2 ∂π ≤ ∫ x, f x ^ 2 ∂π := by
  have h1 := step_var h hf
  have h2 : 0 ≤ ∫ z, (f z.2 - avg K f z.1) ^ 2 ∂(π ⊗ₘ K) := integral_nonneg fun z => sq_nonneg _
  linarith

theorem dist2_avg {f g : X → ℝ} (h : Revers π K) (hf : Bdd f) (hg : Bdd g) :
    dist2 π (avg K f) (avg K g) ≤ dist2 π f g := by
  have := avg_sq_le h (hf.sub hg)
  unfold dist2
  simpa only [avg_sub h hf hg] using this

/-- The correlation of `f` with itself `k` steps later. -/
noncomputable def corr (π : Measure X) (K : Kernel X X) (f : X → ℝ) (k : ℕ) : ℝ := ∫ x, f x * avgs K k f x ∂π

theorem avgs_mul {f : X → ℝ} (h : Revers π K) (hf : Bdd f) (n m : ℕ) :
    ∫ x, avgs K n f x * avgs K m f x ∂π = corr π K f (n + m) := by
  unfold corr
  rw [avgs_add, avgs_symm h hf (hf.avgsK h m) n]

theorem dist2_avgs {f : X → ℝ} (h : Revers π K) (hf : Bdd f) (n m : ℕ) :
    dist2 π (avgs K n f) (avgs K m f) = corr π K f (n + n) - 2 * corr π K f (n + m) + corr π K f (m + m) := by
  have hn := hf.avgsK h n
  have hm := hf.avgsK h m
  rw [← avgs_mul h hf n n, ← avgs_mul h hf n m, ← avgs_mul h hf m m]
  unfold dist2
  have i12 : Integrable (fun x => avgs K n f x * avgs K n f x - 2 * (avgs K n f x * avgs K m f x)) π :=
    ((hn.mul hn).integrable π).sub (((hn.mul hm).integrable π).const_mul 2)
  rw [← integral_const_mul, ← integral_sub ((hn.mul hn).integrable π) (((hn.mul hm).integrable π).const_mul 2),
    ← integral_add i12 ((hm.mul hm).integrable π)]
  refine integral_congr_ae (ae_of_all _ fun x => ?_)
  ring

theorem corr_even {f : X → ℝ} (h : Revers π K) (hf : Bdd f) (k : ℕ) : corr π K f (k + k) = ∫ x, avgs K k f x ^ 2 ∂π := by
  rw [← avgs_mul h hf k k]
  refine integral_congr_ae (ae_of_all _ fun x => ?_)
  ring

theorem corr_anti {f : X → ℝ} (h : Revers π K) (hf : Bdd f) : Antitone fun k => corr π K f (k + k) := by
  refine antitone_nat_of_succ_le fun k => ?_
  rw [corr_even h hf, corr_even h hf]
  exact avg_sq_le h (hf.avgsK h k)

theorem corr_nonneg {f : X → ℝ} (h : Revers π K) (hf : Bdd f) (k : ℕ) : 0 ≤ corr π K f (k + k) := by
  rw [corr_even h hf]
  exact integral_nonneg fun _ => sq_nonneg _

/-- The means after even numbers of steps approach one another. -/
theorem avgs_cauchy {f : X → ℝ} (h : Revers π K) (hf : Bdd f) {ε : ℝ} (hε : 0 < ε) :
    ∃ N, ∀ j ≥ N, ∀ k ≥ N, dist2 π (avgs K (j + j) f) (avgs K (k + k) f) < ε := by
  have hconv := tendsto_atTop_ciInf (corr_anti h hf) ⟨0, by rintro _ ⟨k, rfl⟩; exact corr_nonneg h hf k⟩
  set s := ⨅ k, corr π K f (k + k)
  rw [Metric.tendsto_atTop] at hconv
  obtain ⟨N, hN⟩ := hconv (ε / 4) (by linarith)
  refine ⟨N, fun j hj k hk => ?_⟩
  rw [dist2_avgs h hf]
  have e : j + j + (k + k) = (j + k) + (j + k) := by ring
  rw [e]
  have h1 := hN (j + j) (by omega)
  have h2 := hN (j + k) (by omega)
  have h3 := hN (k + k) (by omega)
  rw [Real.dist_eq, abs_lt] at h1 h2 h3
  linarith [h1.1, h1.2, h2.1, h2.2, h3.1, h3.2]

/-- There is a bounded limit of the means after even numbers of steps. -/
theorem avgs_limit {f : X → ℝ} (h : Revers π K) (hf : Bdd f) :
    ∃ g, Bdd g ∧ Tendsto (fun k => dist2 π (avgs K (k + k) f) g) atTop (𝓝 0) := by
  obtain ⟨C, hC⟩ := hf.2
  have hu : ∀ k, Bdd (avgs K (k + k) f) := fun k => hf.avgsK h _
  let u : ℕ → Lp ℝ 2 π := fun k => (hu k).memLp.toLp _
  have hcau : CauchySeq u := by
    rw [Metric.cauchySeq_iff]
    intro ε hε
    obtain ⟨N, hN⟩ := avgs_cauchy h hf (ε := ε ^ 2) (by positivity)
    refine ⟨N, fun j hj k hk => ?_⟩
    have h1 := hN j hj k hk
    rw [← norm_toLp_sub (hu j).memLp (hu k).memLp] at h1
    rw [dist_eq_norm]
    exact lt_of_pow_lt_pow_left₀ 2 hε.le h1
  obtain ⟨l, hl⟩ := cauchySeq_tendsto_of_complete hcau
  obtain ⟨g0, hg0, hae⟩ := (Lp.aestronglyMeasurable l)
  have hmem : MemLp g0 2 π := (memLp_congr_ae hae).1 (Lp.memLp l)
  have hg0m : Measurable g0 := hg0.measurable
  refine ⟨fun x => max (-C) (min C (g0 x)), ⟨by fun_prop, C, fun x => ?_⟩, ?_⟩
  · have hC0 : 0 ≤ C := (abs_nonneg _).trans (hC x)
    rw [abs_le]
    exact ⟨le_max_left _ _, max_le (by linarith) (min_le_left _ _)⟩
  · have h1 : Tendsto (fun k => dist2 π (avgs K (k + k) f) g0) atTop (𝓝 0) := by
      have e : ∀ k, dist2 π (avgs K (k + k) f) g0 = ‖u k - l‖ ^ 2 := by
        intro k
        rw [← norm_toLp_sub (hu k).memLp hmem]
        congr 2
        congr 1
        refine Lp.ext ?_
        exact hmem.coeFn_toLp.trans hae.symm
      simp only [e]
      have h2 : Tendsto (fun k => ‖u k - l‖) atTop (𝓝 0) := tendsto_iff_norm_sub_tendsto_zero.1 hl
      have h3 := h2.pow 2
      simpa using h3
    refine squeeze_zero (fun k => dist2_nonneg _ _) (fun k => ?_) h1
    unfold dist2
    refine integral_mono_of_nonneg (ae_of_all _ fun x => sq_nonneg _) ?_ (ae_of_all _ fun x => ?_)
    · exact ((hu k).memLp.sub hmem).integrable_sq
    · have hb := abs_le.1 (avgs_le h hf.1 hC (k + k) x)
      exact clip_sq hb.1 hb.2 _

/-- A kernel is *irreducible* if a function that takes, after a transition, a value determined by the point before, is
constant. -/
def Irred (π : Measure X) (K : Kernel X X) : Prop :=
  ∀ g k : X → ℝ, Measurable g → Measurable k → (∀ᵐ x ∂π, ∀ᵐ y ∂K x, g y = k x) → ∃ c, ∀ᵐ x ∂π, g x = c

/-- The means after even numbers of steps converge to a constant. -/
theorem avgs_even {f : X → ℝ} (h : Revers π K) (hi : Irred π K) (hf : Bdd f) :
    ∃ c : ℝ, Tendsto (fun k => dist2 π (avgs K (k + k) f) fun _ => c) atTop (𝓝 0) := by
  obtain ⟨g, hg, hlim⟩ := avgs_limit h hf
  have hu : ∀ k, Bdd (avgs K (k + k) f) := fun k => hf.avgsK h _
  have hg2 : Bdd (avg K (avg K g)) := (hg.avgK h).avgK h
  -- two steps do not change the limit
  have htwo : dist2 π (avg K (avg K g)) g = 0 := by
    refine le_antisymm (le_of_forall_pos_le_add fun ε hε => ?_) (dist2_nonneg _ _)
    rw [Metric.tendsto_atTop] at hlim
    obtain ⟨N, hN⟩ := hlim (ε / 4) (by linarith)
    have h1 := hN N le_rfl
    have h2 := hN (N + 1) (by omega)
    rw [Real.dist_eq, sub_zero, abs_of_nonneg (dist2_nonneg _ _)] at h1 h2
    have e : avgs K (N + 1 + (N + 1)) f = avg K (avg K (avgs K (N + N) f)) := by
      rw [show N + 1 + (N + 1) = N + N + 1 + 1 by ring]
      rfl
    have h3 : dist2 π (avg K (avg K g)) (avgs K (N + 1 + (N + 1)) f) ≤ dist2 π (avgs K (N + N) f) g := by
      rw [e, dist2_comm (avgs K (N + N) f) g]
      exact (dist2_avg h (hg.avgK h) ((hu N).avgK h)).trans (dist2_avg h hg (hu N))
    have h4 := dist2_triangle (π := π) hg2 (hu (N + 1)) hg
    linarith
  have hae := dist2_ae hg2 hg htwo
  -- a step does not change the mean square
  have h1 := avg_sq_le h hg
  have h2 := avg_sq_le h (hg.avgK h)
  have h3 : ∫ x, avg K (avg K g) x ^ 2 ∂π = ∫ x, g x ^ 2 ∂π :=
    integral_congr_ae (hae.mono fun x hx => by simp only [hx])
  have h4 := step_var h hg
  have h5 : ∫ z, (g z.2 - avg K g z.1) ^ 2 ∂(π ⊗ₘ K) = 0 := by rw [h4]; linarith
  have h6 : ∀ᵐ z ∂(π ⊗ₘ K), g z.2 = avg K g z.1 := dist2_ae (π := π ⊗ₘ K) (snd hg) (fst (hg.avgK h)) h5
  obtain ⟨c, hc⟩ := hi g _ hg.1 (hg.avgK h).1 (Measure.ae_ae_of_ae_compProd h6)
  refine ⟨c, hlim.congr fun k => ?_⟩
  exact integral_congr_ae (hc.mono fun x hx => by simp only [hx])

/-- **Convergence of the means** of a bounded function after more and more steps of an irreducible reversible kernel. -/
theorem avgs_tendsto {f : X → ℝ} (h : Revers π K) (hi : Irred π K) (hf : Bdd f) (hπ : π ≠ 0) :
    Tendsto (fun n => dist2 π (avgs K n f) fun _ => (∫ x, f x ∂π) / π.real Set.univ) atTop (𝓝 0) := by
  obtain ⟨c, hc⟩ := avgs_even h hi hf
  have hu : ∀ k, Bdd (avgs K k f) := fun k => hf.avgsK h _
  have hpos : 0 < π.real Set.univ := by
    rw [measureReal_def]
    exact ENNReal.toReal_pos (fun h0 => hπ (Measure.measure_univ_eq_zero.1 h0)) (measure_ne_top _ _)
  -- all steps
  have hall : Tendsto (fun n => dist2 π (avgs K n f) fun _ => c) atTop (𝓝 0) := by
    rw [Metric.tendsto_atTop] at hc ⊢
    intro ε hε
    obtain ⟨N, hN⟩ := hc ε hε
    refine ⟨N + N + 1, fun n hn => ?_⟩
    rw [Real.dist_eq, sub_zero, abs_of_nonneg (dist2_nonneg _ _)]
    rcases Nat.even_or_odd' n with ⟨k, rfl | rfl⟩
    · have := hN k (by omega)
      rw [Real.dist_eq, sub_zero, abs_of_nonneg (dist2_nonneg _ _)] at this
      rwa [two_mul]
    · have := hN k (by omega)
      rw [Real.dist_eq, sub_zero, abs_of_nonneg (dist2_nonneg _ _)] at this
      have h1 := dist2_avg h (hu (k + k)) (Bdd.const c)
      have e : avg K (fun _ : X => c) = fun _ => c := funext fun x => avg_const c x
      rw [e] at h1
      rw [two_mul]
      exact h1.trans_lt this
  -- the constant is the mean
  have hmean : c = (∫ x, f x ∂π) / π.real Set.univ := by
    have key : ∀ n, ((∫ x, f x ∂π) - c * π.real Set.univ) ^ 2 ≤ π.real Set.univ * dist2 π (avgs K n f) fun _ => c := by
      intro n
      set d : X → ℝ := fun x => avgs K n f x - c
      have hd : Bdd d := (hu n).sub (Bdd.const c)
      have e1 : ∫ x, d x ∂π = (∫ x, f x ∂π) - c * π.real Set.univ := by
        rw [integral_sub ((hu n).integrable π) (integrable_const c), avgs_mean h hf n]
        simp [mul_comm]
      rw [← e1]
      -- Cauchy–Schwarz
      set m := ∫ x, d x ∂π
      set w := π.real Set.univ
      have h0 : 0 ≤ ∫ x, (d x - m / w) ^ 2 ∂π := integral_nonneg fun _ => sq_nonneg _
      have e2 : ∫ x, (d x - m / w) ^ 2 ∂π = (∫ x, d x ^ 2 ∂π) - 2 * (m / w) * m + (m / w) ^ 2 * w := by
        have e3 : ∀ x, (d x - m / w) ^ 2 = d x ^ 2 - 2 * (m / w) * d x + (m / w) ^ 2 := fun x => by ring
        simp only [e3]
        have i2 : Integrable (fun x => 2 * (m / w) * d x) π := (hd.integrable π).const_mul _
        have i12 : Integrable (fun x => d x ^ 2 - 2 * (m / w) * d x) π := (hd.pow.integrable π).sub i2
        rw [integral_add i12 (integrable_const _), integral_sub (hd.pow.integrable π) i2, integral_const_mul]
        simp only [integral_const, smul_eq_mul]
        ring
      rw [e2] at h0
      change m ^ 2 ≤ w * ∫ x, d x ^ 2 ∂π
      have e4 : (∫ x, d x ^ 2 ∂π) - 2 * (m / w) * m + (m / w) ^ 2 * w = (∫ x, d x ^ 2 ∂π) - m ^ 2 / w := by
        field_simp
        ring
      rw [e4] at h0
      have h1 : m ^ 2 / w ≤ ∫ x, d x ^ 2 ∂π := by linarith
      rw [div_le_iff₀ hpos] at h1
      linarith
    have h0 : ((∫ x, f x ∂π) - c * π.real Set.univ) ^ 2 ≤ π.real Set.univ * 0 :=
      ge_of_tendsto' (hall.const_mul _) key
    rw [mul_zero] at h0
    have h1 := pow_eq_zero_iff (two_ne_zero) |>.1 (le_antisymm h0 (sq_nonneg _))
    rw [eq_div_iff hpos.ne']
    linarith
  rwa [← hmean]

/-- The laws after more and more steps converge in total variation, whatever law with a density the chain starts from. -/
theorem avgs_tv (h : Revers π K) (hi : Irred π K) (hπ : π ≠ 0) (μ : Measure X) [IsProbabilityMeasure μ] (hμ : μ ≪ π)
    {ε : ℝ} (hε : 0 < ε) : ∃ N, ∀ n ≥ N, ∀ k : X → ℝ, Measurable k → (∀ x, |k x| ≤ 1) →
      |∫ x, avgs K n k x ∂μ - (∫ x, k x ∂π) / π.real Set.univ| ≤ ε := by
  set w := π.real Set.univ with hw
  have hpos : 0 < w := by
    rw [hw, measureReal_def]
    exact ENNReal.toReal_pos (fun h0 => hπ (Measure.measure_univ_eq_zero.1 h0)) (measure_ne_top _ _)
  set φ : X → ℝ := fun x => (μ.rnDeriv π x).toReal with hφ
  have hφm : Measurable φ := (Measure.measurable_rnDeriv μ π).ennreal_toReal
  have hφ0 : ∀ x, 0 ≤ φ x := fun x => ENNReal.toReal_nonneg
  have hφi : Integrable φ π := Measure.integrable_toReal_rnDeriv
  have hφ1 : ∫ x, φ x ∂π = 1 := by
    have := integral_rnDeriv_smul (f := fun _ : X => (1 : ℝ)) hμ
    simpa using this
  -- the density cut at `M`
  let cut : ℕ → X → ℝ := fun M x => min (φ x) M
  have hcut0 : ∀ M x, 0 ≤ cut M x := fun M x => le_min (hφ0 x) (Nat.cast_nonneg M)
  have hcutb : ∀ M, Bdd (cut M) := fun M => ⟨hφm.min measurable_const, M, fun x => by
    rw [abs_of_nonneg (hcut0 M x)]; exact min_le_right _ _⟩
  have hlim : Tendsto (fun M => ∫ x, cut M x ∂π) atTop (𝓝 1) := by
    rw [← hφ1]
    refine tendsto_integral_of_dominated_convergence φ (fun M => (hcutb M).1.aestronglyMeasurable) hφi
      (fun M => ae_of_all _ fun x => ?_) (ae_of_all _ fun x => ?_)
    · rw [Real.norm_eq_abs, abs_of_nonneg (hcut0 M x)]
      exact min_le_left _ _
    · obtain ⟨M0, hM0⟩ := exists_nat_ge (φ x)
      refine tendsto_const_nhds.congr' ?_
      filter_upwards [eventually_ge_atTop M0] with M hM
      exact (min_eq_left (hM0.trans (Nat.cast_le.2 hM))).symm
  rw [Metric.tendsto_atTop] at hlim
  obtain ⟨M, hM⟩ := hlim (ε / 4) (by linarith)
  have hM := hM M le_rfl
  rw [Real.dist_eq, abs_lt] at hM
  set a := ∫ x, cut M x ∂π with ha
  have ha1 : a ≤ 1 := by
    rw [← hφ1]
    exact integral_mono ((hcutb M).integrable π) hφi fun x => min_le_left _ _
  -- the means of the cut density
  have hconv := avgs_tendsto h hi (hcutb M) hπ
  rw [Metric.tendsto_atTop] at hconv
  set δ := ε / (4 * w) with hδ
  have hδ0 : 0 < δ := by positivity
  obtain ⟨N, hN⟩ := hconv (δ * (ε / 4)) (by positivity)
  refine ⟨N, fun n hn k hk hk1 => ?_⟩
  have hkb : Bdd k := ⟨hk, 1, hk1⟩
  have hn := hN n hn
  rw [Real.dist_eq, sub_zero, abs_of_nonneg (dist2_nonneg _ _)] at hn
  have hPk := hkb.avgsK h n
  -- (1) the law of the start against the cut density
  have s1 : |∫ x, avgs K n k x ∂μ - ∫ x, cut M x * avgs K n k x ∂π| ≤ ε / 4 := by
    have e1 : ∫ x, avgs K n k x ∂μ = ∫ x, φ x * avgs K n k x ∂π := (integral_rnDeriv_smul hμ).symm
    have i1 : Integrable (fun x => φ x * avgs K n k x) π :=
      hφi.mul_bdd (c := 1) hPk.1.aestronglyMeasurable (ae_of_all _ fun x => by
        rw [Real.norm_eq_abs]; exact avgs_le h hk hk1 n x)
    rw [e1, ← integral_sub i1 (((hcutb M).mul hPk).integrable π)]
    refine abs_integral_le_integral_abs.trans ?_
    have : ∫ x, |φ x * avgs K n k x - cut M x * avgs K n k x| ∂π ≤ ∫ x, (φ x - cut M x) ∂π := by
      refine integral_mono (i1.sub (((hcutb M).mul hPk).integrable π)).abs (hφi.sub ((hcutb M).integrable π)) fun x => ?_
      change |φ x * avgs K n k x - cut M x * avgs K n k x| ≤ φ x - cut M x
      have h0 : 0 ≤ φ x - cut M x := sub_nonneg.2 (min_le_left _ _)
      rw [← sub_mul, abs_mul, abs_of_nonneg h0]
      exact mul_le_of_le_one_right h0 (avgs_le h hk hk1 n x)
    refine this.trans ?_
    rw [integral_sub hφi ((hcutb M).integrable π), hφ1]
    linarith [hM.1]
  -- (2) the steps move to the density
  have s2 : |∫ x, cut M x * avgs K n k x ∂π - ∫ x, k x * (a / w) ∂π| ≤ ε / 2 := by
    rw [avgs_symm h (hcutb M) hkb n]
    have e : ∫ x, avgs K n (cut M) x * k x ∂π = ∫ x, k x * avgs K n (cut M) x ∂π :=
      integral_congr_ae (ae_of_all _ fun x => mul_comm _ _)
    rw [e]
    refine (abs_mean_le ((hcutb M).avgsK h n) (Bdd.const (a / w)) hkb hk1 hδ0).trans ?_
    have h1 : δ * w = ε / 4 := by rw [hδ]; field_simp
    have h2 : dist2 π (avgs K n (cut M)) (fun _ => a / w) / δ ≤ ε / 4 := by
      rw [div_le_iff₀ hδ0, mul_comm]
      exact hn.le
    rw [← hw, h1]
    linarith
  -- (3) the cut density has nearly the whole mass
  have s3 : |∫ x, k x * (a / w) ∂π - (∫ x, k x ∂π) / w| ≤ ε / 4 := by
    rw [integral_mul_const]
    have e : (∫ x, k x ∂π) * (a / w) - (∫ x, k x ∂π) / w = ((∫ x, k x ∂π) / w) * (a - 1) := by ring
    rw [e, abs_mul, abs_div, abs_of_pos hpos]
    have h1 : |∫ x, k x ∂π| ≤ w := by
      refine abs_integral_le_integral_abs.trans ?_
      have := integral_mono (μ := π) (hkb.integrable π).abs (integrable_const 1) hk1
      simpa using this
    have h2 : |∫ x, k x ∂π| / w ≤ 1 := (div_le_one hpos).2 h1
    have h3 : |a - 1| ≤ ε / 4 := by rw [abs_le]; constructor <;> linarith [hM.1]
    calc |∫ x, k x ∂π| / w * |a - 1| ≤ 1 * |a - 1| := mul_le_mul_of_nonneg_right h2 (abs_nonneg _)
      _ ≤ ε / 4 := by rw [one_mul]; exact h3
  have t := abs_le.1 s1
  have t' := abs_le.1 s2
  have t'' := abs_le.1 s3
  rw [abs_le]
  constructor <;> linarith [t.1, t.2, t'.1, t'.2, t''.1, t''.2]

end BB.Lemmas.Ker
