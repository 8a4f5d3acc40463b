import Verif.Lemmas.NoiseLaw

/-!
# Proposals for the noise, beside other ones
-/

namespace BB.Lemmas

open BB BB.Spec MeasureTheory ProbabilityTheory

section

variable (ts : List Target)

/-- The first perturbed values between the bounds. -/
noncomputable def landAll (x : NoiseValues ts) (θ : Fin ts.length × Bool → ℕ → ℝ) : NoiseValues ts :=
  fun q => landing (noiseRanges ts q) (x q) (θ q)

/-- The density of the perturbation, up to a factor that depends on the start only. -/
noncomputable def kernelAll (z : NoiseValues ts × NoiseValues ts) : ℝ :=
  ∏ q, kernelOf (noiseRanges ts q) (z.1 q, z.2 q)

instance : IsProbabilityMeasure (deviates ts) := by
  unfold deviates
  infer_instance

instance : IsFiniteMeasure (noisePrior ts) := by
  unfold noisePrior
  infer_instance

theorem landAll_meas : Measurable fun z : NoiseValues ts × (Fin ts.length × Bool → ℕ → ℝ) => landAll ts z.1 z.2 := by
  refine measurable_pi_lambda _ fun q => ?_
  have h1 : Measurable fun z : NoiseValues ts × (Fin ts.length × Bool → ℕ → ℝ) => (z.1 q, z.2 q) :=
    ((measurable_pi_apply q).comp measurable_fst).prodMk ((measurable_pi_apply q).comp measurable_snd)
  exact (landing_meas _).comp h1

theorem kernelAll_meas : Measurable (kernelAll ts) := by
  refine Finset.measurable_prod _ fun q _ => (kernelOf_meas _).comp ?_
  exact ((measurable_pi_apply q).comp measurable_fst).prodMk ((measurable_pi_apply q).comp measurable_snd)

theorem kernelAll_pos (z : NoiseValues ts × NoiseValues ts) : 0 < kernelAll ts z :=
  Finset.prod_pos fun q _ => kernelOf_pos _ _

theorem kernelAll_swap (z : NoiseValues ts × NoiseValues ts) : kernelAll ts z.swap = kernelAll ts z :=
  Finset.prod_congr rfl fun q _ => kernelOf_swap _ (z.1 q, z.2 q)

theorem stayingAll_meas : Measurable (stayingAll ts) :=
  Finset.measurable_prod _ fun q _ => (staying_meas _).comp (measurable_pi_apply q)

variable {ts}

theorem stayingAll_pos (h : ProperAll ts) (x : NoiseValues ts) : 0 < stayingAll ts x :=
  Finset.prod_pos fun q _ => staying_pos (fun r hr => h q r hr) _

theorem noise_joint (h : ProperAll ts) :
    (((noisePrior ts).withDensity fun x => ENNReal.ofReal (stayingAll ts x)).prod (deviates ts)).map
        (fun z => (z.1, landAll ts z.1 z.2)) =
      ((noisePrior ts).prod (noisePrior ts)).withDensity fun z => ENNReal.ofReal (kernelAll ts z) := by
  have e := joint_coords (β := fun q => flat (noiseRanges ts q)) (ν := Measure.infinitePi fun _ : ℕ => gaussianReal 0 1)
    (fun q => (staying_meas (noiseRanges ts q)).ennreal_ofReal) (fun q => (kernelOf_meas (noiseRanges ts q)).ennreal_ofReal)
    (fun q => landing_meas (noiseRanges ts q)) (fun q => landing_joint fun r hr => h q r hr)
  have e1 : (fun x : NoiseValues ts => ENNReal.ofReal (stayingAll ts x)) =
      fun x => ∏ q, ENNReal.ofReal (staying (noiseRanges ts q) (x q)) := by
    funext x
    exact ENNReal.ofReal_prod_of_nonneg fun q _ => (staying_pos (fun r hr => h q r hr) _).le
  have e2 : (fun z : NoiseValues ts × NoiseValues ts => ENNReal.ofReal (kernelAll ts z)) =
      fun z => ∏ q, ENNReal.ofReal (kernelOf (noiseRanges ts q) (z.1 q, z.2 q)) := by
    funext z
    exact ENNReal.ofReal_prod_of_nonneg fun q _ => (kernelOf_pos _ _).le
  rw [e1, e2]
  exact e

/-- The probability of not having to redraw varies by a factor of 2 at most. -/
theorem mass_le_two (σ : ℝ) {a b x y : ℝ} (hx : x ∈ Set.Icc a b) (hy : y ∈ Set.Icc a b) :
    mass σ a b x ≤ 2 * mass σ a b y := by
  have hi : ∀ c d, IntervalIntegrable (bell σ 0) volume c d := fun c d => (bell_continuous σ 0).intervalIntegrable _ _
  have hg : ∀ t, 0 ≤ bell σ 0 t := fun t => (bell_pos σ 0 t).le
  have hsplit : ∀ z, mass σ a b z = (∫ t in (0 : ℝ)..(z - a), bell σ 0 t) + ∫ t in (0 : ℝ)..(b - z), bell σ 0 t := by
    intro z
    rw [mass_shift, ← intervalIntegral.integral_add_adjacent_intervals (hi (a - z) 0) (hi 0 (b - z))]
    congr 1
    have : (fun z => bell σ 0 z) = fun z => bell σ 0 (-z) := by
      funext z
      simp [bell]
    rw [this, intervalIntegral.integral_comp_neg (fun t => bell σ 0 t)]
    congr 1 <;> ring
  have hmono : ∀ c, 0 ≤ c → c ≤ b - a → ∫ t in (0 : ℝ)..c, bell σ 0 t ≤ ∫ t in (0 : ℝ)..(b - a), bell σ 0 t := by
    intro c h0 hc
    exact intervalIntegral.integral_mono_interval le_rfl h0 hc (.of_forall hg) (hi _ _)
  have hsub : ∫ t in (0 : ℝ)..(b - a), bell σ 0 t ≤ mass σ a b y := by
    have h0 : 0 ≤ y - a := sub_nonneg.2 hy.1
    have h1 : 0 ≤ b - y := sub_nonneg.2 hy.2
    rw [hsplit, ← intervalIntegral.integral_add_adjacent_intervals (hi 0 (y - a)) (hi (y - a) (b - a))]
    refine add_le_add le_rfl ?_
    have e : ∫ t in (y - a)..(b - a), bell σ 0 t = ∫ t in (0 : ℝ)..(b - y), bell σ 0 (t + (y - a)) := by
      rw [intervalIntegral.integral_comp_add_right (fun t => bell σ 0 t)]
      congr 1 <;> ring
    rw [e]
    refine intervalIntegral.integral_mono_on h1 ?_ (hi _ _) fun t ht => ?_
    · exact ((bell_continuous σ 0).comp (continuous_id.add continuous_const)).intervalIntegrable _ _
    · unfold bell
      refine Real.exp_le_exp.2 (neg_le_neg ?_)
      refine div_le_div_of_nonneg_right ?_ (by positivity)
      nlinarith [ht.1]
  have hx1 := hmono (x - a) (sub_nonneg.2 hx.1) (by linarith [hx.2])
  have hx2 := hmono (b - x) (sub_nonneg.2 hx.2) (by linarith [hx.1])
  rw [hsplit x]
  linarith

theorem stayingAll_le (h : ProperAll ts) {x y : NoiseValues ts}
    (hx : ∀ q r, noiseRanges ts q = some r → x q ∈ Set.Icc r.lo r.hi)
    (hy : ∀ q r, noiseRanges ts q = some r → y q ∈ Set.Icc r.lo r.hi) :
    stayingAll ts x ≤ 2 ^ (Finset.univ.filter fun q => (noiseRanges ts q).isSome).card * stayingAll ts y := by
  unfold stayingAll
  have e : (2 : ℝ) ^ (Finset.univ.filter fun q => (noiseRanges ts q).isSome).card =
      ∏ q, if (noiseRanges ts q).isSome then (2 : ℝ) else 1 := by
    rw [Finset.prod_ite, Finset.prod_const, Finset.prod_const_one, mul_one]
  rw [e, ← Finset.prod_mul_distrib]
  refine Finset.prod_le_prod (fun q _ => (staying_pos (fun r hr => h q r hr) _).le) fun q _ => ?_
  cases ho : noiseRanges ts q with
  | none => simp [staying]
  | some r =>
    simp only [Option.isSome_some, if_true]
    exact mass_le_two r.step (hx q r ho) (hy q r ho)

theorem noisePrior_ne (h : ProperAll ts) : noisePrior ts ≠ 0 := by
  unfold noisePrior
  rw [Ne, ← Measure.measure_univ_eq_zero, Measure.pi_univ, Finset.prod_eq_zero_iff]
  rintro ⟨q, -, hq⟩
  cases ho : noiseRanges ts q with
  | none =>
    rw [ho] at hq
    simp [flat] at hq
  | some r =>
    rw [ho] at hq
    have := (h q r ho).lo_hi
    simp only [flat, Measure.restrict_apply_univ, Real.volume_Icc, ENNReal.ofReal_eq_zero] at hq
    linarith

/-- The probability of not having to redraw is not constant. -/
theorem staying_varies (h : ProperAll ts) (hne : ts ≠ []) :
    ¬ ∀ᵐ z ∂(noisePrior ts).prod (noisePrior ts), stayingAll ts z.1 = stayingAll ts z.2 := by
  intro hc
  have hN := noisePrior_ne h
  have h1 := Measure.ae_ae_of_ae_prod hc
  have : Filter.NeBot (ae (noisePrior ts)) := ae_neBot.2 hN
  obtain ⟨x, hx⟩ := h1.exists
  have hpos : 0 < ts.length := List.length_pos_iff.2 hne
  set q0 : Fin ts.length × Bool := (⟨0, hpos⟩, false) with hq0
  have hr0 : noiseRanges ts q0 = some ⟨ts[0].stdMin, ts[0].stdMax, ts[0].stdPerturb⟩ := rfl
  set r0 : Range := ⟨ts[0].stdMin, ts[0].stdMax, ts[0].stdPerturb⟩ with hr0'
  have hprop := h q0 r0 hr0
  have hS : MeasurableSet {y | stayingAll ts x = stayingAll ts y} :=
    measurableSet_eq_fun measurable_const (stayingAll_meas ts)
  have hnull : noisePrior ts {y | stayingAll ts x = stayingAll ts y} = 0 := by
    refine pi_null hS q0 fun y => ?_
    have hsub : ∃ t0, {t | Function.update y q0 t ∈ {y | stayingAll ts x = stayingAll ts y}} ⊆ {t0, r0.lo + r0.hi - t0} := by
      by_cases hex : ∃ t0, Function.update y q0 t0 ∈ {y | stayingAll ts x = stayingAll ts y}
      · obtain ⟨t0, ht0⟩ := hex
        refine ⟨t0, fun t ht => ?_⟩
        have hsplit : ∀ t, stayingAll ts (Function.update y q0 t) = mass r0.step r0.lo r0.hi t *
            ∏ q ∈ Finset.univ.erase q0, staying (noiseRanges ts q) (y q) := by
          intro t
          unfold stayingAll
          rw [← Finset.mul_prod_erase _ _ (Finset.mem_univ q0), Function.update_self, hr0]
          congr 1
          refine Finset.prod_congr rfl fun q hq => ?_
          rw [Function.update_of_ne (Finset.ne_of_mem_erase hq)]
        have e1 : stayingAll ts (Function.update y q0 t0) = stayingAll ts (Function.update y q0 t) := ht0.symm.trans ht
        rw [hsplit, hsplit] at e1
        have hpos : 0 < ∏ q ∈ Finset.univ.erase q0, staying (noiseRanges ts q) (y q) :=
          Finset.prod_pos fun q _ => staying_pos (fun r hr => h q r hr) _
        have e2 := mul_right_cancel₀ hpos.ne' e1
        rcases (mass_eq_iff hprop.step hprop.lo_hi t0 t).1 e2 with e3 | e3
        · exact .inl e3
        · right
          rw [Set.mem_singleton_iff]
          linarith
      · exact ⟨0, fun t ht => absurd ⟨t, ht⟩ hex⟩
    obtain ⟨t0, ht0⟩ := hsub
    refine measure_mono_null ht0 ?_
    rw [hr0]
    unfold flat
    exact ((Set.toFinite _).measure_zero _)
  rw [ae_iff] at hx
  have : noisePrior ts Set.univ = 0 := by
    have e : (Set.univ : Set (NoiseValues ts)) = {y | stayingAll ts x = stayingAll ts y} ∪
        {y | ¬ stayingAll ts x = stayingAll ts y} := by
      ext y
      simp [em]
    rw [e]
    exact measure_union_null hnull hx
  exact hN (Measure.measure_univ_eq_zero.1 this)

end

/-! ### with other parameters -/

section

variable {R : Type} [MeasurableSpace R]

/-- Pairs of models that differ only in the noise. -/
noncomputable def noisePairs (ρ : Measure R) (ts : List Target) : Measure ((R × NoiseValues ts) × (R × NoiseValues ts)) :=
  (ρ.prod ((noisePrior ts).prod (noisePrior ts))).map fun z => ((z.1, z.2.1), (z.1, z.2.2))

theorem noisePairs_fun_meas (ts : List Target) :
    Measurable fun z : R × (NoiseValues ts × NoiseValues ts) => ((z.1, z.2.1), (z.1, z.2.2)) := by
  fun_prop

theorem noisePairs_symm (ρ : Measure R) [SFinite ρ] (ts : List Target) : (noisePairs ρ ts).map Prod.swap = noisePairs ρ ts := by
  unfold noisePairs
  rw [Measure.map_map measurable_swap (noisePairs_fun_meas ts)]
  have h1 : (ρ.prod ((noisePrior ts).prod (noisePrior ts))).map (Prod.map id Prod.swap) =
      ρ.prod ((noisePrior ts).prod (noisePrior ts)) := by
    rw [← Measure.map_prod_map _ _ measurable_id measurable_swap, Measure.map_id, Measure.prod_swap]
  conv_rhs => rw [← h1]
  rw [Measure.map_map (noisePairs_fun_meas ts) (by fun_prop)]
  rfl

/-- What holds of the proposals for one parameter holds of them beside another one that they do not change. -/
theorem beside_joint {Y D : Type} [MeasurableSpace Y] [MeasurableSpace D] (ρ : Measure R) [SFinite ρ] {ν : Measure Y}
    [IsFiniteMeasure ν] {δ : Measure D} [IsProbabilityMeasure δ] {s : Y → ENNReal} (hs : Measurable s)
    {k : Y × Y → ENNReal} (hk : Measurable k) {land : Y → D → Y} (hland : Measurable fun z : Y × D => land z.1 z.2)
    (h : ((ν.withDensity s).prod δ).map (fun z => (z.1, land z.1 z.2)) = (ν.prod ν).withDensity k) :
    (((ρ.prod ν).withDensity fun x => s x.2).prod δ).map (fun z => (z.1, (z.1.1, land z.1.2 z.2))) =
      ((ρ.prod (ν.prod ν)).map fun z => ((z.1, z.2.1), (z.1, z.2.2))).withDensity fun z => k (z.1.2, z.2.2) := by
  have hm : Measurable fun z : (R × Y) × D => (z.1, (z.1.1, land z.1.2 z.2)) :=
    measurable_fst.prodMk ((measurable_fst.comp measurable_fst).prodMk
      (hland.comp ((measurable_snd.comp measurable_fst).prodMk measurable_snd)))
  have hpm : Measurable fun z : R × (Y × Y) => ((z.1, z.2.1), (z.1, z.2.2)) := by fun_prop
  have hs2 : Measurable fun x : R × Y => s x.2 := hs.comp measurable_snd
  have hk2 : Measurable fun z : (R × Y) × (R × Y) => k (z.1.2, z.2.2) := by
    refine hk.comp ?_
    fun_prop
  refine Measure.ext_of_lintegral _ fun F hF => ?_
  have hin : Measurable fun x : R × Y => ∫⁻ θ, F (x, (x.1, land x.2 θ)) ∂δ :=
    Measurable.lintegral_prod_right' (hF.comp hm)
  rw [lintegral_map hF hm, lintegral_prod (fun z : (R × Y) × D => F (z.1, (z.1.1, land z.1.2 z.2)))
      (hF.comp hm).aemeasurable, lintegral_withDensity_eq_lintegral_mul _ hs2 hin,
    lintegral_prod _ (hs2.mul hin).aemeasurable, lintegral_withDensity_eq_lintegral_mul _ hk2 hF,
    lintegral_map (hk2.mul hF) hpm]
  have hkF : Measurable fun z : R × (Y × Y) => k (z.2.1, z.2.2) * F ((z.1, z.2.1), (z.1, z.2.2)) :=
    (hk2.mul hF).comp hpm
  refine Eq.trans ?_ (lintegral_prod _ hkF.aemeasurable).symm
  refine lintegral_congr fun a => ?_
  simp only [Pi.mul_apply]
  have hFa : Measurable fun z : Y × Y => F ((a, z.1), (a, z.2)) := by
    refine hF.comp ?_
    fun_prop
  have hma : Measurable fun z : Y × D => (z.1, land z.1 z.2) := measurable_fst.prodMk hland
  have hina : Measurable fun x : Y => ∫⁻ θ, F ((a, x), (a, land x θ)) ∂δ :=
    Measurable.lintegral_prod_right' (hFa.comp hma)
  have e : ∫⁻ z, F ((a, z.1), (a, z.2)) ∂((ν.withDensity s).prod δ).map (fun z => (z.1, land z.1 z.2)) =
      ∫⁻ z, F ((a, z.1), (a, z.2)) ∂(ν.prod ν).withDensity k := by rw [h]
  rw [lintegral_map hFa hma, lintegral_prod (fun z : Y × D => F ((a, z.1), (a, land z.1 z.2))) (hFa.comp hma).aemeasurable,
    lintegral_withDensity_eq_lintegral_mul _ hs hina, lintegral_withDensity_eq_lintegral_mul _ hk hFa] at e
  exact e

theorem noisePairs_joint (ρ : Measure R) [SFinite ρ] {ts : List Target} (h : ProperAll ts) :
    (((ρ.prod (noisePrior ts)).withDensity fun x => ENNReal.ofReal (stayingAll ts x.2)).prod (deviates ts)).map
        (fun z => (z.1, (z.1.1, landAll ts z.1.2 z.2))) =
      (noisePairs ρ ts).withDensity fun z => ENNReal.ofReal (kernelAll ts (z.1.2, z.2.2)) :=
  beside_joint ρ (stayingAll_meas ts).ennreal_ofReal (kernelAll_meas ts).ennreal_ofReal (landAll_meas ts) (noise_joint h)

/-! ### beside other proposals -/

variable {Θ : Type} [MeasurableSpace Θ] {n : ℕ}

/-- Some proposals that do not change the noise, and one that does (the last one of `m = n + 1`), for the prior times the
probability of not having to redraw. -/
noncomputable def withNoise (ρ : Measure R) (ts : List Target) (p : Scheme (R × NoiseValues ts) Θ n) (m : ℕ) (hm : m = n + 1) :
    Scheme (R × NoiseValues ts) (Θ × (Fin ts.length × Bool → ℕ → ℝ)) m where
  prior := (ρ.prod (noisePrior ts)).withDensity fun x => ENNReal.ofReal (stayingAll ts x.2)
  draws := p.draws.prod (deviates ts)
  move := fun i x θ => if h : i.val < n then p.move ⟨i, h⟩ x θ.1 else (x.1, landAll ts x.2 θ.2)
  rev := fun i => if h : i.val < n then ⟨(p.rev ⟨i, h⟩).val, by omega⟩ else i
  common := fun i => if h : i.val < n then p.common ⟨i, h⟩ else noisePairs ρ ts
  dens := fun i z => if h : i.val < n then stayingAll ts z.1.2 * p.dens ⟨i, h⟩ z else kernelAll ts (z.1.2, z.2.2)

variable {ρ : Measure R} {ts : List Target} {p : Scheme (R × NoiseValues ts) Θ n} {m : ℕ} {hm : m = n + 1}

theorem withNoise_ok [SFinite ρ] (h : ProperAll ts) {w : Fin n → ℝ} (hp : p.Ok w) (hprior : p.prior = ρ.prod (noisePrior ts))
    {w' : Fin m → ℝ} (hw : ∀ i (hi : i.val < n), w' i = w ⟨i, hi⟩) : (withNoise ρ ts p m hm).Ok w' where
  sfinite := by
    unfold withNoise
    infer_instance
  prob := by
    have := hp.prob
    unfold withNoise
    infer_instance
  meas := by
    intro i
    unfold withNoise
    by_cases hi : i.val < n
    · simp only [hi, dif_pos]
      have h1 : Measurable fun z : (R × NoiseValues ts) × (Θ × (Fin ts.length × Bool → ℕ → ℝ)) => (z.1, z.2.1) := by
        fun_prop
      exact (hp.meas ⟨i, hi⟩).comp h1
    · simp only [hi, dif_neg, not_false_eq_true]
      have h1 : Measurable fun z : (R × NoiseValues ts) × (Θ × (Fin ts.length × Bool → ℕ → ℝ)) => (z.1.2, z.2.2) := by
        fun_prop
      exact (measurable_fst.comp measurable_fst).prodMk ((landAll_meas ts).comp h1)
  rev_rev := by
    intro i
    unfold withNoise
    by_cases hi : i.val < n
    · simp only [hi, dif_pos, Fin.is_lt, Fin.eta, hp.rev_rev]
    · simp only [hi, dif_neg, not_false_eq_true]
  rev_weight := by
    intro i
    unfold withNoise
    by_cases hi : i.val < n
    · simp only [hi, dif_pos]
      rw [hw _ (p.rev ⟨i, hi⟩).is_lt, hw _ hi]
      exact hp.rev_weight ⟨i, hi⟩
    · simp only [hi, dif_neg, not_false_eq_true]
  symm := by
    intro i
    unfold withNoise
    by_cases hi : i.val < n
    · simp only [hi, dif_pos, Fin.is_lt, Fin.eta]
      exact hp.symm ⟨i, hi⟩
    · simp only [hi, dif_neg, not_false_eq_true]
      exact noisePairs_symm ρ ts
  dens_meas := by
    intro i
    unfold withNoise
    by_cases hi : i.val < n
    · simp only [hi, dif_pos]
      have h1 : Measurable fun z : (R × NoiseValues ts) × (R × NoiseValues ts) => stayingAll ts z.1.2 :=
        (stayingAll_meas ts).comp (measurable_snd.comp measurable_fst)
      exact h1.mul (hp.dens_meas ⟨i, hi⟩)
    · simp only [hi, dif_neg, not_false_eq_true]
      refine (kernelAll_meas ts).comp ?_
      fun_prop
  dens_nonneg := by
    intro i z
    unfold withNoise
    by_cases hi : i.val < n
    · simp only [hi, dif_pos]
      exact mul_nonneg (stayingAll_pos h _).le (hp.dens_nonneg _ _)
    · simp only [hi, dif_neg, not_false_eq_true]
      exact (kernelAll_pos ts _).le
  joint := by
    intro i
    have := hp.prob
    have hs : Measurable fun x : R × NoiseValues ts => ENNReal.ofReal (stayingAll ts x.2) :=
      ((stayingAll_meas ts).comp measurable_snd).ennreal_ofReal
    unfold withNoise
    by_cases hi : i.val < n
    · simp only [hi, dif_pos]
      have hmv : Measurable fun z : (R × NoiseValues ts) × Θ => (z.1, p.move ⟨i, hi⟩ z.1 z.2) :=
        measurable_fst.prodMk (hp.meas ⟨i, hi⟩)
      have hmv2 : Measurable fun z : (R × NoiseValues ts) × (Θ × (Fin ts.length × Bool → ℕ → ℝ)) =>
          (z.1, p.move ⟨i, hi⟩ z.1 z.2.1) := by
        have h1 : Measurable fun z : (R × NoiseValues ts) × (Θ × (Fin ts.length × Bool → ℕ → ℝ)) => (z.1, z.2.1) := by
          fun_prop
        exact hmv.comp h1
      have hd := (hp.dens_meas ⟨i, hi⟩).ennreal_ofReal
      have hsd : Measurable fun z : (R × NoiseValues ts) × (R × NoiseValues ts) =>
          ENNReal.ofReal (stayingAll ts z.1.2 * p.dens ⟨i, hi⟩ z) := by
        have h1 : Measurable fun z : (R × NoiseValues ts) × (R × NoiseValues ts) => stayingAll ts z.1.2 :=
          (stayingAll_meas ts).comp (measurable_snd.comp measurable_fst)
        exact (h1.mul (hp.dens_meas ⟨i, hi⟩)).ennreal_ofReal
      refine Measure.ext_of_lintegral _ fun F hF => ?_
      have hin : Measurable fun x : R × NoiseValues ts =>
          ∫⁻ θ, F (x, p.move ⟨i, hi⟩ x θ) ∂p.draws := Measurable.lintegral_prod_right' (hF.comp hmv)
      have e1 : ∀ x : R × NoiseValues ts, ∫⁻ θ, F (x, p.move ⟨i, hi⟩ x θ.1) ∂p.draws.prod (deviates ts) =
          ∫⁻ θ, F (x, p.move ⟨i, hi⟩ x θ) ∂p.draws := by
        intro x
        have hx : Measurable fun θ : Θ => F (x, p.move ⟨i, hi⟩ x θ) := (hF.comp hmv).comp measurable_prodMk_left
        rw [lintegral_prod (fun θ : Θ × (Fin ts.length × Bool → ℕ → ℝ) => F (x, p.move ⟨i, hi⟩ x θ.1))
          (hx.comp measurable_fst).aemeasurable]
        simp
      rw [lintegral_map hF hmv2, lintegral_prod (fun z : (R × NoiseValues ts) × (Θ × (Fin ts.length × Bool → ℕ → ℝ)) =>
        F (z.1, p.move ⟨i, hi⟩ z.1 z.2.1)) (hF.comp hmv2).aemeasurable]
      simp only [e1]
      rw [lintegral_withDensity_eq_lintegral_mul _ hs hin, lintegral_withDensity_eq_lintegral_mul _ hsd hF]
      have hsF : Measurable fun z : (R × NoiseValues ts) × (R × NoiseValues ts) =>
          ENNReal.ofReal (stayingAll ts z.1.2) * F z := (hs.comp measurable_fst).mul hF
      have e2 := lintegral_move hp ⟨i, hi⟩ hsF
      rw [hprior] at e2
      refine Eq.trans ?_ (e2.trans ?_)
      · refine lintegral_congr fun x => ?_
        exact (lintegral_const_mul' _ _ ENNReal.ofReal_ne_top).symm
      · refine lintegral_congr fun z => ?_
        simp only [Pi.mul_apply]
        rw [ENNReal.ofReal_mul (stayingAll_pos h _).le]
        ring
    · simp only [hi, dif_neg, not_false_eq_true]
      rw [← noisePairs_joint ρ h]
      have hmv : Measurable fun z : (R × NoiseValues ts) × (Fin ts.length × Bool → ℕ → ℝ) =>
          (z.1, (z.1.1, landAll ts z.1.2 z.2)) := by
        have hland : Measurable fun z : (R × NoiseValues ts) × (Fin ts.length × Bool → ℕ → ℝ) => landAll ts z.1.2 z.2 :=
          (landAll_meas ts).comp ((measurable_snd.comp measurable_fst).prodMk measurable_snd)
        exact measurable_fst.prodMk ((measurable_fst.comp measurable_fst).prodMk hland)
      have h1 : (fun z : (R × NoiseValues ts) × (Θ × (Fin ts.length × Bool → ℕ → ℝ)) =>
          (z.1, (z.1.1, landAll ts z.1.2 z.2.2))) = (fun z : (R × NoiseValues ts) × (Fin ts.length × Bool → ℕ → ℝ) =>
          (z.1, (z.1.1, landAll ts z.1.2 z.2))) ∘ Prod.map id Prod.snd := rfl
      rw [h1, ← Measure.map_map hmv (by fun_prop), ← Measure.map_prod_map _ _ measurable_id measurable_snd, Measure.map_id]
      have h2 : (p.draws.prod (deviates ts)).map Prod.snd = deviates ts := by
        rw [Measure.map_snd_prod, measure_univ, one_smul]
      rw [h2]

theorem withNoise_lumps [SFinite ρ] {w : Fin n → ℝ} (hp : p.Ok w) {r : R → R → Prop}
    (hr : p.Lumps fun x y => r x.1 y.1 ∧ x.2 = y.2) :
    (withNoise ρ ts p m hm).Lumps fun x y => r x.1 y.1 ∧ x.2 = y.2 where
  dens := by
    intro i x x' y y' hx hy
    unfold withNoise
    by_cases hi : i.val < n
    · simp only [hi, dif_pos]
      rw [hr.dens _ x x' y y' hx hy, hx.2]
    · simp only [hi, dif_neg, not_false_eq_true]
      rw [hx.2, hy.2]
  law := by
    intro i x x' hx G hG hGr
    have := hp.prob
    unfold withNoise
    by_cases hi : i.val < n
    · simp only [hi, dif_pos]
      have key : ∀ x : R × NoiseValues ts, ∫⁻ θ, G (p.move ⟨i, hi⟩ x θ.1) ∂p.draws.prod (deviates ts) =
          ∫⁻ θ, G (p.move ⟨i, hi⟩ x θ) ∂p.draws := by
        intro x
        have hx : Measurable fun θ : Θ => G (p.move ⟨i, hi⟩ x θ) := (hG.comp (hp.meas ⟨i, hi⟩)).comp measurable_prodMk_left
        rw [lintegral_prod (fun θ : Θ × (Fin ts.length × Bool → ℕ → ℝ) => G (p.move ⟨i, hi⟩ x θ.1))
          (hx.comp measurable_fst).aemeasurable]
        simp
      rw [key, key]
      exact hr.law ⟨i, hi⟩ x x' hx G hG hGr
    · simp only [hi, dif_neg, not_false_eq_true]
      refine lintegral_congr fun θ => hGr _ _ ⟨hx.1, ?_⟩
      simp only
      rw [hx.2]

/-- No chain that is in balance with the prior times the probability of not having to redraw preserves the posterior. -/
theorem withNoise_not_preserved [SFinite ρ] (hρ : ρ ≠ 0) (h : ProperAll ts) (hne : ts ≠ []) {w : Fin n → ℝ} (hp : p.Ok w)
    (hprior : p.prior = ρ.prod (noisePrior ts)) {w' : Fin m → ℝ} (hw : ∀ i (hi : i.val < n), w' i = w ⟨i, hi⟩)
    (hw0 : ∀ i, 0 ≤ w' i) (hpos : 0 < w' ⟨n, by omega⟩) {ℓ : R × NoiseValues ts → ℝ} (hℓ : Measurable ℓ) (T : ℝ)
    (hfin : posterior (ρ.prod (noisePrior ts)) ℓ T Set.univ ≠ ⊤) {r : R → R → Prop} :
    ¬ ∀ A, MeasurableSet A → Invariant (fun x y => r x.1 y.1 ∧ x.2 = y.2) A →
      ∫⁻ x, transition (withNoise ρ ts p m hm) w' ℓ T x A ∂posterior (ρ.prod (noisePrior ts)) ℓ T =
        posterior (ρ.prod (noisePrior ts)) ℓ T A := by
  intro hc
  have hok := withNoise_ok (hm := hm) h hp hprior hw
  set g : R × NoiseValues ts → ENNReal := fun x => ENNReal.ofReal (stayingAll ts x.2)⁻¹ with hg'
  have hg : Measurable g := (((stayingAll_meas ts).comp measurable_snd).inv).ennreal_ofReal
  have hs : Measurable fun x : R × NoiseValues ts => ENNReal.ofReal (stayingAll ts x.2) :=
    ((stayingAll_meas ts).comp measurable_snd).ennreal_ofReal
  have he : Measurable fun x => ENNReal.ofReal (Real.exp (ℓ x / T)) := by fun_prop
  have hpost : (posterior (withNoise ρ ts p m hm).prior ℓ T).withDensity g = posterior (ρ.prod (noisePrior ts)) ℓ T := by
    unfold posterior withNoise
    simp only
    rw [← withDensity_mul _ hs he, ← withDensity_mul _ (hs.mul he) hg]
    congr 1
    funext x
    simp only [Pi.mul_apply, hg']
    rw [mul_right_comm, ← ENNReal.ofReal_mul (stayingAll_pos h _).le, mul_inv_cancel₀ (stayingAll_pos h _).ne',
      ENNReal.ofReal_one, one_mul]
  have hlast : ¬ (⟨n, by omega⟩ : Fin m).val < n := by simp
  have hkeep := keeps_density (T := T) hok hw0 hℓ hg (by
      rw [← setLIntegral_univ, ← withDensity_apply _ MeasurableSet.univ, hpost]
      exact hfin) (fun c => by
      rw [hpost]
      refine hc _ (measurableSet_lt measurable_const hg) ?_
      rintro x y ⟨-, hxy⟩
      simp only [Set.mem_ofPred_eq, hg', hxy]) ⟨n, by omega⟩ hpos (by
      refine .of_forall fun z => ?_
      unfold withNoise
      simp only [lt_irrefl, dif_neg, not_false_eq_true]
      exact ⟨kernelAll_pos ts _, kernelAll_pos ts _⟩) (by
      unfold withNoise
      simp)
  have hcom : (withNoise ρ ts p m hm).common ⟨n, by omega⟩ = noisePairs ρ ts := by
    unfold withNoise
    simp
  rw [hcom] at hkeep
  have h1 := ae_of_ae_map (noisePairs_fun_meas ts).aemeasurable hkeep
  have h2 := Measure.ae_ae_of_ae_prod h1
  have : Filter.NeBot (ae ρ) := ae_neBot.2 hρ
  obtain ⟨a, ha⟩ := h2.exists
  refine staying_varies h hne ?_
  filter_upwards [ha] with z hz
  simp only [hg'] at hz
  rw [ENNReal.ofReal_eq_ofReal_iff (inv_nonneg.2 (stayingAll_pos h _).le) (inv_nonneg.2 (stayingAll_pos h _).le)] at hz
  exact inv_injective hz

end

end BB.Lemmas
