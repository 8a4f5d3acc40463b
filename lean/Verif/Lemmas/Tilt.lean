import Verif.Lemmas.Reversible

/-!
# Transitions in balance with one distribution that preserve another one
-/

namespace BB.Lemmas

open BB.Spec MeasureTheory

section

variable {X : Type} [MeasurableSpace X]

/-- If random transitions are in balance with `μ` and preserve the probability that `h` is larger than `c` under the
distribution with the density `h` with respect to `μ`, then they never lead from where `h` is larger than `c` to where it is not. -/
theorem no_flow {μ : Measure X} {P : X → Set X → ENNReal} (hb : DetailedBalance μ P)
    (hm : ∀ B, MeasurableSet B → Measurable fun x => P x B) (h1 : ∀ x B, MeasurableSet B → P x B + P x Bᶜ = 1)
    {h : X → ENNReal} (hh : Measurable h) (hfin : ∫⁻ x, h x ∂μ ≠ ⊤)
    (c : ENNReal) (hpres : ∫⁻ x, P x {x | c < h x} ∂μ.withDensity h = μ.withDensity h {x | c < h x}) : ∫⁻ x in {x | c < h x}, P x {x | c < h x}ᶜ ∂μ = 0 := by
  set A := {x | c < h x} with hA'
  have hA : MeasurableSet A := measurableSet_lt measurable_const hh
  have hPA := hm A hA
  have hPA' := hm Aᶜ hA.compl
  -- as much leaves `A` as enters it
  have e1 : ∫⁻ x in A, h x * P x Aᶜ ∂μ = ∫⁻ x in Aᶜ, h x * P x A ∂μ := by
    have h2 := hpres
    rw [lintegral_withDensity_eq_lintegral_mul _ hh hPA, withDensity_apply _ hA] at h2
    have h3 : ∫⁻ x in A, h x ∂μ = ∫⁻ x in A, h x * P x A ∂μ + ∫⁻ x in A, h x * P x Aᶜ ∂μ := by
      have hm1 : Measurable fun x => h x * P x A := hh.mul hPA
      rw [← lintegral_add_left hm1]
      refine lintegral_congr fun x => ?_
      rw [← mul_add, h1 x A hA, mul_one]
    have h4 : ∫⁻ x, (h * fun x => P x A) x ∂μ = ∫⁻ x in A, h x * P x A ∂μ + ∫⁻ x in Aᶜ, h x * P x A ∂μ :=
      (lintegral_add_compl _ hA).symm
    rw [h3, h4] at h2
    have h5 : ∫⁻ x in A, h x * P x A ∂μ ≠ ⊤ := by
      refine ne_top_of_le_ne_top hfin (le_trans (lintegral_mono fun x => ?_) (setLIntegral_le_lintegral A h))
      have : P x A ≤ 1 := le_trans le_self_add (h1 x A hA).le
      exact mul_le_of_le_one_right zero_le this
    exact ((ENNReal.add_right_inj h5).1 h2).symm
  -- hence not more than with the density `c`
  have e2 : ∫⁻ x in A, h x * P x Aᶜ ∂μ ≤ ∫⁻ x in A, c * P x Aᶜ ∂μ := by
    rw [e1]
    calc ∫⁻ x in Aᶜ, h x * P x A ∂μ ≤ ∫⁻ x in Aᶜ, c * P x A ∂μ := by
          refine setLIntegral_mono (hPA.const_mul _) fun x hx => ?_
          gcongr
          exact not_lt.1 hx
      _ = c * ∫⁻ x in Aᶜ, P x A ∂μ := lintegral_const_mul _ hPA
      _ = c * ∫⁻ x in A, P x Aᶜ ∂μ := by rw [hb Aᶜ A hA.compl hA]
      _ = _ := (lintegral_const_mul _ hPA').symm
  have e3 : ∀ᵐ x ∂μ.restrict A, c * P x Aᶜ ≤ h x * P x Aᶜ := by
    filter_upwards [ae_restrict_mem hA] with x hx
    gcongr
    exact hx.le
  have e4 : ∫⁻ x in A, c * P x Aᶜ ∂μ ≠ ⊤ := by
    refine ne_top_of_le_ne_top hfin (le_trans (lintegral_mono_ae e3) (le_trans (lintegral_mono fun x => ?_)
      (setLIntegral_le_lintegral A h)))
    have : P x Aᶜ ≤ 1 := le_trans le_add_self (h1 x A hA).le
    exact mul_le_of_le_one_right zero_le this
  have e5 := ae_eq_of_ae_le_of_lintegral_le e3 e4 (hh.mul hPA').aemeasurable e2
  rw [lintegral_eq_zero_iff hPA']
  filter_upwards [e5, ae_restrict_mem hA] with x hx hxA
  by_contra hne
  have hne' : P x Aᶜ ≠ 0 := hne
  have hle : P x Aᶜ ≤ 1 := le_trans le_add_self (h1 x A hA).le
  have := (ENNReal.mul_left_inj hne' (ne_top_of_le_ne_top ENNReal.one_ne_top hle)).1 hx
  exact absurd this hxA.ne

end

section

variable {X Θ : Type} [MeasurableSpace X] [MeasurableSpace Θ] {n : ℕ} {p : Scheme X Θ n} {w : Fin n → ℝ}
  {ℓ : X → ℝ} {T : ℝ}

theorem transition_add_compl (hp : p.Ok w) (hw : ∀ i, 0 ≤ w i) (hs : 0 < ∑ i, w i) (hℓ : Measurable ℓ) (x : X) {A : Set X}
    (hA : MeasurableSet A) : transition p w ℓ T x A + transition p w ℓ T x Aᶜ = 1 := by
  rw [← transition_univ (T := T) (ℓ := ℓ) hp hw hs x]
  unfold transition
  rw [← Finset.sum_add_distrib]
  refine Finset.sum_congr rfl fun i _ => ?_
  rw [← mul_add, ← lintegral_add_left]
  · congr 1
    refine lintegral_congr fun θ => ?_
    have key : ∀ y : X, A.indicator (1 : X → ENNReal) y + Aᶜ.indicator 1 y = Set.univ.indicator 1 y := by
      intro y
      rw [Set.indicator_univ]
      exact congrFun (Set.indicator_self_add_compl A (1 : X → ENNReal)) y
    rw [← key, ← key]
    ring
  · have hm : Measurable fun θ : Θ => p.move i x θ := (hp.meas i).comp measurable_prodMk_left
    have h1 : Measurable fun θ : Θ => acceptance p ℓ T i (x, p.move i x θ) :=
      (acceptance_meas hp hℓ i).comp (measurable_const.prodMk hm)
    have h2 : Measurable fun θ : Θ => A.indicator (1 : X → ENNReal) (p.move i x θ) := (ind_meas hA).comp hm
    fun_prop

/-- What flows from `A` to the rest by one of the proposals. -/
theorem flow_le (hp : p.Ok w) (hℓ : Measurable ℓ) {A : Set X} (hA : MeasurableSet A) (i : Fin n) :
    ENNReal.ofReal (w i / ∑ j, w j) * ∫⁻ z in A ×ˢ Aᶜ, flow p ℓ T i z ∂p.common i ≤
      ∫⁻ x in A, transition p w ℓ T x Aᶜ ∂posterior p.prior ℓ T := by
  rw [lintegral_transition hp hℓ hA hA.compl]
  refine le_trans ?_ (Finset.single_le_sum (f := fun i => ENNReal.ofReal (w i / ∑ j, w j) *
    ∫⁻ z, ENNReal.ofReal (p.dens i z) * integrand p ℓ T A Aᶜ i z ∂p.common i) (fun _ _ => zero_le) (Finset.mem_univ i))
  refine mul_le_mul_right ?_ _
  rw [← lintegral_indicator (hA.prod hA.compl)]
  refine lintegral_mono fun z => ?_
  rw [integrand_split]
  refine le_trans ?_ le_self_add
  by_cases h1 : z.1 ∈ A
  · by_cases h2 : z.2 ∈ Aᶜ
    · rw [Set.indicator_of_mem (show z ∈ A ×ˢ Aᶜ from ⟨h1, h2⟩), Set.indicator_of_mem h1, Set.indicator_of_mem h2]
      simp
    · rw [Set.indicator_of_notMem (fun h => h2 h.2)]
      exact zero_le
  · rw [Set.indicator_of_notMem (fun h => h1 h.1)]
    exact zero_le

/-- The flow vanishes only where one of the densities does. -/
theorem flow_pos (hp : p.Ok w) (i : Fin n) {z : X × X} (h1 : 0 < p.dens i z) (h2 : 0 < p.dens (p.rev i) z.swap) :
    flow p ℓ T i z ≠ 0 := by
  rw [flow_eq hp]
  exact (ENNReal.ofReal_pos.2 (lt_min (mul_pos h1 (Real.exp_pos _)) (mul_pos h2 (Real.exp_pos _)))).ne'

/-- If the chain in balance with the posterior of a scheme preserves another distribution, too, with a density `h`, and the
densities of the `i`-th proposal do not vanish, then this proposal does not change `h`. -/
theorem keeps_density (hp : p.Ok w) (hw : ∀ i, 0 ≤ w i) (hℓ : Measurable ℓ) {h : X → ENNReal} (hh : Measurable h)
    (hfin : ∫⁻ x, h x ∂posterior p.prior ℓ T ≠ ⊤)
    (hpres : ∀ c, ∫⁻ x, transition p w ℓ T x {x | c < h x} ∂(posterior p.prior ℓ T).withDensity h =
      (posterior p.prior ℓ T).withDensity h {x | c < h x}) (i : Fin n) (hi : 0 < w i)
    (hpos : ∀ᵐ z ∂p.common i, 0 < p.dens i z ∧ 0 < p.dens (p.rev i) z.swap) (hrev : p.rev i = i) :
    ∀ᵐ z ∂p.common i, h z.1 = h z.2 := by
  have hs : 0 < ∑ j, w j := lt_of_lt_of_le hi (Finset.single_le_sum (fun j _ => hw j) (Finset.mem_univ i))
  have key : ∀ c : ENNReal, p.common i ({x | c < h x} ×ˢ {x | c < h x}ᶜ) = 0 := by
    intro c
    have hA : MeasurableSet {x | c < h x} := measurableSet_lt measurable_const hh
    have h1 := flow_le (T := T) hp hℓ hA i
    rw [no_flow (detailed_balance hp hℓ) (fun B hB => transition_meas hp hℓ hB)
      (fun x B hB => transition_add_compl hp hw hs hℓ x hB) hh hfin c (hpres c), nonpos_iff_eq_zero] at h1
    have h2 : ∫⁻ z in {x | c < h x} ×ˢ {x | c < h x}ᶜ, flow p ℓ T i z ∂p.common i = 0 := by
      rcases mul_eq_zero.1 h1 with h | h
      · exact absurd h (ENNReal.ofReal_pos.2 (div_pos hi hs)).ne'
      · exact h
    have hfm : Measurable (flow p ℓ T i) := by
      have h1 := acceptance_meas (T := T) hp hℓ i
      have h2 := hp.dens_meas i
      unfold flow
      fun_prop
    rw [setLIntegral_eq_zero_iff (hA.prod hA.compl) hfm] at h2
    refine measure_mono_null (t := {z | ¬ ((0 < p.dens i z ∧ 0 < p.dens (p.rev i) z.swap) ∧
      (z ∈ {x | c < h x} ×ˢ {x | c < h x}ᶜ → flow p ℓ T i z = 0))}) ?_ (ae_iff.1 (hpos.and h2))
    rintro z hz ⟨⟨g1, g2⟩, g3⟩
    exact flow_pos hp i g1 g2 (g3 hz)
  -- on both sides
  have hle : ∀ᵐ z ∂p.common i, h z.1 ≤ h z.2 := by
    rw [ae_iff]
    refine measure_mono_null (t := ⋃ q : ℚ, {x | (Real.toNNReal q : ENNReal) < h x} ×ˢ {x | (Real.toNNReal q : ENNReal) < h x}ᶜ)
      ?_ (measure_iUnion_null fun q => key _)
    intro z hz
    obtain ⟨q, -, h1, h2⟩ := ENNReal.lt_iff_exists_rat_btwn.1 (not_le.1 hz)
    exact Set.mem_iUnion.2 ⟨q, h2, not_lt.2 h1.le⟩
  have hge : ∀ᵐ z ∂p.common i, h z.2 ≤ h z.1 := by
    have h1 : ∀ᵐ z ∂(p.common i).map Prod.swap, h z.1 ≤ h z.2 := by
      rw [hp.symm i, hrev]
      exact hle
    exact ae_of_ae_map measurable_swap.aemeasurable h1
  filter_upwards [hle, hge] with z h1 h2
  exact le_antisymm h1 h2

end

end BB.Lemmas
