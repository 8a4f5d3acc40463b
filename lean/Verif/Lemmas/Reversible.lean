import Verif.Spec.Reversible
import Mathlib.MeasureTheory.Integral.Lebesgue.Add
import Mathlib.MeasureTheory.Function.SpecialFunctions.Basic
import Mathlib.Algebra.BigOperators.Field
import Mathlib.Tactic.FieldSimp
import Mathlib.Tactic.Positivity

/-!
# Detailed balance of a mixture of Metropolis–Hastings steps
-/

namespace BB.Lemmas

open BB.Spec MeasureTheory

section

variable {X Θ : Type} [MeasurableSpace X] [MeasurableSpace Θ] {n : ℕ} (p : Scheme X Θ n) (w : Fin n → ℝ)
  (ℓ : X → ℝ) (T : ℝ)

/-- The threshold below which a uniform deviate leads to acceptance. -/
noncomputable def threshold (i : Fin n) (z : X × X) : ℝ :=
  p.dens (p.rev i) z.swap / p.dens i z * Real.exp ((ℓ z.2 - ℓ z.1) / T)

/-- The acceptance probability. -/
noncomputable def acceptance (i : Fin n) (z : X × X) : ENNReal := ENNReal.ofReal (min 1 (threshold p ℓ T i z))

/-- The transition probabilities of one iteration. -/
noncomputable def transition (x : X) (A : Set X) : ENNReal :=
  ∑ i, ENNReal.ofReal (w i / ∑ j, w j) * ∫⁻ θ, (acceptance p ℓ T i (x, p.move i x θ) * A.indicator 1 (p.move i x θ) +
    (1 - acceptance p ℓ T i (x, p.move i x θ)) * A.indicator 1 x) ∂p.draws

variable {p w ℓ T}

theorem threshold_meas (hp : p.Ok w) (hℓ : Measurable ℓ) (i : Fin n) : Measurable (threshold p ℓ T i) := by
  unfold threshold
  have h1 := hp.dens_meas i
  have h2 : Measurable fun z : X × X => p.dens (p.rev i) z.swap := (hp.dens_meas _).comp measurable_swap
  fun_prop

theorem acceptance_meas (hp : p.Ok w) (hℓ : Measurable ℓ) (i : Fin n) : Measurable (acceptance p ℓ T i) := by
  unfold acceptance
  exact (measurable_const.min (threshold_meas hp hℓ i)).ennreal_ofReal

theorem acceptance_le_one (i : Fin n) (z : X × X) : acceptance p ℓ T i z ≤ 1 := by
  unfold acceptance
  rw [ENNReal.ofReal_le_one]
  exact min_le_left _ _

/-- The flow from `z.1` to `z.2`. -/
noncomputable def flow (p : Scheme X Θ n) (ℓ : X → ℝ) (T : ℝ) (i : Fin n) (z : X × X) : ENNReal :=
  ENNReal.ofReal (Real.exp (ℓ z.1 / T)) * acceptance p ℓ T i z * ENNReal.ofReal (p.dens i z)

theorem flow_eq (hp : p.Ok w) (i : Fin n) (z : X × X) :
    flow p ℓ T i z = ENNReal.ofReal (min (p.dens i z * Real.exp (ℓ z.1 / T))
      (p.dens (p.rev i) z.swap * Real.exp (ℓ z.2 / T))) := by
  have h0 := hp.dens_nonneg i z
  have h1 := hp.dens_nonneg (p.rev i) z.swap
  unfold flow acceptance
  have ht : 0 ≤ threshold p ℓ T i z := mul_nonneg (div_nonneg h1 h0) (Real.exp_nonneg _)
  rw [← ENNReal.ofReal_mul (Real.exp_nonneg _), ← ENNReal.ofReal_mul (mul_nonneg (Real.exp_nonneg _)
    (le_min zero_le_one ht))]
  congr 1
  rcases h0.eq_or_lt with h | h
  · rw [← h, mul_zero, zero_mul, min_eq_left]
    exact mul_nonneg h1 (Real.exp_nonneg _)
  · have hpos : 0 < Real.exp (ℓ z.1 / T) * p.dens i z := mul_pos (Real.exp_pos _) h
    rw [mul_right_comm, mul_min_of_nonneg _ _ hpos.le, mul_one, mul_comm (Real.exp _) (p.dens i z)]
    congr 1
    unfold threshold
    have : Real.exp (ℓ z.2 / T) = Real.exp (ℓ z.1 / T) * Real.exp ((ℓ z.2 - ℓ z.1) / T) := by
      rw [← Real.exp_add, sub_div, add_sub_cancel]
    rw [this]
    field_simp

theorem flow_swap (hp : p.Ok w) (i : Fin n) (z : X × X) : flow p ℓ T (p.rev i) z.swap = flow p ℓ T i z := by
  rw [flow_eq hp, flow_eq hp, hp.rev_rev, min_comm]
  rfl

theorem lintegral_move (hp : p.Ok w) (i : Fin n) {F : X × X → ENNReal} (hF : Measurable F) :
    ∫⁻ x, ∫⁻ θ, F (x, p.move i x θ) ∂p.draws ∂p.prior = ∫⁻ z, ENNReal.ofReal (p.dens i z) * F z ∂p.common i := by
  have := hp.sfinite
  have := hp.prob
  have hm : Measurable fun z : X × Θ => (z.1, p.move i z.1 z.2) := measurable_fst.prodMk (hp.meas i)
  have h1 : ∫⁻ z, F z ∂((p.prior.prod p.draws).map fun z => (z.1, p.move i z.1 z.2)) =
      ∫⁻ x, ∫⁻ θ, F (x, p.move i x θ) ∂p.draws ∂p.prior := by
    rw [lintegral_map hF hm, lintegral_prod (fun z : X × Θ => F (z.1, p.move i z.1 z.2)) (hF.comp hm).aemeasurable]
  rw [← h1, hp.joint i, lintegral_withDensity_eq_lintegral_mul _ (hp.dens_meas i).ennreal_ofReal hF]
  rfl

/-- What is integrated over the two models. -/
noncomputable def integrand (p : Scheme X Θ n) (ℓ : X → ℝ) (T : ℝ) (A B : Set X) (i : Fin n) (z : X × X) : ENNReal :=
  A.indicator 1 z.1 * (ENNReal.ofReal (Real.exp (ℓ z.1 / T)) *
    (acceptance p ℓ T i z * B.indicator 1 z.2 + (1 - acceptance p ℓ T i z) * B.indicator 1 z.1))

theorem ind_meas {A : Set X} (hA : MeasurableSet A) : Measurable (A.indicator (1 : X → ENNReal)) :=
  measurable_one.indicator hA

theorem integrand_meas (hp : p.Ok w) (hℓ : Measurable ℓ) {A B : Set X} (hA : MeasurableSet A) (hB : MeasurableSet B)
    (i : Fin n) : Measurable (integrand p ℓ T A B i) := by
  have h1 := acceptance_meas (T := T) hp hℓ i
  have h2 : Measurable fun z : X × X => A.indicator (1 : X → ENNReal) z.1 := (ind_meas hA).comp measurable_fst
  have h3 : Measurable fun z : X × X => B.indicator (1 : X → ENNReal) z.1 := (ind_meas hB).comp measurable_fst
  have h4 : Measurable fun z : X × X => B.indicator (1 : X → ENNReal) z.2 := (ind_meas hB).comp measurable_snd
  unfold integrand
  fun_prop

theorem transition_meas (hp : p.Ok w) (hℓ : Measurable ℓ) {B : Set X} (hB : MeasurableSet B) :
    Measurable fun x => transition p w ℓ T x B := by
  have := hp.prob
  unfold transition
  refine Finset.measurable_sum _ fun i _ => Measurable.const_mul ?_ _
  have hm : Measurable fun z : X × Θ => (z.1, p.move i z.1 z.2) := measurable_fst.prodMk (hp.meas i)
  have h1 : Measurable fun z : X × Θ => acceptance p ℓ T i (z.1, p.move i z.1 z.2) :=
    (acceptance_meas hp hℓ i).comp hm
  have h2 : Measurable fun z : X × Θ => B.indicator (1 : X → ENNReal) z.1 := (ind_meas hB).comp measurable_fst
  have h3 : Measurable fun z : X × Θ => B.indicator (1 : X → ENNReal) (p.move i z.1 z.2) :=
    (ind_meas hB).comp (hp.meas i)
  exact Measurable.lintegral_prod_right' (f := fun z : X × Θ => acceptance p ℓ T i (z.1, p.move i z.1 z.2) *
    B.indicator 1 (p.move i z.1 z.2) + (1 - acceptance p ℓ T i (z.1, p.move i z.1 z.2)) * B.indicator 1 z.1)
    (by fun_prop)

theorem lintegral_transition (hp : p.Ok w) (hℓ : Measurable ℓ) {A B : Set X} (hA : MeasurableSet A)
    (hB : MeasurableSet B) : ∫⁻ x in A, transition p w ℓ T x B ∂posterior p.prior ℓ T =
      ∑ i, ENNReal.ofReal (w i / ∑ j, w j) *
        ∫⁻ z, ENNReal.ofReal (p.dens i z) * integrand p ℓ T A B i z ∂p.common i := by
  have := hp.prob
  have he : Measurable fun x => ENNReal.ofReal (Real.exp (ℓ x / T)) := by fun_prop
  unfold posterior
  rw [setLIntegral_withDensity_eq_setLIntegral_mul _ he (transition_meas hp hℓ hB) hA, ← lintegral_indicator hA]
  have h1 : ∀ x, A.indicator ((fun x => ENNReal.ofReal (Real.exp (ℓ x / T))) * fun x => transition p w ℓ T x B) x =
      ∑ i, ENNReal.ofReal (w i / ∑ j, w j) * ∫⁻ θ, integrand p ℓ T A B i (x, p.move i x θ) ∂p.draws := by
    intro x
    unfold integrand
    have h2 : ∀ i, ∫⁻ θ, A.indicator 1 x * (ENNReal.ofReal (Real.exp (ℓ x / T)) *
        (acceptance p ℓ T i (x, p.move i x θ) * B.indicator 1 (p.move i x θ) +
          (1 - acceptance p ℓ T i (x, p.move i x θ)) * B.indicator 1 x)) ∂p.draws =
        A.indicator 1 x * (ENNReal.ofReal (Real.exp (ℓ x / T)) *
          ∫⁻ θ, (acceptance p ℓ T i (x, p.move i x θ) * B.indicator 1 (p.move i x θ) +
          (1 - acceptance p ℓ T i (x, p.move i x θ)) * B.indicator 1 x) ∂p.draws) := by
      intro i
      rw [lintegral_const_mul' _ _ (by
        unfold Set.indicator
        split
        · exact ENNReal.one_ne_top
        · exact ENNReal.zero_ne_top),
        lintegral_const_mul' _ _ ENNReal.ofReal_ne_top]
    simp only [h2]
    by_cases hx : x ∈ A
    · simp only [Set.indicator_of_mem hx, Pi.mul_apply, Pi.one_apply, one_mul]
      unfold transition
      rw [Finset.mul_sum]
      refine Finset.sum_congr rfl fun i _ => ?_
      ring
    · simp only [Set.indicator_of_notMem hx, zero_mul, mul_zero, Finset.sum_const_zero]
  rw [lintegral_congr h1, lintegral_finsetSum]
  · refine Finset.sum_congr rfl fun i _ => ?_
    rw [lintegral_const_mul' _ _ ENNReal.ofReal_ne_top, lintegral_move hp i (integrand_meas hp hℓ hA hB i)]
  · intro i _
    refine Measurable.const_mul ?_ _
    have hm : Measurable fun z : X × Θ => (z.1, p.move i z.1 z.2) := measurable_fst.prodMk (hp.meas i)
    exact Measurable.lintegral_prod_right' ((integrand_meas hp hℓ hA hB i).comp hm)

/-- The part of accepted moves, and the part of rejected ones. -/
theorem integrand_split (A B : Set X) (i : Fin n) (z : X × X) :
    ENNReal.ofReal (p.dens i z) * integrand p ℓ T A B i z =
      A.indicator 1 z.1 * B.indicator 1 z.2 * flow p ℓ T i z +
      (A ∩ B).indicator 1 z.1 * (ENNReal.ofReal (p.dens i z) * (ENNReal.ofReal (Real.exp (ℓ z.1 / T)) *
        (1 - acceptance p ℓ T i z))) := by
  unfold integrand flow
  have : (A ∩ B).indicator (1 : X → ENNReal) z.1 = A.indicator 1 z.1 * B.indicator 1 z.1 := by
    rw [Set.inter_indicator_one]
    rfl
  rw [this]
  ring

theorem detailed_balance (hp : p.Ok w) (hℓ : Measurable ℓ) : DetailedBalance (posterior p.prior ℓ T) (transition p w ℓ T) := by
  intro A B hA hB
  rw [lintegral_transition hp hℓ hA hB, lintegral_transition hp hℓ hB hA]
  have hacc := fun i => acceptance_meas (T := T) hp hℓ i
  have hd := hp.dens_meas
  have hflow : ∀ i, Measurable (flow p ℓ T i) := by
    intro i
    have h1 := hacc i
    have h2 := hd i
    unfold flow
    fun_prop
  have hU : ∀ A B : Set X, MeasurableSet A → MeasurableSet B → ∀ i : Fin n, Measurable fun z : X × X =>
      A.indicator 1 z.1 * B.indicator 1 z.2 * flow p ℓ T i z := by
    intro A B hA hB i
    exact (((ind_meas hA).comp measurable_fst).mul ((ind_meas hB).comp measurable_snd)).mul (hflow i)
  have key : ∀ A B : Set X, MeasurableSet A → MeasurableSet B → ∀ i : Fin n,
      ∫⁻ z, ENNReal.ofReal (p.dens i z) * integrand p ℓ T A B i z ∂p.common i =
      (∫⁻ z, A.indicator 1 z.1 * B.indicator 1 z.2 * flow p ℓ T i z ∂p.common i) +
      ∫⁻ z, (A ∩ B).indicator 1 z.1 * (ENNReal.ofReal (p.dens i z) * (ENNReal.ofReal (Real.exp (ℓ z.1 / T)) *
        (1 - acceptance p ℓ T i z))) ∂p.common i := by
    intro A B hA hB i
    rw [← lintegral_add_left (hU A B hA hB i)]
    exact lintegral_congr fun z => integrand_split A B i z
  simp only [key A B hA hB, key B A hB hA, mul_add, Finset.sum_add_distrib]
  rw [Set.inter_comm B A]
  congr 1
  have hrev : ∀ i, ∫⁻ z, A.indicator 1 z.1 * B.indicator 1 z.2 * flow p ℓ T i z ∂p.common i =
      ∫⁻ z, B.indicator 1 z.1 * A.indicator 1 z.2 * flow p ℓ T (p.rev i) z ∂p.common (p.rev i) := by
    intro i
    conv_lhs => rw [← hp.rev_rev i, ← hp.symm (p.rev i), hp.rev_rev i]
    rw [lintegral_map (hU A B hA hB i) measurable_swap]
    refine lintegral_congr fun z => ?_
    rw [← flow_swap hp i z.swap, Prod.swap_swap]
    simp only [Prod.fst_swap, Prod.snd_swap]
    ring
  have hbij : Function.Bijective p.rev :=
    Function.bijective_iff_has_inverse.2 ⟨p.rev, hp.rev_rev, hp.rev_rev⟩
  rw [← hbij.sum_comp fun i => ENNReal.ofReal (w i / ∑ j, w j) *
    ∫⁻ z, B.indicator 1 z.1 * A.indicator 1 z.2 * flow p ℓ T i z ∂p.common i]
  refine Finset.sum_congr rfl fun i _ => ?_
  rw [hrev i, hp.rev_weight]

/-- The probabilities sum to one. -/
theorem transition_univ (hp : p.Ok w) (hw : ∀ i, 0 ≤ w i) (hs : 0 < ∑ i, w i) (x : X) :
    transition p w ℓ T x Set.univ = 1 := by
  have := hp.prob
  unfold transition
  have : ∀ i, ∫⁻ θ, (acceptance p ℓ T i (x, p.move i x θ) * Set.univ.indicator 1 (p.move i x θ) +
      (1 - acceptance p ℓ T i (x, p.move i x θ)) * Set.univ.indicator 1 x) ∂p.draws = 1 := by
    intro i
    have h1 : ∀ θ, acceptance p ℓ T i (x, p.move i x θ) * Set.univ.indicator 1 (p.move i x θ) +
      (1 - acceptance p ℓ T i (x, p.move i x θ)) * Set.univ.indicator 1 x = 1 := by
      intro θ
      simp only [Set.indicator_univ, Pi.one_apply, mul_one]
      exact add_tsub_cancel_of_le (acceptance_le_one _ _)
    rw [lintegral_congr h1, lintegral_one, measure_univ]
  simp only [this, mul_one]
  rw [← ENNReal.ofReal_sum_of_nonneg fun i _ => div_nonneg (hw i) hs.le, ← Finset.sum_div, div_self hs.ne',
    ENNReal.ofReal_one]

theorem preserves_of_balance {π : Measure X} {P : X → Set X → ENNReal} (h : DetailedBalance π P)
    (h1 : ∀ᵐ x ∂π, P x Set.univ = 1) : Preserves π P := by
  intro A hA
  have := h Set.univ A MeasurableSet.univ hA
  rw [Measure.restrict_univ] at this
  rw [this]
  rw [lintegral_congr_ae (ae_restrict_of_ae h1), lintegral_one, Measure.restrict_apply_univ]

theorem indicator_invariant {r : X → X → Prop} {A : Set X} (hA : Invariant r A) {x y : X} (h : r x y) :
    A.indicator (1 : X → ENNReal) x = A.indicator 1 y := by
  unfold Set.indicator
  by_cases hx : x ∈ A
  · rw [if_pos hx, if_pos ((hA x y h).1 hx)]
    rfl
  · rw [if_neg hx, if_neg fun hy => hx ((hA x y h).2 hy)]

theorem acceptance_lumps {r : X → X → Prop} (hr : p.Lumps r) (hℓr : ∀ x y, r x y → ℓ x = ℓ y) (i : Fin n)
    {x x' y y' : X} (hx : r x x') (hy : r y y') : acceptance p ℓ T i (x, y) = acceptance p ℓ T i (x', y') := by
  unfold acceptance threshold
  simp only [Prod.swap_prod_mk]
  rw [hr.dens i _ _ _ _ hx hy, hr.dens (p.rev i) _ _ _ _ hy hx, hℓr _ _ hx, hℓr _ _ hy]

/-- The transition probabilities do not distinguish between related models. -/
theorem transition_lumps (hp : p.Ok w) (hℓ : Measurable ℓ) {r : X → X → Prop} (hrefl : ∀ x, r x x) (hr : p.Lumps r)
    (hℓr : ∀ x y, r x y → ℓ x = ℓ y) {A : Set X} (hA : MeasurableSet A) (hAr : Invariant r A) {x x' : X} (hx : r x x') :
    transition p w ℓ T x A = transition p w ℓ T x' A := by
  unfold transition
  refine Finset.sum_congr rfl fun i _ => ?_
  congr 1
  set G : X → ENNReal := fun y => acceptance p ℓ T i (x, y) * A.indicator 1 y +
    (1 - acceptance p ℓ T i (x, y)) * A.indicator 1 x with hG
  have hacc : Measurable fun y => acceptance p ℓ T i (x, y) :=
    (acceptance_meas hp hℓ i).comp (measurable_const.prodMk measurable_id)
  have h1 : Measurable (A.indicator (1 : X → ENNReal)) := ind_meas hA
  have hGm : Measurable G := by
    rw [hG]
    fun_prop
  have hGr : ∀ y y', r y y' → G y = G y' := by
    intro y y' h
    simp only [hG]
    rw [acceptance_lumps hr hℓr i (hrefl x) h, indicator_invariant hAr h]
  have h2 := hr.law i x x' hx G hGm hGr
  refine h2.trans (lintegral_congr fun θ => ?_)
  simp only [hG]
  rw [acceptance_lumps hr hℓr i hx (hrefl (p.move i x' θ)), indicator_invariant hAr hx]

/-- That the density of almost all proposals is not zero does not distinguish between related models. -/
theorem good_lumps (hp : p.Ok w) {r : X → X → Prop} (hrefl : ∀ x, r x x) (hr : p.Lumps r) {x x' : X} (hx : r x x')
    (i : Fin n) (h : ∀ᵐ θ ∂p.draws, p.dens i (x, p.move i x θ) ≠ 0) :
    ∀ᵐ θ ∂p.draws, p.dens i (x', p.move i x' θ) ≠ 0 := by
  classical
  set G : X → ENNReal := fun y => if p.dens i (x, y) = 0 then 1 else 0 with hG
  have hd : Measurable fun y => p.dens i (x, y) := (hp.dens_meas i).comp (measurable_const.prodMk measurable_id)
  have hGm : Measurable G := Measurable.ite (hd (measurableSet_singleton 0)) measurable_const measurable_const
  have hmove : ∀ x, Measurable fun θ => p.move i x θ := fun x => (hp.meas i).comp (measurable_const.prodMk measurable_id)
  have h2 := hr.law i x x' hx G hGm fun y y' hy => by
    simp only [hG]
    rw [hr.dens i x x y y' (hrefl x) hy]
  have h3 : ∫⁻ θ, G (p.move i x θ) ∂p.draws = 0 := by
    refine (lintegral_eq_zero_iff (hGm.comp (hmove x))).2 ?_
    filter_upwards [h] with θ hθ
    simp only [hG, Function.comp, if_neg hθ]
    rfl
  rw [h3] at h2
  have h4 := (lintegral_eq_zero_iff (hGm.comp (hmove x'))).1 h2.symm
  filter_upwards [h4] with θ hθ hc
  simp only [hG, Function.comp, Pi.zero_apply] at hθ
  rw [hr.dens i x x' _ _ hx (hrefl _), hc, if_pos rfl] at hθ
  exact one_ne_zero hθ

theorem lumps_eq : p.Lumps Eq where
  dens := by rintro i x _ y _ rfl rfl; rfl
  law := by rintro i x _ rfl G _ _; rfl

end

end BB.Lemmas
