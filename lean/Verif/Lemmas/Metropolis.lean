import Verif.Spec.Reversible
import Mathlib.MeasureTheory.Integral.Marginal

/-!
# The Metropolis-Hastings algorithm: mixtures of proposals, and proposals for one of several components
-/

namespace BB.Lemmas

open BB Spec MeasureTheory

variable {X Θ : Type} [MeasurableSpace X] [MeasurableSpace Θ]

theorem weigh_meas {ℓ : X → ℝ} (hℓ : Measurable ℓ) {A B : X → ENNReal} (hA : Measurable A) (hB : Measurable B) :
    Measurable fun x => ENNReal.ofReal (Real.exp (ℓ x)) * (A x * B x) := by
  have he : Measurable fun x => ENNReal.ofReal (Real.exp (ℓ x)) := by fun_prop
  exact he.mul (hA.mul hB)

/-- A random proposal: from `x` to `move x θ`, where `θ` has the law `draws`, with the factor `ratio x θ` of the
acceptance probability that stands for the prior and the proposal. -/
structure Kern (X Θ : Type) [MeasurableSpace X] [MeasurableSpace Θ] where
  draws : Measure Θ
  move : X → Θ → X
  ratio : X → Θ → ℝ

/-- The law is a probability and everything is measurable. -/
structure Kern.Ok (p : Kern X Θ) : Prop where
  prob : IsProbabilityMeasure p.draws
  move : Measurable fun z : X × Θ => p.move z.1 z.2
  ratio : Measurable fun z : X × Θ => p.ratio z.1 z.2

/-- The acceptance probability. -/
noncomputable def rate (ℓ : X → ℝ) (x y : X) (r : ℝ) : ENNReal := ENNReal.ofReal (min 1 (r * Real.exp (ℓ y - ℓ x)))

omit [MeasurableSpace X] in
theorem rate_le_one (ℓ : X → ℝ) (x y : X) (r : ℝ) : rate ℓ x y r ≤ 1 :=
  ENNReal.ofReal_le_one.2 (min_le_left _ _)

/-- The mean of `G` after a step. -/
noncomputable def Kern.step (p : Kern X Θ) (ℓ : X → ℝ) (G : X → ENNReal) (x : X) : ENNReal :=
  ∫⁻ θ, rate ℓ x (p.move x θ) (p.ratio x θ) * G (p.move x θ) + (1 - rate ℓ x (p.move x θ) (p.ratio x θ)) * G x ∂p.draws

/-- The flow of accepted moves. -/
noncomputable def Kern.flow (p : Kern X Θ) (π : Measure X) (ℓ : X → ℝ) (H G : X → ENNReal) : ENNReal :=
  ∫⁻ x, ∫⁻ θ, ENNReal.ofReal (Real.exp (ℓ x)) * rate ℓ x (p.move x θ) (p.ratio x θ) * (H x * G (p.move x θ)) ∂p.draws ∂π

/-- Accepted moves in both directions are equally probable. -/
def Balanced {Θ' : Type} [MeasurableSpace Θ'] (π : Measure X) (p : Kern X Θ) (q : Kern X Θ') : Prop :=
  ∀ ℓ H G, Measurable ℓ → Measurable H → Measurable G → p.flow π ℓ H G = q.flow π ℓ G H

theorem Kern.Ok.rate_meas {p : Kern X Θ} (h : p.Ok) {ℓ : X → ℝ} (hℓ : Measurable ℓ) :
    Measurable fun z : X × Θ => rate ℓ z.1 (p.move z.1 z.2) (p.ratio z.1 z.2) := by
  unfold rate
  have h1 := hℓ.comp h.move
  have h2 : Measurable fun z : X × Θ => ℓ z.1 := hℓ.comp measurable_fst
  have h3 : Measurable fun z : X × Θ => Real.exp (ℓ (p.move z.1 z.2) - ℓ z.1) := Real.continuous_exp.measurable.comp (h1.sub h2)
  exact ENNReal.measurable_ofReal.comp (measurable_const.min (h.ratio.mul h3))

theorem Kern.Ok.step_meas {p : Kern X Θ} (h : p.Ok) {ℓ : X → ℝ} (hℓ : Measurable ℓ) {G : X → ENNReal} (hG : Measurable G) :
    Measurable (p.step ℓ G) := by
  have := h.prob
  have h1 := h.rate_meas hℓ
  have h2 : Measurable fun z : X × Θ => rate ℓ z.1 (p.move z.1 z.2) (p.ratio z.1 z.2) * G (p.move z.1 z.2) +
      (1 - rate ℓ z.1 (p.move z.1 z.2) (p.ratio z.1 z.2)) * G z.1 :=
    (h1.mul (hG.comp h.move)).add ((measurable_const.sub h1).mul (hG.comp measurable_fst))
  exact Measurable.lintegral_prod_right' h2

theorem Kern.Ok.step_one {p : Kern X Θ} (h : p.Ok) (ℓ : X → ℝ) (x : X) : p.step ℓ (fun _ => 1) x = 1 := by
  have := h.prob
  unfold Kern.step
  have : ∀ θ, rate ℓ x (p.move x θ) (p.ratio x θ) * 1 + (1 - rate ℓ x (p.move x θ) (p.ratio x θ)) * 1 = 1 := by
    intro θ
    rw [mul_one, mul_one]
    exact add_tsub_cancel_of_le (rate_le_one _ _ _ _)
  simp only [this, lintegral_one, measure_univ]

/-- The part of the steps without a move. -/
noncomputable def Kern.stay (p : Kern X Θ) (π : Measure X) (ℓ : X → ℝ) (H G : X → ENNReal) : ENNReal :=
  ∫⁻ x, ∫⁻ θ, ENNReal.ofReal (Real.exp (ℓ x)) * (1 - rate ℓ x (p.move x θ) (p.ratio x θ)) * (H x * G x) ∂p.draws ∂π

theorem Kern.stay_comm (p : Kern X Θ) (π : Measure X) (ℓ : X → ℝ) (H G : X → ENNReal) :
    p.stay π ℓ H G = p.stay π ℓ G H := by
  unfold Kern.stay
  refine lintegral_congr fun x => lintegral_congr fun θ => ?_
  rw [mul_comm (H x)]

theorem Kern.Ok.split {p : Kern X Θ} (h : p.Ok) (π : Measure X) {ℓ : X → ℝ} (hℓ : Measurable ℓ) {H G : X → ENNReal}
    (hH : Measurable H) (hG : Measurable G) :
    ∫⁻ x, ENNReal.ofReal (Real.exp (ℓ x)) * (H x * p.step ℓ G x) ∂π = p.flow π ℓ H G + p.stay π ℓ H G := by
  have := h.prob
  have h1 := h.rate_meas hℓ
  have he : Measurable fun x => ENNReal.ofReal (Real.exp (ℓ x)) := by fun_prop
  have hf : Measurable fun z : X × Θ => ENNReal.ofReal (Real.exp (ℓ z.1)) * rate ℓ z.1 (p.move z.1 z.2) (p.ratio z.1 z.2) *
      (H z.1 * G (p.move z.1 z.2)) :=
    ((he.comp measurable_fst).mul h1).mul ((hH.comp measurable_fst).mul (hG.comp h.move))
  have hs : Measurable fun z : X × Θ => ENNReal.ofReal (Real.exp (ℓ z.1)) *
      (1 - rate ℓ z.1 (p.move z.1 z.2) (p.ratio z.1 z.2)) * (H z.1 * G z.1) :=
    ((he.comp measurable_fst).mul (measurable_const.sub h1)).mul ((hH.comp measurable_fst).mul (hG.comp measurable_fst))
  unfold Kern.flow Kern.stay
  rw [← lintegral_add_left (Measurable.lintegral_prod_right' hf)]
  refine lintegral_congr fun x => ?_
  have hfx : Measurable fun θ => ENNReal.ofReal (Real.exp (ℓ x)) * rate ℓ x (p.move x θ) (p.ratio x θ) *
      (H x * G (p.move x θ)) := hf.comp measurable_prodMk_left
  have hgx : Measurable fun θ => rate ℓ x (p.move x θ) (p.ratio x θ) * G (p.move x θ) +
      (1 - rate ℓ x (p.move x θ) (p.ratio x θ)) * G x := by
    have h1x : Measurable fun θ => rate ℓ x (p.move x θ) (p.ratio x θ) := h1.comp measurable_prodMk_left
    have h2x : Measurable fun θ => G (p.move x θ) := (hG.comp h.move).comp measurable_prodMk_left
    exact (h1x.mul h2x).add ((measurable_const.sub h1x).mul measurable_const)
  rw [← lintegral_add_left hfx]
  unfold Kern.step
  rw [← mul_assoc, ← lintegral_const_mul _ hgx]
  refine lintegral_congr fun θ => ?_
  ring

/-- An operator that is symmetric with respect to a measure. -/
def Symm (π : Measure X) (ℓ : X → ℝ) (P : (X → ENNReal) → X → ENNReal) : Prop :=
  ∀ H G, Measurable H → Measurable G → ∫⁻ x, ENNReal.ofReal (Real.exp (ℓ x)) * (H x * P G x) ∂π =
    ∫⁻ x, ENNReal.ofReal (Real.exp (ℓ x)) * (G x * P H x) ∂π

theorem Balanced.symm_self {π : Measure X} {p : Kern X Θ} (h : Balanced π p p) (hp : p.Ok) {ℓ : X → ℝ} (hℓ : Measurable ℓ) :
    Symm π ℓ (p.step ℓ) := by
  intro H G hH hG
  rw [hp.split π hℓ hH hG, hp.split π hℓ hG hH, h ℓ H G hℓ hH hG, p.stay_comm π ℓ H G]

theorem Balanced.symm_pair {Θ' : Type} [MeasurableSpace Θ'] {π : Measure X} {p : Kern X Θ} {q : Kern X Θ'}
    (h : Balanced π p q) (hp : p.Ok) (hq : q.Ok) {ℓ : X → ℝ} (hℓ : Measurable ℓ) :
    Symm π ℓ (fun G x => p.step ℓ G x + q.step ℓ G x) := by
  intro H G hH hG
  have key : ∀ {A B : X → ENNReal}, Measurable A → Measurable B →
      ∫⁻ x, ENNReal.ofReal (Real.exp (ℓ x)) * (A x * (p.step ℓ B x + q.step ℓ B x)) ∂π =
      (p.flow π ℓ A B + p.stay π ℓ A B) + (q.flow π ℓ A B + q.stay π ℓ A B) := by
    intro A B hA hB
    rw [← hp.split π hℓ hA hB, ← hq.split π hℓ hA hB, ← lintegral_add_left (weigh_meas hℓ hA (hp.step_meas hℓ hB))]
    refine lintegral_congr fun x => ?_
    ring
  rw [key hH hG, key hG hH, h ℓ H G hℓ hH hG, ← h ℓ G H hℓ hG hH, p.stay_comm π ℓ H G, q.stay_comm π ℓ H G]
  ring

theorem Symm.add {π : Measure X} {ℓ : X → ℝ} {P Q : (X → ENNReal) → X → ENNReal} (hℓ : Measurable ℓ)
    (hP : Symm π ℓ P) (hQ : Symm π ℓ Q) (hPm : ∀ G, Measurable G → Measurable (P G)) :
    Symm π ℓ (fun G x => P G x + Q G x) := by
  intro H G hH hG
  simp only [mul_add]
  rw [lintegral_add_left (weigh_meas hℓ hH (hPm G hG)), lintegral_add_left (weigh_meas hℓ hG (hPm H hH)), hP H G hH hG,
    hQ H G hH hG]

theorem Symm.const_mul {π : Measure X} {ℓ : X → ℝ} {P : (X → ENNReal) → X → ENNReal} (hℓ : Measurable ℓ)
    (hP : Symm π ℓ P) (hPm : ∀ G, Measurable G → Measurable (P G)) (c : ENNReal) :
    Symm π ℓ (fun G x => c * P G x) := by
  intro H G hH hG
  have e : ∀ (A B : X → ENNReal), (fun x => ENNReal.ofReal (Real.exp (ℓ x)) * (A x * (c * P B x))) =
      fun x => c * (ENNReal.ofReal (Real.exp (ℓ x)) * (A x * P B x)) := by
    intro A B
    funext x
    ring
  rw [e, e, lintegral_const_mul _ (weigh_meas hℓ hH (hPm G hG)), lintegral_const_mul _ (weigh_meas hℓ hG (hPm H hH)),
    hP H G hH hG]

theorem Symm.sum {ι : Type} (s : Finset ι) {π : Measure X} {ℓ : X → ℝ} {P : ι → (X → ENNReal) → X → ENNReal}
    (hℓ : Measurable ℓ) (hP : ∀ i, Symm π ℓ (P i)) (hPm : ∀ i G, Measurable G → Measurable (P i G)) :
    Symm π ℓ (fun G x => ∑ i ∈ s, P i G x) := by
  intro H G hH hG
  simp only [Finset.mul_sum]
  rw [lintegral_finsetSum _ fun i _ => weigh_meas hℓ hH (hPm i G hG),
    lintegral_finsetSum _ fun i _ => weigh_meas hℓ hG (hPm i H hH)]
  exact Finset.sum_congr rfl fun i _ => hP i H G hH hG

/-- A symmetric operator that preserves constants preserves the mean. -/
theorem Symm.invariant {π : Measure X} {ℓ : X → ℝ} {P : (X → ENNReal) → X → ENNReal} (hP : Symm π ℓ P)
    (h1 : ∀ x, P (fun _ => 1) x = 1) {G : X → ENNReal} (hG : Measurable G) :
    ∫⁻ x, ENNReal.ofReal (Real.exp (ℓ x)) * P G x ∂π = ∫⁻ x, ENNReal.ofReal (Real.exp (ℓ x)) * G x ∂π := by
  have := hP (fun _ => 1) G measurable_const hG
  simpa only [one_mul, h1, mul_one] using this

/-! ### one of several components -/

section lift

variable {ι : Type} [Fintype ι] [DecidableEq ι] {Y : ι → Type} [∀ i, MeasurableSpace (Y i)]

/-- The proposal for the component `i`. -/
def Kern.lift (i : ι) (p : Kern (Y i) Θ) : Kern (∀ i, Y i) Θ where
  draws := p.draws
  move := fun x θ => Function.update x i (p.move (x i) θ)
  ratio := fun x θ => p.ratio (x i) θ

omit [Fintype ι] in
theorem Kern.Ok.lift {i : ι} {p : Kern (Y i) Θ} (h : p.Ok) : (p.lift i).Ok where
  prob := h.prob
  move := by
    have h1 : Measurable fun z : (∀ i, Y i) × Θ => p.move (z.1 i) z.2 :=
      h.move.comp (((measurable_pi_apply i).comp measurable_fst).prodMk measurable_snd)
    refine measurable_pi_lambda _ fun j => ?_
    by_cases hj : j = i
    · subst hj
      simpa [Kern.lift] using h1
    · have : (fun z : (∀ i, Y i) × Θ => (Kern.lift i p).move z.1 z.2 j) = fun z => z.1 j := by
        funext z
        exact Function.update_of_ne hj _ _
      rw [this]
      exact (measurable_pi_apply j).comp measurable_fst
  ratio := h.ratio.comp (((measurable_pi_apply i).comp measurable_fst).prodMk measurable_snd)

theorem Kern.Ok.flow_meas {p : Kern X Θ} (h : p.Ok) {ℓ : X → ℝ} (hℓ : Measurable ℓ) {H G : X → ENNReal}
    (hH : Measurable H) (hG : Measurable G) : Measurable fun x => ∫⁻ θ, ENNReal.ofReal (Real.exp (ℓ x)) *
      rate ℓ x (p.move x θ) (p.ratio x θ) * (H x * G (p.move x θ)) ∂p.draws := by
  have := h.prob
  have h1 := h.rate_meas hℓ
  have he : Measurable fun x => ENNReal.ofReal (Real.exp (ℓ x)) := by fun_prop
  have hf : Measurable fun z : X × Θ => ENNReal.ofReal (Real.exp (ℓ z.1)) * rate ℓ z.1 (p.move z.1 z.2) (p.ratio z.1 z.2) *
      (H z.1 * G (p.move z.1 z.2)) :=
    ((he.comp measurable_fst).mul h1).mul ((hH.comp measurable_fst).mul (hG.comp h.move))
  exact Measurable.lintegral_prod_right' hf

theorem Balanced.lift {Θ' : Type} [MeasurableSpace Θ'] {π : ∀ i, Measure (Y i)} [∀ i, SigmaFinite (π i)] {i : ι}
    {p : Kern (Y i) Θ} {q : Kern (Y i) Θ'} (h : Balanced (π i) p q) (hp : p.Ok) (hq : q.Ok) :
    Balanced (Measure.pi π) (p.lift i) (q.lift i) := by
  intro ℓ H G hℓ hH hG
  unfold Kern.flow
  refine lintegral_eq_of_lmarginal_eq {i} (hp.lift.flow_meas hℓ hH hG) (hq.lift.flow_meas hℓ hG hH) ?_
  rw [lmarginal_singleton, lmarginal_singleton]
  funext x
  have hu : Measurable fun y : Y i => Function.update x i y := measurable_update x
  have := h (fun y => ℓ (Function.update x i y)) (fun y => H (Function.update x i y)) (fun y => G (Function.update x i y))
    (hℓ.comp hu) (hH.comp hu) (hG.comp hu)
  unfold Kern.flow at this
  simp only [Kern.lift, Function.update_self, Function.update_idem]
  exact this

end lift

end BB.Lemmas
