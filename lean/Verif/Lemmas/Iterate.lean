import Verif.Spec.Reversible
import Mathlib.MeasureTheory.Measure.GiryMonad
import Mathlib.MeasureTheory.Measure.NullMeasurable

/-!
# Repeated transitions, where models are distinguished only up to a relation
-/

namespace BB.Lemmas

open BB.Spec MeasureTheory

section transfer

variable {X Ω : Type} [MeasurableSpace X] [MeasurableSpace Ω] {μ : Measure Ω} [IsProbabilityMeasure μ] {r : X → X → Prop}

theorem invariant_compl {A : Set X} (h : Invariant r A) : Invariant r Aᶜ := fun x y hxy => not_congr (h x y hxy)

theorem nullMeasurable_of_sum {B : Set Ω} (h : μ B + μ Bᶜ = 1) : NullMeasurableSet B μ := by
  set C := toMeasurable μ B with hC
  set D := toMeasurable μ Bᶜ with hD
  have hCm : MeasurableSet C := measurableSet_toMeasurable _ _
  have hDm : MeasurableSet D := measurableSet_toMeasurable _ _
  have h1 : μ C = μ B := measure_toMeasurable _
  have h2 : μ D = μ Bᶜ := measure_toMeasurable _
  have hsub : B ⊆ C := subset_toMeasurable _ _
  have hsub2 : Bᶜ ⊆ D := subset_toMeasurable _ _
  have h3 : μ (C ∪ D) + μ (C ∩ D) = 1 := by rw [measure_union_add_inter C hDm, h1, h2, h]
  have h4 : C ∪ D = Set.univ := Set.eq_univ_of_forall fun x => by
    by_cases hx : x ∈ B
    · exact .inl (hsub hx)
    · exact .inr (hsub2 hx)
  have h5 : μ (C ∩ D) = 0 := by
    rw [h4, measure_univ] at h3
    have h6 : (1 : ENNReal) + μ (C ∩ D) = 1 + 0 := by rw [h3, add_zero]
    exact (ENNReal.add_right_inj ENNReal.one_ne_top).1 h6
  refine ⟨C, hCm, ?_⟩
  have h6 : ∀ᵐ x ∂μ, x ∉ C ∩ D := measure_eq_zero_iff_ae_notMem.1 h5
  filter_upwards [h6] with x hx
  apply propext
  change x ∈ B ↔ x ∈ C
  constructor
  · exact fun hb => hsub hb
  · intro hc
    by_contra hb
    exact hx ⟨hc, hsub2 hb⟩

/-- A map whose law is known on the invariant sets. -/
theorem transfer {V : Ω → X} {κ : Measure X} (hV : ∀ A, MeasurableSet A → Invariant r A → μ (V ⁻¹' A) = κ A)
    {f : X → ENNReal} (hf : Measurable f) (hfr : ∀ x y, r x y → f x = f y) :
    AEMeasurable (fun ω => f (V ω)) μ ∧ ∫⁻ ω, f (V ω) ∂μ = ∫⁻ y, f y ∂κ := by
  have hinv : ∀ B : Set ENNReal, Invariant r (f ⁻¹' B) := fun B x y hxy => by
    change f x ∈ B ↔ f y ∈ B
    rw [hfr x y hxy]
  have hone : κ Set.univ = 1 := by
    rw [← hV _ .univ fun _ _ _ => Iff.rfl, Set.preimage_univ, measure_univ]
  have : IsProbabilityMeasure κ := ⟨hone⟩
  have h1 : NullMeasurable (fun ω => f (V ω)) μ := by
    intro B hB
    refine nullMeasurable_of_sum ?_
    have e1 := hV _ (hf hB) (hinv B)
    have e2 := hV _ (hf hB).compl (invariant_compl (hinv B))
    change μ (V ⁻¹' (f ⁻¹' B)) + μ (V ⁻¹' (f ⁻¹' B)ᶜ) = 1
    rw [e1, e2, measure_add_measure_compl (hf hB), hone]
  have h2 : AEMeasurable (fun ω => f (V ω)) μ := h1.aemeasurable
  refine ⟨h2, ?_⟩
  have h3 : μ.map (fun ω => f (V ω)) = κ.map f := by
    ext B hB
    rw [Measure.map_apply_of_aemeasurable h2 hB, Measure.map_apply hf hB]
    exact hV _ (hf hB) (hinv B)
  have h4 : ∫⁻ ω, f (V ω) ∂μ = ∫⁻ z, z ∂μ.map (fun ω => f (V ω)) := (lintegral_map' aemeasurable_id h2).symm
  rw [h4, h3, lintegral_map (f := fun z : ENNReal => z) measurable_id hf]

end transfer

section iterate

variable {X : Type} [MeasurableSpace X] {r : X → X → Prop} (K : X → Measure X)

/-- The probabilities after `n` transitions. -/
noncomputable def power : ℕ → X → Set X → ENNReal
  | 0, x, A => A.indicator 1 x
  | n + 1, x, A => ∫⁻ y, power n y A ∂K x

/-- The models from which `n` transitions stay in `G`. -/
def within (G : Set X) : ℕ → Set X
  | 0 => G
  | n + 1 => within G n ∩ {x | K x (within G n)ᶜ = 0}

variable {K}

theorem power_meas (hK : Measurable K) {A : Set X} (hA : MeasurableSet A) : ∀ n, Measurable fun x => power K n x A
  | 0 => measurable_one.indicator hA
  | n + 1 => (Measure.measurable_lintegral (power_meas hK hA n)).comp hK

/-- Related models have the same transitions. -/
def Alike (r : X → X → Prop) (K : X → Measure X) : Prop := ∀ x y, r x y → ∀ A, MeasurableSet A → Invariant r A → K x A = K y A

theorem lintegral_alike (hr : Alike r K) (hprob : ∀ x, IsProbabilityMeasure (K x)) {x y : X} (h : r x y) {f : X → ENNReal}
    (hf : Measurable f) (hfr : ∀ x y, r x y → f x = f y) : ∫⁻ z, f z ∂K x = ∫⁻ z, f z ∂K y := by
  have := hprob x
  exact (transfer (μ := K x) (V := id) (κ := K y) (hr x y h) hf hfr).2

theorem power_alike (hr : Alike r K) (hprob : ∀ x, IsProbabilityMeasure (K x)) (hK : Measurable K) {A : Set X} (hA : MeasurableSet A)
    (hAr : Invariant r A) : ∀ n x y, r x y → power K n x A = power K n y A
  | 0, x, y, h => by
    classical
    unfold power
    rw [Set.indicator_apply, Set.indicator_apply]
    simp only [hAr x y h, Pi.one_apply]
  | n + 1, x, y, h => lintegral_alike hr hprob h (power_meas hK hA n) (power_alike hr hprob hK hA hAr n)

theorem power_preserves (hK : Measurable K) {π : Measure X} (hπ : π.bind K = π) {A : Set X} (hA : MeasurableSet A) :
    ∀ n, ∫⁻ x, power K n x A ∂π = π A
  | 0 => by
    have e : (fun x => power K 0 x A) = A.indicator 1 := rfl
    rw [e, lintegral_indicator_one hA]
  | n + 1 => by
    have h1 : ∫⁻ x, ∫⁻ y, power K n y A ∂K x ∂π = ∫⁻ y, power K n y A ∂π.bind K :=
      (Measure.lintegral_bind hK.aemeasurable (power_meas hK hA n).aemeasurable).symm
    change ∫⁻ x, ∫⁻ y, power K n y A ∂K x ∂π = π A
    rw [h1, hπ, power_preserves hK hπ hA n]

theorem within_meas (hK : Measurable K) {G : Set X} (hG : MeasurableSet G) : ∀ n, MeasurableSet (within K G n)
  | 0 => hG
  | n + 1 => by
    have h := within_meas hK hG n
    exact h.inter (((Measure.measurable_coe h.compl).comp hK) (measurableSet_singleton 0))

theorem within_invariant (hr : Alike r K) (hK : Measurable K) {G : Set X} (hG : MeasurableSet G) (hGr : Invariant r G) :
    ∀ n, Invariant r (within K G n)
  | 0 => hGr
  | n + 1 => fun x y h => by
    have ih := within_invariant hr hK hG hGr n
    have e := hr x y h _ (within_meas hK hG n).compl (invariant_compl ih)
    refine and_congr (ih x y h) ?_
    change K x _ = 0 ↔ K y _ = 0
    rw [e]

/-- Almost no transition leads to a null set. -/
def Spares (π : Measure X) (K : X → Measure X) : Prop := ∀ N, MeasurableSet N → π N = 0 → ∀ᵐ x ∂π, K x N = 0

theorem spares_of_bind (hK : Measurable K) {π : Measure X} (hπ : π.bind K = π) : Spares π K := by
  intro N hN h0
  have h1 : ∫⁻ x, K x N ∂π = 0 := by
    rw [← Measure.bind_apply hN hK.aemeasurable, hπ]
    exact h0
  exact (lintegral_eq_zero_iff ((Measure.measurable_coe hN).comp hK)).1 h1

theorem within_ae (hK : Measurable K) {π : Measure X} (hπ : Spares π K) {G : Set X} (hG : MeasurableSet G)
    (hae : ∀ᵐ x ∂π, x ∈ G) : ∀ n, ∀ᵐ x ∂π, x ∈ within K G n
  | 0 => hae
  | n + 1 => by
    have ih := within_ae hK hπ hG hae n
    filter_upwards [ih, hπ _ (within_meas hK hG n).compl ih] with x g1 g2
    exact ⟨g1, g2⟩

/-- Almost surely, no number of transitions leads to a null set. -/
theorem power_spares (hK : Measurable K) {π : Measure X} (hπ : Spares π K) {N : Set X} (hN : MeasurableSet N) (h0 : π N = 0) :
    ∀ n, ∀ᵐ x ∂π, power K n x N = 0
  | 0 => by
    have h : ∀ᵐ x ∂π, x ∉ N := measure_eq_zero_iff_ae_notMem.1 h0
    filter_upwards [h] with x hx
    simp [power, hx]
  | n + 1 => by
    have hm := power_meas hK hN n
    filter_upwards [hπ {y | power K n y N = 0}ᶜ (hm (measurableSet_singleton 0)).compl (power_spares hK hπ hN h0 n)] with x hx
    unfold power
    exact (lintegral_eq_zero_iff hm).2 hx

end iterate

section chain

variable {C X Ω : Type} [MeasurableSpace X] [MeasurableSpace Ω] (μ : Measure Ω) (step : C → Ω → Option C) (val : C → X)

/-- The probabilities after `n` steps that are completed. -/
noncomputable def stepsLaw' : ℕ → C → Set X → ENNReal
  | 0, c, A => A.indicator 1 (val c)
  | n + 1, c, A => ∫⁻ ω, (match step c ω with
    | some c' => stepsLaw' n c' A
    | none => 0) ∂μ

variable {μ step val} [IsProbabilityMeasure μ] {r : X → X → Prop} {K : X → Measure X} {ok : C → Prop} {G : Set X}

/-- The steps are transitions according to `K`. -/
structure Follows (μ : Measure Ω) (step : C → Ω → Option C) (val : C → X) (r : X → X → Prop) (K : X → Measure X) (ok : C → Prop)
    (G : Set X) : Prop where
  law : ∀ c, ok c → val c ∈ G → ∀ A, MeasurableSet A → Invariant r A → μ {ω | ∃ c', step c ω = some c' ∧ val c' ∈ A} = K (val c) A
  again : ∀ c, ok c → val c ∈ G → ∀ᵐ ω ∂μ, ∃ c', step c ω = some c' ∧ ok c'

theorem steps_power (h : Follows μ step val r K ok G) (hK : Measurable K) (hprob : ∀ x, IsProbabilityMeasure (K x)) (hr : Alike r K)
    (hG : MeasurableSet G) (hGr : Invariant r G) {A : Set X} (hA : MeasurableSet A) (hAr : Invariant r A) :
    ∀ n c, ok c → val c ∈ within K G n → stepsLaw' μ step val n c A = power K n (val c) A
  | 0, c, _, _ => rfl
  | n + 1, c, hc, hv => by
    have hsub : ∀ n, within K G n ⊆ G := fun n => by
      induction n with
      | zero => exact le_rfl
      | succ n ih => exact fun x hx => ih hx.1
    have ih := steps_power h hK hprob hr hG hGr hA hAr n
    have hag := h.again c hc (hsub _ hv)
    have hlaw := h.law c hc (hsub _ hv)
    set V : Ω → X := fun ω => match step c ω with
      | some c' => val c'
      | none => val c with hVdef
    have hV : ∀ A, MeasurableSet A → Invariant r A → μ (V ⁻¹' A) = K (val c) A := by
      intro A hA hAr
      rw [← hlaw A hA hAr]
      refine measure_congr ?_
      filter_upwards [hag] with ω hω
      obtain ⟨c', e, -⟩ := hω
      apply propext
      change V ω ∈ A ↔ ∃ c', step c ω = some c' ∧ val c' ∈ A
      have e' : V ω = val c' := by rw [hVdef]; simp only [e]
      rw [e']
      constructor
      · exact fun hx => ⟨c', e, hx⟩
      · rintro ⟨c2, e2, hx⟩
        rw [e] at e2
        injection e2 with e2
        rwa [e2]
    have hin : ∀ᵐ ω ∂μ, V ω ∈ within K G n := by
      have := hV _ (within_meas hK hG n).compl (invariant_compl (within_invariant hr hK hG hGr n))
      rw [hv.2] at this
      exact this
    have e1 : stepsLaw' μ step val (n + 1) c A = ∫⁻ ω, power K n (V ω) A ∂μ := by
      refine lintegral_congr_ae ?_
      filter_upwards [hag, hin] with ω hω hω2
      obtain ⟨c', e, hok⟩ := hω
      have e' : V ω = val c' := by rw [hVdef]; simp only [e]
      rw [e'] at hω2
      rw [e', ← ih c' hok hω2]
      simp only [e]
    rw [e1]
    exact (transfer hV (power_meas hK hA n) (power_alike hr hprob hK hA hAr n)).2

/-- A distribution that the transitions preserve is preserved by any number of steps. -/
theorem steps_preserve (h : Follows μ step val r K ok G) (hK : Measurable K) (hprob : ∀ x, IsProbabilityMeasure (K x)) (hr : Alike r K)
    (hG : MeasurableSet G) (hGr : Invariant r G) {π : Measure X} (hπ : π.bind K = π) (hae : ∀ᵐ x ∂π, x ∈ G) {state : X → C}
    (hstate : ∀ᵐ x ∂π, ok (state x) ∧ r x (val (state x))) {A : Set X} (hA : MeasurableSet A) (hAr : Invariant r A) (n : ℕ) :
    ∫⁻ x, stepsLaw' μ step val n (state x) A ∂π = π A := by
  rw [← power_preserves hK hπ hA n]
  refine lintegral_congr_ae ?_
  filter_upwards [within_ae hK (spares_of_bind hK hπ) hG hae n, hstate] with x h1 h2
  rw [power_alike hr hprob hK hA hAr n x _ h2.2]
  exact steps_power h hK hprob hr hG hGr hA hAr n _ h2.1 ((within_invariant hr hK hG hGr n _ _ h2.2).1 h1)

theorem power_univ {K : X → Measure X} (hprob : ∀ x, IsProbabilityMeasure (K x)) : ∀ n x, power K n x Set.univ = 1
  | 0, x => by simp [power]
  | n + 1, x => by
    have := hprob x
    unfold power
    simp only [power_univ hprob n, lintegral_one, measure_univ]

theorem steps_complete (h : Follows μ step val r K ok G) (hK : Measurable K) (hprob : ∀ x, IsProbabilityMeasure (K x)) (hr : Alike r K)
    (hG : MeasurableSet G) (hGr : Invariant r G) {π : Measure X} (hπ : Spares π K) (hae : ∀ᵐ x ∂π, x ∈ G) {state : X → C}
    (hstate : ∀ᵐ x ∂π, ok (state x) ∧ r x (val (state x))) (n : ℕ) :
    ∀ᵐ x ∂π, stepsLaw' μ step val n (state x) Set.univ = 1 := by
  filter_upwards [within_ae hK hπ hG hae n, hstate] with x h1 h2
  rw [steps_power h hK hprob hr hG hGr .univ (fun _ _ _ => Iff.rfl) n _ h2.1 ((within_invariant hr hK hG hGr n _ _ h2.2).1 h1),
    power_univ hprob]

theorem steps_spare (h : Follows μ step val r K ok G) (hK : Measurable K) (hprob : ∀ x, IsProbabilityMeasure (K x)) (hr : Alike r K)
    (hG : MeasurableSet G) (hGr : Invariant r G) {π : Measure X} (hπ : Spares π K) (hae : ∀ᵐ x ∂π, x ∈ G) {state : X → C}
    (hstate : ∀ᵐ x ∂π, ok (state x) ∧ r x (val (state x))) {N : Set X} (hN : MeasurableSet N) (hNr : Invariant r N) (h0 : π N = 0)
    (n : ℕ) : ∀ᵐ x ∂π, stepsLaw' μ step val n (state x) N = 0 := by
  filter_upwards [within_ae hK hπ hG hae n, hstate, power_spares hK hπ hN h0 n] with x h1 h2 h3
  rw [steps_power h hK hprob hr hG hGr hN hNr n _ h2.1 ((within_invariant hr hK hG hGr n _ _ h2.2).1 h1),
    ← power_alike hr hprob hK hN hNr n x _ h2.2, h3]

end chain

end BB.Lemmas
