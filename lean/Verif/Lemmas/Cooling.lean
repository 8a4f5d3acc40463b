import Verif.Lemmas.Iterate

/-!
# Transitions that change with time
-/

namespace BB.Lemmas

open BB.Spec MeasureTheory

section back

variable {X : Type} [MeasurableSpace X] {r : X → X → Prop} (K : ℕ → X → Measure X)

/-- The mean of `g` after `j` transitions, from time `k`. -/
noncomputable def back (g : X → ENNReal) : ℕ → ℕ → X → ENNReal
  | 0, _, x => g x
  | j + 1, k, x => ∫⁻ y, back g j (k + 1) y ∂K k x

/-- The models from which transitions from time `k` stay in the sets `G` and lead, after `j` of them, to `W`. -/
def stays (G : ℕ → Set X) (W : Set X) : ℕ → ℕ → Set X
  | 0, _ => W
  | j + 1, k => G k ∩ {x | K k x (stays G W j (k + 1))ᶜ = 0}

/-- The distribution after `j` transitions, from time `k`. -/
noncomputable def ahead : ℕ → ℕ → Measure X → Measure X
  | 0, _, ν => ν
  | j + 1, k, ν => ahead j (k + 1) (ν.bind (K k))

variable {K} (hK : ∀ k, Measurable (K k))

include hK

theorem back_meas {g : X → ENNReal} (hg : Measurable g) : ∀ j k, Measurable (back K g j k)
  | 0, _ => hg
  | j + 1, k => (Measure.measurable_lintegral (back_meas hg j (k + 1))).comp (hK k)

theorem back_alike (hr : ∀ k, Alike r (K k)) (hprob : ∀ k x, IsProbabilityMeasure (K k x)) {g : X → ENNReal} (hg : Measurable g)
    (hgr : ∀ x y, r x y → g x = g y) : ∀ j k x y, r x y → back K g j k x = back K g j k y
  | 0, _, x, y, h => hgr x y h
  | j + 1, k, _, _, h => lintegral_alike (hr k) (hprob k) h (back_meas hK hg j (k + 1)) (back_alike hr hprob hg hgr j (k + 1))

theorem stays_meas {G : ℕ → Set X} (hG : ∀ k, MeasurableSet (G k)) {W : Set X} (hW : MeasurableSet W) : ∀ j k, MeasurableSet (stays K G W j k)
  | 0, _ => hW
  | j + 1, k => (hG k).inter (((Measure.measurable_coe (stays_meas hG hW j (k + 1)).compl).comp (hK k)) (measurableSet_singleton 0))

theorem stays_invariant (hr : ∀ k, Alike r (K k)) {G : ℕ → Set X} (hG : ∀ k, MeasurableSet (G k)) (hGr : ∀ k, Invariant r (G k)) {W : Set X}
    (hW : MeasurableSet W) (hWr : Invariant r W) : ∀ j k, Invariant r (stays K G W j k)
  | 0, _ => hWr
  | j + 1, k => fun x y h => by
    have ih := stays_invariant hr hG hGr hW hWr j (k + 1)
    have e := hr k x y h _ (stays_meas hK hG hW j (k + 1)).compl (invariant_compl ih)
    refine and_congr (hGr k x y h) ?_
    change K k x _ = 0 ↔ K k y _ = 0
    rw [e]

theorem stays_ae {π : Measure X} (hπ : ∀ k, Spares π (K k)) {G : ℕ → Set X} (hG : ∀ k, MeasurableSet (G k)) (hGa : ∀ k, ∀ᵐ x ∂π, x ∈ G k)
    {W : Set X} (hW : MeasurableSet W) (hWa : ∀ᵐ x ∂π, x ∈ W) : ∀ j k, ∀ᵐ x ∂π, x ∈ stays K G W j k
  | 0, _ => hWa
  | j + 1, k => by
    filter_upwards [hGa k, hπ k _ (stays_meas hK hG hW j (k + 1)).compl (stays_ae hπ hG hGa hW hWa j (k + 1))] with x h1 h2
    exact ⟨h1, h2⟩

theorem back_ahead {g : X → ENNReal} (hg : Measurable g) : ∀ j k (ν : Measure X), ∫⁻ x, back K g j k x ∂ν = ∫⁻ x, g x ∂ahead K j k ν
  | 0, _, _ => rfl
  | j + 1, k, ν => by
    change ∫⁻ x, ∫⁻ y, back K g j (k + 1) y ∂K k x ∂ν = _
    rw [← Measure.lintegral_bind (hK k).aemeasurable (back_meas hK hg j (k + 1)).aemeasurable]
    exact back_ahead hg j (k + 1) _

theorem ahead_prob (hprob : ∀ k x, IsProbabilityMeasure (K k x)) : ∀ j k (ν : Measure X), IsProbabilityMeasure ν →
    IsProbabilityMeasure (ahead K j k ν)
  | 0, _, _, h => h
  | j + 1, k, ν, h => by
    refine ahead_prob hprob j (k + 1) _ ⟨?_⟩
    rw [Measure.bind_apply .univ (hK k).aemeasurable]
    have : ∀ x, K k x Set.univ = 1 := fun x => (hprob k x).measure_univ
    simp only [this, lintegral_one, measure_univ]

theorem ahead_absCont {π : Measure X} (hπ : ∀ k, Spares π (K k)) : ∀ j k (ν : Measure X), ν ≪ π → ahead K j k ν ≪ π
  | 0, _, _, h => h
  | j + 1, k, ν, h => by
    refine ahead_absCont hπ j (k + 1) _ (Measure.AbsolutelyContinuous.mk fun N hN h0 => ?_)
    rw [Measure.bind_apply hN (hK k).aemeasurable]
    exact (lintegral_eq_zero_iff ((Measure.measurable_coe hN).comp (hK k))).2 (h.ae_le (hπ k N hN h0))

omit hK in
theorem back_one (hprob : ∀ k x, IsProbabilityMeasure (K k x)) : ∀ j k x, back K (fun _ => 1) j k x = 1
  | 0, _, _ => rfl
  | j + 1, k, x => by
    have := hprob k x
    change ∫⁻ y, back K (fun _ => 1) j (k + 1) y ∂K k x = 1
    simp only [back_one hprob j (k + 1), lintegral_one, measure_univ]

end back

section follow

variable {C X Ω : Type} [MeasurableSpace X] [MeasurableSpace Ω] {μ : Measure Ω} [IsProbabilityMeasure μ] {step : C → Ω → Option C}
  {val : C → X} {r : X → X → Prop}

/-- One step: its value has the law of the transition. -/
theorem step_value {K : Measure X} {c : C}
    (hlaw : ∀ A, MeasurableSet A → Invariant r A → μ {ω | ∃ c', step c ω = some c' ∧ val c' ∈ A} = K A) {ok : C → Prop}
    (hag : ∀ᵐ ω ∂μ, ∃ c', step c ω = some c' ∧ ok c') {W : Set X} (hW : MeasurableSet W) (hWr : Invariant r W) (h0 : K Wᶜ = 0)
    {g : X → ENNReal} (hg : Measurable g) (hgr : ∀ x y, r x y → g x = g y) :
    ∃ V : Ω → X, (∀ᵐ ω ∂μ, ∃ c', step c ω = some c' ∧ ok c' ∧ V ω = val c' ∧ val c' ∈ W) ∧ ∫⁻ ω, g (V ω) ∂μ = ∫⁻ y, g y ∂K := by
  set V : Ω → X := fun ω => match step c ω with
    | some c' => val c'
    | none => val c with hVdef
  have hV : ∀ A, MeasurableSet A → Invariant r A → μ (V ⁻¹' A) = K A := by
    intro A hA hAr
    rw [← hlaw A hA hAr]
    refine measure_congr ?_
    filter_upwards [hag] with ω hω
    obtain ⟨c', e, -⟩ := hω
    apply propext
    change V ω ∈ A ↔ ∃ c', step c ω = some c' ∧ val c' ∈ A
    have e' : V ω = val c' := by rw [hVdef]; simp only [e]
    rw [e']
    constructor
    · exact fun hx => ⟨c', e, hx⟩
    · rintro ⟨c2, e2, hx⟩
      rw [e] at e2
      injection e2 with e2
      rwa [e2]
  have hin : ∀ᵐ ω ∂μ, V ω ∈ W := by
    have := hV _ hW.compl (invariant_compl hWr)
    rw [h0] at this
    exact this
  refine ⟨V, ?_, (transfer hV hg hgr).2⟩
  filter_upwards [hag, hin] with ω hω hω2
  obtain ⟨c', e, hok⟩ := hω
  have e' : V ω = val c' := by rw [hVdef]; simp only [e]
  exact ⟨c', e, hok, e', e' ▸ hω2⟩

variable {K : ℕ → X → Measure X} {G : ℕ → Set X} {ok : ℕ → C → Prop}

/-- The steps at each time are transitions of that time. -/
structure FollowsAt (μ : Measure Ω) (step : C → Ω → Option C) (val : C → X) (r : X → X → Prop) (K : ℕ → X → Measure X)
    (ok : ℕ → C → Prop) (G : ℕ → Set X) : Prop where
  law : ∀ k c, ok k c → val c ∈ G k → ∀ A, MeasurableSet A → Invariant r A →
    μ {ω | ∃ c', step c ω = some c' ∧ val c' ∈ A} = K k (val c) A
  again : ∀ k c, ok k c → val c ∈ G k → ∀ᵐ ω ∂μ, ∃ c', step c ω = some c' ∧ ok (k + 1) c'

theorem back_eq (h : FollowsAt μ step val r K ok G) (hK : ∀ k, Measurable (K k)) (hprob : ∀ k x, IsProbabilityMeasure (K k x))
    (hr : ∀ k, Alike r (K k)) (hG : ∀ k, MeasurableSet (G k)) (hGr : ∀ k, Invariant r (G k)) {W : Set X}
    (hW : MeasurableSet W) (hWr : Invariant r W) {g : X → ENNReal} (hg : Measurable g) (hgr : ∀ x y, r x y → g x = g y)
    {L : ℕ → C → ENNReal} (hL : ∀ n c, L (n + 1) c = ∫⁻ ω, (step c ω).elim 0 (L n) ∂μ) {n : ℕ} :
    ∀ j k, (∀ c, ok (k + j) c → val c ∈ W → L n c = g (val c)) → ∀ c, ok k c → val c ∈ stays K G W j k →
      L (n + j) c = back K g j k (val c)
  | 0, _, h0, c, hc, hv => h0 c hc hv
  | j + 1, k, h0, c, hc, hv => by
    have ih := back_eq h hK hprob hr hG hGr hW hWr hg hgr hL (n := n) j (k + 1) (by
      rw [show k + 1 + j = k + (j + 1) by omega]
      exact h0)
    obtain ⟨V, h1, h2⟩ := step_value (h.law k c hc hv.1) (h.again k c hc hv.1) (stays_meas hK hG hW j (k + 1))
      (stays_invariant hK hr hG hGr hW hWr j (k + 1)) hv.2 (back_meas hK hg j (k + 1)) (back_alike hK hr hprob hg hgr j (k + 1))
    change L (n + j + 1) c = ∫⁻ y, back K g j (k + 1) y ∂K k (val c)
    rw [hL, ← h2]
    refine lintegral_congr_ae ?_
    filter_upwards [h1] with ω hω
    obtain ⟨c', e1, e2, e3, e4⟩ := hω
    rw [e1, e3]
    exact ih c' e2 e4

theorem back_le (h : FollowsAt μ step val r K ok G) (hK : ∀ k, Measurable (K k)) (hprob : ∀ k x, IsProbabilityMeasure (K k x))
    (hr : ∀ k, Alike r (K k)) (hG : ∀ k, MeasurableSet (G k)) (hGr : ∀ k, Invariant r (G k)) {W : Set X}
    (hW : MeasurableSet W) (hWr : Invariant r W) {g : X → ENNReal} (hg : Measurable g) (hgr : ∀ x y, r x y → g x = g y)
    {L : ℕ → C → ENNReal} (hL : ∀ n c, L (n + 1) c = ∫⁻ ω, (step c ω).elim 0 (L n) ∂μ) {n : ℕ} :
    ∀ j k, (∀ c, ok (k + j) c → val c ∈ W → g (val c) ≤ L n c) → ∀ c, ok k c → val c ∈ stays K G W j k →
      back K g j k (val c) ≤ L (n + j) c
  | 0, _, h0, c, hc, hv => h0 c hc hv
  | j + 1, k, h0, c, hc, hv => by
    have ih := back_le h hK hprob hr hG hGr hW hWr hg hgr hL (n := n) j (k + 1) (by
      rw [show k + 1 + j = k + (j + 1) by omega]
      exact h0)
    obtain ⟨V, h1, h2⟩ := step_value (h.law k c hc hv.1) (h.again k c hc hv.1) (stays_meas hK hG hW j (k + 1))
      (stays_invariant hK hr hG hGr hW hWr j (k + 1)) hv.2 (back_meas hK hg j (k + 1)) (back_alike hK hr hprob hg hgr j (k + 1))
    change ∫⁻ y, back K g j (k + 1) y ∂K k (val c) ≤ L (n + j + 1) c
    rw [hL, ← h2]
    refine lintegral_mono_ae ?_
    filter_upwards [h1] with ω hω
    obtain ⟨c', e1, e2, e3, e4⟩ := hω
    rw [e1, e3]
    exact ih c' e2 e4

end follow

end BB.Lemmas
