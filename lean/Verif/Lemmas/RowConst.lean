import Verif.Lemmas.Slices

/-!
# Functions of a row that notice neither new values nor new sites
-/

namespace BB.Lemmas

open MeasureTheory

variable {P V : Type} [MeasurableSpace P] [MeasurableSpace V] {σ : Measure P} {τ : Measure V} [SFinite σ] [SFinite τ] {F G C : P × V → ℝ}

/-- The function takes the value `a` at this site. -/
def Level (τ : Measure V) (F G C : P × V → ℝ) (s : P) (a : ℝ) : Prop := ∀ᵐ v ∂τ, F (s, v) ≠ 0 → G (s, v) = a ∧ C (s, v) = a

theorem level_of_values (hv : ∀ᵐ r ∂σ.prod τ, F r ≠ 0 → ∀ᵐ v ∂τ, F (r.1, v) ≠ 0 → G (r.1, v) = C r) :
    ∀ᵐ s ∂σ, ∃ a, Level τ F G C s a := by
  filter_upwards [Measure.ae_ae_of_ae_prod hv] with s hs
  by_cases h0 : τ {v | F (s, v) ≠ 0} = 0
  · refine ⟨0, ?_⟩
    have h1 : ∀ᵐ v ∂τ, ¬ F (s, v) ≠ 0 := measure_eq_zero_iff_ae_notMem.1 h0
    filter_upwards [h1] with v h2 h3
    exact absurd h3 h2
  have hf : ∃ᵐ v ∂τ, F (s, v) ≠ 0 := frequently_ae_iff.2 h0
  obtain ⟨v0, k1, k2⟩ := (hf.and_eventually hs).exists
  have k3 := k2 k1
  refine ⟨C (s, v0), ?_⟩
  filter_upwards [hs, k3] with v g1 g2 g3
  refine ⟨g2 g3, ?_⟩
  obtain ⟨v', m1, m2, m3⟩ := (hf.and_eventually ((g1 g3).and k3)).exists
  rw [← m2 m1, ← m3 m1]

theorem level_unique {s : P} {a b : ℝ} (h0 : τ {v | F (s, v) ≠ 0} ≠ 0) (ha : Level τ F G C s a) (hb : Level τ F G C s b) : a = b := by
  obtain ⟨v, k1, k2, k3⟩ := ((frequently_ae_iff.2 h0).and_eventually (ha.and hb)).exists
  rw [← (k2 k1).1, ← (k3 k1).1]

/-- The values are the same at sites that have possible values in common. -/
theorem level_sites (hF : Measurable F) (hG : Measurable G) (hC : Measurable C)
    (hs : ∀ᵐ r ∂σ.prod τ, F r ≠ 0 → ∀ᵐ s ∂σ, F (s, r.2) ≠ 0 → G (s, r.2) = C r) :
    ∀ᵐ s ∂σ, ∀ᵐ s' ∂σ, τ {v | F (s, v) ≠ 0 ∧ F (s', v) ≠ 0} ≠ 0 → ∀ a b, Level τ F G C s a → Level τ F G C s' b → a = b := by
  have h1 : ∀ᵐ s ∂σ, ∀ᵐ s' ∂σ, ∀ᵐ v ∂τ, F (s, v) ≠ 0 → F (s', v) ≠ 0 → G (s', v) = C (s, v) := by
    filter_upwards [Measure.ae_ae_of_ae_prod hs] with s h
    have h2 : ∀ᵐ v ∂τ, ∀ᵐ s' ∂σ, F (s, v) ≠ 0 → F (s', v) ≠ 0 → G (s', v) = C (s, v) := by
      filter_upwards [h] with v hv
      by_cases h3 : F (s, v) ≠ 0
      · filter_upwards [hv h3] with s' h4 _ h5
        exact h4 h5
      · exact .of_forall fun s' h4 => absurd h4 h3
    have m1 : Measurable fun q : P × V => F (s, q.2) := hF.comp (measurable_const.prodMk measurable_snd)
    have m2 : Measurable fun q : P × V => C (s, q.2) := hC.comp (measurable_const.prodMk measurable_snd)
    have hm : MeasurableSet {q : P × V | F (s, q.2) ≠ 0 → F (q.1, q.2) ≠ 0 → G (q.1, q.2) = C (s, q.2)} := by
      have e : {q : P × V | F (s, q.2) ≠ 0 → F (q.1, q.2) ≠ 0 → G (q.1, q.2) = C (s, q.2)} =
          {q : P × V | F (s, q.2) = 0} ∪ {q : P × V | F q = 0} ∪ {q : P × V | G q = C (s, q.2)} := by
        ext q
        simp only [Set.mem_union, Set.mem_ofPred_eq, Prod.mk.eta]
        tauto
      rw [e]
      exact ((m1 (measurableSet_singleton 0)).union (hF (measurableSet_singleton 0))).union (measurableSet_eq_fun hG m2)
    rw [Measure.ae_ae_comm (p := fun s' v => F (s, v) ≠ 0 → F (s', v) ≠ 0 → G (s', v) = C (s, v)) hm]
    exact h2
  filter_upwards [h1] with s h
  filter_upwards [h] with s' h' h0 a b ha hb
  obtain ⟨v, ⟨k1, k2⟩, k3, k4, k5⟩ := ((frequently_ae_iff.2 h0).and_eventually (h'.and (ha.and hb))).exists
  rw [← (k4 k1).2, ← (k5 k2).1, k3 k1 k2]

/-- A function that notices neither new values nor new sites is constant, if the sites are linked by possible values. -/
theorem rows_const (hF : Measurable F) (hG : Measurable G) (hC : Measurable C)
    (hv : ∀ᵐ r ∂σ.prod τ, F r ≠ 0 → ∀ᵐ v ∂τ, F (r.1, v) ≠ 0 → G (r.1, v) = C r)
    (hs : ∀ᵐ r ∂σ.prod τ, F r ≠ 0 → ∀ᵐ s ∂σ, F (s, r.2) ≠ 0 → G (s, r.2) = C r) {U : ℕ → Set P}
    (hcov : ∀ᵐ s ∂σ, ∃ i, s ∈ U i) (hlink : ∀ i, σ (U i ∩ U (i + 1)) ≠ 0)
    (hov : ∀ i, ∀ s ∈ U i, ∀ s' ∈ U i, τ {v | F (s, v) ≠ 0 ∧ F (s', v) ≠ 0} ≠ 0) :
    ∃ a, ∀ᵐ s ∂σ, Level τ F G C s a := by
  have hl := level_of_values hv
  have hp := level_sites hF hG hC hs
  have h1 : ∀ i, ∃ a, ∀ᵐ s ∂σ, s ∈ U i → Level τ F G C s a := by
    intro i
    have h0 : σ (U i) ≠ 0 := fun h => hlink i (measure_mono_null Set.inter_subset_left h)
    obtain ⟨s, k1, ⟨a, k2⟩, k3⟩ := ((frequently_ae_iff.2 h0).and_eventually (hl.and hp)).exists
    refine ⟨a, ?_⟩
    filter_upwards [hl, k3] with s' ⟨b, g1⟩ g2 g3
    rw [g2 (hov i s k1 s' g3) a b k2 g1]
    exact g1
  choose a ha using h1
  have h2 : ∀ i, a (i + 1) = a i := by
    intro i
    obtain ⟨s, ⟨k1, k1'⟩, k2, k3⟩ := ((frequently_ae_iff.2 (hlink i)).and_eventually ((ha i).and (ha (i + 1)))).exists
    refine level_unique (fun h => hov i s k1 s k1 ?_) (k3 k1') (k2 k1)
    simpa using h
  have h3 : ∀ i, a i = a 0 := fun i => by
    induction i with
    | zero => rfl
    | succ i ih => rw [h2, ih]
  refine ⟨a 0, ?_⟩
  filter_upwards [hcov, ae_all_iff.2 ha] with s ⟨i, hi⟩ h
  rw [← h3 i]
  exact h i hi

end BB.Lemmas
