import Verif.Lemmas.Iterate
import Mathlib.MeasureTheory.Measure.WithDensity

/-!
# Transitions that are tried again when they fail
-/

namespace BB.Lemmas

open BB.Spec MeasureTheory

/-- How an attempt ends. -/
inductive Tried (C : Type) where
  | failed (c : C)
  | done (c : C)
  | lost

section geometric

variable {C X Ω : Type} [MeasurableSpace Ω] (μ : Measure Ω) (out : C → Ω → Tried C) (val : C → X)

/-- The probability that one of `k` attempts is completed, and leads to `A`. -/
noncomputable def retryLaw (A : Set X) : ℕ → C → ENNReal
  | 0, _ => 0
  | k + 1, c => ∫⁻ ω, (match out c ω with
    | .failed c' => retryLaw A k c'
    | .done c' => A.indicator 1 (val c')
    | .lost => 0) ∂μ

/-- The attempt fails. -/
def failSet (c : C) : Set Ω := {ω | ∃ c', out c ω = .failed c'}

/-- The attempt is completed, and leads to `A`. -/
def doneSet (A : Set X) (c : C) : Set Ω := {ω | ∃ c', out c ω = .done c' ∧ val c' ∈ A}

variable {μ out val} {ok : C → Prop} {φ : X → ENNReal} {S : X → ENNReal} {A : Set X}

/-- The attempts are repetitions. -/
theorem retry_geometric (hm1 : ∀ c, ok c → NullMeasurableSet (failSet out c) μ) (hf : ∀ c, ok c → μ (failSet out c) = φ (val c))
    (hm2 : ∀ c, ok c → NullMeasurableSet (doneSet out val A c) μ) (hs : ∀ c, ok c → μ (doneSet out val A c) = S (val c))
    (hk : ∀ c, ok c → ∀ᵐ ω ∂μ, ∀ c', out c ω = .failed c' → ok c' ∧ val c' = val c) :
    ∀ k c, ok c → retryLaw μ out val A k c = (∑ j ∈ Finset.range k, φ (val c) ^ j) * S (val c)
  | 0, c, _ => by simp [retryLaw]
  | k + 1, c, hc => by
    have ih := retry_geometric hm1 hf hm2 hs hk k
    set v := (∑ j ∈ Finset.range k, φ (val c) ^ j) * S (val c) with hv
    have e1 : retryLaw μ out val A (k + 1) c =
        ∫⁻ ω, ((failSet out c).indicator (fun _ => v) ω + (doneSet out val A c).indicator (fun _ => 1) ω) ∂μ := by
      change ∫⁻ ω, _ ∂μ = _
      refine lintegral_congr_ae ?_
      filter_upwards [hk c hc] with ω hω
      match ho : out c ω with
      | .failed c' =>
        obtain ⟨h1, h2⟩ := hω c' ho
        have m1 : ω ∈ failSet out c := ⟨c', ho⟩
        have m2 : ω ∉ doneSet out val A c := by
          rintro ⟨c'', h, -⟩
          rw [ho] at h
          cases h
        rw [Set.indicator_of_mem m1, Set.indicator_of_notMem m2, add_zero]
        simp only
        rw [ih c' h1, h2]
      | .done c' =>
        have m1 : ω ∉ failSet out c := by
          rintro ⟨c'', h⟩
          rw [ho] at h
          cases h
        rw [Set.indicator_of_notMem m1, zero_add]
        simp only
        by_cases ha : val c' ∈ A
        · have m2 : ω ∈ doneSet out val A c := ⟨c', ho, ha⟩
          rw [Set.indicator_of_mem m2, Set.indicator_of_mem ha, Pi.one_apply]
        · have m2 : ω ∉ doneSet out val A c := by
            rintro ⟨c'', h, h'⟩
            rw [ho] at h
            injection h with h
            subst h
            exact ha h'
          rw [Set.indicator_of_notMem m2, Set.indicator_of_notMem ha]
      | .lost =>
        have m1 : ω ∉ failSet out c := by
          rintro ⟨c'', h⟩
          rw [ho] at h
          cases h
        have m2 : ω ∉ doneSet out val A c := by
          rintro ⟨c'', h, -⟩
          rw [ho] at h
          cases h
        rw [Set.indicator_of_notMem m1, Set.indicator_of_notMem m2, zero_add]
    rw [e1, lintegral_add_left' (aemeasurable_const.indicator₀ (hm1 c hc)), lintegral_indicator₀ (hm1 c hc),
      lintegral_indicator₀ (hm2 c hc), setLIntegral_const, setLIntegral_const, hf c hc, hs c hc, one_mul, hv,
      Finset.sum_range_succ']
    simp only [pow_zero]
    rw [add_mul, one_mul]
    congr 1
    simp only [pow_succ]
    rw [← Finset.sum_mul]
    ring

end geometric

section values

variable {C X Ω : Type} [MeasurableSpace Ω] [MeasurableSpace X]

/-- The attempts are related to transitions `K M` that never fail: where the attempt fails, these stay or lead to `F`, and lead to
`F` if `M` is large. -/
structure Retries (μ : Measure Ω) (out : C → Ω → Tried C) (val : C → X) (r : X → X → Prop) (K : ℕ → X → Measure X) (ok : C → Prop)
    (F : Set X) : Prop where
  values : ∀ c, ok c → ∃ V : ℕ → Ω → X,
    (∀ M A, MeasurableSet A → Invariant r A → μ (V M ⁻¹' A) = K M (val c) A) ∧
    ∀ᵐ ω ∂μ, (∃ c', out c ω = .failed c' ∧ ok c' ∧ val c' = val c ∧ (∃ M, V M ω ∈ F) ∧
        ∀ M, (V M ω ∈ F ∨ V M ω = val c) ∧ (V M ω ∈ F → V (M + 1) ω ∈ F)) ∨
      ∃ c', out c ω = .done c' ∧ val c' ∉ F ∧ ∀ M, V M ω = val c'
  start : ∀ c, ok c → val c ∉ F

variable (K : ℕ → X → Measure X) (F : Set X)

/-- The probability that an attempt fails. -/
noncomputable def failing (x : X) : ENNReal := ⨆ M, K M x F

/-- The probability that an attempt fails, but the transition `K 0` stays. -/
noncomputable def excess (x : X) : ENNReal := failing K F x - K 0 x F

/-- The probability that an attempt is completed, and leads to `A`. -/
noncomputable def succeeding (x : X) (A : Set X) : ENNReal := K 0 x (A \ F) - A.indicator (excess K F) x

variable {K F} {μ : Measure Ω} [IsProbabilityMeasure μ] {out : C → Ω → Tried C} {val : C → X} {r : X → X → Prop} {ok : C → Prop}

theorem retries_law (h : Retries μ out val r K ok F) (hF : MeasurableSet F) (hFr : Invariant r F) {A : Set X} (hA : MeasurableSet A)
    (hAr : Invariant r A) {c : C} (hc : ok c) :
    (NullMeasurableSet (failSet out c) μ ∧ μ (failSet out c) = failing K F (val c)) ∧
    (NullMeasurableSet (doneSet out val A c) μ ∧ μ (doneSet out val A c) = succeeding K F (val c) A) ∧
    (∀ᵐ ω ∂μ, ∀ c', out c ω = .failed c' → ok c' ∧ val c' = val c) ∧
    succeeding K F (val c) A + A.indicator (excess K F) (val c) = K 0 (val c) (A \ F) := by
  obtain ⟨V, hV, hω⟩ := h.values c hc
  have hs := h.start c hc
  have hone : ∀ M, K M (val c) Set.univ = 1 := fun M => by
    rw [← hV M _ .univ fun _ _ _ => Iff.rfl, Set.preimage_univ, measure_univ]
  have hnull : ∀ M D, MeasurableSet D → Invariant r D → NullMeasurableSet (V M ⁻¹' D) μ := fun M D hD hDr => by
    refine nullMeasurable_of_sum ?_
    rw [← Set.preimage_compl, hV M D hD hDr, hV M _ hD.compl (invariant_compl hDr)]
    have : IsProbabilityMeasure (K M (val c)) := ⟨hone M⟩
    rw [measure_add_measure_compl hD, hone]
  have hfail : (failSet out c : Set Ω) =ᵐ[μ] ⋃ M, V M ⁻¹' F := by
    filter_upwards [hω] with ω g
    apply propext
    change ω ∈ failSet out c ↔ ω ∈ ⋃ M, V M ⁻¹' F
    rw [Set.mem_iUnion]
    rcases g with ⟨c', g1, -, -, ⟨M, g4⟩, -⟩ | ⟨c', g1, g2, g3⟩
    · exact ⟨fun _ => ⟨M, g4⟩, fun _ => ⟨c', g1⟩⟩
    · constructor
      · rintro ⟨c'', e⟩
        rw [g1] at e
        cases e
      · rintro ⟨M, hM⟩
        change V M ω ∈ F at hM
        rw [g3 M] at hM
        exact absurd hM g2
  have hfm : NullMeasurableSet (failSet out c) μ :=
    (NullMeasurableSet.iUnion fun M => hnull M F hF hFr).congr hfail.symm
  have hfv : μ (failSet out c) = failing K F (val c) := by
    rw [measure_congr hfail, measure_iUnion_eq_iSup_accumulate]
    unfold failing
    refine iSup_congr fun M => ?_
    rw [← hV M F hF hFr]
    refine measure_congr ?_
    filter_upwards [hω] with ω g
    apply propext
    change ω ∈ Set.accumulate (fun M => V M ⁻¹' F) M ↔ V M ω ∈ F
    rw [Set.mem_accumulate]
    constructor
    · rintro ⟨j, hj, hjF⟩
      change V j ω ∈ F at hjF
      rcases g with ⟨c', -, -, -, -, g5⟩ | ⟨c', -, g2, g3⟩
      · obtain ⟨n, rfl⟩ := Nat.exists_eq_add_of_le hj
        clear hj
        induction n with
        | zero => exact hjF
        | succ n ih => exact (g5 (j + n)).2 ih
      · rw [g3 j] at hjF
        exact absurd hjF g2
    · exact fun hM => ⟨M, le_rfl, hM⟩
  have hAF : MeasurableSet (A \ F) := hA.diff hF
  have hAFr : Invariant r (A \ F) := fun x y hxy => and_congr (hAr x y hxy) (not_congr (hFr x y hxy))
  -- the part where the attempt fails, but the transition stays
  have hsub : (V 0 ⁻¹' F : Set Ω) ≤ᵐ[μ] failSet out c := by
    filter_upwards [hω] with ω g hF0
    rcases g with ⟨c', g1, -⟩ | ⟨c', -, g2, g3⟩
    · exact ⟨c', g1⟩
    · change V 0 ω ∈ F at hF0
      rw [g3 0] at hF0
      exact absurd hF0 g2
  have hdm : NullMeasurableSet (failSet out c \ V 0 ⁻¹' F) μ := hfm.diff (hnull 0 F hF hFr)
  have hdv : μ (failSet out c \ V 0 ⁻¹' F) = excess K F (val c) := by
    unfold excess
    rw [← hfv, ← hV 0 F hF hFr]
    have e1 : μ (failSet out c) = μ (failSet out c ∩ V 0 ⁻¹' F) + μ (failSet out c \ V 0 ⁻¹' F) :=
      (measure_inter_add_diff₀ _ (hnull 0 F hF hFr)).symm
    have e2 : μ (failSet out c ∩ V 0 ⁻¹' F) = μ (V 0 ⁻¹' F) := by
      refine measure_congr ?_
      filter_upwards [hsub] with ω g
      apply propext
      exact ⟨fun hx => hx.2, fun hx => ⟨g hx, hx⟩⟩
    rw [e2] at e1
    rw [e1, ENNReal.add_sub_cancel_left (measure_ne_top _ _)]
  have hkeep : ∀ᵐ ω ∂μ, ∀ c', out c ω = .failed c' → ok c' ∧ val c' = val c := by
    filter_upwards [hω] with ω g c' e
    rcases g with ⟨c'', g1, g2, g3, -⟩ | ⟨c'', g1, -⟩
    · rw [g1] at e
      injection e with e
      subst e
      exact ⟨g2, g3⟩
    · rw [g1] at e
      cases e
  refine ⟨⟨hfm, hfv⟩, ?_⟩
  by_cases ha : val c ∈ A
  · have hd : (doneSet out val A c : Set Ω) =ᵐ[μ] (V 0 ⁻¹' (A \ F)) \ (failSet out c \ V 0 ⁻¹' F) := by
      filter_upwards [hω] with ω g
      apply propext
      change ω ∈ doneSet out val A c ↔ ω ∈ (V 0 ⁻¹' (A \ F)) \ (failSet out c \ V 0 ⁻¹' F)
      rcases g with ⟨c', g1, -, -, -, g5⟩ | ⟨c', g1, g2, g3⟩
      · constructor
        · rintro ⟨c'', e, -⟩
          rw [g1] at e
          cases e
        · rintro ⟨hx, hy⟩
          exact absurd ⟨⟨c', g1⟩, hx.2⟩ hy
      · constructor
        · rintro ⟨c'', e, hx⟩
          rw [g1] at e
          injection e with e
          subst e
          refine ⟨⟨?_, ?_⟩, ?_⟩
          · rw [g3 0]; exact hx
          · rw [g3 0]; exact g2
          · rintro ⟨⟨c'', e⟩, -⟩
            rw [g1] at e
            cases e
        · rintro ⟨hx, -⟩
          have := hx.1
          rw [g3 0] at this
          exact ⟨c', g1, this⟩
    have hinc : (failSet out c \ V 0 ⁻¹' F : Set Ω) ≤ᵐ[μ] V 0 ⁻¹' (A \ F) := by
      filter_upwards [hω] with ω g hx
      rcases g with ⟨c', g1, -, -, -, g5⟩ | ⟨c', g1, g2, g3⟩
      · rcases (g5 0).1 with e | e
        · exact absurd e hx.2
        · refine ⟨?_, ?_⟩
          · rw [e]; exact ha
          · rw [e]; exact hs
      · obtain ⟨⟨c'', e⟩, -⟩ := hx
        rw [g1] at e
        cases e
    have hnA := hnull 0 _ hAF hAFr
    have hsum : μ (doneSet out val A c) + excess K F (val c) = K 0 (val c) (A \ F) := by
      rw [← hV 0 _ hAF hAFr, ← measure_inter_add_diff₀ (V 0 ⁻¹' (A \ F)) hdm, measure_congr hd, ← hdv, add_comm]
      congr 1
      refine measure_congr ?_
      filter_upwards [hinc] with ω g
      apply propext
      exact ⟨fun hx => ⟨g hx, hx⟩, fun hx => hx.2⟩
    have hdf : excess K F (val c) ≠ ⊤ := by
      rw [← hdv]
      exact measure_ne_top _ _
    have hval : succeeding K F (val c) A = μ (doneSet out val A c) := by
      unfold succeeding
      rw [Set.indicator_of_mem ha, ← hsum, ENNReal.add_sub_cancel_right hdf]
    refine ⟨⟨(hnA.diff hdm).congr hd.symm, hval.symm⟩, hkeep, ?_⟩
    rw [hval, Set.indicator_of_mem ha, hsum]
  · have hd : (doneSet out val A c : Set Ω) =ᵐ[μ] V 0 ⁻¹' (A \ F) := by
      filter_upwards [hω] with ω g
      apply propext
      change ω ∈ doneSet out val A c ↔ V 0 ω ∈ A \ F
      rcases g with ⟨c', g1, -, -, -, g5⟩ | ⟨c', g1, g2, g3⟩
      · constructor
        · rintro ⟨c'', e, -⟩
          rw [g1] at e
          cases e
        · intro hx
          rcases (g5 0).1 with e | e
          · exact absurd e hx.2
          · rw [e] at hx
            exact absurd hx.1 ha
      · rw [g3 0]
        constructor
        · rintro ⟨c'', e, hx⟩
          rw [g1] at e
          injection e with e
          subst e
          exact ⟨hx, g2⟩
        · exact fun hx => ⟨c', g1, hx.1⟩
    have hval : succeeding K F (val c) A = K 0 (val c) (A \ F) := by
      unfold succeeding
      rw [Set.indicator_of_notMem ha, tsub_zero]
    refine ⟨⟨(hnull 0 _ hAF hAFr).congr hd.symm, ?_⟩, hkeep, ?_⟩
    · rw [hval, measure_congr hd, hV 0 _ hAF hAFr]
    · rw [hval, Set.indicator_of_notMem ha, add_zero]

/-- The law of the attempts. -/
theorem retries_geometric (h : Retries μ out val r K ok F) (hF : MeasurableSet F) (hFr : Invariant r F) {A : Set X}
    (hA : MeasurableSet A) (hAr : Invariant r A) (k : ℕ) {c : C} (hc : ok c) :
    retryLaw μ out val A k c = (∑ j ∈ Finset.range k, failing K F (val c) ^ j) * succeeding K F (val c) A :=
  retry_geometric (S := fun x => succeeding K F x A) (fun c hc => (retries_law h hF hFr hA hAr hc).1.1)
    (fun c hc => (retries_law h hF hFr hA hAr hc).1.2) (fun c hc => (retries_law h hF hFr hA hAr hc).2.1.1)
    (fun c hc => (retries_law h hF hFr hA hAr hc).2.1.2) (fun c hc => (retries_law h hF hFr hA hAr hc).2.2.1) k c hc

end values

section balance

variable {X : Type} [MeasurableSpace X] {K : ℕ → X → Measure X} {F : Set X} {r : X → X → Prop} {π : Measure X}

theorem failing_meas (hK : ∀ M, Measurable (K M)) (hF : MeasurableSet F) : Measurable (failing K F) :=
  .iSup fun M => Measure.measurable_measure.1 (hK M) F hF

theorem failing_alike (hr : ∀ M, Alike r (K M)) (hF : MeasurableSet F) (hFr : Invariant r F) {x y : X} (h : r x y) :
    failing K F x = failing K F y := iSup_congr fun M => hr M x y h F hF hFr

theorem excess_alike (hr : ∀ M, Alike r (K M)) (hF : MeasurableSet F) (hFr : Invariant r F) {x y : X} (h : r x y) :
    excess K F x = excess K F y := by
  unfold excess
  rw [failing_alike hr hF hFr h, hr 0 x y h F hF hFr]

theorem succeeding_alike (hr : ∀ M, Alike r (K M)) (hF : MeasurableSet F) (hFr : Invariant r F) {x y : X} (h : r x y) {A : Set X}
    (hA : MeasurableSet A) (hAr : Invariant r A) : succeeding K F x A = succeeding K F y A := by
  unfold succeeding
  rw [hr 0 x y h _ (hA.diff hF) fun a b hab => and_congr (hAr a b hab) (not_congr (hFr a b hab))]
  congr 1
  by_cases hx : x ∈ A
  · rw [Set.indicator_of_mem hx, Set.indicator_of_mem ((hAr x y h).1 hx), excess_alike hr hF hFr h]
  · rw [Set.indicator_of_notMem hx, Set.indicator_of_notMem fun hy => hx ((hAr x y h).2 hy)]

theorem failing_le (hprob : ∀ M x, IsProbabilityMeasure (K M x)) (x : X) : failing K F x ≤ 1 :=
  iSup_le fun M => by
    have := hprob M x
    exact prob_le_one

/-- What is sampled when an attempt that fails is not counted. -/
theorem succeeding_balance (hK : ∀ M, Measurable (K M)) (hprob : ∀ M x, IsProbabilityMeasure (K M x)) (hF : MeasurableSet F)
    (hFr : Invariant r F) (hbal : DetailedBalanceUpTo r π fun x A => K 0 x A)
    (hadd : ∀ᵐ x ∂π.restrict Fᶜ, ∀ A, MeasurableSet A → Invariant r A →
      succeeding K F x A + A.indicator (excess K F) x = K 0 x (A \ F)) :
    DetailedBalanceUpTo r (π.restrict Fᶜ) (succeeding K F) := by
  have hKm : ∀ D, MeasurableSet D → Measurable fun x => K 0 x D := fun D hD => Measure.measurable_measure.1 (hK 0) D hD
  have hfin : ∀ x, excess K F x ≠ ⊤ := fun x =>
    ne_top_of_le_ne_top ENNReal.one_ne_top (tsub_le_self.trans (failing_le hprob x))
  have hdiff : ∀ {A B : Set X}, Invariant r A → Invariant r B → Invariant r (A \ B) := fun hA hB x y hxy =>
    and_congr (hA x y hxy) (not_congr (hB x y hxy))
  have hinter : ∀ {A B : Set X}, Invariant r A → Invariant r B → Invariant r (A ∩ B) := fun hA hB x y hxy =>
    and_congr (hA x y hxy) (hB x y hxy)
  set Q : Set X → Set X → ENNReal := fun C D => ∫⁻ x in C, K 0 x (D \ F) ∂π.restrict Fᶜ with hQ
  have hQs : ∀ C D, MeasurableSet C → MeasurableSet D → Invariant r C → Invariant r D → Q C D = Q D C := by
    intro C D hC hD hCr hDr
    have e : ∀ C D, MeasurableSet C → Q C D = ∫⁻ x in C \ F, K 0 x (D \ F) ∂π := fun C D hC => by
      rw [hQ]
      simp only
      rw [Measure.restrict_restrict hC, Set.diff_eq C]
    rw [e C D hC, e D C hD]
    exact hbal _ _ (hC.diff hF) (hD.diff hF) (hdiff hCr hFr) (hdiff hDr hFr)
  have hQadd : ∀ C D D', MeasurableSet D → MeasurableSet D' → Disjoint D D' → Q C (D ∪ D') = Q C D + Q C D' := by
    intro C D D' hD hD' hdis
    rw [hQ]
    simp only
    rw [← lintegral_add_left (hKm _ (hD.diff hF))]
    refine lintegral_congr fun x => ?_
    rw [Set.union_diff_distrib, measure_union (hdis.mono Set.diff_subset Set.diff_subset) (hD'.diff hF)]
  have key : ∀ A B, MeasurableSet A → MeasurableSet B → Invariant r A → Invariant r B →
      ∫⁻ x in A, succeeding K F x B ∂π.restrict Fᶜ =
        ∫⁻ x in A ∩ B, succeeding K F x (A ∩ B) ∂π.restrict Fᶜ + Q (A ∩ B) (B \ A) + (Q (A \ B) (A ∩ B) + Q (A \ B) (B \ A)) := by
    intro A B hA hB hAr hBr
    have hd : Disjoint (A ∩ B) (B \ A) := Set.disjoint_left.2 fun x hx hy => hy.2 hx.1
    have hu : A ∩ B ∪ B \ A = B := by rw [Set.inter_comm, Set.inter_union_diff]
    rw [← hQadd _ _ _ (hA.inter hB) (hB.diff hA) hd, hu, ← lintegral_inter_add_diff _ A hB]
    congr 1
    · rw [hQ]
      simp only
      rw [← lintegral_add_right _ (hKm _ ((hB.diff hA).diff hF))]
      refine setLIntegral_congr_fun_ae (hA.inter hB) ?_
      filter_upwards [hadd] with x hx hm
      have e1 := hx B hB hBr
      have e2 := hx (A ∩ B) (hA.inter hB) (hinter hAr hBr)
      rw [Set.indicator_of_mem hm.2] at e1
      rw [Set.indicator_of_mem hm] at e2
      have e3 : K 0 x (B \ F) = K 0 x ((A ∩ B) \ F) + K 0 x ((B \ A) \ F) := by
        rw [← measure_union (hd.mono Set.diff_subset Set.diff_subset) ((hB.diff hA).diff hF), ← Set.union_diff_distrib, hu]
      rw [← e1, ← e2, add_right_comm] at e3
      exact (ENNReal.add_left_inj (hfin x)).1 e3
    · rw [hQ]
      simp only
      refine setLIntegral_congr_fun_ae (hA.diff hB) ?_
      filter_upwards [hadd] with x hx hm
      have e1 := hx B hB hBr
      rwa [Set.indicator_of_notMem hm.2, add_zero] at e1
  intro A B hA hB hAr hBr
  rw [key A B hA hB hAr hBr, key B A hB hA hBr hAr, Set.inter_comm B A,
    hQs (A ∩ B) (B \ A) (hA.inter hB) (hB.diff hA) (hinter hAr hBr) (hdiff hBr hAr),
    hQs (A \ B) (A ∩ B) (hA.diff hB) (hA.inter hB) (hdiff hAr hBr) (hinter hAr hBr),
    hQs (A \ B) (B \ A) (hA.diff hB) (hB.diff hA) (hdiff hAr hBr) (hdiff hBr hAr)]
  ring

/-- A transition in balance, with rates. -/
theorem rates_balance {ρ : Measure X} {S : X → Set X → ENNReal} (hbal : DetailedBalanceUpTo r ρ S)
    {q : X → ENNReal} (hq : AEMeasurable q ρ) (hqf : ∀ᵐ x ∂ρ, q x ≠ ⊤) {P : X → Set X → ENNReal}
    (hP : ∀ᵐ x ∂ρ, ∀ A, MeasurableSet A → Invariant r A → q x * P x A = S x A) :
    DetailedBalanceUpTo r (ρ.withDensity q) P := by
  have e : ∀ A B, MeasurableSet A → MeasurableSet B → Invariant r B →
      ∫⁻ x in A, P x B ∂ρ.withDensity q = ∫⁻ x in A, S x B ∂ρ := by
    intro A B hA hB hBr
    rw [restrict_withDensity hA, lintegral_withDensity_eq_lintegral_mul_non_measurable₀ _ (hq.restrict)
      ((ae_restrict_of_ae hqf).mono fun x hx => hx.lt_top)]
    refine lintegral_congr_ae (ae_restrict_of_ae ?_)
    filter_upwards [hP] with x hx
    exact hx B hB hBr
  intro A B hA hB hAr hBr
  rw [e A B hA hB hBr, e B A hB hA hAr]
  exact hbal A B hA hB hAr hBr

end balance

end BB.Lemmas
