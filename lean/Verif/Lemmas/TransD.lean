import Verif.Spec.TransD
import Verif.Lemmas.Reversible
import Mathlib.MeasureTheory.MeasurableSpace.Prod
import Mathlib.Algebra.BigOperators.Intervals

/-!
# Births and deaths are the reverse of each other with respect to the trans-dimensional prior
-/

namespace BB.Lemmas

open BB.Spec MeasureTheory

section Sigma

variable {R Θ Y : Type} [MeasurableSpace R] [MeasurableSpace Θ] [MeasurableSpace Y]

theorem measurable_mk (n : ℕ) : Measurable (tup n : (Fin n → R) → Tuple R) := by
  intro A hA
  exact (MeasurableSpace.measurableSet_iInf.1 hA) n

theorem measurableSet_tuple {A : Set (Tuple R)} :
    MeasurableSet A ↔ ∀ n, MeasurableSet (tup n ⁻¹' A : Set (Fin n → R)) :=
  MeasurableSpace.measurableSet_iInf

theorem tup_injective (n : ℕ) : Function.Injective (tup n : (Fin n → R) → Tuple R) := by
  intro v w h
  exact eq_of_heq (Sigma.mk.inj h).2

theorem embedding_mk (n : ℕ) : MeasurableEmbedding (tup n : (Fin n → R) → Tuple R) where
  injective := tup_injective n
  measurable := measurable_mk n
  measurableSet_image' := by
    intro A hA
    rw [measurableSet_tuple]
    intro m
    by_cases h : m = n
    · subst h
      rwa [Set.preimage_image_eq _ (tup_injective m)]
    · have : (tup m ⁻¹' (tup n '' A) : Set (Fin m → R)) = ∅ := by
        ext v
        simp only [Set.mem_preimage, Set.mem_image, Set.mem_empty_iff_false, iff_false, not_exists, not_and]
        rintro w - hc
        exact h (congrArg Sigma.fst hc).symm
      rw [this]
      exact MeasurableSet.empty

theorem measurable_tuple {f : Tuple R → Y} (h : ∀ n, Measurable fun v : Fin n → R => f ⟨n, v⟩) : Measurable f := by
  intro A hA
  rw [measurableSet_tuple]
  exact fun n => h n hA

theorem measurable_tuple_prod {f : Tuple R × Θ → Y}
    (h : ∀ n, Measurable fun z : (Fin n → R) × Θ => f (⟨n, z.1⟩, z.2)) : Measurable f := by
  intro A hA
  have : f ⁻¹' A = ⋃ n, (fun z : (Fin n → R) × Θ => ((⟨n, z.1⟩ : Tuple R), z.2)) ''
      ((fun z : (Fin n → R) × Θ => f (⟨n, z.1⟩, z.2)) ⁻¹' A) := by
    ext ⟨⟨n, v⟩, θ⟩
    simp only [Set.mem_preimage, Set.mem_iUnion, Set.mem_image]
    constructor
    · intro hz
      exact ⟨n, (v, θ), hz, rfl⟩
    · rintro ⟨m, ⟨w, θ'⟩, hw, heq⟩
      rw [← heq]
      exact hw
  rw [this]
  refine MeasurableSet.iUnion fun n => ?_
  have he : MeasurableEmbedding fun z : (Fin n → R) × Θ => ((⟨n, z.1⟩ : Tuple R), z.2) :=
    (embedding_mk n).prodMap MeasurableEmbedding.id
  exact he.measurableSet_image.2 (h n hA)

end Sigma

/-! ### uniform indices -/

theorem lintegral_uniformNat (K : ℕ) (G : ℕ → ENNReal) :
    ∫⁻ k, G k ∂uniformNat K = (K : ENNReal)⁻¹ * ∑ k ∈ Finset.range K, G k := by
  unfold uniformNat
  rw [lintegral_smul_measure, lintegral_finsetSum_measure]
  congr 1
  refine Finset.sum_congr rfl fun k _ => ?_
  rw [lintegral_dirac]

theorem uniformNat_prob {K : ℕ} (hK : K ≠ 0) : IsProbabilityMeasure (uniformNat K) := by
  constructor
  rw [← lintegral_one, lintegral_uniformNat, Finset.sum_const, Finset.card_range, nsmul_eq_mul, mul_one]
  exact ENNReal.inv_mul_cancel (by exact_mod_cast hK) (ENNReal.natCast_ne_top K)

theorem sum_mod (n q : ℕ) (hn : 0 < n) (G : ℕ → ENNReal) :
    ∑ k ∈ Finset.range (n * q), G (k % n) = q * ∑ j ∈ Finset.range n, G j := by
  induction q with
  | zero => simp
  | succ q ih =>
    rw [Nat.mul_succ, Finset.sum_range_add, ih, Nat.cast_succ, add_mul, one_mul]
    congr 1
    refine Finset.sum_congr rfl fun j hj => ?_
    rw [Nat.mul_add_mod, Nat.mod_eq_of_lt (Finset.mem_range.1 hj)]

/-- The remainder of a number that is uniform below a multiple of `n` is uniform below `n`. -/
theorem uniform_mod {n K : ℕ} (hK : K ≠ 0) (hd : n ∣ K) (G : ℕ → ENNReal) :
    ∫⁻ k, G (k % n) ∂uniformNat K = (n : ENNReal)⁻¹ * ∑ j ∈ Finset.range n, G j := by
  obtain ⟨q, rfl⟩ := hd
  have hn : n ≠ 0 := fun h => hK (by rw [h, zero_mul])
  have hq : q ≠ 0 := fun h => hK (by rw [h, mul_zero])
  rw [lintegral_uniformNat, sum_mod n q (Nat.pos_of_ne_zero hn), ← mul_assoc]
  congr 1
  rw [Nat.cast_mul, ENNReal.mul_inv (.inl (by exact_mod_cast hn)) (.inl (ENNReal.natCast_ne_top n)), mul_assoc,
    ENNReal.inv_mul_cancel (by exact_mod_cast hq) (ENNReal.natCast_ne_top q), mul_one]

/-- The same, for an index. -/
theorem uniform_fin {n K : ℕ} (hK : K ≠ 0) (hd : (n + 1) ∣ K) (G : Fin (n + 1) → ENNReal) :
    ∫⁻ k, G (Fin.ofNat (n + 1) k) ∂uniformNat K = ((n + 1 : ℕ) : ENNReal)⁻¹ * ∑ j, G j := by
  have h := uniform_mod hK hd fun k => G (Fin.ofNat (n + 1) k)
  rw [Finset.sum_range] at h
  have h1 : ∀ k, Fin.ofNat (n + 1) (k % (n + 1)) = Fin.ofNat (n + 1) k := by
    intro k
    ext
    simp
  have h2 : ∀ j : Fin (n + 1), Fin.ofNat (n + 1) j.val = j := by
    intro j
    ext
    simp [Nat.mod_eq_of_lt j.2]
  simp only [h1, h2] at h
  exact h

/-! ### births and deaths -/

section Moves

variable {R : Type} [MeasurableSpace R]

/-- The row `y` is put at the index `i`. -/
abbrev insertAt {n : ℕ} (i : Fin (n + 1)) (y : R) (v : Fin n → R) : Fin (n + 1) → R :=
  Fin.insertNth (α := fun _ => R) i y v

theorem insertAt_meas {n : ℕ} (i : Fin (n + 1)) : Measurable fun z : R × (Fin n → R) => insertAt i z.1 z.2 :=
  (MeasurableEquiv.piFinSuccAbove (fun _ : Fin (n + 1) => R) i).symm.measurable

theorem removeAt_meas {n : ℕ} (i : Fin (n + 1)) : Measurable fun v : Fin (n + 1) → R => (Fin.removeNth i v : Fin n → R) :=
  measurable_snd.comp (MeasurableEquiv.piFinSuccAbove (fun _ : Fin (n + 1) => R) i).measurable

theorem lintegral_succ (ρ : Measure R) [SigmaFinite ρ] {n : ℕ} (i : Fin (n + 1)) {G : (Fin (n + 1) → R) → ENNReal} :
    ∫⁻ w, G w ∂(Measure.pi fun _ : Fin (n + 1) => ρ) =
      ∫⁻ z : R × (Fin n → R), G (insertAt i z.1 z.2) ∂(ρ.prod (Measure.pi fun _ : Fin n => ρ)) := by
  have h := (measurePreserving_piFinSuccAbove (fun _ : Fin (n + 1) => ρ) i).symm
  have h2 := h.lintegral_comp_emb (MeasurableEquiv.measurableEmbedding _) G
  exact h2.symm

/-- The joint law of a model with `n` dimensions and the same one with a row added. -/
noncomputable def birthPair (ρ : Measure R) (n : ℕ) : Measure (Tuple R × Tuple R) :=
  ((n + 1 : ℕ) : ENNReal)⁻¹ • ∑ i : Fin (n + 1), (ρ.prod (Measure.pi fun _ : Fin n => ρ)).map
    fun z => (tup n z.2, tup (n + 1) (insertAt i z.1 z.2))

theorem birthPair_meas {n : ℕ} (i : Fin (n + 1)) :
    Measurable fun z : R × (Fin n → R) => (tup n z.2, tup (n + 1) (insertAt i z.1 z.2)) :=
  ((measurable_mk n).comp measurable_snd).prodMk ((measurable_mk (n + 1)).comp (insertAt_meas i))

theorem lintegral_birthPair (ρ : Measure R) (n : ℕ) {F : Tuple R × Tuple R → ENNReal} (hF : Measurable F) :
    ∫⁻ z, F z ∂birthPair ρ n = ((n + 1 : ℕ) : ENNReal)⁻¹ * ∑ i : Fin (n + 1),
      ∫⁻ z, F (tup n z.2, tup (n + 1) (insertAt i z.1 z.2)) ∂(ρ.prod (Measure.pi fun _ : Fin n => ρ)) := by
  unfold birthPair
  rw [lintegral_smul_measure, lintegral_finsetSum_measure]
  congr 1
  refine Finset.sum_congr rfl fun i _ => ?_
  rw [lintegral_map hF (birthPair_meas i)]

/-- The model with `n` dimensions, twice. -/
noncomputable def diagonal (ρ : Measure R) (n : ℕ) : Measure (Tuple R × Tuple R) :=
  (Measure.pi fun _ : Fin n => ρ).map fun v => (tup n v, tup n v)

theorem lintegral_diagonal (ρ : Measure R) (n : ℕ) {F : Tuple R × Tuple R → ENNReal} (hF : Measurable F) :
    ∫⁻ z, F z ∂diagonal ρ n = ∫⁻ v, F (tup n v, tup n v) ∂(Measure.pi fun _ : Fin n => ρ) := by
  unfold diagonal
  rw [lintegral_map hF ((measurable_mk n).prodMk (measurable_mk n))]

/-- Pairs of models related by a birth, a death, or by no move at the bounds. -/
noncomputable def pairs (ρ : Measure R) (lo hi : ℕ) : Measure (Tuple R × Tuple R) :=
  ∑ n ∈ Finset.Ico lo hi, (birthPair ρ n + (birthPair ρ n).map Prod.swap) + (diagonal ρ lo + diagonal ρ hi)

theorem lintegral_pairs (ρ : Measure R) (lo hi : ℕ) {F : Tuple R × Tuple R → ENNReal} (hF : Measurable F) :
    ∫⁻ z, F z ∂pairs ρ lo hi = ∑ n ∈ Finset.Ico lo hi, (∫⁻ z, F z ∂birthPair ρ n + ∫⁻ z, F z.swap ∂birthPair ρ n) +
      (∫⁻ z, F z ∂diagonal ρ lo + ∫⁻ z, F z ∂diagonal ρ hi) := by
  unfold pairs
  rw [lintegral_add_measure, lintegral_add_measure, lintegral_finsetSum_measure]
  congr 1
  refine Finset.sum_congr rfl fun n _ => ?_
  rw [lintegral_add_measure, lintegral_map hF measurable_swap]

theorem pairs_symm (ρ : Measure R) (lo hi : ℕ) : (pairs ρ lo hi).map Prod.swap = pairs ρ lo hi := by
  refine Measure.ext_of_lintegral _ fun F hF => ?_
  rw [lintegral_map hF measurable_swap, lintegral_pairs ρ lo hi hF,
    lintegral_pairs (F := fun z => F z.swap) ρ lo hi (hF.comp measurable_swap)]
  have h1 : ∀ n, ∫⁻ z, F z.swap ∂diagonal ρ n = ∫⁻ z, F z ∂diagonal ρ n := by
    intro n
    rw [lintegral_diagonal ρ n hF, lintegral_diagonal (F := fun z => F z.swap) ρ n (hF.comp measurable_swap)]
    rfl
  rw [h1, h1]
  congr 1
  refine Finset.sum_congr rfl fun n _ => ?_
  simp only [Prod.swap_swap]
  rw [add_comm]

theorem lintegral_transPrior (ρ : Measure R) (lo hi : ℕ) {F : Tuple R → ENNReal} (hF : Measurable F) :
    ∫⁻ x, F x ∂transPrior ρ lo hi = ∑ n ∈ Finset.Ico lo (hi + 1), ∫⁻ v, F (tup n v) ∂(Measure.pi fun _ : Fin n => ρ) := by
  unfold transPrior
  rw [lintegral_finsetSum_measure]
  refine Finset.sum_congr rfl fun n _ => ?_
  rw [lintegral_map hF (measurable_mk n)]

theorem birth_flow (ρ : Measure R) [SigmaFinite ρ] {K n : ℕ} (hK : K ≠ 0) (hd : (n + 1) ∣ K) {hi : ℕ} (hn : n ≠ hi)
    {F : Tuple R × Tuple R → ENNReal} (hF : Measurable F) :
    ∫⁻ v, ∫⁻ k, ∫⁻ y, F (tup n v, addRow hi (tup n v) k y) ∂ρ ∂uniformNat K ∂(Measure.pi fun _ : Fin n => ρ) =
      ∫⁻ z, F z ∂birthPair ρ n := by
  have hm : ∀ i, Measurable fun z : R × (Fin n → R) => F (tup n z.2, tup (n + 1) (insertAt i z.1 z.2)) :=
    fun i => hF.comp (birthPair_meas i)
  rw [lintegral_birthPair ρ n hF]
  have h1 : ∀ v, ∫⁻ k, ∫⁻ y, F (tup n v, addRow hi (tup n v) k y) ∂ρ ∂uniformNat K =
      ((n + 1 : ℕ) : ENNReal)⁻¹ * ∑ i : Fin (n + 1), ∫⁻ y, F (tup n v, tup (n + 1) (insertAt i y v)) ∂ρ := by
    intro v
    rw [← uniform_fin hK hd]
    refine lintegral_congr fun k => lintegral_congr fun y => ?_
    unfold addRow
    rw [if_neg hn]
  rw [lintegral_congr h1, lintegral_const_mul' _ _ (by simp), lintegral_finsetSum]
  · congr 1
    refine Finset.sum_congr rfl fun i _ => ?_
    rw [lintegral_prod_symm' _ (hm i)]
  · intro i _
    exact Measurable.lintegral_prod_left' (hm i)

theorem death_flow (ρ : Measure R) [SigmaFinite ρ] {K n : ℕ} (hK : K ≠ 0) (hd : (n + 1) ∣ K) {lo hi : ℕ}
    (hn : ¬(n + 1 = lo ∨ hi < n + 1)) {F : Tuple R × Tuple R → ENNReal} (hF : Measurable F) :
    ∫⁻ v, ∫⁻ k, F (tup (n + 1) v, removeRow lo hi (tup (n + 1) v) k) ∂uniformNat K ∂(Measure.pi fun _ : Fin (n + 1) => ρ) =
      ∫⁻ z, F z.swap ∂birthPair ρ n := by
  rw [lintegral_birthPair (F := fun z => F z.swap) ρ n (hF.comp measurable_swap)]
  have h1 : ∀ v, ∫⁻ k, F (tup (n + 1) v, removeRow lo hi (tup (n + 1) v) k) ∂uniformNat K =
      ((n + 1 : ℕ) : ENNReal)⁻¹ * ∑ i : Fin (n + 1), F (tup (n + 1) v, tup n (Fin.removeNth i v)) := by
    intro v
    rw [← uniform_fin hK hd]
    refine lintegral_congr fun k => ?_
    unfold removeRow
    rw [if_neg hn]
  have hm : ∀ i : Fin (n + 1), Measurable fun v : Fin (n + 1) → R => F (tup (n + 1) v, tup n (Fin.removeNth i v)) := by
    intro i
    exact hF.comp ((measurable_mk (n + 1)).prodMk ((measurable_mk n).comp (removeAt_meas i)))
  rw [lintegral_congr h1, lintegral_const_mul' _ _ (by simp), lintegral_finsetSum _ fun i _ => hm i]
  congr 1
  refine Finset.sum_congr rfl fun i _ => ?_
  rw [lintegral_succ ρ i]
  refine lintegral_congr fun z => ?_
  change F (_, tup n (Fin.removeNth i (insertAt i z.1 z.2))) = F (_, _)
  rw [Fin.removeNth_insertNth]

/-! ### the scheme -/

theorem dim_meas : Measurable (fun x : Tuple R => x.1) := measurable_tuple fun n => measurable_const

theorem addRow_meas (hi : ℕ) : Measurable fun z : Tuple R × (ℕ × R) => addRow hi z.1 z.2.1 z.2.2 := by
  refine measurable_tuple_prod fun n => ?_
  unfold addRow
  by_cases h : n = hi
  · have h1 : Measurable fun z : (Fin n → R) × (ℕ × R) => tup n z.1 := (measurable_mk n).comp measurable_fst
    refine (congrArg Measurable (funext fun z => ?_)).mp h1
    exact (if_pos h).symm
  · simp only [h, if_false]
    have h1 : Measurable fun z : ℕ × ((Fin n → R) × R) => insertAt (Fin.ofNat (n + 1) z.1) z.2.2 z.2.1 := by
      refine measurable_from_prod_countable_right fun k => ?_
      exact (insertAt_meas (Fin.ofNat (n + 1) k)).comp measurable_swap
    have h2 : Measurable fun z : (Fin n → R) × (ℕ × R) => (z.2.1, (z.1, z.2.2)) := by fun_prop
    exact (measurable_mk (n + 1)).comp (h1.comp h2)

theorem removeRow_meas (lo hi : ℕ) : Measurable fun z : Tuple R × ℕ => removeRow lo hi z.1 z.2 := by
  refine measurable_tuple_prod fun n => ?_
  unfold removeRow
  by_cases h : n = lo ∨ hi < n
  · have h1 : Measurable fun z : (Fin n → R) × ℕ => tup n z.1 := (measurable_mk n).comp measurable_fst
    refine (congrArg Measurable (funext fun z => ?_)).mp h1
    exact (if_pos h).symm
  · simp only [h, if_false]
    cases n with
    | zero => exact (measurable_mk 0).comp measurable_fst
    | succ n =>
      refine measurable_from_prod_countable_left fun k => ?_
      exact (measurable_mk n).comp (removeAt_meas (Fin.ofNat (n + 1) k))

variable {Ω : Type} [MeasurableSpace Ω]

theorem birth_joint (ρ : Measure R) [IsProbabilityMeasure ρ] {lo hi : ℕ} (hlh : lo < hi)
    {F : Tuple R × Tuple R → ENNReal} (hF : Measurable F) :
    ∫⁻ x, ∫⁻ k, ∫⁻ y, F (x, addRow hi x k y) ∂ρ ∂uniformNat hi.factorial ∂transPrior ρ lo hi =
      ∑ n ∈ Finset.Ico lo hi, ∫⁻ z, F z ∂birthPair ρ n + ∫⁻ z, F z ∂diagonal ρ hi := by
  have := uniformNat_prob (Nat.factorial_ne_zero hi)
  have hm : Measurable fun z : Tuple R × (ℕ × R) => F (z.1, addRow hi z.1 z.2.1 z.2.2) :=
    hF.comp (measurable_fst.prodMk (addRow_meas hi))
  have hm1 : Measurable fun z : (Tuple R × ℕ) × R => F (z.1.1, addRow hi z.1.1 z.1.2 z.2) :=
    hm.comp (measurable_fst.fst.prodMk (measurable_fst.snd.prodMk measurable_snd))
  have hm2 : Measurable fun z : Tuple R × ℕ => ∫⁻ y, F (z.1, addRow hi z.1 z.2 y) ∂ρ :=
    Measurable.lintegral_prod_right' hm1
  rw [lintegral_transPrior ρ lo hi (Measurable.lintegral_prod_right' hm2), Finset.sum_Ico_succ_top hlh.le]
  congr 1
  · refine Finset.sum_congr rfl fun n hn => ?_
    have hn' := Finset.mem_Ico.1 hn
    exact birth_flow ρ (Nat.factorial_ne_zero hi) (Nat.dvd_factorial (by omega) (by omega)) (by omega) hF
  · rw [lintegral_diagonal ρ hi hF]
    refine lintegral_congr fun v => ?_
    have : ∀ k y, addRow hi (tup hi v) k y = tup hi v := fun k y => if_pos rfl
    simp only [this, lintegral_const, measure_univ, mul_one]

theorem death_joint (ρ : Measure R) [SigmaFinite ρ] {lo hi : ℕ} (hlh : lo < hi)
    {F : Tuple R × Tuple R → ENNReal} (hF : Measurable F) :
    ∫⁻ x, ∫⁻ k, F (x, removeRow lo hi x k) ∂uniformNat hi.factorial ∂transPrior ρ lo hi =
      ∑ n ∈ Finset.Ico lo hi, ∫⁻ z, F z.swap ∂birthPair ρ n + ∫⁻ z, F z ∂diagonal ρ lo := by
  have := uniformNat_prob (Nat.factorial_ne_zero hi)
  have hm : Measurable fun z : Tuple R × ℕ => F (z.1, removeRow lo hi z.1 z.2) :=
    hF.comp (measurable_fst.prodMk (removeRow_meas lo hi))
  rw [lintegral_transPrior ρ lo hi (Measurable.lintegral_prod_right' hm),
    Finset.sum_eq_sum_Ico_succ_bot (by omega : lo < hi + 1), add_comm]
  congr 1
  · rw [← Finset.sum_Ico_add' _ lo hi 1]
    refine Finset.sum_congr rfl fun n hn => ?_
    have hn' := Finset.mem_Ico.1 hn
    exact death_flow ρ (Nat.factorial_ne_zero hi) (Nat.dvd_factorial (by omega) (by omega)) (by omega) hF
  · rw [lintegral_diagonal ρ lo hF]
    refine lintegral_congr fun v => ?_
    have : ∀ k, removeRow lo hi (tup lo v) k = tup lo v := fun k => if_pos (.inl rfl)
    simp only [this, lintegral_const, measure_univ, mul_one]

theorem lintegral_births (ρ : Measure R) (n : ℕ) {F : Tuple R × Tuple R → ENNReal} (hF : Measurable F)
    {g : Tuple R × Tuple R → ENNReal} (hg : Measurable g) {c : ENNReal} (h : ∀ v w, g (tup n v, tup (n + 1) w) = c) :
    ∫⁻ z, (g * F) z ∂birthPair ρ n = c * ∫⁻ z, F z ∂birthPair ρ n := by
  rw [lintegral_birthPair ρ n (hg.mul hF), lintegral_birthPair ρ n hF, mul_left_comm]
  congr 1
  rw [Finset.mul_sum]
  refine Finset.sum_congr rfl fun i _ => ?_
  refine Eq.trans (lintegral_congr fun z => ?_) (lintegral_const_mul c (hF.comp (birthPair_meas i)))
  rw [Pi.mul_apply, h]

theorem lintegral_deaths (ρ : Measure R) (n : ℕ) {F : Tuple R × Tuple R → ENNReal} (hF : Measurable F)
    {g : Tuple R × Tuple R → ENNReal} (hg : Measurable g) {c : ENNReal} (h : ∀ v w, g (tup (n + 1) v, tup n w) = c) :
    ∫⁻ z, (g * F) z.swap ∂birthPair ρ n = c * ∫⁻ z, F z.swap ∂birthPair ρ n :=
  lintegral_births ρ n (F := fun z => F z.swap) (hF.comp measurable_swap) (g := fun z => g z.swap)
    (hg.comp measurable_swap) fun v w => h w v

theorem lintegral_stays (ρ : Measure R) (n : ℕ) {F : Tuple R × Tuple R → ENNReal} (hF : Measurable F)
    {g : Tuple R × Tuple R → ENNReal} (hg : Measurable g) {c : ENNReal} (h : ∀ v, g (tup n v, tup n v) = c) :
    ∫⁻ z, (g * F) z ∂diagonal ρ n = c * ∫⁻ z, F z ∂diagonal ρ n := by
  rw [lintegral_diagonal ρ n (hg.mul hF), lintegral_diagonal ρ n hF]
  refine Eq.trans (lintegral_congr fun z => ?_)
    (lintegral_const_mul c (hF.comp ((measurable_mk n).prodMk (measurable_mk n))))
  rw [Pi.mul_apply, h]

theorem birthDeath_dens_meas (ρ : Measure R) (μ : Measure Ω) (new : Ω → R) (lo hi : ℕ)
    (common : Measure (Tuple R × Tuple R)) (i : Fin 2) : Measurable ((birthDeath ρ μ new lo hi common).dens i) := by
  classical
  have h1 : Measurable fun z : Tuple R × Tuple R => (z.1.1, z.2.1) :=
    (dim_meas.comp measurable_fst).prodMk (dim_meas.comp measurable_snd)
  have h2 : Measurable fun d : ℕ × ℕ =>
    if i = 0 then if d.2 = d.1 + 1 ∨ (d.1 = hi ∧ d.2 = d.1) then (1 : ℝ) else 0
    else if d.1 = d.2 + 1 ∨ (d.1 = lo ∧ d.2 = d.1) then 1 else 0 := measurable_of_countable _
  refine (congrArg Measurable (funext fun z => ?_)).mp (h2.comp h1)
  unfold birthDeath
  simp only [Function.comp]

theorem birthDeath_ok {ρ : Measure R} [IsProbabilityMeasure ρ] {μ : Measure Ω} [IsProbabilityMeasure μ] {new : Ω → R}
    (hnew : Measurable new) (hlaw : μ.map new = ρ) {lo hi : ℕ} (hlh : lo < hi) {w : Fin 2 → ℝ} (hw : w 0 = w 1) :
    (birthDeath ρ μ new lo hi (pairs ρ lo hi)).Ok w where
  sfinite := by
    unfold birthDeath transPrior
    infer_instance
  prob := by
    have := uniformNat_prob (Nat.factorial_ne_zero hi)
    unfold birthDeath
    infer_instance
  meas := by
    intro i
    unfold birthDeath
    by_cases h : i = 0
    · simp only [h, if_true]
      have h2 : Measurable fun z : Tuple R × (ℕ × Ω) => (z.1, (z.2.1, new z.2.2)) := by fun_prop
      exact (addRow_meas hi).comp h2
    · simp only [h, if_false]
      have h2 : Measurable fun z : Tuple R × (ℕ × Ω) => (z.1, z.2.1) := by fun_prop
      exact (removeRow_meas lo hi).comp h2
  rev_rev := by
    intro i
    unfold birthDeath
    fin_cases i <;> rfl
  rev_weight := by
    intro i
    unfold birthDeath
    fin_cases i
    · exact hw.symm
    · exact hw
  symm := fun _ => pairs_symm ρ lo hi
  dens_meas := birthDeath_dens_meas ρ μ new lo hi _
  dens_nonneg := by
    intro i z
    unfold birthDeath
    simp only
    split <;> split <;> norm_num
  joint := by
    classical
    have := uniformNat_prob (Nat.factorial_ne_zero hi)
    intro i
    have hsf : SFinite (transPrior ρ lo hi) := by unfold transPrior; infer_instance
    have hdm := birthDeath_dens_meas ρ μ new lo hi (pairs ρ lo hi) i
    have hg := hdm.ennreal_ofReal
    refine Measure.ext_of_lintegral _ fun F hF => ?_
    rw [lintegral_withDensity_eq_lintegral_mul _ hg hF]
    change _ = ∫⁻ z, _ ∂pairs ρ lo hi
    rw [lintegral_pairs ρ lo hi (hg.mul hF), Finset.sum_add_distrib]
    by_cases h : i = 0
    · subst h
      have e1 : ∀ n v w', ENNReal.ofReal ((birthDeath ρ μ new lo hi (pairs ρ lo hi)).dens 0
          (tup n v, tup (n + 1) w')) = 1 := by
        intro n v w'
        unfold birthDeath
        simp
      have e2 : ∀ n v w', ENNReal.ofReal ((birthDeath ρ μ new lo hi (pairs ρ lo hi)).dens 0
          (tup (n + 1) v, tup n w')) = 0 := by
        intro n v w'
        unfold birthDeath
        simp only [if_true, ENNReal.ofReal_eq_zero]
        rw [if_neg (by omega)]
      have e3 : ∀ v, ENNReal.ofReal ((birthDeath ρ μ new lo hi (pairs ρ lo hi)).dens 0 (tup lo v, tup lo v)) = 0 := by
        intro v
        unfold birthDeath
        simp only [if_true, ENNReal.ofReal_eq_zero]
        rw [if_neg (by omega)]
      have e4 : ∀ v, ENNReal.ofReal ((birthDeath ρ μ new lo hi (pairs ρ lo hi)).dens 0 (tup hi v, tup hi v)) = 1 := by
        intro v
        unfold birthDeath
        simp
      simp only [lintegral_births ρ _ hF hg (e1 _), lintegral_deaths ρ _ hF hg (e2 _), lintegral_stays ρ lo hF hg e3,
        lintegral_stays ρ hi hF hg e4, one_mul, zero_mul, Finset.sum_const_zero, add_zero, zero_add]
      rw [← birth_joint ρ hlh hF]
      have hm : Measurable fun z : Tuple R × (ℕ × Ω) => (z.1, addRow hi z.1 z.2.1 (new z.2.2)) :=
        measurable_fst.prodMk ((addRow_meas hi).comp (measurable_fst.prodMk
          (measurable_snd.fst.prodMk (hnew.comp measurable_snd.snd))))
      change ∫⁻ z, F z ∂((transPrior ρ lo hi).prod ((uniformNat hi.factorial).prod μ)).map
        (fun z => (z.1, addRow hi z.1 z.2.1 (new z.2.2))) = _
      rw [lintegral_map hF hm, lintegral_prod (fun z : Tuple R × (ℕ × Ω) => F (z.1, addRow hi z.1 z.2.1 (new z.2.2)))
        (hF.comp hm).aemeasurable]
      refine lintegral_congr fun x => ?_
      have hx : Measurable fun z : ℕ × Ω => F (x, addRow hi x z.1 (new z.2)) :=
        (hF.comp hm).comp (measurable_const.prodMk measurable_id)
      rw [lintegral_prod (fun z : ℕ × Ω => F (x, addRow hi x z.1 (new z.2))) hx.aemeasurable]
      refine lintegral_congr fun k => ?_
      have hk : Measurable fun y => F (x, addRow hi x k y) :=
        hF.comp (measurable_const.prodMk ((addRow_meas hi).comp (measurable_const.prodMk
          (measurable_const.prodMk measurable_id))))
      rw [← hlaw, lintegral_map hk hnew]
    · obtain rfl : i = 1 := by omega
      have e1 : ∀ n v w', ENNReal.ofReal ((birthDeath ρ μ new lo hi (pairs ρ lo hi)).dens 1
          (tup n v, tup (n + 1) w')) = 0 := by
        intro n v w'
        unfold birthDeath
        simp only [h, if_false, ENNReal.ofReal_eq_zero]
        rw [if_neg (by omega)]
      have e2 : ∀ n v w', ENNReal.ofReal ((birthDeath ρ μ new lo hi (pairs ρ lo hi)).dens 1
          (tup (n + 1) v, tup n w')) = 1 := by
        intro n v w'
        unfold birthDeath
        simp
      have e3 : ∀ v, ENNReal.ofReal ((birthDeath ρ μ new lo hi (pairs ρ lo hi)).dens 1 (tup lo v, tup lo v)) = 1 := by
        intro v
        unfold birthDeath
        simp
      have e4 : ∀ v, ENNReal.ofReal ((birthDeath ρ μ new lo hi (pairs ρ lo hi)).dens 1 (tup hi v, tup hi v)) = 0 := by
        intro v
        unfold birthDeath
        simp only [h, if_false, ENNReal.ofReal_eq_zero]
        rw [if_neg (by omega)]
      simp only [lintegral_births ρ _ hF hg (e1 _), lintegral_deaths ρ _ hF hg (e2 _), lintegral_stays ρ lo hF hg e3,
        lintegral_stays ρ hi hF hg e4, one_mul, zero_mul, Finset.sum_const_zero, add_zero, zero_add]
      rw [← death_joint ρ hlh hF]
      have hm : Measurable fun z : Tuple R × (ℕ × Ω) => (z.1, removeRow lo hi z.1 z.2.1) :=
        measurable_fst.prodMk ((removeRow_meas lo hi).comp (measurable_fst.prodMk measurable_snd.fst))
      change ∫⁻ z, F z ∂((transPrior ρ lo hi).prod ((uniformNat hi.factorial).prod μ)).map
        (fun z => (z.1, removeRow lo hi z.1 z.2.1)) = _
      rw [lintegral_map hF hm, lintegral_prod (fun z : Tuple R × (ℕ × Ω) => F (z.1, removeRow lo hi z.1 z.2.1)) (hF.comp hm).aemeasurable]
      refine lintegral_congr fun x => ?_
      have hx : Measurable fun z : ℕ × Ω => F (x, removeRow lo hi x z.1) :=
        (hF.comp hm).comp (measurable_const.prodMk measurable_id)
      rw [lintegral_prod (fun z : ℕ × Ω => F (x, removeRow lo hi x z.1)) hx.aemeasurable]
      refine lintegral_congr fun k => ?_
      change ∫⁻ _, F (x, removeRow lo hi x k) ∂μ = _
      rw [lintegral_const, measure_univ, mul_one]

end Moves

/-! ### the order of the rows -/

section Order

variable {R : Type}

theorem ofFn_succAbove {n : ℕ} (f : Fin (n + 1) → R) (i : Fin (n + 1)) :
    (List.ofFn f).Perm (f i :: List.ofFn fun j => f (i.succAbove j)) := by
  rw [← Multiset.coe_eq_coe, ← Multiset.cons_coe, ← Fin.univ_val_map, ← Fin.univ_val_map, Fin.univ_succAbove n i,
    Finset.cons_val, Multiset.map_cons, Finset.map_val, Multiset.map_map]
  rfl

theorem ofFn_insertAt {n : ℕ} (i : Fin (n + 1)) (y : R) (v : Fin n → R) :
    (List.ofFn (insertAt i y v)).Perm (y :: List.ofFn v) := by
  refine (ofFn_succAbove _ i).trans ?_
  unfold insertAt
  simp only [Fin.insertNth_apply_same, Fin.insertNth_apply_succAbove]
  rfl

theorem ofFn_removeNth [DecidableEq R] {n : ℕ} (i : Fin (n + 1)) (v : Fin (n + 1) → R) :
    (List.ofFn (Fin.removeNth i v)).Perm ((List.ofFn v).erase (v i)) := by
  have := (ofFn_succAbove v i).erase (v i)
  rw [List.erase_cons_head] at this
  exact this.symm

theorem SameRows.refl (x : Tuple R) : SameRows x x := List.Perm.refl _

theorem SameRows.dim {x y : Tuple R} (h : SameRows x y) : x.1 = y.1 := by
  have := List.Perm.length_eq h
  simpa using this

theorem addRow_sameRows {hi : ℕ} {x x' : Tuple R} (h : SameRows x x') (k k' : ℕ) (y : R) :
    SameRows (addRow hi x k y) (addRow hi x' k' y) := by
  have hd := SameRows.dim h
  unfold addRow
  by_cases hn : x.1 = hi
  · rw [if_pos hn, if_pos (hd ▸ hn)]
    exact h
  · rw [if_neg hn, if_neg (hd ▸ hn)]
    exact (ofFn_insertAt _ _ _).trans ((List.Perm.cons y h).trans (ofFn_insertAt _ _ _).symm)

open Classical in
/-- The mean over all removals does not depend on the order of the rows. -/
theorem removeRow_mean {lo hi : ℕ} {x x' : Tuple R} (h : SameRows x x') {G : Tuple R → ENNReal} (hG : ∀ y y', SameRows y y' → G y = G y') :
    ∫⁻ k, G (removeRow lo hi x k) ∂uniformNat hi.factorial = ∫⁻ k, G (removeRow lo hi x' k) ∂uniformNat hi.factorial := by
  obtain ⟨n, v⟩ := x
  obtain ⟨n', v'⟩ := x'
  obtain rfl : n = n' := SameRows.dim h
  by_cases hn : n = lo ∨ hi < n
  · have h1 : ∀ (w : Fin n → R) k, removeRow lo hi (tup n w) k = tup n w := fun w k => if_pos hn
    refine lintegral_congr fun k => ?_
    rw [h1, h1]
    exact hG _ _ h
  cases n with
  | zero =>
    refine lintegral_congr fun k => ?_
    unfold removeRow
    rw [if_neg hn, if_neg hn]
    exact hG _ _ h
  | succ n =>
    have hK := Nat.factorial_ne_zero hi
    have hd' : (n + 1) ∣ hi.factorial := Nat.dvd_factorial (by omega) (by omega)
    have h1 : ∀ w : Fin (n + 1) → R, ∫⁻ k, G (removeRow lo hi (tup (n + 1) w) k) ∂uniformNat hi.factorial =
        ((n + 1 : ℕ) : ENNReal)⁻¹ * ∑ i : Fin (n + 1), G (tup n (Fin.removeNth i w)) := by
      intro w
      rw [← uniform_fin hK hd']
      refine lintegral_congr fun k => ?_
      unfold removeRow
      rw [if_neg hn]
    rw [h1, h1]
    congr 1
    have h2 : ∀ (w : Fin (n + 1) → R) (i : Fin (n + 1)), G (tup n (Fin.removeNth i w)) =
        G ⟨_, ((List.ofFn w).erase (w i)).get⟩ := by
      intro w i
      refine hG _ _ ?_
      unfold SameRows
      rw [List.ofFn_get]
      exact ofFn_removeNth i w
    have h3 : ∀ w : Fin (n + 1) → R, ∑ i : Fin (n + 1), G (tup n (Fin.removeNth i w)) =
        ((List.ofFn w).map fun a => G ⟨_, ((List.ofFn w).erase a).get⟩).sum := by
      intro w
      simp only [h2]
      rw [List.map_ofFn, List.sum_ofFn]
      rfl
    rw [h3, h3]
    have h4 : ∀ a, G ⟨_, ((List.ofFn v).erase a).get⟩ = G ⟨_, ((List.ofFn v').erase a).get⟩ := by
      intro a
      refine hG _ _ ?_
      unfold SameRows
      rw [List.ofFn_get, List.ofFn_get]
      exact List.Perm.erase a h
    simp only [h4]
    exact (List.Perm.map _ h).sum_eq

theorem birthDeath_lumps [MeasurableSpace R] {Ω : Type} [MeasurableSpace Ω] (ρ : Measure R) {μ : Measure Ω}
    [IsProbabilityMeasure μ] (new : Ω → R) {lo hi : ℕ} (common : Measure (Tuple R × Tuple R)) :
    (birthDeath ρ μ new lo hi common).Lumps SameRows where
  dens := by
    intro i x x' y y' hx hy
    unfold birthDeath
    simp only [SameRows.dim hx, SameRows.dim hy]
  law := by
    intro i x x' hx G hG hGr
    by_cases h : i = 0
    · subst h
      refine lintegral_congr fun θ => hGr _ _ ?_
      exact addRow_sameRows hx _ _ _
    · obtain rfl : i = 1 := by omega
      have := uniformNat_prob (Nat.factorial_ne_zero hi)
      have h1 : ∀ x : Tuple R, ∫⁻ θ, G ((birthDeath ρ μ new lo hi common).move 1 x θ)
          ∂(birthDeath ρ μ new lo hi common).draws = ∫⁻ k, G (removeRow lo hi x k) ∂uniformNat hi.factorial := by
        intro x
        have hm : Measurable fun z : ℕ × Ω => G (removeRow lo hi x z.1) :=
          hG.comp ((removeRow_meas lo hi).comp (measurable_const.prodMk measurable_fst))
        change ∫⁻ z : ℕ × Ω, G (removeRow lo hi x z.1) ∂(uniformNat hi.factorial).prod μ = _
        rw [lintegral_prod (fun z : ℕ × Ω => G (removeRow lo hi x z.1)) hm.aemeasurable]
        refine lintegral_congr fun k => ?_
        change ∫⁻ _, G (removeRow lo hi x k) ∂μ = _
        rw [lintegral_const, measure_univ, mul_one]
      rw [h1, h1]
      exact removeRow_mean hx hGr

end Order

end BB.Lemmas
