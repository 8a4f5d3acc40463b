import Verif.Lemmas.BlockLaw
import Verif.Lemmas.Iterate

/-!
# The transitions of the blocks as measures
-/

namespace BB.Lemmas

open BB Spec Props MeasureTheory

section one

variable {X Θ : Type} [MeasurableSpace X] [MeasurableSpace Θ] {n : ℕ} (p : Scheme X Θ n) (w : Fin n → ℝ) (ℓ : X → ℝ) (T : ℝ)

/-- The law of the model after a transition. -/
noncomputable def transLaw (x : X) : Measure X :=
  ∑ i, ENNReal.ofReal (w i / ∑ j, w j) • ((p.draws.withDensity fun θ => acceptance p ℓ T i (x, p.move i x θ)).map (p.move i x) +
    (∫⁻ θ, (1 - acceptance p ℓ T i (x, p.move i x θ)) ∂p.draws) • Measure.dirac x)

variable {p w ℓ T}

theorem transLaw_apply (hp : p.Ok w) (hℓ : Measurable ℓ) (x : X) {A : Set X} (hA : MeasurableSet A) :
    transLaw p w ℓ T x A = transition p w ℓ T x A := by
  classical
  have hmove : ∀ i, Measurable (p.move i x) := fun i => (hp.meas i).comp measurable_prodMk_left
  have hacc : ∀ i, Measurable fun θ => acceptance p ℓ T i (x, p.move i x θ) := fun i =>
    (acceptance_meas hp hℓ i).comp (measurable_const.prodMk (hmove i))
  unfold transLaw transition
  rw [Measure.finsetSum_apply]
  refine Finset.sum_congr rfl fun i _ => ?_
  rw [Measure.smul_apply, smul_eq_mul, Measure.add_apply, Measure.smul_apply, smul_eq_mul, Measure.map_apply (hmove i) hA,
    withDensity_apply _ (hmove i hA), Measure.dirac_apply' x hA, lintegral_add_right _ ?_]
  · rw [lintegral_mul_const _ ((hacc i).const_sub 1), ← lintegral_indicator (hmove i hA)]
    congr 2
    refine lintegral_congr fun θ => ?_
    rw [Set.indicator_apply, Set.indicator_apply]
    change (if p.move i x θ ∈ A then _ else _) = _
    split <;> simp
  · exact ((hacc i).const_sub 1).mul_const _

end one

section pi

variable {n : ℕ} {X : Fin n → Type} [∀ i, MeasurableSpace (X i)]

/-- The law of the model after a transition of one block. -/
noncomputable def blockTrans {Θ : Type} [MeasurableSpace Θ] {k : ℕ} (i : Fin n) (p : Scheme (X i) Θ k) (w : Fin k → ℝ)
    (ℓ : (∀ i, X i) → ℝ) (T : ℝ) (x : ∀ i, X i) : Measure (∀ i, X i) :=
  (transLaw p w (fun y => ℓ (Function.update x i y)) T (x i)).map fun y => Function.update x i y

theorem blockTrans_apply {Θ : Type} [MeasurableSpace Θ] {k : ℕ} {i : Fin n} {p : Scheme (X i) Θ k} {w : Fin k → ℝ} (hp : p.Ok w)
    {ℓ : (∀ i, X i) → ℝ} (hℓ : Measurable ℓ) {T : ℝ} (x : ∀ i, X i) {A : Set (∀ i, X i)} (hA : MeasurableSet A) :
    blockTrans i p w ℓ T x A = blockStep i p w ℓ T x A := by
  have hm : Measurable fun y => Function.update x i y := measurable_update x
  unfold blockTrans blockStep
  rw [Measure.map_apply hm hA]
  exact transLaw_apply hp (hℓ.comp hm) _ (hm hA)

variable {Θ : Fin n → Type} [∀ i, MeasurableSpace (Θ i)] {k : Fin n → ℕ}

/-- The law of the model after a transition of a block chosen at random. -/
noncomputable def mixTrans (p : ∀ i, Scheme (X i) (Θ i) (k i)) (w : ∀ i, Fin (k i) → ℝ) (ℓ : (∀ i, X i) → ℝ) (T : ℝ)
    (a : Fin n → ENNReal) (x : ∀ i, X i) : Measure (∀ i, X i) := ∑ i, a i • blockTrans i (p i) (w i) ℓ T x

variable {p : ∀ i, Scheme (X i) (Θ i) (k i)} {w : ∀ i, Fin (k i) → ℝ} {ℓ : (∀ i, X i) → ℝ} {T : ℝ} {a : Fin n → ENNReal}

theorem mixTrans_apply (hp : ∀ i, (p i).Ok (w i)) (hℓ : Measurable ℓ) (x : ∀ i, X i) {A : Set (∀ i, X i)} (hA : MeasurableSet A) :
    mixTrans p w ℓ T a x A = ∑ i, a i * blockStep i (p i) (w i) ℓ T x A := by
  unfold mixTrans
  rw [Measure.finsetSum_apply]
  exact Finset.sum_congr rfl fun i _ => by rw [Measure.smul_apply, smul_eq_mul, blockTrans_apply (hp i) hℓ x hA]

theorem mixTrans_prob (hp : ∀ i, (p i).Ok (w i)) (hw : ∀ i j, 0 ≤ w i j) (hs : ∀ i, 0 < ∑ j, w i j) (hℓ : Measurable ℓ)
    (ha : ∑ i, a i = 1) (x : ∀ i, X i) : IsProbabilityMeasure (mixTrans p w ℓ T a x) := ⟨by
  rw [mixTrans_apply hp hℓ x .univ]
  simp only [blockStep_univ _ (hp _) (hw _) (hs _), mul_one, ha]⟩

theorem mixTrans_meas (μ : ∀ i, Measure (X i)) [∀ i, SigmaFinite (μ i)] (hp : ∀ i, (p i).Ok (w i))
    (hpr : ∀ i, (p i).prior = μ i) (hℓ : Measurable ℓ) : Measurable (mixTrans p w ℓ T a) := by
  refine Measure.measurable_of_measurable_coe _ fun A hA => ?_
  simp only [mixTrans_apply hp hℓ _ hA]
  exact Finset.measurable_sum _ fun i _ => (blockStep_meas μ i (hp i) (hpr i) hℓ T hA).const_mul _

theorem mixTrans_alike (hp : ∀ i, (p i).Ok (w i)) {r : ∀ i, X i → X i → Prop} (hrefl : ∀ i x, r i x x) (hr : ∀ i, (p i).Lumps (r i))
    (hℓ : Measurable ℓ) (hℓr : ∀ x y, EachSame r x y → ℓ x = ℓ y) : Alike (EachSame r) (mixTrans p w ℓ T a) := by
  intro x y hxy A hA hAr
  rw [mixTrans_apply hp hℓ _ hA, mixTrans_apply hp hℓ _ hA]
  exact Finset.sum_congr rfl fun i _ => by rw [blockStep_lumps (hp i) hrefl (hr i) hℓ hℓr hA hAr hxy]

theorem mixTrans_preserves (μ : ∀ i, Measure (X i)) [∀ i, SigmaFinite (μ i)] (hp : ∀ i, (p i).Ok (w i))
    (hpr : ∀ i, (p i).prior = μ i) (hw : ∀ i j, 0 ≤ w i j) (hs : ∀ i, 0 < ∑ j, w i j) (hℓ : Measurable ℓ) (ha : ∑ i, a i = 1) :
    (posterior (Measure.pi μ) ℓ T).bind (mixTrans p w ℓ T a) = posterior (Measure.pi μ) ℓ T := by
  ext A hA
  rw [Measure.bind_apply hA (mixTrans_meas μ hp hpr hℓ).aemeasurable]
  have := (mixture_balance μ hp hpr hw hs hℓ T a ha Eq (fun x => mixTrans p w ℓ T a x)
    (.of_forall fun x A hA _ => mixTrans_apply hp hℓ x hA)).2 A hA
  exact this fun x y e => by rw [e]

end pi

section good

variable {X Θ : Type} [MeasurableSpace X] [MeasurableSpace Θ] {n : ℕ} {p : Scheme X Θ n} {w : Fin n → ℝ} {P : Set X}

/-- The models from which everything goes well. -/
def fine (p : Scheme X Θ n) (P : Set X) : Set X := {x | x ∈ P ∧ (∀ j, ∀ᵐ θ ∂p.draws, p.dens j (x, p.move j x θ) ≠ 0) ∧
  ∀ j, ∀ᵐ θ ∂p.draws, p.dens (p.rev j) (p.move j x θ, x) ≠ 0 → p.move j x θ ∈ P}

theorem fine_meas (hp : p.Ok w) (hP : MeasurableSet P) : MeasurableSet (fine p P) := by
  have := hp.prob
  have hm : ∀ j, Measurable fun z : X × Θ => (z.1, p.move j z.1 z.2) := fun j => measurable_fst.prodMk (hp.meas j)
  have key : ∀ {N : Set (X × Θ)}, MeasurableSet N → MeasurableSet {x | ∀ᵐ θ ∂p.draws, (x, θ) ∉ N} := by
    intro N hN
    have h1 : {x | ∀ᵐ θ ∂p.draws, (x, θ) ∉ N} = (fun x => p.draws (Prod.mk x ⁻¹' N)) ⁻¹' {0} := by
      ext x
      change (∀ᵐ θ ∂p.draws, (x, θ) ∉ N) ↔ p.draws (Prod.mk x ⁻¹' N) = 0
      rw [measure_eq_zero_iff_ae_notMem]
      rfl
    rw [h1]
    exact measurable_measure_prodMk_left hN (measurableSet_singleton 0)
  have e : fine p P = P ∩ ((⋂ j, {x | ∀ᵐ θ ∂p.draws, (x, θ) ∉ {z : X × Θ | p.dens j (z.1, p.move j z.1 z.2) = 0}}) ∩
      ⋂ j, {x | ∀ᵐ θ ∂p.draws, (x, θ) ∉ {z : X × Θ | p.dens (p.rev j) (p.move j z.1 z.2, z.1) ≠ 0 ∧ p.move j z.1 z.2 ∉ P}}) := by
    ext x
    simp only [fine, Set.mem_inter_iff, Set.mem_iInter, Set.mem_ofPred_eq, not_and, not_not]
  rw [e]
  refine hP.inter ((MeasurableSet.iInter fun j => key ?_).inter (.iInter fun j => key ?_))
  · exact (hp.dens_meas j).comp (hm j) (measurableSet_singleton 0)
  · refine MeasurableSet.inter ?_ ((hp.meas j) hP.compl)
    exact ((hp.dens_meas (p.rev j)).comp (measurable_swap.comp (hm j)) (measurableSet_singleton 0)).compl

theorem _root_.BB.Spec.Scheme.Lumps.flip {r : X → X → Prop} (hr : p.Lumps r) : p.Lumps fun x y => r y x where
  dens := fun i x x' y y' hx hy => (hr.dens i x' x y' y hx hy).symm
  law := fun i x x' hx G hG hGr => (hr.law i x' x hx G hG fun y y' hy => (hGr y' y hy).symm).symm

theorem fine_invariant (hp : p.Ok w) {r : X → X → Prop} (hrefl : ∀ x, r x x) (hr : p.Lumps r) (hP : MeasurableSet P)
    (hPr : Invariant r P) : Invariant r (fine p P) := by
  have key : ∀ {r : X → X → Prop}, (∀ x, r x x) → p.Lumps r → Invariant r P → ∀ x y, r x y → x ∈ fine p P → y ∈ fine p P :=
    fun hrefl hr hPr x y h hx => ⟨(hPr x y h).1 hx.1, fun j => good_lumps hp hrefl hr h j (hx.2.1 j),
      fun j => rev_lumps hp hrefl hr hP hPr h j (hx.2.2 j)⟩
  exact fun x y h => ⟨key hrefl hr hPr x y h, key (r := fun x y => r y x) hrefl hr.flip (fun x y h => (hPr y x h).symm) y x h⟩

theorem fine_ae (hp : p.Ok w) (hP : MeasurableSet P) (hae : ∀ᵐ x ∂p.prior, x ∈ P) : ∀ᵐ x ∂p.prior, x ∈ fine p P := by
  filter_upwards [hae, ae_good hp, ae_rev hp hP hae] with x h1 h2 h3
  exact ⟨h1, h2, h3⟩

end good

end BB.Lemmas
