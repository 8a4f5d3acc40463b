import Verif.Lemmas.Lift
import Verif.Lemmas.Mixture
import Mathlib.MeasureTheory.Constructions.Pi

/-!
# Models that consist of several blocks
-/

namespace BB.Lemmas

open BB Spec Props MeasureTheory

section one

variable {X C R Θ : Type} [MeasurableSpace X] [MeasurableSpace C] [MeasurableSpace R] [MeasurableSpace Θ] {n : ℕ}

/-- Proposals for a part of the model, given the rest. -/
theorem lift_transition (e : X ≃ᵐ C × R) (ρ : Measure R) (p : Scheme C Θ n) (w : Fin n → ℝ) (ℓ : X → ℝ) (T : ℝ) (x : X)
    (A : Set X) : transition (lift e ρ (trim p)) w ℓ T x A =
      transition p w (fun y => ℓ (e.symm (y, (e x).2))) T (e x).1 {y | e.symm (y, (e x).2) ∈ A} := by
  classical
  unfold transition
  refine Finset.sum_congr rfl fun i _ => ?_
  congr 1
  refine lintegral_congr fun θ => ?_
  change acceptance (lift e ρ (trim p)) ℓ T i (x, e.symm (p.move i (e x).1 θ, (e x).2)) *
      A.indicator 1 (e.symm (p.move i (e x).1 θ, (e x).2)) +
    (1 - acceptance (lift e ρ (trim p)) ℓ T i (x, e.symm (p.move i (e x).1 θ, (e x).2))) * A.indicator 1 x = _
  have h0 : e.symm ((e x).1, (e x).2) = x := e.symm_apply_apply x
  have h1 : acceptance (lift e ρ (trim p)) ℓ T i (x, e.symm (p.move i (e x).1 θ, (e x).2)) =
      acceptance p (fun y => ℓ (e.symm (y, (e x).2))) T i ((e x).1, p.move i (e x).1 θ) := by
    unfold acceptance threshold
    simp only [Prod.swap_prod_mk]
    rw [h0]
    unfold lift trim
    simp
  have h2 : ∀ y, A.indicator (1 : X → ENNReal) (e.symm (y, (e x).2)) =
      {y | e.symm (y, (e x).2) ∈ A}.indicator (1 : C → ENNReal) y := by
    intro y
    simp only [Set.indicator_apply, Set.mem_ofPred_eq, Pi.one_apply]
  rw [h1, h2]
  conv_lhs => rw [← h0]
  simp only [h2, e.apply_symm_apply, Prod.mk.eta]

end one

section pi

variable {n : ℕ} {X : Fin n → Type} [∀ i, MeasurableSpace (X i)]

/-- The transition of one block, given the others. -/
noncomputable def blockStep {Θ : Type} [MeasurableSpace Θ] {k : ℕ} (i : Fin n) (p : Scheme (X i) Θ k) (w : Fin k → ℝ)
    (ℓ : (∀ i, X i) → ℝ) (T : ℝ) (x : ∀ i, X i) (A : Set (∀ i, X i)) : ENNReal :=
  transition p w (fun y => ℓ (Function.update x i y)) T (x i) {y | Function.update x i y ∈ A}

theorem blockStep_eq (μ : ∀ i, Measure (X i)) [∀ i, SigmaFinite (μ i)] (i : Fin n) {Θ : Type} [MeasurableSpace Θ] {k : ℕ}
    {p : Scheme (X i) Θ k} {w : Fin k → ℝ} (hp : p.Ok w) (hpr : p.prior = μ i) :
    ∃ q : Scheme (∀ i, X i) Θ k, q.Ok w ∧ q.prior = Measure.pi μ ∧ ∀ ℓ T x A, blockStep i p w ℓ T x A = transition q w ℓ T x A := by
  cases n with
  | zero => exact i.elim0
  | succ n =>
    set e := MeasurableEquiv.piFinSuccAbove X i with he
    refine ⟨lift e (Measure.pi fun j => μ (i.succAbove j)) (trim p), lift_scheme_ok e _ (trim_ok hp) (trim_sfinite hp), ?_, ?_⟩
    · change ((p.prior.prod (Measure.pi fun j => μ (i.succAbove j))).map e.symm) = _
      rw [hpr]
      exact ((measurePreserving_piFinSuccAbove μ i).symm _).map_eq
    · intro ℓ T x A
      rw [lift_transition]
      have h : ∀ y, e.symm (y, (e x).2) = Function.update x i y := fun y => Fin.insertNth_removeNth i y x
      simp only [h]
      rfl

theorem block_balance (μ : ∀ i, Measure (X i)) [∀ i, SigmaFinite (μ i)] (i : Fin n) {Θ : Type} [MeasurableSpace Θ] {k : ℕ}
    {p : Scheme (X i) Θ k} {w : Fin k → ℝ} (hp : p.Ok w) (hpr : p.prior = μ i) {ℓ : (∀ i, X i) → ℝ} (hℓ : Measurable ℓ) (T : ℝ) :
    DetailedBalance (posterior (Measure.pi μ) ℓ T) (blockStep i p w ℓ T) := by
  obtain ⟨q, h1, h2, h3⟩ := blockStep_eq μ i hp hpr
  have := detailed_balance (T := T) h1 hℓ
  rw [h2] at this
  have e : blockStep i p w ℓ T = transition q w ℓ T := funext fun x => funext fun A => h3 ℓ T x A
  rw [e]
  exact this

theorem blockStep_meas (μ : ∀ i, Measure (X i)) [∀ i, SigmaFinite (μ i)] (i : Fin n) {Θ : Type} [MeasurableSpace Θ] {k : ℕ}
    {p : Scheme (X i) Θ k} {w : Fin k → ℝ} (hp : p.Ok w) (hpr : p.prior = μ i) {ℓ : (∀ i, X i) → ℝ} (hℓ : Measurable ℓ) (T : ℝ)
    {A : Set (∀ i, X i)} (hA : MeasurableSet A) : Measurable fun x => blockStep i p w ℓ T x A := by
  obtain ⟨q, h1, h2, h3⟩ := blockStep_eq μ i hp hpr
  simp only [h3]
  exact transition_meas h1 hℓ hA

theorem blockStep_univ (i : Fin n) {Θ : Type} [MeasurableSpace Θ] {k : ℕ} {p : Scheme (X i) Θ k} {w : Fin k → ℝ} (hp : p.Ok w)
    (hw : ∀ i, 0 ≤ w i) (hs : 0 < ∑ i, w i) (ℓ : (∀ i, X i) → ℝ) (T : ℝ) (x : ∀ i, X i) :
    blockStep i p w ℓ T x Set.univ = 1 :=
  transition_univ hp hw hs (x i)

/-- Models are compared block by block. -/
def EachSame (r : ∀ i, X i → X i → Prop) (x y : ∀ i, X i) : Prop := ∀ i, r i (x i) (y i)

omit [∀ i, MeasurableSpace (X i)] in
theorem EachSame.update {r : ∀ i, X i → X i → Prop} {x x' : ∀ i, X i} (h : EachSame r x x') {i : Fin n} {y y' : X i} (hy : r i y y') :
    EachSame r (Function.update x i y) (Function.update x' i y') := by
  intro j
  by_cases hj : j = i
  · subst hj
    rw [Function.update_self, Function.update_self]
    exact hy
  · rw [Function.update_of_ne hj, Function.update_of_ne hj]
    exact h j

theorem blockStep_lumps {i : Fin n} {Θ : Type} [MeasurableSpace Θ] {k : ℕ} {p : Scheme (X i) Θ k} {w : Fin k → ℝ} (hp : p.Ok w)
    {r : ∀ i, X i → X i → Prop} (hrefl : ∀ i x, r i x x) (hr : p.Lumps (r i)) {ℓ : (∀ i, X i) → ℝ} (hℓ : Measurable ℓ)
    (hℓr : ∀ x y, EachSame r x y → ℓ x = ℓ y) {T : ℝ} {A : Set (∀ i, X i)} (hA : MeasurableSet A) (hAr : Invariant (EachSame r) A)
    {x x' : ∀ i, X i} (hx : EachSame r x x') : blockStep i p w ℓ T x A = blockStep i p w ℓ T x' A := by
  unfold blockStep
  have hm : Measurable fun y => Function.update x i y := measurable_update x
  have h1 : (fun y => ℓ (Function.update x i y)) = fun y => ℓ (Function.update x' i y) :=
    funext fun y => hℓr _ _ (hx.update (hrefl i y))
  have h2 : {y | Function.update x i y ∈ A} = {y | Function.update x' i y ∈ A} :=
    Set.ext fun y => hAr _ _ (hx.update (hrefl i y))
  rw [← h1, ← h2]
  exact transition_lumps hp (hℓ.comp hm) (hrefl i) hr (fun y y' hy => hℓr _ _ (EachSame.update (fun j => hrefl j _) hy)) (hm hA)
    (fun y y' hy => hAr _ _ (EachSame.update (fun j => hrefl j _) hy)) (hx i)

/-- A mixture of transitions of single blocks is in balance. -/
theorem mixture_balance (μ : ∀ i, Measure (X i)) [∀ i, SigmaFinite (μ i)] {Θ : Fin n → Type} [∀ i, MeasurableSpace (Θ i)]
    {k : Fin n → ℕ} {p : ∀ i, Scheme (X i) (Θ i) (k i)} {w : ∀ i, Fin (k i) → ℝ} (hp : ∀ i, (p i).Ok (w i))
    (hpr : ∀ i, (p i).prior = μ i) (hw : ∀ i j, 0 ≤ w i j) (hs : ∀ i, 0 < ∑ j, w i j) {ℓ : (∀ i, X i) → ℝ} (hℓ : Measurable ℓ)
    (T : ℝ) (a : Fin n → ENNReal) (ha : ∑ i, a i = 1) (r : (∀ i, X i) → (∀ i, X i) → Prop)
    (K : (∀ i, X i) → Set (∀ i, X i) → ENNReal)
    (hK : ∀ᵐ x ∂Measure.pi μ, ∀ A, MeasurableSet A → Invariant r A → K x A = ∑ i, a i * blockStep i (p i) (w i) ℓ T x A) :
    DetailedBalanceUpTo r (posterior (Measure.pi μ) ℓ T) K ∧ PreservesUpTo r (posterior (Measure.pi μ) ℓ T) K := by
  have h1 : posterior (Measure.pi μ) ℓ T ≪ Measure.pi μ := withDensity_absolutelyContinuous _ _
  have hae : ∀ᵐ x ∂posterior (Measure.pi μ) ℓ T, ∀ A, MeasurableSet A → Invariant r A →
      K x A = ∑ i, a i * blockStep i (p i) (w i) ℓ T x A := h1.ae_le hK
  have hdb : DetailedBalance (posterior (Measure.pi μ) ℓ T) fun x A => ∑ i, a i * blockStep i (p i) (w i) ℓ T x A := by
    intro A B hA hB
    have hm : ∀ i A, MeasurableSet A → Measurable fun x => blockStep i (p i) (w i) ℓ T x A :=
      fun i A hA => blockStep_meas μ i (hp i) (hpr i) hℓ T hA
    rw [lintegral_finsetSum _ fun i _ => (hm i B hB).const_mul _, lintegral_finsetSum _ fun i _ => (hm i A hA).const_mul _]
    refine Finset.sum_congr rfl fun i _ => ?_
    rw [lintegral_const_mul _ (hm i B hB), lintegral_const_mul _ (hm i A hA), block_balance μ i (hp i) (hpr i) hℓ T A B hA hB]
  refine ⟨fun A B hA hB hAr hBr => ?_, fun A hA hAr => ?_⟩
  · rw [lintegral_congr_ae (ae_restrict_of_ae (hae.mono fun x hx => hx B hB hBr)),
      lintegral_congr_ae (ae_restrict_of_ae (hae.mono fun x hx => hx A hA hAr))]
    exact hdb A B hA hB
  · rw [lintegral_congr_ae (hae.mono fun x hx => hx A hA hAr)]
    refine preserves_of_balance hdb (.of_forall fun x => ?_) A hA
    simp only [blockStep_univ _ (hp _) (hw _) (hs _), mul_one, ha]

end pi

section draws

variable {S σ E X : Type}

theorem stepLaw_eval (cfg : ChainCfg S σ) (f : S → M (S × PyF)) {n : ℕ} {Θ : Fin n → Type} [∀ i, MeasurableSpace (Θ i)]
    (D : ∀ i, Measure (Θ i)) [∀ i, IsProbabilityMeasure (D i)] (i : Fin n) (enc : S → Θ i → List Draw) (val : S → X)
    (c : Chain S σ E) (A : Set X) :
    stepLaw cfg f (fun s θ => enc s (θ i)) (Measure.pi D) val c A = stepLaw cfg f enc (D i) val c A := by
  unfold stepLaw
  set B : Set (Θ i × ℝ) := {z | z.2 ∈ Set.Ico (0 : ℝ) 1 ∧ ∃ new lpr, (∀ rest, f c.cur (enc c.cur z.1 ++ rest) = (.ok (new, lpr), rest)) ∧
    val (decided cfg c new lpr z.2) ∈ A} with hB
  change ((Measure.pi D).prod unit) {z | (z.1 i, z.2) ∈ B} = ((D i).prod unit) B
  clear_value B
  clear hB enc
  cases n with
  | zero => exact i.elim0
  | succ n =>
    have h1 := (measurePreserving_piFinSuccAbove D i).prod (MeasurePreserving.id unit)
    set ν := Measure.pi fun j => D (i.succAbove j) with hν
    have e1 : {z : (∀ j, Θ j) × ℝ | (z.1 i, z.2) ∈ B} =
        ((MeasurableEquiv.piFinSuccAbove Θ i).prodCongr (MeasurableEquiv.refl ℝ)) ⁻¹'
          {z : (Θ i × ∀ j, Θ (i.succAbove j)) × ℝ | (z.1.1, z.2) ∈ B} := rfl
    have h1' : MeasurePreserving ((MeasurableEquiv.piFinSuccAbove Θ i).prodCongr (MeasurableEquiv.refl ℝ))
        ((Measure.pi D).prod unit) (((D i).prod ν).prod unit) := h1
    rw [e1, h1'.measure_preimage_equiv]
    have h2 : MeasurePreserving (MeasurableEquiv.prodComm (α := Θ i × ∀ j, Θ (i.succAbove j)) (β := ℝ))
        (((D i).prod ν).prod unit) (unit.prod ((D i).prod ν)) := Measure.measurePreserving_swap
    have h3 : MeasurePreserving (MeasurableEquiv.prodAssoc (α := ℝ) (β := Θ i) (γ := ∀ j, Θ (i.succAbove j)))
        ((unit.prod (D i)).prod ν) (unit.prod ((D i).prod ν)) := measurePreserving_prodAssoc _ _ _
    have e2 : {z : (Θ i × ∀ j, Θ (i.succAbove j)) × ℝ | (z.1.1, z.2) ∈ B} =
        MeasurableEquiv.prodComm ⁻¹' {z : ℝ × (Θ i × ∀ j, Θ (i.succAbove j)) | (z.2.1, z.1) ∈ B} := rfl
    rw [e2, h2.measure_preimage_equiv, ← h3.measure_preimage_equiv]
    have e3 : MeasurableEquiv.prodAssoc (α := ℝ) (β := Θ i) (γ := ∀ j, Θ (i.succAbove j)) ⁻¹'
        {z : ℝ × (Θ i × ∀ j, Θ (i.succAbove j)) | (z.2.1, z.1) ∈ B} = {y : ℝ × Θ i | (y.2, y.1) ∈ B} ×ˢ Set.univ := by
      ext z
      simp [MeasurableEquiv.prodAssoc]
    rw [e3, Measure.prod_prod, measure_univ, mul_one]
    have h4 : MeasurePreserving (MeasurableEquiv.prodComm (α := ℝ) (β := Θ i)) (unit.prod (D i)) ((D i).prod unit) :=
      Measure.measurePreserving_swap
    have e4 : {y : ℝ × Θ i | (y.2, y.1) ∈ B} = MeasurableEquiv.prodComm ⁻¹' B := rfl
    rw [e4, h4.measure_preimage_equiv]

end draws

end BB.Lemmas
