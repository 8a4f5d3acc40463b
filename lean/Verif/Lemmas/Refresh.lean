import Verif.Lemmas.PlainMoves

/-!
# Random maps that preserve null sets: new values for a row, and new rows
-/

namespace BB.Lemmas

open BB Spec MeasureTheory

variable {X Y R : Type} [MeasurableSpace X] [MeasurableSpace Y] [MeasurableSpace R]

/-- The law of `A x z` is bounded by a multiple of the law of `x`. -/
structure Dom (ν : Measure Y) (ρ : Measure R) (A : Y → R → Y) : Prop where
  meas : Measurable fun z : Y × R => A z.1 z.2
  le : ∀ F : Y → ENNReal, Measurable F → ∫⁻ y, ∫⁻ z, F (A y z) ∂ρ ∂ν ≤ 2 * ∫⁻ y, F y ∂ν

/-- The law of `A x z` is that of `x`. -/
structure Pres (ν : Measure Y) (ρ : Measure R) (A : Y → R → Y) : Prop where
  meas : Measurable fun z : Y × R => A z.1 z.2
  eq : ∀ F : Y → ENNReal, Measurable F → ∫⁻ y, ∫⁻ z, F (A y z) ∂ρ ∂ν = ∫⁻ y, F y ∂ν

theorem Pres.dom {ν : Measure Y} {ρ : Measure R} {A : Y → R → Y} (h : Pres ν ρ A) : Dom ν ρ A where
  meas := h.meas
  le := fun F hF => by
    rw [h.eq F hF, two_mul]
    exact le_self_add

theorem Dom.inner {ν : Measure Y} {ρ : Measure R} [SFinite ρ] {A : Y → R → Y} (h : Dom ν ρ A) {F : Y → ENNReal}
    (hF : Measurable F) : Measurable fun y => ∫⁻ z, F (A y z) ∂ρ :=
  Measurable.lintegral_prod_right' (hF.comp h.meas)

/-- What is true of almost all points is true after the map. -/
theorem Dom.ae {ν : Measure Y} {ρ : Measure R} [SFinite ρ] {A : Y → R → Y} (h : Dom ν ρ A) {P : Y → Prop}
    (hP : ∀ᵐ y ∂ν, P y) : ∀ᵐ y ∂ν, ∀ᵐ z ∂ρ, P (A y z) := by
  obtain ⟨N, hN, hm, h0⟩ := exists_measurable_superset_of_null (ae_iff.1 hP)
  have hF : Measurable (N.indicator (1 : Y → ENNReal)) := measurable_one.indicator hm
  have h1 := h.le _ hF
  rw [lintegral_indicator_one hm, h0, mul_zero, nonpos_iff_eq_zero, lintegral_eq_zero_iff (h.inner hF)] at h1
  filter_upwards [h1] with y hy
  have hFy : Measurable fun z => N.indicator (1 : Y → ENNReal) (A y z) := (hF.comp h.meas).comp measurable_prodMk_left
  have hy' : ∫⁻ z, N.indicator (1 : Y → ENNReal) (A y z) ∂ρ = 0 := hy
  rw [lintegral_eq_zero_iff hFy] at hy'
  filter_upwards [hy'] with z hz
  by_contra hc
  have : A y z ∈ N := hN hc
  have hz' : N.indicator (1 : Y → ENNReal) (A y z) = 0 := hz
  rw [Set.indicator_of_mem this] at hz'
  exact one_ne_zero hz'

/-- What is true after a map that preserves the law is true of almost all points. -/
theorem Pres.ae_of {ν : Measure Y} {ρ : Measure R} [SFinite ρ] {A : Y → R → Y} (h : Pres ν ρ A) {P : Y → Prop}
    (hm : MeasurableSet {y | P y}) (hP : ∀ᵐ y ∂ν, ∀ᵐ z ∂ρ, P (A y z)) : ∀ᵐ y ∂ν, P y := by
  have hm' : MeasurableSet {y | ¬ P y} := hm.compl
  have hF : Measurable ({y | ¬ P y}.indicator (1 : Y → ENNReal)) := measurable_one.indicator hm'
  have h1 := h.eq _ hF
  rw [lintegral_indicator_one hm'] at h1
  refine ae_iff.2 (h1.symm.trans ?_)
  rw [lintegral_eq_zero_iff (h.dom.inner hF)]
  filter_upwards [hP] with y hy
  have hFy : Measurable fun z => {y | ¬ P y}.indicator (1 : Y → ENNReal) (A y z) :=
    (hF.comp h.meas).comp measurable_prodMk_left
  refine (lintegral_eq_zero_iff hFy).2 ?_
  filter_upwards [hy] with z hz
  have : A y z ∉ {y | ¬ P y} := fun hc => hc hz
  exact Set.indicator_of_notMem this _

/-! ### components -/

section Components

variable {ι : Type} [Fintype ι] [DecidableEq ι] {Z : ι → Type} [∀ i, MeasurableSpace (Z i)]

omit [Fintype ι] in
theorem lift_meas {i : ι} {A : Z i → R → Z i} (h : Measurable fun z : Z i × R => A z.1 z.2) :
    Measurable fun z : (∀ i, Z i) × R => Function.update z.1 i (A (z.1 i) z.2) := by
  have h1 : Measurable fun z : (∀ i, Z i) × R => A (z.1 i) z.2 :=
    h.comp (((measurable_pi_apply i).comp measurable_fst).prodMk measurable_snd)
  refine measurable_pi_lambda _ fun j => ?_
  by_cases hj : j = i
  · subst hj
    simpa using h1
  · simp only [Function.update_of_ne hj]
    exact (measurable_pi_apply j).comp measurable_fst

theorem Dom.lift {ν : ∀ i, Measure (Z i)} [∀ i, SigmaFinite (ν i)] {ρ : Measure R} [SFinite ρ] {i : ι} {A : Z i → R → Z i}
    (h : Dom (ν i) ρ A) : Dom (Measure.pi ν) ρ fun x z => Function.update x i (A (x i) z) where
  meas := lift_meas h.meas
  le := fun F hF => by
    rw [← lintegral_const_mul _ hF]
    have h1 : Measurable fun x => ∫⁻ z, F (Function.update x i (A (x i) z)) ∂ρ :=
      Measurable.lintegral_prod_right' (hF.comp (lift_meas h.meas))
    refine lintegral_le_of_lmarginal_le {i} h1 (measurable_const.mul hF) ?_
    rw [lmarginal_singleton, lmarginal_singleton]
    intro x
    have hu : Measurable fun y : Z i => F (Function.update x i y) := hF.comp (measurable_update x)
    have h2 := h.le _ hu
    simp only [Function.update_self, Function.update_idem]
    rw [lintegral_const_mul _ hu]
    exact h2

theorem Pres.lift {ν : ∀ i, Measure (Z i)} [∀ i, SigmaFinite (ν i)] {ρ : Measure R} [SFinite ρ] {i : ι} {A : Z i → R → Z i}
    (h : Pres (ν i) ρ A) : Pres (Measure.pi ν) ρ fun x z => Function.update x i (A (x i) z) where
  meas := lift_meas h.meas
  eq := fun F hF => by
    have h1 : Measurable fun x => ∫⁻ z, F (Function.update x i (A (x i) z)) ∂ρ :=
      Measurable.lintegral_prod_right' (hF.comp (lift_meas h.meas))
    refine lintegral_eq_of_lmarginal_eq {i} h1 hF ?_
    rw [lmarginal_singleton, lmarginal_singleton]
    funext x
    have hu : Measurable fun y : Z i => F (Function.update x i y) := hF.comp (measurable_update x)
    have h2 := h.eq _ hu
    simp only [Function.update_self, Function.update_idem]
    exact h2

/-- A component gets a new value. -/
theorem pres_component {ν : ∀ i, Measure (Z i)} [∀ i, SigmaFinite (ν i)] (i : ι) [IsProbabilityMeasure (ν i)] :
    Pres (Measure.pi ν) (ν i) fun x z => Function.update x i z := by
  refine Pres.lift (A := fun _ z => z) ⟨measurable_snd, fun F hF => ?_⟩
  rw [lintegral_const, measure_univ, mul_one]

end Components

/-! ### rows -/

/-- The row with the index `k` (modulo the number of rows) is replaced by `z`. -/
abbrev setRow (k : ℕ) (x : Tuple R) (z : R) : Tuple R := changeRow (fun _ => z) x k

theorem setRow_meas (k : ℕ) : Measurable fun z : Tuple R × R => setRow k z.1 z.2 := by
  refine measurable_tuple_prod fun n => ?_
  cases n with
  | zero => exact (measurable_mk 0).comp measurable_fst
  | succ n =>
    refine (measurable_mk (n + 1)).comp (g := tup (n + 1))
      (f := fun z : (Fin (n + 1) → R) × R => Function.update z.1 (Fin.ofNat (n + 1) k) z.2) ?_
    exact lift_meas (Z := fun _ : Fin (n + 1) => R) (A := fun _ z => z) measurable_snd

theorem setRow_pres (ρ : Measure R) [IsProbabilityMeasure ρ] (lo hi k : ℕ) : Pres (transPrior ρ lo hi) ρ (setRow k) where
  meas := setRow_meas k
  eq := fun F hF => by
    have h1 : Measurable fun x => ∫⁻ z, F (setRow k x z) ∂ρ := Measurable.lintegral_prod_right' (hF.comp (setRow_meas k))
    rw [lintegral_transPrior ρ lo hi h1, lintegral_transPrior ρ lo hi hF]
    refine Finset.sum_congr rfl fun n _ => ?_
    cases n with
    | zero =>
      refine lintegral_congr fun v => ?_
      change ∫⁻ z, F (tup 0 v) ∂ρ = _
      rw [lintegral_const, measure_univ, mul_one]
    | succ n =>
      exact (pres_component (ν := fun _ : Fin (n + 1) => ρ) (Fin.ofNat (n + 1) k)).eq (fun v => F (tup (n + 1) v))
        (hF.comp (measurable_mk (n + 1)))

/-- A row is added as the first one. -/
abbrev newRow (hi : ℕ) (x : Tuple R) (z : R) : Tuple R := addRow hi x 0 z

theorem newRow_meas (hi : ℕ) : Measurable fun z : Tuple R × R => newRow hi z.1 z.2 :=
  (addRow_meas hi).comp (measurable_fst.prodMk (measurable_const.prodMk measurable_snd))

theorem newRow_dom (ρ : Measure R) [IsProbabilityMeasure ρ] {lo hi : ℕ} (hlh : lo ≤ hi) : Dom (transPrior ρ lo hi) ρ (newRow hi) where
  meas := newRow_meas hi
  le := fun F hF => by
    have h1 : Measurable fun x => ∫⁻ z, F (newRow hi x z) ∂ρ := Measurable.lintegral_prod_right' (hF.comp (newRow_meas hi))
    rw [lintegral_transPrior ρ lo hi h1, lintegral_transPrior ρ lo hi hF]
    have e1 : ∀ n, n < hi → ∫⁻ v, ∫⁻ z, F (newRow hi (tup n v) z) ∂ρ ∂(Measure.pi fun _ : Fin n => ρ) =
        ∫⁻ v, F (tup (n + 1) v) ∂(Measure.pi fun _ : Fin (n + 1) => ρ) := by
      intro n hn
      rw [lintegral_succ ρ (Fin.ofNat (n + 1) 0)]
      have hm : Measurable fun z : R × (Fin n → R) => F (tup (n + 1) (insertAt (Fin.ofNat (n + 1) 0) z.1 z.2)) :=
        (hF.comp (measurable_mk (n + 1))).comp (insertAt_meas _)
      rw [lintegral_prod_symm' _ hm]
      refine lintegral_congr fun v => lintegral_congr fun z => ?_
      unfold newRow addRow
      rw [if_neg (show (tup n v).1 ≠ hi from hn.ne)]
    have e2 : ∫⁻ v, ∫⁻ z, F (newRow hi (tup hi v) z) ∂ρ ∂(Measure.pi fun _ : Fin hi => ρ) =
        ∫⁻ v, F (tup hi v) ∂(Measure.pi fun _ : Fin hi => ρ) := by
      refine lintegral_congr fun v => ?_
      have e : ∀ z, newRow hi (tup hi v) z = tup hi v := fun z => if_pos rfl
      simp only [e]
      rw [lintegral_const, measure_univ, mul_one]
    rw [Finset.sum_Ico_succ_top hlh, e2, two_mul]
    refine add_le_add ?_ ?_
    · rw [Finset.sum_congr rfl fun n hn => e1 n (Finset.mem_Ico.1 hn).2,
        Finset.sum_Ico_add' (fun n => ∫⁻ v, F (tup n v) ∂(Measure.pi fun _ : Fin n => ρ)) lo hi 1]
      refine Finset.sum_le_sum_of_subset ?_
      intro n hn
      rw [Finset.mem_Ico] at hn ⊢
      omega
    · exact Finset.single_le_sum (f := fun n => ∫⁻ v, F (tup n v) ∂(Measure.pi fun _ : Fin n => ρ))
        (fun _ _ => zero_le) (Finset.mem_Ico.2 ⟨hlh, by omega⟩)

end BB.Lemmas
