import Verif.Lemmas.BlockChain
import Verif.Lemmas.OwnChain
import Verif.Lemmas.PiDensity

/-!
# Blocks that do not preserve the posterior
-/

namespace BB.Lemmas

open BB Spec Props MeasureTheory

section pi

variable {n : ℕ} {X : Fin n → Type} [∀ i, MeasurableSpace (X i)]

/-- The other blocks do not move. -/
theorem blockStep_other {Θ : Type} [MeasurableSpace Θ] {k : ℕ} {i b : Fin n} (hib : i ≠ b) {p : Scheme (X i) Θ k} {w : Fin k → ℝ}
    (hp : p.Ok w) (hw : ∀ i, 0 ≤ w i) (hs : 0 < ∑ i, w i) (ℓ : (∀ i, X i) → ℝ) (T : ℝ) (x : ∀ i, X i) (C : Set (X b)) :
    blockStep i p w ℓ T x {x | x b ∈ C} = {x : ∀ i, X i | x b ∈ C}.indicator 1 x := by
  classical
  have e : {y | Function.update x i y ∈ {x : ∀ i, X i | x b ∈ C}} = if x b ∈ C then Set.univ else ∅ := by
    ext y
    simp only [Set.mem_ofPred_eq, Function.update_of_ne hib.symm]
    split <;> simp_all
  unfold blockStep
  rw [e]
  by_cases hx : x b ∈ C
  · rw [if_pos hx, transition_univ hp hw hs, Set.indicator_of_mem (show x ∈ {x : ∀ i, X i | x b ∈ C} from hx)]
    rfl
  · rw [if_neg hx, Set.indicator_of_notMem (show x ∉ {x : ∀ i, X i | x b ∈ C} from hx)]
    unfold transition
    simp

/-- What holds for almost all models holds for almost all values of one block, for some values of the others. -/
theorem block_slice (μ : ∀ i, Measure (X i)) [∀ i, SigmaFinite (μ i)] (hne : ∀ i, μ i ≠ 0) (b : Fin n) {Q : (∀ i, X i) → Prop}
    (h : ∀ᵐ x ∂Measure.pi μ, Q x) : ∃ x0 : ∀ i, X i, ∀ᵐ y ∂μ b, Q (Function.update x0 b y) := by
  cases n with
  | zero => exact b.elim0
  | succ n =>
    set e := MeasurableEquiv.piFinSuccAbove X b with he
    have h1 := (measurePreserving_piFinSuccAbove μ b).symm
    have h2 : ∀ᵐ z ∂(μ b).prod (Measure.pi fun j => μ (b.succAbove j)), Q (e.symm z) := by
      rw [← h1.map_eq] at h
      exact ae_of_ae_map h1.measurable.aemeasurable h
    rw [← Measure.prod_swap] at h2
    have h3 := Measure.ae_ae_of_ae_prod (ae_of_ae_map measurable_swap.aemeasurable h2)
    have hpi : (Measure.pi fun j => μ (b.succAbove j)) ≠ 0 := by
      rw [Ne, ← Measure.measure_univ_eq_zero, Measure.pi_univ, Finset.prod_eq_zero_iff]
      rintro ⟨j, -, hj⟩
      exact hne _ (Measure.measure_univ_eq_zero.1 hj)
    have : Filter.NeBot (ae (Measure.pi fun j => μ (b.succAbove j))) := ae_neBot.2 hpi
    obtain ⟨v, hv⟩ := h3.exists
    have : Filter.NeBot (ae (μ b)) := ae_neBot.2 (hne b)
    obtain ⟨y0, -⟩ := hv.exists
    refine ⟨e.symm (y0, v), ?_⟩
    filter_upwards [hv] with y hy
    have : Function.update (e.symm (y0, v)) b y = e.symm (y, v) := by
      have g := Fin.insertNth_removeNth (α := X) b y (e.symm (y0, v))
      rw [← g]
      have : Fin.removeNth b (e.symm (y0, v)) = v := congrArg Prod.snd (e.apply_symm_apply (y0, v))
      rw [this]
      rfl
    rw [this]
    exact hy

/-- A block is in balance with the prior by some of its perturbations, and by others with the prior times a function that these
others change. -/
structure Stirs {X Θ : Type} [MeasurableSpace X] [MeasurableSpace Θ] (prior : Measure X) (staying : X → ℝ) {k : ℕ}
    (m : Scheme X Θ k) (w : Fin k → ℝ) : Prop where
  stir : ∃ (Θ1 Θ2 : Type) (_ : MeasurableSpace Θ1) (_ : MeasurableSpace Θ2) (k1 : ℕ) (p : Scheme X Θ1 k1) (w1 : Fin k1 → ℝ)
    (q : Scheme X Θ2 1) (w2 : Fin 1 → ℝ) (α β : ENNReal),
    p.Ok w1 ∧ p.prior = prior ∧ (∀ i, 0 ≤ w1 i) ∧ (α ≠ 0 → 0 < ∑ i, w1 i) ∧
    q.Ok w2 ∧ q.prior = prior.withDensity (fun x => ENNReal.ofReal (staying x)) ∧ 0 < w2 0 ∧
    (¬ ∀ᵐ z ∂q.common 0, 0 < q.dens 0 z → 0 < q.dens 0 z.swap → staying z.1 = staying z.2) ∧
    α + β = 1 ∧ β ≠ 0 ∧
    ∀ (ℓ : X → ℝ) (T : ℝ) (x : X) (A : Set X), Measurable ℓ → MeasurableSet A →
      transition m w ℓ T x A = α * transition p w1 ℓ T x A + β * transition q w2 ℓ T x A

/-- If one of the blocks is of this kind, then the posterior is not preserved. -/
theorem stirred (μ : ∀ i, Measure (X i)) [∀ i, IsFiniteMeasure (μ i)] (hne : ∀ i, μ i ≠ 0) {Θ : Fin n → Type}
    [∀ i, MeasurableSpace (Θ i)] {k : Fin n → ℕ} {m : ∀ i, Scheme (X i) (Θ i) (k i)} {w : ∀ i, Fin (k i) → ℝ}
    (hm : ∀ i, (m i).Ok (w i)) (hw : ∀ i j, 0 ≤ w i j) (hs : ∀ i, 0 < ∑ j, w i j) {ℓ : (∀ i, X i) → ℝ} (hℓ : Measurable ℓ) (T : ℝ)
    (a : Fin n → ENNReal) (ha : ∑ i, a i = 1) {r : ∀ i, X i → X i → Prop} (K : (∀ i, X i) → Set (∀ i, X i) → ENNReal)
    (hK : ∀ᵐ x ∂Measure.pi μ, ∀ A, MeasurableSet A → Invariant (EachSame r) A →
      K x A = ∑ i, a i * blockStep i (m i) (w i) ℓ T x A)
    (hfin : posterior (Measure.pi μ) ℓ T Set.univ ≠ ⊤) {b : Fin n} (hab : a b ≠ 0) {staying : X b → ℝ} (hst : Measurable staying)
    (hpos : ∀ x, 0 < staying x) (htilt : IsFiniteMeasure ((μ b).withDensity fun x => ENNReal.ofReal (staying x)))
    (hsame : ∀ x y, r b x y → staying x = staying y)
    (hstir : Stirs (μ b) staying (m b) (w b)) :
    ¬ PreservesUpTo (EachSame r) (posterior (Measure.pi μ) ℓ T) K := by
  classical
  intro hc
  obtain ⟨Θ1, Θ2, _, _, k1, p, w1, q, w2, α, β, hp, hp1, hp2, hp3, hq, hq1, hq2, hq3, hαβ, hβ, hmix⟩ := hstir.stir
  set π := posterior (Measure.pi μ) ℓ T with hπ
  have hπf : IsFiniteMeasure π := ⟨lt_top_iff_ne_top.2 hfin⟩
  set g : X b → ENNReal := fun y => ENNReal.ofReal (staying y)⁻¹ with hg
  have hgm : Measurable g := hst.inv.ennreal_ofReal
  set h : (∀ i, X i) → ENNReal := fun x => g (x b) with hh
  have hhm : Measurable h := hgm.comp (measurable_pi_apply b)
  -- the priors with the factor in the block
  set f : ∀ i, X i → ENNReal := Function.update (fun _ _ => 1) b fun y => ENNReal.ofReal (staying y) with hf
  have hfb : f b = fun y => ENNReal.ofReal (staying y) := Function.update_self _ _ _
  have hfo : ∀ i, i ≠ b → f i = fun _ => 1 := fun i hi => Function.update_of_ne hi _ _
  have hfm : ∀ i, Measurable (f i) := by
    intro i
    by_cases hi : i = b
    · subst hi
      rw [hfb]
      exact hst.ennreal_ofReal
    · rw [hfo i hi]
      exact measurable_const
  have hνf : ∀ i, IsFiniteMeasure ((μ i).withDensity (f i)) := by
    intro i
    by_cases hi : i = b
    · subst hi
      rw [hfb]
      exact htilt
    · rw [hfo i hi]
      change IsFiniteMeasure ((μ i).withDensity 1)
      rw [withDensity_one]
      infer_instance
  have hνne : ∀ i, (μ i).withDensity (f i) ≠ 0 := by
    intro i
    by_cases hi : i = b
    · subst hi
      rw [hfb, Ne, withDensity_eq_zero_iff hst.ennreal_ofReal.aemeasurable]
      intro h3
      have h4 : ∀ᵐ y ∂μ i, False := h3.mono fun y hy => (ENNReal.ofReal_pos.2 (hpos y)).ne' hy
      rw [Filter.eventually_false_iff_eq_bot, ae_eq_bot] at h4
      exact hne i h4
    · rw [hfo i hi]
      change (μ i).withDensity 1 ≠ 0
      rw [withDensity_one]
      exact hne i
  set ν : ∀ i, Measure (X i) := fun i => (μ i).withDensity (f i) with hν
  have hνb : q.prior = ν b := by
    rw [hq1, hν]
    simp only [hfb]
  have hπν : (posterior (Measure.pi ν) ℓ T).withDensity h = π := by
    have e1 : Measure.pi ν = (Measure.pi μ).withDensity fun x => ENNReal.ofReal (staying (x b)) := by
      rw [hν, pi_density_fin μ hfm]
      congr 1
      funext x
      rw [Finset.prod_eq_single b (fun j _ hj => by rw [hfo j hj]) (fun hb => absurd (Finset.mem_univ b) hb), hfb]
    have h1 : Measurable fun x : ∀ i, X i => ENNReal.ofReal (staying (x b)) :=
      (hst.comp (measurable_pi_apply b)).ennreal_ofReal
    have h2 : Measurable fun x => ENNReal.ofReal (Real.exp (ℓ x / T)) := by fun_prop
    rw [hπ]
    unfold posterior
    rw [e1, ← withDensity_mul _ h1 h2, ← withDensity_mul _ (h1.mul h2) hhm]
    congr 1
    funext x
    simp only [Pi.mul_apply, hh, hg]
    rw [mul_right_comm, ← ENNReal.ofReal_mul (hpos _).le, mul_inv_cancel₀ (hpos _).ne', ENNReal.ofReal_one, one_mul]
  -- the whole preserves the sets in question, hence the block does
  have hA : ∀ c : ENNReal, MeasurableSet {x : ∀ i, X i | c < h x} := fun c => measurableSet_lt measurable_const hhm
  have hAC : ∀ c : ENNReal, {x : ∀ i, X i | c < h x} = {x | x b ∈ {y | c < g y}} := fun c => rfl
  have hpa : ∀ c : ENNReal, π {x | c < h x} ≠ ⊤ := fun c => measure_ne_top _ _
  have habs : π ≪ Measure.pi μ := withDensity_absolutelyContinuous _ _
  have hinv : ∀ c : ENNReal, Invariant (EachSame r) {x | c < h x} := by
    intro c x y hxy
    simp only [Set.mem_ofPred_eq, hh, hg, hsame _ _ (hxy b)]
  have hat : a b ≠ ⊤ := ne_top_of_le_ne_top ENNReal.one_ne_top (ha ▸ Finset.single_le_sum (fun _ _ => zero_le) (Finset.mem_univ b))
  have hmp : ∀ c : ENNReal, Measurable fun x => blockStep b p w1 ℓ T x {x | c < h x} :=
    fun c => blockStep_meas μ b hp hp1 hℓ T (hA c)
  have hmq : ∀ c : ENNReal, Measurable fun x => blockStep b q w2 ℓ T x {x | c < h x} :=
    fun c => blockStep_meas ν b hq hνb hℓ T (hA c)
  have hmixb : ∀ c : ENNReal, ∀ x, blockStep b (m b) (w b) ℓ T x {x | c < h x} =
      α * blockStep b p w1 ℓ T x {x | c < h x} + β * blockStep b q w2 ℓ T x {x | c < h x} :=
    fun c x => hmix _ T (x b) _ (hℓ.comp (measurable_update x)) (measurable_update x (hA c))
  have hmb : ∀ c : ENNReal, Measurable fun x => blockStep b (m b) (w b) ℓ T x {x | c < h x} := by
    intro c
    simp only [hmixb]
    exact ((hmp c).const_mul α).add ((hmq c).const_mul β)
  have hblock : ∀ c : ENNReal, ∫⁻ x, blockStep b (m b) (w b) ℓ T x {x | c < h x} ∂π = π {x | c < h x} := by
    intro c
    have h1 := hc _ (hA c) (hinv c)
    have h2 : ∀ᵐ x ∂π, K x {x | c < h x} = (∑ i ∈ Finset.univ.erase b, a i) * {x : ∀ i, X i | c < h x}.indicator 1 x +
        a b * blockStep b (m b) (w b) ℓ T x {x | c < h x} := by
      filter_upwards [habs.ae_le hK] with x hx
      rw [hx _ (hA c) (hinv c), ← Finset.sum_erase_add _ _ (Finset.mem_univ b), Finset.sum_mul]
      congr 1
      refine Finset.sum_congr rfl fun i hi => ?_
      rw [hAC, blockStep_other (Finset.ne_of_mem_erase hi) (hm i) (hw i) (hs i)]
    have hrest : (∑ i ∈ Finset.univ.erase b, a i) ≠ ⊤ :=
      ne_top_of_le_ne_top ENNReal.one_ne_top (ha ▸ Finset.sum_le_sum_of_subset (Finset.erase_subset _ _))
    rw [lintegral_congr_ae h2, lintegral_add_right _ ((hmb c).const_mul _), lintegral_const_mul _ (hmb c),
      lintegral_const_mul _ (measurable_one.indicator (hA c)), lintegral_indicator_one (hA c)] at h1
    have h3 : (∑ i ∈ Finset.univ.erase b, a i) * π {x | c < h x} + a b * π {x | c < h x} = π {x | c < h x} := by
      rw [← add_mul, Finset.sum_erase_add _ _ (Finset.mem_univ b), ha, one_mul]
    have h4 := (ENNReal.add_right_inj (ENNReal.mul_ne_top hrest (hpa c))).1 (h1.trans h3.symm)
    exact (ENNReal.mul_right_inj hab hat).1 h4
  have hpartq : ∀ c : ENNReal, ∫⁻ x, blockStep b q w2 ℓ T x {x | c < h x} ∂π = π {x | c < h x} := by
    intro c
    have h1 := hblock c
    simp only [hmixb] at h1
    rw [lintegral_add_left ((hmp c).const_mul _), lintegral_const_mul _ (hmp c), lintegral_const_mul _ (hmq c)] at h1
    have hα : α ≠ ⊤ := ne_top_of_le_ne_top ENNReal.one_ne_top (hαβ ▸ le_self_add)
    have hβt : β ≠ ⊤ := ne_top_of_le_ne_top ENNReal.one_ne_top (hαβ ▸ le_add_self)
    have h2 : α * ∫⁻ x, blockStep b p w1 ℓ T x {x | c < h x} ∂π = α * π {x | c < h x} := by
      by_cases h0 : α = 0
      · rw [h0, zero_mul, zero_mul]
      · congr 1
        have h3 := block_balance μ b hp hp1 hℓ T Set.univ {x | c < h x} MeasurableSet.univ (hA c)
        simp only [blockStep_univ b hp hp2 (hp3 h0), setLIntegral_univ, setLIntegral_one] at h3
        exact h3
    have h3 : α * π {x | c < h x} + β * π {x | c < h x} = π {x | c < h x} := by
      rw [← add_mul, hαβ, one_mul]
    rw [h2] at h1
    have h4 := (ENNReal.add_right_inj (ENNReal.mul_ne_top hα (hpa c))).1 (h1.trans h3.symm)
    exact (ENNReal.mul_right_inj hβ hβt).1 h4
  have hw2 : ∀ i, 0 ≤ w2 i := fun i => by rw [Subsingleton.elim i 0]; exact hq2.le
  have hs2 : 0 < ∑ i, w2 i := by simpa using hq2
  have hno : ∀ c : ENNReal, ∫⁻ x in {x | c < h x}, blockStep b q w2 ℓ T x {x | c < h x}ᶜ ∂posterior (Measure.pi ν) ℓ T = 0 := by
    intro c
    refine no_flow (block_balance ν b hq hνb hℓ T) (fun B hB => blockStep_meas ν b hq hνb hℓ T hB) (fun x B hB => ?_) hhm ?_ c ?_
    · exact transition_add_compl hq hw2 hs2 (hℓ.comp (measurable_update x)) (x b) (measurable_update x hB)
    · rw [← setLIntegral_univ, ← withDensity_apply _ MeasurableSet.univ, hπν]
      exact hfin
    · rw [hπν]
      exact hpartq c
  have hae : ∀ᵐ x ∂Measure.pi ν, ∀ c : ℚ, ((Real.toNNReal c : NNReal) : ENNReal) < h x →
      blockStep b q w2 ℓ T x {x | ((Real.toNNReal c : NNReal) : ENNReal) < h x}ᶜ = 0 := by
    rw [ae_all_iff]
    intro c
    have h1 := hno ((Real.toNNReal c : NNReal) : ENNReal)
    rw [setLIntegral_eq_zero_iff (hA _) (blockStep_meas ν b hq hνb hℓ T (hA _).compl)] at h1
    have h2 : Measurable fun x => ENNReal.ofReal (Real.exp (ℓ x / T)) := by fun_prop
    exact (withDensity_absolutelyContinuous' h2.aemeasurable
      (.of_forall fun x => (ENNReal.ofReal_pos.2 (Real.exp_pos _)).ne')).ae_le h1
  obtain ⟨x0, hx0⟩ := block_slice ν hνne b hae
  have hℓ0 : Measurable fun y => ℓ (Function.update x0 b y) := hℓ.comp (measurable_update x0)
  refine hq3 ?_
  have key := keeps_flow (T := T) hq hw2 hℓ0 hgm (fun c => ?_) 0 hq2 (Subsingleton.elim _ _)
  · filter_upwards [key] with z hz g1 g2
    have h3 := hz g1 g2
    simp only [hg] at h3
    exact inv_injective ((ENNReal.ofReal_eq_ofReal_iff (inv_pos.2 (hpos _)).le (inv_pos.2 (hpos _)).le).1 h3)
  · have hC : MeasurableSet {y | ((Real.toNNReal c : NNReal) : ENNReal) < g y} := measurableSet_lt measurable_const hgm
    rw [setLIntegral_eq_zero_iff hC (transition_meas hq hℓ0 hC.compl)]
    refine (withDensity_absolutelyContinuous _ _).ae_le ?_
    rw [hνb]
    filter_upwards [hx0] with y hy hyc
    have h4 := hy c (by
      change _ < g (Function.update x0 b y b)
      rw [Function.update_self]
      exact hyc)
    unfold blockStep at h4
    simp only [Function.update_self, Function.update_idem] at h4
    have e : {y_1 | Function.update x0 b y_1 ∈ {x | ((Real.toNNReal c : NNReal) : ENNReal) < h x}ᶜ} =
        {y | ((Real.toNNReal c : NNReal) : ENNReal) < g y}ᶜ := by
      ext y1
      change ¬ (_ < g (Function.update x0 b y1 b)) ↔ _
      rw [Function.update_self]
      rfl
    rw [e] at h4
    exact h4

end pi

section

variable {X Θ Θ' : Type} [MeasurableSpace X] [MeasurableSpace Θ] [MeasurableSpace Θ'] {prior : Measure X} {staying : X → ℝ}

/-- Perturbations in balance with the prior, and one in balance with the prior times the function. -/
theorem stirs_append {a N : ℕ} {p : Scheme X Θ a} {q : Scheme X Θ' 1} {e : Fin N ≃ Fin a ⊕ Fin 1} {w : Fin N → ℝ} {wp : Fin a → ℝ}
    {wq : Fin 1 → ℝ} (hp : p.Ok wp) (hp1 : p.prior = prior) (hwp : ∀ i, 0 ≤ wp i) (hsp : 0 < ∑ i, wp i) (hq : q.Ok wq)
    (hq1 : q.prior = prior.withDensity fun x => ENNReal.ofReal (staying x)) (hwq : 0 < wq 0)
    (hne : ¬ ∀ᵐ z ∂q.common 0, 0 < q.dens 0 z → 0 < q.dens 0 z.swap → staying z.1 = staying z.2)
    (hw : ∀ i, w i = Sum.elim wp wq (e i)) : Stirs prior staying (append (bare p) (bare q) e) w := by
  have hsq : 0 < ∑ i, wq i := by simpa using hwq
  have hsum : ∑ i, w i = ∑ i, wp i + ∑ i, wq i := by
    simp only [hw]
    rw [e.sum_comp (Sum.elim wp wq), Fintype.sum_sum_type]
    rfl
  have hpos : 0 < ∑ i, w i := by rw [hsum]; exact add_pos hsp hsq
  have hwq' : ∀ i, 0 ≤ wq i := fun i => by rw [Subsingleton.elim i 0]; exact hwq.le
  refine ⟨Θ, Θ', _, _, a, p, wp, q, wq, ENNReal.ofReal ((∑ i, wp i) / ∑ i, w i), ENNReal.ofReal ((∑ i, wq i) / ∑ i, w i),
    hp, hp1, hwp, fun _ => hsp, hq, hq1, hwq, hne, ?_, ?_, fun ℓ T x A hℓ hA => ?_⟩
  · rw [← ENNReal.ofReal_add (div_pos hsp hpos).le (div_pos hsq hpos).le, ← add_div, ← hsum, div_self hpos.ne', ENNReal.ofReal_one]
  · exact (ENNReal.ofReal_pos.2 (div_pos hsq hpos)).ne'
  · exact transition_append (bare_ok hp) (bare_ok hq) hw hwp hwq' hℓ T x hA

theorem nothing_ok [SFinite prior] (draws : Measure Θ) [IsProbabilityMeasure draws] (w : Fin 0 → ℝ) : (nothing prior draws).Ok w where
  sfinite := inferInstanceAs (SFinite prior)
  prob := inferInstanceAs (IsProbabilityMeasure draws)
  meas := fun i => i.elim0
  rev_rev := fun i => i.elim0
  rev_weight := fun i => i.elim0
  symm := fun i => i.elim0
  dens_meas := fun i => i.elim0
  dens_nonneg := fun i => i.elim0
  joint := fun i => i.elim0

/-- One perturbation in balance with the prior times the function. -/
theorem stirs_one [SFinite prior] {q : Scheme X Θ' 1} {wq : Fin 1 → ℝ} (hq : q.Ok wq)
    (hq1 : q.prior = prior.withDensity fun x => ENNReal.ofReal (staying x)) (hwq : 0 < wq 0)
    (hne : ¬ ∀ᵐ z ∂q.common 0, 0 < q.dens 0 z → 0 < q.dens 0 z.swap → staying z.1 = staying z.2) : Stirs prior staying q wq :=
  ⟨Unit, Θ', _, _, 0, nothing prior (Measure.dirac ()), fun i => i.elim0, q, wq, 0, 1, nothing_ok _ _, rfl, fun i => i.elim0,
    fun h => absurd rfl h, hq, hq1, hwq, hne, zero_add 1, one_ne_zero, fun ℓ T x A hℓ hA => by rw [zero_mul, one_mul, zero_add]⟩

theorem fine_bare {n : ℕ} (p : Scheme X Θ n) (P : Set X) : fine (bare p) P = fine p P := rfl

theorem fine_append {a b N : ℕ} {p : Scheme X Θ a} {q : Scheme X Θ' b} {e : Fin N ≃ Fin a ⊕ Fin b} [IsProbabilityMeasure p.draws]
    [IsProbabilityMeasure q.draws] {P : Set X} {x : X} (h1 : x ∈ fine p P) (h2 : x ∈ fine q P) : x ∈ fine (append p q e) P := by
  have hcases : ∀ i, (∃ j, e i = .inl j) ∨ ∃ j, e i = .inr j := by
    intro i
    rcases e i with j | j
    · exact .inl ⟨j, rfl⟩
    · exact .inr ⟨j, rfl⟩
  refine ⟨h1.1, fun i => ?_, fun i => ?_⟩
  · rcases hcases i with ⟨j, hj⟩ | ⟨j, hj⟩
    · simp only [append, hj, Sum.elim_inl]
      exact Measure.quasiMeasurePreserving_fst.ae (h1.2.1 j)
    · simp only [append, hj, Sum.elim_inr]
      exact Measure.quasiMeasurePreserving_snd.ae (h2.2.1 j)
  · rcases hcases i with ⟨j, hj⟩ | ⟨j, hj⟩
    · simp only [append, hj, Sum.elim_inl, Sum.map_inl, Equiv.apply_symm_apply]
      exact Measure.quasiMeasurePreserving_fst.ae (h1.2.2 j)
    · simp only [append, hj, Sum.elim_inr, Sum.map_inr, Equiv.apply_symm_apply]
      exact Measure.quasiMeasurePreserving_snd.ae (h2.2.2 j)

end

section

variable {X Θb Θv Θs : Type} [MeasurableSpace X] [MeasurableSpace Θb] [MeasurableSpace Θv] [MeasurableSpace Θs]
  {val : PSState → X} {logLik : X → ℝ} {prior : Measure X} {T : ℝ} {inv : PSState → Prop} {r : X → X → Prop}
  {births : Fin 2 → PSState → Θb → List Draw} {values : PSState → Θv → List Draw} {sites : PSState → Θs → List Draw}
  {lb : Measure Θb} {lv : Measure Θv} {sp : Space} {name : String} {ps : List Prior} {staying : X → ℝ}

/-- All perturbations of a space: births, deaths and perturbations of values, and the perturbation of sites, which is in balance with
something else. -/
theorem own_stirred {fs : List (PSFunc × ℝ)}
    (hfs : fs = [] ∨ fs = [(PSFunc.birth sp, (1 : ℝ)), (PSFunc.death sp, 1)])
    (hown : sp.ownFuncs = fs ++ [(PSFunc.values name ps, 3)] ++ [(PSFunc.site sp, 1)])
    (hb : Part (funcsChain fs val logLik) prior logLik T (funcDraws fs val logLik (bdDraws births)) lb val inv r)
    (hv : Part (funcsChain [(PSFunc.values name ps, 3)] val logLik) prior logLik T (fun _ => values) lv val inv r)
    {q : Scheme X Θs 1} (hq : q.Ok (weight (funcsChain [(PSFunc.site sp, 1)] val logLik))) (hql : q.Lumps r)
    (hqr : Reports (funcsChain [(PSFunc.site sp, 1)] val logLik) q logLik T (fun _ => sites) val inv r)
    (hq1 : q.prior = prior.withDensity fun x => ENNReal.ofReal (staying x)) (hac : prior ≪ q.prior)
    (hne : ¬ ∀ᵐ z ∂q.common 0, 0 < q.dens 0 z → 0 < q.dens 0 z.swap → staying z.1 = staying z.2)
    {P : Set X} (hP : MeasurableSet P) (hae : ∀ᵐ x ∂prior, x ∈ P) :
    ∃ m : Scheme X ((Θb × Θv) × Θs) (ownChain sp val logLik).perturbs.length, m.prior = 0 ∧ m.draws = (lb.prod lv).prod q.draws ∧
      m.Ok (weight (ownChain sp val logLik)) ∧ m.Lumps r ∧
      Reports (ownChain sp val logLik) m logLik T (funcDraws sp.ownFuncs val logLik (ownDraws births values sites)) val inv r ∧
      (∀ᵐ x ∂prior, x ∈ fine m P) ∧ Stirs prior staying m (weight (ownChain sp val logLik)) := by
  unfold ownChain
  generalize sp.ownFuncs = gs at hown
  subst hown
  have hj := joins_funcs (fs ++ [(PSFunc.values name ps, 3)]) [(PSFunc.site sp, 1)] val logLik
  obtain ⟨p, hp1, hp2, hp3, hp4, hp5⟩ := lead_part hfs hb hv
  have e := all_draws (val := val) (logLik := logLik) (births := births) (values := values) (sites := sites)
    (lead_no_site (name := name) (ps := ps) (w := 3) hfs) (c := [(PSFunc.site sp, 1)])
    fun f hf => ⟨sp, by rw [List.mem_singleton.1 hf]⟩
  have e2 : hj.draws (funcDraws (fs ++ [(PSFunc.values name ps, 3)]) val logLik (bvDraws births values)) (fun _ => sites) =
    funcDraws (fs ++ [(PSFunc.values name ps, 3)] ++ [(PSFunc.site sp, 1)]) val logLik (ownDraws births values sites) := e
  rw [← e2]
  obtain ⟨w1, w2⟩ := lead_weights (val := val) (logLik := logLik) (name := name) (ps := ps) hfs
  have hbp := bare_ok hp3
  have hbq := bare_ok hq
  have : IsProbabilityMeasure (bare p).draws := hbp.prob
  have : IsProbabilityMeasure (bare q).draws := hbq.prob
  refine ⟨append (bare p) (bare q) hj.from, rfl, ?_, hj.ok hbp hbq rfl, append_lumps hbp hbq (bare_lumps hp4) (bare_lumps hql),
    hj.reports (bare_reports hp5) (bare_reports hqr), ?_, ?_⟩
  · rw [← hp2]
    rfl
  · have h1 := fine_ae hp3 hP (by rw [hp1]; exact hae)
    have h2 := fine_ae hq hP (by rw [hq1]; exact (withDensity_absolutelyContinuous _ _).ae_le hae)
    rw [hp1] at h1
    filter_upwards [h1, hac.ae_le h2] with x g1 g2
    exact fine_append (p := bare p) (q := bare q) g1 g2
  · refine stirs_append hp3 hp1 (weight_nonneg _ hj.len1 w1) ?_ hq hq1 ?_ hne hj.weight
    · rw [sum_weight _ hj.len1]
      exact w2
    · change (0 : ℝ) < 1
      exact one_pos

end

end BB.Lemmas
