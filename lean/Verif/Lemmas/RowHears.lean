import Verif.Lemmas.Hears
import Verif.Lemmas.RowConst
import Verif.Lemmas.MoveScheme
import Verif.Lemmas.PlainIrred

/-!
# Functions of models with rows that do not notice the perturbations
-/

namespace BB.Lemmas

open BB Spec Props MeasureTheory ProbabilityTheory

/-- What is almost surely true of the number drawn is true of all numbers. -/
theorem uniform_index {K : ℕ} {Q : ℕ → Prop} (h1 : ∀ᵐ n ∂uniformNat K, Q n) {k : ℕ} (hk : k < K) : Q k := by
  rw [ae_iff] at h1
  by_contra hc
  unfold uniformNat at h1
  rw [Measure.smul_apply, Measure.finsetSum_apply, smul_eq_mul, mul_eq_zero] at h1
  rcases h1 with h1 | h1
  · simp at h1
  · rw [Finset.sum_eq_zero_iff] at h1
    have := h1 k (Finset.mem_range.2 hk)
    rw [Measure.dirac_apply, Set.indicator_of_mem (show k ∈ {n | ¬ Q n} from hc)] at this
    simp at this

section trans

variable {R : Type} [MeasurableSpace R] {ρ : Measure R} {lo hi : ℕ}

theorem trans_dim {Q : Tuple R → Prop} (h : ∀ᵐ x ∂transPrior ρ lo hi, Q x) {n : ℕ} (h1 : lo ≤ n) (h2 : n ≤ hi) :
    ∀ᵐ v ∂Measure.pi fun _ : Fin n => ρ, Q (tup n v) := by
  refine ae_of_ae_map (measurable_mk n).aemeasurable ?_
  rw [ae_iff] at h ⊢
  unfold transPrior at h
  rw [Measure.finsetSum_apply, Finset.sum_eq_zero_iff] at h
  exact h n (Finset.mem_Ico.2 ⟨h1, Nat.lt_succ_of_le h2⟩)

theorem trans_all {Q : Tuple R → Prop} (hQ : MeasurableSet {x | Q x})
    (h : ∀ n, lo ≤ n → n ≤ hi → ∀ᵐ v ∂Measure.pi fun _ : Fin n => ρ, Q (tup n v)) : ∀ᵐ x ∂transPrior ρ lo hi, Q x := by
  rw [ae_iff]
  unfold transPrior
  rw [Measure.finsetSum_apply, Finset.sum_eq_zero_iff]
  intro n hn
  rw [Finset.mem_Ico] at hn
  exact (ae_map_iff (measurable_mk n).aemeasurable hQ).2 (h n hn.1 (Nat.le_of_lt_succ hn.2))

end trans

section row

variable {R Θ : Type} [MeasurableSpace R] [MeasurableSpace Θ] {ν : Measure R} {F : R → ℝ} {μ : Measure Θ} {m : R → Θ → R} {lo hi : ℕ}
  {g c : Tuple R → ℝ}

/-- The row `i` of a model is replaced. -/
def putRow {n : ℕ} (v : Fin n → R) (i : Fin n) (y : R) : Tuple R := tup n (Function.update v i y)

theorem putRow_meas {n : ℕ} (v : Fin n → R) (i : Fin n) : Measurable (putRow v i) := (measurable_mk n).comp (measurable_update v)

theorem row_hears [SigmaFinite ν] [SFinite μ] (hF : Measurable F) (hn : ∀ r, 0 ≤ F r)
    (h : Hears (rowMove ν F μ m lo hi) (fun _ => 1) g c) {n : ℕ} (h1 : lo ≤ n + 1) (h2 : n + 1 ≤ hi) (i : Fin (n + 1)) :
    ∀ᵐ v ∂Measure.pi fun _ : Fin (n + 1) => ν.withDensity fun r => ENNReal.ofReal (F r),
      ∀ᵐ y ∂ν, F y ≠ 0 → ∀ᵐ θ ∂μ, F (m y θ) ≠ 0 → g (putRow v i (m y θ)) = c (putRow v i y) := by
  set ρ := ν.withDensity fun r => ENNReal.ofReal (F r) with hρ
  have hsf : SigmaFinite ρ := SigmaFinite.withDensity_ofReal _
  have hFρ : ∀ Q : R → Prop, (∀ᵐ y ∂ρ, Q y) ↔ ∀ᵐ y ∂ν, F y ≠ 0 → Q y := by
    intro Q
    rw [hρ, ae_withDensity_iff hF.ennreal_ofReal]
    refine Filter.eventually_congr (.of_forall fun y => ?_)
    have : ENNReal.ofReal (F y) ≠ 0 ↔ F y ≠ 0 := by
      rw [Ne, ENNReal.ofReal_eq_zero, not_le, lt_iff_le_and_ne]
      exact ⟨fun e => e.2.symm, fun e => ⟨hn y, e.symm⟩⟩
    rw [this]
  have hpos : ∀ᵐ v ∂Measure.pi fun _ : Fin (n + 1) => ρ, ∀ l, F (v l) ≠ 0 := by
    refine ae_all_iff.2 fun l => ?_
    exact (Measure.quasiMeasurePreserving_eval (fun _ : Fin (n + 1) => ρ) l).ae ((hFρ _).2 (.of_forall fun y hy => hy))
  have h3 : ∀ᵐ v ∂Measure.pi fun _ : Fin (n + 1) => ρ, ∀ᵐ θ ∂μ, (∏ l, F (Function.update v i (m (v i) θ) l)) ≠ 0 →
      g (putRow v i (m (v i) θ)) = c (tup (n + 1) v) := by
    filter_upwards [trans_dim (h 0 one_pos) h1 h2] with v hv
    have hlt : i.val < hi.factorial := lt_of_lt_of_le (lt_of_lt_of_le i.2 h2) (Nat.self_le_factorial hi)
    have h4 := uniform_index (Measure.ae_ae_of_ae_prod (show ∀ᵐ θ ∂(uniformNat hi.factorial).prod μ, _ from hv)) hlt
    have hi' : Fin.ofNat (n + 1) i.val = i := Fin.ext (Nat.mod_eq_of_lt i.2)
    filter_upwards [h4] with θ hθ hne
    have e : moveRow m hi (tup (n + 1) v) i.val θ = tup (n + 1) (Function.update v i (m (v i) θ)) := by
      rw [moveRow_apply m h2, hi']
    have hθ' : (∏ l, F ((moveRow m hi (tup (n + 1) v) i.val θ).2 l)) ≠ 0 → g (moveRow m hi (tup (n + 1) v) i.val θ) = c (tup (n + 1) v) :=
      hθ
    rw [e] at hθ'
    exact hθ' hne
  have h5 := pi_slice (fun _ : Fin (n + 1) => ρ) i (h3.and hpos)
  filter_upwards [h5] with v hv
  rw [← hFρ]
  filter_upwards [hv] with y hy
  simp only [Function.update_idem, Function.update_self, putRow] at hy ⊢
  filter_upwards [hy.1] with θ hθ hne
  refine hθ (Finset.prod_ne_zero_iff.2 fun l _ => ?_)
  by_cases hl : l = i
  · subst hl
    rw [Function.update_self]
    exact hne
  · have := hy.2 l
    rw [Function.update_of_ne hl] at this ⊢
    exact this

/-- All replacements of rows are unnoticed. -/
theorem rows_level {ρ : Measure R} [SigmaFinite ρ] (hg : Measurable g) (hc : Measurable c) {n : ℕ}
    (h : ∀ i, ∀ᵐ v ∂Measure.pi fun _ : Fin (n + 1) => ρ, ∃ a, ∀ᵐ y ∂ρ, g (putRow v i y) = a ∧ c (putRow v i y) = a) :
    ∃ a, ∀ᵐ v ∂Measure.pi fun _ : Fin (n + 1) => ρ, g (tup (n + 1) v) = a ∧ c (tup (n + 1) v) = a := by
  have hgm : Measurable fun v : Fin (n + 1) → R => g (tup (n + 1) v) := hg.comp (measurable_mk _)
  have hcm : Measurable fun v : Fin (n + 1) → R => c (tup (n + 1) v) := hc.comp (measurable_mk _)
  obtain ⟨a, ha⟩ := const_each (fun _ : Fin (n + 1) => ρ) hgm fun i => (h i).mono fun v ⟨a, hv⟩ => ⟨a, hv.mono fun y hy => hy.1⟩
  have hq := pi_unslice (fun _ : Fin (n + 1) => ρ) 0 (Q := fun v => g (tup (n + 1) v) = c (tup (n + 1) v))
    (measurableSet_eq_fun hgm hcm) ((h 0).mono fun v ⟨a, hv⟩ => hv.mono fun y hy => hy.1.trans hy.2.symm)
  refine ⟨a, ?_⟩
  filter_upwards [ha, hq] with v h1 h2
  exact ⟨h1, h2 ▸ h1⟩

end row

section values

variable {P : Type} [MeasurableSpace P] {k : ℕ} {σ : Measure P} {dens : Fin k → P → ℝ → ℝ} {std : Fin k → P → ℝ} {dom : Set P}
  {F G C : P × (Fin k → ℝ) → ℝ}

/-- A random walk with steps that are not 0 gets everywhere. -/
theorem walkLaw_everywhere {s : Fin k → ℝ} (hs : ∀ j, s j ≠ 0) (y : Fin k → ℝ) {Q : (Fin k → ℝ) → Prop}
    (hQ : MeasurableSet {z | Q z}) (h : ∀ᵐ z ∂walkLaw k, Q fun j => y j + z j * s j) : ∀ᵐ z : Fin k → ℝ, Q z := by
  obtain ⟨v, hv⟩ : ∃ v : Fin k → NNReal, ∀ j, v j = NNReal.mk (s j ^ 2) (sq_nonneg _) := ⟨_, fun j => rfl⟩
  have hm : ∀ j, Measurable fun d : ℝ => y j + d * s j := fun j => by fun_prop
  have hw : Measurable fun (z : Fin k → ℝ) j => y j + z j * s j := by fun_prop
  have e : (walkLaw k).map (fun z j => y j + z j * s j) = Measure.pi fun j => gaussianReal (y j) (v j) := by
    unfold walkLaw
    have h1 := Measure.pi_map_pi (μ := fun _ : Fin k => gaussianReal 0 1) (f := fun j (d : ℝ) => y j + d * s j)
      fun j => (hm j).aemeasurable
    refine Eq.trans h1 ?_
    congr 1
    funext j
    have h2 : (fun d : ℝ => y j + d * s j) = (fun u : ℝ => y j + u) ∘ (fun u : ℝ => u * s j) := rfl
    rw [h2, ← Measure.map_map (by fun_prop) (by fun_prop), gaussianReal_map_mul_const, gaussianReal_map_const_add]
    rw [hv, mul_zero, zero_add, mul_one]
  have h1 : ∀ᵐ z ∂(Measure.pi fun j => gaussianReal (y j) (v j)), Q z := by
    rw [← e]
    exact (ae_map_iff hw.aemeasurable hQ).2 h
  have h2 : (volume : Measure (Fin k → ℝ)) ≪ Measure.pi fun j => gaussianReal (y j) (v j) :=
    pi_ac fun j => gaussianReal_absolutelyContinuous' _ (by
      intro hc
      rw [hv] at hc
      have : s j ^ 2 = 0 := congrArg NNReal.toReal hc
      exact hs j (pow_eq_zero_iff (two_ne_zero) |>.1 this))
  exact h2.ae_le h1

/-- New values may be anything. -/
theorem values_hears [SFinite σ] (hF : Measurable F) (hG : Measurable G) (hdom : ∀ᵐ x ∂σ, x ∈ dom) (hs : ∀ j, ∀ x ∈ dom, std j x ≠ 0)
    (h : ∀ᵐ r ∂σ.prod (volume : Measure (Fin k → ℝ)), F r ≠ 0 → ∀ᵐ z ∂walkLaw k, F (newValues std r z) ≠ 0 → G (newValues std r z) = C r) :
    ∀ᵐ r ∂σ.prod (volume : Measure (Fin k → ℝ)), F r ≠ 0 → ∀ᵐ v : Fin k → ℝ, F (r.1, v) ≠ 0 → G (r.1, v) = C r := by
  have hd : ∀ᵐ r ∂σ.prod (volume : Measure (Fin k → ℝ)), r.1 ∈ dom := Measure.quasiMeasurePreserving_fst.ae hdom
  filter_upwards [h, hd] with r hr hx h0
  refine walkLaw_everywhere (Q := fun v => F (r.1, v) ≠ 0 → G (r.1, v) = C r) (fun j => hs j r.1 hx) r.2 ?_ (hr h0)
  have m1 : Measurable fun v : Fin k → ℝ => F (r.1, v) := hF.comp measurable_prodMk_left
  have m2 : Measurable fun v : Fin k → ℝ => G (r.1, v) := hG.comp measurable_prodMk_left
  have e : {v : Fin k → ℝ | F (r.1, v) ≠ 0 → G (r.1, v) = C r} = {v | F (r.1, v) = 0} ∪ {v | G (r.1, v) = C r} := by
    ext v
    simp only [Set.mem_union, Set.mem_ofPred_eq]
    tauto
  rw [e]
  exact (m1 (measurableSet_singleton 0)).union (m2 (measurableSet_singleton _))

end values

section sites

variable {P α : Type} [MeasurableSpace P] [MeasurableSpace α] {k : ℕ} {lam : Measure P} {dom : Set P} {γ : Measure α}
  [IsProbabilityMeasure γ] {step : P → α → P} {κ : P × P → ℝ} {F G C : P × (Fin k → ℝ) → ℝ}

/-- New sites may be anywhere in the domain. -/
theorem sites_hears (hst : SiteStep lam dom γ step κ) (hF : Measurable F) (hG : Measurable G) {σ τ : Measure P} (hσ : σ ≪ lam.restrict dom)
    (h : ∀ᵐ r ∂τ.prod (volume : Measure (Fin k → ℝ)), F r ≠ 0 → ∀ᵐ ω ∂Measure.infinitePi fun _ : ℕ => γ,
      F (newSite (landIn step dom) r ω) ≠ 0 → G (newSite (landIn step dom) r ω) = C r) :
    ∀ᵐ r ∂τ.prod (volume : Measure (Fin k → ℝ)), F r ≠ 0 → ∀ᵐ s ∂σ, F (s, r.2) ≠ 0 → G (s, r.2) = C r := by
  filter_upwards [h] with r hr h0
  have hland : Measurable (landIn step dom r.1) := (landIn_meas hst.step_meas hst.dom_meas).comp measurable_prodMk_left
  have m1 : Measurable fun s : P => F (s, r.2) := hF.comp (measurable_id.prodMk measurable_const)
  have m2 : Measurable fun s : P => G (s, r.2) := hG.comp (measurable_id.prodMk measurable_const)
  have hQ : MeasurableSet {s : P | F (s, r.2) ≠ 0 → G (s, r.2) = C r} := by
    have e : {s : P | F (s, r.2) ≠ 0 → G (s, r.2) = C r} = {s | F (s, r.2) = 0} ∪ {s | G (s, r.2) = C r} := by
      ext v
      simp only [Set.mem_union, Set.mem_ofPred_eq]
      tauto
    rw [e]
    exact (m1 (measurableSet_singleton 0)).union (m2 (measurableSet_singleton _))
  have h1 : ∀ᵐ s ∂(Measure.infinitePi fun _ : ℕ => γ).map (landIn step dom r.1), F (s, r.2) ≠ 0 → G (s, r.2) = C r :=
    (ae_map_iff hland.aemeasurable hQ).2 (hr h0)
  rw [landIn_law hst.step_meas hst.dom_meas hst.kernel_meas hst.law (hst.stays _)] at h1
  refine (hσ.trans (withDensity_absolutelyContinuous' ?_ (.of_forall fun y => ?_))).ae_le h1
  · exact ((hst.kernel_meas.comp measurable_prodMk_left).div_const _).ennreal_ofReal.aemeasurable
  · exact (ENNReal.ofReal_pos.2 (div_pos (hst.pos _) (stayIn_pos hst.step_meas (hst.stays _)))).ne'

end sites

end BB.Lemmas
