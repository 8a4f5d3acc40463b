import Verif.Lemmas.Tilt
import Mathlib.Logic.Equiv.Fin.Basic

/-!
# Proposals of two schemes, one beside the other
-/

namespace BB.Lemmas

open BB.Spec MeasureTheory

section

variable {X Θ Θ' : Type} [MeasurableSpace X] [MeasurableSpace Θ] [MeasurableSpace Θ'] {a b N : ℕ}

/-- The proposals of `p` and those of `q`. -/
noncomputable def append (p : Scheme X Θ a) (q : Scheme X Θ' b) (e : Fin N ≃ Fin a ⊕ Fin b) : Scheme X (Θ × Θ') N where
  prior := p.prior
  draws := p.draws.prod q.draws
  move := fun i x θ => Sum.elim (fun j => p.move j x θ.1) (fun j => q.move j x θ.2) (e i)
  rev := fun i => e.symm ((e i).map p.rev q.rev)
  common := fun i => Sum.elim p.common q.common (e i)
  dens := fun i => Sum.elim p.dens q.dens (e i)

/-- Only the proposals of a scheme. -/
noncomputable def bare (p : Scheme X Θ a) : Scheme X Θ a := { p with prior := 0, common := fun _ => 0 }

variable {p : Scheme X Θ a} {q : Scheme X Θ' b} {e : Fin N ≃ Fin a ⊕ Fin b} {w : Fin N → ℝ} {wp : Fin a → ℝ} {wq : Fin b → ℝ}

theorem bare_ok (hp : p.Ok wp) : (bare p).Ok wp where
  sfinite := by
    change SFinite (0 : Measure X)
    infer_instance
  prob := hp.prob
  meas := hp.meas
  rev_rev := hp.rev_rev
  rev_weight := hp.rev_weight
  symm := fun _ => Measure.map_zero _
  dens_meas := hp.dens_meas
  dens_nonneg := hp.dens_nonneg
  joint := fun i => by
    change ((0 : Measure X).prod p.draws).map _ = (0 : Measure (X × X)).withDensity _
    rw [Measure.zero_prod, Measure.map_zero, withDensity_zero_left]

theorem bare_lumps {r : X → X → Prop} (h : p.Lumps r) : (bare p).Lumps r := ⟨h.dens, h.law⟩

theorem append_ok (hp : p.Ok wp) (hq : q.Ok wq) (hprior : q.prior = p.prior) (hw : ∀ i, w i = Sum.elim wp wq (e i)) :
    (append p q e).Ok w := by
  have := hp.prob
  have := hq.prob
  have := hp.sfinite
  have hcases : ∀ i, (∃ j, e i = .inl j) ∨ ∃ j, e i = .inr j := by
    intro i
    rcases e i with j | j
    · exact .inl ⟨j, rfl⟩
    · exact .inr ⟨j, rfl⟩
  refine ⟨hp.sfinite, ?_, fun i => ?_, fun i => ?_, fun i => ?_, fun i => ?_, fun i => ?_, fun i z => ?_, fun i => ?_⟩
  · change IsProbabilityMeasure (p.draws.prod q.draws)
    infer_instance
  · rcases hcases i with ⟨j, hj⟩ | ⟨j, hj⟩
    · have h1 : Measurable fun z : X × (Θ × Θ') => p.move j z.1 z.2.1 :=
        (hp.meas j).comp (measurable_fst.prodMk measurable_snd.fst)
      simp only [append, hj, Sum.elim_inl]
      exact h1
    · have h1 : Measurable fun z : X × (Θ × Θ') => q.move j z.1 z.2.2 :=
        (hq.meas j).comp (measurable_fst.prodMk measurable_snd.snd)
      simp only [append, hj, Sum.elim_inr]
      exact h1
  · rcases hcases i with ⟨j, hj⟩ | ⟨j, hj⟩
    · simp only [append, Equiv.apply_symm_apply, hj, Sum.map_inl, hp.rev_rev]
      rw [← hj, Equiv.symm_apply_apply]
    · simp only [append, Equiv.apply_symm_apply, hj, Sum.map_inr, hq.rev_rev]
      rw [← hj, Equiv.symm_apply_apply]
  · rcases hcases i with ⟨j, hj⟩ | ⟨j, hj⟩
    · simp only [append, hw, Equiv.apply_symm_apply, hj, Sum.map_inl, Sum.elim_inl, hp.rev_weight]
    · simp only [append, hw, Equiv.apply_symm_apply, hj, Sum.map_inr, Sum.elim_inr, hq.rev_weight]
  · rcases hcases i with ⟨j, hj⟩ | ⟨j, hj⟩
    · simp only [append, Equiv.apply_symm_apply, hj, Sum.map_inl, Sum.elim_inl, hp.symm]
    · simp only [append, Equiv.apply_symm_apply, hj, Sum.map_inr, Sum.elim_inr, hq.symm]
  · rcases hcases i with ⟨j, hj⟩ | ⟨j, hj⟩
    · simp only [append, hj, Sum.elim_inl, hp.dens_meas]
    · simp only [append, hj, Sum.elim_inr, hq.dens_meas]
  · rcases hcases i with ⟨j, hj⟩ | ⟨j, hj⟩
    · simp only [append, hj, Sum.elim_inl, hp.dens_nonneg]
    · simp only [append, hj, Sum.elim_inr, hq.dens_nonneg]
  · rcases hcases i with ⟨j, hj⟩ | ⟨j, hj⟩
    · simp only [append, hj, Sum.elim_inl]
      rw [← hp.joint j]
      have h1 : Measurable fun z : X × Θ => (z.1, p.move j z.1 z.2) := measurable_fst.prodMk (hp.meas j)
      have h2 : Measurable fun z : X × (Θ × Θ') => (z.1, z.2.1) := measurable_fst.prodMk measurable_snd.fst
      have e1 : (fun z : X × (Θ × Θ') => (z.1, p.move j z.1 z.2.1)) = (fun z : X × Θ => (z.1, p.move j z.1 z.2)) ∘
        fun z : X × (Θ × Θ') => (z.1, z.2.1) := rfl
      rw [e1, ← Measure.map_map h1 h2]
      congr 1
      have e2 := Measure.map_prod_map p.prior (p.draws.prod q.draws) measurable_id measurable_fst
      rw [Measure.map_id, ← Measure.fst, Measure.fst_prod] at e2
      exact e2.symm
    · simp only [append, hj, Sum.elim_inr]
      rw [← hq.joint j, hprior]
      have h1 : Measurable fun z : X × Θ' => (z.1, q.move j z.1 z.2) := measurable_fst.prodMk (hq.meas j)
      have h2 : Measurable fun z : X × (Θ × Θ') => (z.1, z.2.2) := measurable_fst.prodMk measurable_snd.snd
      have e1 : (fun z : X × (Θ × Θ') => (z.1, q.move j z.1 z.2.2)) = (fun z : X × Θ' => (z.1, q.move j z.1 z.2)) ∘
        fun z : X × (Θ × Θ') => (z.1, z.2.2) := rfl
      rw [e1, ← Measure.map_map h1 h2]
      congr 1
      have e2 := Measure.map_prod_map p.prior (p.draws.prod q.draws) measurable_id measurable_snd
      rw [Measure.map_id, ← Measure.snd, Measure.snd_prod] at e2
      exact e2.symm

/-- Integrals over the draws of one of the schemes. -/
theorem lintegral_fst_draws {μ : Measure Θ} {ν : Measure Θ'} [IsProbabilityMeasure μ] [IsProbabilityMeasure ν] {G : Θ → ENNReal}
    (hG : Measurable G) : ∫⁻ θ, G θ.1 ∂μ.prod ν = ∫⁻ θ, G θ ∂μ := by
  have h1 := lintegral_map (μ := μ.prod ν) hG measurable_fst
  rw [← h1, ← Measure.fst, Measure.fst_prod]

theorem lintegral_snd_draws {μ : Measure Θ} {ν : Measure Θ'} [IsProbabilityMeasure μ] [IsProbabilityMeasure ν] {G : Θ' → ENNReal}
    (hG : Measurable G) : ∫⁻ θ, G θ.2 ∂μ.prod ν = ∫⁻ θ, G θ ∂ν := by
  have h1 := lintegral_map (μ := μ.prod ν) hG measurable_snd
  rw [← h1, ← Measure.snd, Measure.snd_prod]

theorem append_lumps (hp : p.Ok wp) (hq : q.Ok wq) {r : X → X → Prop} (h1 : p.Lumps r) (h2 : q.Lumps r) : (append p q e).Lumps r := by
  have := hp.prob
  have := hq.prob
  have hcases : ∀ i, (∃ j, e i = .inl j) ∨ ∃ j, e i = .inr j := by
    intro i
    rcases e i with j | j
    · exact .inl ⟨j, rfl⟩
    · exact .inr ⟨j, rfl⟩
  refine ⟨fun i x x' y y' hx hy => ?_, fun i x x' hx G hG hGr => ?_⟩
  · rcases hcases i with ⟨j, hj⟩ | ⟨j, hj⟩
    · simp only [append, hj, Sum.elim_inl]
      exact h1.dens j x x' y y' hx hy
    · simp only [append, hj, Sum.elim_inr]
      exact h2.dens j x x' y y' hx hy
  · rcases hcases i with ⟨j, hj⟩ | ⟨j, hj⟩
    · simp only [append, hj, Sum.elim_inl]
      have hm : ∀ x, Measurable fun θ => G (p.move j x θ) := fun x => hG.comp ((hp.meas j).comp measurable_prodMk_left)
      rw [lintegral_fst_draws (hm x), lintegral_fst_draws (hm x')]
      exact h1.law j x x' hx G hG hGr
    · simp only [append, hj, Sum.elim_inr]
      have hm : ∀ x, Measurable fun θ => G (q.move j x θ) := fun x => hG.comp ((hq.meas j).comp measurable_prodMk_left)
      rw [lintegral_snd_draws (hm x), lintegral_snd_draws (hm x')]
      exact h2.law j x x' hx G hG hGr

theorem share {ι : Type} [Fintype ι] {u : ι → ℝ} (hu : ∀ j, 0 ≤ u j) (i : ι) (W : ℝ) :
    ENNReal.ofReal (u i / W) = ENNReal.ofReal ((∑ j, u j) / W) * ENNReal.ofReal (u i / ∑ j, u j) := by
  by_cases h : ∑ j, u j = 0
  · have : u i = 0 := (Finset.sum_eq_zero_iff_of_nonneg fun j _ => hu j).1 h i (Finset.mem_univ i)
    rw [this, zero_div, zero_div, ENNReal.ofReal_zero, mul_zero]
  · have h0 : 0 ≤ ∑ j, u j := Finset.sum_nonneg fun j _ => hu j
    rw [mul_comm, ← ENNReal.ofReal_mul (div_nonneg (hu i) h0)]
    congr 1
    field_simp

/-- The transitions are those of one scheme or of the other. -/
theorem transition_append (hp : p.Ok wp) (hq : q.Ok wq) (hw : ∀ i, w i = Sum.elim wp wq (e i)) (h1 : ∀ i, 0 ≤ wp i)
    (h2 : ∀ i, 0 ≤ wq i) {ℓ : X → ℝ} (hℓ : Measurable ℓ) (T : ℝ) (x : X) {A : Set X} (hA : MeasurableSet A) :
    transition (append p q e) w ℓ T x A =
      ENNReal.ofReal ((∑ i, wp i) / ∑ i, w i) * transition p wp ℓ T x A +
      ENNReal.ofReal ((∑ i, wq i) / ∑ i, w i) * transition q wq ℓ T x A := by
  have := hp.prob
  have := hq.prob
  unfold transition
  rw [← e.symm.sum_comp, Fintype.sum_sum_type, Finset.mul_sum, Finset.mul_sum]
  congr 1
  · refine Finset.sum_congr rfl fun j _ => ?_
    rw [hw, Equiv.apply_symm_apply, Sum.elim_inl, share h1 j, mul_assoc]
    congr 2
    have hm : Measurable fun θ : Θ => p.move j x θ := (hp.meas j).comp measurable_prodMk_left
    have g1 : Measurable fun θ : Θ => acceptance p ℓ T j (x, p.move j x θ) :=
      (acceptance_meas hp hℓ j).comp (measurable_const.prodMk hm)
    have g2 : Measurable fun θ : Θ => A.indicator (1 : X → ENNReal) (p.move j x θ) := (ind_meas hA).comp hm
    have g3 : Measurable fun θ : Θ => acceptance p ℓ T j (x, p.move j x θ) * A.indicator 1 (p.move j x θ) +
        (1 - acceptance p ℓ T j (x, p.move j x θ)) * A.indicator 1 x := by fun_prop
    rw [← lintegral_fst_draws (μ := p.draws) (ν := q.draws) g3]
    refine lintegral_congr fun θ => ?_
    have ha : ∀ z, acceptance (append p q e) ℓ T (e.symm (.inl j)) z = acceptance p ℓ T j z := by
      intro z
      unfold acceptance threshold
      simp only [append, Equiv.apply_symm_apply, Sum.elim_inl, Sum.map_inl]
    have hmv : (append p q e).move (e.symm (.inl j)) x θ = p.move j x θ.1 := by
      simp only [append, Equiv.apply_symm_apply, Sum.elim_inl]
    rw [ha, hmv]
  · refine Finset.sum_congr rfl fun j _ => ?_
    rw [hw, Equiv.apply_symm_apply, Sum.elim_inr, share h2 j, mul_assoc]
    congr 2
    have hm : Measurable fun θ : Θ' => q.move j x θ := (hq.meas j).comp measurable_prodMk_left
    have g1 : Measurable fun θ : Θ' => acceptance q ℓ T j (x, q.move j x θ) :=
      (acceptance_meas hq hℓ j).comp (measurable_const.prodMk hm)
    have g2 : Measurable fun θ : Θ' => A.indicator (1 : X → ENNReal) (q.move j x θ) := (ind_meas hA).comp hm
    have g3 : Measurable fun θ : Θ' => acceptance q ℓ T j (x, q.move j x θ) * A.indicator 1 (q.move j x θ) +
        (1 - acceptance q ℓ T j (x, q.move j x θ)) * A.indicator 1 x := by fun_prop
    rw [← lintegral_snd_draws (μ := p.draws) (ν := q.draws) g3]
    refine lintegral_congr fun θ => ?_
    have ha : ∀ z, acceptance (append p q e) ℓ T (e.symm (.inr j)) z = acceptance q ℓ T j z := by
      intro z
      unfold acceptance threshold
      simp only [append, Equiv.apply_symm_apply, Sum.elim_inr, Sum.map_inr]
    have hmv : (append p q e).move (e.symm (.inr j)) x θ = q.move j x θ.2 := by
      simp only [append, Equiv.apply_symm_apply, Sum.elim_inr]
    rw [ha, hmv]

end

end BB.Lemmas
