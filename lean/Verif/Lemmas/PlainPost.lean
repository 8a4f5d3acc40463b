import Verif.Lemmas.PlainChain
import Verif.Props.C23_BirthDeathBalance

/-!
# Plain parameter spaces: the runs of a chain and the posterior
-/

namespace BB.Lemmas

open BB Spec MeasureTheory

variable {m : ℕ} {sps : Fin m → PlainSpace} {p : Problem} {logLik : Values sps → ℝ} {E : Type}

/-! ### almost all models are possible -/

theorem valuesLaw_pos {k : ℕ} {dens : Fin k → ℝ → ℝ} (h : ∀ j, Measurable (dens j)) :
    ∀ᵐ y ∂valuesLaw dens, ∀ j, 0 < dens j (y j) := by
  unfold valuesLaw
  have hm : Measurable fun v : Fin k → ℝ => ∏ j, ENNReal.ofReal (dens j (v j)) :=
    Finset.measurable_fun_prod _ fun j _ => ((h j).comp (measurable_pi_apply j)).ennreal_ofReal
  rw [ae_withDensity_iff hm]
  refine Filter.Eventually.of_forall fun y hy j => ?_
  rw [Finset.prod_ne_zero_iff] at hy
  have := hy j (Finset.mem_univ _)
  exact ENNReal.ofReal_pos.1 (pos_iff_ne_zero.2 this)

theorem transPrior_all {R : Type} [MeasurableSpace R] {ρ : Measure R} [IsProbabilityMeasure ρ] {S : Set R} (hS : MeasurableSet S)
    (h : ∀ᵐ y ∂ρ, y ∈ S) (lo hi : ℕ) : ∀ᵐ x ∂transPrior ρ lo hi, ∀ r, x.2 r ∈ S := by
  rw [ae_iff]
  unfold transPrior
  rw [Measure.finsetSum_apply]
  refine Finset.sum_eq_zero fun n _ => ?_
  have hm : MeasurableSet {x : Tuple R | ¬ ∀ r, x.2 r ∈ S} := by
    refine MeasurableSet.compl (s := {x : Tuple R | ∀ r, x.2 r ∈ S}) ?_
    have h2 : Measurable fun x : Tuple R => ∀ r, x.2 r ∈ S := by
      refine measurable_tuple fun n => ?_
      refine measurableSet_setOf.1 ?_
      have : {v : Fin n → R | ∀ r, v r ∈ S} = ⋂ r, {v | v r ∈ S} := by
        ext v
        simp
      rw [this]
      exact MeasurableSet.iInter fun r => measurable_pi_apply r hS
    exact measurableSet_setOf.2 h2
  rw [Measure.map_apply (measurable_mk n) hm]
  have h2 : ∀ᵐ v ∂(Measure.pi fun _ : Fin n => ρ), ∀ r, v r ∈ S :=
    ae_all_iff.2 fun r => (Measure.quasiMeasurePreserving_eval (μ := fun _ : Fin n => ρ) r).ae h
  exact ae_iff.1 h2

theorem prior_possible (h : ∀ i, (sps i).Ok) : ∀ᵐ x ∂priorOf sps, Possible sps x := by
  have hv : ∀ i, IsProbabilityMeasure (valuesLaw (sps i).dens) := fun i => valuesLaw_prob (h i).dens
  have hf : ∀ i, IsFiniteMeasure (transPrior (valuesLaw (sps i).dens) (sps i).info.lo (sps i).info.hi) :=
    fun i => transPrior_finite _ _
  unfold Possible
  rw [ae_all_iff]
  intro i
  have h1 : ∀ᵐ y ∂transPrior (valuesLaw (sps i).dens) (sps i).info.lo (sps i).info.hi,
      ((sps i).info.lo ≤ y.1 ∧ y.1 ≤ (sps i).info.hi) ∧ ∀ r j, 0 < (sps i).dens j (y.2 r j) := by
    have hm : ∀ j, Measurable ((sps i).dens j) := fun j => DensityOf.meas ((h i).dens j)
    have hS : MeasurableSet {v : Fin (sps i).size → ℝ | ∀ j, 0 < (sps i).dens j (v j)} := by
      rw [Set.ofPred_forall]
      exact MeasurableSet.iInter fun j => measurableSet_lt measurable_const ((hm j).comp (measurable_pi_apply j))
    filter_upwards [Props.transPrior_dim (valuesLaw (sps i).dens) (sps i).info.lo (sps i).info.hi,
      transPrior_all hS (valuesLaw_pos hm) (sps i).info.lo (sps i).info.hi] with y h1 h2
    exact ⟨h1, h2⟩
  exact (Measure.quasiMeasurePreserving_eval
    (μ := fun i => transPrior (valuesLaw (sps i).dens) (sps i).info.lo (sps i).info.hi) i).ae h1

theorem posterior_possible (h : ∀ i, (sps i).Ok) (logLik : Values sps → ℝ) (T : ℝ) :
    ∀ᵐ x ∂posteriorOf sps logLik T, Possible sps x :=
  (withDensity_absolutelyContinuous _ _).ae_le (prior_possible h)

/-! ### the model of a state -/

theorem stateOf_inj {s : PlainSpace} : Function.Injective s.stateOf := by
  rintro ⟨n, v⟩ ⟨n', v'⟩ e
  unfold PlainSpace.stateOf at e
  injection e with e1 e2 e3
  simp only at e1
  subst e1
  have h1 := List.ofFn_injective e2
  congr 1
  funext r j
  have h2 := congrFun h1 j
  simp only [Prod.mk.injEq, PVal.arr.injEq, Arr.vec.injEq, true_and] at h2
  exact congrFun (List.ofFn_injective h2) r

theorem paramsOf_inj : Function.Injective (paramsOf sps) := by
  intro x y e
  unfold paramsOf at e
  have h1 := List.ofFn_injective e
  funext i
  have h2 := congrFun h1 i
  simp only [Prod.mk.injEq, TopVal.ps.injEq, true_and] at h2
  exact stateOf_inj h2

/-! ### almost no draw is 0 -/

theorem drawLaw_zero {K : ℕ} (hK : K ≠ 0) : ∀ᵐ d ∂drawLaw K, d.u ≠ 0 := by
  have h1 : drawLaw K (Draw.u ⁻¹' {0}) = 0 := by
    rw [← Measure.map_apply draw_u_meas (measurableSet_singleton 0), drawLaw_u hK]
    unfold unitLaw
    refine le_antisymm ((Measure.restrict_apply_le _ _).trans ?_) zero_le
    rw [Real.volume_singleton]
  have h2 : {d : Draw | ¬ d.u ≠ 0} = Draw.u ⁻¹' {0} := by
    ext d
    simp
  exact ae_iff.2 (h2 ▸ h1)

theorem tapeLaw_zero {K : ℕ} (hK : K ≠ 0) (N : ℕ) : ∀ᵐ v ∂tapeLaw K N, ∀ d ∈ List.ofFn v, d.u ≠ 0 := by
  have hp := drawLaw_prob hK
  have h : ∀ᵐ v ∂tapeLaw K N, ∀ k, (v k).u ≠ 0 :=
    ae_all_iff.2 fun k => (Measure.quasiMeasurePreserving_eval (μ := fun _ : Fin N => drawLaw K) k).ae (drawLaw_zero hK)
  filter_upwards [h] with v hv d hd
  obtain ⟨k, rfl⟩ := List.mem_ofFn.1 hd
  exact hv k

/-! ### the chain -/

/-- Almost surely the iterations are completed and lead to the model of the simulation. -/
theorem advance_ae {K : ℕ} (hm : 0 < m) (hK : K ≠ 0) (h : PlainProblem p sps logLik) {T : ℝ} (hT : T ≠ 0) {b s : ℤ} (hs : s ≠ 0) {L : ℕ}
    (hL : ∀ i, (sps i).size + 5 ≤ L) (n : ℕ) {N : ℕ} (hN : n * L ≤ N) {x : Values sps} (hx : Possible sps x)
    {c : Chain State Store E} (hc : At p sps T x c) :
    ∀ᵐ v ∂tapeLaw K N, ∃ evs, (Chain.advance p.cfg b s Act.skip Act.skip n c (List.ofFn v)).1 = .ok evs ∧
      At p sps T (itersV sps K (fun x => logLik x / T) hm n x (List.ofFn v)).1
        (Chain.advance p.cfg b s Act.skip Act.skip n c (List.ofFn v)).2.1 ∧
      Possible sps (itersV sps K (fun x => logLik x / T) hm n x (List.ofFn v)).1 := by
  filter_upwards [tapeLaw_zero hK N] with v hv
  obtain ⟨evs, c', h1, h2, h3⟩ := advance_plain (K := K) hm h hT (b := b) hs hL n hx hc hv (by rw [List.length_ofFn]; exact hN)
  rw [h1]
  exact ⟨evs, rfl, h2, h3⟩

/-- The posterior is invariant under the iterations of the chain. -/
theorem advance_invariant {K : ℕ} (hm : 0 < m) (hK : K ≠ 0) (hd : Multiple sps K) (h : PlainProblem p sps logLik) {T : ℝ} (hT : T ≠ 0)
    {b s : ℤ} (hs : s ≠ 0) {L : ℕ} (hL : ∀ i, (sps i).size + 5 ≤ L) (n : ℕ) {N : ℕ} (hN : n * L ≤ N)
    {start : Values sps → Chain State Store E} (hc : ∀ x, At p sps T x (start x)) {A : Set (Values sps)} (hA : MeasurableSet A) :
    ∫⁻ x, tapeLaw K N {v | ∃ evs, (Chain.advance p.cfg b s Act.skip Act.skip n (start x) (List.ofFn v)).1 = .ok evs ∧
      ∃ y ∈ A, (Chain.advance p.cfg b s Act.skip Act.skip n (start x) (List.ofFn v)).2.1.cur.params = paramsOf sps y}
      ∂posteriorOf sps logLik T = posteriorOf sps logLik T A := by
  have hℓ : Measurable fun x => logLik x / T := h.meas.div_const T
  have hw : Measurable fun x : Values sps => ENNReal.ofReal (Real.exp (logLik x / T)) :=
    (Real.continuous_exp.measurable.comp hℓ).ennreal_ofReal
  have hpr := iid_prob hK N
  have hG : Measurable (A.indicator (1 : Values sps → ENNReal)) := measurable_one.indicator hA
  have hV := itersV_meas hm hK h.ok hℓ n
  have hV' : Measurable fun z : Values sps × List Draw => itersV sps K (fun x => logLik x / T) hm n z.1 z.2 := hV
  have hg : Measurable fun x => ∫⁻ t, A.indicator 1 (itersV sps K (fun x => logLik x / T) hm n x t).1 ∂iid K N := by
    have h1 : Measurable fun z : Values sps × List Draw =>
        A.indicator (1 : Values sps → ENNReal) (itersV sps K (fun x => logLik x / T) hm n z.1 z.2).1 :=
      hG.comp (measurable_fst.comp hV')
    exact Measurable.lintegral_prod_right' h1
  have hsim : ∀ x, Possible sps x → tapeLaw K N {v | ∃ evs, (Chain.advance p.cfg b s Act.skip Act.skip n (start x) (List.ofFn v)).1 = .ok evs ∧
      ∃ y ∈ A, (Chain.advance p.cfg b s Act.skip Act.skip n (start x) (List.ofFn v)).2.1.cur.params = paramsOf sps y} =
      ∫⁻ t, A.indicator 1 (itersV sps K (fun x => logLik x / T) hm n x t).1 ∂iid K N := by
    intro x hx
    have hVx : Measurable fun t => (itersV sps K (fun x => logLik x / T) hm n x t).1 := measurable_fst.comp (V.Meas.at hV x)
    have hAx : MeasurableSet {t | (itersV sps K (fun x => logLik x / T) hm n x t).1 ∈ A} := hVx hA
    have e1 : ∫⁻ t, A.indicator 1 (itersV sps K (fun x => logLik x / T) hm n x t).1 ∂iid K N =
        iid K N {t | (itersV sps K (fun x => logLik x / T) hm n x t).1 ∈ A} := by
      rw [← lintegral_indicator_one hAx]
      rfl
    have hof : Measurable (List.ofFn : (Fin N → Draw) → List Draw) := ofFn_meas N
    rw [e1]
    unfold iid
    rw [Measure.map_apply hof hAx]
    refine measure_congr ?_
    filter_upwards [advance_ae hm hK h hT (b := b) hs hL n hN hx (hc x)] with v hv
    obtain ⟨evs, h1, h2, -⟩ := hv
    refine propext ⟨?_, ?_⟩
    · rintro ⟨-, -, y, hy, e⟩
      have := paramsOf_inj (e.symm.trans h2.params)
      rw [this] at hy
      exact hy
    · intro hy
      exact ⟨evs, h1, _, hy, h2.params⟩
  rw [lintegral_congr_ae ((posterior_possible h.ok logLik T).mono hsim)]
  unfold posteriorOf
  rw [lintegral_withDensity_eq_lintegral_mul _ hw hg, withDensity_apply _ hA, ← lintegral_indicator hA]
  have hinv := itersV_invariant hm hK hd h.ok hℓ hL n hN hG
  refine hinv.trans (lintegral_congr fun x => ?_)
  by_cases hx : x ∈ A
  · simp [hx]
  · simp [hx]

end BB.Lemmas
