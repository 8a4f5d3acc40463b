import Verif.Lemmas.PlainSamples

/-!
# Plain parameter spaces: averages over the samples of a chain
-/

namespace BB.Lemmas

open BB Spec MeasureTheory Filter Topology

variable {m : ℕ} {sps : Fin m → PlainSpace} {p : Problem} {logLik : Values sps → ℝ} {E : Type} {K : ℕ}

theorem posterior_ne_zero {T : ℝ} (h : ∀ i, (sps i).Ok) (hl : Measurable logLik) : posteriorOf sps logLik T ≠ 0 := by
  intro h0
  have h1 : ∀ᵐ x ∂posteriorOf sps logLik T, False := by rw [h0, ae_zero]; trivial
  rw [posterior_iff hl] at h1
  have : (ae (priorOf sps)).NeBot := ae_neBot.2 (prior_ne_zero h)
  exact h1.exists.elim fun _ hx => hx

theorem posterior_ac {T : ℝ} (hl : Measurable logLik) : priorOf sps ≪ posteriorOf sps logLik T := by
  unfold posteriorOf
  refine withDensity_absolutelyContinuous' (weight_meas hl).aemeasurable (Eventually.of_forall fun x => ?_)
  exact (ENNReal.ofReal_pos.2 (Real.exp_pos _)).ne'

/-- The averages over the samples of the simulation. -/
theorem trail_average {T : ℝ} (hm : 0 < m) (hK : K ≠ 0) (hd : Multiple sps K) (h : ∀ i, (sps i).Ok) (hl : Measurable logLik)
    (hs : ∀ i j, (sps i).step j ≠ 0) (hfin : posteriorOf sps logLik T Set.univ ≠ ⊤) {b s : ℤ} (hsv : s ≠ 0) (τ : ℕ) {L : ℕ}
    (hL : ∀ i, (sps i).size + 5 ≤ L) (μ : Measure (Values sps)) [IsProbabilityMeasure μ] (hμ : μ ≪ priorOf sps)
    {f : Values sps → ℝ} (hf : Measurable f) {C : ℝ} (hC : ∀ x, |f x| ≤ C) {ε δ : ℝ} (hε : 0 < ε) (hδ : 0 < δ) :
    ∃ n₀, ∀ n ≥ n₀, 1 ≤ (dueW b s (τ + 1) n).sum ∧ ∀ N, n * L ≤ N →
      (μ.prod (tapeLaw K N)) {z | ¬ |averageOver f (trail sps K (fun x => logLik x / T) hm b s (τ + 1) n z.1 (List.ofFn z.2)) -
        posteriorMean sps logLik T f| ≤ δ} ≤ ENNReal.ofReal ε := by
  have hℓ : Measurable fun x => logLik x / T := hl.div_const T
  have hpr := iid_prob hK L
  have hf' : IsFiniteMeasure (posteriorOf sps logLik T) := ⟨lt_top_iff_ne_top.2 hfin⟩
  have hne := posterior_ne_zero (T := T) h hl
  set c := posteriorMean sps logLik T f with hc
  have hb : Bdd f := ⟨hf, C, hC⟩
  have hb0 : Bdd fun x => f x - c := hb.sub (Bdd.const c)
  have hpos : 0 < (posteriorOf sps logLik T Set.univ).toReal :=
    ENNReal.toReal_pos (fun h0 => hne (Measure.measure_univ_eq_zero.1 h0)) hfin
  have hmean : ∫ x, (f x - c) ∂posteriorOf sps logLik T = 0 := by
    rw [integral_sub (hb.integrable _) (integrable_const c), integral_const, smul_eq_mul, measureReal_def, hc]
    unfold posteriorMean
    rw [mul_div_cancel₀ _ hpos.ne', sub_self]
  obtain ⟨W, hW, hlln⟩ := path_lln (next_revers (T := T) hm hK hd h hl hL) (next_irred hm hK hd h hl hL hs) hb0 hne hmean μ
    (hμ.trans (posterior_ac hl)) hε hδ
  obtain ⟨k, hk⟩ := exists_nat_ge (W + 1)
  obtain ⟨n₀, hn₀⟩ := dueW_many (b := b) hsv k (τ + 1)
  refine ⟨n₀, fun n hn => ?_⟩
  set S := (dueW b s (τ + 1) n).sum with hS
  have hSW : W + 1 ≤ S := hk.trans (hn₀ n hn)
  have hS0 : 0 < S := by linarith
  refine ⟨by linarith, fun N hN => ?_⟩
  have htp := tapeLaw_prob hK N
  have hbound := hlln (dueW b s (τ + 1) n) dueW_mem (by rw [← hS]; linarith)
  rw [← hS] at hbound
  have hVm : Measurable fun z : (Values sps × ℝ) × List Draw =>
      sumV sps K (fun x => logLik x / T) hm (fun x => f x - c) (dueW b s (τ + 1) n) z.1 z.2 := sumV_meas hm hK h hℓ hb0.1 _
  have hof : Measurable (List.ofFn : (Fin N → Draw) → List Draw) := ofFn_meas N
  set B : Set (Values sps × (Fin N → Draw)) :=
    {z | δ * S < |(sumV sps K (fun x => logLik x / T) hm (fun x => f x - c) (dueW b s (τ + 1) n) (z.1, 0) (List.ofFn z.2)).1|} with hB
  have hBm : MeasurableSet B := by
    refine measurableSet_lt measurable_const ?_
    have h1 : Measurable fun z : Values sps × (Fin N → Draw) => ((z.1, (0 : ℝ)), List.ofFn z.2) :=
      (measurable_fst.prodMk measurable_const).prodMk (hof.comp measurable_snd)
    have h2 := measurable_fst.comp (hVm.comp h1)
    exact (continuous_abs.measurable).comp h2
  have hle : {z : Values sps × (Fin N → Draw) | ¬ |averageOver f (trail sps K (fun x => logLik x / T) hm b s (τ + 1) n z.1 (List.ofFn z.2)) - c| ≤ δ} ⊆ B := by
    rintro ⟨x, v⟩ hz
    change δ * S < |_|
    rw [trail_sum, zero_add]
    have hz' := not_le.1 hz
    set ys := trail sps K (fun x => logLik x / T) hm b s (τ + 1) n x (List.ofFn v) with hys
    have hlen : (ys.length : ℝ) = S := by rw [hys, trail_length, hS]
    have e : (ys.map fun x => f x - c).sum = (ys.map f).sum - S * c := by
      rw [← hlen]
      clear_value ys
      clear hys hlen hz hz'
      induction ys with
      | nil => simp
      | cons y ys ih =>
        simp only [List.map_cons, List.sum_cons, List.length_cons, ih]
        push_cast
        ring
    have e2 : (ys.map fun x => f x - c).sum = (averageOver f ys - c) * S := by
      rw [e]
      unfold averageOver
      rw [hlen]
      field_simp
    rw [e2, abs_mul, abs_of_pos hS0]
    exact mul_lt_mul_of_pos_right hz' hS0
  refine (measure_mono hle).trans ?_
  rw [Measure.prod_apply hBm]
  refine le_trans (le_of_eq (lintegral_congr fun x => ?_)) hbound
  have hN' : (dueW b s (τ + 1) n).length * L ≤ N := by rw [dueW_length]; exact hN
  rw [← sumV_law hm hK h hℓ hb0.1 hL (dueW b s (τ + 1) n) x 0 hN' (far_meas (δ * S))]
  unfold iid
  have hVx : Measurable fun t => (sumV sps K (fun x => logLik x / T) hm (fun x => f x - c) (dueW b s (τ + 1) n) (x, 0) t).1 :=
    measurable_fst.comp (hVm.comp (measurable_const.prodMk measurable_id))
  have hg : Measurable fun t => far (δ * S) (sumV sps K (fun x => logLik x / T) hm (fun x => f x - c) (dueW b s (τ + 1) n) (x, 0) t).1 :=
    (far_meas _).comp hVx
  rw [lintegral_map hg hof, ← lintegral_indicator_one (measurable_prodMk_left hBm)]
  rfl

/-- Averages over the samples that the chain saves. -/
theorem advance_average (hm : 0 < m) (hK : K ≠ 0) (hd : Multiple sps K) (h : PlainProblem p sps logLik) (hk : OwnKeys p sps)
    (hst : ∀ i j, (sps i).step j ≠ 0) (hfin : posteriorOf sps logLik 1 Set.univ ≠ ⊤) {b s : ℤ} (hs : s ≠ 0)
    {start : Values sps → Chain State Store E} (hc : ∀ x, At p sps 1 x (start x)) {τ : ℕ} (hτ : ∀ x, (start x).total = τ) {L : ℕ}
    (hL : ∀ i, (sps i).size + 5 ≤ L) (μ : Measure (Values sps)) [IsProbabilityMeasure μ] (hμ : μ ≪ priorOf sps)
    {f : Values sps → ℝ} (hf : Measurable f) {C : ℝ} (hC : ∀ x, |f x| ≤ C) {ε δ : ℝ} (hε : 0 < ε) (hδ : 0 < δ) :
    ∃ n₀, ∀ n ≥ n₀, ∀ N ≥ n * L, (μ.prod (tapeLaw K N)) {z | ¬ ∃ evs c' t',
        Chain.advance p.cfg b s Act.skip Act.skip n (start z.1) (List.ofFn z.2) = (.ok evs, c', t') ∧
        ∃ ys, HasModels sps (start z.1).saved c'.saved ys ∧ 0 < ys.length ∧
          |averageOver f ys - posteriorMean sps logLik 1 f| ≤ δ} ≤ ENNReal.ofReal ε := by
  obtain ⟨n₀, h₀⟩ := trail_average (T := 1) (b := b) hm hK hd h.ok h.meas hst hfin hs τ hL μ hμ hf hC hε hδ
  refine ⟨n₀, fun n hn N hN => ?_⟩
  obtain ⟨h1, h2⟩ := h₀ n hn
  have htp := tapeLaw_prob hK N
  refine le_trans (measure_mono_ae ?_) (h2 N hN)
  have hx : ∀ᵐ z ∂μ.prod (tapeLaw K N), Possible sps z.1 :=
    Measure.quasiMeasurePreserving_fst.ae (hμ.ae_le (prior_possible h.ok))
  have hu : ∀ᵐ z ∂μ.prod (tapeLaw K N), ∀ d ∈ List.ofFn z.2, d.u ≠ 0 :=
    Measure.quasiMeasurePreserving_snd.ae (tapeLaw_zero hK N)
  filter_upwards [hx, hu] with z hx hu hbad hgood
  refine hbad ?_
  obtain ⟨evs, c', h3, h4, -⟩ := advance_saves (K := K) hm h hk (b := b) hs hL n hx (hc z.1) hu (by rw [List.length_ofFn]; exact hN)
  rw [hτ] at h4
  refine ⟨evs, c', _, h3, _, h4, ?_, hgood⟩
  have h5 := trail_length (K := K) (ℓ := fun x => logLik x / 1) (hm := hm) (b := b) (s := s) n (τ + 1) z.1 (List.ofFn z.2)
  rw [← h5] at h1
  exact_mod_cast h1

end BB.Lemmas
