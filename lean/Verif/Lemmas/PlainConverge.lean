import Verif.Lemmas.PlainIrred

/-!
# Plain parameter spaces: convergence of the chain
-/

namespace BB.Lemmas

open BB Spec MeasureTheory Filter Topology

variable {m : ℕ} {sps : Fin m → PlainSpace} {p : Problem} {logLik : Values sps → ℝ} {E : Type} {K : ℕ}

/-! ### the chain and its simulation -/

/-- The probability that the iterations lead into a set is that of the simulation. -/
theorem advance_prob (hm : 0 < m) (hK : K ≠ 0) (h : PlainProblem p sps logLik) {T : ℝ} (hT : T ≠ 0) {b s : ℤ} (hs : s ≠ 0) {L : ℕ}
    (hL : ∀ i, (sps i).size + 5 ≤ L) (n : ℕ) {N : ℕ} (hN : n * L ≤ N) {x : Values sps} (hx : Possible sps x)
    {c : Chain State Store E} (hc : At p sps T x c) {A : Set (Values sps)} (hA : MeasurableSet A) :
    tapeLaw K N {v | ∃ evs, (Chain.advance p.cfg b s Act.skip Act.skip n c (List.ofFn v)).1 = .ok evs ∧
      ∃ y ∈ A, (Chain.advance p.cfg b s Act.skip Act.skip n c (List.ofFn v)).2.1.cur.params = paramsOf sps y} =
      itersP sps K (fun x => logLik x / T) n (A.indicator 1) x := by
  have hℓ : Measurable fun x => logLik x / T := h.meas.div_const T
  have hG : Measurable (A.indicator (1 : Values sps → ENNReal)) := measurable_one.indicator hA
  have hV := itersV_meas hm hK h.ok hℓ n
  rw [← (itersV_law hm hK h.ok hℓ hL n x).value hK hG hN]
  have hVx : Measurable fun t => (itersV sps K (fun x => logLik x / T) hm n x t).1 := measurable_fst.comp (V.Meas.at hV x)
  have hAx : MeasurableSet {t | (itersV sps K (fun x => logLik x / T) hm n x t).1 ∈ A} := hVx hA
  have e1 : ∫⁻ t, A.indicator 1 (itersV sps K (fun x => logLik x / T) hm n x t).1 ∂iid K N =
      iid K N {t | (itersV sps K (fun x => logLik x / T) hm n x t).1 ∈ A} := by
    rw [← lintegral_indicator_one hAx]
    rfl
  have hof : Measurable (List.ofFn : (Fin N → Draw) → List Draw) := ofFn_meas N
  rw [e1]
  unfold iid
  rw [Measure.map_apply hof hAx]
  refine measure_congr ?_
  filter_upwards [advance_ae hm hK h hT (b := b) hs hL n hN hx hc] with v hv
  obtain ⟨evs, h1, h2, -⟩ := hv
  refine propext ⟨?_, ?_⟩
  · rintro ⟨-, -, y, hy, e⟩
    have := paramsOf_inj (e.symm.trans h2.params)
    rw [this] at hy
    exact hy
  · intro hy
    exact ⟨evs, h1, _, hy, h2.params⟩

/-! ### the random map -/

/-- The model after an iteration. -/
noncomputable def nextOf (sps : Fin m → PlainSpace) (K : ℕ) (ℓ : Values sps → ℝ) (hm : 0 < m) (x : Values sps) (t : List Draw) : Values sps :=
  (iterV sps K ℓ hm x t).1

theorem next_mean {ℓ : Values sps → ℝ} (hm : 0 < m) (hK : K ≠ 0) (h : ∀ i, (sps i).Ok) (hℓ : Measurable ℓ) {L : ℕ}
    (hL : ∀ i, (sps i).size + 5 ≤ L) {G : Values sps → ENNReal} (hG : Measurable G) (x : Values sps) :
    ∫⁻ t, G (nextOf sps K ℓ hm x t) ∂iid K L = iterP sps K ℓ G x := (iterV_law hm hK h hℓ hL x).value hK hG le_rfl

theorem next_meas {ℓ : Values sps → ℝ} (hm : 0 < m) (hK : K ≠ 0) (h : ∀ i, (sps i).Ok) (hℓ : Measurable ℓ) :
    Measurable fun z : Values sps × List Draw => nextOf sps K ℓ hm z.1 z.2 :=
  measurable_fst.comp (show Measurable fun z : Values sps × List Draw => iterV sps K ℓ hm z.1 z.2 from iterV_meas hm hK h hℓ)

theorem weight_meas {T : ℝ} (hl : Measurable logLik) : Measurable fun x : Values sps => ENNReal.ofReal (Real.exp (logLik x / T)) :=
  (Real.continuous_exp.measurable.comp (hl.div_const T)).ennreal_ofReal

theorem next_revers {T : ℝ} (hm : 0 < m) (hK : K ≠ 0) (hd : Multiple sps K) (h : ∀ i, (sps i).Ok) (hl : Measurable logLik) {L : ℕ}
    (hL : ∀ i, (sps i).size + 5 ≤ L) :
    Revers (posteriorOf sps logLik T) (iid K L) (nextOf sps K (fun x => logLik x / T) hm) where
  meas := next_meas hm hK h (hl.div_const T)
  symm := fun H G hH hG => by
    have hℓ : Measurable fun x => logLik x / T := hl.div_const T
    simp only [next_mean hm hK h hℓ hL hG, next_mean hm hK h hℓ hL hH]
    have mG := iterP_meas hK h hℓ hG
    have mH := iterP_meas hK h hℓ hH
    unfold posteriorOf
    have m1 : Measurable fun x => H x * iterP sps K (fun x => logLik x / T) G x := hH.mul mG
    have m2 : Measurable fun x => G x * iterP sps K (fun x => logLik x / T) H x := hG.mul mH
    rw [lintegral_withDensity_eq_lintegral_mul _ (weight_meas hl) m1,
      lintegral_withDensity_eq_lintegral_mul _ (weight_meas hl) m2]
    exact iterP_symm hK hd h hℓ H G hH hG

theorem posterior_iff {T : ℝ} (hl : Measurable logLik) {P : Values sps → Prop} :
    (∀ᵐ x ∂posteriorOf sps logLik T, P x) ↔ ∀ᵐ x ∂priorOf sps, P x := by
  unfold posteriorOf
  rw [ae_withDensity_iff (weight_meas hl)]
  refine eventually_congr (Eventually.of_forall fun x => ?_)
  have : ENNReal.ofReal (Real.exp (logLik x / T)) ≠ 0 := (ENNReal.ofReal_pos.2 (Real.exp_pos _)).ne'
  exact ⟨fun h => h this, fun h _ => h⟩

theorem next_irred {T : ℝ} (hm : 0 < m) (hK : K ≠ 0) (hd : Multiple sps K) (h : ∀ i, (sps i).Ok) (hl : Measurable logLik) {L : ℕ}
    (hL : ∀ i, (sps i).size + 5 ≤ L) (hs : ∀ i j, (sps i).step j ≠ 0) :
    Irred (posteriorOf sps logLik T) (iid K L) (nextOf sps K (fun x => logLik x / T) hm) := by
  have hℓ : Measurable fun x => logLik x / T := hl.div_const T
  intro g f hg hf hi
  rw [posterior_iff hl] at hi
  have hset : ∀ c : ℝ, MeasurableSet {y | g y ≠ c} := fun c => (hg (measurableSet_singleton c)).compl
  obtain ⟨c, hc⟩ := iter_const hm hK hd h hℓ hs (fun i ht => by
    unfold Info.transD at ht
    unfold Info.lo Info.hi
    cases e : (sps i).info.nDim with
    | none => simp [e] at ht
    | some n => rfl) hg hf (hi.mono fun x hx => by
      rw [← next_mean hm hK h hℓ hL (measurable_one.indicator (hset (f x))) x]
      rw [lintegral_congr_ae (g := fun _ => 0), lintegral_zero]
      filter_upwards [hx] with t ht
      have hn : nextOf sps K (fun x => logLik x / T) hm x t ∉ {y | g y ≠ f x} := fun hn => hn ht
      exact Set.indicator_of_notMem hn _)
  exact ⟨c, (posterior_iff hl).2 hc⟩

theorem itersP_le {ℓ : Values sps → ℝ} (hm : 0 < m) (hK : K ≠ 0) (h : ∀ i, (sps i).Ok) (hℓ : Measurable ℓ) {L : ℕ}
    (hL : ∀ i, (sps i).size + 5 ≤ L) {G : Values sps → ENNReal} (hG : Measurable G) (h1 : ∀ x, G x ≤ 1) (n : ℕ) (x : Values sps) :
    itersP sps K ℓ n G x ≤ 1 := by
  have hp := iid_prob hK (n * L)
  rw [← (itersV_law hm hK h hℓ hL n x).value hK hG le_rfl]
  refine (lintegral_mono fun t => h1 _).trans ?_
  rw [lintegral_one, measure_univ]

theorem avgs_iters {ℓ : Values sps → ℝ} (hm : 0 < m) (hK : K ≠ 0) (h : ∀ i, (sps i).Ok) (hℓ : Measurable ℓ) {L : ℕ}
    (hL : ∀ i, (sps i).size + 5 ≤ L) {G : Values sps → ENNReal} (hG : Measurable G) (h1 : ∀ x, G x ≤ 1) : ∀ (n : ℕ) (x : Values sps),
    avgs (iid K L) (nextOf sps K ℓ hm) n (fun x => (G x).toReal) x = (itersP sps K ℓ n G x).toReal
  | 0, _ => rfl
  | n + 1, x => by
    have ih : avgs (iid K L) (nextOf sps K ℓ hm) n (fun x => (G x).toReal) = fun x => (itersP sps K ℓ n G x).toReal :=
      funext fun x => avgs_iters hm hK h hℓ hL hG h1 n x
    change avg (iid K L) (nextOf sps K ℓ hm) (avgs (iid K L) (nextOf sps K ℓ hm) n (fun x => (G x).toReal)) x =
      (iterP sps K ℓ (itersP sps K ℓ n G) x).toReal
    rw [ih, ← next_mean hm hK h hℓ hL (itersP_meas hK h hℓ hG n) x]
    unfold avg
    refine integral_toReal ?_ ?_
    · exact ((itersP_meas hK h hℓ hG n).comp ((next_meas hm hK h hℓ).comp measurable_prodMk_left)).aemeasurable
    · exact Eventually.of_forall fun t => lt_of_le_of_lt (itersP_le hm hK h hℓ hL hG h1 n _) ENNReal.one_lt_top

/-- The law after more and more iterations converges to the posterior, in total variation. -/
theorem iters_converge {T : ℝ} (hm : 0 < m) (hK : K ≠ 0) (hd : Multiple sps K) (h : ∀ i, (sps i).Ok) (hl : Measurable logLik)
    (hs : ∀ i j, (sps i).step j ≠ 0) (hfin : posteriorOf sps logLik T Set.univ ≠ ⊤) (μ : Measure (Values sps)) [IsProbabilityMeasure μ]
    (hμ : μ ≪ priorOf sps) {ε : ℝ} (hε : 0 < ε) : ∃ N₀, ∀ n ≥ N₀, ∀ A : Set (Values sps), MeasurableSet A →
      |(∫⁻ x, itersP sps K (fun x => logLik x / T) n (A.indicator 1) x ∂μ).toReal -
        (posteriorOf sps logLik T A / posteriorOf sps logLik T Set.univ).toReal| ≤ ε := by
  have hℓ : Measurable fun x => logLik x / T := hl.div_const T
  obtain ⟨L, hL⟩ : ∃ L, ∀ i, (sps i).size + 5 ≤ L := ⟨∑ i, ((sps i).size + 5), fun i =>
    Finset.single_le_sum (f := fun i => (sps i).size + 5) (fun _ _ => Nat.zero_le _) (Finset.mem_univ i)⟩
  have hpr := iid_prob hK L
  have hf : IsFiniteMeasure (posteriorOf sps logLik T) := ⟨lt_top_iff_ne_top.2 hfin⟩
  have hne : posteriorOf sps logLik T ≠ 0 := by
    intro h0
    have h1 : ∀ᵐ x ∂posteriorOf sps logLik T, False := by rw [h0, ae_zero]; trivial
    rw [posterior_iff hl] at h1
    have : (ae (priorOf sps)).NeBot := ae_neBot.2 (prior_ne_zero h)
    exact h1.exists.elim fun _ hx => hx
  have hac : μ ≪ posteriorOf sps logLik T := by
    refine hμ.trans ?_
    unfold posteriorOf
    refine withDensity_absolutelyContinuous' (weight_meas hl).aemeasurable (Eventually.of_forall fun x => ?_)
    exact (ENNReal.ofReal_pos.2 (Real.exp_pos _)).ne'
  obtain ⟨N₀, hN₀⟩ := avgs_tv (next_revers (T := T) hm hK hd h hl hL) (next_irred hm hK hd h hl hL hs) hne μ hac hε
  refine ⟨N₀, fun n hn A hA => ?_⟩
  have hG : Measurable (A.indicator (1 : Values sps → ENNReal)) := measurable_one.indicator hA
  have hG1 : ∀ x, A.indicator (1 : Values sps → ENNReal) x ≤ 1 := fun x =>
    Set.indicator_le_self' (fun _ _ => zero_le) x
  have h1 := hN₀ n hn (fun x => (A.indicator (1 : Values sps → ENNReal) x).toReal) hG.ennreal_toReal (fun x => by
    rw [abs_of_nonneg ENNReal.toReal_nonneg]
    exact ENNReal.toReal_mono ENNReal.one_ne_top (hG1 x))
  have e1 : ∫ x, avgs (iid K L) (nextOf sps K (fun x => logLik x / T) hm) n (fun x => (A.indicator (1 : Values sps → ENNReal) x).toReal) x ∂μ =
      (∫⁻ x, itersP sps K (fun x => logLik x / T) n (A.indicator 1) x ∂μ).toReal := by
    rw [← integral_toReal (itersP_meas hK h hℓ hG n).aemeasurable (Eventually.of_forall fun x =>
      lt_of_le_of_lt (itersP_le hm hK h hℓ hL hG hG1 n x) ENNReal.one_lt_top)]
    exact integral_congr_ae (Eventually.of_forall fun x => avgs_iters hm hK h hℓ hL hG hG1 n x)
  have e2 : ∫ x, (A.indicator (1 : Values sps → ENNReal) x).toReal ∂posteriorOf sps logLik T = (posteriorOf sps logLik T A).toReal := by
    rw [integral_toReal hG.aemeasurable (Eventually.of_forall fun x => lt_of_le_of_lt (hG1 x) ENNReal.one_lt_top),
      lintegral_indicator_one hA]
  rw [e1, e2, measureReal_def, ← ENNReal.toReal_div] at h1
  exact h1

end BB.Lemmas
