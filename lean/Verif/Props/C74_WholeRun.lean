import Verif.Lemmas.PlainOutcome
import Verif.Props.C73_Averages

/-!
# C74: the results of whole inversions approximate the posterior

The inversions of C69, from the construction of the chains to the dictionary returned by `get_results`.
-/

namespace BB.Props

open BB Spec MeasureTheory

variable {m : ℕ} {sps : Fin m → PlainSpace} {p : Problem} {logLik : Values sps → ℝ} {E : Type}

/-- The construction of the `k` chains of an inversion: given enough draws it is completed almost surely, the chains are at
temperature 1 and have saved nothing, and their models are independent and have the law of the specification, whatever the
function of all models that one looks at. -/
theorem C74_starts (h : PlainProblem p sps logLik) (hst : ∀ i, (sps i).Startable) (K : ℕ) (hK : K ≠ 0) (hd : Multiple sps K) (k : ℕ) (w : E) :
    ∃ N₀, ∀ N ≥ N₀, ∀ A : Set (Fin k → Values sps), MeasurableSet A →
      tapeLaw K N {v | ∃ cs t', p.newChains k w (List.ofFn v) = (.ok cs, t') ∧ (∀ c ∈ cs, c.temp = 1 ∧ c.cur.temperature = 1 ∧ c.saved = []) ∧
        ∃ xs ∈ A, cs.map (fun c => c.cur.params) = List.ofFn fun j => paramsOf sps (xs j)} =
      (Measure.pi fun _ : Fin k => startOf sps) A := by
  refine ⟨k * Lemmas.startLen sps, fun N hN A hA => ?_⟩
  have hG : Measurable (A.indicator (1 : (Fin k → Values sps) → ENNReal)) := measurable_one.indicator hA
  have h1 := (Lemmas.startsV_law hK h.ok hst hd k).value hK hG hN
  rw [lintegral_indicator_one hA] at h1
  rw [← h1]
  have hof : Measurable (List.ofFn : (Fin N → Draw) → List Draw) := Lemmas.ofFn_meas N
  have hV : Measurable fun t => (Lemmas.startsV sps k t).1 := measurable_fst.comp (Lemmas.startsV_meas h.ok k)
  unfold Lemmas.iid
  have hg : Measurable fun t => A.indicator (1 : (Fin k → Values sps) → ENNReal) (Lemmas.startsV sps k t).1 := hG.comp hV
  rw [lintegral_map hg hof]
  have hS : MeasurableSet {v : Fin N → Draw | (Lemmas.startsV sps k (List.ofFn v)).1 ∈ A} := hof (hV hA)
  have e1 : ∫⁻ v : Fin N → Draw, A.indicator (1 : (Fin k → Values sps) → ENNReal) (Lemmas.startsV sps k (List.ofFn v)).1 ∂tapeLaw K N =
      tapeLaw K N {v | (Lemmas.startsV sps k (List.ofFn v)).1 ∈ A} := by
    rw [← lintegral_indicator_one hS]
    rfl
  rw [e1]
  congr 1
  ext v
  obtain ⟨h2, -⟩ := Lemmas.newChains_run h hst w k (List.ofFn v) (by rw [List.length_ofFn]; exact hN)
  have hmap : ∀ xs : Fin k → Values sps, (List.ofFn fun j => Lemmas.chainAt sps (xs j) w).map (fun c => c.cur.params) =
      List.ofFn fun j => paramsOf sps (xs j) := fun xs => by rw [List.map_ofFn]; rfl
  constructor
  · rintro ⟨cs, t', h3, -, xs, hxs, h4⟩
    rw [h2] at h3
    obtain ⟨rfl, -⟩ : _ = cs ∧ _ := by
      have := Prod.mk.inj h3
      exact ⟨Except.ok.inj this.1, this.2⟩
    rw [hmap] at h4
    have h5 : xs = (Lemmas.startsV sps k (List.ofFn v)).1 := by
      have := List.ofFn_injective h4
      funext j
      exact (Lemmas.paramsOf_inj (congrFun this j)).symm
    change (Lemmas.startsV sps k (List.ofFn v)).1 ∈ A
    rw [← h5]
    exact hxs
  · intro hv
    refine ⟨_, _, h2, fun c hc => ?_, _, hv, hmap _⟩
    obtain ⟨j, rfl⟩ := List.mem_ofFn.1 hc
    exact ⟨rfl, rfl, rfl⟩

/-- A chain that has been constructed in this way and advanced by `n` iterations: the probability that all of this is
completed and the model is in a set approaches the posterior probability of the set, uniformly in the sets. -/
theorem C74_converges (h : PlainProblem p sps logLik) (hst : ∀ i, (sps i).Startable) (K : ℕ) (hK : K ≠ 0) (hd : Multiple sps K)
    (hstep : ∀ i j, (sps i).step j ≠ 0) (hfin : posteriorOf sps logLik 1 Set.univ ≠ ⊤)
    (burnin saveEvery : ℤ) (hs : saveEvery ≠ 0) (w : E) (ε : ℝ) (hε : 0 < ε) :
    ∃ n₀, ∀ n ≥ n₀, ∃ N₀, ∀ N ≥ N₀, ∀ A : Set (Values sps), MeasurableSet A →
      |(tapeLaw K N {v | ∃ c t evs c' t', p.newChain w (List.ofFn v) = (.ok c, t) ∧
          Chain.advance p.cfg burnin saveEvery Act.skip Act.skip n c t = (.ok evs, c', t') ∧
          ∃ y ∈ A, c'.cur.params = paramsOf sps y}).toReal -
        (posteriorOf sps logLik 1 A / posteriorOf sps logLik 1 Set.univ).toReal| ≤ ε := by
  have hm := h.some
  have hp := Lemmas.startOf_prob h.ok hst
  have hℓ : Measurable fun x => logLik x / 1 := h.meas.div_const 1
  obtain ⟨L, hL⟩ : ∃ L, ∀ i, (sps i).size + 5 ≤ L := ⟨∑ i, ((sps i).size + 5), fun i =>
    Finset.single_le_sum (f := fun i => (sps i).size + 5) (fun _ _ => Nat.zero_le _) (Finset.mem_univ i)⟩
  obtain ⟨n₀, h₀⟩ := Lemmas.iters_converge (T := 1) hm hK hd h.ok h.meas hstep hfin (startOf sps) (Lemmas.startOf_ac h.ok hst) hε
  refine ⟨n₀, fun n hn => ⟨Lemmas.startLen sps + n * L, fun N hN A hA => ?_⟩⟩
  have hG : Measurable (A.indicator (1 : Values sps → ENNReal)) := measurable_one.indicator hA
  have hV := Lemmas.itersV_meas hm hK h.ok hℓ n
  have h1 := (Lemmas.V.HasLaw.andThen (Lemmas.startV_law hK h.ok hst hd) (Lemmas.itersV_law hm hK h.ok hℓ hL n) hV).value hK hG hN
  refine le_of_eq_of_le ?_ (h₀ n hn A hA)
  congr 3
  refine Eq.trans ?_ h1
  have hof : Measurable (List.ofFn : (Fin N → Draw) → List Draw) := Lemmas.ofFn_meas N
  set P := Lemmas.V.andThen (Lemmas.startV sps) (Lemmas.itersV sps K (fun x => logLik x / 1) hm n) with hP
  have hPm : Measurable fun t => (P t).1 := by
    have h2 := Lemmas.V.Meas.andThen (Lemmas.V.Meas.const (Ξ := Unit) (Lemmas.startV_meas h.ok))
      (g := fun _ => Lemmas.itersV sps K (fun x => logLik x / 1) hm n) (hV.comp measurable_snd)
    have h3 : Measurable fun t : List Draw => P t := h2.at ()
    exact measurable_fst.comp h3
  have hg : Measurable fun t => A.indicator (1 : Values sps → ENNReal) (P t).1 := hG.comp hPm
  unfold Lemmas.iid
  rw [lintegral_map hg hof]
  have hS : MeasurableSet {v : Fin N → Draw | (P (List.ofFn v)).1 ∈ A} := hof (hPm hA)
  have e1 : ∫⁻ v : Fin N → Draw, A.indicator (1 : Values sps → ENNReal) (P (List.ofFn v)).1 ∂tapeLaw K N =
      tapeLaw K N {v | (P (List.ofFn v)).1 ∈ A} := by
    rw [← lintegral_indicator_one hS]
    rfl
  rw [e1]
  refine measure_congr ?_
  filter_upwards [Lemmas.tapeLaw_zero hK N] with v hv
  have h2 := Lemmas.start_run h hst (List.ofFn v) (by rw [List.length_ofFn]; omega)
  have h3 : p.newChain w (List.ofFn v) = (.ok (Lemmas.chainAt sps (Lemmas.startV sps (List.ofFn v)).1 w), (Lemmas.startV sps (List.ofFn v)).2) :=
    (M.bind_of h2).trans rfl
  obtain ⟨q, hq, hdrop⟩ := Lemmas.startV_short sps (List.ofFn v)
  obtain ⟨evs, c', h4, h5, -⟩ := Lemmas.advance_plain (K := K) hm h one_ne_zero (b := burnin) hs hL n
    (Lemmas.startV_possible h.ok hst (List.ofFn v) (by rw [List.length_ofFn]; omega))
    (Lemmas.chainAt_at (p := p) (Lemmas.startV sps (List.ofFn v)).1 w) (t := (Lemmas.startV sps (List.ofFn v)).2)
    (fun d hd => hv d (by rw [hdrop] at hd; exact List.mem_of_mem_drop hd)) (by
      rw [hdrop, List.length_drop, List.length_ofFn]
      omega)
  refine propext ⟨?_, ?_⟩
  · rintro ⟨c, t, evs', c'', t'', a1, a2, y, hy, a3⟩
    rw [h3] at a1
    obtain ⟨b1, b2⟩ := Prod.mk.inj a1
    obtain rfl := Except.ok.inj b1
    subst b2
    rw [h4] at a2
    obtain ⟨-, b3⟩ := Prod.mk.inj a2
    obtain ⟨rfl, -⟩ := Prod.mk.inj b3
    have := Lemmas.paramsOf_inj (a3.symm.trans h5.params)
    rw [this] at hy
    exact hy
  · intro hy
    exact ⟨_, _, evs, c', _, h3, h4, _, hy, h5.params⟩

/-- **The results of an inversion**: `k` chains are constructed, `run` is called with the default sampler, `n` iterations,
and any burn-in, saving period and number of jobs, and `get_results` is called.  For a bounded function `f` of the model, and
for every tolerance `δ` and probability `ε`: from some number of iterations on, given enough draws, it holds with a
probability of at least `1 - ε` that nothing is raised, that the dictionary that is returned has the values of one or more
models, and that the average of `f` over these is within `δ` of the posterior mean of `f`. -/
theorem C74_results (h : PlainProblem p sps logLik) (hk : OwnKeys p sps) (hst : ∀ i, (sps i).Startable) (K : ℕ) (hK : K ≠ 0)
    (hd : Multiple sps K) (hstep : ∀ i j, (sps i).step j ≠ 0) (hfin : posteriorOf sps logLik 1 Set.univ ≠ ⊤)
    (burnin saveEvery : ℤ) (hs : saveEvery ≠ 0) (k : ℕ) (hk0 : k ≠ 0) (nJobs : Option ℤ) (w : E)
    (f : Values sps → ℝ) (hf : Measurable f) (C : ℝ) (hC : ∀ x, |f x| ≤ C) (ε δ : ℝ) (hε : 0 < ε) (hδ : 0 < δ) :
    ∃ n₀, ∀ n : ℕ, n₀ ≤ n → ∃ N₀, ∀ N ≥ N₀, runLaw K k N {z | ¬ ∃ res t',
        p.results k nJobs (workOf z.2) n burnin saveEvery w (List.ofFn z.1) = (.ok (.named res), t') ∧
        ∃ ys, HasResults sps res ys ∧ 0 < ys.length ∧ |averageOver f ys - posteriorMean sps logLik 1 f| ≤ δ} ≤ ENNReal.ofReal ε :=
  Lemmas.results_average hK hd h hk hst hstep hfin hs hk0 nJobs w hf hC hε hδ

/-! ### example -/

section Examples

theorem ex74_startable (i : Fin 2) : (ex69sps i).Startable := by
  refine ⟨fun _ => ?_, fun j => ?_⟩
  · fin_cases i
    · change (0 : ℝ) ≤ 0.3 ∧ (0.3 : ℝ) ≤ 1
      norm_num
    · change (0 : ℝ) ≤ 0.3 ∧ (0.3 : ℝ) ≤ 1
      norm_num
  · fin_cases i
    · change Fin 2 at j
      fin_cases j <;> rfl
    · change Fin 1 at j
      fin_cases j
      rfl

theorem ex74_multiple : Multiple ex69sps 6 := by
  intro i n h1 h2
  fin_cases i
  · change n ≤ 3 at h2
    interval_cases n <;> decide
  · change n ≤ 1 at h2
    interval_cases n
    decide

theorem ex74_step (i : Fin 2) (j : Fin (ex69sps i).size) : (ex69sps i).step j ≠ 0 := by
  fin_cases i
  · change Fin 2 at j
    fin_cases j
    · change (1 : ℝ) ≠ 0
      norm_num
    · change (2 : ℝ) ≠ 0
      norm_num
  · change Fin 1 at j
    fin_cases j
    change (5 : ℝ) ≠ 0
    norm_num

example := C74_starts ex69_problem ex74_startable 6 (by norm_num) ex74_multiple 10 ()

example := C74_converges ex69_problem ex74_startable 6 (by norm_num) ex74_multiple ex74_step ex73_fin 10 5 (by norm_num) () (1 / 20) (by norm_num)

/-- Ten chains with the default parallel configuration, samples saved every 100 iterations after the first 1000: the posterior
mean of the sum of the values of the first parameter, if it is below 100. -/
example := C74_results ex69_problem ex73_keys ex74_startable 6 (by norm_num) ex74_multiple ex74_step ex73_fin 1000 100 (by norm_num)
  10 (by norm_num) none () (fun x => max (-100) (min (ex69sum x) 100)) (by
    have h1 : Measurable ex69sum := by
      have h0 : Measurable fun y : Tuple (Fin 2 → ℝ) => ∑ r, y.2 r (⟨0, two_pos⟩ : Fin 2) := by
        refine Lemmas.measurable_tuple fun n => ?_
        change Measurable fun v : Fin n → Fin 2 → ℝ => ∑ r, v r (⟨0, two_pos⟩ : Fin 2)
        exact Finset.measurable_sum _ fun r _ => (measurable_pi_apply _).comp (measurable_pi_apply r)
      exact h0.comp (measurable_pi_apply (0 : Fin 2))
    exact measurable_const.max (h1.min measurable_const)) 100 (fun x => abs_le.2 ⟨le_max_left _ _, max_le (by norm_num) (min_le_right _ _)⟩)
  (1 / 100) (1 / 20) (by norm_num) (by norm_num)

end Examples

end BB.Props
