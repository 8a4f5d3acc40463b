import Verif.Lemmas.PlainAverages
import Verif.Props.C72_Convergence

/-!
# C73: averages over the saved samples approximate posterior means

The inversions of C69, at temperature 1.  The models that are saved, read back from the lists in the store, have averages close
to the posterior means, with a probability that approaches 1 with the number of iterations.
-/

namespace BB.Props

open BB Spec MeasureTheory

variable {m : ℕ} {sps : Fin m → PlainSpace} {p : Problem} {logLik : Values sps → ℝ} {E : Type}

/-- For a bounded function `f` of the model, and for every tolerance `δ` and probability `ε`: from some number of iterations
on, it holds with a probability of at least `1 - ε` that the iterations are completed, that the store has the values of one or
more models in addition to what it had at the start, and that the average of `f` over these models is within `δ` of the
posterior mean of `f`.  The model at the start has any law with a density with respect to the prior, and the draws are
independent of it. -/
theorem C73_averages (h : PlainProblem p sps logLik) (hk : OwnKeys p sps) (K : ℕ) (hK : K ≠ 0) (hd : Multiple sps K)
    (hstep : ∀ i j, (sps i).step j ≠ 0) (hfin : posteriorOf sps logLik 1 Set.univ ≠ ⊤)
    (burnin saveEvery : ℤ) (hs : saveEvery ≠ 0) (start : Values sps → Chain State Store E) (hc : ∀ x, At p sps 1 x (start x))
    (τ : ℕ) (hτ : ∀ x, (start x).total = τ) (L : ℕ) (hL : ∀ i, (sps i).size + 5 ≤ L)
    (μ : Measure (Values sps)) (hμ : IsProbabilityMeasure μ) (hac : μ ≪ priorOf sps)
    (f : Values sps → ℝ) (hf : Measurable f) (C : ℝ) (hC : ∀ x, |f x| ≤ C) (ε δ : ℝ) (hε : 0 < ε) (hδ : 0 < δ) :
    ∃ n₀, ∀ n ≥ n₀, ∀ N ≥ n * L, (μ.prod (tapeLaw K N)) {z | ¬ ∃ evs c' t',
        Chain.advance p.cfg burnin saveEvery Act.skip Act.skip n (start z.1) (List.ofFn z.2) = (.ok evs, c', t') ∧
        ∃ ys, HasModels sps (start z.1).saved c'.saved ys ∧ 0 < ys.length ∧
          |averageOver f ys - posteriorMean sps logLik 1 f| ≤ δ} ≤ ENNReal.ofReal ε :=
  Lemmas.advance_average h.some hK hd h hk hstep hfin hs hc hτ hL μ hac hf hC hε hδ

open Classical in
/-- In particular, the share of the saved models that are in a set is close to the posterior probability of the set. -/
theorem C73_frequencies (h : PlainProblem p sps logLik) (hk : OwnKeys p sps) (K : ℕ) (hK : K ≠ 0) (hd : Multiple sps K)
    (hstep : ∀ i j, (sps i).step j ≠ 0) (hfin : posteriorOf sps logLik 1 Set.univ ≠ ⊤)
    (burnin saveEvery : ℤ) (hs : saveEvery ≠ 0) (start : Values sps → Chain State Store E) (hc : ∀ x, At p sps 1 x (start x))
    (τ : ℕ) (hτ : ∀ x, (start x).total = τ) (L : ℕ) (hL : ∀ i, (sps i).size + 5 ≤ L)
    (μ : Measure (Values sps)) (hμ : IsProbabilityMeasure μ) (hac : μ ≪ priorOf sps)
    (A : Set (Values sps)) (hA : MeasurableSet A) (ε δ : ℝ) (hε : 0 < ε) (hδ : 0 < δ) :
    ∃ n₀, ∀ n ≥ n₀, ∀ N ≥ n * L, (μ.prod (tapeLaw K N)) {z | ¬ ∃ evs c' t',
        Chain.advance p.cfg burnin saveEvery Act.skip Act.skip n (start z.1) (List.ofFn z.2) = (.ok evs, c', t') ∧
        ∃ ys, HasModels sps (start z.1).saved c'.saved ys ∧ 0 < ys.length ∧
          |(ys.countP (· ∈ A) : ℝ) / ys.length -
            (posteriorOf sps logLik 1 A / posteriorOf sps logLik 1 Set.univ).toReal| ≤ δ} ≤ ENNReal.ofReal ε := by
  have hmA : Measurable (A.indicator fun _ => (1 : ℝ)) := measurable_const.indicator hA
  obtain ⟨n₀, h₀⟩ := C73_averages h hk K hK hd hstep hfin burnin saveEvery hs start hc τ hτ L hL μ hμ hac
    (A.indicator fun _ => (1 : ℝ)) hmA 1 (fun x => by
      by_cases hx : x ∈ A <;> simp [hx]) ε δ hε hδ
  refine ⟨n₀, fun n hn N hN => ?_⟩
  refine le_trans (measure_mono ?_) (h₀ n hn N hN)
  intro z hz hz'
  refine hz ?_
  obtain ⟨evs, c', t', h1, ys, h2, h3, h4⟩ := hz'
  refine ⟨evs, c', t', h1, ys, h2, h3, ?_⟩
  have e1 : averageOver (A.indicator fun _ => (1 : ℝ)) ys = (ys.countP (· ∈ A) : ℝ) / ys.length := by
    unfold averageOver
    congr 1
    clear h2 h3 h4
    induction ys with
    | nil => simp
    | cons y ys ih =>
      rw [List.map_cons, List.sum_cons, ih, List.countP_cons]
      by_cases hy : y ∈ A
      · simp [hy, add_comm]
      · simp [hy]
  have e2 : posteriorMean sps logLik 1 (A.indicator fun _ => (1 : ℝ)) =
      (posteriorOf sps logLik 1 A / posteriorOf sps logLik 1 Set.univ).toReal := by
    unfold posteriorMean
    rw [integral_indicator hA, ENNReal.toReal_div]
    simp [measureReal_def]
  rw [e1, e2] at h4
  exact h4

/-! ### example -/

section Examples

/-- The chain at a model, at temperature 1. -/
noncomputable def ex73start (x : Values ex69sps) : Chain State Store Unit :=
  Chain.init { params := paramsOf ex69sps x, temperature := 1, cache := [], extra := [] } [] 1 ()

theorem ex73_at (x : Values ex69sps) : At ex69p ex69sps 1 x (ex73start x) :=
  ⟨rfl, rfl, fun y hy => (List.not_mem_nil hy).elim, rfl, fun _ _ _ h => (by cases h), fun _ _ _ h => (by cases h)⟩

theorem ex73_keys : OwnKeys ex69p ex69sps := by
  constructor
  · have e : (List.ofFn fun i => (ex69sps i).dimKey :: List.ofFn (ex69sps i).key).flatten =
        ["layers.n_dimensions", "layers.vs", "layers.vp", "offset.n_dimensions", "offset.c"] := rfl
    rw [e]
    decide +kernel
  · right
    intro i
    fin_cases i
    · refine ⟨by change substr "dpred" "layers.n_dimensions" = false; decide +kernel, fun j => ?_⟩
      change Fin 2 at j
      fin_cases j
      · change substr "dpred" "layers.vs" = false
        decide +kernel
      · change substr "dpred" "layers.vp" = false
        decide +kernel
    · refine ⟨by change substr "dpred" "offset.n_dimensions" = false; decide +kernel, fun j => ?_⟩
      change Fin 1 at j
      fin_cases j
      change substr "dpred" "offset.c" = false
      decide +kernel

theorem ex73_fin : posteriorOf ex69sps (fun x => -ex69sum x ^ 2) 1 Set.univ ≠ ⊤ := by
  refine ne_top_of_le_ne_top ex72_prior_fin ?_
  unfold posteriorOf
  rw [withDensity_apply _ MeasurableSet.univ, Measure.restrict_univ]
  refine (lintegral_mono (g := fun _ => 1) fun x => ?_).trans (by rw [lintegral_one])
  rw [← ENNReal.ofReal_one]
  refine ENNReal.ofReal_le_ofReal (Real.exp_le_one_iff.2 ?_)
  have := sq_nonneg (ex69sum x)
  linarith

/-- The posterior probability that there are two layers, from samples saved every 5 iterations after the first 10. -/
example := C73_frequencies ex69_problem ex73_keys 6 (by norm_num) (by
    intro i n h1 h2
    fin_cases i
    · change n ≤ 3 at h2
      interval_cases n <;> decide
    · change n ≤ 1 at h2
      interval_cases n
      decide) (by
    intro i j
    fin_cases i
    · change Fin 2 at j
      fin_cases j
      · change (1 : ℝ) ≠ 0
        norm_num
      · change (2 : ℝ) ≠ 0
        norm_num
    · change Fin 1 at j
      fin_cases j
      change (5 : ℝ) ≠ 0
      norm_num) ex73_fin 10 5 (by norm_num) ex73start ex73_at 0 (fun _ => rfl) 7 (by
    intro i
    fin_cases i <;> decide) ex72law ex72_prob Measure.smul_absolutelyContinuous {x | (x 0).1 = 2} (by
    have h1 : Measurable fun y : Tuple (Fin 2 → ℝ) => y.1 := Lemmas.measurable_tuple fun n => measurable_const
    exact (h1.comp (measurable_pi_apply (0 : Fin 2))) (measurableSet_singleton 2)) (1 / 100) (1 / 20) (by norm_num) (by norm_num)

end Examples

end BB.Props
