import Verif.Lemmas.PlainConverge
import Verif.Props.C69_PosteriorInvariance

/-!
# C72: the chain converges to the posterior

The inversions of C69.  Whatever the law of the model at the start, if it has a density with respect to the prior, the law of
the model after `n` iterations approaches the normalised posterior in total variation.
-/

namespace BB.Props

open BB Spec MeasureTheory

variable {m : ℕ} {sps : Fin m → PlainSpace} {p : Problem} {logLik : Values sps → ℝ} {E : Type}

/-- For every `ε` there is a number of iterations from which on the probability that the iterations are completed and the
model is in the set `A` differs from the posterior probability of `A` by at most `ε`, for all sets at once.  The standard
deviations of the perturbations must not be 0, and the posterior must be normalisable. -/
theorem C72_converges (h : PlainProblem p sps logLik) (K : ℕ) (hK : K ≠ 0) (hd : Multiple sps K) (T : ℝ) (hT : T ≠ 0)
    (hstep : ∀ i j, (sps i).step j ≠ 0) (hfin : posteriorOf sps logLik T Set.univ ≠ ⊤)
    (burnin saveEvery : ℤ) (hs : saveEvery ≠ 0) (start : Values sps → Chain State Store E) (hc : ∀ x, At p sps T x (start x))
    (L : ℕ) (hL : ∀ i, (sps i).size + 5 ≤ L) (μ : Measure (Values sps)) (hμ : IsProbabilityMeasure μ) (hac : μ ≪ priorOf sps)
    (ε : ℝ) (hε : 0 < ε) :
    ∃ n₀, ∀ n ≥ n₀, ∀ N ≥ n * L, ∀ A : Set (Values sps), MeasurableSet A →
      |(∫⁻ x, tapeLaw K N {v | ∃ evs,
          (Chain.advance p.cfg burnin saveEvery Act.skip Act.skip n (start x) (List.ofFn v)).1 = .ok evs ∧
          ∃ y ∈ A, (Chain.advance p.cfg burnin saveEvery Act.skip Act.skip n (start x) (List.ofFn v)).2.1.cur.params = paramsOf sps y}
        ∂μ).toReal - (posteriorOf sps logLik T A / posteriorOf sps logLik T Set.univ).toReal| ≤ ε := by
  obtain ⟨n₀, h₀⟩ := Lemmas.iters_converge (T := T) h.some hK hd h.ok h.meas hstep hfin μ hac hε
  refine ⟨n₀, fun n hn N hN A hA => ?_⟩
  have hp : ∀ᵐ x ∂μ, Possible sps x := hac.ae_le (Lemmas.prior_possible h.ok)
  rw [lintegral_congr_ae (hp.mono fun x hx => Lemmas.advance_prob h.some hK h hT (b := burnin) hs hL n hN hx (hc x) hA)]
  exact h₀ n hn A hA

/-! ### example -/

section Examples

/-- The model at the start has the law of the prior. -/
noncomputable def ex72law : Measure (Values ex69sps) := (priorOf ex69sps Set.univ)⁻¹ • priorOf ex69sps

theorem ex72_prior_fin : priorOf ex69sps Set.univ ≠ ⊤ := by
  have hv : ∀ i, IsProbabilityMeasure (valuesLaw (ex69sps i).dens) := fun i => Lemmas.valuesLaw_prob (ex69_ok i).dens
  have hf : ∀ i, IsFiniteMeasure (transPrior (valuesLaw (ex69sps i).dens) (ex69sps i).info.lo (ex69sps i).info.hi) :=
    fun i => Lemmas.transPrior_finite _ _
  unfold priorOf
  exact measure_ne_top _ _

theorem ex72_prob : IsProbabilityMeasure ex72law := by
  constructor
  have h0 : priorOf ex69sps Set.univ ≠ 0 := fun h => Lemmas.prior_ne_zero ex69_ok (Measure.measure_univ_eq_zero.1 h)
  unfold ex72law
  rw [Measure.smul_apply, smul_eq_mul]
  exact ENNReal.inv_mul_cancel h0 ex72_prior_fin

theorem ex72_fin : posteriorOf ex69sps (fun x => -ex69sum x ^ 2) 2 Set.univ ≠ ⊤ := by
  refine ne_top_of_le_ne_top ex72_prior_fin ?_
  unfold posteriorOf
  rw [withDensity_apply _ MeasurableSet.univ, Measure.restrict_univ]
  refine (lintegral_mono (g := fun _ => 1) fun x => ?_).trans (by rw [lintegral_one])
  rw [← ENNReal.ofReal_one]
  refine ENNReal.ofReal_le_ofReal (Real.exp_le_one_iff.2 ?_)
  have := sq_nonneg (ex69sum x)
  linarith

/-- The two spaces of C69 at temperature 2. -/
example := C72_converges ex69_problem 6 (by norm_num) (by
    intro i n h1 h2
    fin_cases i
    · change n ≤ 3 at h2
      interval_cases n <;> decide
    · change n ≤ 1 at h2
      interval_cases n
      decide) 2 two_ne_zero (by
    intro i j
    fin_cases i
    · change Fin 2 at j
      fin_cases j
      · change (1 : ℝ) ≠ 0
        norm_num
      · change (2 : ℝ) ≠ 0
        norm_num
    · change Fin 1 at j
      fin_cases j
      change (5 : ℝ) ≠ 0
      norm_num) ex72_fin 10 5 (by norm_num) ex69start ex69_at 7 (by
    intro i
    fin_cases i <;> decide) ex72law ex72_prob Measure.smul_absolutelyContinuous (1 / 100) (by norm_num)

end Examples

end BB.Props
