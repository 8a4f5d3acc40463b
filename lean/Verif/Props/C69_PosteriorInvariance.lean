import Verif.Lemmas.PlainPost

/-!
# C69: the posterior is invariant under the chain

An inversion for the values of any number of plain parameter spaces (with fixed or variable numbers of dimensions, uniform,
Gaussian and Laplace priors, fixed noise).  The law of the model reached after any number of iterations of the chain is the
posterior, if that of the model at the start is.  Everything the iteration does is covered: the choice of the space, of the
perturbation and of the dimension, the proposal, the reported ratio, the likelihood and its cache, the acceptance test, the
statistics and the saving of samples.
-/

namespace BB.Props

open BB Spec MeasureTheory

variable {m : ℕ} {sps : Fin m → PlainSpace} {p : Problem} {logLik : Values sps → ℝ} {E : Type}

/-- If the model at the start is distributed like the (tempered) posterior, so is the model after `n` iterations, whose
random numbers are independent.  The iterations are completed almost surely; `L` bounds the number of draws in an
iteration, and the tape has `n * L` draws or more. -/
theorem C69_posterior_invariant (h : PlainProblem p sps logLik) (K : ℕ) (hK : K ≠ 0) (hd : Multiple sps K) (T : ℝ) (hT : T ≠ 0)
    (burnin saveEvery : ℤ) (hs : saveEvery ≠ 0) (start : Values sps → Chain State Store E) (hc : ∀ x, At p sps T x (start x))
    (L : ℕ) (hL : ∀ i, (sps i).size + 5 ≤ L) (n N : ℕ) (hN : n * L ≤ N) (A : Set (Values sps)) (hA : MeasurableSet A) :
    ∫⁻ x, tapeLaw K N {v | ∃ evs,
        (Chain.advance p.cfg burnin saveEvery Act.skip Act.skip n (start x) (List.ofFn v)).1 = .ok evs ∧
        ∃ y ∈ A, (Chain.advance p.cfg burnin saveEvery Act.skip Act.skip n (start x) (List.ofFn v)).2.1.cur.params = paramsOf sps y}
      ∂posteriorOf sps logLik T = posteriorOf sps logLik T A :=
  Lemmas.advance_invariant h.some hK hd h hT hs hL n hN hc hA

/-- From any possible model, the iterations are completed almost surely and lead to a possible model. -/
theorem C69_completes (h : PlainProblem p sps logLik) (K : ℕ) (hK : K ≠ 0) (T : ℝ) (hT : T ≠ 0)
    (burnin saveEvery : ℤ) (hs : saveEvery ≠ 0) (x : Values sps) (hx : Possible sps x) (c : Chain State Store E)
    (hc : At p sps T x c) (L : ℕ) (hL : ∀ i, (sps i).size + 5 ≤ L) (n N : ℕ) (hN : n * L ≤ N) :
    ∀ᵐ v ∂tapeLaw K N, ∃ evs,
      (Chain.advance p.cfg burnin saveEvery Act.skip Act.skip n c (List.ofFn v)).1 = .ok evs ∧
      ∃ y, Possible sps y ∧ At p sps T y (Chain.advance p.cfg burnin saveEvery Act.skip Act.skip n c (List.ofFn v)).2.1 := by
  filter_upwards [Lemmas.advance_ae h.some hK h hT (b := burnin) hs hL n hN hx hc] with v hv
  obtain ⟨evs, h1, h2, h3⟩ := hv
  exact ⟨evs, h1, _, h3, h2⟩

/-! ### example

Two spaces: in the first one, between one and three layers with a uniform and a Gaussian parameter; in the second one, a
single parameter with a Laplace prior.  The log likelihood is minus the square of the sum of all values of the first
parameter. -/

section Examples

/-- The first parameter. -/
noncomputable def ex69u : Prior := { name := "vs", dist := .uniform (.const 0) (.const 4), std := .const 1, stdBirth := .const 1, hasPosition := false }
/-- The second parameter. -/
noncomputable def ex69g : Prior := { name := "vp", dist := .gaussian (.const 2) (.const 3), std := .const 2, stdBirth := .const 1, hasPosition := false }
/-- The parameter of the second space. -/
noncomputable def ex69l : Prior := { name := "c", dist := .laplace (.const 0) (.const 1), std := .const 5, stdBirth := .const 1, hasPosition := false }

/-- The first space. -/
noncomputable def ex69a : PlainSpace where
  info := { name := "layers", nMin := 1, nMax := 3, kind := .plain }
  size := 2
  prior := ![ex69u, ex69g]
  dens := ![uniformPDF 0 4, normalPDF 2 3]
  step := ![1, 2]

/-- The second space. -/
noncomputable def ex69b : PlainSpace where
  info := { name := "offset", nDim := some 1, kind := .plain }
  size := 1
  prior := ![ex69l]
  dens := ![laplacePDF 0 1]
  step := ![5]

/-- Both spaces. -/
noncomputable def ex69sps : Fin 2 → PlainSpace := Fin.cons ex69a fun _ => ex69b

/-- The sum of the values of the first parameter. -/
noncomputable def ex69sum (x : Values ex69sps) : ℝ := ∑ r, (x 0).2 r (⟨0, two_pos⟩ : Fin 2)

/-- The function of the user. -/
noncomputable def ex69f (s : State) : Except PyErr PyF :=
  match dget s.params "layers" with
  | some (.ps st) =>
    match st.get "vs" with
    | some (.arr (.vec l)) => .ok (.fin (-l.sum ^ 2))
    | _ => .error .userFunction
  | _ => .error .userFunction

/-- The inversion. -/
noncomputable def ex69p : Problem where
  spaces := List.ofFn fun i => ((ex69sps i).info.name, (ex69sps i).space)
  kind := .loglike ex69f
  tf := []

theorem ex69_ok : ∀ i, (ex69sps i).Ok := by
  have ha : ex69a.Ok := by
    refine ⟨rfl, two_pos, le_rfl, by change 1 ≤ 3; decide, ?_, ?_, ?_, ?_, ?_⟩
    · intro i j
      change Fin 2 at i j
      fin_cases i <;> fin_cases j <;> simp [ex69a, ex69u, ex69g]
    · intro j
      change Fin 2 at j
      fin_cases j
      · exact ⟨by change "vs" ≠ _; decide +kernel, Lemmas.plain_of (by change substr _ "vs" = _; decide +kernel)⟩
      · exact ⟨by change "vp" ≠ _; decide +kernel, Lemmas.plain_of (by change substr _ "vp" = _; decide +kernel)⟩
    · exact Lemmas.plain_of (by change substr _ "layers" = _; decide +kernel)
    · intro j
      change Fin 2 at j
      fin_cases j
      · exact ⟨0, 4, rfl, rfl, by norm_num, rfl⟩
      · exact ⟨2, 3, rfl, rfl, by norm_num, rfl⟩
    · intro j
      change Fin 2 at j
      fin_cases j
      · exact rfl
      · exact rfl
  have hb : ex69b.Ok := by
    refine ⟨rfl, one_pos, le_rfl, le_rfl, ?_, ?_, ?_, ?_, ?_⟩
    · intro i j _
      exact Subsingleton.elim (α := Fin 1) i j
    · intro j
      change Fin 1 at j
      fin_cases j
      exact ⟨by change "c" ≠ _; decide +kernel, Lemmas.plain_of (by change substr _ "c" = _; decide +kernel)⟩
    · exact Lemmas.plain_of (by change substr _ "offset" = _; decide +kernel)
    · intro j
      change Fin 1 at j
      fin_cases j
      exact ⟨0, 1, rfl, rfl, by norm_num, rfl⟩
    · intro j
      change Fin 1 at j
      fin_cases j
      exact rfl
  intro i
  fin_cases i
  · exact ha
  · exact hb

theorem ex69_problem : PlainProblem ex69p ex69sps fun x => -ex69sum x ^ 2 := by
  refine ⟨two_pos, rfl, ex69_ok, ?_, rfl, List.nodup_nil, ?_, ?_⟩
  · intro i j
    fin_cases i <;> fin_cases j <;> simp [ex69sps, ex69a, ex69b]
  · intro x _ s hs
    have h1 : dget s.params "layers" = some (.ps (ex69a.stateOf (x 0))) := by
      rw [hs]
      rfl
    have h2 : (ex69a.stateOf (x 0)).get "vs" = some (.arr (.vec (List.ofFn fun r => (x 0).2 r (⟨0, two_pos⟩ : Fin 2)))) := rfl
    unfold ex69f
    rw [h1]
    simp only
    rw [h2]
    simp only
    rw [List.sum_ofFn]
    rfl
  · have h1 : Measurable fun y : Tuple (Fin 2 → ℝ) => ∑ r, y.2 r ⟨0, two_pos⟩ := by
      refine Lemmas.measurable_tuple fun n => ?_
      change Measurable fun v : Fin n → Fin 2 → ℝ => ∑ r, v r ⟨0, two_pos⟩
      fun_prop
    have h2 : Measurable ex69sum := h1.comp (measurable_pi_apply (0 : Fin 2))
    exact (h2.pow_const 2).neg

/-- The chain at a model. -/
noncomputable def ex69start (x : Values ex69sps) : Chain State Store Unit :=
  Chain.init { params := paramsOf ex69sps x, temperature := 2, cache := [], extra := [] } [] 2 ()

theorem ex69_at (x : Values ex69sps) : At ex69p ex69sps 2 x (ex69start x) :=
  ⟨rfl, rfl, fun y hy => (List.not_mem_nil hy).elim, rfl, fun _ _ _ h => (by cases h), fun _ _ _ h => (by cases h)⟩

/-- A hundred iterations at temperature 2, with indices from numbers that are uniform below 6. -/
example (A : Set (Values ex69sps)) (hA : MeasurableSet A) := C69_posterior_invariant ex69_problem 6 (by norm_num) (by
    intro i n h1 h2
    fin_cases i
    · change n ≤ 3 at h2
      interval_cases n <;> decide
    · change n ≤ 1 at h2
      interval_cases n
      decide) 2 two_ne_zero 10 5 (by norm_num) ex69start ex69_at 7 (by
    intro i
    fin_cases i <;> decide) 100 700 le_rfl A hA

/-- A possible model: two layers. -/
noncomputable def ex69x : Values ex69sps := Fin.cons (⟨2, fun _ _ => 1⟩ : Tuple (Fin 2 → ℝ)) fun _ => ⟨1, fun _ _ => 0⟩

example := C69_completes ex69_problem 6 (by norm_num) 2 two_ne_zero 10 5 (by norm_num) ex69x (by
    intro i
    fin_cases i
    · refine ⟨⟨by change 1 ≤ 2; decide, by change 2 ≤ 3; decide⟩, fun r j => ?_⟩
      change Fin 2 at j
      fin_cases j
      · change 0 < uniformPDF 0 4 1
        unfold uniformPDF
        norm_num
      · change 0 < normalPDF 2 3 1
        exact ProbabilityTheory.gaussianPDFReal_pos _ _ _ (Real.toNNReal_pos.2 (by norm_num)).ne'
    · refine ⟨⟨le_rfl, le_rfl⟩, fun r j => ?_⟩
      change Fin 1 at j
      fin_cases j
      change 0 < laplacePDF 0 1 0
      unfold laplacePDF
      positivity) (ex69start ex69x) (ex69_at _) 7 (by
    intro i
    fin_cases i <;> decide) 100 700 le_rfl

end Examples

end BB.Props
