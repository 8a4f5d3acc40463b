import Verif.Lemmas.WholeSwaps
import Verif.Props.C82_WholeConvergence

/-!
# C87 — the swaps of parallel tempering do not keep the posterior

Any number of chains, all of them at temperature 1 except for one that is hotter, in equilibrium and independent of each other, and
the swaps that `ParallelTempering` performs at the end of a batch.  The swaps are completed with probability one, and all chains but one
are at temperature 1 afterwards.  But their states are not in equilibrium anymore: the mean of any bounded increasing function of the
log likelihood is lower than before, unless all models have the same likelihood.  This is so for any such chains, and for those of any
whole inversion as in C78, each of which, on its own, stays in equilibrium.  These are the temperatures that the chains start with when
all chains but one are to be at temperature 1; with the default of 40%, this is so for three chains.
-/

namespace BB.Props

open BB Spec Lemmas MeasureTheory

/-- The swaps do not fail, and all chains but one are at temperature 1 afterwards. -/
theorem C87_completed {S σ E : Type} {m : ℕ} (hm : 1 ≤ m) (cfg : ChainCfg S σ) (Good : S → ℝ → Prop) (hg : Scored cfg Good) (T : ℝ)
    (hT : 1 < T) (l : Fin (m + 1) → ℝ) (k : Fin (m + 1)) (s : Samp S σ E) (hs : Tempered Good (oneHot T k) l s) :
    swapsMean m cfg (coldSum fun _ => 1) s = m := by
  rw [swapsMean_eq hm hg hT (f := fun _ => 1) (fun _ => zero_le_one) (fun _ _ _ => ENNReal.ofReal_one.symm) k s hs]
  have : others (fun _ => 1) l = fun _ => (m : ℝ) := by
    funext k
    rw [others_eq]
    simp
  rw [this, iterate_const, ENNReal.ofReal_natCast]

/-- The swaps lower the likelihoods at temperature 1. -/
theorem C87_lower {S σ E X : Type} [MeasurableSpace X] {m : ℕ} (hm : 1 ≤ m) (cfg : ChainCfg S σ) (Good : S → ℝ → Prop)
    (hg : Scored cfg Good) (μ : Measure X) (ℓ : X → ℝ) (hℓ : Measurable ℓ) (T : ℝ) (hT : 1 < T)
    (h1 : posterior μ ℓ 1 Set.univ ≠ ⊤) (h2 : posterior μ ℓ T Set.univ ≠ ⊤) (hn : ¬ ∃ c, ∀ᵐ x ∂μ, ℓ x = c) (k : Fin (m + 1))
    (start : (Fin (m + 1) → X) → Samp S σ E)
    (hs : ∀ᵐ x ∂Measure.pi fun i => equilibrium μ ℓ (oneHot T k i), Tempered Good (oneHot T k) (fun i => ℓ (x i)) (start x))
    (f : ℝ → ℝ) (hf : StrictMono f) (C : ℝ) (hC : ∀ l, 0 ≤ f l ∧ f l ≤ C) (F : S → ENNReal)
    (hF : ∀ a l, Good a l → F a = ENNReal.ofReal (f l)) :
    ∫⁻ x, swapsMean m cfg (coldSum F) (start x) ∂Measure.pi (fun i => equilibrium μ ℓ (oneHot T k i)) <
      m * ∫⁻ x, ENNReal.ofReal (f (ℓ x)) ∂equilibrium μ ℓ 1 := by
  refine lt_of_eq_of_lt ?_ (swaps_lower hm hℓ hf (fun l => (hC l).1) (fun l => (hC l).2) hT h1 h2 hn k)
  exact lintegral_congr_ae (hs.mono fun x hx => swapsMean_eq hm hg hT (fun l => (hC l).1) hF k _ hx)

/-- Before the swaps, the mean over the states at temperature 1 is that of the equilibrium. -/
theorem C87_before {S σ E X : Type} [MeasurableSpace X] {m : ℕ} (Good : S → ℝ → Prop) (μ : Measure X) (ℓ : X → ℝ)
    (hℓ : Measurable ℓ) (T : ℝ) (hT : 1 < T) (hμ : μ ≠ 0) (h1 : posterior μ ℓ 1 Set.univ ≠ ⊤) (h2 : posterior μ ℓ T Set.univ ≠ ⊤)
    (k : Fin (m + 1)) (start : (Fin (m + 1) → X) → Samp S σ E)
    (hs : ∀ᵐ x ∂Measure.pi fun i => equilibrium μ ℓ (oneHot T k i), Tempered Good (oneHot T k) (fun i => ℓ (x i)) (start x))
    (f : ℝ → ℝ) (hf : Measurable f) (h0 : ∀ l, 0 ≤ f l) (F : S → ENNReal) (hF : ∀ a l, Good a l → F a = ENNReal.ofReal (f l)) :
    ∫⁻ x, coldSum F (start x) ∂Measure.pi (fun i => equilibrium μ ℓ (oneHot T k i)) =
      m * ∫⁻ x, ENNReal.ofReal (f (ℓ x)) ∂equilibrium μ ℓ 1 := by
  rw [← others_mean hμ hℓ h1 h2 hf h0 k]
  exact lintegral_congr_ae (hs.mono fun x hx => cold_others hT.ne' h0 hF k _ hx)

/-- When all chains but one are to be at temperature 1, these are the temperatures that the chains start with. -/
theorem C87_start {S σ E : Type} {m : ℕ} (cfg : ChainCfg S σ) (fraction tmax : ℝ) (h0 : 0 < tmax)
    (hm : max 2 ⌊((m : ℝ) + 1) * fraction⌋₊ = m) (s : Samp S σ E) (c : Fin (m + 1) → Chain S σ E) (hs : s.chains = List.ofFn c)
    (t : List Draw) : ptInit cfg fraction tmax s t =
      (.ok (), { s with chains := List.ofFn fun i => (c i).setTemp cfg (oneHot tmax (Fin.last m) i) }, t) := by
  have h2 : 2 ≤ m := hm ▸ le_max_left _ _
  have e : ptLadder s.chains.length fraction tmax = .ok (List.ofFn (oneHot tmax (Fin.last m))) := by
    have hl : s.chains.length = m + 1 := by rw [hs, List.length_ofFn]
    rw [hl]
    unfold ptLadder geomspace
    push_cast
    rw [hm, if_neg h0.ne', if_neg (not_lt.2 h0.le), if_pos (by omega)]
    have e1 : m + 1 - (m - 1) = 2 := by omega
    dsimp only
    rw [e1]
    congr 1
    refine List.ext_getElem (by simp; omega) fun q q1 q2 => ?_
    rw [List.length_ofFn] at q2
    rw [List.getElem_ofFn]
    unfold oneHot
    by_cases hq : q < m - 1
    · rw [List.getElem_append_left (by simpa using hq), List.getElem_replicate, if_neg]
      intro hx
      have := congrArg Fin.val hx
      simp at this
      omega
    · rw [List.getElem_append_right (by simpa using hq)]
      simp only [List.length_replicate, List.getElem_map, List.getElem_range]
      by_cases hq' : q = m
      · rw [if_pos (Fin.ext hq')]
        have : q - (m - 1) = 1 := by omega
        rw [this]
        norm_num
      · rw [if_neg (fun hx => hq' (congrArg Fin.val hx))]
        have : q - (m - 1) = 0 := by omega
        rw [this]
        norm_num
  have ha : ∀ {n : ℕ} (c : Fin n → Chain S σ E) (τ : Fin n → ℝ),
      assignTemps cfg (List.ofFn c) (List.ofFn τ) = .ok (List.ofFn fun i => (c i).setTemp cfg (τ i)) := by
    intro n
    induction n with
    | zero => intro c τ; rfl
    | succ n ih =>
      intro c τ
      rw [List.ofFn_succ, List.ofFn_succ, List.ofFn_succ]
      unfold assignTemps
      rw [ih]
  unfold ptInit
  rw [e]
  dsimp only
  rw [hs, ha]

variable {E : Type} {p : Problem} {B : ℕ → Block} {logLik : Whole p B → ℝ}

/-- The chains of a whole inversion, whatever the distribution without the likelihood. -/
theorem C87_whole {m : ℕ} (hm : 1 ≤ m) (h : AnyProblem p B logLik) (μ : Measure (Whole p B)) [IsFiniteMeasure μ]
    (hμ : μ ≪ wholePrior p B) (T : ℝ) (hT : 1 < T) (hfin : posterior μ logLik 1 Set.univ ≠ ⊤) (hn : ¬ ∃ c, ∀ᵐ x ∂μ, logLik x = c)
    (k : Fin (m + 1)) (c : Fin (m + 1) → Whole p B → Chain State Store E)
    (hc : ∀ i x, PossibleWhole x → Ready p B (oneHot T k i) (c i x) ∧ SameWhole x (wholeOf p B (c i x).cur.params)) (w : E) (b : ℕ)
    (f : ℝ → ℝ) (hf : StrictMono f) (C : ℝ) (hC : ∀ l, 0 ≤ f l ∧ f l ≤ C) :
    ∫⁻ x, swapsMean m p.cfg (coldSum fun s => ENNReal.ofReal (f (logLik (wholeOf p B s.params))))
        ⟨List.ofFn fun i => c i (x i), w, b⟩ ∂Measure.pi (fun i => equilibrium μ logLik (oneHot T k i)) <
      m * ∫⁻ x, ENNReal.ofReal (f (logLik x)) ∂equilibrium μ logLik 1 := by
  have hp : ∀ᵐ x ∂μ, PossibleWhole x := hμ.ae_le (whole_possible_prior h)
  have h2 := hotter_finite hT hfin
  have h0 : μ ≠ 0 := fun h => hn ⟨0, by rw [h]; simp⟩
  have p1 := equilibrium_probability h0 h.meas hfin
  have p2 := equilibrium_probability h0 h.meas h2
  have pk : ∀ i : Fin (m + 1), IsProbabilityMeasure (equilibrium μ logLik (oneHot T k i)) := by
    intro i
    unfold oneHot
    split <;> infer_instance
  refine C87_lower hm p.cfg (AtModel p B logLik) (whole_scored h) μ logLik h.meas T hT hfin h2 hn k _ ?_ f hf C hC _ ?_
  · have hall : ∀ᵐ x ∂Measure.pi (fun i => equilibrium μ logLik (oneHot T k i)), ∀ i, PossibleWhole (x i) :=
      ae_all_iff.2 fun i => (Measure.quasiMeasurePreserving_eval _ i).ae ((equilibrium_ac μ logLik _).ae_le hp)
    filter_upwards [hall] with x hx
    exact ⟨_, rfl, fun i => ⟨(hc i _ (hx i)).1.temp, at_model h (hx i) (hc i _ (hx i))⟩⟩
  · rintro a l ⟨-, -, -, rfl⟩
    rfl

/-- What the single chains of an inversion sample at temperature 1 (C78) is not kept by the swaps, unless all models have the same
likelihood. -/
theorem C87_not_kept {m : ℕ} (hm : 1 ≤ m) (h : WholeProblem p B logLik) (T : ℝ) (hT : 1 < T)
    (hfin : posterior (wholePrior p B) logLik 1 Set.univ ≠ ⊤) (hn : ¬ ∃ c, ∀ᵐ x ∂wholePrior p B, logLik x = c) (k : Fin (m + 1))
    (c : Fin (m + 1) → Whole p B → Chain State Store E)
    (hc : ∀ i x, PossibleWhole x → Ready p B (oneHot T k i) (c i x) ∧ SameWhole x (wholeOf p B (c i x).cur.params)) (w : E) (b : ℕ) :
    ¬ ∀ F : Whole p B → ENNReal, Measurable F → (∀ x, F x ≤ 1) → (∀ x y, SameWhole x y → F x = F y) →
      ∫⁻ x, swapsMean m p.cfg (coldSum fun s => F (wholeOf p B s.params)) ⟨List.ofFn fun i => c i (x i), w, b⟩
        ∂Measure.pi (fun i => (wholeSampled p B logLik (oneHot T k i) Set.univ)⁻¹ • wholeSampled p B logLik (oneHot T k i)) =
      m * ∫⁻ x, F x ∂(wholeSampled p B logLik 1 Set.univ)⁻¹ • wholeSampled p B logLik 1 := by
  intro hk
  have ha := any_of_whole h
  have hsf := sampled_finite h hfin
  have hmf := staying_finite h
  have mono : StrictMono fun l : ℝ => (1 + Real.exp (-l))⁻¹ := by
    intro a b hab
    have := Real.exp_lt_exp.2 (neg_lt_neg hab)
    exact inv_strictAnti₀ (by positivity) (by linarith)
  have bound : ∀ l : ℝ, 0 ≤ (1 + Real.exp (-l))⁻¹ ∧ (1 + Real.exp (-l))⁻¹ ≤ 1 := fun l =>
    ⟨by positivity, inv_le_one_of_one_le₀ (by linarith [Real.exp_pos (-l)])⟩
  have key := C87_whole hm ha ((wholePrior p B).withDensity fun x => ENNReal.ofReal (wholeStaying p B x))
    (withDensity_absolutelyContinuous _ _) T hT (measure_ne_top _ _) ?_ k c hc w b _ mono 1 bound
  · have hk' := hk (fun x => ENNReal.ofReal (1 + Real.exp (-logLik x))⁻¹)
      (mono.monotone.measurable.comp ha.meas).ennreal_ofReal (fun x => ENNReal.ofReal_le_one.2 (bound _).2)
      fun x y hxy => by rw [ha.lumps x y hxy]
    unfold equilibrium at key
    unfold wholeSampled at hk'
    exact absurd hk' key.ne
  rintro ⟨c, hc⟩
  exact hn ⟨c, (withDensity_absolutelyContinuous' (wholeStaying_meas ha).ennreal_ofReal.aemeasurable
    (.of_forall fun x => (ENNReal.ofReal_pos.2 (wholeStaying_pos ha x)).ne')).ae_le hc⟩

/-! ### examples -/

section Examples

/-- The log likelihood of the inversion of two spaces of C78 is not constant. -/
theorem ex87_varies : ¬ ∃ c, ∀ᵐ x ∂wholePrior ex78q ex78C, exLik23 (ex78y x) = c := by
  rintro ⟨c, hc⟩
  have h := whole_block_ae (any_of_whole ex78q_problem) (⟨0, Nat.zero_lt_two⟩ : Fin ex78q.cfg.perturbs.length)
    (P := fun y => exLik23 (P := Unit) y = c) (ex23_lik (measurableSet_singleton c)) hc
  have hr : IsProbabilityMeasure (rowLaw (Measure.dirac ()) (exDens23 (P := Unit))) :=
    row_prob (loc := fun _ => Pos.none) (dom := Set.univ) (.of_forall fun _ => trivial) (ex23_dens _ _)
  have h1 := trans_dim h (n := 1) (by decide) (by decide)
  have h2 := trans_dim h (n := 2) (by decide) (by decide)
  obtain ⟨v, hv⟩ := h1.exists
  obtain ⟨v', hv'⟩ := h2.exists
  have e1 : -((1 : ℕ) : ℝ) = c := hv
  have e2 : -((2 : ℕ) : ℝ) = c := hv'
  norm_num at e1 e2
  linarith

/-- Three chains, the last one at temperature 3. -/
noncomputable def ex87c (i : Fin 3) (x : Whole ex78q ex78C) : Chain State Store Unit := (ex78u x).setTemp ex78q.cfg (oneHot 3 2 i)

theorem ex87_ready (i : Fin 3) (x : Whole ex78q ex78C) (hx : PossibleWhole x) :
    Ready ex78q ex78C (oneHot 3 2 i) (ex87c i x) ∧ SameWhole x (wholeOf ex78q ex78C (ex87c i x).cur.params) := by
  obtain ⟨h1, h2⟩ := ex79q_ready x hx
  exact ⟨⟨h1.holds, h1.cache, h1.extra, rfl, h1.proposed, h1.accepted⟩, h2⟩

example := C87_not_kept (m := 2) (by norm_num) ex78q_problem 3 (by norm_num) ex82q_fin ex87_varies 2 ex87c ex87_ready () 0

example (x : Fin 3 → Whole ex78q ex78C) (hx : ∀ i, PossibleWhole (x i)) :=
  C87_completed (m := 2) (by norm_num) ex78q.cfg _ (whole_scored (any_of_whole ex78q_problem)) 3 (by norm_num) _ 2
    ⟨List.ofFn fun i => ex87c i (x i), (), 0⟩
    ⟨_, rfl, fun i => ⟨rfl, at_model (any_of_whole ex78q_problem) (hx i) (ex87_ready i _ (hx i))⟩⟩

/-- Three chains at the default fraction. -/
example (x : Fin 3 → Whole ex78q ex78C) := C87_start (m := 2) ex78q.cfg (4 / 10) 3 (by norm_num)
  (by
    have : ⌊((2 : ℕ) + 1 : ℝ) * (4 / 10)⌋₊ = 1 := by
      rw [Nat.floor_eq_iff (by norm_num)]
      norm_num
    rw [this]
    rfl)
  ⟨List.ofFn fun i => ex78u (x i), (), 0⟩ (fun i => ex78u (x i)) rfl

end Examples

end BB.Props
