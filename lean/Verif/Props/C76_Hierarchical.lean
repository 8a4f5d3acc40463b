import Verif.Lemmas.NoiseRun
import Verif.Lemmas.Tilt
import Verif.Props.C09_Balance
import Verif.Props.C32_Cache
import Verif.Props.C27_C31_Likelihood
import Verif.Lemmas.ProgressEval

/-!
# C76 — the distribution sampled by hierarchical inversions

A chain with any perturbations that do not change the noise (and that satisfy the conditions of C09), and the perturbation of the noise
of any number of targets.  New values of the noise parameters are redrawn until they are between the bounds, and the
log ratio that is reported is 0.  So the chain is in detailed balance not with the posterior but with the posterior times the
probability (at the noise of the model) that nothing has to be redrawn; this probability is not constant, and the
posterior is not invariant.
-/

namespace BB.Props

open BB Spec Lemmas MeasureTheory

variable {σ E R Θ : Type} [MeasurableSpace R] [MeasurableSpace Θ]

/-- A chain with the perturbation of the noise, which comes last. -/
noncomputable def addNoise (cfg : ChainCfg State σ) (name : String) (ts : List Target) (w : ℝ) : ChainCfg State σ :=
  { cfg with
    perturbs := cfg.perturbs ++ [(name, noisePerturb ts)]
    weights := cfg.weights ++ [w] }

/-- A model: the other parameters, and the noise. -/
noncomputable def splitState (ts : List Target) (rest : State → R) (s : State) : R × NoiseValues ts :=
  (rest s, noiseValues ts s.params)

/-- The other parameters are compared up to `r`. -/
def withEq {ts : List Target} (r : R → R → Prop) (x y : R × NoiseValues ts) : Prop := r x.1 y.1 ∧ x.2 = y.2

/-- The draws of the perturbations. -/
noncomputable def noiseDraws {n m : ℕ} (ts : List Target) (enc : Fin n → State → Θ → List Draw) (i : Fin m) (s : State)
    (θ : Θ × (Fin ts.length × Bool → ℕ → ℝ)) : List Draw :=
  if h : i.val < n then enc ⟨i, h⟩ s θ.1 else noiseTape ts (noiseValues ts s.params) θ.2

/-- What is assumed: the noise parameters have bounds; the perturbations `cfg.perturbs` do not change the noise and satisfy
the conditions of C09, where the prior of the noise is uniform between the bounds and independent of that of the other parameters. -/
structure Beside (cfg : ChainCfg State σ) (ts : List Target) (ρ : Measure R)
    (p : Scheme (R × NoiseValues ts) Θ cfg.perturbs.length) (logLik : R × NoiseValues ts → ℝ) (T : ℝ)
    (enc : Fin cfg.perturbs.length → State → Θ → List Draw) (rest : State → R) (inv : State → Prop) (r : R → R → Prop) :
    Prop where
  names : (ts.map (·.name)).Nodup
  bounds : ProperAll ts
  prior : p.prior = ρ.prod (noisePrior ts)
  ok : p.Ok (weight cfg)
  keep : ∀ i x θ, (p.move i x θ).2 = x.2
  reports : Reports cfg p logLik T enc (splitState ts rest) inv (withEq r)
  refl : ∀ a, r a a
  lumps : p.Lumps (withEq r)
  logLik_meas : Measurable logLik
  logLik_eq : ∀ x y, withEq r x y → logLik x = logLik y
  has : ∀ s, inv s → HasNoise ts s.params
  others : ∀ s new : State, (∀ k, k ∉ ts.map (·.name) → dget new.params k = dget s.params k) → rest new = rest s
  stable : ∀ s new lpr t t', inv s → noisePerturb ts s t = (.ok (new, lpr), t') → inv new

variable {cfg : ChainCfg State σ} {ts : List Target} {ρ : Measure R} {p : Scheme (R × NoiseValues ts) Θ cfg.perturbs.length}
  {logLik : R × NoiseValues ts → ℝ} {T : ℝ} {enc : Fin cfg.perturbs.length → State → Θ → List Draw} {rest : State → R}
  {inv : State → Prop} {r : R → R → Prop} {name : String} {w : ℝ}

theorem addNoise_length (cfg : ChainCfg State σ) (name : String) (ts : List Target) (w : ℝ) :
    (addNoise cfg name ts w).perturbs.length = cfg.perturbs.length + 1 := by
  unfold addNoise
  simp

theorem addNoise_weight (hlen : cfg.perturbs.length = cfg.weights.length)
    (i : Fin (addNoise cfg name ts w).perturbs.length) (hi : i.val < cfg.perturbs.length) :
    weight (addNoise cfg name ts w) i = weight cfg ⟨i, hi⟩ := by
  unfold weight addNoise
  simp only
  exact List.getD_append _ _ _ _ (by omega)

theorem addNoise_last (hlen : cfg.perturbs.length = cfg.weights.length)
    (h : cfg.perturbs.length < (addNoise cfg name ts w).perturbs.length) :
    weight (addNoise cfg name ts w) ⟨cfg.perturbs.length, h⟩ = w := by
  unfold weight addNoise
  simp only
  rw [hlen, List.getD_append_right _ _ _ _ le_rfl]
  simp

theorem logQuotient_scale {c : ℝ} (hc : c ≠ 0) (a b : ℝ) : logQuotient (c * a) (c * b) = logQuotient a b := by
  unfold logQuotient
  by_cases ha : a = 0
  · rw [if_pos (by rw [ha, mul_zero]), if_pos ha]
  · rw [if_neg (mul_ne_zero hc ha), if_neg ha, mul_div_mul_left _ _ hc]

theorem addNoise_reports (h : Beside cfg ts ρ p logLik T enc rest inv r) :
    Reports (addNoise cfg name ts w) (withNoise ρ ts p _ (addNoise_length cfg name ts w)) logLik T (noiseDraws ts enc)
      (splitState ts rest) inv (withEq r) where
  proposal := by
    intro i s hs
    have := h.ok.prob
    unfold withNoise noiseDraws
    by_cases hi : i.val < cfg.perturbs.length
    · simp only [hi, dif_pos, Fin.is_lt, Fin.eta]
      have e : (addNoise cfg name ts w).perturbs[i] = cfg.perturbs[(⟨i, hi⟩ : Fin _)] :=
        List.getElem_append_left (bs := [(name, noisePerturb ts)]) hi
      filter_upwards [Measure.quasiMeasurePreserving_fst.ae (h.reports.proposal ⟨i, hi⟩ s hs)] with θ hθ
      obtain ⟨new, lpr, h1, h2, h3, h4⟩ := hθ
      refine ⟨new, lpr, ?_, h2, h3, fun hd => ?_⟩
      · intro rest
        rw [e]
        exact h1 rest
      · rw [h4 (right_ne_zero_of_mul hd), h.keep]
        rw [logQuotient_scale (stayingAll_pos h.bounds _).ne']
    · simp only [hi, dif_neg, not_false_eq_true]
      have hin : i.val = cfg.perturbs.length := by
        have h1 : i.val < (addNoise cfg name ts w).perturbs.length := i.is_lt
        have h2 := addNoise_length cfg name ts w
        omega
      have e : (addNoise cfg name ts w).perturbs[i] = (name, noisePerturb ts) := by
        have : (addNoise cfg name ts w).perturbs[i.val]? = some (name, noisePerturb ts) := by
          unfold addNoise
          simp only
          rw [hin, List.getElem?_append_right le_rfl, Nat.sub_self]
          rfl
        exact (List.getElem_eq_iff i.is_lt).2 this
      filter_upwards [Measure.quasiMeasurePreserving_snd.ae (noise_lands h.bounds (noiseValues ts s.params))] with θ hθ
      obtain ⟨new, h2, h3⟩ := noisePerturb_run h.names (h.has s hs) hθ
      refine ⟨new, .fin 0, ?_, h.stable _ _ _ _ _ hs (h2 []), ⟨?_, h3⟩, fun _ => ?_⟩
      · intro rest
        rw [e]
        exact h2 rest
      · have := h.others s new (noisePerturb_ok h.names (h2 [])).2.1
        change r (rest new) (rest s)
        rw [this]
        exact h.refl _
      · have hk := kernelAll_swap ts ((splitState ts rest s).2, landAll ts (splitState ts rest s).2 θ.2)
        rw [Prod.swap_prod_mk] at hk
        unfold logQuotient
        rw [hk, if_neg (kernelAll_pos ts _).ne', div_self (kernelAll_pos ts _).ne', Real.log_one]
        rfl
  likelihood := h.reports.likelihood

theorem addNoise_setup (hlen : cfg.perturbs.length = cfg.weights.length) (hw : ∀ v ∈ cfg.weights, 0 ≤ v) (hw1 : 0 < w) :
    (addNoise cfg name ts w).perturbs.length = (addNoise cfg name ts w).weights.length ∧
    (∀ v ∈ (addNoise cfg name ts w).weights, 0 ≤ v) ∧ 0 < (addNoise cfg name ts w).weights.sum := by
  unfold addNoise
  refine ⟨by simp [hlen], ?_, ?_⟩
  · intro v hv
    rcases List.mem_append.1 hv with hv | hv
    · exact hw v hv
    · rw [List.mem_singleton.1 hv]
      exact hw1.le
  · simp only [List.sum_append, List.sum_singleton]
    exact add_pos_of_nonneg_of_pos (List.sum_nonneg hw) hw1

theorem tilted_prior [SFinite ρ] (h : Beside cfg ts ρ p logLik T enc rest inv r) {P : R × NoiseValues ts → Prop}
    (hP : ∀ᵐ x ∂(ρ.prod (noisePrior ts)).withDensity fun x => ENNReal.ofReal (stayingAll ts x.2), P x) :
    ∀ᵐ x ∂ρ.prod (noisePrior ts), P x := by
  have hs : Measurable fun x : R × NoiseValues ts => ENNReal.ofReal (stayingAll ts x.2) :=
    ((stayingAll_meas ts).comp measurable_snd).ennreal_ofReal
  refine (withDensity_absolutelyContinuous' hs.aemeasurable (.of_forall fun x => ?_)).ae_le hP
  exact (ENNReal.ofReal_pos.2 (stayingAll_pos h.bounds _)).ne'

/-- One iteration of the chain satisfies detailed balance with respect to the product of the posterior (with uniform noise
parameters) and the probability that no noise parameter has to be redrawn, and it preserves that distribution. -/
theorem C76_sampled [SFinite ρ] (h : Beside cfg ts ρ p logLik T enc rest inv r)
    (hlen : cfg.perturbs.length = cfg.weights.length) (hw : ∀ v ∈ cfg.weights, 0 ≤ v) (name : String) (w : ℝ) (hw1 : 0 < w)
    (state : R × NoiseValues ts → Chain State σ E)
    (hval : ∀ᵐ x ∂ρ.prod (noisePrior ts), inv (state x).cur ∧ withEq r x (splitState ts rest (state x).cur))
    (htemp : ∀ x, (state x).temp = T) :
    DetailedBalanceUpTo (withEq r)
      (posterior ((ρ.prod (noisePrior ts)).withDensity fun x => ENNReal.ofReal (stayingAll ts x.2)) logLik T)
      (fun x => IterationLaw (addNoise cfg name ts w) (noiseDraws ts enc) (p.draws.prod (deviates ts)) (splitState ts rest)
        (state x)) ∧
    PreservesUpTo (withEq r)
      (posterior ((ρ.prod (noisePrior ts)).withDensity fun x => ENNReal.ofReal (stayingAll ts x.2)) logLik T)
      (fun x => IterationLaw (addNoise cfg name ts w) (noiseDraws ts enc) (p.draws.prod (deviates ts)) (splitState ts rest)
        (state x)) := by
  obtain ⟨h1, h2, h3⟩ := addNoise_setup (name := name) (ts := ts) hlen hw hw1
  exact C09_up_to (addNoise cfg name ts w) h1 h2 h3 (withNoise ρ ts p _ (addNoise_length cfg name ts w))
    (withNoise_ok h.bounds h.ok h.prior (addNoise_weight hlen)) logLik h.logLik_meas T (noiseDraws ts enc)
    (splitState ts rest) inv (withEq r) (fun x => ⟨h.refl _, rfl⟩) (withNoise_lumps h.ok h.lumps) h.logLik_eq
    (addNoise_reports h) state ((withDensity_absolutelyContinuous _ _).ae_le hval) htemp

/-- The posterior (with uniform noise parameters) is not invariant under the iterations of the chain, whatever the
other parameters, the bounds and the data. -/
theorem C76_not_posterior [SFinite ρ] (hρ : ρ ≠ 0) (hts : ts ≠ []) (h : Beside cfg ts ρ p logLik T enc rest inv r)
    (hlen : cfg.perturbs.length = cfg.weights.length) (hw : ∀ v ∈ cfg.weights, 0 ≤ v) (name : String) (w : ℝ) (hw1 : 0 < w)
    (hfin : posterior (ρ.prod (noisePrior ts)) logLik T Set.univ ≠ ⊤)
    (state : R × NoiseValues ts → Chain State σ E)
    (hval : ∀ᵐ x ∂ρ.prod (noisePrior ts), inv (state x).cur ∧ withEq r x (splitState ts rest (state x).cur))
    (htemp : ∀ x, (state x).temp = T) :
    ¬ PreservesUpTo (withEq r) (posterior (ρ.prod (noisePrior ts)) logLik T)
      (fun x => IterationLaw (addNoise cfg name ts w) (noiseDraws ts enc) (p.draws.prod (deviates ts)) (splitState ts rest)
        (state x)) := by
  intro hc
  obtain ⟨h1, h2, h3⟩ := addNoise_setup (name := name) (ts := ts) hlen hw hw1
  have hok : (withNoise ρ ts p _ (addNoise_length cfg name ts w)).Ok (weight (addNoise cfg name ts w)) :=
    withNoise_ok h.bounds h.ok h.prior (addNoise_weight hlen)
  have hit := iteration_eq (addNoise cfg name ts w) h1 h2 h3 (withNoise ρ ts p _ (addNoise_length cfg name ts w)) hok logLik
    h.logLik_meas T (noiseDraws ts enc) (splitState ts rest) inv (withEq r) (fun x => ⟨h.refl _, rfl⟩)
    (withNoise_lumps h.ok h.lumps) h.logLik_eq (addNoise_reports h) state
    ((withDensity_absolutelyContinuous _ _).ae_le hval) htemp
  have hle : Measurable fun x => ENNReal.ofReal (Real.exp (logLik x / T)) := by
    have := h.logLik_meas
    fun_prop
  have hit1 := (withDensity_absolutelyContinuous' hle.aemeasurable
    (.of_forall fun x => (ENNReal.ofReal_pos.2 (Real.exp_pos _)).ne')).ae_le hit
  have hit2 : ∀ᵐ x ∂posterior (ρ.prod (noisePrior ts)) logLik T, _ := (withDensity_absolutelyContinuous _ _).ae_le
    (tilted_prior h hit1)
  refine withNoise_not_preserved (hm := addNoise_length cfg name ts w) hρ h.bounds hts h.ok h.prior (addNoise_weight hlen)
    (weight_nonneg _ h1 h2) ?_ h.logLik_meas T hfin (r := r) fun A hA hAr => ?_
  · rw [addNoise_last hlen]
    exact hw1
  · rw [← hc A hA hAr]
    exact (lintegral_congr_ae (hit2.mono fun x hx => hx A hA hAr)).symm

/-- How much is sampled too much or too little: the density with respect to the posterior varies by a factor of 2 at
most for each noise parameter. -/
theorem C76_bias (h : ProperAll ts) (x y : NoiseValues ts)
    (hx : ∀ q r, noiseRanges ts q = some r → x q ∈ Set.Icc r.lo r.hi)
    (hy : ∀ q r, noiseRanges ts q = some r → y q ∈ Set.Icc r.lo r.hi) :
    stayingAll ts x ≤ 2 ^ (Finset.univ.filter fun q => (noiseRanges ts q).isSome).card * stayingAll ts y :=
  stayingAll_le h hx hy

/-- The perturbations of the chains of the library: those of the parameter spaces, and that of the noise. -/
theorem cfg_addNoise (q : Problem) (h : q.hier ≠ []) : q.cfg = addNoise { q.cfg with
      perturbs := q.spaces.perts.map fun g => (g.1.displayName, g.1.perturb)
      weights := q.spaces.perts.map (·.2) } (noiseName q.hier) q.hier 1 := by
  have hf : q.hier.isEmpty = false := by
    cases hh : q.hier with
    | nil => exact absurd hh h
    | cons a l => rfl
  unfold addNoise Problem.cfg Problem.perturbs Problem.weights Problem.noisePerturbs stateCfg
  simp only [hf, Bool.false_eq_true, if_false]

/-! ### example

Three data, a forward function that always predicts 1, 2 and 3, and unknown noise between 1/2 and 2. -/

section Examples

/-- The target. -/
noncomputable def ex76t : Target := { name := "obs", dobs := [1, 2, 4], stdMin := 1 / 2, stdMax := 2 }

/-- The inversion. -/
noncomputable def ex76q : Problem where
  spaces := []
  kind := .targets
  tf := [(ex76t, fun _ => some [1, 2, 3])]

/-- The chain without the perturbation of the noise: there is nothing else to perturb. -/
noncomputable def ex76c : ChainCfg State Store := { ex76q.cfg with
  perturbs := ex76q.spaces.perts.map fun g => (g.1.displayName, g.1.perturb)
  weights := ex76q.spaces.perts.map (·.2) }

/-- The index of the standard deviation. -/
def ex76i : Fin [ex76t].length × Bool := (⟨0, by simp⟩, false)

/-- The log likelihood. -/
noncomputable def ex76l (x : Unit × NoiseValues [ex76t]) : ℝ :=
  -(3 / 2) * Real.log (2 * Real.pi) - Real.log (x.2 ex76i ^ 2 * x.2 ex76i ^ 2 * x.2 ex76i ^ 2) / 2 - (x.2 ex76i ^ 2)⁻¹ / 2

/-- The noise of the state, and the cache. -/
def ex76inv (s : State) : Prop :=
  (∃ d, dget s.params "obs" = some (.noise d) ∧ NoiseIn ex76t d) ∧ Coherent ex76q.tf s

/-- There are no other perturbations. -/
noncomputable def ex76p : Scheme (Unit × NoiseValues [ex76t]) Unit ex76c.perturbs.length where
  prior := (Measure.dirac ()).prod (noisePrior [ex76t])
  draws := Measure.dirac ()
  move := fun _ x _ => x
  rev := id
  common := fun _ => 0
  dens := fun _ _ => 0

theorem ex76_none (i : Fin ex76c.perturbs.length) : False := by
  have : ex76c.perturbs.length = 0 := rfl
  have := i.is_lt
  omega

theorem ex76_logLik {s : State} (h : ex76inv s) :
    (∀ x ∈ ex76q.tf, Evaluable s.params x) ∧
      Spec.logLik ex76q.tf s.params = ex76l (splitState [ex76t] (fun _ => ()) s) := by
  obtain ⟨⟨d, hd, h1, h2, h3⟩, -⟩ := h
  have hc : d.corr = none := h3
  change 1 / 2 ≤ d.std at h1
  have hpos : 0 < d.std := by linarith
  have hn : noiseIn s.params ex76t = d := by
    unfold noiseIn
    rw [show ex76t.name = "obs" from rfl, hd]
  constructor
  · intro x hx
    rw [show ex76q.tf = [(ex76t, fun _ => some [1, 2, 3])] from rfl, List.mem_singleton] at hx
    subst hx
    refine ⟨⟨_, rfl, rfl⟩, by simp [ex76t], fun _ => ?_, ?_⟩
    · simp only
      rw [hn]
      exact hd
    · simp only
      rw [hn]
      refine ⟨hpos, fun r hr => ?_⟩
      rw [hc] at hr
      cases hr
  · have hv : (splitState [ex76t] (fun _ => ()) s).2 ex76i = d.std := by
      change noiseValue ex76t s.params false = _
      unfold noiseValue
      rw [show ex76t.name = "obs" from rfl, hd]
    unfold ex76l
    rw [hv]
    unfold Spec.logLik
    rw [show ex76q.tf = [(ex76t, fun _ => some [1, 2, 3])] from rfl]
    simp only [List.map_cons, List.map_nil, List.sum_cons, List.sum_nil, add_zero, hn, Option.getD_some]
    unfold targetLogLik
    have hC : dataCov ex76t d = Matrix.diagonal fun _ => d.std ^ 2 := by
      unfold dataCov
      simp only [ex76t, hc]
    have hlen : ex76t.dobs.length = 3 := rfl
    have hinv : (Matrix.diagonal fun _ : Fin ex76t.dobs.length => d.std ^ 2)⁻¹ =
        Matrix.diagonal fun _ : Fin ex76t.dobs.length => (d.std ^ 2)⁻¹ := by
      refine Matrix.inv_eq_right_inv ?_
      rw [Matrix.diagonal_mul_diagonal]
      simp only [mul_inv_cancel₀ (pow_pos hpos 2).ne']
      exact Matrix.diagonal_one
    unfold normalLogDensity
    rw [hC, hinv, Matrix.det_diagonal]
    have hprod : ∏ _i : Fin ex76t.dobs.length, d.std ^ 2 = d.std ^ 2 * d.std ^ 2 * d.std ^ 2 := by
      rw [Finset.prod_const, Finset.card_univ, Fintype.card_fin, hlen]
      ring
    have hdot : (vecOf ex76t.dobs.length [1, 2, 3] - vecOf ex76t.dobs.length ex76t.dobs) ⬝ᵥ
        (Matrix.diagonal fun _ : Fin ex76t.dobs.length => (d.std ^ 2)⁻¹).mulVec
          (vecOf ex76t.dobs.length [1, 2, 3] - vecOf ex76t.dobs.length ex76t.dobs) = (d.std ^ 2)⁻¹ := by
      unfold dotProduct
      simp only [Matrix.mulVec_diagonal]
      change ∑ i : Fin 3, (vecOf 3 [1, 2, 3] - vecOf 3 [1, 2, 4]) i *
        ((d.std ^ 2)⁻¹ * (vecOf 3 [1, 2, 3] - vecOf 3 [1, 2, 4]) i) = _
      rw [Fin.sum_univ_three]
      simp [vecOf]
      norm_num
    rw [hprod, hdot, hlen]
    norm_num

theorem ex76_beside (T : ℝ) (hT : T ≠ 0) : Beside ex76c [ex76t] (Measure.dirac ()) ex76p ex76l T (fun _ _ _ => []) (fun _ => ())
    ex76inv Eq where
  names := List.nodup_singleton _
  bounds := by
    rintro ⟨i, b⟩ r hr
    have hi : [ex76t][i] = ex76t := by
      have : i = ⟨0, by simp⟩ := Fin.ext (Nat.lt_one_iff.1 i.is_lt)
      subst this
      rfl
    unfold noiseRanges at hr
    rw [hi] at hr
    cases b with
    | false =>
      cases hr
      exact ⟨by norm_num [ex76t], by norm_num [ex76t]⟩
    | true =>
      have : noiseRange ex76t true = none := rfl
      rw [this] at hr
      cases hr
  prior := rfl
  ok := by
    refine ⟨?_, ?_, fun i => (ex76_none i).elim, fun i => (ex76_none i).elim, fun i => (ex76_none i).elim,
      fun i => (ex76_none i).elim, fun i => (ex76_none i).elim, fun i => (ex76_none i).elim, fun i => (ex76_none i).elim⟩
    · unfold ex76p
      infer_instance
    · unfold ex76p
      infer_instance
  keep := fun i => (ex76_none i).elim
  reports := by
    refine ⟨fun i => (ex76_none i).elim, fun s new hs hnew => ?_⟩
    have hnd : (ex76q.tf.map (·.1.name)).Nodup := List.nodup_singleton _
    obtain ⟨e1, l1⟩ := ex76_logLik hs
    obtain ⟨e2, l2⟩ := ex76_logLik hnew
    have hr := C27_gaussian_ratio ex76q.tf s new T hT hnd hs.2 hnew.2 e1 e2
    have h1 := getMisfitAndDet_coh ex76q.tf s hnd hs.2
    have h2 := getMisfitAndDet_coh ex76q.tf new hnd hnew.2
    rw [l1, l2] at hr
    have key : ∃ s' new', ex76c.llr s new T = (.ok (.fin ((ex76l (splitState [ex76t] (fun _ => ()) new) -
        ex76l (splitState [ex76t] (fun _ => ()) s)) / T)), s', new') ∧ s'.params = s.params ∧ new'.params = new.params ∧
        Coherent ex76q.tf s' ∧ Coherent ex76q.tf new' := by
      refine ⟨(logLikelihoodRatio .targets ex76q.tf s new T).2.1.1, (logLikelihoodRatio .targets ex76q.tf s new T).2.2.1, ?_, ?_⟩
      · rw [← hr]
        rfl
      · have hl : ∀ v, (logLikelihoodRatio .targets ex76q.tf s new T).1 = .ok v →
            (logLikelihoodRatio .targets ex76q.tf s new T).2.1.1 = (getMisfitAndDet ex76q.tf s).2.1 ∧
            (logLikelihoodRatio .targets ex76q.tf s new T).2.2.1 = (getMisfitAndDet ex76q.tf new).2.1 := by
          intro v
          unfold logLikelihoodRatio ratioFromTargets
          match getMisfitAndDet ex76q.tf s with
          | (.error e, o, c) => intro hv; cases hv
          | (.ok (m, l), o, c) =>
            match getMisfitAndDet ex76q.tf new with
            | (.error e, o', c') => intro hv; cases hv
            | (.ok (m', l'), o', c') => exact fun _ => ⟨rfl, rfl⟩
        obtain ⟨h3, h4⟩ := hl _ hr
        rw [h3, h4]
        exact ⟨h1.2.2.1, h2.2.2.1, h1.2.1, h2.2.1⟩
    obtain ⟨s', new', h3, h4, h5, h6, h7⟩ := key
    refine ⟨s', new', h3, ⟨?_, h6⟩, ⟨?_, h7⟩, ⟨rfl, ?_⟩, ⟨rfl, ?_⟩⟩
    · rw [h4]
      exact hs.1
    · rw [h5]
      exact hnew.1
    · unfold splitState
      rw [h4]
    · unfold splitState
      rw [h5]
  refl := fun _ => rfl
  lumps := ⟨fun i => (ex76_none i).elim, fun i => (ex76_none i).elim⟩
  logLik_meas := by
    have h1 : Measurable fun x : Unit × NoiseValues [ex76t] => x.2 ex76i := (measurable_pi_apply _).comp measurable_snd
    unfold ex76l
    fun_prop
  logLik_eq := by
    rintro ⟨⟨⟩, x⟩ ⟨⟨⟩, y⟩ ⟨-, rfl⟩
    rfl
  has := by
    rintro s ⟨⟨d, hd, -⟩, -⟩ t ht
    rw [List.mem_singleton] at ht
    subst ht
    exact ⟨d, hd, fun hc => (by cases hc)⟩
  others := fun _ _ _ => rfl
  stable := by
    intro s new lpr t t' hs hrun
    have h := noisePerturb_ok (ts := [ex76t]) (List.nodup_singleton _) hrun
    refine ⟨h.1 ex76t List.mem_cons_self, coherent_noise h.2.2.2.2.1⟩

/-- A chain at a model. -/
noncomputable def ex76s (x : Unit × NoiseValues [ex76t]) : Chain State Store Unit :=
  Chain.init { params := [("obs", .noise ⟨x.2 ex76i, none⟩)], temperature := 1, cache := [], extra := [] } [] 1 ()

theorem ex76_val : ∀ᵐ x ∂(Measure.dirac ()).prod (noisePrior [ex76t]),
    ex76inv (ex76s x).cur ∧ withEq Eq x (splitState [ex76t] (fun _ => ()) (ex76s x).cur) := by
  have h1 : ∀ q, ∀ᵐ y ∂noisePrior [ex76t], y q ∈ {v | (∀ r, noiseRanges [ex76t] q = some r → v ∈ Set.Icc r.lo r.hi) ∧
      (noiseRanges [ex76t] q = none → v = 0)} := by
    intro q
    have h0 : ∀ᵐ v ∂flat (noiseRanges [ex76t] q), v ∈ {v | (∀ r, noiseRanges [ex76t] q = some r → v ∈ Set.Icc r.lo r.hi) ∧
        (noiseRanges [ex76t] q = none → v = 0)} := by
      cases noiseRanges [ex76t] q with
      | none =>
        change ∀ᵐ v ∂Measure.dirac (0 : ℝ), _
        rw [ae_dirac_eq]
        refine Filter.eventually_pure.2 ⟨fun r hr => ?_, fun _ => rfl⟩
        cases hr
      | some r =>
        filter_upwards [ae_restrict_mem (μ := volume) (measurableSet_Icc (a := r.lo) (b := r.hi))] with v hv
        exact ⟨fun r' hr' => by cases hr'; exact hv, fun hn => by cases hn⟩
    unfold noisePrior
    exact (Measure.quasiMeasurePreserving_eval (μ := fun q => flat (noiseRanges [ex76t] q)) q).ae h0
  filter_upwards [Measure.quasiMeasurePreserving_snd.ae (ae_all_iff.2 h1)] with x hx
  have h0 := (hx ex76i).1 ⟨1 / 2, 2, ex76t.stdPerturb⟩ rfl
  refine ⟨⟨⟨⟨x.2 ex76i, none⟩, rfl, h0.1, h0.2, rfl⟩, fun y _ v hv => by cases hv⟩, rfl, ?_⟩
  funext q
  obtain ⟨i, b⟩ := q
  have hi : i = ⟨0, by simp⟩ := Fin.ext (Nat.lt_one_iff.1 i.is_lt)
  subst hi
  cases b with
  | false => rfl
  | true => exact (hx (⟨0, by simp⟩, true)).2 rfl

theorem ex76_cfg : addNoise ex76c (noiseName [ex76t]) [ex76t] 1 = ex76q.cfg :=
  (cfg_addNoise ex76q (by change [ex76t] ≠ []; simp)).symm

example := C76_sampled (ex76_beside 1 one_ne_zero) rfl (by intro v hv; cases hv) (noiseName [ex76t]) 1 one_pos ex76s ex76_val
  fun _ => rfl

theorem ex76_finite : posterior ((Measure.dirac ()).prod (noisePrior [ex76t])) ex76l 1 Set.univ ≠ ⊤ := by
  unfold posterior
  rw [withDensity_apply _ MeasurableSet.univ, setLIntegral_univ]
  have hb : ∀ᵐ x ∂(Measure.dirac ()).prod (noisePrior [ex76t]), ENNReal.ofReal (Real.exp (ex76l x / 1)) ≤
      ENNReal.ofReal (Real.exp (6 * Real.log 2)) := by
    filter_upwards [ex76_val] with x hx
    obtain ⟨⟨⟨d, hd, h1, -⟩, -⟩, -⟩ := hx
    have hd' : d = ⟨x.2 ex76i, none⟩ := by
      have : dget (ex76s x).cur.params "obs" = some (.noise ⟨x.2 ex76i, none⟩) := rfl
      rw [this] at hd
      injection hd with hd
      injection hd with hd
      exact hd.symm
    rw [hd'] at h1
    change 1 / 2 ≤ x.2 ex76i at h1
    refine ENNReal.ofReal_le_ofReal (Real.exp_le_exp.2 ?_)
    unfold ex76l
    have hpos : 0 < x.2 ex76i := by linarith
    have hpi : 0 ≤ Real.log (2 * Real.pi) := Real.log_nonneg (by nlinarith [Real.pi_gt_three])
    have hlog : -Real.log 2 ≤ Real.log (x.2 ex76i) := by
      rw [← Real.log_inv]
      refine Real.log_le_log (by norm_num) ?_
      linarith
    have hl2 : 0 < Real.log 2 := Real.log_pos (by norm_num)
    have hsq : Real.log (x.2 ex76i ^ 2 * x.2 ex76i ^ 2 * x.2 ex76i ^ 2) = 6 * Real.log (x.2 ex76i) := by
      rw [← pow_add, ← pow_add, Real.log_pow]
      norm_num
    have hinv : 0 ≤ (x.2 ex76i ^ 2)⁻¹ := inv_nonneg.2 (sq_nonneg _)
    rw [hsq]
    linarith
  refine ((lintegral_mono_ae hb).trans_lt ?_).ne
  rw [lintegral_const]
  exact ENNReal.mul_lt_top ENNReal.ofReal_lt_top (measure_lt_top _ _)

example := C76_not_posterior (Measure.dirac_ne_zero (a := ())) (List.cons_ne_nil _ _) (ex76_beside 1 one_ne_zero) rfl
  (by intro v hv; cases hv) (noiseName [ex76t]) 1 one_pos ex76_finite ex76s ex76_val fun _ => rfl

/-- At most a factor of 2 between the noise 1/2 and the noise 1. -/
example : stayingAll [ex76t] (fun q => if q.2 then 0 else 1) ≤ 2 ^ 1 * stayingAll [ex76t] (fun q => if q.2 then 0 else 1 / 2) := by
  have hq : ∀ c : ℝ, 1 / 2 ≤ c → c ≤ 2 → ∀ q r, noiseRanges [ex76t] q = some r → (if q.2 then (0 : ℝ) else c) ∈ Set.Icc r.lo r.hi := by
    rintro c h1 h2 ⟨i, b⟩ r hr
    have hi : i = ⟨0, by simp⟩ := Fin.ext (Nat.lt_one_iff.1 i.is_lt)
    subst hi
    cases b with
    | false => cases hr; exact ⟨h1, h2⟩
    | true => cases hr
  exact C76_bias (ex76_beside 1 one_ne_zero).bounds _ _ (hq 1 (by norm_num) (by norm_num)) (hq (1 / 2) le_rfl (by norm_num))

end Examples

end BB.Props
