import Verif.Lemmas.Reversible
import Verif.Props.C01_C04_Iteration
import Mathlib.Data.List.GetD

/-!
# C09 — an iteration satisfies detailed balance with respect to the tempered posterior

`IterationLaw` is the law of the state of the model of the chain after one iteration of the code
(`Chain.next`): the draws for the choice of the perturbation and for the acceptance test are uniform, those of the
perturbation have an arbitrary law.  The states of the chain may carry more than the model they
stand for (caches); `val` is the model.
-/

namespace BB.Props

open BB Spec Lemmas MeasureTheory

variable {S σ E X Θ : Type} [MeasurableSpace X] [MeasurableSpace Θ] {n : ℕ}

/-- The uniform law of `random.random()`. -/
noncomputable def unit : Measure ℝ := volume.restrict (Set.Ico 0 1)

/-- The probability that the chain, starting from the given attributes, is in a state that stands for a model in `A`
after one iteration.  The draws `enc i s θ` are those of the `i`-th perturbation in the state `s`. -/
noncomputable def IterationLaw (cfg : ChainCfg S σ) (enc : Fin cfg.perturbs.length → S → Θ → List Draw)
    (draws : Measure Θ) (val : S → X) (c : Chain S σ E) (A : Set X) : ENNReal :=
  (unit.prod (draws.prod unit)) {ω | ∃ h0 h1 i,
    choices cfg.perturbs.length cfg.weights [⟨0, 0, ω.1, h0⟩] = (.ok i.val, []) ∧
    val (Chain.next cfg c (⟨0, 0, ω.1, h0⟩ :: enc i c.cur ω.2.1 ++ [⟨0, 0, ω.2.2, h1⟩])).2.1.cur ∈ A}

/-- The assumptions on the perturbations and the likelihood, for the states that satisfy `inv`: from any such state that
stands for `x`, the `i`-th perturbation proposes `move i x θ` (up to `r`) for almost all `θ`, and reports the log quotient of the densities
(of prior and reverse proposal, over prior and forward proposal) wherever the denominator is not zero; the
log likelihood ratio is the difference of the log likelihoods over the temperature; it does not change the
models. -/
structure Reports (cfg : ChainCfg S σ) (p : Scheme X Θ cfg.perturbs.length) (logLik : X → ℝ) (T : ℝ)
    (enc : Fin cfg.perturbs.length → S → Θ → List Draw) (val : S → X) (inv : S → Prop) (r : X → X → Prop) : Prop where
  proposal : ∀ i s, inv s → ∀ᵐ θ ∂p.draws, ∃ new lpr,
    (∀ rest, cfg.perturbs[i].2 s (enc i s θ ++ rest) = (.ok (new, lpr), rest)) ∧
    inv new ∧ r (val new) (p.move i (val s) θ) ∧
    (p.dens i (val s, p.move i (val s) θ) ≠ 0 →
      lpr = (logQuotient (p.dens (p.rev i) (p.move i (val s) θ, val s)) (p.dens i (val s, p.move i (val s) θ))).num)
  likelihood : ∀ s new, inv s → inv new → ∃ s' new',
    cfg.llr s new T = (.ok (.fin ((logLik (val new) - logLik (val s)) / T)), s', new') ∧
    inv s' ∧ inv new' ∧ r (val s') (val s) ∧ r (val new') (val new)

/-- The state after an iteration with a number as log probability ratio. -/
theorem next_fin (cfg : ChainCfg S σ) (c : Chain S σ E) (d0 : Draw) (tp : List Draw) (i : ℕ)
    (hi : choices cfg.perturbs.length cfg.weights [d0] = (.ok i, [])) (name : String) (f : S → M (S × PyF))
    (hf : cfg.perturbs[i]? = some (name, f)) (new : S) (b : ℝ)
    (hprop : ∀ t, f c.cur (tp ++ t) = (.ok (new, .fin b), t)) (r : ℝ) (cur1 new1 : S)
    (hllr : cfg.llr c.cur new c.temp = (.ok (.fin r), cur1, new1)) (d : Draw) :
    (Chain.next cfg c (d0 :: tp ++ [d])).2.1.cur = if 0 < d.u ∧ Real.log d.u < b + r then new1 else cur1 := by
  classical
  have e : d0 :: tp ++ [d] = d0 :: (tp ++ [d]) := rfl
  rw [e]
  unfold Chain.next
  rw [attempts_succ, attempt_chosen cfg (t1 := tp ++ [d]) ⟨i, choices_cons hi _, hf⟩, hprop]
  simp only [PyF.isInf, Bool.false_eq_true, if_false, hllr]
  rw [finish_run]
  by_cases hu : d.u ≤ 0
  · simp only [hu, if_true, not_lt.2 hu, false_and, if_false]
  · have hu' : 0 < d.u := lt_of_not_ge hu
    simp only [hu, if_false, hu', true_and]
    have hgt : (PyF.add (.fin b) (.fin r)).gtFin (Real.log d.u) ↔ Real.log d.u < b + r := Iff.rfl
    match newStats cfg name (decide ((PyF.add (.fin b) (.fin r)).gtFin (Real.log d.u))) new1
        c.proposed c.accepted with
    | .error err =>
      simp only [hgt, decide_eq_true_eq]
    | .ok (p, a) =>
      simp only
      have hs : ∀ acc, (Chain.saveIfDue cfg (afterStats { c with cur := cur1 } new1 acc p a)
          []).2.1.cur = if acc then new1 else cur1 := by
        intro acc
        unfold Chain.saveIfDue
        split <;> rfl
      have hs' := hs (decide ((PyF.add (.fin b) (.fin r)).gtFin (Real.log d.u)))
      simp only [hgt, decide_eq_true_eq] at hs'
      match hm2 : Chain.saveIfDue cfg (afterStats { c with cur := cur1 } new1
          (decide ((PyF.add (.fin b) (.fin r)).gtFin (Real.log d.u))) p a) [] with
      | (.ok (), c2, t2) =>
        simp only [hgt] at hm2
        rw [hm2] at hs'; exact hs'
      | (.error err, c2, t2) =>
        simp only [hgt] at hm2
        rw [hm2] at hs'; exact hs'

/-- The state after an iteration with minus infinity as log probability ratio. -/
theorem next_ninf (cfg : ChainCfg S σ) (c : Chain S σ E) (d0 : Draw) (tp : List Draw) (i : ℕ)
    (hi : choices cfg.perturbs.length cfg.weights [d0] = (.ok i, [])) (name : String) (f : S → M (S × PyF))
    (hf : cfg.perturbs[i]? = some (name, f)) (new : S)
    (hprop : ∀ t, f c.cur (tp ++ t) = (.ok (new, .ninf), t)) (d : Draw) :
    (Chain.next cfg c (d0 :: tp ++ [d])).2.1.cur = c.cur := by
  classical
  have e : d0 :: tp ++ [d] = d0 :: (tp ++ [d]) := rfl
  rw [e]
  unfold Chain.next
  rw [attempts_succ, attempt_chosen cfg (t1 := tp ++ [d]) ⟨i, choices_cons hi _, hf⟩, hprop]
  have hinf : PyF.isInf .ninf = true := rfl
  have hadd : PyF.add .ninf (.fin 0) = .ninf := rfl
  simp only [hinf, if_true, hadd]
  rw [finish_run]
  by_cases hu : d.u ≤ 0
  · simp only [hu, if_true]
  · have hdec : decide (PyF.gtFin PyF.ninf (Real.log d.u)) = false := decide_eq_false fun h => h
    simp only [hu, if_false, hdec]
    match newStats cfg name false new c.proposed c.accepted with
    | .error err => rfl
    | .ok (p, a) =>
      simp only
      have hs : (Chain.saveIfDue cfg (afterStats c new false p a) []).2.1.cur = c.cur := by
        unfold Chain.saveIfDue
        split <;> rfl
      match hm2 : Chain.saveIfDue cfg (afterStats c new false p a) [] with
      | (.ok (), c2, t2) => rw [hm2] at hs; exact hs
      | (.error err, c2, t2) => rw [hm2] at hs; exact hs

/-- The weights, by the index of the perturbation. -/
noncomputable def weight (cfg : ChainCfg S σ) (i : Fin cfg.perturbs.length) : ℝ := cfg.weights.getD i 0

theorem sum_weight (cfg : ChainCfg S σ) (hlen : cfg.perturbs.length = cfg.weights.length) :
    ∑ i, weight cfg i = cfg.weights.sum := by
  unfold weight
  rw [← Fin.sum_univ_getElem, ← Equiv.sum_comp (finCongr hlen.symm)]
  refine Finset.sum_congr rfl fun i _ => ?_
  simp

/-- The draws that lead to the choice of the `i`-th perturbation. -/
def chosen (cfg : ChainCfg S σ) (i : ℕ) : Set ℝ :=
  {u | ∃ h, choices cfg.perturbs.length cfg.weights [⟨0, 0, u, h⟩] = (.ok i, [])}

theorem chosen_eq (cfg : ChainCfg S σ) (hlen : cfg.perturbs.length = cfg.weights.length)
    (hw : ∀ w ∈ cfg.weights, 0 ≤ w) (hs : 0 < cfg.weights.sum) (i : Fin cfg.perturbs.length) :
    MeasurableSet (chosen cfg i) ∧ unit (chosen cfg i) = ENNReal.ofReal (weight cfg i / ∑ j, weight cfg j) := by
  have hi : i.val < cfg.weights.length := by rw [← hlen]; exact i.2
  have h0 := choices_volume cfg.weights hw hs 0 0 [] i hi
  have hsub : chosen cfg i ⊆ Set.Ico 0 1 := by
    rintro u ⟨h, -⟩
    exact h
  have heq : chosen cfg i = {u | ∃ h, choices cfg.weights.length cfg.weights (⟨0, 0, u, h⟩ :: []) = (.ok i.val, [])} := by
    unfold chosen
    generalize i.val = k
    rw [hlen]
  have hm : MeasurableSet (chosen cfg i) := by
    have : chosen cfg i = Set.Ico 0 1 ∩ {u | (cfg.weights.take i).sum ≤ u * cfg.weights.sum ∧
        u * cfg.weights.sum < (cfg.weights.take (i + 1)).sum} := by
      rw [heq]
      ext u
      constructor
      · rintro ⟨h, hc⟩
        obtain ⟨-, -, h1, h2⟩ := (choices_iff cfg.weights hw hs _ _ _ _).1 hc
        exact ⟨h, h1, h2⟩
      · rintro ⟨h, h1, h2⟩
        exact ⟨h, (choices_iff cfg.weights hw hs ⟨0, 0, u, h⟩ _ _ _).2 ⟨rfl, hi, h1, h2⟩⟩
    rw [this]
    refine measurableSet_Ico.inter ?_
    have hmul : Measurable fun u : ℝ => u * cfg.weights.sum := by fun_prop
    exact (measurableSet_le measurable_const hmul).inter (measurableSet_lt hmul measurable_const)
  refine ⟨hm, ?_⟩
  unfold unit
  rw [Measure.restrict_apply hm, Set.inter_eq_self_of_subset_left hsub, heq, h0, sum_weight cfg hlen]
  unfold weight
  rw [List.getD_eq_getElem _ _ hi]

/-- The draws of a perturbation and of the acceptance test that lead to a model in `A`. -/
def arrives (p : Scheme X Θ n) (logLik : X → ℝ) (T : ℝ) (i : Fin n) (x : X) (A : Set X) : Set (Θ × ℝ) :=
  {z | z.2 ∈ Set.Ico 0 1 ∧
    ((z.2 ∈ Set.Ioo 0 (threshold p logLik T i (x, p.move i x z.1)) ∧ p.move i x z.1 ∈ A) ∨
     (z.2 ∉ Set.Ioo 0 (threshold p logLik T i (x, p.move i x z.1)) ∧ x ∈ A))}

theorem unit_univ : unit Set.univ = 1 := by
  unfold unit
  rw [Measure.restrict_apply_univ, Real.volume_Ico]
  simp

instance : IsProbabilityMeasure unit := ⟨unit_univ⟩

theorem unit_Ioo (t : ℝ) : unit (Set.Ioo 0 t) = ENNReal.ofReal (min 1 t) := by
  unfold unit
  rw [Measure.restrict_apply measurableSet_Ioo]
  have : Set.Ioo 0 t ∩ Set.Ico 0 1 = Set.Ioo 0 (min 1 t) := by
    ext u
    simp only [Set.mem_inter_iff, Set.mem_Ioo, Set.mem_Ico, lt_min_iff]
    constructor
    · rintro ⟨⟨h1, h2⟩, h3, h4⟩
      exact ⟨h1, h4, h2⟩
    · rintro ⟨h1, h4, h2⟩
      exact ⟨⟨h1, h2⟩, h1.le, h4⟩
  rw [this, Real.volume_Ioo, sub_zero]

theorem unit_Ico_inter (B : Set ℝ) : unit (Set.Ico 0 1 ∩ B) = unit B := by
  unfold unit
  rw [Measure.restrict_apply' measurableSet_Ico, Measure.restrict_apply' measurableSet_Ico]
  congr 1
  ext u
  simp only [Set.mem_inter_iff]
  tauto

theorem arrives_meas {n : ℕ} {p : Scheme X Θ n} {w : Fin n → ℝ} (hp : p.Ok w) {logLik : X → ℝ} (hℓ : Measurable logLik)
    (T : ℝ) (i : Fin n) (x : X) {A : Set X} (hA : MeasurableSet A) : MeasurableSet (arrives p logLik T i x A) := by
  have hmove : Measurable fun z : Θ × ℝ => p.move i x z.1 :=
    (hp.meas i).comp (measurable_const.prodMk measurable_fst)
  have hthr : Measurable fun z : Θ × ℝ => threshold p logLik T i (x, p.move i x z.1) :=
    (threshold_meas hp hℓ i).comp (measurable_const.prodMk hmove)
  have h1 : MeasurableSet {z : Θ × ℝ | z.2 ∈ Set.Ioo 0 (threshold p logLik T i (x, p.move i x z.1))} :=
    (measurableSet_lt measurable_const measurable_snd).inter (measurableSet_lt measurable_snd hthr)
  exact (measurable_snd measurableSet_Ico).inter ((h1.inter (hmove hA)).union (h1.compl.inter (MeasurableSet.const _)))

theorem arrives_measure {n : ℕ} {p : Scheme X Θ n} {w : Fin n → ℝ} (hp : p.Ok w) {logLik : X → ℝ}
    (hℓ : Measurable logLik) (T : ℝ) (i : Fin n) (x : X) {A : Set X} (hA : MeasurableSet A) :
    (p.draws.prod unit) (arrives p logLik T i x A) =
      ∫⁻ θ, (acceptance p logLik T i (x, p.move i x θ) * A.indicator 1 (p.move i x θ) +
        (1 - acceptance p logLik T i (x, p.move i x θ)) * A.indicator 1 x) ∂p.draws := by
  have := hp.prob
  rw [Measure.prod_apply (arrives_meas hp hℓ T i x hA)]
  refine lintegral_congr fun θ => ?_
  set t := threshold p logLik T i (x, p.move i x θ) with ht
  have hsec : Prod.mk θ ⁻¹' arrives p logLik T i x A =
      Set.Ico 0 1 ∩ ({u | u ∈ Set.Ioo 0 t ∧ p.move i x θ ∈ A} ∪ {u | u ∉ Set.Ioo 0 t ∧ x ∈ A}) := rfl
  rw [hsec, unit_Ico_inter]
  have hd : Disjoint {u | u ∈ Set.Ioo 0 t ∧ p.move i x θ ∈ A} {u | u ∉ Set.Ioo 0 t ∧ x ∈ A} :=
    Set.disjoint_left.2 fun u h1 h2 => h2.1 h1.1
  rw [measure_union hd (measurableSet_Ioo.compl.inter (MeasurableSet.const _))]
  have hacc : acceptance p logLik T i (x, p.move i x θ) = unit (Set.Ioo 0 t) := by
    rw [unit_Ioo]
    rfl
  rw [hacc]
  congr 1
  · by_cases hm : p.move i x θ ∈ A
    · simp only [hm, and_true, Set.indicator_of_mem, Pi.one_apply, mul_one]
      rfl
    · have : {u | u ∈ Set.Ioo 0 t ∧ p.move i x θ ∈ A} = ∅ := by
        ext u
        simp [hm]
      rw [this, Set.indicator_of_notMem hm, mul_zero, measure_empty]
  · by_cases hm : x ∈ A
    · have : {u | u ∉ Set.Ioo 0 t ∧ x ∈ A} = (Set.Ioo 0 t)ᶜ := by
        ext u
        simp [hm]
      rw [this, prob_compl_eq_one_sub measurableSet_Ioo, Set.indicator_of_mem hm, Pi.one_apply, mul_one]
    · have : {u | u ∉ Set.Ioo 0 t ∧ x ∈ A} = ∅ := by
        ext u
        simp [hm]
      rw [this, Set.indicator_of_notMem hm, mul_zero, measure_empty]

/-- Almost all models are such that the density of almost all proposals from there is not zero. -/
theorem ae_good {n : ℕ} {p : Scheme X Θ n} {w : Fin n → ℝ} (hp : p.Ok w) :
    ∀ᵐ x ∂p.prior, ∀ i, ∀ᵐ θ ∂p.draws, p.dens i (x, p.move i x θ) ≠ 0 := by
  have := hp.prob
  have := hp.sfinite
  rw [ae_all_iff]
  intro i
  have hm : Measurable fun z : X × Θ => (z.1, p.move i z.1 z.2) := measurable_fst.prodMk (hp.meas i)
  have h1 : ∀ᵐ z ∂(p.prior.prod p.draws).map (fun z => (z.1, p.move i z.1 z.2)), p.dens i z ≠ 0 := by
    rw [hp.joint i, ae_withDensity_iff (hp.dens_meas i).ennreal_ofReal]
    refine .of_forall fun z h hc => h ?_
    rw [hc, ENNReal.ofReal_zero]
  exact Measure.ae_ae_of_ae_prod (ae_of_ae_map hm.aemeasurable h1)

/-- The law of one iteration. -/
theorem law_eq (cfg : ChainCfg S σ) (hlen : cfg.perturbs.length = cfg.weights.length)
    (hw : ∀ w ∈ cfg.weights, 0 ≤ w) (hs : 0 < cfg.weights.sum)
    (p : Scheme X Θ cfg.perturbs.length) (hp : p.Ok (weight cfg)) (logLik : X → ℝ) (hℓ : Measurable logLik)
    (enc : Fin cfg.perturbs.length → S → Θ → List Draw) (val : S → X) (c : Chain S σ E)
    {inv : S → Prop} {r : X → X → Prop} (hr : Reports cfg p logLik c.temp enc val inv r) (hinv : inv c.cur)
    (hℓr : ∀ x y, r x y → logLik x = logLik y)
    (hgood : ∀ i, ∀ᵐ θ ∂p.draws, p.dens i (val c.cur, p.move i (val c.cur) θ) ≠ 0) {A : Set X} (hA : MeasurableSet A)
    (hAr : Invariant r A) :
    IterationLaw cfg enc p.draws val c A = transition p (weight cfg) logLik c.temp (val c.cur) A := by
  classical
  have := hp.prob
  set x := val c.cur with hx
  have hae : {ω : ℝ × Θ × ℝ | ∃ h0 h1 i,
      choices cfg.perturbs.length cfg.weights [⟨0, 0, ω.1, h0⟩] = (.ok (Fin.val i), []) ∧
      val (Chain.next cfg c (⟨0, 0, ω.1, h0⟩ :: enc i c.cur ω.2.1 ++ [⟨0, 0, ω.2.2, h1⟩])).2.1.cur ∈ A}
      =ᵐ[unit.prod (p.draws.prod unit)] ⋃ i : Fin cfg.perturbs.length, chosen cfg i ×ˢ arrives p logLik c.temp i x A := by
    have h1 : ∀ᵐ ω : ℝ × Θ × ℝ ∂unit.prod (p.draws.prod unit), ∀ i, p.dens i (x, p.move i x ω.2.1) ≠ 0 := by
      have h2 : ∀ᵐ θ ∂p.draws, ∀ i, p.dens i (x, p.move i x θ) ≠ 0 := ae_all_iff.2 hgood
      exact Measure.quasiMeasurePreserving_snd.ae (Measure.quasiMeasurePreserving_fst.ae h2)
    have h1' : ∀ᵐ ω : ℝ × Θ × ℝ ∂unit.prod (p.draws.prod unit), ∀ i, ∃ new lpr,
        (∀ rest, cfg.perturbs[i].2 c.cur (enc i c.cur ω.2.1 ++ rest) = (.ok (new, lpr), rest)) ∧
        inv new ∧ r (val new) (p.move i (val c.cur) ω.2.1) ∧
        (p.dens i (val c.cur, p.move i (val c.cur) ω.2.1) ≠ 0 →
          lpr = (logQuotient (p.dens (p.rev i) (p.move i (val c.cur) ω.2.1, val c.cur))
            (p.dens i (val c.cur, p.move i (val c.cur) ω.2.1))).num) := by
      have h2 := ae_all_iff.2 fun i => hr.proposal i c.cur hinv
      exact Measure.quasiMeasurePreserving_snd.ae (Measure.quasiMeasurePreserving_fst.ae h2)
    filter_upwards [h1, h1'] with ω hω hω'
    apply propext
    change (∃ h0 h1 i, _ ∧ _) ↔ ω ∈ ⋃ i : Fin cfg.perturbs.length, chosen cfg i ×ˢ arrives p logLik c.temp i x A
    rw [Set.mem_iUnion]
    -- the state after the iteration
    have key : ∀ (h0 : 0 ≤ ω.1 ∧ ω.1 < 1) (h1 : 0 ≤ ω.2.2 ∧ ω.2.2 < 1) (i : Fin cfg.perturbs.length),
        choices cfg.perturbs.length cfg.weights [⟨0, 0, ω.1, h0⟩] = (.ok i.val, []) →
        (val (Chain.next cfg c (⟨0, 0, ω.1, h0⟩ :: enc i c.cur ω.2.1 ++ [⟨0, 0, ω.2.2, h1⟩])).2.1.cur ∈ A ↔
          (if ω.2.2 ∈ Set.Ioo 0 (threshold p logLik c.temp i (x, p.move i x ω.2.1)) then p.move i x ω.2.1 else x) ∈ A) := by
      intro h0 h1 i hi
      obtain ⟨new, lpr, g1, g5, g2, g3⟩ := hω' i
      have hf : cfg.perturbs[i.val]? = some (cfg.perturbs[i].1, cfg.perturbs[i].2) := by simp
      rw [← hx] at g2 g3
      have hd := hω i
      have hdpos : 0 < p.dens i (x, p.move i x ω.2.1) := lt_of_le_of_ne (hp.dens_nonneg _ _) (Ne.symm hd)
      have g4 := g3 hd
      by_cases hz : p.dens (p.rev i) (p.move i x ω.2.1, x) = 0
      · have : lpr = .ninf := by
          rw [g4, logQuotient, if_pos hz]
          rfl
        subst this
        rw [next_ninf cfg c _ _ i hi _ _ hf new g1, if_neg, hx]
        rintro ⟨e1, e2⟩
        have : threshold p logLik c.temp i (x, p.move i x ω.2.1) = 0 := by
          unfold threshold
          change p.dens (p.rev i) (p.move i x ω.2.1, x) / _ * _ = 0
          rw [hz, zero_div, zero_mul]
        rw [this] at e2
        exact lt_asymm e1 e2
      · have hpos2 : 0 < p.dens (p.rev i) (p.move i x ω.2.1, x) := lt_of_le_of_ne (hp.dens_nonneg _ _) (Ne.symm hz)
        have : lpr = .fin (Real.log (p.dens (p.rev i) (p.move i x ω.2.1, x) / p.dens i (x, p.move i x ω.2.1))) := by
          rw [g4, logQuotient, if_neg hz]
          rfl
        subst this
        obtain ⟨cur1, new1, k1, -, -, k2, k3⟩ := hr.likelihood c.cur new hinv g5
        rw [next_fin cfg c _ _ i hi _ _ hf new _ g1 _ cur1 new1 k1]
        have hiff : (0 < ω.2.2 ∧ Real.log ω.2.2 < Real.log (p.dens (p.rev i) (p.move i x ω.2.1, x) /
            p.dens i (x, p.move i x ω.2.1)) + (logLik (val new) - logLik (val c.cur)) / c.temp) ↔
            ω.2.2 ∈ Set.Ioo 0 (threshold p logLik c.temp i (x, p.move i x ω.2.1)) := by
          rw [Set.mem_Ioo]
          refine and_congr_right fun hu => ?_
          rw [Real.log_lt_iff_lt_exp hu, Real.exp_add, Real.exp_log (div_pos hpos2 hdpos), hℓr _ _ g2, ← hx]
          rfl
        by_cases hc : ω.2.2 ∈ Set.Ioo 0 (threshold p logLik c.temp i (x, p.move i x ω.2.1))
        · rw [if_pos hc, if_pos (hiff.2 hc), hAr _ _ k3, hAr _ _ g2]
        · rw [if_neg hc, if_neg (fun h => hc (hiff.1 h)), hAr _ _ k2, hx]
    constructor
    · rintro ⟨h0, h1, i, hi, hv⟩
      refine ⟨i, ⟨h0, hi⟩, h1, ?_⟩
      rw [key h0 h1 i hi] at hv
      split at hv
      · next hc => exact .inl ⟨hc, hv⟩
      · next hc => exact .inr ⟨hc, hv⟩
    · rintro ⟨i, ⟨h0, hi⟩, h1, hv⟩
      refine ⟨h0, h1, i, hi, ?_⟩
      rw [key h0 h1 i hi]
      rcases hv with ⟨hc, hv⟩ | ⟨hc, hv⟩
      · rw [if_pos hc]; exact hv
      · rw [if_neg hc]; exact hv
  unfold IterationLaw
  rw [measure_congr hae, measure_iUnion]
  · rw [tsum_fintype]
    unfold transition
    refine Finset.sum_congr rfl fun i _ => ?_
    rw [Measure.prod_prod, (chosen_eq cfg hlen hw hs i).2, arrives_measure hp hℓ c.temp i x hA]
  · intro i j hij
    refine Set.disjoint_left.2 ?_
    rintro ω ⟨⟨h0, hi⟩, -⟩ ⟨⟨h0', hj⟩, -⟩
    apply hij
    rw [hi] at hj
    simp only [Prod.mk.injEq, Except.ok.injEq, and_true] at hj
    exact Fin.ext hj
  · exact fun i => (chosen_eq cfg hlen hw hs i).1.prod (arrives_meas hp hℓ c.temp i x hA)

/-- The law of one iteration from almost every model. -/
theorem iteration_eq (cfg : ChainCfg S σ) (hlen : cfg.perturbs.length = cfg.weights.length)
    (hw : ∀ w ∈ cfg.weights, 0 ≤ w) (hs : 0 < cfg.weights.sum)
    (p : Scheme X Θ cfg.perturbs.length) (hp : p.Ok (weight cfg)) (logLik : X → ℝ) (hℓ : Measurable logLik)
    (T : ℝ) (enc : Fin cfg.perturbs.length → S → Θ → List Draw) (val : S → X) (inv : S → Prop) (r : X → X → Prop)
    (hrefl : ∀ x, r x x) (hlump : p.Lumps r) (hℓr : ∀ x y, r x y → logLik x = logLik y)
    (hr : Reports cfg p logLik T enc val inv r)
    (state : X → Chain S σ E) (hval : ∀ᵐ x ∂p.prior, inv (state x).cur ∧ r x (val (state x).cur))
    (htemp : ∀ x, (state x).temp = T) :
    ∀ᵐ x ∂posterior p.prior logLik T, ∀ A, MeasurableSet A → Invariant r A →
      IterationLaw cfg enc p.draws val (state x) A = transition p (weight cfg) logLik T x A := by
  have h1 : posterior p.prior logLik T ≪ p.prior := withDensity_absolutelyContinuous _ _
  filter_upwards [h1.ae_le (ae_good hp), h1.ae_le hval] with x hx hv A hA hAr
  have := law_eq cfg hlen hw hs p hp logLik hℓ enc val (state x) (by rw [htemp]; exact hr) hv.1 hℓr
    (fun i => good_lumps hp hrefl hlump hv.2 i (hx i)) hA hAr
  rw [this, htemp]
  exact (transition_lumps hp hℓ hrefl hlump hℓr hA hAr hv.2).symm

theorem weight_nonneg (cfg : ChainCfg S σ) (hlen : cfg.perturbs.length = cfg.weights.length)
    (hw : ∀ w ∈ cfg.weights, 0 ≤ w) (i : Fin cfg.perturbs.length) : 0 ≤ weight cfg i := by
  unfold weight
  have hi : i.val < cfg.weights.length := by rw [← hlen]; exact i.2
  rw [List.getD_eq_getElem _ _ hi]
  exact hw _ (List.getElem_mem _)

/-- C09, for models that are distinguished only up to the relation `r`.  If each perturbation reports the log quotient
of the densities, then one iteration of the chain satisfies detailed balance with respect to the prior times the
likelihood to the power `1 / T`, and it preserves that distribution.  (`state x` is any state that stands for the
model `x`, with whatever other attributes of the chain.) -/
theorem C09_up_to (cfg : ChainCfg S σ) (hlen : cfg.perturbs.length = cfg.weights.length)
    (hw : ∀ w ∈ cfg.weights, 0 ≤ w) (hs : 0 < cfg.weights.sum)
    (p : Scheme X Θ cfg.perturbs.length) (hp : p.Ok (weight cfg)) (logLik : X → ℝ) (hℓ : Measurable logLik)
    (T : ℝ) (enc : Fin cfg.perturbs.length → S → Θ → List Draw) (val : S → X) (inv : S → Prop) (r : X → X → Prop)
    (hrefl : ∀ x, r x x) (hlump : p.Lumps r) (hℓr : ∀ x y, r x y → logLik x = logLik y)
    (hr : Reports cfg p logLik T enc val inv r)
    (state : X → Chain S σ E) (hval : ∀ᵐ x ∂p.prior, inv (state x).cur ∧ r x (val (state x).cur))
    (htemp : ∀ x, (state x).temp = T) :
    DetailedBalanceUpTo r (posterior p.prior logLik T) (fun x => IterationLaw cfg enc p.draws val (state x)) ∧
    PreservesUpTo r (posterior p.prior logLik T) (fun x => IterationLaw cfg enc p.draws val (state x)) := by
  have hae := iteration_eq cfg hlen hw hs p hp logLik hℓ T enc val inv r hrefl hlump hℓr hr state hval htemp
  refine ⟨fun A B hA hB hAr hBr => ?_, fun A hA hAr => ?_⟩
  · have h1 := detailed_balance (T := T) hp hℓ A B hA hB
    rw [lintegral_congr_ae (ae_restrict_of_ae (hae.mono fun x hx => hx B hB hBr)),
      lintegral_congr_ae (ae_restrict_of_ae (hae.mono fun x hx => hx A hA hAr))]
    exact h1
  · have hsum : 0 < ∑ i, weight cfg i := by rw [sum_weight cfg hlen]; exact hs
    have hw' := weight_nonneg cfg hlen hw
    rw [lintegral_congr_ae (hae.mono fun x hx => hx A hA hAr)]
    exact preserves_of_balance (detailed_balance (T := T) hp hℓ) (.of_forall fun x => transition_univ hp hw' hsum x) A hA

/-- C09.  If each perturbation reports the log quotient of the densities, then one iteration of the chain satisfies detailed
balance with respect to the prior times the likelihood to the power `1 / T`, and it preserves that distribution.
(`state x` is any state that stands for the model `x`, with whatever other attributes of the chain.) -/
theorem C09_detailed_balance (cfg : ChainCfg S σ) (hlen : cfg.perturbs.length = cfg.weights.length)
    (hw : ∀ w ∈ cfg.weights, 0 ≤ w) (hs : 0 < cfg.weights.sum)
    (p : Scheme X Θ cfg.perturbs.length) (hp : p.Ok (weight cfg)) (logLik : X → ℝ) (hℓ : Measurable logLik)
    (T : ℝ) (enc : Fin cfg.perturbs.length → S → Θ → List Draw) (val : S → X) (inv : S → Prop)
    (hr : Reports cfg p logLik T enc val inv Eq)
    (state : X → Chain S σ E) (hval : ∀ᵐ x ∂p.prior, inv (state x).cur ∧ val (state x).cur = x)
    (htemp : ∀ x, (state x).temp = T) :
    DetailedBalance (posterior p.prior logLik T) (fun x => IterationLaw cfg enc p.draws val (state x)) ∧
    Spec.Preserves (posterior p.prior logLik T) (fun x => IterationLaw cfg enc p.draws val (state x)) := by
  have h := C09_up_to cfg hlen hw hs p hp logLik hℓ T enc val inv Eq (fun _ => rfl) lumps_eq
    (by rintro x _ rfl; rfl) hr state (hval.mono fun x hx => ⟨hx.1, hx.2.symm⟩) htemp
  have hinv : ∀ A : Set X, Invariant Eq A := by
    rintro A x _ rfl
    exact Iff.rfl
  exact ⟨fun A B hA hB => h.1 A B hA hB (hinv A) (hinv B), fun A hA => h.2 A hA (hinv A)⟩

end BB.Props
