import Mathlib.MeasureTheory.Measure.Prod
import Mathlib.MeasureTheory.Measure.WithDensity
import Mathlib.MeasureTheory.Constructions.Pi
import Mathlib.Analysis.SpecialFunctions.Log.Basic
import Verif.Spec.TemperingSwaps
import Verif.Lemmas.SwapOrder
import Verif.Lemmas.PiDensity
import Verif.Lemmas.BlockAgain
import Verif.Lemmas.PlainWhole

/-!
# Lemmas: the swaps of tempered chains
-/

namespace BB.Lemmas

open BB BB.Spec BB.Props MeasureTheory

variable {S σ E : Type} {cfg : ChainCfg S σ} {Good : S → ℝ → Prop} {m : ℕ}

/-! ### one round -/

theorem pick_round (i : Fin (m + 1)) (j : Fin m) (u : ℝ) (t : List Draw) :
    pickTwo (m + 1) (roundDraws i j u ++ t) = (.ok ((i : ℕ), ((i.succAbove j : Fin (m + 1)) : ℕ)), unitDraw u :: t) := by
  have hm : 0 < m := j.pos
  unfold pickTwo
  rw [if_neg (by omega)]
  change (Except.ok _, _) = _
  congr 1
  congr 1
  have h1 : (indexDraw (i : ℕ)).n % (m + 1) = i := Nat.mod_eq_of_lt i.2
  have h2 : (indexDraw (j : ℕ)).n % (m + 1 - 1) = j := Nat.mod_eq_of_lt j.2
  rw [h1, h2]
  congr 1
  unfold Fin.succAbove
  by_cases h : (j : ℕ) < i
  · rw [if_pos h, if_pos (by exact h)]
    rfl
  · rw [if_neg h, if_neg (by exact h)]
    rfl

/-- The logarithm of the probability with which the chains `i` and `j` are swapped, `i` being drawn first. -/
noncomputable def swapLog (τ l : Fin (m + 1) → ℝ) (i j : Fin (m + 1)) : ℝ := (1 / τ i - 1 / τ j) * ((l j - l i) / τ i)

theorem round_run (hg : Scored cfg Good) {τ l : Fin (m + 1) → ℝ} (hτ : ∀ i, τ i ≠ 0) {s : Samp S σ E} (hs : Tempered Good τ l s)
    (i : Fin (m + 1)) (j' : Fin m) {u : ℝ} (hu : 0 < u ∧ u < 1) :
    ∃ s', (∀ t, ptSwapRandom cfg s (roundDraws i j' u ++ t) = (.ok (), s', t)) ∧
      Tempered Good (if u < Real.exp (swapLog τ l i (i.succAbove j')) then fun q => τ (Equiv.swap i (i.succAbove j') q) else τ) l s' := by
  obtain ⟨c, hc, hl⟩ := hs
  generalize hj : i.succAbove j' = j
  have hij : i ≠ j := hj ▸ (Fin.succAbove_ne i j').symm
  have gi : s.chains[(i : ℕ)]? = some (c i) := by
    rw [hc, List.getElem?_ofFn, dif_pos i.2]
  have gj : s.chains[(j : ℕ)]? = some (c j) := by
    rw [hc, List.getElem?_ofFn, dif_pos j.2]
  have ti : (c i).temp = τ i := (hl i).1
  have tj : (c j).temp = τ j := (hl j).1
  have er := hg.ratio _ _ _ _ (c i).temp (by rw [ti]; exact hτ i) (hl i).2 (hl j).2
  have e1 : ∀ t, ptSwapRandom cfg s (roundDraws i j' u ++ t) =
      ptDecide cfg i j (c i) (c j) (.ok (.fin ((l j - l i) / (c i).temp))) (cfg.llr (c i).cur (c j).cur (c i).temp).2.1
        (cfg.llr (c i).cur (c j).cur (c i).temp).2.2 s (unitDraw u :: t) := by
    intro t
    unfold ptSwapRandom
    refine (act_bind_of (x := s) (c' := s) (t' := roundDraws i j' u ++ t) rfl).trans ?_
    refine (act_bind_of (x := ((i : ℕ), (j : ℕ))) (c' := s) (t' := unitDraw u :: t) ?_).trans ?_
    · have hlen : s.chains.length = m + 1 := by rw [hc, List.length_ofFn]
      rw [hlen]
      unfold Act.ofM
      rw [pick_round, hj]
    · change ptSwap cfg i j s (unitDraw u :: t) = _
      unfold ptSwap
      rw [gi, gj]
      change ptDecide cfg i j (c i) (c j) _ _ _ s (unitDraw u :: t) = _
      rw [er]
  have ki := hg.left _ _ _ _ (c i).temp (hl i).2 (hl j).2
  have kj := hg.right _ _ _ _ (c i).temp (hl i).2 (hl j).2
  have hz : ¬ ((c i).temp = 0 ∨ (c j).temp = 0) := by
    rw [ti, tj]
    exact not_or.2 ⟨hτ i, hτ j⟩
  have hlog : (swapLogProb (c i).temp (c j).temp (.fin ((l j - l i) / (c i).temp))).gtFin (Real.log (unitDraw u).u) ↔
      u < Real.exp (swapLog τ l i j) := by
    rw [unitDraw_u ⟨hu.1.le, hu.2⟩, ti, tj]
    exact Real.log_lt_iff_lt_exp hu.1
  have hu0 : ¬ (unitDraw u).u ≤ 0 := by
    rw [unitDraw_u ⟨hu.1.le, hu.2⟩]
    exact not_le.2 hu.1
  simp only [e1]
  unfold ptDecide
  simp only [hz, if_false, hu0, hc]
  by_cases hx : u < Real.exp (swapLog τ l i j)
  · simp only [if_pos (hlog.2 hx), if_pos hx]
    refine ⟨_, fun t => rfl, _, by rw [set_ofFn, set_ofFn], fun q => ?_⟩
    dsimp only
    by_cases hqj : q = j
    · subst hqj
      rw [Function.update_self, Equiv.swap_apply_right]
      exact ⟨ti, hg.heated _ _ _ kj⟩
    · rw [Function.update_of_ne hqj]
      by_cases hqi : q = i
      · subst hqi
        rw [Function.update_self, Equiv.swap_apply_left]
        exact ⟨tj, hg.heated _ _ _ ki⟩
      · rw [Function.update_of_ne hqi, Equiv.swap_apply_of_ne_of_ne hqi hqj]
        exact hl q
  · simp only [if_neg (fun h => hx (hlog.1 h)), if_neg hx]
    refine ⟨_, fun t => rfl, _, by rw [set_ofFn, set_ofFn], fun q => ?_⟩
    by_cases hqj : q = j
    · subst hqj
      rw [Function.update_self]
      exact ⟨tj, kj⟩
    · rw [Function.update_of_ne hqj]
      by_cases hqi : q = i
      · subst hqi
        rw [Function.update_self]
        exact ⟨ti, ki⟩
      · rw [Function.update_of_ne hqi]
        exact hl q

/-- One round with one hot chain. -/
theorem round_hot (hg : Scored cfg Good) {T : ℝ} (hT : T ≠ 0) {l : Fin (m + 1) → ℝ} {k : Fin (m + 1)} {s : Samp S σ E}
    (hs : Tempered Good (oneHot T k) l s) (i : Fin (m + 1)) (j' : Fin m) {u : ℝ} (hu : 0 < u ∧ u < 1) :
    ∃ s', (∀ t, ptSwapRandom cfg s (roundDraws i j' u ++ t) = (.ok (), s', t)) ∧
      Tempered Good (oneHot T (if u < Real.exp (swapLog (oneHot T k) l i (i.succAbove j')) then Equiv.swap i (i.succAbove j') k else k))
        l s' := by
  obtain ⟨s', e, h⟩ := round_run hg (fun q => by unfold oneHot; split; exacts [hT, one_ne_zero]) hs i j' hu
  refine ⟨s', e, ?_⟩
  split_ifs at h ⊢
  · have : (fun q => oneHot T k (Equiv.swap i (i.succAbove j') q)) = oneHot T (Equiv.swap i (i.succAbove j') k) := by
      funext q
      unfold oneHot
      congr 1
      rw [Equiv.swap_apply_eq_iff]
    rw [← this]
    exact h
  · exact h

/-! ### the mean after the swaps -/

theorem unit_ite {b : ℝ} (x y : ENNReal) (hb : 0 < b) :
    ∫⁻ u, (if u < b then x else y) ∂unit = ENNReal.ofReal (min 1 b) * x + ENNReal.ofReal (1 - min 1 b) * y := by
  have e : (fun u : ℝ => if u < b then x else y) = fun u => (Set.Iio b).indicator (fun _ => x) u + (Set.Iio b)ᶜ.indicator (fun _ => y) u := by
    funext u
    by_cases h : u < b
    · simp [h]
    · simp [h, Set.indicator, not_lt.1 h]
  rw [e, lintegral_add_left (measurable_const.indicator measurableSet_Iio), lintegral_indicator_const measurableSet_Iio,
    lintegral_indicator_const measurableSet_Iio.compl]
  have e1 : unit (Set.Iio b) = ENNReal.ofReal (min 1 b) := by
    unfold unit
    rw [Measure.restrict_apply measurableSet_Iio]
    have : Set.Iio b ∩ Set.Ico 0 1 = Set.Ico 0 (min 1 b) := by
      ext u; simp only [Set.mem_inter_iff, Set.mem_Iio, Set.mem_Ico, lt_min_iff]; tauto
    rw [this, Real.volume_Ico, sub_zero]
  have e2 : unit (Set.Iio b)ᶜ = ENNReal.ofReal (1 - min 1 b) := by
    unfold unit
    rw [Measure.restrict_apply measurableSet_Iio.compl]
    have : (Set.Iio b)ᶜ ∩ Set.Ico 0 1 = Set.Ico (min 1 b) 1 := by
      ext u
      simp only [Set.mem_inter_iff, Set.mem_compl_iff, Set.mem_Iio, not_lt, Set.mem_Ico, inf_le_iff]
      constructor
      · rintro ⟨h1, h2, h3⟩; exact ⟨.inr h1, h3⟩
      · rintro ⟨h1 | h1, h2⟩
        · linarith
        · exact ⟨h1, by linarith, h2⟩
    rw [this, Real.volume_Ico]
  rw [e1, e2, mul_comm x, mul_comm y]

/-- The sum over the pairs of chains. -/
theorem pairs_step (hm : 1 ≤ m) {T : ℝ} (l g : Fin (m + 1) → ℝ) (k : Fin (m + 1)) :
    ∑ i : Fin (m + 1), ∑ j : Fin m, pairChance m * (min 1 (Real.exp (swapLog (oneHot T k) l i (i.succAbove j))) *
      g (Equiv.swap i (i.succAbove j) k) + (1 - min 1 (Real.exp (swapLog (oneHot T k) l i (i.succAbove j)))) * g k) =
    swapStep (codeRate m T) l g k := by
  have hm' : (1 : ℝ) ≤ m := by exact_mod_cast hm
  have h1 : ∀ i : Fin (m + 1), ∑ j : Fin m, pairChance m * (min 1 (Real.exp (swapLog (oneHot T k) l i (i.succAbove j))) *
      g (Equiv.swap i (i.succAbove j) k) + (1 - min 1 (Real.exp (swapLog (oneHot T k) l i (i.succAbove j)))) * g k) =
      m * (pairChance m * g k) + ∑ j : Fin (m + 1), pairChance m * min 1 (Real.exp (swapLog (oneHot T k) l i j)) *
        (g (Equiv.swap i j k) - g k) := by
    intro i
    rw [Fin.sum_univ_succAbove _ i, Equiv.swap_self, Equiv.refl_apply, sub_self (g k), mul_zero, zero_add]
    have : (m : ℝ) * (pairChance m * g k) = ∑ _j : Fin m, pairChance m * g k := by
      rw [Finset.sum_const, Finset.card_univ, Fintype.card_fin, nsmul_eq_mul]
    rw [this, ← Finset.sum_add_distrib]
    exact Finset.sum_congr rfl fun j _ => by ring
  simp only [h1]
  rw [Finset.sum_add_distrib, Finset.sum_const, Finset.card_univ, Fintype.card_fin, nsmul_eq_mul]
  have h2 : ((m + 1 : ℕ) : ℝ) * (m * (pairChance m * g k)) = g k := by
    unfold pairChance
    push_cast
    field_simp
  rw [h2]
  unfold swapStep
  congr 1
  have h3 : ∀ i j : Fin (m + 1), pairChance m * min 1 (Real.exp (swapLog (oneHot T k) l i j)) * (g (Equiv.swap i j k) - g k) =
      (if i = k then pairChance m * min 1 (Real.exp (-((1 - 1 / T) * (l j - l k)) / T)) * (g j - g k) else 0) +
      (if j = k then pairChance m * min 1 (Real.exp (-((1 - 1 / T) * (l i - l k)))) * (g i - g k) else 0) := by
    intro i j
    by_cases hi : i = k
    · subst hi
      by_cases hj : j = i
      · subst hj
        simp
      · rw [if_pos rfl, if_neg hj, add_zero, Equiv.swap_apply_left]
        unfold swapLog oneHot
        rw [if_pos rfl, if_neg hj]
        congr 4
        ring
    · by_cases hj : j = k
      · subst hj
        rw [if_neg hi, if_pos rfl, zero_add, Equiv.swap_apply_right]
        unfold swapLog oneHot
        rw [if_pos rfl, if_neg hi]
        congr 4
        ring
      · rw [if_neg hi, if_neg hj, Equiv.swap_apply_of_ne_of_ne (Ne.symm hi) (Ne.symm hj)]
        ring
  simp only [h3, Finset.sum_add_distrib]
  rw [Finset.sum_comm]
  simp only [Finset.sum_ite_eq', Finset.mem_univ, if_true]
  rw [← Finset.sum_add_distrib]
  refine Finset.sum_congr rfl fun j _ => ?_
  unfold codeRate
  ring

theorem code_bounds (hm : 1 ≤ m) (T d : ℝ) : 0 ≤ codeRate m T d ∧ codeRate m T d ≤ 2 * pairChance m := ⟨code_nonneg hm, code_le hm⟩

/-- Any number of rounds. -/
theorem rounds_mean (hm : 1 ≤ m) (hg : Scored cfg Good) {T : ℝ} (hT : T ≠ 0) {l : Fin (m + 1) → ℝ} {F : Samp S σ E → ENNReal}
    {g : Fin (m + 1) → ℝ} (h0 : ∀ k, 0 ≤ g k) (hF : ∀ k s, Tempered Good (oneHot T k) l s → F s = ENNReal.ofReal (g k)) (n : ℕ) :
    ∀ (k : Fin (m + 1)) (s : Samp S σ E), Tempered Good (oneHot T k) l s →
      roundsMean m n (fun t => match ptSwaps cfg n s t with
        | (.ok _, s', []) => F s'
        | _ => 0) = ENNReal.ofReal ((swapStep (codeRate m T) l)^[n] g k) := by
  induction n with
  | zero => exact fun k s hs => hF k s hs
  | succ n ih =>
    intro k s hs
    have hn : ∀ k, 0 ≤ (swapStep (codeRate m T) l)^[n] g k := iterate_nonneg hm (code_bounds hm T) h0 n
    rw [Function.iterate_succ_apply', ← pairs_step hm]
    unfold roundsMean
    have p0 : ∀ x, 0 ≤ min 1 (Real.exp x) := fun x => le_min zero_le_one (Real.exp_pos x).le
    have p1 : ∀ x, 0 ≤ 1 - min 1 (Real.exp x) := fun x => sub_nonneg.2 (min_le_left _ _)
    have pc := (pairChance_pos hm).le
    have nn : ∀ (i : Fin (m + 1)) (j : Fin m), 0 ≤ pairChance m * (min 1 (Real.exp (swapLog (oneHot T k) l i (i.succAbove j))) *
      (swapStep (codeRate m T) l)^[n] g (Equiv.swap i (i.succAbove j) k) +
      (1 - min 1 (Real.exp (swapLog (oneHot T k) l i (i.succAbove j)))) * (swapStep (codeRate m T) l)^[n] g k) := fun i j =>
      mul_nonneg pc (add_nonneg (mul_nonneg (p0 _) (hn _)) (mul_nonneg (p1 _) (hn _)))
    rw [ENNReal.ofReal_sum_of_nonneg fun i _ => Finset.sum_nonneg fun j _ => nn i j]
    refine Finset.sum_congr rfl fun i _ => ?_
    rw [ENNReal.ofReal_sum_of_nonneg fun j _ => nn i j]
    refine Finset.sum_congr rfl fun j _ => ?_
    have ec : (((m : ENNReal) + 1) * m)⁻¹ = ENNReal.ofReal (pairChance m) := by
      have hm' : (0 : ℝ) < m := by exact_mod_cast hm
      unfold pairChance
      rw [ENNReal.ofReal_inv_of_pos (by positivity), ENNReal.ofReal_mul (by positivity), ENNReal.ofReal_add (by positivity) zero_le_one,
        ENNReal.ofReal_one, ENNReal.ofReal_natCast]
    rw [ENNReal.ofReal_mul pc, ec]
    congr 1
    rw [ENNReal.ofReal_add (mul_nonneg (p0 _) (hn _)) (mul_nonneg (p1 _) (hn _)), ENNReal.ofReal_mul (p0 _), ENNReal.ofReal_mul (p1 _),
      ← unit_ite _ _ (Real.exp_pos _)]
    refine lintegral_congr_ae (unit_pos.mono fun u hu => ?_)
    obtain ⟨s', e, h⟩ := round_hot hg hT hs i j hu
    dsimp only
    have e2 : (fun t => match ptSwaps cfg (n + 1) s (roundDraws i j u ++ t) with
        | (.ok _, s', []) => F s'
        | _ => 0) = fun t => match ptSwaps cfg n s' t with
        | (.ok _, s', []) => F s'
        | _ => 0 := by
      funext t
      have : ptSwaps cfg (n + 1) s (roundDraws i j u ++ t) = ptSwaps cfg n s' t := act_bind_of (e t)
      rw [this]
    rw [e2, ih _ s' h]
    split_ifs <;> rfl

/-- The sum of `f` over the states other than that of chain `k`. -/
def others (f : ℝ → ℝ) (l : Fin (m + 1) → ℝ) (k : Fin (m + 1)) : ℝ := ∑ j, f (l j) - f (l k)

theorem others_eq (f : ℝ → ℝ) (l : Fin (m + 1) → ℝ) (k : Fin (m + 1)) : others f l k = ∑ j : Fin m, f (l (k.succAbove j)) := by
  unfold others
  rw [Fin.sum_univ_succAbove _ k]
  ring

theorem cold_others {T : ℝ} (hT : T ≠ 1) {F : S → ENNReal} {f : ℝ → ℝ} (h0 : ∀ l, 0 ≤ f l)
    (hF : ∀ a l, Good a l → F a = ENNReal.ofReal (f l)) {l : Fin (m + 1) → ℝ} (k : Fin (m + 1)) (s : Samp S σ E)
    (hs : Tempered Good (oneHot T k) l s) : coldSum F s = ENNReal.ofReal (others f l k) := by
  obtain ⟨c, hc, hl⟩ := hs
  unfold coldSum
  rw [hc, List.map_ofFn, List.sum_ofFn, others_eq, ENNReal.ofReal_sum_of_nonneg fun j _ => h0 _, Fin.sum_univ_succAbove _ k]
  dsimp only [Function.comp]
  have e : ∀ i, oneHot T k i = if i = k then T else 1 := fun _ => rfl
  rw [if_neg (by rw [(hl k).1, e, if_pos rfl]; exact hT), zero_add]
  refine Finset.sum_congr rfl fun j _ => ?_
  rw [if_pos (by rw [(hl _).1, e, if_neg (Fin.succAbove_ne k j)]), hF _ _ (hl _).2]

/-- The mean after the swaps. -/
theorem swapsMean_eq (hm : 1 ≤ m) (hg : Scored cfg Good) {T : ℝ} (hT : 1 < T) {F : S → ENNReal} {f : ℝ → ℝ} (h0 : ∀ l, 0 ≤ f l)
    (hF : ∀ a l, Good a l → F a = ENNReal.ofReal (f l)) {l : Fin (m + 1) → ℝ} (k : Fin (m + 1)) (s : Samp S σ E)
    (hs : Tempered Good (oneHot T k) l s) :
    swapsMean m cfg (coldSum F) s = ENNReal.ofReal ((swapStep (codeRate m T) l)^[m + 1] (others f l) k) := by
  have h := rounds_mean hm hg (by linarith : T ≠ 0) (l := l) (F := coldSum F) (g := others f l)
    (fun k => by rw [others_eq]; exact Finset.sum_nonneg fun j _ => h0 _) (cold_others hT.ne' h0 hF) (m + 1) k s hs
  rw [← h]
  unfold swapsMean
  congr 1
  funext t
  have hlen : s.chains.length = m + 1 := by
    obtain ⟨c, hc, _⟩ := hs
    rw [hc, List.length_ofFn]
  have : ptEndAdvance cfg s t = ptSwaps cfg (m + 1) s t := by
    rw [← hlen]
    rfl
  rw [this]
  rfl

/-! ### the equilibrium -/

section

variable {X : Type} [MeasurableSpace X] {μ : Measure X} {ℓ : X → ℝ}

theorem posterior_pos {T : ℝ} (hμ : μ ≠ 0) (hℓ : Measurable ℓ) : posterior μ ℓ T Set.univ ≠ 0 := by
  intro hz
  unfold posterior at hz
  rw [Measure.measure_univ_eq_zero, withDensity_eq_zero_iff ((hℓ.div_const T).exp.ennreal_ofReal).aemeasurable] at hz
  refine hμ (ae_eq_bot.1 (Filter.eventually_false_iff_eq_bot.1 (hz.mono fun x hx => ?_)))
  exact absurd hx (ENNReal.ofReal_pos.2 (Real.exp_pos _)).ne'

theorem equilibrium_probability {T : ℝ} (hμ : μ ≠ 0) (hℓ : Measurable ℓ) (h : posterior μ ℓ T Set.univ ≠ ⊤) :
    IsProbabilityMeasure (equilibrium μ ℓ T) := by
  refine ⟨?_⟩
  unfold equilibrium
  rw [Measure.smul_apply, smul_eq_mul]
  exact ENNReal.inv_mul_cancel (posterior_pos hμ hℓ) h

/-- The density of the equilibrium at a higher temperature. -/
noncomputable def heat (ℓ : X → ℝ) (T : ℝ) (x : X) : ℝ := Real.exp (-((1 - 1 / T) * ℓ x))

theorem heat_meas (hℓ : Measurable ℓ) (T : ℝ) : Measurable (heat ℓ T) := ((hℓ.const_mul _).neg).exp

theorem hot_density (hμ : μ ≠ 0) (hℓ : Measurable ℓ) {T : ℝ} (h1 : posterior μ ℓ 1 Set.univ ≠ ⊤) :
    equilibrium μ ℓ T = (equilibrium μ ℓ 1).withDensity fun x =>
      ((posterior μ ℓ T Set.univ)⁻¹ * posterior μ ℓ 1 Set.univ) * ENNReal.ofReal (heat ℓ T x) := by
  have z1 : posterior μ ℓ 1 Set.univ ≠ 0 := posterior_pos hμ hℓ
  have mh := (heat_meas hℓ T).ennreal_ofReal
  have e1 : posterior μ ℓ T = (posterior μ ℓ 1).withDensity fun x => ENNReal.ofReal (heat ℓ T x) := by
    unfold posterior
    rw [← withDensity_mul _ ((hℓ.div_const 1).exp.ennreal_ofReal) mh]
    congr 1
    funext x
    rw [Pi.mul_apply, ← ENNReal.ofReal_mul (Real.exp_pos _).le]
    unfold heat
    rw [← Real.exp_add]
    congr 2
    ring
  have e2 : equilibrium μ ℓ T = (posterior μ ℓ T Set.univ)⁻¹ • (posterior μ ℓ 1).withDensity fun x => ENNReal.ofReal (heat ℓ T x) := by
    unfold equilibrium
    rw [← e1]
  have e3 : (fun x => ((posterior μ ℓ T Set.univ)⁻¹ * posterior μ ℓ 1 Set.univ) * ENNReal.ofReal (heat ℓ T x)) =
      ((posterior μ ℓ T Set.univ)⁻¹ * posterior μ ℓ 1 Set.univ) • fun x => ENNReal.ofReal (heat ℓ T x) := rfl
  rw [e2, e3, withDensity_smul _ mh]
  unfold equilibrium
  rw [withDensity_smul_measure, smul_smul, mul_assoc, ENNReal.mul_inv_cancel z1 h1, mul_one]

theorem hot_pi (hμ : μ ≠ 0) (hℓ : Measurable ℓ) {T : ℝ} (h1 : posterior μ ℓ 1 Set.univ ≠ ⊤) (h2 : posterior μ ℓ T Set.univ ≠ ⊤)
    (k : Fin (m + 1)) : (Measure.pi fun i => equilibrium μ ℓ (oneHot T k i)) =
      (Measure.pi fun _ : Fin (m + 1) => equilibrium μ ℓ 1).withDensity fun x =>
        ((posterior μ ℓ T Set.univ)⁻¹ * posterior μ ℓ 1 Set.univ) * ENNReal.ofReal (heat ℓ T (x k)) := by
  have p1 := equilibrium_probability hμ hℓ h1
  have p2 := equilibrium_probability hμ hℓ h2
  set K := (posterior μ ℓ T Set.univ)⁻¹ * posterior μ ℓ 1 Set.univ
  have hd : ∀ i, equilibrium μ ℓ (oneHot T k i) = (equilibrium μ ℓ 1).withDensity
      (if i = k then (fun x => K * ENNReal.ofReal (heat ℓ T x)) else 1) := by
    intro i
    unfold oneHot
    split
    · exact hot_density hμ hℓ h1
    · rw [withDensity_one]
  have hs : ∀ i, SigmaFinite ((equilibrium μ ℓ 1).withDensity
      (if i = k then (fun x => K * ENNReal.ofReal (heat ℓ T x)) else 1)) := by
    intro i
    rw [← hd]
    unfold oneHot
    split <;> infer_instance
  simp only [hd]
  rw [pi_density_fin (fun _ : Fin (m + 1) => equilibrium μ ℓ 1) (f := fun i => if i = k then (fun x => K * ENNReal.ofReal (heat ℓ T x)) else 1)]
  · congr 1
    funext x
    rw [Finset.prod_eq_single k]
    · rw [if_pos rfl]
    · intro i _ hi
      rw [if_neg hi]
      rfl
    · exact fun h => absurd (Finset.mem_univ k) h
  · intro i
    split
    · exact ((heat_meas hℓ T).ennreal_ofReal).const_mul K
    · exact measurable_one

/-- Which chain is the hot one does not matter. -/
theorem hot_any {ν : Measure X} [IsProbabilityMeasure ν] {w : X → ENNReal} {h : (Fin (m + 1) → X) → Fin (m + 1) → ENNReal}
    (hs : ∀ x k (e : Equiv.Perm (Fin (m + 1))), h (fun i => x (e i)) k = h x (e k)) (k : Fin (m + 1)) :
    ∫⁻ x, w (x k) * h x k ∂Measure.pi (fun _ => ν) = ∫⁻ x, w (x 0) * h x 0 ∂Measure.pi (fun _ => ν) := by
  have mp := measurePreserving_piCongrLeft (fun _ : Fin (m + 1) => ν) (Equiv.swap 0 k)
  rw [← mp.lintegral_comp_emb (MeasurableEquiv.measurableEmbedding _)]
  refine lintegral_congr fun x => ?_
  have e : MeasurableEquiv.piCongrLeft (fun _ : Fin (m + 1) => X) (Equiv.swap 0 k) x = fun i => x (Equiv.swap 0 k i) := by
    funext i
    have h := Equiv.piCongrLeft_apply_apply (fun _ : Fin (m + 1) => X) (Equiv.swap 0 k) x (Equiv.swap 0 k i)
    rw [Equiv.swap_apply_self] at h
    exact h
  rw [e, hs, Equiv.swap_apply_right]
  dsimp only
  rw [Equiv.swap_apply_right]

theorem step_meas (T : ℝ) (hℓ : Measurable ℓ) {g : (Fin (m + 1) → X) → Fin (m + 1) → ℝ} (hg : ∀ k, Measurable fun x => g x k) (n : ℕ)
    (k : Fin (m + 1)) : Measurable fun x : Fin (m + 1) → X => (swapStep (codeRate m T) fun i => ℓ (x i))^[n] (g x) k := by
  induction n generalizing k with
  | zero => exact hg k
  | succ n ih =>
    simp only [Function.iterate_succ_apply']
    unfold swapStep
    have mc : Measurable (codeRate m T) := by
      unfold codeRate
      fun_prop
    refine (ih k).add (Finset.measurable_sum _ fun j _ => ?_)
    exact (mc.comp ((hℓ.comp (measurable_pi_apply j)).sub (hℓ.comp (measurable_pi_apply k)))).mul ((ih j).sub (ih k))

theorem equilibrium_ac' (hℓ : Measurable ℓ) {T : ℝ} (h : posterior μ ℓ T Set.univ ≠ ⊤) : μ ≪ equilibrium μ ℓ T := by
  have : μ ≪ posterior μ ℓ T := by
    unfold posterior
    exact withDensity_absolutelyContinuous' ((hℓ.div_const T).exp.ennreal_ofReal).aemeasurable
      (Filter.Eventually.of_forall fun x => (ENNReal.ofReal_pos.2 (Real.exp_pos _)).ne')
  refine this.trans ?_
  unfold equilibrium
  exact Measure.AbsolutelyContinuous.rfl.smul_right (ENNReal.inv_ne_zero.2 h)

/-- Two states may differ in their likelihoods. -/
theorem differ (hm : 1 ≤ m) (hℓ : Measurable ℓ) {ν : Measure X} [IsProbabilityMeasure ν] (hn : ¬ ∃ c, ∀ᵐ x ∂ν, ℓ x = c) :
    Measure.pi (fun _ : Fin (m + 1) => ν) {x | ∃ i j, ℓ (x i) < ℓ (x j)} ≠ 0 := by
  intro h
  have h1 : ∀ᵐ x ∂Measure.pi (fun _ : Fin (m + 1) => ν), ∀ i j, ℓ (x i) ≤ ℓ (x j) := by
    refine (measure_eq_zero_iff_ae_notMem.1 h).mono fun x hx i j => ?_
    by_contra hlt
    exact hx ⟨j, i, not_le.1 hlt⟩
  have mp := (measurePreserving_piFinSuccAbove (fun _ : Fin (m + 1) => ν) 0).symm
  have h2 := Measure.ae_ae_of_ae_prod (mp.quasiMeasurePreserving.ae h1)
  obtain ⟨x, hx⟩ := h2.exists
  refine hn ⟨ℓ x, ?_⟩
  have me := measurePreserving_eval (fun _ : Fin m => ν) ⟨0, hm⟩
  have hq : ∀ᵐ y ∂Measure.pi (fun _ : Fin m => ν), ℓ (y ⟨0, hm⟩) = ℓ x := by
    refine hx.mono fun y hy => ?_
    have a := hy 0 (Fin.succAbove 0 ⟨0, hm⟩)
    have b := hy (Fin.succAbove 0 ⟨0, hm⟩) 0
    simp only [MeasurableEquiv.piFinSuccAbove_symm_apply, Fin.insertNthEquiv_apply, Fin.insertNth_apply_same,
      Fin.insertNth_apply_succAbove] at a b
    exact le_antisymm b a
  have hs : MeasurableSet {y | ℓ y = ℓ x} := hℓ (measurableSet_singleton (ℓ x))
  rw [← me.map_eq, ae_map_iff me.measurable.aemeasurable hs]
  exact hq

/-- The mean over the states at temperature 1. -/
theorem others_mean {T : ℝ} (hμ : μ ≠ 0) (hℓ : Measurable ℓ) (h1 : posterior μ ℓ 1 Set.univ ≠ ⊤) (h2 : posterior μ ℓ T Set.univ ≠ ⊤)
    {f : ℝ → ℝ} (mf : Measurable f) (h0 : ∀ l, 0 ≤ f l) (k : Fin (m + 1)) :
    ∫⁻ x, ENNReal.ofReal (others f (fun i => ℓ (x i)) k) ∂Measure.pi (fun i => equilibrium μ ℓ (oneHot T k i)) =
      m * ∫⁻ x, ENNReal.ofReal (f (ℓ x)) ∂equilibrium μ ℓ 1 := by
  have p1 := equilibrium_probability hμ hℓ h1
  have p2 := equilibrium_probability hμ hℓ h2
  have pk : ∀ k i : Fin (m + 1), IsProbabilityMeasure (equilibrium μ ℓ (oneHot T k i)) := by
    intro k i
    unfold oneHot
    split <;> infer_instance
  have : ∀ x : Fin (m + 1) → X, ENNReal.ofReal (others f (fun i => ℓ (x i)) k) =
      ∑ j : Fin m, ENNReal.ofReal (f (ℓ (x (k.succAbove j)))) := fun x => by
    rw [others_eq, ENNReal.ofReal_sum_of_nonneg fun j _ => h0 _]
  simp only [this]
  have mx : ∀ j : Fin m, Measurable fun x : Fin (m + 1) → X => ENNReal.ofReal (f (ℓ (x (k.succAbove j)))) := fun j =>
    (mf.comp (hℓ.comp (measurable_pi_apply _))).ennreal_ofReal
  rw [lintegral_finsetSum _ fun j _ => mx j]
  have hj : ∀ j : Fin m, ∫⁻ x, ENNReal.ofReal (f (ℓ (x (k.succAbove j)))) ∂Measure.pi (fun i => equilibrium μ ℓ (oneHot T k i)) =
      ∫⁻ x, ENNReal.ofReal (f (ℓ x)) ∂equilibrium μ ℓ 1 := by
    intro j
    have me := measurePreserving_eval (fun i => equilibrium μ ℓ (oneHot T k i)) (k.succAbove j)
    have e : oneHot T k (k.succAbove j) = 1 := if_neg (Fin.succAbove_ne k j)
    rw [e] at me
    exact me.lintegral_comp (f := fun y => ENNReal.ofReal (f (ℓ y))) (mf.comp hℓ).ennreal_ofReal
  rw [Finset.sum_congr rfl fun j _ => hj j, Finset.sum_const, Finset.card_univ, Fintype.card_fin, nsmul_eq_mul]

/-- In equilibrium, the swaps lower the mean over the states at temperature 1. -/
theorem swaps_lower (hm : 1 ≤ m) (hℓ : Measurable ℓ) {f : ℝ → ℝ} (hf : StrictMono f) {C : ℝ} (h0 : ∀ l, 0 ≤ f l)
    (hC : ∀ l, f l ≤ C) {T : ℝ} (hT : 1 < T) (h1 : posterior μ ℓ 1 Set.univ ≠ ⊤) (h2 : posterior μ ℓ T Set.univ ≠ ⊤)
    (hn : ¬ ∃ c, ∀ᵐ x ∂μ, ℓ x = c) (k : Fin (m + 1)) :
    ∫⁻ x, ENNReal.ofReal ((swapStep (codeRate m T) fun i => ℓ (x i))^[m + 1] (others f fun i => ℓ (x i)) k)
        ∂Measure.pi (fun i => equilibrium μ ℓ (oneHot T k i)) <
      m * ∫⁻ x, ENNReal.ofReal (f (ℓ x)) ∂equilibrium μ ℓ 1 := by
  have hμ : μ ≠ 0 := fun h => hn ⟨0, by rw [h]; simp⟩
  have p1 := equilibrium_probability hμ hℓ h1
  have p2 := equilibrium_probability hμ hℓ h2
  have pk : ∀ k i : Fin (m + 1), IsProbabilityMeasure (equilibrium μ ℓ (oneHot T k i)) := by
    intro k i
    unfold oneHot
    split <;> infer_instance
  have mf : Measurable f := hf.monotone.measurable
  set K := (posterior μ ℓ T Set.univ)⁻¹ * posterior μ ℓ 1 Set.univ with hK
  have K0 : K ≠ 0 := mul_ne_zero (ENNReal.inv_ne_zero.2 h2) (posterior_pos hμ hℓ)
  have K1 : K ≠ ⊤ := ENNReal.mul_ne_top (ENNReal.inv_ne_top.2 (posterior_pos hμ hℓ)) h1
  set ν := equilibrium μ ℓ 1 with hν
  have hnν : ¬ ∃ c, ∀ᵐ x ∂ν, ℓ x = c := fun ⟨c, hc⟩ => hn ⟨c, (equilibrium_ac' hℓ h1).ae_le hc⟩
  -- the mean of a symmetric function
  have mean : ∀ h : (Fin (m + 1) → X) → Fin (m + 1) → ℝ, (∀ k, Measurable fun x => h x k) → (∀ x k, 0 ≤ h x k) →
      (∀ x k (e : Equiv.Perm (Fin (m + 1))), h (fun i => x (e i)) k = h x (e k)) → ∀ k,
      ((m : ENNReal) + 1) * ∫⁻ x, ENNReal.ofReal (h x k) ∂Measure.pi (fun i => equilibrium μ ℓ (oneHot T k i)) =
        K * ∫⁻ x, ENNReal.ofReal (∑ k, heat ℓ T (x k) * h x k) ∂Measure.pi (fun _ : Fin (m + 1) => ν) := by
    intro h hmeas hpos hsym k
    have mx : ∀ k, Measurable fun x => ENNReal.ofReal (heat ℓ T (x k)) * ENNReal.ofReal (h x k) := fun k =>
      ((heat_meas hℓ T).comp (measurable_pi_apply k)).ennreal_ofReal.mul (hmeas k).ennreal_ofReal
    have a : ∀ k, ∫⁻ x, ENNReal.ofReal (h x k) ∂Measure.pi (fun i => equilibrium μ ℓ (oneHot T k i)) =
        K * ∫⁻ x, ENNReal.ofReal (heat ℓ T (x k)) * ENNReal.ofReal (h x k) ∂Measure.pi (fun _ : Fin (m + 1) => ν) := by
      intro k
      have mk : Measurable fun x : Fin (m + 1) → X => ENNReal.ofReal (heat ℓ T (x k)) :=
        ((heat_meas hℓ T).comp (measurable_pi_apply k)).ennreal_ofReal
      rw [hot_pi hμ hℓ h1 h2 k, lintegral_withDensity_eq_lintegral_mul _ (mk.const_mul K) (hmeas k).ennreal_ofReal,
        ← lintegral_const_mul _ (mx k)]
      refine lintegral_congr fun x => ?_
      rw [Pi.mul_apply, mul_assoc]
    have b : ∀ k', ∫⁻ x, ENNReal.ofReal (heat ℓ T (x k')) * ENNReal.ofReal (h x k') ∂Measure.pi (fun _ : Fin (m + 1) => ν) =
        ∫⁻ x, ENNReal.ofReal (heat ℓ T (x k)) * ENNReal.ofReal (h x k) ∂Measure.pi (fun _ : Fin (m + 1) => ν) := by
      intro k'
      have hs : ∀ x k (e : Equiv.Perm (Fin (m + 1))), ENNReal.ofReal (h (fun i => x (e i)) k) = ENNReal.ofReal (h x (e k)) :=
        fun x k e => by rw [hsym]
      rw [hot_any (w := fun y => ENNReal.ofReal (heat ℓ T y)) (h := fun x k => ENNReal.ofReal (h x k)) hs k',
        hot_any (w := fun y => ENNReal.ofReal (heat ℓ T y)) (h := fun x k => ENNReal.ofReal (h x k)) hs k]
    have c : ∫⁻ x, ENNReal.ofReal (∑ k, heat ℓ T (x k) * h x k) ∂Measure.pi (fun _ : Fin (m + 1) => ν) =
        ((m : ENNReal) + 1) * ∫⁻ x, ENNReal.ofReal (heat ℓ T (x k)) * ENNReal.ofReal (h x k) ∂Measure.pi (fun _ : Fin (m + 1) => ν) := by
      have : ∀ x : Fin (m + 1) → X, ENNReal.ofReal (∑ k, heat ℓ T (x k) * h x k) =
          ∑ k, ENNReal.ofReal (heat ℓ T (x k)) * ENNReal.ofReal (h x k) := by
        intro x
        have nn : ∀ k ∈ Finset.univ, 0 ≤ heat ℓ T (x k) * h x k := fun k _ => mul_nonneg (Real.exp_pos _).le (hpos x k)
        rw [ENNReal.ofReal_sum_of_nonneg nn]
        exact Finset.sum_congr rfl fun k _ => ENNReal.ofReal_mul (Real.exp_pos _).le
      simp only [this]
      rw [lintegral_finsetSum _ fun k _ => mx k, Finset.sum_congr rfl fun k' _ => b k', Finset.sum_const, Finset.card_univ, Fintype.card_fin, nsmul_eq_mul]
      push_cast
      rfl
    rw [a, c]
    ring
  have mo : ∀ k, Measurable fun x : Fin (m + 1) → X => others f (fun i => ℓ (x i)) k := fun k =>
    (Finset.measurable_sum _ fun j _ => mf.comp (hℓ.comp (measurable_pi_apply j))).sub (mf.comp (hℓ.comp (measurable_pi_apply k)))
  have po : ∀ (x : Fin (m + 1) → X) k, 0 ≤ others f (fun i => ℓ (x i)) k := fun x k => by
    rw [others_eq]
    exact Finset.sum_nonneg fun j _ => h0 _
  have so : ∀ (x : Fin (m + 1) → X) (e : Equiv.Perm (Fin (m + 1))),
      others f (fun i => ℓ (x (e i))) = fun k => others f (fun i => ℓ (x i)) (e k) := by
    intro x e
    funext k
    unfold others
    congr 1
    exact Equiv.sum_comp e fun j => f (ℓ (x j))
  have m1 := mean (fun x k => others f (fun i => ℓ (x i)) k) mo po (fun x k e => congrFun (so x e) k) k
  have m2 := mean (fun x k => (swapStep (codeRate m T) fun i => ℓ (x i))^[m + 1] (others f fun i => ℓ (x i)) k)
    (step_meas T hℓ mo (m + 1)) (fun x k => iterate_nonneg hm (code_bounds hm T) (po x) (m + 1) k) (fun x k e => by
      dsimp only
      rw [so, iterate_perm (codeRate m T) (fun i => ℓ (x i)) (others f fun i => ℓ (x i)) e]) k
  have before := others_mean (k := k) hμ hℓ h1 h2 mf h0
  rw [before] at m1
  have fin : ∫⁻ x, ENNReal.ofReal (f (ℓ x)) ∂ν ≠ ⊤ := by
    refine ne_top_of_le_ne_top (b := ENNReal.ofReal C) ENNReal.ofReal_ne_top ?_
    refine (lintegral_mono fun x => ENNReal.ofReal_le_ofReal (hC (ℓ x))).trans ?_
    simp
  -- the comparison
  have point : ∀ x : Fin (m + 1) → X,
      ∑ k, heat ℓ T (x k) * (swapStep (codeRate m T) fun i => ℓ (x i))^[m + 1] (others f fun i => ℓ (x i)) k ≤
        ∑ k, heat ℓ T (x k) * others f (fun i => ℓ (x i)) k ∧
      ((∃ i j, ℓ (x i) < ℓ (x j)) →
        ∑ k, heat ℓ T (x k) * (swapStep (codeRate m T) fun i => ℓ (x i))^[m + 1] (others f fun i => ℓ (x i)) k <
          ∑ k, heat ℓ T (x k) * others f (fun i => ℓ (x i)) k) := by
    intro x
    have r := rounds_raise hm hT (l := fun i => ℓ (x i)) (g := fun i => f (ℓ (x i)))
      ⟨fun i j h => hf.monotone h, fun i j h => hf h⟩
    have e1 : ∀ k, (swapStep (codeRate m T) fun i => ℓ (x i))^[m + 1] (others f fun i => ℓ (x i)) k =
        ∑ j, f (ℓ (x j)) - (swapStep (codeRate m T) fun i => ℓ (x i))^[m + 1] (fun i => f (ℓ (x i))) k := fun k =>
      iterate_sub (codeRate m T) (fun i => ℓ (x i)) (fun i => f (ℓ (x i))) (∑ j, f (ℓ (x j))) (m + 1) k
    simp only [e1]
    unfold others heat
    simp only [mul_sub, Finset.sum_sub_distrib]
    exact ⟨sub_le_sub_left r.1 _, fun h => sub_lt_sub_left (r.2 h) _⟩
  have ms : Measurable fun x : Fin (m + 1) → X => ∑ k, heat ℓ T (x k) * others f (fun i => ℓ (x i)) k :=
    Finset.measurable_sum _ fun k _ => ((heat_meas hℓ T).comp (measurable_pi_apply k)).mul (mo k)
  have top : ∫⁻ x, ENNReal.ofReal (∑ k, heat ℓ T (x k) * others f (fun i => ℓ (x i)) k) ∂Measure.pi (fun _ : Fin (m + 1) => ν) ≠ ⊤ := by
    intro h
    rw [h, ENNReal.mul_top K0] at m1
    exact absurd m1 (ENNReal.mul_ne_top (by simp) (ENNReal.mul_ne_top (by simp) fin))
  have nonneg : ∀ x : Fin (m + 1) → X,
      0 ≤ ∑ k, heat ℓ T (x k) * (swapStep (codeRate m T) fun i => ℓ (x i))^[m + 1] (others f fun i => ℓ (x i)) k := fun x =>
    Finset.sum_nonneg fun k _ => mul_nonneg (Real.exp_pos _).le (iterate_nonneg hm (code_bounds hm T) (po x) (m + 1) k)
  have lt : ∫⁻ x, ENNReal.ofReal (∑ k, heat ℓ T (x k) *
        (swapStep (codeRate m T) fun i => ℓ (x i))^[m + 1] (others f fun i => ℓ (x i)) k) ∂Measure.pi (fun _ : Fin (m + 1) => ν) <
      ∫⁻ x, ENNReal.ofReal (∑ k, heat ℓ T (x k) * others f (fun i => ℓ (x i)) k) ∂Measure.pi (fun _ : Fin (m + 1) => ν) := by
    refine lintegral_strict_mono_of_ae_le_of_ae_lt_on ms.ennreal_ofReal.aemeasurable ?_
      (Filter.Eventually.of_forall fun x => ENNReal.ofReal_le_ofReal (point x).1) (differ hm hℓ hnν)
      (Filter.Eventually.of_forall fun x hx => ?_)
    · exact ne_top_of_le_ne_top top (lintegral_mono fun x => ENNReal.ofReal_le_ofReal (point x).1)
    · exact (ENNReal.ofReal_lt_ofReal_iff ((nonneg x).trans_lt ((point x).2 hx))).2 ((point x).2 hx)
  have key := ENNReal.mul_lt_mul_right K0 K1 lt
  rw [← m1, ← m2] at key
  exact lt_of_mul_lt_mul_left' key

end

end BB.Lemmas
