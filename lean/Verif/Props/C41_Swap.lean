import Mathlib.MeasureTheory.Measure.Lebesgue.Basic
import Mathlib.Analysis.SpecialFunctions.Log.Basic
import Verif.Lemmas.Samplers
import Verif.Props.C39_Temperatures

/-!
# C41: the acceptance probability of a swap
-/

namespace BB.Props

open BB BB.Lemmas BB.Spec MeasureTheory

variable {S σ E : Type}

/-- The intended acceptance probability of the swap of the states with log-likelihoods `L1`, `L2` at
temperatures `T1`, `T2`. -/
noncomputable def swapProb (T1 T2 L1 L2 : ℝ) : ℝ :=
  min 1 (Real.exp ((1 / T1 - 1 / T2) * (L2 - L1)))

/-- The logarithm of the product of the tempered likelihoods. -/
noncomputable def logTarget (T1 T2 L1 L2 : ℝ) : ℝ := L1 / T1 + L2 / T2

/-- The specification itself is sound: with `swapProb`, whatever the order, the exchange of the two
temperatures is in detailed balance with the product of the tempered likelihoods. -/
theorem swapProb_balance (T1 T2 L1 L2 : ℝ) :
    Real.exp (logTarget T1 T2 L1 L2) * swapProb T1 T2 L1 L2 =
      Real.exp (logTarget T2 T1 L1 L2) * swapProb T2 T1 L1 L2 ∧
    swapProb T1 T2 L1 L2 = swapProb T2 T1 L2 L1 := by
  have e : (1 / T2 - 1 / T1) * (L2 - L1) = -((1 / T1 - 1 / T2) * (L2 - L1)) := by ring
  have d : logTarget T1 T2 L1 L2 + (1 / T1 - 1 / T2) * (L2 - L1) = logTarget T2 T1 L1 L2 := by
    unfold logTarget; ring
  constructor
  · unfold swapProb
    rw [e]
    generalize hx : (1 / T1 - 1 / T2) * (L2 - L1) = x at d
    rcases le_total 0 x with h | h
    · rw [min_eq_left (Real.one_le_exp h), min_eq_right (Real.exp_le_one_iff.2 (by linarith)),
        ← Real.exp_add, mul_one, ← d]
      congr 1; ring
    · rw [min_eq_right (Real.exp_le_one_iff.2 h), min_eq_left (Real.one_le_exp (by linarith)),
        ← Real.exp_add, mul_one, d]
  · unfold swapProb
    congr 2; ring

/-- The probability with which the model accepts the swap of the chains at positions `i` and `j` (the
one at `i` being drawn first): the measure of the random numbers for which the chain at `i` ends up with
the temperature of the other one. -/
noncomputable def acceptProb (cfg : ChainCfg S σ) (s : Samp S σ E) (i j : ℕ) (T : ℝ) : ENNReal :=
  volume {u : ℝ | ∃ h, ∃ c', (ptSwap cfg i j s [⟨0, 0, u, h⟩]).2.1.chains[i]? = some c' ∧ c'.temp = T}

/-- What the code does: the ratio returned by the likelihood is divided by the temperature of the first
chain already. -/
theorem C41_actual (cfg : ChainCfg S σ) (L : S → ℝ)
    (hL : ∀ a b T, ∃ a' b', cfg.llr a b T = (.ok (.fin ((L b - L a) / T)), a', b'))
    (s : Samp S σ E) (i j : ℕ) (hij : i ≠ j) (c1 c2 : Chain S σ E) (h1 : s.chains[i]? = some c1)
    (h2 : s.chains[j]? = some c2) (hT1 : c1.temp ≠ 0) (hT2 : c2.temp ≠ 0)
    (hne : c1.temp ≠ c2.temp) :
    acceptProb cfg s i j c2.temp = ENNReal.ofReal (min 1 (Real.exp
      ((1 / c1.temp - 1 / c2.temp) * ((L c2.cur - L c1.cur) / c1.temp)))) := by
  classical
  have hi : i < s.chains.length := (List.getElem?_eq_some_iff.1 h1).1
  obtain ⟨a', b', hr⟩ := hL c1.cur c2.cur c1.temp
  set p : ℝ := (1 / c1.temp - 1 / c2.temp) * ((L c2.cur - L c1.cur) / c1.temp) with hp
  have hset : {u : ℝ | ∃ h, ∃ c', (ptSwap cfg i j s [⟨0, 0, u, h⟩]).2.1.chains[i]? = some c' ∧
      c'.temp = c2.temp} = Set.Ioo 0 (min 1 (Real.exp p)) := by
    ext u
    rw [Set.mem_ofPred_eq, Set.mem_Ioo]
    have hrun : ∀ h : 0 ≤ u ∧ u < 1, (∃ c', (ptSwap cfg i j s [⟨0, 0, u, h⟩]).2.1.chains[i]? = some c' ∧
        c'.temp = c2.temp) ↔ 0 < u ∧ Real.log u < p := by
      intro h
      unfold ptSwap
      rw [h1, h2]
      simp only
      rw [hr]
      unfold ptDecide
      have h0 : ¬ (c1.temp = 0 ∨ c2.temp = 0) := by tauto
      simp only [h0, if_false]
      by_cases hu : u ≤ 0
      · rw [if_pos hu]
        simp only [ne_eq, hij.symm, not_false_eq_true, List.getElem?_set_ne, List.getElem?_set_self, hi]
        constructor
        · rintro ⟨c', e, e2⟩
          obtain rfl := Option.some.inj e
          exact absurd e2 hne
        · rintro ⟨h3, -⟩; linarith
      · rw [if_neg hu]
        have hg : (swapLogProb c1.temp c2.temp (.fin ((L c2.cur - L c1.cur) / c1.temp))).gtFin
            (Real.log u) ↔ Real.log u < p := Iff.rfl
        by_cases hacc : Real.log u < p
        · rw [if_pos (hg.2 hacc)]
          simp only [ne_eq, hij.symm, not_false_eq_true, List.getElem?_set_ne, List.getElem?_set_self, hi]
          exact ⟨fun _ => ⟨not_le.1 hu, hacc⟩, fun _ => ⟨_, rfl, rfl⟩⟩
        · rw [if_neg (fun h => hacc (hg.1 h))]
          simp only [ne_eq, hij.symm, not_false_eq_true, List.getElem?_set_ne, List.getElem?_set_self, hi]
          constructor
          · rintro ⟨c', e, e2⟩
            obtain rfl := Option.some.inj e
            exact absurd e2 hne
          · rintro ⟨-, h4⟩; exact absurd h4 hacc
    constructor
    · rintro ⟨h, hc⟩
      obtain ⟨h3, h4⟩ := (hrun h).1 hc
      exact ⟨h3, lt_min h.2 ((Real.log_lt_iff_lt_exp h3).1 h4)⟩
    · rintro ⟨h3, h4⟩
      obtain ⟨h5, h6⟩ := lt_min_iff.1 h4
      exact ⟨⟨h3.le, h5⟩, (hrun ⟨h3.le, h5⟩).2 ⟨h3, (Real.log_lt_iff_lt_exp h3).2 h6⟩⟩
  unfold acceptProb
  rw [hset, Real.volume_Ioo, sub_zero]

/-- C41 when the chain drawn first has temperature 1.  Missing with respect to the full property: any
other temperature of the chain drawn first; for it the probability is a different one, see
`C41_false`, `C41_false_order` and `C41_not_balanced`. -/
theorem C41_partial (cfg : ChainCfg S σ) (L : S → ℝ)
    (hL : ∀ a b T, ∃ a' b', cfg.llr a b T = (.ok (.fin ((L b - L a) / T)), a', b'))
    (s : Samp S σ E) (i j : ℕ) (hij : i ≠ j) (c1 c2 : Chain S σ E) (h1 : s.chains[i]? = some c1)
    (h2 : s.chains[j]? = some c2) (hT1 : c1.temp = 1) (hT2 : c2.temp ≠ 0) (hne : c2.temp ≠ 1) :
    acceptProb cfg s i j c2.temp =
      ENNReal.ofReal (swapProb c1.temp c2.temp (L c1.cur) (L c2.cur)) := by
  rw [C41_actual cfg L hL s i j hij c1 c2 h1 h2 (by rw [hT1]; norm_num) hT2 (by rw [hT1]; exact hne.symm)]
  unfold swapProb
  rw [hT1, div_one (L c2.cur - L c1.cur)]

/-! ### The property is false -/

/-- Two chains at temperatures `T1` and `T2`, with log-likelihoods `a` and `b`. -/
noncomputable def exSwapSamp (T1 T2 : ℝ) (a b : ℤ) : Samp (ℤ × ℝ) (List ℤ) Unit :=
  ⟨[Chain.init (a, T1) [] T1 (), Chain.init (b, T2) [] T2 ()], (), 0⟩

theorem exCfgT_L (a b : ℤ × ℝ) (T : ℝ) : ∃ a' b', exCfgT.llr a b T =
    (.ok (.fin (((b.1 : ℝ) - (a.1 : ℝ)) / T)), a', b') := ⟨a, b, rfl⟩

/-- The acceptance probability of the example. -/
theorem exAccept (T1 T2 : ℝ) (a b : ℤ) (h1 : T1 ≠ 0) (h2 : T2 ≠ 0) (hne : T1 ≠ T2) :
    acceptProb exCfgT (exSwapSamp T1 T2 a b) 0 1 T2 = ENNReal.ofReal (min 1 (Real.exp
      ((1 / T1 - 1 / T2) * (((b : ℝ) - a) / T1)))) ∧
    acceptProb exCfgT (exSwapSamp T1 T2 a b) 1 0 T1 = ENNReal.ofReal (min 1 (Real.exp
      ((1 / T2 - 1 / T1) * (((a : ℝ) - b) / T2)))) :=
  ⟨C41_actual exCfgT (fun s => (s.1 : ℝ)) exCfgT_L (exSwapSamp T1 T2 a b) 0 1 (by norm_num) _ _ rfl rfl
      h1 h2 hne,
    C41_actual exCfgT (fun s => (s.1 : ℝ)) exCfgT_L (exSwapSamp T1 T2 a b) 1 0 (by norm_num) _ _ rfl rfl
      h2 h1 hne.symm⟩

/-- C41 is false: temperatures 2 and 4, log-likelihoods 4 and 0; the swap should be accepted with
probability `exp(-1)`, it is with `exp(-1/2)`. -/
theorem C41_false : acceptProb exCfgT (exSwapSamp 2 4 4 0) 0 1 4 = ENNReal.ofReal (Real.exp (-1 / 2)) ∧
    swapProb 2 4 4 0 = Real.exp (-1) ∧
    acceptProb exCfgT (exSwapSamp 2 4 4 0) 0 1 4 ≠ ENNReal.ofReal (swapProb 2 4 4 0) := by
  have h := (exAccept 2 4 4 0 (by norm_num) (by norm_num) (by norm_num)).1
  have e1 : (1 / 2 - 1 / 4 : ℝ) * ((((0 : ℤ) : ℝ) - ((4 : ℤ) : ℝ)) / 2) = -1 / 2 := by norm_num
  rw [e1, min_eq_right (Real.exp_le_one_iff.2 (by norm_num))] at h
  have h2 : swapProb 2 4 4 0 = Real.exp (-1) := by
    unfold swapProb
    rw [show (1 / 2 - 1 / 4 : ℝ) * (0 - 4) = -1 by norm_num,
      min_eq_right (Real.exp_le_one_iff.2 (by norm_num))]
  refine ⟨h, h2, ?_⟩
  rw [h, h2]
  intro he
  rw [ENNReal.ofReal_eq_ofReal_iff (Real.exp_pos _).le (Real.exp_pos _).le, Real.exp_eq_exp] at he
  norm_num at he

/-- C41 is false: the probability depends on which chain is drawn first. -/
theorem C41_false_order : acceptProb exCfgT (exSwapSamp 1 2 2 0) 0 1 2 ≠
    acceptProb exCfgT (exSwapSamp 1 2 2 0) 1 0 1 := by
  obtain ⟨h1, h2⟩ := exAccept 1 2 2 0 (by norm_num) (by norm_num) (by norm_num)
  have e1 : (1 / 1 - 1 / 2 : ℝ) * ((((0 : ℤ) : ℝ) - ((2 : ℤ) : ℝ)) / 1) = -1 := by norm_num
  have e2 : (1 / 2 - 1 / 1 : ℝ) * ((((2 : ℤ) : ℝ) - ((0 : ℤ) : ℝ)) / 2) = -1 / 2 := by norm_num
  rw [e1, min_eq_right (Real.exp_le_one_iff.2 (by norm_num))] at h1
  rw [e2, min_eq_right (Real.exp_le_one_iff.2 (by norm_num))] at h2
  rw [h1, h2]
  intro he
  rw [ENNReal.ofReal_eq_ofReal_iff (Real.exp_pos _).le (Real.exp_pos _).le, Real.exp_eq_exp] at he
  norm_num at he

/-- The probability with which the code swaps, the first of the two chains being either with
probability 1/2. -/
noncomputable def codeProb (T1 T2 L1 L2 : ℝ) : ℝ :=
  (min 1 (Real.exp ((1 / T1 - 1 / T2) * ((L2 - L1) / T1))) +
    min 1 (Real.exp ((1 / T2 - 1 / T1) * ((L1 - L2) / T2)))) / 2

/-- For no two different temperatures (of at least 1) and no two states with different likelihoods is
the swap in detailed balance with the product of the tempered posteriors. -/
theorem C41_not_balanced (T1 T2 L1 L2 : ℝ) (h1 : 1 ≤ T1) (h2 : 1 ≤ T2) (hT : T1 ≠ T2) (hL : L1 ≠ L2) :
    Real.exp (logTarget T1 T2 L1 L2) * codeProb T1 T2 L1 L2 ≠
      Real.exp (logTarget T2 T1 L1 L2) * codeProb T2 T1 L1 L2 := by
  have d : logTarget T1 T2 L1 L2 + (1 / T1 - 1 / T2) * (L2 - L1) = logTarget T2 T1 L1 L2 := by
    unfold logTarget; ring
  set x : ℝ := (1 / T1 - 1 / T2) * (L2 - L1) with hx
  have hx0 : x ≠ 0 := by
    refine mul_ne_zero ?_ (sub_ne_zero.2 hL.symm)
    rw [sub_ne_zero]
    intro h
    exact hT (by simpa using h)
  have e1 : codeProb T1 T2 L1 L2 = (min 1 (Real.exp (x / T1)) + min 1 (Real.exp (x / T2))) / 2 := by
    unfold codeProb
    rw [show (1 / T1 - 1 / T2) * ((L2 - L1) / T1) = x / T1 by rw [hx]; ring,
      show (1 / T2 - 1 / T1) * ((L1 - L2) / T2) = x / T2 by rw [hx]; ring]
  have e2 : codeProb T2 T1 L1 L2 =
      (min 1 (Real.exp (-x / T1)) + min 1 (Real.exp (-x / T2))) / 2 := by
    unfold codeProb
    rw [show (1 / T2 - 1 / T1) * ((L2 - L1) / T2) = -x / T2 by rw [hx]; ring,
      show (1 / T1 - 1 / T2) * ((L1 - L2) / T1) = -x / T1 by rw [hx]; ring, add_comm]
  rw [e1, e2, ← d, Real.exp_add, mul_assoc]
  intro h
  have h := mul_left_cancel₀ (Real.exp_pos _).ne' h
  have hp1 : 0 < T1 := by linarith
  have hp2 : 0 < T2 := by linarith
  -- one of the two temperatures is above 1
  have key : ∀ y : ℝ, 0 < y → Real.exp (-y) < (Real.exp (-y / T1) + Real.exp (-y / T2)) / 2 := by
    intro y hy
    have a1 : -y ≤ -y / T1 := by rw [le_div_iff₀ hp1]; nlinarith
    have a2 : -y ≤ -y / T2 := by rw [le_div_iff₀ hp2]; nlinarith
    have b1 := Real.exp_le_exp.2 a1
    have b2 := Real.exp_le_exp.2 a2
    rcases h1.lt_or_eq with h1' | h1'
    · have : -y < -y / T1 := by rw [lt_div_iff₀ hp1]; nlinarith
      have := Real.exp_lt_exp.2 this
      linarith
    · have h2' : 1 < T2 := lt_of_le_of_ne h2 (by rw [h1']; exact hT)
      have : -y < -y / T2 := by rw [lt_div_iff₀ hp2]; nlinarith
      have := Real.exp_lt_exp.2 this
      linarith
  rcases lt_or_gt_of_ne hx0 with hn | hp
  · have m1 : min 1 (Real.exp (x / T1)) = Real.exp (x / T1) :=
      min_eq_right (Real.exp_le_one_iff.2 (div_nonpos_of_nonpos_of_nonneg hn.le hp1.le))
    have m2 : min 1 (Real.exp (x / T2)) = Real.exp (x / T2) :=
      min_eq_right (Real.exp_le_one_iff.2 (div_nonpos_of_nonpos_of_nonneg hn.le hp2.le))
    have m3 : min 1 (Real.exp (-x / T1)) = 1 :=
      min_eq_left (Real.one_le_exp (div_nonneg (by linarith) hp1.le))
    have m4 : min 1 (Real.exp (-x / T2)) = 1 :=
      min_eq_left (Real.one_le_exp (div_nonneg (by linarith) hp2.le))
    have := key (-x) (by linarith)
    rw [neg_neg] at this
    rw [m1, m2, m3, m4] at h
    linarith
  · have m1 : min 1 (Real.exp (x / T1)) = 1 :=
      min_eq_left (Real.one_le_exp (div_nonneg hp.le hp1.le))
    have m2 : min 1 (Real.exp (x / T2)) = 1 :=
      min_eq_left (Real.one_le_exp (div_nonneg hp.le hp2.le))
    have m3 : min 1 (Real.exp (-x / T1)) = Real.exp (-x / T1) :=
      min_eq_right (Real.exp_le_one_iff.2 (div_nonpos_of_nonpos_of_nonneg (by linarith) hp1.le))
    have m4 : min 1 (Real.exp (-x / T2)) = Real.exp (-x / T2) :=
      min_eq_right (Real.exp_le_one_iff.2 (div_nonpos_of_nonpos_of_nonneg (by linarith) hp2.le))
    have := key x hp
    rw [m1, m2, m3, m4] at h
    have hc : Real.exp x * Real.exp (-x) = 1 := by rw [← Real.exp_add]; simp
    have := mul_lt_mul_of_pos_left this (Real.exp_pos x)
    linarith

/-- C41 applies: temperatures 1 and 2, log-likelihoods 2 and 0. -/
example : acceptProb exCfgT (exSwapSamp 1 2 2 0) 0 1 2 = ENNReal.ofReal (Real.exp (-1)) := by
  have h := C41_partial exCfgT (fun s => (s.1 : ℝ)) exCfgT_L (exSwapSamp 1 2 2 0) 0 1 (by norm_num) _ _ rfl
    rfl rfl (by norm_num [Chain.init]) (by norm_num [Chain.init])
  simp only [Chain.init] at h
  rw [h]
  unfold swapProb
  rw [min_eq_right (Real.exp_le_one_iff.2 (by norm_num))]
  norm_num

end BB.Props
